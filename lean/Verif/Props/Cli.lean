import Verif.Cli
import Verif.Props.Annotate
import Verif.Props.Collisions
import Verif.Props.IndexClass

/-!
# C120 The tool testing labels

`tools/lgr_cli.py -c`: for each label whether it is valid, its disposition with the action that gives it, and its
variants with their types, their dispositions and the actions that give them.
-/

namespace Lgr.Props.C120
open Lgr Cli Repertoire FullEnv

/-! ## Loops -/

/-- The tools write about the labels in their order, up to the first one that raises. -/
theorem each_ok {α β : Type} {f : α → List β × Except Err Unit} {ls : List α} (h : ∀ l ∈ ls, (f l).2 = .ok ()) :
    eachLabel f ls = (ls.flatMap (fun l => (f l).1), .ok ()) := by
  induction ls with
  | nil => rfl
  | cons l ls ih =>
    have h1 : f l = ((f l).1, .ok ()) := by rw [← h l (by simp)]
    unfold eachLabel
    rw [h1, ih (fun x hx => h x (by simp [hx]))]
    simp

theorem each_error {α β : Type} {f : α → List β × Except Err Unit} {pre post : List α} {l : α} {e : Err}
    (h : ∀ x ∈ pre, (f x).2 = .ok ()) (he : (f l).2 = .error e) :
    eachLabel f (pre ++ l :: post) = (pre.flatMap (fun l => (f l).1) ++ (f l).1, .error e) := by
  induction pre with
  | nil =>
    have h1 : f l = ((f l).1, .error e) := by rw [← he]
    simp only [List.nil_append, eachLabel]
    rw [h1]
    simp
  | cons x pre ih =>
    have h1 : f x = ((f x).1, .ok ()) := by rw [← h x (by simp)]
    rw [List.cons_append]
    unfold eachLabel
    rw [h1, ih (fun y hy => h y (by simp [hy]))]
    simp

/-- Either all the labels are written about, or there is a first one that raises. -/
theorem each_split {α β : Type} (f : α → List β × Except Err Unit) (ls : List α) :
    (∀ l ∈ ls, (f l).2 = .ok ()) ∨
    ∃ pre l post e, ls = pre ++ l :: post ∧ (∀ x ∈ pre, (f x).2 = .ok ()) ∧ (f l).2 = .error e := by
  induction ls with
  | nil => left; simp
  | cons l ls ih =>
    rcases hf : (f l).2 with e | u
    · exact .inr ⟨[], l, ls, e, rfl, by simp, hf⟩
    · rcases ih with h | ⟨pre, x, post, e, h1, h2, h3⟩
      · left
        intro y hy
        rcases List.mem_cons.1 hy with rfl | hy
        · exact hf
        · exact h y hy
      · refine .inr ⟨l :: pre, x, post, e, by rw [h1]; rfl, ?_, h3⟩
        intro y hy
        rcases List.mem_cons.1 hy with rfl | hy
        · exact hf
        · exact h2 y hy

/-! ## The actions named -/

/-- `t` names the action at index `idx` among the actions of the LGR followed by the default actions. `-1` is the
index given when a code point is refused: there is no action. -/
inductive Shows (actions : List Action) : Int → Trig → Prop where
  | action (i : Nat) (a : Action) : actions[i]? = some a → Shows actions i (.action i)
  | default (i : Nat) (a : Action) : defaultActions[i]? = some a →
      Shows actions ((actions.length + i : Nat) : Int) (.default i)
  | none : Shows actions (-1) (.action (-1))

/-- An action deciding: its index and its disposition. -/
def Given (actions : List Action) (idx : Int) (s : String) : Prop :=
  ∃ pre a post, actions ++ defaultActions = pre ++ a :: post ∧ idx = (pre.length : Int) ∧ s = a.disp

/-- The name is right except for the first default action. -/
theorem shows_of_ne {actions : List Action} {idx : Int} {s : String} (h : Given actions idx s)
    (hne : idx ≠ actions.length) : Shows actions idx (named actions.length idx) := by
  obtain ⟨pre, a, post, h1, rfl, -⟩ := h
  have hg : (actions ++ defaultActions)[pre.length]? = some a := by rw [h1]; simp
  by_cases hlt : pre.length < actions.length
  · rw [List.getElem?_append_left hlt] at hg
    have : named actions.length (pre.length : Int) = .action pre.length := by
      unfold named
      rw [if_neg (by omega)]
    rw [this]
    exact .action _ a hg
  · have hgt : actions.length < pre.length := by
      have : pre.length ≠ actions.length := by exact_mod_cast hne
      omega
    rw [List.getElem?_append_right (by omega)] at hg
    have : named actions.length (pre.length : Int) = .default ((pre.length - actions.length : Nat) : Int) := by
      unfold named
      rw [if_pos (by omega)]
      congr 1
      omega
    rw [this]
    have h2 : (pre.length : Int) = ((actions.length + (pre.length - actions.length) : Nat) : Int) := by omega
    conv => arg 2; rw [h2]
    exact .default _ a hg

/-- The first default action gives the disposition `invalid`. -/
theorem given_first_default {actions : List Action} {s : String} (h : Given actions actions.length s) :
    s = "invalid" := by
  obtain ⟨pre, a, post, h1, h2, rfl⟩ := h
  have hl : pre.length = actions.length := by exact_mod_cast h2.symm
  have hg : (actions ++ defaultActions)[pre.length]? = some a := by rw [h1]; simp
  rw [hl, List.getElem?_append_right (le_refl _), Nat.sub_self] at hg
  simp [defaultActions] at hg
  rw [← hg]

theorem shows_valid {actions : List Action} {idx : Int} {s : String} (h : Given actions idx s)
    (hs : s ≠ "invalid") : Shows actions idx (named actions.length idx) :=
  shows_of_ne h (fun he => hs (given_first_default (he ▸ h)))

/-- The first default action is named as an action of the LGR, which has none at that index. -/
theorem first_default_named (actions : List Action) :
    Given actions actions.length "invalid" ∧ named actions.length actions.length = .action actions.length ∧
    ¬ Shows actions actions.length (named actions.length actions.length) := by
  refine ⟨⟨actions, _, defaultActions.tail, rfl, rfl, rfl⟩, ?_, ?_⟩
  · unfold named; rw [if_neg (by omega)]
  · unfold named
    rw [if_neg (by omega)]
    generalize hx : (actions.length : Int) = x
    intro h
    generalize hy : Trig.action x = y at h
    cases h with
    | action i a hi =>
      have : i = actions.length := by exact_mod_cast hx.symm
      rw [this] at hi
      simp at hi
    | default i a hi => cases hy
    | none => omega

/-! ## What an item of the listing is -/

theorem eligible_given {env : FullEnv} {r : Repertoire} {actions : List Action} {l : Seq} {b : Bool} {el : Eligible}
    (h : env.testEligible r actions l b = .ok el) :
    el.ok = false ∧ el.disp = some "invalid" ∧ el.idx = -1 ∨
    ∃ s, el.disp = some s ∧ (el.ok = true ↔ s ≠ "invalid") ∧ Given actions el.idx s := by
  unfold testEligible at h
  split at h
  · cases h
  · split at h
    · cases h
    · split at h
      · cases h; exact .inl ⟨rfl, rfl, rfl⟩
      · right
        split at h
        · cases h
        · rename_i d i hd
          unfold testDisposition at hd
          split at hd
          · cases hd
          · obtain ⟨s, rfl, pre, a, post, h1, h2, h3, -⟩ := decides_of_ok hd
            split at h
            · rename_i hs
              cases h
              cases hs
              exact ⟨_, rfl, by simp, pre, a, post, h1, h2, h3⟩
            · rename_i hs
              cases h
              exact ⟨_, rfl, by simpa using hs, pre, a, post, h1, h2, h3⟩

theorem item_given {env : FullEnv} {r : Repertoire} {actions : List Action} {l : Seq} {g : Gen} {it : Item}
    (h : env.itemOf r actions l g = .ok it) :
    it.disp = some "invalid" ∧ it.idx = -1 ∨ ∃ s, it.disp = some s ∧ Given actions it.idx s := by
  unfold itemOf at h
  split at h
  · cases h
  · rename_i el hel
    split at h
    · rename_i hok
      cases h
      rcases eligible_given hel with ⟨-, -, h1⟩ | ⟨s, h1, h2, h3⟩
      · exact .inl ⟨rfl, h1⟩
      · right
        have : s = "invalid" := by
          by_contra hs
          rw [h2.2 hs] at hok
          cases hok
        exact ⟨s, by rw [this], h3⟩
    · split at h
      · cases h
      · rename_i d i hd
        obtain ⟨s, rfl, pre, a, post, h1, h2, h3, -⟩ := decides_of_ok hd
        cases h
        exact .inr ⟨s, rfl, pre, a, post, h1, h2, h3⟩

/-- Every label listed has a disposition given by an action, or is refused. -/
theorem listed_given {env : FullEnv} {r : Repertoire} {actions : List Action} {hasDb : Bool} {o : Options} {l : Seq}
    {its : List Item} (h : env.computeDisposition r actions hasDb o l = .ok its) {it : Item} (hi : it ∈ its) :
    it.disp = some "invalid" ∧ it.idx = -1 ∨ ∃ s, it.disp = some s ∧ Given actions it.idx s := by
  obtain ⟨gs, xs, orig, last, -, -, -, rfl, -, hL, hlast⟩ := compute_split h
  rcases List.mem_append.1 hi with hi | hi
  · obtain ⟨g, -, hg, -⟩ := hL.source it hi
    exact item_given hg
  · rw [List.mem_singleton.1 hi]
    rcases hlast with hlast | ⟨-, -, -, el, hel, h1, h2⟩
    · rcases hL.origSource last hlast with hx | ⟨g, -, hg, -⟩
      · cases hx
      · exact item_given hg
    · rw [h1, h2]
      rcases eligible_given hel with ⟨-, h3, h4⟩ | ⟨s, h3, -, h4⟩
      · exact .inl ⟨h3, h4⟩
      · exact .inr ⟨s, h3, h4⟩

/-- No label listed is invalid when invalid ones are not asked for and the label is eligible. -/
theorem listed_valid {env : FullEnv} {r : Repertoire} {actions : List Action} {hasDb : Bool} {l : Seq}
    {its : List Item} (h : env.computeDisposition r actions hasDb { includeInvalid := false } l = .ok its) {el : Eligible}
    (he : env.testEligible r actions l = .ok el) (hok : el.ok = true) {it : Item} (hi : it ∈ its) :
    it.disp ≠ some "invalid" := by
  obtain ⟨gs, xs, orig, last, -, -, -, rfl, -, hL, hlast⟩ := compute_split h
  rcases List.mem_append.1 hi with hi | hi
  · exact hL.noInvalid rfl it hi
  · rw [List.mem_singleton.1 hi]
    rcases hlast with hlast | ⟨-, -, -, el', hel, h1, h2⟩
    · exact hL.origValid rfl (by simp) last hlast
    · rw [h1]
      rw [he] at hel
      cases hel
      rcases eligible_given he with ⟨h3, -⟩ | ⟨s, h3, h4, -⟩
      · rw [hok] at h3; cases h3
      · rw [h3]
        simpa using h4.1 hok

/-! ## The lines -/

/-- The elements of a set, in some order. -/
structure SetOrder (order : List (Option String) → List (Option String)) : Prop where
  nodup : ∀ l, (order l).Nodup
  mem : ∀ l x, x ∈ order l ↔ x ∈ l

example : SetOrder List.dedup := ⟨List.nodup_dedup, fun _ _ => List.mem_dedup⟩

/-- The line of a label listed. -/
def VariantLine (actions : List Action) (it : Item) (x : Line) : Prop :=
  ∃ ts t, x = .variant it.cps ts it.disp t ∧ ts.Nodup ∧ (∀ s, s ∈ ts ↔ some s ∈ it.types) ∧ Shows actions it.idx t

/-- The lines of a label. -/
inductive Block (env : FullEnv) (r : Repertoire) (actions : List Action) (hasDb invalid : Bool) (l : Seq) :
    List Line → Prop where
  | refused (el : Eligible) : env.testEligible r actions l = .ok el → el.ok = false →
      Block env r actions hasDb invalid l [.validation l false]
  | listed (el : Eligible) (its : List Item) (t : Trig) (xs : List Line) :
      env.testEligible r actions l = .ok el → el.ok = true → Shows actions el.idx t →
      env.computeDisposition r actions hasDb { includeInvalid := invalid } l = .ok its →
      List.Forall₂ (VariantLine actions) its xs →
      Block env r actions hasDb invalid l (.validation l true :: .disposition l el.disp t :: xs)

theorem join_ok {order : List (Option String) → List (Option String)} (ho : SetOrder order) {ts : DispSet}
    (h : none ∉ ts) :
    ∃ ss, joinTypes order ts = .ok ss ∧ ss.Nodup ∧ ∀ s, s ∈ ss ↔ some s ∈ ts := by
  have key : ∀ us : List (Option String), none ∉ us → us.Nodup →
      ∃ ss, Env.mapE (fun t : Option String => match t with | some s => .ok s | none => .error Err.typeError) us = .ok ss ∧
        ss.Nodup ∧ ∀ s, s ∈ ss ↔ some s ∈ us := by
    intro us
    induction us with
    | nil => intro _ _; exact ⟨[], rfl, .nil, by simp⟩
    | cons u us ih =>
      intro h1 h2
      rcases u with _ | s
      · simp at h1
      · obtain ⟨ss, h3, h4, h5⟩ := ih (fun hm => h1 (by simp [hm])) (List.nodup_cons.1 h2).2
        refine ⟨s :: ss, ?_, ?_, ?_⟩
        · unfold Env.mapE; simp only; rw [h3]
        · refine List.nodup_cons.2 ⟨fun hm => (List.nodup_cons.1 h2).1 ((h5 s).1 hm), h4⟩
        · intro s'
          simp [h5]
  obtain ⟨ss, h1, h2, h3⟩ := key (order ts) (fun hm => h ((ho.mem _ _).1 hm)) (ho.nodup _)
  exact ⟨ss, h1, h2, fun s => by rw [h3, ho.mem]⟩

/-! A variant mapping without type adds no type (`lgr/core.py` 1830-1833). -/

theorem varPerms_typed {env : FullEnv} {hide first : Bool} {f : ScriptFilter} {pfx rest : Seq} {vs : List Variant}
    {ps : List Perm} (h : env.varPerms hide first f pfx rest vs = .ok ps) : ∀ p ∈ ps, none ∉ p.disp := by
  induction vs generalizing ps with
  | nil => cases h; simp
  | cons v vs ih =>
    unfold varPerms at h
    split at h
    · cases h
    · exact ih h
    · split at h
      · cases h
      · exact ih h
      · split at h
        · cases h
        · rename_i l hl
          cases h
          intro p hp
          rcases List.mem_cons.1 hp with rfl | hp
          · simp
          · exact ih hl p hp

theorem charPerms_typed {env : FullEnv} {hide first : Bool} {f : ScriptFilter} {pfx rest : Seq} {c : CharObj}
    {ps : List Perm} (h : env.charPerms hide first f pfx rest c = .ok ps) : ∀ p ∈ ps, none ∉ p.disp := by
  unfold charPerms at h
  split at h
  · cases h
  · rename_i l hl
    have h1 := varPerms_typed hl
    simp only [Except.ok.injEq] at h
    rw [← h]
    split
    · intro p hp
      rcases List.mem_cons.1 hp with rfl | hp
      · simp
      · exact h1 p hp
    · exact h1

theorem flat_forall {α β : Type} {f : α → Except Err (List β)} {P : β → Prop} {l : List α} {bs : List β}
    (h : flatMapE f l = .ok bs) (hf : ∀ a ∈ l, ∀ ys, f a = .ok ys → ∀ y ∈ ys, P y) : ∀ y ∈ bs, P y := by
  induction l generalizing bs with
  | nil => cases h; simp
  | cons a l ih =>
    unfold flatMapE at h
    split at h
    · cases h
    · rename_i b hb
      split at h
      · cases h
      · rename_i bs' hbs
        cases h
        intro y hy
        rcases List.mem_append.1 hy with hy | hy
        · exact hf a (by simp) b hb y hy
        · exact ih hbs (fun a ha => hf a (by simp [ha])) y hy

theorem genLoop_typed {env : FullEnv} {r : Repertoire} {hide : Bool} : ∀ (fuel : Nat) {first : Bool} {f : ScriptFilter}
    {pfx : Seq} {hasVar : Bool} {l : Seq} {gs : List Gen},
    env.genLoop r hide fuel first f pfx hasVar l = .ok gs → ∀ g ∈ gs, none ∉ g.disp
  | fuel, first, f, pfx, hasVar, [], gs, h => by
    cases fuel <;> (simp only [genLoop, Except.ok.injEq] at h; rw [← h]; simp)
  | 0, first, f, pfx, hasVar, x :: xs, gs, h => by
    simp only [genLoop, Except.ok.injEq] at h; rw [← h]; simp
  | fuel + 1, first, f, pfx, hasVar, x :: xs, gs, h => by
    simp only [genLoop] at h
    split at h
    · cases h
    · rename_i cs hcs
      refine flat_forall h ?_
      intro c hc ys hys
      split at hys
      · cases hys
      · rename_i perms hperms
        have hp := charPerms_typed hperms
        split at hys
        · refine flat_forall hys ?_
          intro p hpm zs hzs
          split at hzs
          · cases hzs
          · rename_i gs' hgs'
            cases hzs
            intro y hy
            obtain ⟨g, hg, rfl⟩ := List.mem_map.1 hy
            have h1 := genLoop_typed fuel hgs' g hg
            have h2 := hp p hpm
            simp [Perm.combine, h1, h2]
        · split at hys
          · cases hys
            intro y hy
            obtain ⟨p, hpm, rfl⟩ := List.mem_map.1 hy
            exact hp p hpm
          · cases hys; simp

theorem item_types {env : FullEnv} {r : Repertoire} {actions : List Action} {l : Seq} {g : Gen} {it : Item}
    (h : env.itemOf r actions l g = .ok it) : it.types = g.disp := by
  unfold itemOf at h
  split at h
  · cases h
  · split at h
    · cases h; rfl
    · split at h
      · cases h
      · cases h; rfl

/-- All the types of the labels listed are strings. -/
theorem listed_typed {env : FullEnv} {r : Repertoire} {actions : List Action} {hasDb : Bool} {o : Options} {l : Seq}
    {its : List Item} (h : env.computeDisposition r actions hasDb o l = .ok its) {it : Item} (hi : it ∈ its) :
    none ∉ it.types := by
  obtain ⟨gs, xs, orig, last, hgs, -, -, rfl, -, hL, hlast⟩ := compute_split h
  have hg := genLoop_typed _ hgs
  rcases List.mem_append.1 hi with hi | hi
  · obtain ⟨g, h1, h2, -⟩ := hL.source it hi
    rw [item_types h2]
    exact hg g h1
  · rw [List.mem_singleton.1 hi]
    rcases hlast with hlast | ⟨-, h1, -⟩
    · rcases hL.origSource last hlast with hx | ⟨g, h1, h2, -⟩
      · cases hx
      · rw [item_types h2]
        exact hg g h1
    · rw [h1]; simp

theorem items_ok {order : List (Option String) → List (Option String)} (ho : SetOrder order) {actions : List Action}
    {its : List Item} (ht : ∀ it ∈ its, none ∉ it.types)
    (hs : ∀ it ∈ its, Shows actions it.idx (named actions.length it.idx)) :
    ∃ xs, cliItems order actions.length its = (xs, .ok ()) ∧ List.Forall₂ (VariantLine actions) its xs := by
  induction its with
  | nil => exact ⟨[], rfl, .nil⟩
  | cons it its ih =>
    obtain ⟨xs, h1, h2⟩ := ih (fun x hx => ht x (by simp [hx])) (fun x hx => hs x (by simp [hx]))
    obtain ⟨ss, h3, h4, h5⟩ := join_ok ho (ht it (by simp))
    refine ⟨.variant it.cps ss it.disp (named actions.length it.idx) :: xs, ?_, .cons ?_ h2⟩
    · unfold cliItems
      rw [h3, h1]
    · exact ⟨ss, _, rfl, h4, h5, hs it (by simp)⟩

/-- The lines of a label; with `-i`, where no variant label is refused by the first default action. Missing: that
(`first_default_wrong`). -/
theorem block_partial {env : FullEnv} {r : Repertoire} {actions : List Action} {hasDb invalid : Bool}
    {order : List (Option String) → List (Option String)} (ho : SetOrder order) {l : Seq} {el : Eligible}
    (he : env.testEligible r actions l = .ok el)
    (hd : el.ok = true → ∃ its, env.computeDisposition r actions hasDb { includeInvalid := invalid } l = .ok its ∧
      (invalid = true → ∀ it ∈ its, it.idx ≠ actions.length)) :
    ∃ xs, cliLabel env r actions hasDb order invalid l = (xs, .ok ()) ∧ Block env r actions hasDb invalid l xs := by
  unfold cliLabel
  rw [he]
  simp only
  cases hok : el.ok with
  | false =>
    simp only [Bool.false_eq_true, if_false]
    exact ⟨_, rfl, .refused el he hok⟩
  | true =>
    simp only [if_true]
    obtain ⟨its, h1, h3⟩ := hd hok
    rw [h1]
    simp only
    have hs : ∀ it ∈ its, Shows actions it.idx (named actions.length it.idx) := by
      intro it hi
      rcases listed_given h1 hi with ⟨-, h4⟩ | ⟨s, h4, h5⟩
      · rw [h4]
        have : named actions.length (-1) = .action (-1) := by unfold named; rw [if_neg (by omega)]
        rw [this]
        exact .none
      · cases invalid with
        | true => exact shows_of_ne h5 (h3 rfl it hi)
        | false =>
          refine shows_valid h5 ?_
          rintro rfl
          exact listed_valid h1 he hok hi h4
    obtain ⟨xs, h4, h5⟩ := items_ok ho (fun it hi => listed_typed h1 hi) hs
    rw [h4]
    refine ⟨_, rfl, .listed el its _ xs he hok ?_ h1 h5⟩
    rcases eligible_given he with ⟨h6, -⟩ | ⟨s, -, h6, h7⟩
    · rw [hok] at h6; cases h6
    · exact shows_valid h7 (h6.1 hok)

/-- Without `-i`, testing a label fails only when `test_label_eligible` or `compute_label_disposition` does: all the
lines are written otherwise. -/
theorem block_without_invalid {env : FullEnv} {r : Repertoire} {actions : List Action} {hasDb : Bool}
    {order : List (Option String) → List (Option String)} (ho : SetOrder order) {l : Seq} {el : Eligible}
    (he : env.testEligible r actions l = .ok el)
    (hd : el.ok = true → ∃ its, env.computeDisposition r actions hasDb { includeInvalid := false } l = .ok its) :
    ∃ xs, cliLabel env r actions hasDb order false l = (xs, .ok ()) ∧ Block env r actions hasDb false l xs :=
  block_partial ho he (fun h => by obtain ⟨its, h1⟩ := hd h; exact ⟨its, h1, by simp⟩)

/-- The lines of a label when the rules are there: no label of at most 63 code points, not empty, makes the tool
raise. -/
theorem block_total {env : FullEnv} {r : Repertoire} (h : WF r) (hr : RulesDefined env.toEnv r) {actions : List Action}
    (ha : ∀ l, C20.ActionRulesDefined env actions l) {order : List (Option String) → List (Option String)}
    (ho : SetOrder order) {l : Seq} (hl : l ≠ []) (hlen : l.length ≤ 63) :
    ∃ xs, cliLabel env r actions true order false l = (xs, .ok ()) ∧ Block env r actions true false l xs := by
  obtain ⟨el, he⟩ := C25.testEligible_defined h hr ha false hl
  exact block_without_invalid ho he (fun _ => C25.listing_total h hr ha _ hl hlen)

/-- A label is reported valid iff it is eligible, whatever happens next. -/
theorem validation_exact {env : FullEnv} {r : Repertoire} {actions : List Action} {hasDb invalid : Bool}
    {order : List (Option String) → List (Option String)} {l : Seq} {el : Eligible}
    (he : env.testEligible r actions l = .ok el) (b : Bool) :
    Line.validation l b ∈ (cliLabel env r actions hasDb order invalid l).1 ↔ b = el.ok := by
  have hn : ∀ n its, Line.validation l b ∉ (cliItems order n its).1 := by
    intro n its
    induction its with
    | nil => simp [cliItems]
    | cons it its ih =>
      unfold cliItems
      split
      · simp
      · simp [ih]
  unfold cliLabel
  rw [he]
  simp only
  cases hok : el.ok with
  | false => simp
  | true =>
    simp only [if_true]
    split
    · simp
    · simp [hn]

/-- Tool on a list of labels: the lines of each label, in order. -/
theorem run_partial {env : FullEnv} {r : Repertoire} {actions : List Action} {hasDb invalid : Bool}
    {order : List (Option String) → List (Option String)} (ho : SetOrder order) {labels : List Seq}
    (hd : ∀ l ∈ labels, ∃ el, env.testEligible r actions l = .ok el ∧
      (el.ok = true → ∃ its, env.computeDisposition r actions hasDb { includeInvalid := invalid } l = .ok its ∧
        (invalid = true → ∀ it ∈ its, it.idx ≠ actions.length))) :
    ∃ bs, cliRun env r actions hasDb order invalid labels = (bs.flatten, .ok ()) ∧
      List.Forall₂ (Block env r actions hasDb invalid) labels bs := by
  have h1 : ∀ l ∈ labels, ∃ xs, cliLabel env r actions hasDb order invalid l = (xs, .ok ()) ∧
      Block env r actions hasDb invalid l xs := by
    intro l hl
    obtain ⟨el, h1, h2⟩ := hd l hl
    exact block_partial ho h1 h2
  refine ⟨labels.map (fun l => (cliLabel env r actions hasDb order invalid l).1), ?_, ?_⟩
  · unfold cliRun
    rw [each_ok, List.flatMap_def]
    intro l hl
    obtain ⟨xs, h2, -⟩ := h1 l hl
    rw [h2]
  · rw [List.forall₂_map_right_iff, List.forall₂_same]
    intro l hl
    obtain ⟨xs, h2, h3⟩ := h1 l hl
    rw [h2]
    exact h3

/-! ## Examples and violations -/

def env1 : FullEnv := ⟨⟨fun _ _ _ _ => .ok true⟩, fun _ _ => .ok true, fun _ => "Latn"⟩

/-- a, b with the typed variant b, blocked, of a. -/
def rep (t : Option String) : Repertoire :=
  ⟨[], [(1, [{ cp := [1], vars := [([2], [{ cp := [2], type := t }])] }]), (2, [{ cp := [2] }])]⟩

example : cliRun env1 (rep (some "blocked")) [] true List.dedup false [[1], [3]] =
    ([.validation [1] true, .disposition [1] (some "valid") (.default 4),
      .variant [2] ["blocked"] (some "blocked") (.default 1), .variant [1] [] (some "valid") (.default 4),
      .validation [3] false], .ok ()) := by decide +kernel

example : (cliRun env1 (rep none) [] true List.dedup false [[1]]).1 =
    [.validation [1] true, .disposition [1] (some "valid") (.default 4),
      .variant [2] [] (some "valid") (.default 4), .variant [1] [] (some "valid") (.default 4)] := by decide +kernel

/-- **C120** is violated: with `-i`, a variant label refused by the first default action is said to be refused by an
action that the LGR does not have. -/
theorem first_default_wrong : ∃ (env : FullEnv) (r : Repertoire) (l v : Seq),
    ∃ its, env.computeDisposition r [] true { includeInvalid := true } l = .ok its ∧
    (∃ it ∈ its, it.cps = v ∧ it.idx = 0 ∧ it.disp = some "invalid") ∧
    ∃ xs, cliRun env r [] true List.dedup true [l] = (xs, .ok ()) ∧
      .variant v ["invalid"] (some "invalid") (.action 0) ∈ xs ∧ ¬ Shows [] 0 (.action 0) := by
  refine ⟨env1, rep (some "invalid"), [1], [2], _, rfl, by decide +kernel, _, rfl, by decide +kernel, ?_⟩
  intro h
  exact (first_default_named []).2.2 h

/-- An empty line ends the tool. -/
theorem empty_line (env : FullEnv) (r : Repertoire) (actions : List Action) (hasDb invalid : Bool)
    (order : List (Option String) → List (Option String)) (ls : List Seq) :
    cliRun env r actions hasDb order invalid ([] :: ls) = ([], .error (.invalidParameter "label")) := rfl

end Lgr.Props.C120
