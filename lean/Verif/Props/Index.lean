import Verif.Props.Eligibility
import Mathlib.Data.List.Lex
import Mathlib.Order.Bounds.Basic

/-!
# C16, C17: partitions and index labels
-/

namespace Lgr.Props
open Repertoire

theorem partitionsLoop_spec {env : Env} {label pfx : Seq}
    {rec : Seq → Seq → Except Err (List (List CharObj))} :
    ∀ (cs : List CharObj) (qs : List (List CharObj)), cs.Nodup →
      (∀ l p ps, rec l p = .ok ps → ps.Nodup) →
      env.partitionsLoop label pfx rec cs = .ok qs →
      qs.Nodup ∧ ∀ q, q ∈ qs ↔ ∃ c ∈ cs, c.cp <+: label ∧
        env.testChar c (pfx ++ label) pfx.length = .ok true ∧
        ((c.len < label.length ∧ ∃ ps, rec (label.drop c.len) (pfx ++ c.cp) = .ok ps ∧
            ∃ p ∈ ps, q = c :: p) ∨ (¬ c.len < label.length ∧ q = [c])) := by
  intro cs
  induction cs with
  | nil => intro qs _ _ he; simp [Env.partitionsLoop] at he; subst he; simp
  | cons c cs ih =>
    intro qs hn hrec he
    obtain ⟨hcn, hn⟩ := List.nodup_cons.1 hn
    unfold Env.partitionsLoop at he
    by_cases hp : c.cp <+: label
    · have hp' := (CharObj.isPrefixOf_iff c label).2 hp
      simp only [hp', Bool.not_true, Bool.false_eq_true, if_false] at he
      cases ht : env.testChar c (pfx ++ label) pfx.length with
      | error e => simp [ht] at he
      | ok b =>
        cases b with
        | false =>
          simp only [ht] at he
          obtain ⟨h1, h2⟩ := ih qs hn hrec he
          refine ⟨h1, fun q => ?_⟩
          rw [h2]
          simp only [List.mem_cons, exists_eq_or_imp, ht]
          simp
        | true =>
          simp only [ht] at he
          by_cases hl : c.len < label.length
          · rw [if_pos hl] at he
            cases hr : rec (label.drop c.len) (pfx ++ c.cp) with
            | error e => simp [hr] at he
            | ok ps =>
              simp only [hr] at he
              cases hq : env.partitionsLoop label pfx rec cs with
              | error e => simp [hq] at he
              | ok qs' =>
                simp [hq] at he
                subst he
                obtain ⟨h1, h2⟩ := ih qs' hn hrec hq
                refine ⟨?_, ?_⟩
                · rw [List.nodup_append]
                  refine ⟨(hrec _ _ _ hr).map (fun a b h => by simpa using h), h1, ?_⟩
                  intro a ha b hb hab
                  subst hab
                  obtain ⟨p, _, rfl⟩ := List.mem_map.1 ha
                  obtain ⟨d, hd, _, _, h⟩ := (h2 _).1 hb
                  rcases h with ⟨_, _, _, _, _, h⟩ | ⟨_, h⟩
                  · simp at h; exact hcn (h.1 ▸ hd)
                  · simp at h; exact hcn (h.1 ▸ hd)
                · intro q
                  rw [List.mem_append, h2]
                  simp only [List.mem_cons, exists_eq_or_imp, hp, ht, hl, hr, true_and, not_true,
                    false_and, or_false, List.mem_map, Except.ok.injEq, exists_eq_left']
                  apply or_congr_left
                  constructor
                  · rintro ⟨p, h1, h2⟩; exact ⟨p, h1, h2.symm⟩
                  · rintro ⟨p, h1, h2⟩; exact ⟨p, h1, h2.symm⟩
          · rw [if_neg hl] at he
            cases hq : env.partitionsLoop label pfx rec cs with
            | error e => simp [hq] at he
            | ok qs' =>
              simp [hq] at he
              subst he
              obtain ⟨h1, h2⟩ := ih qs' hn hrec hq
              refine ⟨?_, ?_⟩
              · rw [List.nodup_cons]
                refine ⟨?_, h1⟩
                intro hb
                obtain ⟨d, hd, _, _, h⟩ := (h2 _).1 hb
                rcases h with ⟨_, _, _, _, _, h⟩ | ⟨_, h⟩
                · simp at h; exact hcn (h.1 ▸ hd)
                · simp at h; exact hcn (h ▸ hd)
              · intro q
                rw [List.mem_cons, h2]
                simp only [List.mem_cons, exists_eq_or_imp, hp, ht, hl, true_and, false_and,
                  false_or, not_false_eq_true]
    · have hp' : c.isPrefixOf label = false := by
        rw [Bool.eq_false_iff, Ne, CharObj.isPrefixOf_iff]; exact hp
      simp only [hp', Bool.not_false, if_true] at he
      obtain ⟨h1, h2⟩ := ih qs hn hrec he
      refine ⟨h1, fun q => ?_⟩
      rw [h2]
      simp only [List.mem_cons, exists_eq_or_imp, hp, false_and, false_or]

theorem partitionsAux_nodup {env : Env} {r : Repertoire} (h : WF r) (fuel : Nat) :
    ∀ (label pfx : Seq) (ps : List (List CharObj)),
      env.partitionsAux r fuel label pfx = .ok ps → ps.Nodup := by
  induction fuel with
  | zero =>
    intro label pfx ps he
    cases label <;> simp [Env.partitionsAux] at he
    subst he; simp
  | succ fuel ih =>
    intro label pfx ps he
    cases label with
    | nil => simp [Env.partitionsAux] at he
    | cons x xs =>
      unfold Env.partitionsAux at he
      cases hc : r.charsFromPrefix x with
      | error e => simp [hc] at he; subst he; simp
      | ok cs =>
        simp only [hc] at he
        exact (partitionsLoop_spec cs ps (charsFromPrefix_ok h hc).2.2.of_map
          (fun l p ps h => ih l p ps h) he).1

theorem partitionsAux_spec {env : Env} {r : Repertoire} (h : WF r) (fuel : Nat) :
    ∀ (label pfx : Seq) (ps : List (List CharObj)), label ≠ [] → label.length ≤ fuel →
      env.partitionsAux r fuel label pfx = .ok ps →
      ∀ q, q ∈ ps ↔ SegFrom env r (pfx ++ label) pfx.length q := by
  induction fuel with
  | zero => intro label pfx ps hne hl; simp at hl; exact absurd hl hne
  | succ fuel ih =>
    intro label pfx ps hne hl he q
    cases label with
    | nil => exact absurd rfl hne
    | cons x xs =>
      have hdrop : (pfx ++ (x :: xs)).drop pfx.length = x :: xs := List.drop_left
      have hstart : ∀ d, MatchesAt r (pfx ++ (x :: xs)) pfx.length d → ∃ t, d.cp = x :: t := by
        rintro d ⟨hg, hp⟩
        rw [hdrop] at hp
        cases hd : d.cp with
        | nil => exact absurd hd (getChar_ne_nil hg)
        | cons y t =>
          rw [hd] at hp
          obtain ⟨u, hu⟩ := hp
          simp at hu
          exact ⟨t, by rw [hu.1]⟩
      have hqne : SegFrom env r (pfx ++ (x :: xs)) pfx.length q → ∃ c p, q = c :: p := by
        intro hs
        cases q with
        | nil => rw [segFrom_nil, hdrop] at hs; simp at hs
        | cons c p => exact ⟨c, p, rfl⟩
      unfold Env.partitionsAux at he
      cases hc : r.charsFromPrefix x with
      | error e =>
        simp [hc] at he
        subst he
        simp only [List.not_mem_nil, false_iff]
        intro hs
        obtain ⟨c, p, rfl⟩ := hqne hs
        have hm := (segFrom_cons.1 hs).1
        exact charsFromPrefix_error h hc hm.1 (hstart c hm)
      | ok cs =>
        simp only [hc] at he
        obtain ⟨hmem, -, hnd⟩ := charsFromPrefix_ok h hc
        rw [(partitionsLoop_spec cs ps hnd.of_map (fun l p ps h => partitionsAux_nodup ‹_› fuel l p ps h) he).2]
        constructor
        · rintro ⟨c, hcm, hp, ht, hor⟩
          have hg := ((hmem c).1 hcm).1
          have hm : MatchesAt r (pfx ++ x :: xs) pfx.length c := ⟨hg, by rw [hdrop]; exact hp⟩
          have hcl : 0 < c.len := List.length_pos_iff.2 (getChar_ne_nil hg)
          have htake : c.cp ++ (x :: xs).drop c.len = x :: xs := by
            obtain ⟨u, hu⟩ := hp
            rw [← hu, CharObj.len, List.drop_left]
          rcases hor with ⟨hlt, ps', hr, p, hpm, rfl⟩ | ⟨hge, rfl⟩
          · refine segFrom_cons.2 ⟨hm, testContext_true.1 ht, ?_⟩
            have := (ih _ _ ps' (by rw [Ne, List.drop_eq_nil_iff]; omega) (by
              rw [List.length_drop]; simp only [List.length_cons] at hl ⊢; omega) hr p).1 hpm
            rw [List.append_assoc, htake, List.length_append] at this
            exact this
          · refine segFrom_cons.2 ⟨hm, testContext_true.1 ht, segFrom_nil.2 ?_⟩
            rw [← List.drop_drop, hdrop, List.drop_eq_nil_iff]; omega
        · intro hs
          obtain ⟨c, p, rfl⟩ := hqne hs
          obtain ⟨hm, hctx, hs'⟩ := segFrom_cons.1 hs
          have hp : c.cp <+: x :: xs := by rw [← hdrop]; exact hm.2
          have hcm : c ∈ cs := (hmem c).2 ⟨hm.1, hstart c hm⟩
          have hcl : 0 < c.len := List.length_pos_iff.2 (getChar_ne_nil hm.1)
          have htake : c.cp ++ (x :: xs).drop c.len = x :: xs := by
            obtain ⟨u, hu⟩ := hp
            rw [← hu, CharObj.len, List.drop_left]
          refine ⟨c, hcm, hp, testContext_true.2 hctx, ?_⟩
          by_cases hlt : c.len < (x :: xs).length
          · left
            -- the recursive call was made, hence returned a list
            have hrec : ∀ (cs : List CharObj) ps, c ∈ cs →
                env.partitionsLoop (x :: xs) pfx (fun l p => env.partitionsAux r fuel l p) cs = .ok ps →
                ∃ ps', env.partitionsAux r fuel ((x :: xs).drop c.len) (pfx ++ c.cp) = .ok ps' := by
              intro cs
              induction cs with
              | nil => intro ps hh; simp at hh
              | cons d cs ihc =>
                intro ps hh hl
                unfold Env.partitionsLoop at hl
                rcases List.mem_cons.1 hh with rfl | hh
                · rw [if_neg (by simp [(CharObj.isPrefixOf_iff c (x :: xs)).2 hp]),
                    show env.testChar c (pfx ++ x :: xs) pfx.length = .ok true from
                      testContext_true.2 hctx] at hl
                  simp only [if_pos hlt] at hl
                  cases hr : env.partitionsAux r fuel ((x :: xs).drop c.len) (pfx ++ c.cp) with
                  | error e => rw [hr] at hl; simp at hl
                  | ok ps' => exact ⟨ps', rfl⟩
                · split at hl
                  · exact ihc ps hh hl
                  · split at hl
                    · simp at hl
                    · exact ihc ps hh hl
                    · split at hl
                      · split at hl
                        · simp at hl
                        · split at hl
                          · simp at hl
                          · rename_i h'; exact ihc _ hh h'
                      · split at hl
                        · simp at hl
                        · rename_i h'; exact ihc _ hh h'
            obtain ⟨ps', hr⟩ := hrec cs ps hcm he
            refine ⟨hlt, ps', hr, p, ?_, rfl⟩
            rw [ih _ _ ps' (by rw [Ne, List.drop_eq_nil_iff]; omega) (by
              rw [List.length_drop]; simp only [List.length_cons] at hl ⊢; omega) hr p,
              List.append_assoc, htake, List.length_append]
            exact hs'
          · right
            refine ⟨hlt, ?_⟩
            cases p with
            | nil => rfl
            | cons d p =>
              exfalso
              obtain ⟨hm2, -, -⟩ := segFrom_cons.1 hs'
              have h0 : (pfx ++ x :: xs).drop (pfx.length + c.len) = [] := by
                rw [← List.drop_drop, hdrop, List.drop_eq_nil_iff]; omega
              have h2 := hm2.2
              rw [h0, List.prefix_nil] at h2
              exact getChar_ne_nil hm2.1 h2

end Lgr.Props

namespace Lgr.Props.C16
open Repertoire

/-- The enumerated partitions of a non-empty label are exactly its segmentations, each once. -/
theorem partitions_exact {env : Env} {r : Repertoire} (h : WF r) {label : Seq} (hl : label ≠ [])
    {ps : List (List CharObj)} (he : env.partitions r label = .ok ps) :
    ps.Nodup ∧ ∀ cs, cs ∈ ps ↔ Segmentation env r label cs := by
  refine ⟨partitionsAux_nodup h _ _ _ _ he, fun cs => ?_⟩
  rw [partitionsAux_spec h _ label [] ps hl (le_refl _) he, ← segFrom_zero]
  simp

end Lgr.Props.C16

namespace Lgr.Props
open Repertoire

/-! ## Specification of the index label -/

/-- The code points that may stand for character `c` placed between `pre` and `post`: its own, and
those of each variant whose context is valid once put in place. -/
def Choices (env : Env) (pre : Seq) (c : CharObj) (post : Seq) : Set Seq :=
  { x | x = c.cp ∨ ∃ v ∈ c.getVariants, v.cp = x ∧
      CtxHolds env v.whenR v.notWhenR v.cp (pre ++ v.cp ++ post) pre.length }

/-- `i` is the concatenation of the least choice of each character of `cs`, which follow `pre`. -/
inductive PartIndex (env : Env) : Seq → List CharObj → Seq → Prop where
  | nil (pre) : PartIndex env pre [] []
  | cons {pre c cs m t} : IsLeast (Choices env pre c (cs.flatMap CharObj.cp)) m →
      PartIndex env (pre ++ c.cp) cs t → PartIndex env pre (c :: cs) (m ++ t)

theorem partIndex_unique {env : Env} {pre cs i j} (h1 : PartIndex env pre cs i)
    (h2 : PartIndex env pre cs j) : i = j := by
  induction h1 generalizing j with
  | nil pre => cases h2; rfl
  | cons hm _ ih => cases h2 with | cons hm2 ht => rw [hm.unique hm2, ih ht]

theorem pyMin_isLeast {l : List Seq} {m : Seq} (h : Env.pyMin l = .ok m) :
    IsLeast { x | x ∈ l } m := by
  cases l with
  | nil => simp [Env.pyMin] at h
  | cons x l =>
    simp [Env.pyMin] at h
    subst h
    clear * -
    induction l generalizing x with
    | nil => exact ⟨by simp, fun y hy => by simp at hy; simp [hy]⟩
    | cons y l ih =>
      obtain ⟨h1, h2⟩ := ih (min x y)
      refine ⟨?_, ?_⟩
      · simp only [List.foldl_cons, Set.mem_setOf_eq, List.mem_cons] at h1 ⊢
        rcases h1 with h1 | h1
        · rw [h1]; rcases min_choice x y with h | h <;> simp [h]
        · exact Or.inr (Or.inr h1)
      · intro z hz
        simp only [Set.mem_setOf_eq, List.mem_cons] at hz
        have hmin : l.foldl min (min x y) ≤ min x y := h2 (by simp)
        rcases hz with rfl | rfl | hz
        · exact hmin.trans (min_le_left _ _)
        · exact hmin.trans (min_le_right _ _)
        · exact h2 (by simp [hz])

theorem validVarCps_mem {env : Env} {pre suf : Seq} {idx : Nat} :
    ∀ (vs : List Variant) (l : List Seq), env.validVarCps pre suf idx vs = .ok l →
      ∀ x, x ∈ l ↔ ∃ v ∈ vs, v.cp = x ∧
        CtxHolds env v.whenR v.notWhenR v.cp (pre ++ v.cp ++ suf) idx
  | [], l, he, x => by simp [Env.validVarCps] at he; simp [he]
  | v :: vs, l, he, x => by
    unfold Env.validVarCps at he
    cases ht : env.testVar v (pre ++ v.cp ++ suf) idx with
    | error e => rw [ht] at he; simp at he
    | ok b =>
      simp only [ht] at he
      cases hr : env.validVarCps pre suf idx vs with
      | error e => simp [hr] at he
      | ok l' =>
        simp [hr] at he
        subst he
        have ih := validVarCps_mem vs l' hr x
        simp only [List.mem_cons, exists_eq_or_imp, ← ih]
        unfold Env.testVar at ht
        cases b with
        | true =>
          have := testContext_true.1 ht
          simp only [List.append_assoc] at this
          simp [this, eq_comm]
        | false =>
          have hnot : ¬ CtxHolds env v.whenR v.notWhenR v.cp (pre ++ v.cp ++ suf) idx :=
            fun h => ctx_not_both h (testContext_false.1 ht)
          simp only [List.append_assoc] at hnot
          simp [hnot]

theorem validVarCps_defined {env : Env} {r : Repertoire} (hd : RulesDefined env r) {c : CharObj}
    (hg : r.getChar c.cp = .ok c) (pre suf : Seq) (idx : Nat) :
    ∀ vs : List Variant, (∀ v ∈ vs, v ∈ c.getVariants) →
      ∃ l, env.validVarCps pre suf idx vs = .ok l
  | [], _ => ⟨_, rfl⟩
  | v :: vs, h => by
    obtain ⟨b, hb⟩ := testVar_defined hd hg (h v List.mem_cons_self) (pre ++ v.cp ++ suf) idx
    obtain ⟨l, hl⟩ := validVarCps_defined hd hg pre suf idx vs
      (fun w hw => h w (List.mem_cons_of_mem _ hw))
    unfold Env.validVarCps
    simp only [hb, hl]
    exact ⟨_, rfl⟩

theorem indexOnPartition_spec {env : Env} : ∀ (cs : List CharObj) (pre i : Seq),
    env.indexOnPartition pre cs = .ok i → PartIndex env pre cs i
  | [], pre, i, he => by simp [Env.indexOnPartition] at he; subst he; exact .nil _
  | c :: cs, pre, i, he => by
    unfold Env.indexOnPartition at he
    cases hv : env.validVarCps pre (cs.flatMap CharObj.cp) pre.length c.getVariants with
    | error e => simp [hv] at he
    | ok ids =>
      simp only [hv] at he
      cases hm : Env.pyMin (c.cp :: ids) with
      | error e => simp [hm] at he
      | ok m =>
        simp only [hm] at he
        cases ht : env.indexOnPartition (pre ++ c.cp) cs with
        | error e => simp [ht] at he
        | ok t =>
          simp [ht] at he
          subst he
          refine .cons ?_ (indexOnPartition_spec cs _ t ht)
          have := pyMin_isLeast hm
          convert this using 1
          ext x
          simp only [Choices, Set.mem_setOf_eq, List.mem_cons, validVarCps_mem _ _ hv x]

theorem indexOnPartition_defined {env : Env} {r : Repertoire} (hd : RulesDefined env r) :
    ∀ (cs : List CharObj) (pre : Seq), (∀ c ∈ cs, r.getChar c.cp = .ok c) →
      ∃ i, env.indexOnPartition pre cs = .ok i
  | [], _, _ => ⟨_, rfl⟩
  | c :: cs, pre, h => by
    obtain ⟨ids, hv⟩ := validVarCps_defined hd (h c List.mem_cons_self) pre
      (cs.flatMap CharObj.cp) pre.length c.getVariants (fun v hv => hv)
    obtain ⟨t, ht⟩ := indexOnPartition_defined hd cs (pre ++ c.cp)
      (fun d hd => h d (List.mem_cons_of_mem _ hd))
    unfold Env.indexOnPartition
    simp only [hv, Env.pyMin, ht]
    exact ⟨_, rfl⟩

theorem mapE_ok {α β : Type} {f : α → Except Err β} : ∀ {l : List α} {bs : List β},
    Env.mapE f l = .ok bs → ∀ b, b ∈ bs ↔ ∃ a ∈ l, f a = .ok b
  | [], bs, he, b => by simp [Env.mapE] at he; simp [he]
  | a :: l, bs, he, b => by
    unfold Env.mapE at he
    cases hf : f a with
    | error e => simp [hf] at he
    | ok x =>
      simp only [hf] at he
      cases hr : Env.mapE f l with
      | error e => simp [hr] at he
      | ok bs' =>
        simp [hr] at he
        subst he
        simp only [List.mem_cons, exists_eq_or_imp, mapE_ok hr b, hf, Except.ok.injEq]
        rw [eq_comm]

theorem mapE_defined {α β : Type} {f : α → Except Err β} : ∀ {l : List α},
    (∀ a ∈ l, ∃ b, f a = .ok b) → ∃ bs, Env.mapE f l = .ok bs
  | [], _ => ⟨_, rfl⟩
  | a :: l, h => by
    obtain ⟨b, hb⟩ := h a List.mem_cons_self
    obtain ⟨bs, hbs⟩ := mapE_defined (fun x hx => h x (List.mem_cons_of_mem _ hx))
    exact ⟨b :: bs, by simp [Env.mapE, hb, hbs]⟩

theorem partitionsLoop_defined {env : Env} {r : Repertoire} (hd : RulesDefined env r)
    {label pfx : Seq} {rec : Seq → Seq → Except Err (List (List CharObj))}
    (hrec : ∀ l p, l ≠ [] → ∃ ps, rec l p = .ok ps) :
    ∀ cs : List CharObj, (∀ c ∈ cs, r.getChar c.cp = .ok c) →
      ∃ ps, env.partitionsLoop label pfx rec cs = .ok ps
  | [], _ => ⟨_, rfl⟩
  | c :: cs, h => by
    obtain ⟨qs, hq⟩ := partitionsLoop_defined hd hrec cs (fun d hd => h d (List.mem_cons_of_mem _ hd))
    obtain ⟨b, hb⟩ := testChar_defined hd (h c List.mem_cons_self) (pfx ++ label) pfx.length
    unfold Env.partitionsLoop
    split
    · exact ⟨_, hq⟩
    · simp only [hb]
      cases b with
      | false => exact ⟨_, hq⟩
      | true =>
        simp only [hq]
        split
        · rename_i hlt
          obtain ⟨ps, hps⟩ := hrec (label.drop c.len) (pfx ++ c.cp)
            (by rw [Ne, List.drop_eq_nil_iff]; omega)
          simp only [hps]
          exact ⟨_, rfl⟩
        · exact ⟨_, rfl⟩

theorem partitionsAux_defined {env : Env} {r : Repertoire} (h : WF r) (hd : RulesDefined env r)
    (fuel : Nat) : ∀ label pfx : Seq, label ≠ [] → ∃ ps, env.partitionsAux r fuel label pfx = .ok ps := by
  induction fuel with
  | zero => intro label pfx hl; cases label with
    | nil => exact absurd rfl hl
    | cons x xs => exact ⟨_, rfl⟩
  | succ fuel ih =>
    intro label pfx hl
    cases label with
    | nil => exact absurd rfl hl
    | cons x xs =>
      unfold Env.partitionsAux
      cases hc : r.charsFromPrefix x with
      | error e => exact ⟨_, rfl⟩
      | ok cs =>
        exact partitionsLoop_defined hd (fun l p hl => ih l p hl) cs
          (fun c hcm => (((charsFromPrefix_ok h hc).1 c).1 hcm).1)

end Lgr.Props

namespace Lgr.Props.C17
open Repertoire

/-- The set of index labels of the segmentations of a label. -/
def Indexes (env : Env) (r : Repertoire) (label : Seq) : Set Seq :=
  { i | ∃ cs, Segmentation env r label cs ∧ PartIndex env [] cs i }

/-- An accepted non-empty label has an index label, and it is the least one over all valid
segmentations. -/
theorem index_of_accepted {env : Env} {r : Repertoire} (h : WF r) (hd : RulesDefined env r)
    {label : Seq} (hl : label ≠ []) {p : Env.Prelim} (hp : env.prelim r label = .ok p)
    (hok : p.ok = true) :
    ∃ i, env.indexLabel r label 0 = .ok i ∧ IsLeast (Indexes env r label) i := by
  obtain ⟨ps, hps⟩ := partitionsAux_defined h hd label.length label [] hl
  have hps : env.partitions r label = .ok ps := hps
  obtain ⟨-, hex⟩ := C16.partitions_exact h hl hps
  have hseg := (C13.accepted_is_segmentation h hp hok).1
  have hdef : ∀ cs ∈ ps, ∃ i, env.indexOnPartition [] cs = .ok i := fun cs hcs =>
    indexOnPartition_defined hd cs [] ((hex cs).1 hcs).stored
  obtain ⟨ids, hids⟩ := mapE_defined hdef
  have hmem : ∀ i, i ∈ ids ↔ i ∈ Indexes env r label := by
    intro i
    rw [mapE_ok hids]
    constructor
    · rintro ⟨cs, hcs, hi⟩; exact ⟨cs, (hex cs).1 hcs, indexOnPartition_spec cs [] i hi⟩
    · rintro ⟨cs, hcs, hi⟩
      have hcs := (hex cs).2 hcs
      obtain ⟨j, hj⟩ := hdef cs hcs
      rw [partIndex_unique hi (indexOnPartition_spec cs [] j hj)]
      exact ⟨cs, hcs, hj⟩
  obtain ⟨j, hj⟩ := hdef _ ((hex p.chars).2 hseg)
  have hjm : j ∈ ids := (hmem j).2 ⟨_, hseg, indexOnPartition_spec _ _ _ hj⟩
  cases hm : Env.pyMin ids with
  | error e => cases ids <;> simp [Env.pyMin] at hm hjm
  | ok m =>
    refine ⟨m, ?_, ?_⟩
    · simp only [Env.indexLabel, Env.indexLabel0, if_neg hl, hp, hok, hps, hids, hm]
      simp
    · have := pyMin_isLeast hm
      convert this using 1
      ext i; exact (hmem i).symm

/-- A rejected non-empty label raises `NotInLGR` with the first reported code point. -/
theorem index_of_rejected {env : Env} {r : Repertoire} (h : WF r)
    {label : Seq} (hl : label ≠ []) {p : Env.Prelim} (hp : env.prelim r label = .ok p)
    (hok : p.ok = false) (n : Nat) :
    ∃ x l rest, p.invalid = (x, l) :: rest ∧ x ∈ label ∧
      env.indexLabel r label n = .error (.notInLGR [x]) := by
  have hi : p.invalid ≠ [] := by
    intro h0
    have := (C15.report_accurate h hp).1.2 h0
    simp [hok] at this
  cases hinv : p.invalid with
  | nil => exact absurd hinv hi
  | cons q rest =>
    obtain ⟨x, l⟩ := q
    have h0 : env.indexLabel0 r label = .error (.notInLGR [x]) := by
      simp only [Env.indexLabel0, if_neg hl, hp, hok, hinv, if_true]
    refine ⟨x, l, rest, rfl, (C15.report_covers h hp).1 x l (by simp [hinv]), ?_⟩
    cases n with
    | zero => exact h0
    | succ n => simp [Env.indexLabel, h0]

/-- For every number of allowed recursions the call returns a label iff the label is accepted. -/
theorem index_total {env : Env} {r : Repertoire} (h : WF r) (hd : RulesDefined env r)
    {label : Seq} (hl : label ≠ []) (n : Nat) :
    (∃ i, env.indexLabel r label n = .ok i) ↔
      ∃ p, env.prelim r label = .ok p ∧ p.ok = true := by
  obtain ⟨p, hp⟩ := prelim_defined h hd label
  cases hok : p.ok with
  | false =>
    obtain ⟨x, _, _, _, _, he⟩ := index_of_rejected h hl hp hok n
    simp [he, hp, hok]
  | true =>
    obtain ⟨i, hi, -⟩ := index_of_accepted h hd hl hp hok
    have h0 : env.indexLabel0 r label = .ok i := hi
    have : ∃ i, env.indexLabel r label n = .ok i := by
      cases n with
      | zero => exact ⟨i, hi⟩
      | succ n =>
        simp only [Env.indexLabel, h0]
        split
        · split <;> exact ⟨_, rfl⟩
        · exact ⟨_, rfl⟩
    simp [this, hp, hok]

/-- The empty label has the empty index. -/
theorem index_empty (env : Env) (r : Repertoire) (n : Nat) : env.indexLabel r [] n = .ok [] := by
  cases n <;> simp [Env.indexLabel, Env.indexLabel0]

/-- Non-vacuity: the index label may come from another segmentation than the greedy one; `ac` has
variant `b`; label `ac` with entries `a`, `c`, `ac`. -/
example : (Env.mk fun _ _ _ _ => .ok true).indexLabel
    (run {} [.addChar [97] {}, .addChar [99] {}, .addChar [97, 99] {},
      .addVariant [97] { cp := [90] }, .addVariant [97, 99] { cp := [98] }]) [97, 99] 0
    = .ok [90, 99] := by rfl

end Lgr.Props.C17
