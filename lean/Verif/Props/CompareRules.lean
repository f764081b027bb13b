import Verif.Props.Compare
import Verif.Props.Action

/-!
# C54-C57: union and intersection of actions, rules, classes; combining an LGR with itself
-/

namespace Lgr.Props.C54
open Lgr LGR Repertoire C50 C26 Compare C30 C31

/-- **C54** The union of an LGR with itself: same entries with the same comment and tags, and the same
variants with the same types, rules and comments. Missing for the full property: the context rules of
entries (`union_self_loses_rules`) and all references (`union_exact_partial`). -/
theorem union_self_partial (ord : SetOrder) (db : UniDb) (g g' : LGR) (hw : WF g.rep) (hi : Intact g.rep)
    (h : (unionLgrs ord db db g g).2 = .ok g') :
    (∀ k, In g' k ↔ In g k) ∧
    (∀ k c c', g.rep.lookup k = some c → g'.rep.lookup k = some c' → c'.attrs.comment = c.attrs.comment ∧
      ∀ t, t ∈ c'.attrs.tags ↔ t ∈ c.attrs.tags) ∧
    ∀ k u, Maps g' k u ↔ ∃ v, Maps g k v ∧ u = { v with refs := [] } := by
  obtain ⟨-, a, b, -, d, -⟩ := union_exact_partial ord db db g g g' hw hw hi hi h
  refine ⟨fun k => by rw [union_codepoints ord db db g g g' hw hw hi hi h]; simp, ?_, ?_⟩
  · intro k c c' hc hc'
    obtain ⟨c'', h1, h2⟩ := d k c c hc hc
    rw [hc'] at h1; cases h1
    refine ⟨?_, fun t => by rw [h2.tags]; simp⟩
    obtain ⟨e1, e2, e3⟩ := h2.comment
    cases hcm : c.attrs.comment with
    | none => exact (e1 hcm).trans hcm
    | some x => rw [e3 x x hcm hcm]; simp
  · intro k u
    unfold Maps
    cases hk : g.rep.lookup k with
    | none => simp [a k hk hk]
    | some c =>
      obtain ⟨c', h1, h2⟩ := d k c c hk hk
      simp only [h1, Option.some.injEq, exists_eq_left', h2.vars]
      constructor
      · rintro ⟨v, rfl, hv | ⟨hv, -⟩⟩ <;> exact ⟨v, hv, rfl⟩
      · rintro ⟨v, hv, rfl⟩; exact ⟨v, rfl, .inl hv⟩

/-- **C54** is violated by the union: `a` is allowed only under rule `r` in the LGR, and always in the
union of the LGR with itself. -/
theorem union_self_loses_rules (ord : SetOrder) :
    ∃ g' c c', (unionLgrs ord none none (LGR.run {} firstOps) (LGR.run {} firstOps)).2 = .ok g' ∧
      (LGR.run {} firstOps).rep.lookup [97] = some c ∧ g'.rep.lookup [97] = some c' ∧
      c.attrs.whenR = some "r" ∧ c'.attrs.whenR = none := by
  obtain ⟨g, hg⟩ := union_returns ord none none _ _ (run_wf firstOps).1 (run_wf firstOps).1
    first_fit.2 first_fit.2 first_fit.1 first_fit.1
  obtain ⟨-, -, -, -, d, -⟩ := union_exact_partial ord none none _ _ g (run_wf firstOps).1
    (run_wf firstOps).1 first_fit.2 first_fit.2 hg
  obtain ⟨c', h1, h2⟩ := d [97] _ _ rfl rfl
  exact ⟨g, _, c', hg, rfl, h1, rfl, h2.norules.1⟩

/-- **C54** is violated by the intersection: `b` is a blocked variant of `a` in the LGR, and a variant
without type in the intersection of the LGR with itself; and the rule of `a` is lost too. -/
theorem intersect_self_loses_types (ord : SetOrder) :
    ∃ g' c c', (intersectLgrs ord none none (LGR.run {} firstOps) (LGR.run {} firstOps)).2 = .ok g' ∧
      (LGR.run {} firstOps).rep.lookup [97] = some c ∧ g'.rep.lookup [97] = some c' ∧
      c.attrs.whenR = some "r" ∧ c'.attrs.whenR = none ∧
      (∃ v ∈ c.getVariants, v.cp = [98] ∧ v.type = some "blocked") ∧
      (∃ v ∈ c'.getVariants, v.cp = [98]) ∧ ∀ v ∈ c'.getVariants, v.type = none := by
  obtain ⟨g, hg⟩ := intersect_returns ord none none _ _ (run_wf firstOps).1 (run_wf firstOps).1
    first_fit.2 first_fit.2 first_fit.1 first_fit.1
  obtain ⟨-, -, d, -⟩ := intersect_exact ord none none _ _ g (run_wf firstOps).1
    (run_wf firstOps).1 first_fit.2 first_fit.2 hg
  obtain ⟨c', h1, h2⟩ := d [97] _ _ rfl rfl
  have hv : ∃ v ∈ (CharObj.mk [97] none ⟨none, [], ["t"], some "r", none⟩
      [([98], [⟨[98], some "blocked", none, none, none, []⟩])]).getVariants, v.cp = [98] ∧
        v.type = some "blocked" := ⟨⟨[98], some "blocked", none, none, none, []⟩, by decide +kernel, rfl, rfl⟩
  refine ⟨g, _, c', hg, rfl, h1, rfl, h2.norules.1, hv, ?_, fun v hv => ((h2.vars v).1 hv).1⟩
  obtain ⟨v, h3, h4, h5⟩ := hv
  refine ⟨⟨v.cp, none, v.whenR, v.notWhenR, none, []⟩, (h2.vars _).2 ⟨rfl, rfl, rfl, ⟨v, h3, rfl⟩, v, h3, rfl⟩, h4⟩

end Lgr.Props.C54

namespace Lgr.Props.C55
open Lgr Compare

/-! ### Actions -/

theorem sameSet_iff {l m : List String} : sameSet l m = true ↔ ∀ t, t ∈ l ↔ t ∈ m := by
  unfold sameSet
  simp only [Bool.and_eq_true, List.all_eq_true, decide_eq_true_eq]
  constructor
  · rintro ⟨h1, h2⟩ t; exact ⟨h1 t, h2 t⟩
  · intro h; exact ⟨fun t => (h t).1, fun t => (h t).2⟩

/-- Two actions do the same: same disposition and conditions. -/
structure Alike (a b : Action) : Prop where
  disp : a.disp = b.disp
  matchR : a.matchR = b.matchR
  notMatchR : a.notMatchR = b.notMatchR
  any : ∀ t, t ∈ a.anyVariant ↔ t ∈ b.anyVariant
  all : ∀ t, t ∈ a.allVariants ↔ t ∈ b.allVariants
  only : ∀ t, t ∈ a.onlyVariants ↔ t ∈ b.onlyVariants

theorem same_iff {a b : Action} : a.same b = true ↔ Alike a b := by
  unfold Action.same
  simp only [Bool.and_eq_true, decide_eq_true_eq, sameSet_iff]
  constructor
  · rintro ⟨⟨⟨⟨⟨h1, h2⟩, h3⟩, h4⟩, h5⟩, h6⟩; exact ⟨h1, h2, h3, h4, h5, h6⟩
  · rintro ⟨h1, h2, h3, h4, h5, h6⟩; exact ⟨⟨⟨⟨⟨h1, h2⟩, h3⟩, h4⟩, h5⟩, h6⟩

theorem Alike.refl (a : Action) : Alike a a := ⟨rfl, rfl, rfl, fun _ => .rfl, fun _ => .rfl, fun _ => .rfl⟩

theorem Alike.symm {a b : Action} (h : Alike a b) : Alike b a :=
  ⟨h.1.symm, h.2.symm, h.3.symm, fun t => (h.4 t).symm, fun t => (h.5 t).symm, fun t => (h.6 t).symm⟩

theorem Alike.trans {a b c : Action} (h : Alike a b) (k : Alike b c) : Alike a c :=
  ⟨h.1.trans k.1, h.2.trans k.2, h.3.trans k.3, fun t => (h.4 t).trans (k.4 t),
    fun t => (h.5 t).trans (k.5 t), fun t => (h.6 t).trans (k.6 t)⟩

theorem nil_congr {l m : List String} (h : ∀ t, t ∈ l ↔ t ∈ m) : l = [] ↔ m = [] := by
  simp [List.eq_nil_iff_forall_not_mem, h]

theorem apply_alike (env : FullEnv) {a b : Action} (h : Alike a b) (label : Seq) (d : DispSet) (only : Bool) :
    a.apply env label d only = b.apply env label d only := by
  have hv : a.variantMatched d only = b.variantMatched d only := by
    have n1 := nil_congr h.any
    have n2 := nil_congr h.all
    have n3 := nil_congr h.only
    have hm : ∀ (l m : List String), (∀ t, t ∈ l ↔ t ∈ m) → ∀ t, t ∈ l.map some ↔ t ∈ m.map some := by
      intro l m hlm t
      simp [List.mem_map, hlm]
    have hany : (a.anyVariant.any fun t => decide (some t ∈ d)) = (b.anyVariant.any fun t => decide (some t ∈ d)) := by
      rw [Bool.eq_iff_iff]; simp only [List.any_eq_true, h.any]
    unfold Action.variantMatched
    simp only [ne_eq, n1, n2, n3, hany, hm _ _ h.all, hm _ _ h.only]
  unfold Action.apply Action.ruleMatched
  rw [h.matchR, h.notMatchR, h.disp, hv]

/-- The disposition, without the index of the action. -/
def result (env : FullEnv) (label : Seq) (d : DispSet) (only : Bool) (as : List Action) :
    Except Err (Option String) := (applyLoop env label d only 0 as).map Prod.fst

theorem result_idx (env : FullEnv) (label : Seq) (d : DispSet) (only : Bool) (as : List Action) (i : Nat) :
    (applyLoop env label d only i as).map Prod.fst = result env label d only as := by
  unfold result
  have : ∀ (as : List Action) (i j : Nat), (applyLoop env label d only i as).map Prod.fst =
      (applyLoop env label d only j as).map Prod.fst := by
    intro as
    induction as with
    | nil => intro i j; rfl
    | cons a as ih =>
      intro i j
      simp only [applyLoop]
      cases a.apply env label d only with
      | error e => rfl
      | ok o => cases o with
        | none => exact ih _ _
        | some s => rfl
  exact this as i 0

theorem result_cons (env : FullEnv) (label : Seq) (d : DispSet) (only : Bool) (a : Action) (as : List Action) :
    result env label d only (a :: as) =
      match a.apply env label d only with
      | .error e => .error e
      | .ok (some s) => .ok (some s)
      | .ok none => result env label d only as := by
  conv => lhs; unfold result
  simp only [applyLoop]
  cases a.apply env label d only with
  | error e => rfl
  | ok o => cases o with
    | none => exact result_idx ..
    | some s => rfl

theorem result_skip (env : FullEnv) (label : Seq) (d : DispSet) (only : Bool) (a : Action)
    (h : a.apply env label d only = .ok none) (pre post : List Action) :
    result env label d only (pre ++ a :: post) = result env label d only (pre ++ post) := by
  induction pre with
  | nil => simp [result_cons, h]
  | cons b pre ih => simp only [List.cons_append, result_cons, ih]

theorem result_dup (env : FullEnv) (label : Seq) (d : DispSet) (only : Bool) (a : Action)
    (pre post : List Action) (h : ∃ b ∈ pre, Alike b a) :
    result env label d only (pre ++ a :: post) = result env label d only (pre ++ post) := by
  induction pre with
  | nil => simp at h
  | cons b pre ih =>
    simp only [List.cons_append, result_cons]
    cases hb : b.apply env label d only with
    | error e => rfl
    | ok o =>
      cases o with
      | some s => rfl
      | none =>
        simp only
        obtain ⟨b', hb', hs⟩ := h
        rcases List.mem_cons.1 hb' with rfl | hb'
        · exact result_skip env label d only a (by rw [← apply_alike env hs]; exact hb) pre post
        · exact ih ⟨b', hb', hs⟩

theorem updateActions_result (env : FullEnv) (label : Seq) (d : DispSet) (only : Bool)
    (l acc post : List Action) :
    result env label d only (updateActions l acc ++ post) = result env label d only (acc ++ l ++ post) := by
  unfold updateActions
  induction l generalizing acc with
  | nil => simp
  | cons a l ih =>
    rw [List.foldl_cons, ih]
    split
    · rename_i h
      simp only [List.any_eq_true, same_iff] at h
      have := result_dup env label d only a acc (l ++ post) h
      simp only [List.append_assoc, List.cons_append] at this ⊢
      exact this.symm
    · simp

/-- **C55** The actions of the union give every label the disposition (or the exception) that the
actions of the first LGR followed by those of the second would give. -/
theorem union_actions_dispositions (env : FullEnv) (a1 a2 : List Action) (x1 x2 : List String)
    (label : Seq) (d : DispSet) (only : Bool) :
    (applyActions env (unionActions a1 x1 a2 x2).1 label d only).map Prod.fst =
      (applyActions env (a1 ++ a2) label d only).map Prod.fst := by
  show result env label d only _ = result env label d only _
  unfold effectiveActions
  show result env label d only (updateActions a2 (updateActions a1 []) ++ _) = _
  rw [updateActions_result, List.append_assoc, updateActions_result]
  simp

theorem updateActions_mem (l acc : List Action) (a : Action) (h : a ∈ updateActions l acc) :
    a ∈ acc ∨ a ∈ l := by
  unfold updateActions at h
  induction l generalizing acc with
  | nil => exact .inl h
  | cons b l ih =>
    rw [List.foldl_cons] at h
    rcases ih _ h with h | h
    · split at h
      · exact .inl h
      · rcases List.mem_append.1 h with h | h
        · exact .inl h
        · simp only [List.mem_singleton] at h; subst h; exact .inr (by simp)
    · exact .inr (by simp [h])

theorem updateActions_covers (l acc : List Action) (a : Action) :
    (∃ b ∈ updateActions l acc, Alike b a) ↔ (∃ b ∈ acc, Alike b a) ∨ ∃ b ∈ l, Alike b a := by
  unfold updateActions
  induction l generalizing acc with
  | nil => simp
  | cons c l ih =>
    rw [List.foldl_cons, ih]
    split
    · rename_i h
      simp only [List.any_eq_true, same_iff] at h
      constructor
      · rintro (h1 | ⟨b, hb, hs⟩)
        · exact .inl h1
        · exact .inr ⟨b, by simp [hb], hs⟩
      · rintro (h1 | ⟨b, hb, hs⟩)
        · exact .inl h1
        · rcases List.mem_cons.1 hb with rfl | hb
          · obtain ⟨b', h2, h3⟩ := h
            exact .inl ⟨b', h2, h3.trans hs⟩
          · exact .inr ⟨b, hb, hs⟩
    · constructor
      · rintro (⟨b, hb, hs⟩ | ⟨b, hb, hs⟩)
        · rcases List.mem_append.1 hb with hb | hb
          · exact .inl ⟨b, hb, hs⟩
          · simp only [List.mem_singleton] at hb; subst hb
            exact .inr ⟨b, by simp, hs⟩
        · exact .inr ⟨b, by simp [hb], hs⟩
      · rintro (⟨b, hb, hs⟩ | ⟨b, hb, hs⟩)
        · exact .inl ⟨b, by simp [hb], hs⟩
        · rcases List.mem_cons.1 hb with rfl | hb
          · exact .inl ⟨b, by simp, hs⟩
          · exact .inr ⟨b, hb, hs⟩

theorem updateActions_distinct (l acc : List Action) (h : acc.Pairwise (fun a b => ¬ Alike a b)) :
    (updateActions l acc).Pairwise (fun a b => ¬ Alike a b) := by
  unfold updateActions
  induction l generalizing acc with
  | nil => exact h
  | cons c l ih =>
    rw [List.foldl_cons]
    apply ih
    split
    · exact h
    · rename_i hc
      simp only [List.any_eq_true, same_iff] at hc
      rw [List.pairwise_append]
      refine ⟨h, by simp, ?_⟩
      intro a ha b hb
      simp only [List.mem_singleton] at hb; subst hb
      exact fun hs => hc ⟨a, ha, hs⟩

/-- **C55** The union has every action of both inputs once, up to comment and references, and no
others. -/
theorem union_actions_exact (a1 a2 : List Action) (x1 x2 : List String) :
    (∀ a ∈ (unionActions a1 x1 a2 x2).1, a ∈ a1 ∨ a ∈ a2) ∧
    (∀ a, a ∈ a1 ∨ a ∈ a2 → ∃ b ∈ (unionActions a1 x1 a2 x2).1, Alike b a) ∧
    (unionActions a1 x1 a2 x2).1.Pairwise (fun a b => ¬ Alike a b) := by
  refine ⟨?_, ?_, ?_⟩
  · intro a ha
    rcases updateActions_mem _ _ a ha with h | h
    · rcases updateActions_mem _ _ a h with h | h
      · simp at h
      · exact .inl h
    · exact .inr h
  · intro a ha
    refine (updateActions_covers _ _ a).2 ?_
    rw [updateActions_covers]
    rcases ha with ha | ha
    · exact .inl (.inr ⟨a, ha, .refl a⟩)
    · exact .inr ⟨a, ha, .refl a⟩
  · exact updateActions_distinct _ _ (updateActions_distinct _ _ (by simp))

/-- **C55** is violated for the XML of actions: it is merged apart from the actions, by text. If an
action of both LGRs is written with different comments, the union has one action but two pieces of XML,
so the XML at the position of a later action is that of another one. -/
theorem union_actions_out_of_step :
    ∃ a1 x1 a2 x2, a1.length = x1.length ∧ a2.length = x2.length ∧
      (unionActions a1 x1 a2 x2).1.length ≠ (unionActions a1 x1 a2 x2).2.length :=
  ⟨[{ disp := "valid", comment := some "x" }], ["<action disp=\"valid\" comment=\"x\"/>"],
    [{ disp := "valid", comment := some "y" }], ["<action disp=\"valid\" comment=\"y\"/>"], rfl, rfl,
    by decide +kernel⟩

/-! Non-vacuity: two lists sharing an action. -/
example : (unionActions [{ disp := "blocked", matchR := some "r" }, { disp := "valid" }] []
    [{ disp := "valid", comment := some "c" }, { disp := "invalid" }] []).1 =
    [{ disp := "blocked", matchR := some "r" }, { disp := "valid" }, { disp := "invalid" }] := by
  decide +kernel

end Lgr.Props.C55

namespace Lgr.Props.C56
open Lgr Compare C55

theorem mapM_some {α β : Type} (f : α → Option β) (l : List α) (out : List β) (h : l.mapM f = some out) :
    List.Forall₂ (fun a b => f a = some b) l out := by
  induction l generalizing out with
  | nil => simp at h; subst h; exact .nil
  | cons a l ih =>
    rw [List.mapM_cons] at h
    cases ha : f a with
    | none => rw [ha] at h; simp at h
    | some b =>
      cases hl : l.mapM f with
      | none => rw [ha, hl] at h; simp at h
      | some bs => rw [ha, hl] at h; simp at h; subst h; exact .cons ha (ih bs hl)

/-- **C56** The intersection of actions: each is one of an input, an action alike is kept iff both inputs
have one, no two are alike, and each has the XML of the first action of the first LGR that is alike.
Missing for the full property: their order (`intersect_actions_reorders`). -/
theorem intersect_actions_partial (order : List Action → List Action) (hord : ∀ l, (order l).Perm l)
    (second : Bool) (a1 : List Action) (x1 : List String) (a2 out : List Action) (xs : List String)
    (h : intersectActions order second a1 x1 a2 = .ok (out, xs)) :
    (∀ a ∈ out, a ∈ a1 ∨ a ∈ a2) ∧
    (∀ a, (∃ b ∈ out, Alike b a) ↔ (∃ b ∈ a1, Alike b a) ∧ ∃ b ∈ a2, Alike b a) ∧
    out.Pairwise (fun a b => ¬ Alike a b) ∧
    List.Forall₂ (fun a x => ∃ (i : Nat) (b : Action), a1[i]? = some b ∧ Alike b a ∧ x1[i]? = some x ∧
      ∀ (j : Nat) (c : Action), j < i → a1[j]? = some c → ¬ Alike c a) out xs := by
  unfold intersectActions at h
  simp only at h
  split at h
  rotate_left
  · simp at h
  rename_i ys hys
  simp only [Except.ok.injEq, Prod.mk.injEq] at h
  obtain ⟨h1, h2⟩ := h
  subst h2
  have hcov : ∀ (a1 a2 : List Action) a, (∃ b ∈ (updateActions a1 []).filter
      (fun a => (updateActions a2 []).any (fun b => b.same a)), Alike b a) ↔
      (∃ b ∈ a1, Alike b a) ∧ ∃ b ∈ a2, Alike b a := by
    intro a1 a2 a
    have c1 := updateActions_covers a1 [] a
    constructor
    · rintro ⟨b, hb, hs⟩
      rw [List.mem_filter] at hb
      obtain ⟨hb, hb2⟩ := hb
      simp only [List.any_eq_true, same_iff] at hb2
      refine ⟨?_, ?_⟩
      · have := c1.1 ⟨b, hb, hs⟩; simpa using this
      · have := (updateActions_covers a2 [] b).1 hb2
        obtain ⟨c, hc, hs'⟩ : ∃ c ∈ a2, Alike c b := by simpa using this
        exact ⟨c, hc, hs'.trans hs⟩
    · rintro ⟨hx, c, hc, hs⟩
      obtain ⟨b, hb, hs'⟩ := c1.2 (.inr hx)
      refine ⟨b, List.mem_filter.2 ⟨hb, ?_⟩, hs'⟩
      simp only [List.any_eq_true, same_iff]
      exact (updateActions_covers a2 [] b).2 (.inr ⟨c, hc, hs.trans hs'.symm⟩)
  have hmem : ∀ (a1 : List Action) (p : Action → Bool) a, a ∈ (updateActions a1 []).filter p → a ∈ a1 := by
    intro a1 p a ha
    have := updateActions_mem a1 [] a (List.mem_filter.1 ha).1
    simpa using this
  have hdis : ∀ (a1 : List Action) (p : Action → Bool),
      ((updateActions a1 []).filter p).Pairwise (fun a b => ¬ Alike a b) := fun a1 p =>
    (updateActions_distinct _ _ (by simp)).filter _
  have hperm : ∀ l : List Action, l.Pairwise (fun a b => ¬ Alike a b) →
      (order l).Pairwise (fun a b => ¬ Alike a b) := fun l hl =>
    ((hord l).pairwise_iff (fun {a b} hab hba => hab hba.symm)).2 hl
  have hall : (∀ a ∈ out, a ∈ a1 ∨ a ∈ a2) ∧
      (∀ a, (∃ b ∈ out, Alike b a) ↔ (∃ b ∈ a1, Alike b a) ∧ ∃ b ∈ a2, Alike b a) ∧
      out.Pairwise (fun a b => ¬ Alike a b) := by
    cases second with
    | false =>
      simp only [Bool.false_eq_true, if_false] at h1
      subst h1
      refine ⟨fun a ha => .inl (hmem _ _ a ((hord _).mem_iff.1 ha)), ?_, hperm _ (hdis _ _)⟩
      intro a
      simp only [(hord _).mem_iff]
      exact hcov a1 a2 a
    | true =>
      simp only [if_true] at h1
      subst h1
      refine ⟨fun a ha => .inr (hmem _ _ a ((hord _).mem_iff.1 ha)), ?_, hperm _ (hdis _ _)⟩
      intro a
      simp only [(hord _).mem_iff]
      rw [and_comm]
      exact hcov a2 a1 a
  refine ⟨hall.1, hall.2.1, hall.2.2, ?_⟩
  rw [h1] at hys
  have hf := mapM_some _ _ _ hys
  have hcommon : ∀ a ∈ out, ∃ b ∈ a1, Alike b a := fun a ha => ((hall.2.1 a).1 ⟨a, ha, .refl a⟩).1
  clear h1 hys hall
  induction hf with
  | nil => exact .nil
  | @cons a x l1 l2 hx _ ih =>
    refine .cons ?_ (ih fun a ha => hcommon a (by simp [ha]))
    obtain ⟨b, hb, hs⟩ := hcommon a (by simp)
    have hlt : a1.findIdx (fun b => b.same a) < a1.length :=
      List.findIdx_lt_length_of_exists ⟨b, hb, same_iff.2 hs⟩
    refine ⟨a1.findIdx (fun b => b.same a), a1[a1.findIdx (fun b => b.same a)],
      ?_, ?_, by unfold indexOfAction at hx; exact hx, ?_⟩
    · exact List.getElem?_eq_getElem hlt
    · exact same_iff.1 (List.findIdx_getElem (w := hlt))
    · intro j c hj hc hs'
      have := List.not_of_lt_findIdx (xs := a1) (p := fun b => b.same a) hj
      rw [List.getElem?_eq_getElem (by omega)] at hc
      simp only [Option.some.injEq] at hc
      rw [hc, same_iff.2 hs'] at this
      simp at this

/-- The call returns when each action of the first LGR has its XML. -/
theorem intersect_actions_returns (order : List Action → List Action) (hord : ∀ l, (order l).Perm l)
    (second : Bool) (a1 : List Action) (x1 : List String) (a2 : List Action) (hlen : a1.length = x1.length) :
    ∃ out xs, intersectActions order second a1 x1 a2 = .ok (out, xs) := by
  have key : ∀ l : List Action, (∀ a ∈ l, ∃ b ∈ a1, Alike b a) →
      ∃ xs, l.mapM (fun a => x1[indexOfAction a a1]?) = some xs := by
    intro l hl
    induction l with
    | nil => exact ⟨[], rfl⟩
    | cons a l ih =>
      obtain ⟨xs, hxs⟩ := ih fun a ha => hl a (by simp [ha])
      obtain ⟨b, hb, hs⟩ := hl a (by simp)
      have hlt : a1.findIdx (fun b => b.same a) < a1.length :=
        List.findIdx_lt_length_of_exists ⟨b, hb, same_iff.2 hs⟩
      refine ⟨x1[a1.findIdx (fun b => b.same a)]'(hlen ▸ hlt) :: xs, ?_⟩
      rw [List.mapM_cons, hxs]
      unfold indexOfAction
      rw [List.getElem?_eq_getElem (hlen ▸ hlt)]
      rfl
  unfold intersectActions
  simp only
  have hl : ∀ a ∈ order (if second then (updateActions a2 []).filter
      (fun a => (updateActions a1 []).any (fun b => b.same a))
      else (updateActions a1 []).filter (fun a => (updateActions a2 []).any (fun b => b.same a))),
      ∃ b ∈ a1, Alike b a := by
    intro a ha
    rw [(hord _).mem_iff] at ha
    cases second with
    | true =>
      simp only [if_true] at ha
      have := (List.mem_filter.1 ha).2
      simp only [List.any_eq_true, same_iff] at this
      have := (updateActions_covers a1 [] a).1 this
      simpa using this
    | false =>
      simp only [Bool.false_eq_true, if_false] at ha
      have := updateActions_mem a1 [] a (List.mem_filter.1 ha).1
      exact ⟨a, by simpa using this, .refl a⟩
  obtain ⟨xs, hxs⟩ := key _ hl
  rw [hxs]
  exact ⟨_, xs, rfl⟩

/-- **C56** is violated: with the set iterated backwards, the intersection of a list of actions with
itself has them in the other order, and a label whose variants have both types gets another
disposition. -/
theorem intersect_actions_reorders (env : FullEnv) (label : Seq) :
    ∃ (order : List Action → List Action) (a : List Action) (x : List String) (out : List Action)
      (xs : List String) (d : DispSet), (∀ l, (order l).Perm l) ∧ a.length = x.length ∧
      intersectActions order false a x a = .ok (out, xs) ∧
      applyActions env a label d false = .ok (some "blocked", 0) ∧
      applyActions env out label d false = .ok (some "activated", 0) :=
  ⟨List.reverse, [{ disp := "blocked", anyVariant := ["s"] }, { disp := "activated", anyVariant := ["t"] }],
    ["1", "2"], [{ disp := "activated", anyVariant := ["t"] }, { disp := "blocked", anyVariant := ["s"] }],
    ["2", "1"], [some "s", some "t"], List.reverse_perm, rfl, by decide +kernel, rfl, rfl⟩

/-! Non-vacuity: an action in both lists. -/
example : intersectActions id false [{ disp := "blocked" }, { disp := "valid" }] ["1", "2"]
    [{ disp := "valid", comment := some "c" }] = .ok ([{ disp := "valid" }], ["2"]) := by decide +kernel

end Lgr.Props.C56

namespace Lgr.Props.C57
open Lgr Compare C30

/-- In a list of names with the list of their XML, the first `n` has XML `x`. -/
def Defines (names xml : List String) (n x : String) : Prop :=
  ∃ i : Nat, names[i]? = some n ∧ xml[i]? = some x ∧ ∀ j : Nat, j < i → names[j]? ≠ some n

theorem atName_iff (names xml : List String) (n x : String) (hn : n ∈ names) :
    atName names xml n = .ok x ↔ Defines names xml n x := by
  have hlt := List.idxOf_lt_length_of_mem hn
  have h0 : names[names.idxOf n]? = some n := by
    rw [List.getElem?_eq_getElem hlt]; simp
  have hb : ∀ j, j < names.idxOf n → names[j]? ≠ some n := by
    intro j hj h
    have := List.not_of_lt_findIdx (xs := names) (p := (· == n)) hj
    rw [List.getElem?_eq_getElem (by omega)] at h
    simp only [Option.some.injEq] at h
    simp [h] at this
  unfold atName
  constructor
  · intro h
    split at h
    · rename_i y hy
      simp only [Except.ok.injEq] at h
      subst h
      exact ⟨_, h0, hy, hb⟩
    · simp at h
  · rintro ⟨i, h1, h2, h3⟩
    have : i = names.idxOf n := by
      rcases Nat.lt_trichotomy i (names.idxOf n) with h | h | h
      · exact absurd h1 (hb i h)
      · exact h
      · exact absurd h0 (h3 _ h)
    subst this
    rw [h2]

theorem atName_ok (names xml : List String) (n : String) (hn : n ∈ names) (hl : names.length = xml.length) :
    ∃ x, atName names xml n = .ok x := by
  have hlt := List.idxOf_lt_length_of_mem hn
  unfold atName
  rw [List.getElem?_eq_getElem (hl ▸ hlt)]
  exact ⟨_, rfl⟩

/-- What a pair of name and XML for a common name comes from. -/
def FromBoth (replace : String → String → String → String) (n1 x1 n2 x2 : List String)
    (m : String) (p : String × String) : Prop :=
  ∃ a b, Defines n1 x1 m a ∧ Defines n2 x2 m b ∧
    ((a = b ∧ p = (m, a)) ∨
      (a ≠ b ∧ (p = (m ++ "_1", replace m (m ++ "_1") a) ∨ p = (m ++ "_2", replace m (m ++ "_2") b))))

/-- Pairs of names and XML. -/
def Pairs (out : List String × List String) (p : String × String) : Prop := p ∈ out.1.zip out.2

theorem pairs_append (out : List String × List String) (h : out.1.length = out.2.length) (l m : List String)
    (p : String × String) : Pairs (out.1 ++ l, out.2 ++ m) p ↔ Pairs out p ∨ p ∈ l.zip m := by
  unfold Pairs
  rw [List.zip_append h, List.mem_append]

theorem common_loop (replace : String → String → String → String) (n1 x1 n2 x2 l : List String)
    (hl : ∀ m ∈ l, m ∈ n1 ∧ m ∈ n2) (out out' : List String × List String)
    (hlen : out.1.length = out.2.length)
    (h : forEach (commonStep replace n1 x1 n2 x2) out l = (out', .ok ())) :
    out'.1.length = out'.2.length ∧
    ∀ p, Pairs out' p ↔ Pairs out p ∨ ∃ m ∈ l, FromBoth replace n1 x1 n2 x2 m p := by
  induction l generalizing out with
  | nil => simp only [forEach, Prod.mk.injEq, and_true] at h; subst h; simp [hlen]
  | cons m l ih =>
    rw [forEach] at h
    obtain ⟨hm1, hm2⟩ := hl m (by simp)
    cases h1 : atName n1 x1 m with
    | error e => simp [commonStep, h1] at h
    | ok a =>
      cases h2 : atName n2 x2 m with
      | error e => simp [commonStep, h1, h2] at h
      | ok b =>
        have d1 := (atName_iff _ _ _ _ hm1).1 h1
        have d2 := (atName_iff _ _ _ _ hm2).1 h2
        have huniq : ∀ p, FromBoth replace n1 x1 n2 x2 m p ↔ ((a = b ∧ p = (m, a)) ∨
            (a ≠ b ∧ (p = (m ++ "_1", replace m (m ++ "_1") a) ∨
              p = (m ++ "_2", replace m (m ++ "_2") b)))) := by
          intro p
          constructor
          · rintro ⟨a', b', ha, hb, hp⟩
            have := (atName_iff _ _ _ _ hm1).2 ha
            rw [h1] at this; cases this
            have := (atName_iff _ _ _ _ hm2).2 hb
            rw [h2] at this; cases this
            exact hp
          · intro hp; exact ⟨a, b, d1, d2, hp⟩
        simp only [commonStep, h1, h2] at h
        by_cases hab : a = b
        · rw [if_pos hab] at h
          obtain ⟨e1, e2⟩ := ih (fun m hm => hl m (by simp [hm])) _ (by simp [hlen]) h
          refine ⟨e1, fun p => ?_⟩
          rw [e2, pairs_append _ hlen]
          simp only [List.mem_cons, exists_eq_or_imp, huniq, hab, true_and, not_true_eq_false, ne_eq,
            false_and, or_false, List.zip_cons_cons, List.zip_nil_right, List.not_mem_nil, or_assoc]
        · rw [if_neg hab] at h
          obtain ⟨e1, e2⟩ := ih (fun m hm => hl m (by simp [hm])) _ (by simp [hlen]) h
          refine ⟨e1, fun p => ?_⟩
          rw [e2, pairs_append _ hlen]
          simp only [List.mem_cons, exists_eq_or_imp, huniq, hab, not_false_eq_true, ne_eq, true_and,
            false_and, false_or, or_false, List.zip_cons_cons, List.zip_nil_right, List.not_mem_nil, or_assoc]

theorem own_loop (n x l : List String) (hl : ∀ m ∈ l, m ∈ n) (out out' : List String × List String)
    (hlen : out.1.length = out.2.length) (h : forEach (ownStep n x) out l = (out', .ok ())) :
    out'.1.length = out'.2.length ∧
    ∀ p, Pairs out' p ↔ Pairs out p ∨ p.1 ∈ l ∧ Defines n x p.1 p.2 := by
  induction l generalizing out with
  | nil => simp only [forEach, Prod.mk.injEq, and_true] at h; subst h; simp [hlen]
  | cons m l ih =>
    rw [forEach] at h
    have hm := hl m (by simp)
    cases h1 : atName n x m with
    | error e => simp [ownStep, h1] at h
    | ok a =>
      have d := fun b => atName_iff n x m b hm
      simp only [ownStep, h1] at h
      obtain ⟨e1, e2⟩ := ih (fun m hm => hl m (by simp [hm])) _ (by simp [hlen]) h
      refine ⟨e1, fun p => ?_⟩
      obtain ⟨k, b⟩ := p
      rw [e2, pairs_append _ hlen]
      simp only [List.zip_cons_cons, List.zip_nil_right, List.not_mem_nil, or_false, Prod.mk.injEq, List.mem_cons]
      constructor
      · rintro ((h | ⟨rfl, rfl⟩) | ⟨h, h'⟩)
        · exact .inl h
        · exact .inr ⟨.inl rfl, (d _).1 h1⟩
        · exact .inr ⟨.inr h, h'⟩
      · rintro (h | ⟨rfl | h, h'⟩)
        · exact .inl (.inl h)
        · have := (d _).2 h'; rw [h1] at this; cases this
          exact .inl (.inr ⟨rfl, rfl⟩)
        · exact .inr ⟨h, h'⟩

/-- **C57** The rules (or classes) of the union: the names of one input only with their XML, the common
names whose XML is the same, and both versions renamed of the others. Missing for the full property:
references to a renamed rule are not (`union_dangling`), and new names may collide
(`union_collides`). -/
theorem union_named_partial (ord : SetOrder) (replace : String → String → String → String)
    (n1 x1 n2 x2 names xml : List String) (h : unionNamed ord replace n1 x1 n2 x2 = .ok (names, xml)) :
    names.length = xml.length ∧
    ∀ p, p ∈ names.zip xml ↔
      (∃ m, m ∈ n1 ∧ m ∈ n2 ∧ FromBoth replace n1 x1 n2 x2 m p) ∨
      (p.1 ∈ n1 ∧ p.1 ∉ n2 ∧ Defines n1 x1 p.1 p.2) ∨
      (p.1 ∈ n2 ∧ p.1 ∉ n1 ∧ Defines n2 x2 p.1 p.2) := by
  unfold unionNamed at h
  simp only at h
  split at h
  · simp at h
  rename_i out1 h1
  split at h
  · simp at h
  rename_i out2 h2
  split at h
  · simp at h
  rename_i out3 h3
  simp only [Except.ok.injEq] at h
  subst h
  obtain ⟨a1, a2⟩ := common_loop replace n1 x1 n2 x2 _ (by
    intro m hm
    rw [(ord.strs_perm _).mem_iff] at hm
    simpa [mem_toSet] using hm) _ _ rfl h1
  obtain ⟨b1, b2⟩ := own_loop n1 x1 _ (by
    intro m hm
    rw [(ord.strs_perm _).mem_iff] at hm
    exact (by simpa [mem_toSet] using hm : m ∈ n1 ∧ _).1) _ _ a1 h2
  obtain ⟨c1, c2⟩ := own_loop n2 x2 _ (by
    intro m hm
    rw [(ord.strs_perm _).mem_iff] at hm
    exact (by simpa [mem_toSet] using hm : m ∈ n2 ∧ _).1) _ _ b1 h3
  refine ⟨c1, fun p => ?_⟩
  have e := c2 p
  rw [b2, a2] at e
  have e0 : ¬ Pairs ([], []) p := by simp [Pairs]
  simp only [e0, false_or, (ord.strs_perm _).mem_iff, List.mem_filter, mem_toSet, decide_eq_true_eq,
    or_assoc, and_assoc] at e
  exact e

/-- **C57** Same for the intersection: common names only. -/
theorem intersect_named_partial (ord : SetOrder) (replace : String → String → String → String)
    (n1 x1 n2 x2 names xml : List String) (h : intersectNamed ord replace n1 x1 n2 x2 = .ok (names, xml)) :
    names.length = xml.length ∧
    ∀ p, p ∈ names.zip xml ↔ ∃ m, m ∈ n1 ∧ m ∈ n2 ∧ FromBoth replace n1 x1 n2 x2 m p := by
  unfold intersectNamed at h
  simp only at h
  split at h
  · simp at h
  rename_i out1 h1
  simp only [Except.ok.injEq] at h
  subst h
  obtain ⟨a1, a2⟩ := common_loop replace n1 x1 n2 x2 _ (by
    intro m hm
    rw [(ord.strs_perm _).mem_iff] at hm
    simpa [mem_toSet] using hm) _ _ rfl h1
  refine ⟨a1, fun p => ?_⟩
  have e := a2 p
  have e0 : ¬ Pairs ([], []) p := by simp [Pairs]
  simp only [e0, false_or, (ord.strs_perm _).mem_iff, List.mem_filter, mem_toSet, decide_eq_true_eq,
    and_assoc] at e
  exact e

theorem loop_ok {σ β : Type} (step : σ → β → σ × Except Err Unit) (l : List β)
    (h : ∀ s, ∀ x ∈ l, ∃ s', step s x = (s', .ok ())) (s : σ) : ∃ s', forEach step s l = (s', .ok ()) := by
  induction l generalizing s with
  | nil => exact ⟨s, rfl⟩
  | cons x l ih =>
    obtain ⟨s', hs⟩ := h s x (by simp)
    rw [forEach, hs]
    exact ih (fun s y hy => h s y (by simp [hy])) s'

/-- **C57** The call returns when each name has its XML. -/
theorem union_named_returns (ord : SetOrder) (replace : String → String → String → String)
    (n1 x1 n2 x2 : List String) (h1 : n1.length = x1.length) (h2 : n2.length = x2.length) :
    (∃ r, unionNamed ord replace n1 x1 n2 x2 = .ok r) ∧ ∃ r, intersectNamed ord replace n1 x1 n2 x2 = .ok r := by
  have hc : ∀ out, ∃ out', forEach (commonStep replace n1 x1 n2 x2) out
      (ord.strs ((toSet id n1).filter (fun n => decide (n ∈ toSet id n2)))) = (out', .ok ()) := by
    apply loop_ok
    intro s m hm
    rw [(ord.strs_perm _).mem_iff] at hm
    obtain ⟨hm1, hm2⟩ : m ∈ n1 ∧ m ∈ n2 := by simpa [mem_toSet] using hm
    obtain ⟨a, ha⟩ := atName_ok n1 x1 m hm1 h1
    obtain ⟨b, hb⟩ := atName_ok n2 x2 m hm2 h2
    simp only [commonStep, ha, hb]
    split <;> exact ⟨_, rfl⟩
  have ho : ∀ (n x l : List String), n.length = x.length → (∀ m ∈ l, m ∈ n) → ∀ out,
      ∃ out', forEach (ownStep n x) out l = (out', .ok ()) := by
    intro n x l hlen hl
    apply loop_ok
    intro s m hm
    obtain ⟨a, ha⟩ := atName_ok n x m (hl m hm) hlen
    exact ⟨(s.1 ++ [m], s.2 ++ [a]), by simp only [ownStep, ha]⟩
  obtain ⟨o1, e1⟩ := hc ([], [])
  obtain ⟨o2, e2⟩ := ho n1 x1 (ord.strs ((toSet id n1).filter (fun n => decide (n ∉ toSet id n2)))) h1 (by
    intro m hm
    rw [(ord.strs_perm _).mem_iff] at hm
    exact (by simpa [mem_toSet] using hm : m ∈ n1 ∧ _).1) o1
  obtain ⟨o3, e3⟩ := ho n2 x2 (ord.strs ((toSet id n2).filter (fun n => decide (n ∉ toSet id n1)))) h2 (by
    intro m hm
    rw [(ord.strs_perm _).mem_iff] at hm
    exact (by simpa [mem_toSet] using hm : m ∈ n2 ∧ _).1) o2
  refine ⟨⟨o3, ?_⟩, o1, ?_⟩
  · unfold unionNamed
    simp only [e1, e2, e3]
  · unfold intersectNamed
    simp only [e1]

theorem perm_single {l : List String} {x : String} (h : l.Perm [x]) : l = [x] := List.perm_singleton.1 h

theorem perm_empty {l : List String} (h : l.Perm []) : l = [] := List.perm_nil.1 h

/-- **C57** is violated: a rule `r` differing in both inputs is renamed to `r_1` and `r_2`, so that no
rule of the union has the name which variants, other rules and actions copied into it still use. -/
theorem union_dangling (ord : SetOrder) (replace : String → String → String → String) (a b : String)
    (hab : a ≠ b) (n1 x1 n2 x2 names xml : List String)
    (h1 : Defines n1 x1 "r" a) (h2 : Defines n2 x2 "r" b)
    (h : unionNamed ord replace n1 x1 n2 x2 = .ok (names, xml)) : "r" ∉ names := by
  obtain ⟨hl, he⟩ := union_named_partial ord replace n1 x1 n2 x2 names xml h
  have m1 : "r" ∈ n1 := by obtain ⟨i, hi, -⟩ := h1; exact List.mem_of_getElem? hi
  have m2 : "r" ∈ n2 := by obtain ⟨i, hi, -⟩ := h2; exact List.mem_of_getElem? hi
  have hr : ∀ m : String, m ++ "_1" ≠ "r" ∧ m ++ "_2" ≠ "r" := by
    have l1 : "_1".length = 2 := by decide
    have l2 : "_2".length = 2 := by decide
    have l3 : "r".length = 1 := by decide
    intro m
    constructor <;> intro h <;> have := congrArg String.length h <;>
      rw [String.length_append] at this <;> omega
  intro hmem
  obtain ⟨i, hi, hi2⟩ := List.mem_iff_getElem.1 hmem
  have hp : ("r", xml[i]'(hl ▸ hi)) ∈ names.zip xml := by
    rw [List.mem_iff_getElem]
    exact ⟨i, by simp [hi, hl ▸ hi], by simp [hi2]⟩
  rcases (he _).1 hp with ⟨m, hm1, hm2, a', b', d1, d2, hc⟩ | ⟨-, hn, -⟩ | ⟨-, hn, -⟩
  · rcases hc with ⟨rfl, hp⟩ | ⟨-, hp | hp⟩
    · simp only [Prod.mk.injEq] at hp
      obtain ⟨rfl, -⟩ := hp
      have e1 := (atName_iff _ _ _ _ hm1).2 d1
      rw [(atName_iff _ _ _ _ hm1).2 h1] at e1; cases e1
      have e2 := (atName_iff _ _ _ _ hm2).2 d2
      rw [(atName_iff _ _ _ _ hm2).2 h2] at e2; cases e2
      exact hab rfl
    · simp only [Prod.mk.injEq] at hp
      exact (hr m).1 hp.1.symm
    · simp only [Prod.mk.injEq] at hp
      exact (hr m).2 hp.1.symm
  · exact hn m2
  · exact hn m1

/-- **C57** is violated: if the first input has a rule `r_1` besides the rule `r` that differs, the union
has two rules named `r_1`. -/
theorem union_collides (ord : SetOrder) (replace : String → String → String → String) :
    ∃ n1 x1 n2 x2 names xml, n1.Nodup ∧ n2.Nodup ∧ n1.length = x1.length ∧ n2.length = x2.length ∧
      unionNamed ord replace n1 x1 n2 x2 = .ok (names, xml) ∧ ¬ names.Nodup := by
  have p1 : ord.strs ["r"] = ["r"] := perm_single (ord.strs_perm _)
  have p2 : ord.strs ["r_1"] = ["r_1"] := perm_single (ord.strs_perm _)
  have p3 : ord.strs [] = [] := perm_empty (ord.strs_perm _)
  have e1 : (toSet id ["r", "r_1"]).filter (fun n => decide (n ∈ toSet id ["r"])) = ["r"] := by decide +kernel
  have e2 : (toSet id ["r", "r_1"]).filter (fun n => decide (n ∉ toSet id ["r"])) = ["r_1"] := by decide +kernel
  have e3 : (toSet id ["r"]).filter (fun n => decide (n ∉ toSet id ["r", "r_1"])) = [] := by decide +kernel
  refine ⟨["r", "r_1"], ["x", "y"], ["r"], ["z"], ["r_1", "r_2", "r_1"],
    [replace "r" "r_1" "x", replace "r" "r_2" "z", "y"], by decide, by decide, rfl, rfl, ?_, by decide⟩
  unfold unionNamed
  simp only [e1, e2, e3, p1, p2, p3]
  rfl

/-! Non-vacuity: two lists of rules sharing one name with the same XML. -/
example : Defines ["r", "s"] ["x", "y"] "s" "y" := ⟨1, rfl, rfl, by
  intro j hj
  have : j = 0 := by omega
  subst this
  decide⟩

end Lgr.Props.C57
