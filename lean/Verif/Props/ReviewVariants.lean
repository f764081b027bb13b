import Verif.Props.ReviewReport

/-!
# C85, C86: additional code points; comparison of the variants of a mapping
-/

namespace Lgr.Props.C85
open Lgr Review Repertoire

/-- What **C85** says: the additional code points are those of the table which are neither in the reference nor
in a variant set of the table. -/
def Exact (idn ref : Repertoire) (l : List Seq) : Prop :=
  ∀ k, k ∈ l ↔ idn.hasCp k = true ∧ ref.hasCp k = false ∧ ∀ s ∈ idn.getVariantSets true, k ∉ s

theorem mem_additional {idn ref : Repertoire} (h : WF idn) (sets : Sets) (k : Seq) :
    k ∈ additionalInSets idn ref sets ↔ (∃ c ∈ idn.iter, c.cp = k) ∧ ref.hasCp k = false := by
  have hne : ∀ c ∈ idn.iter, (zipAll (sets.map Prod.snd)).any (tupleEq c.cp) = false := by
    intro c hc
    have : c.cp ≠ [] := by
      intro h1
      have := C26.iter_mem h hc
      rw [h1] at this; simp [lookup] at this
    rw [List.any_eq_false]
    intro t _
    simp [tupleEq, this]
  unfold additionalInSets
  rw [List.mem_map]
  constructor
  · rintro ⟨c, hc, rfl⟩
    rw [List.mem_filter] at hc
    obtain ⟨hc, h1⟩ := hc
    rw [hne c hc] at h1
    exact ⟨⟨c, hc, rfl⟩, by simpa using h1⟩
  · rintro ⟨⟨c, hc, rfl⟩, h1⟩
    refine ⟨c, ?_, rfl⟩
    rw [List.mem_filter]
    exact ⟨hc, by rw [hne c hc, h1]; rfl⟩

/-- **C85** holds for tables without ranges and whose variants sets are in the reference. Without the second
hypothesis code points of variant sets are listed, too; nothing else is, and nothing is missing. -/
theorem additional_partial {idn ref : Repertoire} (h : WF idn)
    (hn : ∀ k c, idn.lookup k = some c → c.range = none) (sets : Sets) :
    (∀ k, k ∈ additionalInSets idn ref sets ↔ idn.hasCp k = true ∧ ref.hasCp k = false) ∧
    ((∀ s ∈ idn.getVariantSets true, ∀ k ∈ s, ref.hasCp k = true) → Exact idn ref (additionalInSets idn ref sets)) := by
  have key : ∀ k, k ∈ additionalInSets idn ref sets ↔ idn.hasCp k = true ∧ ref.hasCp k = false := by
    intro k
    rw [mem_additional h, hasCp_iff, Option.isSome_iff_exists]
    refine and_congr_left fun _ => ?_
    constructor
    · rintro ⟨c, hc, rfl⟩; exact ⟨c, (C82.mem_iter h hn c).1 hc⟩
    · rintro ⟨c, hc⟩
      have := lookup_cp hc
      exact ⟨c, (C82.mem_iter h hn c).2 (this ▸ hc), this⟩
  refine ⟨key, fun hs k => ?_⟩
  rw [key]
  constructor
  · rintro ⟨h1, h2⟩
    refine ⟨h1, h2, fun s hs' hk => ?_⟩
    rw [hs s hs' k hk] at h2; cases h2
  · rintro ⟨h1, h2, _⟩; exact ⟨h1, h2⟩

/-- **C85** is violated: a code point in a variant set is listed, -/
theorem listed : ¬ Exact (LGR.run {} (C87.clique [97, 98])).rep {}
    (additionalInSets (LGR.run {} (C87.clique [97, 98])).rep {} (setsById ((LGR.run {} (C87.clique [97, 98])).rep.getVariantSets true))) := by
  intro h
  have := ((h [97]).1 (by decide +kernel)).2.2 [[97], [98]] (by decide +kernel)
  exact this (by decide)

/-- and of a range only the first code point is, even if only this one is in the reference. -/
theorem range_lost : ¬ Exact (C82.ranged {}) (LGR.run {} [C84.cp 97]).rep
    (additionalInSets (C82.ranged {}) (LGR.run {} [C84.cp 97]).rep []) := by
  intro h
  have h1 := (h [98]).2 ⟨by decide +kernel, by decide +kernel, by
    have : (C82.ranged {}).getVariantSets true = [] := by decide +kernel
    rw [this]; simp⟩
  revert h1
  decide +kernel

/-- A table without ranges, one set of which is in the reference. -/
example :
    let idn := (LGR.run {} (C87.clique [97, 98] ++ [C84.cp 99])).rep
    let ref := (LGR.run {} (C87.clique [97, 98])).rep
    WF idn ∧ (∀ c ∈ idn.allChars, c.range = none) ∧ (∀ s ∈ idn.getVariantSets true, ∀ k ∈ s, ref.hasCp k = true) ∧
    additionalInSets idn ref (setsById (idn.getVariantSets true)) = [[99]] :=
  ⟨(run_wf _).1, by decide +kernel, by decide +kernel, by decide +kernel⟩

end Lgr.Props.C85

namespace Lgr.Props.C86
open Lgr Review

/-- The context of a variant. -/
inductive Cond where
  | always | when (r : String) | notWhen (r : String)
  deriving DecidableEq

/-- `v` has the context. -/
def Has (v : Variant) : Cond → Prop
  | .always => v.whenR = none ∧ v.notWhenR = none
  | .when r => r ≠ "" ∧ v.whenR = some r ∧ v.notWhenR = none
  | .notWhen r => r ≠ "" ∧ v.whenR = none ∧ v.notWhenR = some r

/-- Both always, both under a condition, or both under a negative condition. -/
def SameKind : Cond → Cond → Prop
  | .always, .always => True
  | .when _, .when _ => True
  | .notWhen _, .notWhen _ => True
  | _, _ => False

/-- The types of variants, from the most permissive. -/
def Stricter (t u : Option String) : Prop :=
  ∃ a b, t = some a ∧ u = some b ∧ a ∈ typesOrder ∧ b ∈ typesOrder ∧ typesOrder.idxOf b < typesOrder.idxOf a

/-- What the result means, for one variant of the table and one of the reference. -/
def Says (a : Cond) (t : Option String) (b : Cond) (u : Option String) : Result → Prop
  | .matched => a = b ∧ t = u
  | .note => a = b ∧ Stricter t u
  | .review => (a ≠ .always ∧ b = .always) ∨ (SameKind a b ∧ t ≠ u ∧ ¬ Stricter t u)
  | .manualCheck => a ≠ b ∧ ¬ (a ≠ .always ∧ b = .always) ∧ ¬ (SameKind a b ∧ t ≠ u ∧ ¬ Stricter t u)
  | .subset => False

/-- The three types of a mapping with one variant. -/
def triple (t : Option String) : Cond → List (Option String)
  | .always => [some "", some "", t]
  | .when _ => [t, some "", some ""]
  | .notWhen _ => [some "", t, some ""]

def whenOf : Cond → Option String
  | .when r => some r
  | _ => none

def notWhenOf : Cond → Option String
  | .notWhen r => some r
  | _ => none

theorem truthy_some {r : String} (h : r ≠ "") : truthy (some r) = true := by
  rw [C26.truthy_iff]; exact ⟨r, rfl, h⟩

theorem side_single {order : List Variant → List Variant} (ho : ∀ v, order [v] = [v]) {d : VData} {rev : Bool}
    {v : Variant} (hd : (if rev then d.rev else d.fwd) = [v]) : d.side order rev = [v] := by
  unfold VData.side
  rw [hd]
  simp [vset, vadd, ho]

theorem get_single {order : List Variant → List Variant} (ho : ∀ v, order [v] = [v]) {d : VData} {rev : Bool}
    {v : Variant} (hd : (if rev then d.rev else d.fwd) = [v]) {a : Cond} (ha : Has v a) :
    d.getWhen order rev = whenOf a ∧ d.getNotWhen order rev = notWhenOf a ∧
      d.typeTriple order rev = triple v.type a := by
  unfold VData.getWhen VData.getNotWhen VData.typeTriple
  rw [side_single ho hd]
  cases a with
  | always =>
    obtain ⟨h1, h2⟩ := ha
    simp [h1, h2, truthy, whenOf, notWhenOf, triple, typeOf]
  | when r =>
    obtain ⟨h0, h1, h2⟩ := ha
    have := truthy_some h0
    simp [h1, h2, this, whenOf, notWhenOf, triple, typeOf]
    simp [truthy]
  | notWhen r =>
    obtain ⟨h0, h1, h2⟩ := ha
    have := truthy_some h0
    simp [h1, h2, this, whenOf, notWhenOf, triple, typeOf]
    simp [truthy]

/-- The comparison of two types. -/
def cmp (t u : Option String) : TypeCheck :=
  if t = u then .same
  else
    match typeIndex t, typeIndex u with
    | some i, some j => if i < j then .lessConservative else .moreConservative
    | _, _ => .unknown

theorem types_single {t u : Option String} (ht : t ≠ some "") (hu : u ≠ some "") {a b : Cond} (h : SameKind a b) :
    typesOf (triple t a) (triple u b) = some (cmp t u) := by
  cases a <;> cases b <;> simp only [SameKind] at h
  all_goals
    by_cases he : t = u
    · subst he; simp [typesOf, triple, cmp]
    · simp only [typesOf, triple, cmp, List.cons.injEq, he, and_true, and_false, false_and, true_and, if_false,
        List.zip_cons_cons, List.zip_nil_right, typeLoop, ht, hu, or_self, true_or, if_true]
      cases typeIndex t with
      | none => rfl
      | some i =>
        cases typeIndex u with
        | none => rfl
        | some j => rfl

theorem types_other {t u : Option String} (ht : t ≠ some "") {a b : Cond} (h : ¬ SameKind a b) :
    typesOf (triple t a) (triple u b) = none := by
  cases a <;> cases b <;> simp only [SameKind, not_true_eq_false] at h
  all_goals simp [typesOf, triple, typeLoop, ht]

theorem index_some {t : Option String} {i : Nat} :
    typeIndex t = some i ↔ ∃ a, t = some a ∧ a ∈ typesOrder ∧ typesOrder.idxOf a = i := by
  unfold typeIndex
  cases t with
  | none => simp
  | some a => by_cases h : a ∈ typesOrder <;> simp [h]

theorem stricter_iff {t u : Option String} : Stricter t u ↔ ∃ i j, typeIndex t = some i ∧ typeIndex u = some j ∧ j < i := by
  simp only [index_some, Stricter]
  constructor
  · rintro ⟨a, b, h1, h2, h3, h4, h5⟩; exact ⟨_, _, ⟨a, h1, h3, rfl⟩, ⟨b, h2, h4, rfl⟩, h5⟩
  · rintro ⟨_, _, ⟨a, h1, h3, rfl⟩, ⟨b, h2, h4, rfl⟩, h5⟩; exact ⟨a, b, h1, h2, h3, h4, h5⟩

theorem index_inj {t u : Option String} {i : Nat} (h1 : typeIndex t = some i) (h2 : typeIndex u = some i) : t = u := by
  obtain ⟨a, rfl, ha, h3⟩ := index_some.1 h1
  obtain ⟨b, rfl, hb, h4⟩ := index_some.1 h2
  rw [(List.idxOf_inj ha).1 (h3.trans h4.symm)]

theorem cmp_spec (t u : Option String) :
    (cmp t u = .same ↔ t = u) ∧ (cmp t u = .moreConservative ↔ Stricter t u) ∧
    ((cmp t u = .lessConservative ∨ cmp t u = .unknown) ↔ t ≠ u ∧ ¬ Stricter t u) := by
  rw [stricter_iff]
  unfold cmp
  by_cases he : t = u
  · subst he
    simp only [if_true, reduceCtorEq, or_self, false_iff, true_and, iff_true, ne_eq, not_true_eq_false, false_and,
      not_false_eq_true, and_true]
    rintro ⟨i, j, h1, h2, h3⟩
    rw [h1] at h2; injection h2 with h2; omega
  · rw [if_neg he]
    cases h1 : typeIndex t with
    | none => simp [he]
    | some i =>
      cases h2 : typeIndex u with
      | none => simp [he]
      | some j =>
        simp only [Option.some.injEq]
        have hij : i ≠ j := by rintro rfl; exact he (index_inj h1 h2)
        have hex : (∃ i' j', i = i' ∧ j = j' ∧ j' < i') ↔ j < i := by
          constructor
          · rintro ⟨_, _, rfl, rfl, h⟩; exact h
          · intro h; exact ⟨_, _, rfl, rfl, h⟩
        rw [hex]
        by_cases hlt : i < j
        · simp [hlt, he]; omega
        · simp [hlt, he]; omega

/-- The comparison of rules, for one variant each. -/
theorem rules_single {a b : Cond} (ha : ∀ r, (a = .when r ∨ a = .notWhen r) → r ≠ "")
    (hb : ∀ r, (b = .when r ∨ b = .notWhen r) → r ≠ "") :
    (rulesOf (whenOf a) (notWhenOf a) (whenOf b) (notWhenOf b) = .same ↔ a = b) ∧
    (rulesOf (whenOf a) (notWhenOf a) (whenOf b) (notWhenOf b) = .lessConservative ↔ a ≠ .always ∧ b = .always) := by
  have tr : ∀ {r : String}, r ≠ "" → truthy (some r) = true := truthy_some
  have tn : truthy none = false := rfl
  cases a with
  | always =>
    cases b with
    | always => simp [rulesOf]
    | when s => simp [rulesOf, whenOf, notWhenOf, tr (hb s (Or.inl rfl)), tn]
    | notWhen s => simp [rulesOf, whenOf, notWhenOf, tr (hb s (Or.inr rfl)), tn]
  | when r =>
    have hr := tr (ha r (Or.inl rfl))
    cases b with
    | always => simp [rulesOf, whenOf, notWhenOf, hr, tn]
    | when s =>
      by_cases h : r = s
      · subst h; simp [rulesOf, whenOf, notWhenOf]
      · simp [rulesOf, whenOf, notWhenOf, hr, tr (hb s (Or.inl rfl)), tn, h]
    | notWhen s => simp [rulesOf, whenOf, notWhenOf, hr, tr (hb s (Or.inr rfl)), tn]
  | notWhen r =>
    have hr := tr (ha r (Or.inr rfl))
    cases b with
    | always => simp [rulesOf, whenOf, notWhenOf, hr, tn]
    | when s => simp [rulesOf, whenOf, notWhenOf, hr, tr (hb s (Or.inl rfl)), tn]
    | notWhen s =>
      by_cases h : r = s
      · subst h; simp [rulesOf, whenOf, notWhenOf]
      · simp [rulesOf, whenOf, notWhenOf, hr, tr (hb s (Or.inr rfl)), tn, h]

theorem has_ne {v : Variant} {a : Cond} (h : Has v a) : ∀ r, (a = .when r ∨ a = .notWhen r) → r ≠ "" := by
  rintro r (rfl | rfl)
  · exact h.1
  · exact h.1

/-- **C86** If both LGRs have one variant for a mapping, the result (not always the remark) is right: a match
iff rules and types are the same; a note iff the rules are the same and the type of the table is stricter;
review iff only the table has a rule, or types under the same kind of condition differ and that of the table is
not known to be stricter; manual check otherwise. Missing: mappings with several variants, and the remarks. -/
theorem single_partial {order : List Variant → List Variant} (ho : ∀ v, order [v] = [v]) {i r : VData} {rev : Bool}
    {v w : Variant} (hi : (if rev then i.rev else i.fwd) = [v]) (hr : (if rev then r.rev else r.fwd) = [w])
    (hi' : i.fwd ≠ []) (hr' : r.fwd ≠ []) {a b : Cond} (ha : Has v a) (hb : Has w b) (ht : v.type ≠ some "")
    (hu : w.type ≠ some "") (inRep : Bool) :
    ∃ p, variantVerdict order false false i r rev inRep = .ok p ∧
      ∀ x, p.1 = x ↔ Says a v.type b w.type x := by
  obtain ⟨e1, e2, e3⟩ := get_single ho hi ha
  obtain ⟨f1, f2, f3⟩ := get_single ho hr hb
  obtain ⟨r1, r2⟩ := rules_single (has_ne ha) (has_ne hb)
  have hv : variantVerdict order false false i r rev inRep = decideChecks (checkRules order i r rev) (checkType order i r rev) := by
    simp [variantVerdict, hi', hr']
  rw [hv]
  unfold checkRules checkType
  rw [e1, e2, e3, f1, f2, f3]
  generalize hrc : rulesOf (whenOf a) (notWhenOf a) (whenOf b) (notWhenOf b) = rc at r1 r2 ⊢
  by_cases hk : SameKind a b
  · rw [types_single ht hu hk]
    obtain ⟨c1, c2, c3⟩ := cmp_spec v.type w.type
    generalize cmp v.type w.type = tc at c1 c2 c3 ⊢
    have hna : ¬ (a ≠ .always ∧ b = .always) := by
      rintro ⟨h1, rfl⟩; cases a <;> simp [SameKind] at hk h1
    have hnl : rc ≠ .lessConservative := fun h => hna (r2.1 h)
    have hns : Stricter v.type w.type → v.type ≠ w.type := by
      intro h h'
      have := c2.2 h
      rw [c1.2 h'] at this; cases this
    cases tc <;> cases rc <;> simp only [reduceCtorEq, ne_eq, not_true_eq_false, true_iff, false_iff, iff_true,
        iff_false, or_self, or_true, true_or] at c1 c2 c3 hnl r1
    all_goals
      refine ⟨_, rfl, fun x => ?_⟩
      cases x <;> simp_all [Says]
  · rw [types_other ht hk]
    have hne : a ≠ b := by
      rintro rfl; cases a <;> simp [SameKind] at hk
    cases rc
    · exact absurd (r1.1 rfl) hne
    all_goals
      simp only [reduceCtorEq, false_iff, true_iff] at r1 r2
      refine ⟨_, rfl, fun x => ?_⟩
      cases x <;> simp_all [Says]

end Lgr.Props.C86
