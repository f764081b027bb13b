import Verif.Props.ReviewResults

/-!
# C86: mappings with one variant of each kind
-/

namespace Lgr.Props.C86
open Lgr Review

/-! ## Specification -/

/-- The variant is in order: at most one rule, with a name, and no empty type. -/
def Sound (v : Variant) : Prop :=
  (v.whenR = none ∨ v.notWhenR = none) ∧ v.whenR ≠ some "" ∧ v.notWhenR ≠ some "" ∧ v.type ≠ some ""

/-- At most one variant with a when rule, one with a not-when rule, and one without a rule (as far as rule and type go). -/
def OneEach (l : List Variant) : Prop :=
  ∀ v ∈ l, ∀ w ∈ l, v.whenR.isSome = w.whenR.isSome → v.notWhenR.isSome = w.notWhenR.isSome →
    v.whenR = w.whenR ∧ v.notWhenR = w.notWhenR ∧ v.type = w.type

/-- With or without when and not-when rule. -/
def kind (v : Variant) : Bool × Bool := (v.whenR.isSome, v.notWhenR.isSome)

/-- Both types are known, and the first is not more permissive than the second. -/
def NotLaxer (t u : Option String) : Prop :=
  ∃ a b, t = some a ∧ u = some b ∧ a ∈ typesOrder ∧ b ∈ typesOrder ∧ typesOrder.idxOf b ≤ typesOrder.idxOf a

/-- The same rules are used on both sides. -/
def SameRules (l m : List Variant) : Prop :=
  (∀ r, (∃ v ∈ l, v.whenR = some r) ↔ ∃ v ∈ m, v.whenR = some r) ∧
    ∀ r, (∃ v ∈ l, v.notWhenR = some r) ↔ ∃ v ∈ m, v.notWhenR = some r

/-- The same kinds of variants with the same types are on both sides. -/
def SameTypes (l m : List Variant) : Prop :=
  ∀ k t, (∃ v ∈ l, kind v = k ∧ v.type = t) ↔ ∃ v ∈ m, kind v = k ∧ v.type = t

/-- Rules of one sort on the left, and none on the right. -/
def OnlyLeft (l m : List Variant) : Prop :=
  ((∃ v ∈ l, v.whenR ≠ none) ↔ ¬ ∃ v ∈ l, v.notWhenR ≠ none) ∧ ∀ v ∈ m, v.whenR = none ∧ v.notWhenR = none

/-- The variants of some kind differ, and those of some kind are (or may be) more permissive on the left. -/
def Laxer (l m : List Variant) : Prop :=
  ¬ SameTypes l m ∧ ∃ v ∈ l, ∃ w ∈ m, kind v = kind w ∧ ¬ NotLaxer v.type w.type

/-- What the result means, for one variant of each kind. -/
def SaysAll (l m : List Variant) : Result → Prop
  | .matched => Equal l m
  | .note => ¬ Equal l m ∧ SameRules l m ∧ ∀ v ∈ l, ∀ w ∈ m, kind v = kind w → NotLaxer v.type w.type
  | .review => OnlyLeft l m ∨ Laxer l m
  | .manualCheck => ¬ SameRules l m ∧ ¬ OnlyLeft l m ∧ ¬ Laxer l m
  | .subset => False

/-! ## Shapes -/

/-- The variant of each kind. -/
structure Shape where
  w : Option (String × Option String)
  n : Option (String × Option String)
  a : Option (Option String)

/-- A variant of the shape. -/
def Shape.Has (s : Shape) (w n t : Option String) : Prop :=
  (∃ r, w = some r ∧ n = none ∧ s.w = some (r, t)) ∨ (∃ r, w = none ∧ n = some r ∧ s.n = some (r, t)) ∨
    (w = none ∧ n = none ∧ s.a = some t)

/-- Names and types are not empty. -/
structure Shape.Fine (s : Shape) : Prop where
  w : ∀ r t, s.w = some (r, t) → r ≠ "" ∧ t ≠ some ""
  n : ∀ r t, s.n = some (r, t) → r ≠ "" ∧ t ≠ some ""
  a : ∀ t, s.a = some t → t ≠ some ""

/-- The variants of the list have this shape. -/
def Shaped (l : List Variant) (s : Shape) : Prop :=
  ∀ w n t, (∃ v ∈ l, v.whenR = w ∧ v.notWhenR = n ∧ v.type = t) ↔ s.Has w n t

theorem has_inj {s s' : Shape} (h : ∀ w n t, s.Has w n t ↔ s'.Has w n t) : s = s' := by
  have hw : s.w = s'.w := by
    apply Option.ext
    rintro ⟨r, t⟩
    have := h (some r) none t
    simpa [Shape.Has] using this
  have hn : s.n = s'.n := by
    apply Option.ext
    rintro ⟨r, t⟩
    have := h none (some r) t
    simpa [Shape.Has] using this
  have ha : s.a = s'.a := by
    apply Option.ext
    intro t
    have := h none none t
    simpa [Shape.Has] using this
  cases s
  cases s'
  simp only at hw hn ha
  rw [hw, hn, ha]

theorem shape_of {l : List Variant} (hs : ∀ v ∈ l, Sound v) (h1 : OneEach l) : ∃ s, Shaped l s ∧ s.Fine := by
  classical
  let s : Shape :=
    { w := (l.find? (fun v => v.whenR.isSome)).bind (fun v => v.whenR.map (·, v.type))
      n := (l.find? (fun v => v.notWhenR.isSome)).bind (fun v => v.notWhenR.map (·, v.type))
      a := (l.find? (fun v => v.whenR.isNone && v.notWhenR.isNone)).map Variant.type }
  have hw : ∀ r t, s.w = some (r, t) ↔ ∃ v ∈ l, v.whenR = some r ∧ v.type = t := by
    intro r t
    constructor
    · intro h
      obtain ⟨v, h2, h3⟩ := Option.bind_eq_some_iff.1 h
      obtain ⟨r', h4, h5⟩ := Option.map_eq_some_iff.1 h3
      cases h5
      exact ⟨v, List.mem_of_find?_eq_some h2, h4, rfl⟩
    · rintro ⟨v, hv, h2, rfl⟩
      cases hf : l.find? (fun v => v.whenR.isSome) with
      | none =>
        rw [List.find?_eq_none] at hf
        exact absurd (by rw [h2]; rfl) (hf v hv)
      | some u =>
        have hu := List.mem_of_find?_eq_some hf
        have hp := List.find?_some hf
        have e1 : v.notWhenR = none := by rcases (hs v hv).1 with h | h; · rw [h] at h2; cases h2
                                          · exact h
        have e2 : u.notWhenR = none := by rcases (hs u hu).1 with h | h; · rw [h] at hp; cases hp
                                          · exact h
        obtain ⟨g1, -, g3⟩ := h1 u hu v hv (by rw [h2]; exact hp) (by rw [e1, e2])
        show (l.find? (fun v => v.whenR.isSome)).bind _ = _
        rw [hf]
        simp [g1, h2, g3]
  have hn : ∀ r t, s.n = some (r, t) ↔ ∃ v ∈ l, v.notWhenR = some r ∧ v.type = t := by
    intro r t
    constructor
    · intro h
      obtain ⟨v, h2, h3⟩ := Option.bind_eq_some_iff.1 h
      obtain ⟨r', h4, h5⟩ := Option.map_eq_some_iff.1 h3
      cases h5
      exact ⟨v, List.mem_of_find?_eq_some h2, h4, rfl⟩
    · rintro ⟨v, hv, h2, rfl⟩
      cases hf : l.find? (fun v => v.notWhenR.isSome) with
      | none =>
        rw [List.find?_eq_none] at hf
        exact absurd (by rw [h2]; rfl) (hf v hv)
      | some u =>
        have hu := List.mem_of_find?_eq_some hf
        have hp := List.find?_some hf
        have e1 : v.whenR = none := by rcases (hs v hv).1 with h | h; · exact h
                                       · rw [h] at h2; cases h2
        have e2 : u.whenR = none := by rcases (hs u hu).1 with h | h; · exact h
                                       · rw [h] at hp; cases hp
        obtain ⟨-, g1, g3⟩ := h1 u hu v hv (by rw [e1, e2]) (by rw [h2]; exact hp)
        show (l.find? (fun v => v.notWhenR.isSome)).bind _ = _
        rw [hf]
        simp [g1, h2, g3]
  have ha : ∀ t, s.a = some t ↔ ∃ v ∈ l, v.whenR = none ∧ v.notWhenR = none ∧ v.type = t := by
    intro t
    constructor
    · intro h
      obtain ⟨v, h2, h3⟩ := Option.map_eq_some_iff.1 h
      have hp := List.find?_some h2
      simp only [Bool.and_eq_true, Option.isNone_iff_eq_none] at hp
      exact ⟨v, List.mem_of_find?_eq_some h2, hp.1, hp.2, h3⟩
    · rintro ⟨v, hv, h2, h3, rfl⟩
      cases hf : l.find? (fun v => v.whenR.isNone && v.notWhenR.isNone) with
      | none =>
        rw [List.find?_eq_none] at hf
        exact absurd (by rw [h2, h3]; rfl) (hf v hv)
      | some u =>
        have hu := List.mem_of_find?_eq_some hf
        have hp := List.find?_some hf
        simp only [Bool.and_eq_true, Option.isNone_iff_eq_none] at hp
        obtain ⟨-, -, g3⟩ := h1 u hu v hv (by rw [h2, hp.1]) (by rw [h3, hp.2])
        show (l.find? (fun v => v.whenR.isNone && v.notWhenR.isNone)).map _ = _
        rw [hf]
        simp [g3]
  refine ⟨s, fun w n t => ?_, ⟨fun r t h => ?_, fun r t h => ?_, fun t h => ?_⟩⟩
  · unfold Shape.Has
    constructor
    · rintro ⟨v, hv, rfl, rfl, rfl⟩
      cases e1 : v.whenR with
      | some r =>
        left
        refine ⟨r, rfl, ?_, (hw r _).2 ⟨v, hv, e1, rfl⟩⟩
        rcases (hs v hv).1 with h | h
        · rw [h] at e1; cases e1
        · exact h
      | none =>
        right
        cases e2 : v.notWhenR with
        | some r => exact .inl ⟨r, rfl, rfl, (hn r _).2 ⟨v, hv, e2, rfl⟩⟩
        | none => exact .inr ⟨rfl, rfl, (ha _).2 ⟨v, hv, e1, e2, rfl⟩⟩
    · rintro (⟨r, rfl, rfl, h⟩ | ⟨r, rfl, rfl, h⟩ | ⟨rfl, rfl, h⟩)
      · obtain ⟨v, hv, h2, h3⟩ := (hw r t).1 h
        refine ⟨v, hv, h2, ?_, h3⟩
        rcases (hs v hv).1 with h | h
        · rw [h] at h2; cases h2
        · exact h
      · obtain ⟨v, hv, h2, h3⟩ := (hn r t).1 h
        refine ⟨v, hv, ?_, h2, h3⟩
        rcases (hs v hv).1 with h | h
        · exact h
        · rw [h] at h2; cases h2
      · exact (ha t).1 h
  · obtain ⟨v, hv, h2, h3⟩ := (hw r t).1 h
    refine ⟨?_, by rw [← h3]; exact (hs v hv).2.2.2⟩
    rintro rfl
    exact (hs v hv).2.1 h2
  · obtain ⟨v, hv, h2, h3⟩ := (hn r t).1 h
    refine ⟨?_, by rw [← h3]; exact (hs v hv).2.2.2⟩
    rintro rfl
    exact (hs v hv).2.2.1 h2
  · obtain ⟨v, hv, h2, h3, h4⟩ := (ha t).1 h
    rw [← h4]
    exact (hs v hv).2.2.2

/-! ## What is read off the variants -/

theorem mem_vadds_from : ∀ {l acc : List Variant} {v : Variant}, v ∈ l.foldl vadd acc → v ∈ acc ∨ v ∈ l
  | [], _, _, h => .inl h
  | x :: l, acc, v, h => by
    rcases mem_vadds_from (l := l) h with h | h
    · unfold vadd at h
      split at h
      · exact .inl h
      · rcases List.mem_append.1 h with h | h
        · exact .inl h
        · exact .inr (by simp at h; simp [h])
    · exact .inr (List.mem_cons_of_mem _ h)

theorem vadds_keys : ∀ {l acc : List Variant} {k}, k ∈ acc.map Variant.key ∨ k ∈ l.map Variant.key →
    k ∈ (l.foldl vadd acc).map Variant.key
  | [], _, _, h => by simpa using h
  | x :: l, acc, k, h => by
    apply vadds_keys (l := l)
    rw [List.map_cons, List.mem_cons] at h
    by_cases hx : x.key ∈ acc.map Variant.key
    · rw [vadd, if_pos hx]
      rcases h with h | rfl | h
      · exact .inl h
      · exact .inl hx
      · exact .inr h
    · rw [vadd, if_neg hx]
      rcases h with h | rfl | h
      · exact .inl (by simp only [List.map_append, List.mem_append]; exact .inl h)
      · exact .inl (by simp)
      · exact .inr h

/-- Making a set of the variants keeps the shape. -/
theorem side_shaped {order : List Variant → List Variant} (ho : ∀ l v, v ∈ order l ↔ v ∈ l) {d : VData} {rev : Bool} {s : Shape}
    (h1 : OneEach (if rev then d.rev else d.fwd)) (hs : Shaped (if rev then d.rev else d.fwd) s) : Shaped (d.side order rev) s := by
  unfold VData.side
  generalize (if rev then d.rev else d.fwd) = l at h1 hs ⊢
  intro w n t
  rw [← hs w n t]
  constructor
  · rintro ⟨v, hv, h⟩
    rw [ho] at hv
    rcases mem_vadds_from hv with hv | hv
    · cases hv
    · exact ⟨v, hv, h⟩
  · rintro ⟨v, hv, rfl, rfl, rfl⟩
    have := vadds_keys (l := l) (acc := []) (k := v.key) (.inr (List.mem_map_of_mem hv))
    obtain ⟨u, hu, hk⟩ := List.mem_map.1 this
    have hul : u ∈ l := by
      rcases mem_vadds_from hu with h | h
      · cases h
      · exact h
    have hk' : u.whenR = v.whenR ∧ u.notWhenR = v.notWhenR := by
      unfold Variant.key at hk
      simp only [Prod.mk.injEq] at hk
      exact hk.2
    obtain ⟨-, -, h3⟩ := h1 u hul v hv (by rw [hk'.1]) (by rw [hk'.2])
    exact ⟨u, (ho _ _).2 hu, hk'.1, hk'.2, h3⟩

theorem truthy_of {o : Option String} (h : o ≠ some "") : truthy o = o.isSome := by
  cases o with
  | none => rfl
  | some r => exact truthy_some (by rintro rfl; exact h rfl)

def Shape.types (s : Shape) : List (Option String) :=
  [(s.w.map Prod.snd).getD (some ""), (s.n.map Prod.snd).getD (some ""), s.a.getD (some "")]

theorem read_off {L : List Variant} {s : Shape} (h : Shaped L s) (hf : s.Fine) :
    (L.find? (fun v => truthy v.whenR)).bind Variant.whenR = s.w.map Prod.fst ∧
    (L.find? (fun v => truthy v.notWhenR)).bind Variant.notWhenR = s.n.map Prod.fst ∧
    [typeOf (L.find? (fun v => truthy v.whenR)), typeOf (L.find? (fun v => truthy v.notWhenR)),
      typeOf (L.find? (fun v => !truthy v.whenR && !truthy v.notWhenR))] = s.types := by
  have hv : ∀ v ∈ L, s.Has v.whenR v.notWhenR v.type := fun v hv => (h _ _ _).1 ⟨v, hv, rfl, rfl, rfl⟩
  have hw0 : ∀ v ∈ L, v.whenR ≠ some "" ∧ v.notWhenR ≠ some "" := by
    intro v hvL
    rcases hv v hvL with ⟨r, e1, e2, e3⟩ | ⟨r, e1, e2, e3⟩ | ⟨e1, e2, e3⟩
    · refine ⟨?_, by rw [e2]; simp⟩
      rw [e1]
      intro hc
      exact (hf.w _ _ e3).1 (by simpa using hc)
    · refine ⟨by rw [e1]; simp, ?_⟩
      rw [e2]
      intro hc
      exact (hf.n _ _ e3).1 (by simpa using hc)
    · rw [e1, e2]; simp
  have hW : L.find? (fun v => truthy v.whenR) = none ∧ s.w = none ∨
      ∃ u r, L.find? (fun v => truthy v.whenR) = some u ∧ u.whenR = some r ∧ s.w = some (r, u.type) := by
    cases hfd : L.find? (fun v => truthy v.whenR) with
    | none =>
      refine .inl ⟨rfl, ?_⟩
      cases hsw : s.w with
      | none => rfl
      | some p =>
        obtain ⟨r, t⟩ := p
        obtain ⟨v, hvL, e1, -, -⟩ := (h (some r) none t).2 (.inl ⟨r, rfl, rfl, hsw⟩)
        rw [List.find?_eq_none] at hfd
        exact absurd (by rw [truthy_of (hw0 v hvL).1, e1]; rfl) (hfd v hvL)
    | some u =>
      right
      have hp := List.find?_some hfd
      have hu := List.mem_of_find?_eq_some hfd
      rw [truthy_of (hw0 u hu).1] at hp
      rcases hv u hu with ⟨r, e1, e2, e3⟩ | ⟨r, e1, e2, e3⟩ | ⟨e1, e2, e3⟩
      · exact ⟨u, r, rfl, e1, e3⟩
      · rw [e1] at hp; cases hp
      · rw [e1] at hp; cases hp
  have hN : L.find? (fun v => truthy v.notWhenR) = none ∧ s.n = none ∨
      ∃ u r, L.find? (fun v => truthy v.notWhenR) = some u ∧ u.notWhenR = some r ∧ s.n = some (r, u.type) := by
    cases hfd : L.find? (fun v => truthy v.notWhenR) with
    | none =>
      refine .inl ⟨rfl, ?_⟩
      cases hsw : s.n with
      | none => rfl
      | some p =>
        obtain ⟨r, t⟩ := p
        obtain ⟨v, hvL, -, e1, -⟩ := (h none (some r) t).2 (.inr (.inl ⟨r, rfl, rfl, hsw⟩))
        rw [List.find?_eq_none] at hfd
        exact absurd (by rw [truthy_of (hw0 v hvL).2, e1]; rfl) (hfd v hvL)
    | some u =>
      right
      have hp := List.find?_some hfd
      have hu := List.mem_of_find?_eq_some hfd
      rw [truthy_of (hw0 u hu).2] at hp
      rcases hv u hu with ⟨r, e1, e2, e3⟩ | ⟨r, e1, e2, e3⟩ | ⟨e1, e2, e3⟩
      · rw [e2] at hp; cases hp
      · exact ⟨u, r, rfl, e2, e3⟩
      · rw [e2] at hp; cases hp
  have hA : typeOf (L.find? (fun v => !truthy v.whenR && !truthy v.notWhenR)) = s.a.getD (some "") := by
    cases hfd : L.find? (fun v => !truthy v.whenR && !truthy v.notWhenR) with
    | none =>
      cases hsw : s.a with
      | none => rfl
      | some t =>
        obtain ⟨v, hvL, e1, e2, -⟩ := (h none none t).2 (.inr (.inr ⟨rfl, rfl, hsw⟩))
        rw [List.find?_eq_none] at hfd
        exact absurd (by rw [e1, e2]; rfl) (hfd v hvL)
    | some u =>
      have hp := List.find?_some hfd
      have hu := List.mem_of_find?_eq_some hfd
      simp only [Bool.and_eq_true, Bool.not_eq_true', truthy_of (hw0 u hu).1, truthy_of (hw0 u hu).2] at hp
      rcases hv u hu with ⟨r, e1, e2, e3⟩ | ⟨r, e1, e2, e3⟩ | ⟨e1, e2, e3⟩
      · rw [e1] at hp; cases hp.1
      · rw [e2] at hp; cases hp.2
      · rw [e3]; rfl
  refine ⟨?_, ?_, ?_⟩
  · rcases hW with ⟨e1, e2⟩ | ⟨u, r, e1, e2, e3⟩
    · rw [e1, e2]; rfl
    · rw [e1, e3]; exact e2
  · rcases hN with ⟨e1, e2⟩ | ⟨u, r, e1, e2, e3⟩
    · rw [e1, e2]; rfl
    · rw [e1, e3]; exact e2
  · unfold Shape.types
    rw [hA]
    have g1 : typeOf (L.find? (fun v => truthy v.whenR)) = (s.w.map Prod.snd).getD (some "") := by
      rcases hW with ⟨e1, e2⟩ | ⟨u, r, e1, e2, e3⟩
      · rw [e1, e2]; rfl
      · rw [e1, e3]; rfl
    have g2 : typeOf (L.find? (fun v => truthy v.notWhenR)) = (s.n.map Prod.snd).getD (some "") := by
      rcases hN with ⟨e1, e2⟩ | ⟨u, r, e1, e2, e3⟩
      · rw [e1, e2]; rfl
      · rw [e1, e3]; rfl
    rw [g1, g2]

/-! ## The verdict on shapes -/

/-- The result and the remark, from the shapes. -/
def verdictOf (s s' : Shape) : Except Err (Result × String) :=
  decideChecks (rulesOf (s.w.map Prod.fst) (s.n.map Prod.fst) (s'.w.map Prod.fst) (s'.n.map Prod.fst)) (typesOf s.types s'.types)

theorem rules_same {a b c d : Option String} : rulesOf a b c d = .same ↔ a = c ∧ b = d := by
  unfold rulesOf
  split
  · simp [*]
  · constructor
    · intro h
      split at h
      · cases h
      · split at h
        · cases h
        · split at h <;> cases h
    · intro h; contradiction

theorem loop_some : ∀ {l : List (Option String × Option String)} {x : TypeCheck}, typeLoop (some x) l ≠ none
  | [], _ => by simp [typeLoop]
  | (a, b) :: l, x => by
    unfold typeLoop
    split
    · exact loop_some
    · split
      · simp only
        split <;> split <;> first | exact loop_some | simp
      · simp

theorem loop_none : ∀ {l : List (Option String × Option String)}, typeLoop none l = none →
    ∀ p ∈ l, p.1 = some "" ∨ p.2 = some ""
  | [], _ => by simp
  | (a, b) :: l, h => by
    unfold typeLoop at h
    split at h
    · rename_i hc
      intro p hp
      rcases List.mem_cons.1 hp with rfl | hp
      · exact hc
      · exact loop_none h p hp
    · split at h
      · exact absurd h loop_some
      · cases h

theorem loop_same : ∀ {l : List (Option String × Option String)} {o : Option TypeCheck}, o ≠ some .same → typeLoop o l ≠ some .same
  | [], o, h => h
  | (a, b) :: l, o, h => by
    unfold typeLoop
    split
    · exact loop_same h
    · split
      · cases o with
        | none =>
          simp only
          refine loop_same ?_
          split <;> simp
        | some old =>
          simp only
          split <;> split <;> first | exact loop_same h | simp
      · simp

theorem types_same {a b : List (Option String)} : typesOf a b = some .same ↔ a = b := by
  unfold typesOf
  split
  · simp [*]
  · constructor
    · intro h; exact absurd h (loop_same (by simp))
    · intro h; contradiction

theorem decide_ok (rc : RuleCheck) (tc : Option TypeCheck) : ∃ p, decideChecks rc tc = .ok p ∧
    (p.1 = .matched ↔ rc = .same ∧ (tc = some .same ∨ tc = none)) := by
  cases rc <;> rcases tc with _ | tc <;> try cases tc
  all_goals exact ⟨_, rfl, by simp⟩

theorem field_eq {p q : Option (String × Option String)} (hp : ∀ r t, p = some (r, t) → r ≠ "" ∧ t ≠ some "")
    (h1 : p.map Prod.fst = q.map Prod.fst) (h2 : (p.map Prod.snd).getD (some "") = (q.map Prod.snd).getD (some "")) : p = q := by
  rcases p with _ | ⟨a, t⟩ <;> rcases q with _ | ⟨b, u⟩ <;> simp_all

theorem verdict_matched {s s' : Shape} (hf : s.Fine) (hf' : s'.Fine) (hne : ∃ w n t, s.Has w n t) (hne' : ∃ w n t, s'.Has w n t) :
    ∃ p, verdictOf s s' = .ok p ∧ (p.1 = .matched ↔ s = s') := by
  obtain ⟨p, h1, h2⟩ := decide_ok (rulesOf (s.w.map Prod.fst) (s.n.map Prod.fst) (s'.w.map Prod.fst) (s'.n.map Prod.fst))
    (typesOf s.types s'.types)
  refine ⟨p, h1, ?_⟩
  rw [h2, rules_same, types_same]
  constructor
  · rintro ⟨⟨e1, e2⟩, e3⟩
    have key : s.types = s'.types := by
      rcases e3 with e3 | e3
      · exact e3
      · by_contra hno
        rw [typesOf, if_neg hno] at e3
        have hz := loop_none e3
        simp only [Shape.types, List.zip_cons_cons, List.zip_nil_right, List.mem_cons, List.not_mem_nil, or_false, forall_eq_or_imp,
          forall_eq] at hz
        obtain ⟨z1, z2, z3⟩ := hz
        have hw : s.w = none ∧ s'.w = none := by
          cases g : s.w with
          | none =>
            rw [g] at e1
            cases g' : s'.w with
            | none => exact ⟨rfl, rfl⟩
            | some q => rw [g'] at e1; cases e1
          | some q =>
            obtain ⟨r, t⟩ := q
            rw [g] at e1
            cases g' : s'.w with
            | none => rw [g'] at e1; cases e1
            | some q' =>
              obtain ⟨r', t'⟩ := q'
              rw [g, g'] at z1
              rcases z1 with z | z
              · exact absurd z (hf.w _ _ g).2
              · exact absurd z (hf'.w _ _ g').2
        have hn : s.n = none ∧ s'.n = none := by
          cases g : s.n with
          | none =>
            rw [g] at e2
            cases g' : s'.n with
            | none => exact ⟨rfl, rfl⟩
            | some q => rw [g'] at e2; cases e2
          | some q =>
            obtain ⟨r, t⟩ := q
            rw [g] at e2
            cases g' : s'.n with
            | none => rw [g'] at e2; cases e2
            | some q' =>
              obtain ⟨r', t'⟩ := q'
              rw [g, g'] at z2
              rcases z2 with z | z
              · exact absurd z (hf.n _ _ g).2
              · exact absurd z (hf'.n _ _ g').2
        have ha : ∀ {x : Shape}, x.w = none → x.n = none → (∃ w n t, x.Has w n t) → ∃ t, x.a = some t := by
          rintro x hxw hxn ⟨w, n, t, h⟩
          rcases h with ⟨r, -, -, h⟩ | ⟨r, -, -, h⟩ | ⟨-, -, h⟩
          · rw [hxw] at h; cases h
          · rw [hxn] at h; cases h
          · exact ⟨t, h⟩
        obtain ⟨t, ht⟩ := ha hw.1 hn.1 hne
        obtain ⟨t', ht'⟩ := ha hw.2 hn.2 hne'
        rw [ht, ht'] at z3
        rcases z3 with z | z
        · exact hf.a _ ht z
        · exact hf'.a _ ht' z
    simp only [Shape.types, List.cons.injEq, and_true] at key
    obtain ⟨k1, k2, k3⟩ := key
    have g1 := field_eq hf.w e1 k1
    have g2 := field_eq hf.n e2 k2
    have g3 : s.a = s'.a := by
      cases g : s.a with
      | none =>
        cases g' : s'.a with
        | none => rfl
        | some t => rw [g, g'] at k3; exact absurd k3.symm (hf'.a _ g')
      | some t =>
        cases g' : s'.a with
        | none => rw [g, g'] at k3; exact absurd k3 (hf.a _ g)
        | some t' => rw [g, g'] at k3; rw [show t = t' from k3]
    cases s
    cases s'
    simp only at g1 g2 g3
    rw [g1, g2, g3]
  · rintro rfl
    exact ⟨⟨rfl, rfl⟩, .inl rfl⟩

/-! ## The other results -/

theorem index_is {t : Option String} {i : Nat} : typeIndex t = some i ↔ ∃ a, t = some a ∧ a ∈ typesOrder ∧ typesOrder.idxOf a = i := by
  unfold typeIndex
  cases t with
  | none => simp
  | some a =>
    simp only [Option.some.injEq, exists_eq_left']
    split <;> simp [*]

theorem notLaxer_iff {t u : Option String} : NotLaxer t u ↔ ∃ i j, typeIndex t = some i ∧ typeIndex u = some j ∧ ¬ i < j := by
  simp only [index_is, NotLaxer]
  constructor
  · rintro ⟨a, b, h1, h2, h3, h4, h5⟩
    exact ⟨_, _, ⟨a, h1, h3, rfl⟩, ⟨b, h2, h4, rfl⟩, by omega⟩
  · rintro ⟨i, j, ⟨a, h1, h3, rfl⟩, ⟨b, h2, h4, rfl⟩, h5⟩
    exact ⟨a, b, h1, h2, h3, h4, by omega⟩

/-- Less conservative or unknown. -/
def Bad (o : Option TypeCheck) : Prop := o = some .lessConservative ∨ o = some .unknown

theorem loop_less : ∀ {l : List (Option String × Option String)}, Bad (typeLoop (some .lessConservative) l)
  | [] => .inl rfl
  | (a, b) :: l => by
    unfold typeLoop
    split
    · exact loop_less
    · split
      · simp only
        split <;> split <;> first | exact loop_less | exact .inr rfl
      · exact .inr rfl

theorem loop_bad : ∀ {l : List (Option String × Option String)} {o : Option TypeCheck}, o = none ∨ o = some .moreConservative →
    (Bad (typeLoop o l) ↔ ∃ p ∈ l, p.1 ≠ some "" ∧ p.2 ≠ some "" ∧ ¬ NotLaxer p.1 p.2)
  | [], o, ho => by
    rcases ho with rfl | rfl <;> simp [typeLoop, Bad]
  | (a, b) :: l, o, ho => by
    by_cases hab : a = some "" ∨ b = some ""
    · have ih := loop_bad (l := l) ho
      rw [typeLoop, if_pos hab, ih]
      constructor
      · rintro ⟨p, hp, h⟩
        exact ⟨p, List.mem_cons_of_mem _ hp, h⟩
      · rintro ⟨p, hp, h1, h2, h3⟩
        rcases List.mem_cons.1 hp with rfl | hp
        · rcases hab with h | h
          · exact absurd h h1
          · exact absurd h h2
        · exact ⟨p, hp, h1, h2, h3⟩
    · obtain ⟨ha, hb⟩ := not_or.1 hab
      by_cases hn : NotLaxer a b
      · obtain ⟨i, j, h1, h2, h3⟩ := notLaxer_iff.1 hn
        have e : typeLoop o ((a, b) :: l) = typeLoop (some .moreConservative) l := by
          rw [typeLoop, if_neg hab, h1, h2]
          simp only [h3, if_false]
          rcases ho with rfl | rfl <;> simp
        rw [e, loop_bad (l := l) (.inr rfl)]
        constructor
        · rintro ⟨p, hp, h⟩
          exact ⟨p, List.mem_cons_of_mem _ hp, h⟩
        · rintro ⟨p, hp, g1, g2, g3⟩
          rcases List.mem_cons.1 hp with rfl | hp
          · exact absurd hn g3
          · exact ⟨p, hp, g1, g2, g3⟩
      · refine ⟨fun _ => ⟨(a, b), by simp, ha, hb, hn⟩, fun _ => ?_⟩
        rw [typeLoop, if_neg hab]
        cases h1 : typeIndex a with
        | none => exact .inr rfl
        | some i =>
          cases h2 : typeIndex b with
          | none => exact .inr rfl
          | some j =>
            have h3 : i < j := by
              by_contra h3
              exact hn (notLaxer_iff.2 ⟨i, j, h1, h2, h3⟩)
            simp only [h3, if_true]
            rcases ho with rfl | rfl
            · exact loop_less
            · exact .inr rfl

theorem types_bad {a b : List (Option String)} : Bad (typesOf a b) ↔
    a ≠ b ∧ ∃ p ∈ a.zip b, p.1 ≠ some "" ∧ p.2 ≠ some "" ∧ ¬ NotLaxer p.1 p.2 := by
  unfold typesOf
  split
  · simp [*, Bad]
  · rw [loop_bad (.inl rfl)]
    simp [*]

theorem rules_less {a b c d : Option String} (ha : a ≠ some "") (hb : b ≠ some "") (hc : c ≠ some "") (hd : d ≠ some "") :
    rulesOf a b c d = .lessConservative ↔ (a ≠ none ↔ ¬ b ≠ none) ∧ c = none ∧ d = none := by
  unfold rulesOf
  rw [truthy_of ha, truthy_of hb, truthy_of hc, truthy_of hd]
  rcases a with _ | a <;> rcases b with _ | b <;> rcases c with _ | c <;> rcases d with _ | d <;> simp <;> split <;> simp

/-- The result from the two checks. -/
theorem decide_all (rc : RuleCheck) (tc : Option TypeCheck) : ∃ p, decideChecks rc tc = .ok p ∧
    (p.1 = .matched ↔ rc = .same ∧ (tc = some .same ∨ tc = none)) ∧ (p.1 = .note ↔ rc = .same ∧ tc = some .moreConservative) ∧
    (p.1 = .review ↔ rc = .lessConservative ∨ Bad tc) ∧
    (p.1 = .manualCheck ↔ rc ≠ .same ∧ rc ≠ .lessConservative ∧ ¬ Bad tc) ∧ p.1 ≠ .subset := by
  cases rc <;> rcases tc with _ | tc <;> try cases tc
  all_goals exact ⟨_, rfl, by simp [Bad]⟩

/-- The type of the variant of a kind. -/
def Shape.ty (s : Shape) : Bool × Bool → Option (Option String)
  | (true, false) => s.w.map Prod.snd
  | (false, true) => s.n.map Prod.snd
  | (false, false) => s.a
  | (true, true) => none

theorem ty_iff {l : List Variant} {s : Shape} (h : Shaped l s) (k : Bool × Bool) (t : Option String) :
    (∃ v ∈ l, kind v = k ∧ v.type = t) ↔ s.ty k = some t := by
  constructor
  · rintro ⟨v, hv, rfl, rfl⟩
    rcases (h _ _ _).1 ⟨v, hv, rfl, rfl, rfl⟩ with ⟨r, e1, e2, e3⟩ | ⟨r, e1, e2, e3⟩ | ⟨e1, e2, e3⟩
    · rw [kind, e1, e2]; simp [Shape.ty, e3]
    · rw [kind, e1, e2]; simp [Shape.ty, e3]
    · rw [kind, e1, e2]; simp [Shape.ty, e3]
  · intro hk
    rcases k with ⟨_ | _, _ | _⟩
    · obtain ⟨v, hv, e1, e2, e3⟩ := (h none none t).2 (.inr (.inr ⟨rfl, rfl, hk⟩))
      exact ⟨v, hv, by rw [kind, e1, e2]; rfl, e3⟩
    · obtain ⟨⟨r, t'⟩, h1, h2⟩ := Option.map_eq_some_iff.1 hk
      cases h2
      obtain ⟨v, hv, e1, e2, e3⟩ := (h none (some r) t').2 (.inr (.inl ⟨r, rfl, rfl, h1⟩))
      exact ⟨v, hv, by rw [kind, e1, e2]; rfl, e3⟩
    · obtain ⟨⟨r, t'⟩, h1, h2⟩ := Option.map_eq_some_iff.1 hk
      cases h2
      obtain ⟨v, hv, e1, e2, e3⟩ := (h (some r) none t').2 (.inl ⟨r, rfl, rfl, h1⟩)
      exact ⟨v, hv, by rw [kind, e1, e2]; rfl, e3⟩
    · cases hk

theorem ty_fine {s : Shape} (hf : s.Fine) {k : Bool × Bool} {t : Option String} (h : s.ty k = some t) : t ≠ some "" := by
  rcases k with ⟨_ | _, _ | _⟩
  · exact hf.a _ h
  · obtain ⟨⟨r, t'⟩, h1, h2⟩ := Option.map_eq_some_iff.1 h
    cases h2
    exact (hf.n _ _ h1).2
  · obtain ⟨⟨r, t'⟩, h1, h2⟩ := Option.map_eq_some_iff.1 h
    cases h2
    exact (hf.w _ _ h1).2
  · cases h

theorem getD_inj {a b : Option (Option String)} (ha : ∀ t, a = some t → t ≠ some "") (hb : ∀ t, b = some t → t ≠ some "") :
    a.getD (some "") = b.getD (some "") ↔ a = b := by
  rcases a with _ | a <;> rcases b with _ | b
  · simp
  · simpa using fun h : some "" = b => hb b rfl h.symm
  · simpa using ha a rfl
  · simp

theorem types_eq {s s' : Shape} (hf : s.Fine) (hf' : s'.Fine) : s.types = s'.types ↔ ∀ k, s.ty k = s'.ty k := by
  have h : ∀ k, (s.ty k).getD (some "") = (s'.ty k).getD (some "") ↔ s.ty k = s'.ty k := fun k =>
    getD_inj (fun _ => ty_fine hf) (fun _ => ty_fine hf')
  have e : s.types = s'.types ↔ (s.ty (true, false)).getD (some "") = (s'.ty (true, false)).getD (some "") ∧
      (s.ty (false, true)).getD (some "") = (s'.ty (false, true)).getD (some "") ∧
      (s.ty (false, false)).getD (some "") = (s'.ty (false, false)).getD (some "") := by
    simp [Shape.types, Shape.ty]
  rw [e, h, h, h]
  constructor
  · rintro ⟨h1, h2, h3⟩ ⟨_ | _, _ | _⟩
    · exact h3
    · exact h2
    · exact h1
    · rfl
  · intro hk
    exact ⟨hk _, hk _, hk _⟩

theorem pair_iff {s s' : Shape} (hf : s.Fine) (hf' : s'.Fine) (t u : Option String) :
    ((t, u) ∈ s.types.zip s'.types ∧ t ≠ some "" ∧ u ≠ some "") ↔ ∃ k, s.ty k = some t ∧ s'.ty k = some u := by
  have e : s.types.zip s'.types = [(true, false), (false, true), (false, false)].map
      (fun k => ((s.ty k).getD (some ""), (s'.ty k).getD (some ""))) := rfl
  rw [e]
  constructor
  · rintro ⟨h, ht, hu⟩
    obtain ⟨k, -, hk⟩ := List.mem_map.1 h
    cases hk
    refine ⟨k, ?_, ?_⟩
    · cases g : s.ty k with
      | none => rw [g] at ht; exact absurd rfl ht
      | some x => rfl
    · cases g : s'.ty k with
      | none => rw [g] at hu; exact absurd rfl hu
      | some x => rfl
  · rintro ⟨k, h1, h2⟩
    refine ⟨List.mem_map.2 ⟨k, ?_, by rw [h1, h2]; rfl⟩, ty_fine hf h1, ty_fine hf' h2⟩
    rcases k with ⟨_ | _, _ | _⟩
    · simp
    · simp
    · simp
    · cases h1

theorem when_iff {l : List Variant} {s : Shape} (h : Shaped l s) (r : String) :
    (∃ v ∈ l, v.whenR = some r) ↔ s.w.map Prod.fst = some r := by
  constructor
  · rintro ⟨v, hv, e⟩
    rcases (h _ _ _).1 ⟨v, hv, rfl, rfl, rfl⟩ with ⟨r', e1, e2, e3⟩ | ⟨r', e1, e2, e3⟩ | ⟨e1, e2, e3⟩
    · rw [e] at e1; cases e1; rw [e3]; rfl
    · rw [e] at e1; cases e1
    · rw [e] at e1; cases e1
  · intro hk
    obtain ⟨⟨r', t⟩, h1, h2⟩ := Option.map_eq_some_iff.1 hk
    cases h2
    obtain ⟨v, hv, e1, -, -⟩ := (h (some r') none t).2 (.inl ⟨r', rfl, rfl, h1⟩)
    exact ⟨v, hv, e1⟩

theorem notWhen_iff {l : List Variant} {s : Shape} (h : Shaped l s) (r : String) :
    (∃ v ∈ l, v.notWhenR = some r) ↔ s.n.map Prod.fst = some r := by
  constructor
  · rintro ⟨v, hv, e⟩
    rcases (h _ _ _).1 ⟨v, hv, rfl, rfl, rfl⟩ with ⟨r', e1, e2, e3⟩ | ⟨r', e1, e2, e3⟩ | ⟨e1, e2, e3⟩
    · rw [e] at e2; cases e2
    · rw [e] at e2; cases e2; rw [e3]; rfl
    · rw [e] at e2; cases e2
  · intro hk
    obtain ⟨⟨r', t⟩, h1, h2⟩ := Option.map_eq_some_iff.1 hk
    cases h2
    obtain ⟨v, hv, -, e1, -⟩ := (h none (some r') t).2 (.inr (.inl ⟨r', rfl, rfl, h1⟩))
    exact ⟨v, hv, e1⟩

theorem sameRules_iff {l m : List Variant} {s s' : Shape} (h : Shaped l s) (h' : Shaped m s') :
    SameRules l m ↔ s.w.map Prod.fst = s'.w.map Prod.fst ∧ s.n.map Prod.fst = s'.n.map Prod.fst := by
  unfold SameRules
  simp only [when_iff h, when_iff h', notWhen_iff h, notWhen_iff h']
  constructor
  · rintro ⟨h1, h2⟩
    exact ⟨Option.ext h1, Option.ext h2⟩
  · rintro ⟨h1, h2⟩
    rw [h1, h2]
    exact ⟨fun _ => Iff.rfl, fun _ => Iff.rfl⟩

theorem ne_none_iff {α : Type} {o : Option α} : o ≠ none ↔ ∃ r, o = some r := by
  cases o <;> simp

theorem onlyLeft_iff {l m : List Variant} {s s' : Shape} (h : Shaped l s) (h' : Shaped m s') :
    OnlyLeft l m ↔ (s.w.map Prod.fst ≠ none ↔ ¬ s.n.map Prod.fst ≠ none) ∧ s'.w.map Prod.fst = none ∧ s'.n.map Prod.fst = none := by
  have some_w : ∀ {l : List Variant} {s : Shape}, Shaped l s → ((∃ v ∈ l, v.whenR ≠ none) ↔ s.w.map Prod.fst ≠ none) := by
    intro l s h
    rw [ne_none_iff]
    simp only [← when_iff h, ne_none_iff]
    constructor
    · rintro ⟨v, hv, r, e⟩; exact ⟨r, v, hv, e⟩
    · rintro ⟨r, v, hv, e⟩; exact ⟨v, hv, r, e⟩
  have some_n : ∀ {l : List Variant} {s : Shape}, Shaped l s → ((∃ v ∈ l, v.notWhenR ≠ none) ↔ s.n.map Prod.fst ≠ none) := by
    intro l s h
    rw [ne_none_iff]
    simp only [← notWhen_iff h, ne_none_iff]
    constructor
    · rintro ⟨v, hv, r, e⟩; exact ⟨r, v, hv, e⟩
    · rintro ⟨r, v, hv, e⟩; exact ⟨v, hv, r, e⟩
  unfold OnlyLeft
  rw [some_w h, some_n h]
  refine and_congr Iff.rfl ?_
  rw [← not_iff_not.2 (some_w h') |>.trans not_not, ← not_iff_not.2 (some_n h') |>.trans not_not]
  push Not
  exact ⟨fun g => ⟨fun v hv => (g v hv).1, fun v hv => (g v hv).2⟩, fun g v hv => ⟨g.1 v hv, g.2 v hv⟩⟩

theorem sameTypes_iff {l m : List Variant} {s s' : Shape} (h : Shaped l s) (h' : Shaped m s') (hf : s.Fine) (hf' : s'.Fine) :
    SameTypes l m ↔ s.types = s'.types := by
  rw [types_eq hf hf']
  unfold SameTypes
  simp only [ty_iff h, ty_iff h']
  exact ⟨fun g k => Option.ext (g k), fun g k t => by rw [g k]⟩

theorem laxer_iff {l m : List Variant} {s s' : Shape} (h : Shaped l s) (h' : Shaped m s') (hf : s.Fine) (hf' : s'.Fine) :
    Laxer l m ↔ Bad (typesOf s.types s'.types) := by
  rw [types_bad, Laxer, sameTypes_iff h h' hf hf']
  refine and_congr Iff.rfl ?_
  constructor
  · rintro ⟨v, hv, w, hw, hk, hn⟩
    obtain ⟨g1, g2, g3⟩ := (pair_iff hf hf' v.type w.type).2 ⟨kind v, (ty_iff h _ _).1 ⟨v, hv, rfl, rfl⟩,
      (ty_iff h' _ _).1 ⟨w, hw, hk.symm, rfl⟩⟩
    exact ⟨_, g1, g2, g3, hn⟩
  · rintro ⟨⟨t, u⟩, g1, g2, g3, hn⟩
    obtain ⟨k, h1, h2⟩ := (pair_iff hf hf' t u).1 ⟨g1, g2, g3⟩
    obtain ⟨v, hv, rfl, rfl⟩ := (ty_iff h k t).2 h1
    obtain ⟨w, hw, hk, rfl⟩ := (ty_iff h' _ u).2 h2
    exact ⟨v, hv, w, hw, hk.symm, hn⟩

/-- **C86** (partial) If table and reference have at most one variant with a when rule, one with a not-when rule and one without a rule
for a mapping in a direction, and at least one each, then the result says how they compare, and result and remark do not depend on the
order of iteration: a match exactly if the variants are the same (conditions and types); a note exactly if the rules are the same and
no type of the table is more permissive; review exactly if only the table has a rule (of one sort), or a type of it is more permissive
or not comparable; manual check otherwise. Missing: several variants of one kind, where this is false (`match_wrong`), mappings
without reverse (`reverse_wrong`), and the remarks (`remark_wrong`). -/
theorem each_kind_partial {i r : VData} {rev : Bool} (hi : ∀ v ∈ (if rev then i.rev else i.fwd), Sound v)
    (hr : ∀ v ∈ (if rev then r.rev else r.fwd), Sound v) (h1 : OneEach (if rev then i.rev else i.fwd))
    (h2 : OneEach (if rev then r.rev else r.fwd)) (ni : (if rev then i.rev else i.fwd) ≠ []) (nr : (if rev then r.rev else r.fwd) ≠ [])
    (hi' : i.fwd ≠ []) (hr' : r.fwd ≠ []) (inRep : Bool) :
    ∃ p, (∀ order : List Variant → List Variant, (∀ l v, v ∈ order l ↔ v ∈ l) →
        variantVerdict order false false i r rev inRep = .ok p) ∧
      ∀ x, p.1 = x ↔ SaysAll (if rev then i.rev else i.fwd) (if rev then r.rev else r.fwd) x := by
  obtain ⟨s, hs, hf⟩ := shape_of hi h1
  obtain ⟨s', hs', hf'⟩ := shape_of hr h2
  have some_of : ∀ {l : List Variant} {x : Shape}, Shaped l x → l ≠ [] → ∃ w n t, x.Has w n t := by
    intro l x hx hl
    obtain ⟨v, hv⟩ := List.exists_mem_of_ne_nil _ hl
    exact ⟨_, _, _, (hx _ _ _).1 ⟨v, hv, rfl, rfl, rfl⟩⟩
  obtain ⟨p, hp, hm⟩ := verdict_matched hf hf' (some_of hs ni) (some_of hs' nr)
  have heq : p.1 = .matched ↔ Equal (if rev then i.rev else i.fwd) (if rev then r.rev else r.fwd) := by
    rw [hm]
    constructor
    · rintro rfl w n t
      rw [hs w n t, hs' w n t]
    · intro he
      exact has_inj fun w n t => by rw [← hs w n t, ← hs' w n t]; exact he w n t
  refine ⟨p, fun order ho => ?_, ?_⟩
  · rw [← hp]
    obtain ⟨a1, a2, a3⟩ := read_off (side_shaped ho h1 hs) hf
    obtain ⟨b1, b2, b3⟩ := read_off (side_shaped ho h2 hs') hf'
    simp only [variantVerdict, Bool.false_eq_true, if_false, hi', hr']
    unfold checkRules checkType VData.getWhen VData.getNotWhen VData.typeTriple verdictOf
    rw [a1, a2, a3, b1, b2, b3]
  · generalize (if rev then i.rev else i.fwd) = l at hs heq
    generalize (if rev then r.rev else r.fwd) = m at hs' heq
    have nw : ∀ {x : Shape}, x.Fine → x.w.map Prod.fst ≠ some "" ∧ x.n.map Prod.fst ≠ some "" := by
      intro x hx
      constructor
      · intro h
        obtain ⟨⟨a, t⟩, g1, g2⟩ := Option.map_eq_some_iff.1 h
        exact (hx.w _ _ g1).1 g2
      · intro h
        obtain ⟨⟨a, t⟩, g1, g2⟩ := Option.map_eq_some_iff.1 h
        exact (hx.n _ _ g1).1 g2
    obtain ⟨q, hq, q1, q2, q3, q4, q5⟩ := decide_all
      (rulesOf (s.w.map Prod.fst) (s.n.map Prod.fst) (s'.w.map Prod.fst) (s'.n.map Prod.fst)) (typesOf s.types s'.types)
    have hpq : q = p := by
      have := hq.symm.trans hp
      cases this
      rfl
    subst hpq
    rw [rules_same, ← sameRules_iff hs hs'] at q1 q2
    rw [rules_less (nw hf).1 (nw hf).2 (nw hf').1 (nw hf').2, ← onlyLeft_iff hs hs', ← laxer_iff hs hs' hf hf'] at q3
    rw [Ne, rules_same, ← sameRules_iff hs hs', Ne, rules_less (nw hf).1 (nw hf).2 (nw hf').1 (nw hf').2, ← onlyLeft_iff hs hs',
      ← laxer_iff hs hs' hf hf'] at q4
    have hnl : (∀ v ∈ l, ∀ w ∈ m, kind v = kind w → NotLaxer v.type w.type) → ¬ Laxer l m := by
      rintro h ⟨-, v, hv, w, hw, hk, hn⟩
      exact hn (h v hv w hw hk)
    have note : q.1 = .note ↔ SaysAll l m .note := by
      constructor
      · intro hnote
        obtain ⟨g1, g2⟩ := q2.1 hnote
        refine ⟨fun he => ?_, g1, fun v hv w hw hk => ?_⟩
        · rw [heq.2 he] at hnote
          cases hnote
        · by_contra hn
          have hb : Laxer l m := by
            refine ⟨fun hst => ?_, v, hv, w, hw, hk, hn⟩
            rw [sameTypes_iff hs hs' hf hf'] at hst
            rw [types_same.2 hst] at g2
            cases g2
          rw [q3.2 (.inr hb)] at hnote
          cases hnote
      · rintro ⟨g1, g2, g3⟩
        have g4 := hnl g3
        have g5 : ¬ OnlyLeft l m := by
          rw [onlyLeft_iff hs hs']
          rintro ⟨k1, k2, k3⟩
          obtain ⟨e1, e2⟩ := (sameRules_iff hs hs').1 g2
          rw [e1, e2, k2, k3] at k1
          simp at k1
        cases hx : q.1 with
        | note => rfl
        | matched => exact absurd (heq.1 hx) g1
        | review => exact absurd (q3.1 hx) (by simp [g4, g5])
        | manualCheck => exact absurd g2 (q4.1 hx).1
        | subset => exact absurd hx q5
    intro x
    cases x with
    | matched => exact heq
    | note => exact note
    | review => exact q3
    | manualCheck => exact q4
    | subset => exact ⟨fun h => absurd h q5, False.elim⟩

/-- Without a reverse mapping in the table, the reverse is a match though the reference has one. -/
theorem reverse_wrong (order : List Variant → List Variant) (ho : ∀ l v, v ∈ order l ↔ v ∈ l) (inRep : Bool) :
    let i : VData := { fwd := [variant none none "blocked"], rev := [] }
    let r := both [variant none none "blocked"]
    ¬ Equal i.rev r.rev ∧ ∃ m, variantVerdict order false false i r true inRep = .ok (.matched, m) := by
  intro i r
  refine ⟨fun h => ?_, ?_⟩
  · obtain ⟨v, hv, -⟩ := (h none none (some "blocked")).2 ⟨variant none none "blocked", by simp [r, both], rfl, rfl, rfl⟩
    cases hv
  · have e1 : i.side order true = [] := by
      rw [List.eq_nil_iff_forall_not_mem]
      intro v hv
      unfold VData.side at hv
      rw [ho] at hv
      cases hv
    have hm : Shaped (r.side order true) ⟨none, none, some (some "blocked")⟩ := by
      refine side_shaped ho ?_ ?_
      · intro v hv w hw _ _
        simp [r, both] at hv hw
        rw [hv, hw]
        exact ⟨rfl, rfl, rfl⟩
      · intro w n t
        simp [r, both, variant, Shape.Has]
        tauto
    obtain ⟨b1, b2, b3⟩ := read_off hm ⟨by simp, by simp, by simp⟩
    simp only [variantVerdict, Bool.false_eq_true, if_false]
    rw [if_neg (by simp [i]), if_neg (by simp [r, both])]
    unfold checkRules checkType VData.getWhen VData.getNotWhen VData.typeTriple
    rw [b1, b2, b3, e1]
    exact ⟨_, rfl⟩

/-- Two variants each: the hypotheses are met, and the result is a match or none. -/
example :
    let l := [variant (some "r") none "blocked", variant none none "allocatable"]
    let m := [variant none none "allocatable", variant (some "r") none "blocked"]
    (∀ v ∈ l, Sound v) ∧ OneEach l ∧ Equal l m ∧
    (variantVerdict id false false (both l) (both m) false true).toOption.map Prod.fst = some .matched ∧
    (variantVerdict id false false (both l) (both [variant (some "r") none "blocked"]) false true).toOption.map Prod.fst = some .note := by
  refine ⟨?_, ?_, ?_, by decide +kernel, by decide +kernel⟩
  · simp [Sound, variant]
  · simp [OneEach, variant]
  · intro w n t
    simp only [List.mem_cons, List.not_mem_nil, or_false, exists_eq_or_imp, exists_eq_left]
    tauto

end Lgr.Props.C86
