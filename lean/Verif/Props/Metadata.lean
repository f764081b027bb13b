import Verif.Metadata
import Verif.Props.Compare

/-!
# C59-C62: metadata of unions and intersections, memoised scripts, dates, languages
-/

namespace Lgr.Props.C61
open Lgr Text Metadata

/-- A calendar date: the specification of what a valid date is. -/
def IsDate (y m d : Nat) : Prop :=
  1 ≤ y ∧ y ≤ 9999 ∧ 1 ≤ m ∧ m ≤ 12 ∧ 1 ≤ d ∧
    (m ∈ [1, 3, 5, 7, 8, 10, 12] ∧ d ≤ 31 ∨ m ∈ [4, 6, 9, 11] ∧ d ≤ 30 ∨ m = 2 ∧ d ≤ 28 ∨
      m = 2 ∧ d = 29 ∧ (4 ∣ y ∧ ¬ 100 ∣ y ∨ 400 ∣ y))

/-- What is assumed of Python's `int`: it reads plain decimal digits. -/
def ReadsDigits (pyInt : List Char → Option Int) : Prop :=
  ∀ ds : List Nat, ds ≠ [] → (∀ d ∈ ds, d < 10) → pyInt (ds.map digitChar) = some (valueOf 10 ds : Nat)

theorem daysIn_iff {y m d : Nat} (h1 : 1 ≤ m) (h2 : m ≤ 12) (h3 : 1 ≤ d) (hy : 1 ≤ y) (hy' : y ≤ 9999) :
    d ≤ daysIn y m ↔ IsDate y m d := by
  have hm : m = 1 ∨ m = 2 ∨ m = 3 ∨ m = 4 ∨ m = 5 ∨ m = 6 ∨ m = 7 ∨ m = 8 ∨ m = 9 ∨ m = 10 ∨ m = 11 ∨
    m = 12 := by omega
  unfold IsDate daysIn
  simp only [hy, hy', h1, h2, h3, true_and, List.mem_cons, List.not_mem_nil, or_false]
  by_cases h : m = 2
  · subst h
    simp only [if_pos]
    split
    all_goals
      rename_i hl
      have a1 : 4 ∣ y ↔ y % 4 = 0 := by omega
      have a2 : 100 ∣ y ↔ y % 100 = 0 := by omega
      have a3 : 400 ∣ y ↔ y % 400 = 0 := by omega
      rw [a1, a2, a3]
      simp only [show ¬ (2 = 1) by decide, show ¬ (2 = 3) by decide, show ¬ (2 = 4) by decide,
        show ¬ (2 = 5) by decide, show ¬ (2 = 6) by decide, show ¬ (2 = 7) by decide,
        show ¬ (2 = 8) by decide, show ¬ (2 = 9) by decide, show ¬ (2 = 10) by decide,
        show ¬ (2 = 11) by decide, show ¬ (2 = 12) by decide, false_or, false_and, true_and]
      by_cases h29 : d = 29
      · subst h29
        simp only [show ¬ (29 ≤ 28) by decide, false_or, true_and, Nat.le_refl, true_iff, false_iff]
        omega
      · simp only [h29, false_and, or_false]
        try omega
  · rw [if_neg h]
    split <;> constructor <;> intro h' <;> omega

theorem mkDate_ok_iff {y m d : Int} {t : Nat × Nat × Nat} :
    mkDate y m d = .ok t ↔ y = t.1 ∧ m = t.2.1 ∧ d = t.2.2 ∧ IsDate t.1 t.2.1 t.2.2 := by
  obtain ⟨a, b, c⟩ := t
  unfold mkDate
  simp only
  constructor
  · intro h
    split at h
    · simp at h
    split at h
    · rename_i hc
      simp only [Except.ok.injEq, Prod.mk.injEq] at h
      obtain ⟨rfl, rfl, rfl⟩ := h
      refine ⟨by omega, by omega, by omega, ?_⟩
      exact (daysIn_iff (by omega) (by omega) (by omega) (by omega) (by omega)).1 (by omega)
    · simp at h
  · rintro ⟨rfl, rfl, rfl, hd⟩
    obtain ⟨h1, h2, h3, h4, h5, h6⟩ := hd
    have hb : c ≤ 31 := by omega
    have := (daysIn_iff h3 h4 h5 h1 h2).2 ⟨h1, h2, h3, h4, h5, h6⟩
    rw [if_neg (by simp; omega), if_pos (by simp; omega)]
    simp

theorem pad_nodash {n : Nat} : (∀ c ∈ pad2 n, c ≠ '-') ∧ ∀ c ∈ pad4 n, c ≠ '-' := by
  have key : ∀ d, d < 10 → digitChar d ≠ '-' := by decide
  unfold pad2 pad4
  simp only [List.map_cons, List.map_nil, List.mem_cons, List.not_mem_nil, or_false]
  constructor
  · rintro c (rfl | rfl) <;> exact key _ (by omega)
  · rintro c (rfl | rfl | rfl | rfl) <;> exact key _ (by omega)

theorem split_iso (t : Nat × Nat × Nat) :
    splitOn '-' (iso t) = [pad4 t.1, pad2 t.2.1, pad2 t.2.2] := by
  have := splitOn_join '-' [pad4 t.1, pad2 t.2.1, pad2 t.2.2] (by simp) (by
    intro w hw c hc
    simp only [List.mem_cons, List.not_mem_nil, or_false] at hw
    rcases hw with rfl | rfl | rfl
    · exact pad_nodash.2 c hc
    · exact pad_nodash.1 c hc
    · exact pad_nodash.1 c hc)
  rw [← this]
  rfl

theorem read_pad {pyInt : List Char → Option Int} (h : ReadsDigits pyInt) {n : Nat} :
    (n < 100 → pyInt (pad2 n) = some (n : Int)) ∧ (n < 10000 → pyInt (pad4 n) = some (n : Int)) := by
  constructor
  · intro hn
    unfold pad2
    rw [h _ (by simp) (by simp; omega)]
    simp [valueOf]; omega
  · intro hn
    unfold pad4
    rw [h _ (by simp) (by simp; omega)]
    simp [valueOf]; omega

/-- **C61** `_validate_date` without `force` accepts a string iff it is `YYYY-MM-DD` for a date of the
calendar, and gives it back unchanged. -/
theorem validate_date_iff (pyInt : List Char → Option Int) (hi : ReadsDigits pyInt) (s r : List Char) :
    validateDate pyInt s false = .ok r ↔ r = s ∧ ∃ y m d, IsDate y m d ∧ s = iso (y, m, d) := by
  constructor
  · intro h
    unfold validateDate at h
    simp only [Bool.false_eq_true, if_false] at h
    split at h
    · split at h
      · split at h
        · rename_i t ht
          split at h
          · rename_i he
            simp only [Except.ok.injEq] at h
            exact ⟨h.symm, t.1, t.2.1, t.2.2, (mkDate_ok_iff.1 ht).2.2.2, he.symm⟩
          · simp at h
        · simp at h
        · simp at h
      · simp at h
    · simp at h
  · rintro ⟨rfl, y, m, d, hd, rfl⟩
    unfold validateDate
    rw [split_iso]
    have hd' := hd
    obtain ⟨h1, h2, h3, h4, h5, h6⟩ := hd'
    have : d ≤ 31 := by omega
    simp only [(read_pad hi).1 (by omega : m < 100), (read_pad hi).1 (by omega : d < 100),
      (read_pad hi).2 (by omega : y < 10000)]
    have e : mkDate (y : Int) (m : Int) (d : Int) = .ok (y, m, d) := mkDate_ok_iff.2 ⟨rfl, rfl, rfl, hd⟩
    rw [e]
    simp

/-- **C61** With `force` every string whose numbers fit a C integer is accepted unchanged. -/
theorem force_accepts_partial (pyInt : List Char → Option Int) (s : List Char)
    (hfit : ∀ a ∈ splitOn '-' s, ∀ i, pyInt a = some i → -2147483648 ≤ i ∧ i ≤ 2147483647) :
    validateDate pyInt s true = .ok s := by
  unfold validateDate
  simp only [if_true]
  split
  · rename_i a b c hs
    rw [hs] at hfit
    split
    · rename_i y m d hy hm hd
      have e1 := hfit a (by simp) y hy
      have e2 := hfit b (by simp) m hm
      have e3 := hfit c (by simp) d hd
      unfold mkDate
      simp only
      rw [if_neg (by simp; omega)]
      split
      · rename_i t ht
        split <;> rfl
      · rfl
      · rename_i e hne ht
        split at ht
        · simp at ht
        · simp only [Except.error.injEq] at ht; exact absurd ht.symm hne
    · rfl
  · rfl

/-- **C61** is violated for errors: a year that does not fit a C integer ends in an `OverflowError`,
even with `force`. -/
theorem date_overflow (pyInt : List Char → Option Int) (hi : ReadsDigits pyInt) :
    validateDate pyInt "99999999999-01-01".toList true = .error .overflowError := by
  have e : splitOn '-' "99999999999-01-01".toList =
      [[9,9,9,9,9,9,9,9,9,9,9].map digitChar, [0,1].map digitChar, [0,1].map digitChar] := by decide +kernel
  unfold validateDate
  rw [e]
  simp only [hi [9,9,9,9,9,9,9,9,9,9,9] (by simp) (by simp), hi [0,1] (by simp) (by simp)]
  rfl

/-! Non-vacuity: a leap day is accepted, the day after is not. -/
example : IsDate 2024 2 29 := by unfold IsDate; decide
example : ¬ IsDate 2024 2 30 := by unfold IsDate; decide
example : iso (2024, 2, 29) = "2024-02-29".toList := by decide +kernel

/-! ### Order of dates -/

theorem digit_lt {d e : Nat} (hd : d < 10) (he : e < 10) : digitChar d < digitChar e ↔ d < e := by
  have : ∀ d, d < 10 → ∀ e, e < 10 → (digitChar d < digitChar e ↔ d < e) := by decide
  exact this d hd e he

theorem digit_eq {d e : Nat} (hd : d < 10) (he : e < 10) : digitChar d = digitChar e ↔ d = e := by
  have : ∀ d, d < 10 → ∀ e, e < 10 → (digitChar d = digitChar e ↔ d = e) := by decide
  exact this d hd e he

/-- A date is before another one. -/
def Before (s t : Nat × Nat × Nat) : Prop :=
  s.1 < t.1 ∨ s.1 = t.1 ∧ (s.2.1 < t.2.1 ∨ s.2.1 = t.2.1 ∧ s.2.2 < t.2.2)

theorem pad2_lt {m n : Nat} (hm : m < 100) (hn : n < 100) (l k : List Char) :
    pad2 m ++ l < pad2 n ++ k ↔ m < n ∨ m = n ∧ l < k := by
  unfold pad2
  simp only [List.map_cons, List.map_nil, List.cons_append, List.nil_append, List.cons_lt_cons_iff,
    digit_lt (Nat.mod_lt _ (by omega : 10 > 0)) (Nat.mod_lt _ (by omega : 10 > 0)),
    digit_eq (Nat.mod_lt _ (by omega : 10 > 0)) (Nat.mod_lt _ (by omega : 10 > 0))]
  by_cases h : l < k <;> simp only [h, and_true, and_false, or_false] <;> omega

theorem pad4_lt {m n : Nat} (hm : m < 10000) (hn : n < 10000) (l k : List Char) :
    pad4 m ++ l < pad4 n ++ k ↔ m < n ∨ m = n ∧ l < k := by
  have e : ∀ m, pad4 m = pad2 (m / 100) ++ pad2 (m % 100) := by
    intro m
    have h1 : m / 100 / 10 % 10 = m / 1000 % 10 := by omega
    have h2 : m % 100 / 10 % 10 = m / 10 % 10 := by omega
    have h3 : m % 100 % 10 = m % 10 := by omega
    simp [pad4, pad2, h1, h2, h3]
  rw [e, e, List.append_assoc, List.append_assoc, pad2_lt (by omega) (by omega), pad2_lt (by omega) (by omega)]
  by_cases h : l < k <;> simp only [h, and_true, and_false, or_false] <;> omega

/-- Comparing ISO dates as strings compares the dates. -/
theorem iso_lt {s t : Nat × Nat × Nat} (hs : IsDate s.1 s.2.1 s.2.2) (ht : IsDate t.1 t.2.1 t.2.2) :
    iso s < iso t ↔ Before s t := by
  obtain ⟨h1, h2, h3, h4, h5, h6⟩ := hs
  obtain ⟨k1, k2, k3, k4, k5, k6⟩ := ht
  have e : ∀ n, pad2 n = pad2 n ++ [] := by simp
  unfold iso Before
  simp only [List.append_assoc, List.cons_append]
  rw [pad4_lt (by omega) (by omega), List.cons_lt_cons_iff, pad2_lt (by omega) (by omega),
    List.cons_lt_cons_iff, e s.2.2, e t.2.2, pad2_lt (by omega) (by omega)]
  simp

end Lgr.Props.C61

namespace Lgr.Props.C59
open Lgr Text Metadata Compare C30 C61

/-- A set is iterated in any order, each element once. -/
def IsOrder (order : {α : Type} → List α → List α) : Prop := ∀ (α : Type) (l : List α), (order l).Perm l

/-- The period is given by dates of the calendar. -/
def Dated (m : Metadata) : Prop :=
  (∀ s, m.validityStart = some s → ∃ t : Nat × Nat × Nat, IsDate t.1 t.2.1 t.2.2 ∧ s = iso t) ∧
  ∀ s, m.validityEnd = some s → ∃ t : Nat × Nat × Nat, IsDate t.1 t.2.1 t.2.2 ∧ s = iso t

theorem not_before {s t : Nat × Nat × Nat} : ¬ Before s t ↔ Before t s ∨ s = t := by
  obtain ⟨a, b, c⟩ := s
  obtain ⟨d, e, f⟩ := t
  unfold Before
  simp only [Prod.mk.injEq]
  omega

theorem iso_inj {s t : Nat × Nat × Nat} (hs : IsDate s.1 s.2.1 s.2.2) (ht : IsDate t.1 t.2.1 t.2.2)
    (h : iso s = iso t) : s = t := by
  have h1 : ¬ Before s t := by rw [← iso_lt hs ht, h]; exact List.lt_irrefl _
  have h2 : ¬ Before t s := by rw [← iso_lt ht hs, h]; exact List.lt_irrefl _
  rcases not_before.1 h1 with h | h
  · exact absurd h h2
  · exact h

theorem start_spec (a b : Option (List Char)) (t : Nat × Nat × Nat)
    (ht : IsDate t.1 t.2.1 t.2.2)
    (ha : ∀ s, a = some s → ∃ t : Nat × Nat × Nat, IsDate t.1 t.2.1 t.2.2 ∧ s = iso t)
    (hb : ∀ s, b = some s → ∃ t : Nat × Nat × Nat, IsDate t.1 t.2.1 t.2.2 ∧ s = iso t) :
    (∀ s, compareObjects pyMax a b = some s → ¬ iso t < s) ↔
      (∀ s, a = some s → ¬ iso t < s) ∧ ∀ s, b = some s → ¬ iso t < s := by
  cases a with
  | none => simp [compareObjects]
  | some x =>
    cases b with
    | none => simp [compareObjects]
    | some y =>
      obtain ⟨u, hu, rfl⟩ := ha x rfl
      obtain ⟨v, hv, rfl⟩ := hb y rfl
      simp only [compareObjects, pyMax, Option.some.injEq, forall_eq']
      rw [iso_lt ht hu, iso_lt ht hv]
      split
      · rename_i h; rw [iso_lt hu hv] at h; rw [iso_lt ht hv]; unfold Before at *; omega
      · rename_i h; rw [iso_lt hu hv] at h; rw [iso_lt ht hu]; unfold Before at *; omega

theorem end_spec (a b : Option (List Char)) (t : Nat × Nat × Nat)
    (ht : IsDate t.1 t.2.1 t.2.2)
    (ha : ∀ s, a = some s → ∃ t : Nat × Nat × Nat, IsDate t.1 t.2.1 t.2.2 ∧ s = iso t)
    (hb : ∀ s, b = some s → ∃ t : Nat × Nat × Nat, IsDate t.1 t.2.1 t.2.2 ∧ s = iso t) :
    (∀ s, compareObjects pyMin a b = some s → ¬ s < iso t) ↔
      (∀ s, a = some s → ¬ s < iso t) ∧ ∀ s, b = some s → ¬ s < iso t := by
  cases a with
  | none => simp [compareObjects]
  | some x =>
    cases b with
    | none => simp [compareObjects]
    | some y =>
      obtain ⟨u, hu, rfl⟩ := ha x rfl
      obtain ⟨v, hv, rfl⟩ := hb y rfl
      simp only [compareObjects, pyMin, Option.some.injEq, forall_eq']
      rw [iso_lt hu ht, iso_lt hv ht]
      split
      · rename_i h; rw [iso_lt hv hu] at h; rw [iso_lt hv ht]; unfold Before at *; omega
      · rename_i h; rw [iso_lt hv hu] at h; rw [iso_lt hu ht]; unfold Before at *; omega

/-- Valid on a day, by comparing strings. -/
def InPeriod (m : Metadata) (day : List Char) : Prop :=
  (∀ s, m.validityStart = some s → ¬ day < s) ∧ ∀ s, m.validityEnd = some s → ¬ s < day

theorem inPeriod_iff (m : Metadata) (hm : Dated m) (t : Nat × Nat × Nat) (ht : IsDate t.1 t.2.1 t.2.2) :
    InPeriod m (iso t) ↔ ((∀ u : Nat × Nat × Nat, IsDate u.1 u.2.1 u.2.2 → m.validityStart = some (iso u) →
      ¬ Before t u) ∧ ∀ u : Nat × Nat × Nat, IsDate u.1 u.2.1 u.2.2 → m.validityEnd = some (iso u) →
      ¬ Before u t) := by
  unfold InPeriod
  constructor
  · rintro ⟨h1, h2⟩
    refine ⟨fun u hu he => ?_, fun u hu he => ?_⟩
    · rw [← iso_lt ht hu]; exact h1 _ he
    · rw [← iso_lt hu ht]; exact h2 _ he
  · rintro ⟨h1, h2⟩
    refine ⟨fun s he => ?_, fun s he => ?_⟩
    · obtain ⟨u, hu, rfl⟩ := hm.1 s he
      rw [iso_lt ht hu]; exact h1 u hu he
    · obtain ⟨u, hu, rfl⟩ := hm.2 s he
      rw [iso_lt hu ht]; exact h2 u hu he

/-- A day lies in the period between the two dates, both included; a missing date is no limit. -/
def Covers (m : Metadata) (t : Nat × Nat × Nat) : Prop :=
  (∀ u : Nat × Nat × Nat, IsDate u.1 u.2.1 u.2.2 → m.validityStart = some (iso u) → ¬ Before t u) ∧
  ∀ u : Nat × Nat × Nat, IsDate u.1 u.2.1 u.2.2 → m.validityEnd = some (iso u) → ¬ Before u t

theorem compare_dated {f : List Char → List Char → List Char} (hf : ∀ a b, f a b = a ∨ f a b = b)
    {a b : Option (List Char)} {P : List Char → Prop} (ha : ∀ s, a = some s → P s) (hb : ∀ s, b = some s → P s)
    (s : List Char) (h : compareObjects f a b = some s) : P s := by
  cases a with
  | none => exact hb s h
  | some x =>
    cases b with
    | none => exact ha s h
    | some y =>
      simp only [compareObjects, Option.some.injEq] at h
      rcases hf x y with e | e
      · exact ha s (by rw [← h, e])
      · exact hb s (by rw [← h, e])

theorem pyMax_or (a b : List Char) : pyMax a b = a ∨ pyMax a b = b := by unfold pyMax; split <;> simp
theorem pyMin_or (a b : List Char) : pyMin a b = a ∨ pyMin a b = b := by unfold pyMin; split <;> simp

/-- **C59** The languages of the union are those of both inputs, each once, and it is valid on the days on
which both inputs are. Missing for the full property: scopes, version and Unicode version. -/
theorem union_metadata_partial (order : {α : Type} → List α → List α) (ho : IsOrder @order) (today : List Char)
    (describe : Description → Option Description → Option Description) (m1 m2 : Metadata)
    (h1 : Dated m1) (h2 : Dated m2) :
    (∀ l, l ∈ (unionMetadata @order today describe m1 m2).languages ↔ l ∈ m1.languages ∨ l ∈ m2.languages) ∧
    (unionMetadata @order today describe m1 m2).languages.Nodup ∧
    Dated (unionMetadata @order today describe m1 m2) ∧
    ∀ t : Nat × Nat × Nat, IsDate t.1 t.2.1 t.2.2 →
      (Covers (unionMetadata @order today describe m1 m2) t ↔ Covers m1 t ∧ Covers m2 t) := by
  have hd : Dated (unionMetadata @order today describe m1 m2) :=
    ⟨compare_dated pyMax_or h1.1 h2.1, compare_dated pyMin_or h1.2 h2.2⟩
  refine ⟨fun l => ?_, ?_, hd, fun t ht => ?_⟩
  · show l ∈ order _ ↔ _
    rw [(ho _ _).mem_iff, mem_union]
  · exact ((ho _ _).nodup_iff).2 (nodup_union _ _)
  · show _ ↔ _
    have := inPeriod_iff _ hd t ht
    have e1 := inPeriod_iff m1 h1 t ht
    have e2 := inPeriod_iff m2 h2 t ht
    unfold Covers
    rw [← this, ← e1, ← e2]
    unfold InPeriod
    have s := start_spec m1.validityStart m2.validityStart t ht h1.1 h2.1
    have e := end_spec m1.validityEnd m2.validityEnd t ht h1.2 h2.2
    show (∀ s, compareObjects pyMax _ _ = some s → _) ∧ (∀ s, compareObjects pyMin _ _ = some s → _) ↔ _
    rw [s, e]
    tauto

/-- **C59** The languages of the intersection are the common ones, each once, and it is valid on the days
on which both inputs are. Missing for the full property: scopes and Unicode version. -/
theorem intersect_metadata_partial (order : {α : Type} → List α → List α) (ho : IsOrder @order)
    (today : List Char) (describe : Option Description → Option Description → Option Description)
    (m1 m2 : Metadata) (h1 : Dated m1) (h2 : Dated m2) :
    (∀ l, l ∈ (intersectMetadata @order today describe m1 m2).languages ↔ l ∈ m1.languages ∧ l ∈ m2.languages) ∧
    (intersectMetadata @order today describe m1 m2).languages.Nodup ∧
    Dated (intersectMetadata @order today describe m1 m2) ∧
    ∀ t : Nat × Nat × Nat, IsDate t.1 t.2.1 t.2.2 →
      (Covers (intersectMetadata @order today describe m1 m2) t ↔ Covers m1 t ∧ Covers m2 t) := by
  have hd : Dated (intersectMetadata @order today describe m1 m2) :=
    ⟨compare_dated pyMax_or h1.1 h2.1, compare_dated pyMin_or h1.2 h2.2⟩
  refine ⟨fun l => ?_, ?_, hd, fun t ht => ?_⟩
  · show l ∈ order _ ↔ _
    rw [(ho _ _).mem_iff, List.mem_filter, mem_toSet]
    simp
  · exact ((ho _ _).nodup_iff).2 ((nodup_toSet _).filter _)
  · have := inPeriod_iff _ hd t ht
    have e1 := inPeriod_iff m1 h1 t ht
    have e2 := inPeriod_iff m2 h2 t ht
    unfold Covers
    rw [← this, ← e1, ← e2]
    unfold InPeriod
    have s := start_spec m1.validityStart m2.validityStart t ht h1.1 h2.1
    have e := end_spec m1.validityEnd m2.validityEnd t ht h1.2 h2.2
    show (∀ s, compareObjects pyMax _ _ = some s → _) ∧ (∀ s, compareObjects pyMin _ _ = some s → _) ↔ _
    rw [s, e]
    tauto

/-- **C59** is violated: the scopes of the second input are lost in the union, and those of the first are
all kept in the intersection; the version of the second input is lost if the first has none; and
Unicode 10.0.0 is taken for older than 6.3.0. -/
theorem metadata_violations (order : {α : Type} → List α → List α) (ho : IsOrder @order) (today : List Char)
    (d1 : Description → Option Description → Option Description)
    (d2 : Option Description → Option Description → Option Description) (m1 m2 : Metadata) :
    (∀ s, s ∈ (unionMetadata @order today d1 m1 m2).scopes ↔ s ∈ m1.scopes) ∧
    (∀ s, s ∈ (intersectMetadata @order today d2 m1 m2).scopes ↔ s ∈ m1.scopes) ∧
    (m1.version = none → (unionMetadata @order today d1 m1 m2).version = none) ∧
    (m1.unicodeVersion = some "10.0.0".toList → m2.unicodeVersion = some "6.3.0".toList →
      (unionMetadata @order today d1 m1 m2).unicodeVersion = some "6.3.0".toList ∧
      (intersectMetadata @order today d2 m1 m2).unicodeVersion = some "6.3.0".toList) := by
  refine ⟨fun s => ?_, fun s => ?_, fun h => ?_, fun h h' => ?_⟩
  · show s ∈ order _ ↔ _
    rw [(ho _ _).mem_iff, mem_union]
    simp
  · show s ∈ order _ ↔ _
    rw [(ho _ _).mem_iff, List.mem_filter, mem_toSet]
    simp
  · simp [unionMetadata, h]
  · simp only [unionMetadata, intersectMetadata, h, h']
    constructor <;> decide +kernel

/-! Non-vacuity: metadata with a period. -/
example : Dated { validityStart := some (iso (2020, 1, 1)) } :=
  ⟨fun s h => by cases h; exact ⟨(2020, 1, 1), by unfold IsDate; decide, rfl⟩, fun s h => by simp at h⟩

end Lgr.Props.C59

namespace Lgr.Props.C60
open Lgr Metadata

variable {ρ ξ : Type}

/-- Every cached result is the one for the attribute and arguments of its key. -/
def Fresh (showA : List String → String) (showX : ξ → String) (name : String) (f : List String → ξ → ρ)
    (o : Memo ρ) : Prop :=
  ∀ a x r, dget o.cache (name, showA a, showX x) = some r → r = f a x

theorem fresh_call {showA : List String → String} {showX : ξ → String} (hA : showA.Injective)
    (hX : showX.Injective) {name : String} {f : List String → ξ → ρ} {o : Memo ρ}
    (h : Fresh showA showX name f o) (x : ξ) :
    Fresh showA showX name f (memoCall showA showX name f o x).1 ∧
      (memoCall showA showX name f o x).2 = f o.attr x ∧ (memoCall showA showX name f o x).1.attr = o.attr := by
  unfold memoCall
  simp only
  split
  · rename_i r hr
    exact ⟨h, h _ _ _ hr, rfl⟩
  · refine ⟨?_, rfl, rfl⟩
    intro a y r hr
    simp only [dget_dset] at hr
    split at hr
    · rename_i e
      simp only [Prod.mk.injEq, true_and] at e
      have e1 := hA e.1
      have e2 := hX e.2
      simp only [Option.some.injEq] at hr
      rw [← hr, ← e1, ← e2]
    · exact h a y r hr

/-- **C60** A memoised method is never stale: after any changes of the attribute and calls, it returns what
its body returns for the present attribute. (Texts of different lists differ, as those of Python
do.) -/
theorem memo_fresh (showA : List String → String) (showX : ξ → String) (hA : showA.Injective)
    (hX : showX.Injective) (name : String) (f : List String → ξ → ρ) (langs : List String)
    (ops : List (MemoOp ξ)) (x : ξ) :
    let o := ops.foldl (memoStep showA showX name f) { attr := langs }
    (memoCall showA showX name f o x).2 = f o.attr x := by
  have : ∀ (ops : List (MemoOp ξ)) (o : Memo ρ), Fresh showA showX name f o →
      Fresh showA showX name f (ops.foldl (memoStep showA showX name f) o) := by
    intro ops
    induction ops with
    | nil => intro o h; exact h
    | cons op ops ih =>
      intro o h
      rw [List.foldl_cons]
      apply ih
      cases op with
      | setAttr l => exact h
      | call x => exact (fresh_call hA hX h x).1
  exact (fresh_call hA hX (this ops _ (by intro a x r h; simp [dget] at h)) x).2.1

/-! Non-vacuity: texts of lists that tell them apart, in the manner of `repr`. -/

/-- A text for a list of strings. -/
def textOf (l : List (List Char)) : List Char := l.flatMap (fun s => s.flatMap (fun c => ['\\', c]) ++ [','])

def untext : List Char → List Char → List (List Char)
  | cur, '\\' :: c :: r => untext (cur ++ [c]) r
  | cur, ',' :: r => cur :: untext [] r
  | _, _ => []

theorem untext_word (s cur r : List Char) :
    untext cur (s.flatMap (fun c => ['\\', c]) ++ r) = untext (cur ++ s) r := by
  induction s generalizing cur with
  | nil => simp
  | cons c s ih => simp [untext, ih]

theorem untext_textOf (l : List (List Char)) : untext [] (textOf l) = l := by
  induction l with
  | nil => rfl
  | cons s l ih =>
    unfold textOf at ih ⊢
    rw [List.flatMap_cons, List.append_assoc, untext_word]
    simp [untext, ih]

example : Function.Injective (fun l : List String => String.ofList (textOf (l.map String.toList))) := by
  intro a b h
  have h1 := String.ofList_injective h
  have h2 := congrArg (untext []) h1
  rw [untext_textOf, untext_textOf] at h2
  exact List.map_injective_iff.2 (fun _ _ h => String.toList_injective h) h2

end Lgr.Props.C60

namespace Lgr.Props.C62
open Lgr Metadata

/-- **C62** `add_language` raises iff the tag cannot be checked, or is invalid and not forced; then nothing
changes. Otherwise the tag is in the list, once. -/
theorem add_language_iff (check : Check) (langs : List String) (l : String) (force : Bool) :
    ((addLanguage check langs l force).2 = .ok () ↔ check l = some true ∨ force = true ∧ check l = some false) ∧
    (∀ e, (addLanguage check langs l force).2 = .error e → (addLanguage check langs l force).1 = langs) ∧
    ((addLanguage check langs l force).2 = .ok () →
      (∀ k, k ∈ (addLanguage check langs l force).1 ↔ k ∈ langs ∨ k = l) ∧
      (langs.Nodup → (addLanguage check langs l force).1.Nodup)) := by
  unfold addLanguage
  cases hc : check l with
  | none => simp
  | some ok =>
    simp only [Option.some.injEq]
    by_cases h : ok = false ∧ force = false
    · rw [if_pos h]; obtain ⟨rfl, rfl⟩ := h; simp
    · rw [if_neg h]
      refine ⟨by simp only [true_iff]; cases ok <;> cases force <;> simp_all, by simp, fun _ => ?_⟩
      split
      · rename_i hm
        refine ⟨fun k => ⟨.inl, ?_⟩, id⟩
        rintro (h | rfl)
        · exact h
        · exact hm
      · rename_i hm
        refine ⟨fun k => by simp, fun hn => ?_⟩
        rw [List.nodup_append]
        refine ⟨hn, by simp, ?_⟩
        intro a ha b hb
        simp only [List.mem_singleton] at hb; subst hb
        exact fun e => hm (e ▸ ha)

theorem checkLoop_plain (check : Check) (langs : List String) (h : ∀ l ∈ langs, check l ≠ none)
    (fuel i : Nat) (hf : langs.length < i + fuel) (found : Bool) :
    checkLoop check fuel i langs found =
      (langs, found || (langs.drop i).any (fun l => decide (check l = some false))) := by
  induction fuel generalizing i found with
  | zero =>
    have : langs.drop i = [] := List.drop_eq_nil_of_le (by omega)
    simp [checkLoop, this]
  | succ fuel ih =>
    unfold checkLoop
    cases hi : langs[i]? with
    | none =>
      have : langs.drop i = [] := List.drop_eq_nil_of_le (List.getElem?_eq_none_iff.1 hi)
      simp [this]
    | some l =>
      have hd : langs.drop i = l :: langs.drop (i + 1) := by
        obtain ⟨hlt, he⟩ := List.getElem?_eq_some_iff.1 hi
        rw [← he]
        exact List.drop_eq_getElem_cons hlt
      have hm : l ∈ langs := List.mem_of_getElem? hi
      cases hc : check l with
      | none => exact absurd hc (h l hm)
      | some b =>
        cases b
        · simp only
          rw [ih (i + 1) (by omega) true, hd]
          simp only [List.any_cons, hc, decide_true, Bool.true_or, Bool.or_true]
        · simp only
          rw [ih _ (by omega), hd]
          simp [hc]

/-- **C62** `set_languages`, when no tag has a character outside ASCII: without `force` it raises iff a tag
is invalid, and then changes nothing; otherwise the languages are those given. Missing for the full
property: such tags, `set_languages_accepts_invalid`. -/
theorem set_languages_partial (check : Check) (old new : List String) (force : Bool)
    (h : ∀ l ∈ new, check l ≠ none) :
    setLanguages check old new force =
      if force = false ∧ ∃ l ∈ new, check l = some false then (old, .error (.format "INVALID_LANGUAGE_TAG"))
      else (new, .ok ()) := by
  unfold setLanguages
  rw [checkLoop_plain check new h _ _ (by omega)]
  simp only [Bool.false_or, List.drop_zero, List.any_eq_true, decide_eq_true_eq]
  congr 1
  rw [and_comm]

/-- **C62** is violated: the tag following one with a character outside ASCII is not checked, so that an
invalid tag is accepted without `force`. -/
theorem set_languages_accepts_invalid (check : Check) (h1 : check "é" = none) (h2 : check "!" = some false) :
    setLanguages check [] ["é", "!"] false = (["!"], .ok ()) := by
  have e : ["é", "!"].erase "é" = ["!"] := by decide
  simp [setLanguages, checkLoop, h1, e]

/-! Non-vacuity: a check by a list of tags. -/
example : ∃ check : Check, check "é" = none ∧ check "!" = some false ∧ ∀ l ∈ ["en", "fr"], check l = some true :=
  ⟨fun s => if s = "é" then none else some (decide (s ∈ ["en", "fr"])), by decide, by decide, by decide⟩

end Lgr.Props.C62
