import Verif.Props.RepertoireMap

/-!
# C04 (repertoire part) and C43: adding and deleting ranges in a repertoire

Both are stated on what `get_char` answers (`C01.abs`).
-/

namespace Lgr.Props
open Lgr Repertoire C01

theorem firstIn_none {f l : Nat} {p : Nat → Bool} :
    firstIn f l p = none ↔ ∀ x, f ≤ x → x ≤ l → p x = false := by
  unfold firstIn
  rw [List.find?_eq_none]
  constructor
  · intro h x h1 h2
    have := h x (by rw [List.mem_range'_1]; omega)
    simpa using this
  · intro h x hx
    rw [List.mem_range'_1] at hx
    simp [h x (by omega) (by omega)]

theorem firstIn_some {f l x : Nat} {p : Nat → Bool} (h : firstIn f l p = some x) :
    f ≤ x ∧ x ≤ l ∧ p x = true ∧ ∀ y, f ≤ y → y < x → p y = false := by
  unfold firstIn at h
  have hm := List.mem_of_find?_eq_some h
  have hp := List.find?_some h
  rw [List.mem_range'_1] at hm
  refine ⟨by omega, by omega, hp, ?_⟩
  intro y h1 h2
  rw [List.find?_eq_some_iff_append] at h
  obtain ⟨_, as, bs, he, ha⟩ := h
  have : y ∈ as := (cpRange_split (f := f) (l := l) he y).2 ⟨h1, h2⟩
  simpa using ha y this

namespace C04

/-- `add_range` on the repertoire reached by `ops`. -/
abbrev after (ops : List Op) (op : Op) : Repertoire × Except Err Bool := (run {} ops).step op

/-- Entries are what `get_char` answers. -/
abbrev entries (r : Repertoire) (k : Seq) : Option Entry := (abs r).map k

/-- **C04** When `Repertoire.add_range` returns, every code point of the range was absent and
is now present with the given attributes and range, and nothing else changed. -/
theorem rep_add_range_exact (ops : List Op) (f l : Nat) (a : Attrs) (skip b : Bool)
    (h : (after ops (.addRange f l a skip)).2 = .ok b) :
    (∀ x, f ≤ x → x ≤ l → entries (run {} ops) [x] = none ∧
      entries (after ops (.addRange f l a skip)).1 [x] =
        some ⟨some (f, l), a, fun _ => none⟩) ∧
    (∀ k, (∀ x, f ≤ x → x ≤ l → k ≠ [x]) →
      entries (after ops (.addRange f l a skip)).1 k = entries (run {} ops) k) ∧
    f < l := by
  obtain ⟨_, h2, h3⟩ := step_refines (wf_run ops) (.addRange f l a skip)
  simp only [entries, after] at h ⊢
  rw [h3] at h; rw [h2]
  generalize abs (run {} ops) = s at h ⊢
  simp only [specStep] at h ⊢
  by_cases hfl : f < l
  swap
  · simp [hfl] at h
  simp only [hfl, not_true, if_false] at h ⊢
  split at h
  · simp at h
  rename_i ho
  rw [if_neg ho]
  cases hf : firstIn f l (fun x => (s.map [x]).isSome) with
  | some x => simp [hf] at h
  | none =>
    rw [firstIn_none] at hf
    refine ⟨?_, ?_, by trivial⟩
    · intro x h1 h2
      have := hf x h1 h2
      refine ⟨by simpa using this, ?_⟩
      simp only [setRange]
      rw [if_pos ⟨h1, by omega⟩]
    · intro k hk
      simp only [setRange_apply]
      rw [if_neg]
      rintro ⟨x, hx, rfl⟩
      exact hk x hx.1 (by omega) rfl

/-- **C04** `Repertoire.add_range` returns exactly when the range is proper, none of its code
points is present and (unless the check is skipped) no declared range overlaps it by
containing one of its ends. -/
theorem rep_add_range_ok_iff (ops : List Op) (f l : Nat) (a : Attrs) (skip : Bool) :
    (∃ b, (after ops (.addRange f l a skip)).2 = .ok b) ↔
      f < l ∧ (∀ x, f ≤ x → x ≤ l → entries (run {} ops) [x] = none) ∧
      (skip = false → ∀ p ∈ (run {} ops).ranges,
        ¬ ((f ≤ p.2 ∧ p.1 ≤ l) ∧ (p.1 ≤ f ∨ l ≤ p.2))) := by
  obtain ⟨_, h2, h3⟩ := step_refines (wf_run ops) (.addRange f l a skip)
  simp only [entries, after]
  rw [h3]
  have hr : ∀ p, p ∈ (run {} ops).ranges ↔ p ∈ (abs (run {} ops)).ranges := by
    intro p; simp [abs]
  simp only [hr]
  generalize abs (run {} ops) = s
  simp only [specStep]
  by_cases hfl : f < l
  swap
  · simp [hfl]
  simp only [hfl, not_true, if_false, true_and]
  split
  · rename_i ho
    constructor
    · rintro ⟨b, hb⟩; simp at hb
    · rintro ⟨_, hc⟩
      obtain ⟨p, hp, hq⟩ := ho.2
      exact absurd hq (hc ho.1 p hp)
  · rename_i ho
    cases hf : firstIn f l (fun x => (s.map [x]).isSome) with
    | some x =>
      obtain ⟨h1, h2, h3, _⟩ := firstIn_some hf
      constructor
      · rintro ⟨b, hb⟩; simp at hb
      · rintro ⟨hc, _⟩
        rw [hc x h1 h2] at h3; simp at h3
    | none =>
      rw [firstIn_none] at hf
      constructor
      · intro _
        refine ⟨fun x h1 h2 => by simpa using hf x h1 h2, ?_⟩
        intro hs p hp hq
        exact ho ⟨hs, p, hp, hq⟩
      · intro _; exact ⟨true, rfl⟩

/-- **C04, partial** When `Repertoire.add_range` raises, nothing changed provided the clash is
reported for the range or its first code point.  What is missing for the full claim is a clash
with a later code point: see `rep_add_range_not_atomic`, where the code leaves a partially
inserted range. -/
theorem rep_add_range_atomic_partial (ops : List Op) (f l : Nat) (a : Attrs) (skip : Bool) (e : Err)
    (h : (after ops (.addRange f l a skip)).2 = .error e)
    (he : ∀ x, f < x → x ≤ l → e ≠ .charAlreadyExists [x]) :
    abs (after ops (.addRange f l a skip)).1 = abs (run {} ops) := by
  obtain ⟨_, h2, h3⟩ := step_refines (wf_run ops) (.addRange f l a skip)
  simp only [after] at h ⊢
  rw [h3] at h; rw [h2]
  generalize abs (run {} ops) = s at h ⊢
  simp only [specStep] at h ⊢
  by_cases hfl : f < l
  swap
  · simp [hfl]
  simp only [hfl, not_true, if_false] at h ⊢
  split
  · rfl
  rename_i ho
  rw [if_neg ho] at h
  cases hf : firstIn f l (fun x => (s.map [x]).isSome) with
  | none => simp [hf] at h
  | some x =>
    simp only [hf, Except.error.injEq] at h
    obtain ⟨h1, h2, _⟩ := firstIn_some hf
    have hx : x = f := by
      by_contra hne
      exact he x (by omega) h2 h.symm
    subst hx
    simp only
    apply abs_ext
    · intro k
      simp only [setRange_apply]
      rw [if_neg]; rintro ⟨y, hy, _⟩; omega
    · rfl

/-- **C04 fails as stated for `Repertoire.add_range`**: a range strictly containing a declared
one is not detected as overlapping, so the call raises half-way and the code points inserted
before the clash stay. -/
theorem rep_add_range_not_atomic :
    ∃ (ops : List Op) (f l : Nat) (a : Attrs) (e : Err),
      (after ops (.addRange f l a false)).2 = .error e ∧
      (run {} ops).hasCp [f] = false ∧
      (after ops (.addRange f l a false)).1.hasCp [f] = true :=
  ⟨[.addRange 5 6 {} false], 4, 7, {}, .charAlreadyExists [5], by rfl, by rfl, by rfl⟩

/-! Non-vacuity. -/
example : (after [.addChar [97] {}] (.addRange 98 100 {} false)).2 = .ok true := by rfl
example : (after [.addRange 98 100 {} false] (.addRange 99 103 {} false)).2 =
    .error (.rangeAlreadyExists 99 103) := by rfl
example : (after [.addChar [98] {}] (.addRange 98 100 {} false)).2 =
    .error (.charAlreadyExists [98]) := by rfl

end C04

namespace C43
open C04

/-- **C43** When `del_range` returns, exactly the code points of the range, all present before,
are gone; the range was declared and one declaration is removed. -/
theorem del_range_exact (ops : List Op) (f l : Nat) (b : Bool)
    (h : (after ops (.delRange f l)).2 = .ok b) :
    (∀ x, f ≤ x → x ≤ l → (entries (run {} ops) [x]).isSome ∧
      entries (after ops (.delRange f l)).1 [x] = none) ∧
    (∀ k, (∀ x, f ≤ x → x ≤ l → k ≠ [x]) →
      entries (after ops (.delRange f l)).1 k = entries (run {} ops) k) ∧
    (f, l) ∈ (run {} ops).ranges ∧
    (after ops (.delRange f l)).1.ranges.Perm ((run {} ops).ranges.erase (f, l)) := by
  obtain ⟨_, h2, h3⟩ := step_refines (wf_run ops) (.delRange f l)
  simp only [entries, after] at h ⊢
  have hperm : (abs ((run {} ops).step (.delRange f l)).1).ranges =
      (abs (run {} ops)).ranges.erase (f, l) → ((run {} ops).step (.delRange f l)).1.ranges.Perm
        ((run {} ops).ranges.erase (f, l)) := by
    intro he
    rw [← Multiset.coe_eq_coe]
    simp only [abs, Multiset.coe_erase] at he
    rw [he]; congr 2; exact lawful_beq_subsingleton _ _
  rw [h2] at hperm ⊢
  rw [h3] at h
  have hmem : (f, l) ∈ (run {} ops).ranges ↔ (f, l) ∈ (abs (run {} ops)).ranges := by simp [abs]
  rw [hmem]
  generalize abs (run {} ops) = s at h hperm ⊢
  simp only [specStep] at h hperm ⊢
  by_cases hfl : f < l
  swap
  · simp [hfl] at h
  simp only [hfl, not_true, if_false] at h hperm ⊢
  by_cases hin : (f, l) ∈ s.ranges
  swap
  · simp [hin] at h
  simp only [hin, not_true, if_false] at h hperm ⊢
  cases hf : firstIn f l (fun x => (s.map [x]).isNone) with
  | some x => simp [hf] at h
  | none =>
    simp only [hf] at hperm ⊢
    rw [firstIn_none] at hf
    refine ⟨?_, ?_, trivial, hperm trivial⟩
    · intro x h1 h2
      have := hf x h1 h2
      refine ⟨by rw [← Option.not_isNone, this]; rfl, ?_⟩
      simp only [setRange]
      rw [if_pos ⟨h1, by omega⟩]
    · intro k hk
      simp only [setRange_apply]
      rw [if_neg]
      rintro ⟨x, hx, rfl⟩
      exact hk x hx.1 (by omega) rfl

/-- **C43, partial** If every code point of a declared range is still present, `del_range`
returns; if it raises on an undeclared or improper range nothing changes.  Missing for the full
claim: a declared range one of whose code points was deleted individually, where the call
raises after deleting the code points before it (`del_range_not_atomic`). -/
theorem del_range_partial (ops : List Op) (f l : Nat) :
    ((f < l ∧ (f, l) ∈ (run {} ops).ranges ∧
        ∀ x, f ≤ x → x ≤ l → (entries (run {} ops) [x]).isSome) →
      (after ops (.delRange f l)).2 = .ok true) ∧
    (¬ (f < l ∧ (f, l) ∈ (run {} ops).ranges) →
      ∃ e, after ops (.delRange f l) = (run {} ops, .error e)) := by
  constructor
  · rintro ⟨hfl, hin, hall⟩
    obtain ⟨_, _, h3⟩ := step_refines (wf_run ops) (.delRange f l)
    simp only [after]; rw [h3]
    have hin' : (f, l) ∈ (abs (run {} ops)).ranges := by simpa [abs] using hin
    simp only [entries] at hall
    generalize abs (run {} ops) = s at hin' hall
    have hf : firstIn f l (fun x => (s.map [x]).isNone) = none := by
      rw [firstIn_none]; intro x h1 h2
      have := hall x h1 h2
      rw [← Option.not_isNone] at this; simpa using this
    simp [specStep, hfl, hin', hf]
  · intro hn
    simp only [after, step, delRange]
    by_cases hfl : f < l
    · have hin : (f, l) ∉ (run {} ops).ranges := fun h => hn ⟨hfl, h⟩
      exact ⟨_, by simp only [hfl, hin, not_true, not_false_iff, if_true, if_false]; rfl⟩
    · exact ⟨_, by simp only [hfl, not_false_iff, if_true]; rfl⟩

/-- **C43** After a successful `del_range` the same range can be added again, unless another
declared range still overlaps it. -/
theorem add_after_del (ops : List Op) (f l : Nat) (a : Attrs) (b : Bool)
    (h : (after ops (.delRange f l)).2 = .ok b)
    (hov : ∀ p ∈ (run {} ops).ranges.erase (f, l), ¬ (f ≤ p.2 ∧ p.1 ≤ l)) :
    ∃ b', (after (ops ++ [.delRange f l]) (.addRange f l a false)).2 = .ok b' := by
  obtain ⟨h1, _, h3, h4⟩ := del_range_exact ops f l b h
  have hrun : run {} (ops ++ [.delRange f l]) = (after ops (.delRange f l)).1 := by
    simp [run, after]
  rw [rep_add_range_ok_iff]
  rw [hrun]
  refine ⟨?_, fun x hx1 hx2 => (h1 x hx1 hx2).2, ?_⟩
  · by_contra hfl
    simp [after, step, delRange, hfl] at h
  · intro _ p hp hq
    exact hov p (h4.mem_iff.1 hp) hq.1

/-- **C43 fails as stated**: `del_char` on a code point of a range leaves the range declared;
a later `del_range` raises after having deleted the code points before it. -/
theorem del_range_not_atomic :
    ∃ (ops : List Op) (f l : Nat) (e : Err), (after ops (.delRange f l)).2 = .error e ∧
      (run {} ops).hasCp [f] = true ∧ (after ops (.delRange f l)).1.hasCp [f] = false :=
  ⟨[.addRange 97 99 {} false, .delChar [98]], 97, 99, .notInLGR [98], by rfl, by rfl, by rfl⟩

/-! Non-vacuity. -/
example : (after [.addRange 97 99 {} false, .addChar [96] {}] (.delRange 97 99)).2 = .ok true := by rfl
example : (after [.addRange 97 99 {} false] (.delRange 97 98)).2 = .error (.notInLGR [97]) := by rfl

end C43
end Lgr.Props
