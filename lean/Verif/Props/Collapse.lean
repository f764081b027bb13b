import Verif.Collapse

/-!
# C05: `collapse_codepoints` is an exact, maximal, sorted range cover
-/

namespace Lgr.Props.C05
open Lgr

/-- Ranges are proper, in ascending order, disjoint and not adjacent. -/
def Separated (rs : List (Nat × Nat)) : Prop :=
  (∀ r ∈ rs, r.1 ≤ r.2) ∧ rs.Pairwise (fun a b => a.2 + 1 < b.1)

/-- A code point is covered by a list of ranges. -/
def Covers (rs : List (Nat × Nat)) (x : Nat) : Prop := ∃ r ∈ rs, r.1 ≤ x ∧ x ≤ r.2

theorem loop_spec (cs : List Nat) (f l : Nat) (hfl : f ≤ l) (hs : (l :: cs).Pairwise (· < ·)) :
    Separated (collapseLoop f l cs) ∧
    (∀ r ∈ collapseLoop f l cs, f ≤ r.1) ∧
    ∀ x, Covers (collapseLoop f l cs) x ↔ (f ≤ x ∧ x ≤ l) ∨ x ∈ cs := by
  induction cs generalizing f l with
  | nil =>
    refine ⟨⟨?_, ?_⟩, ?_, ?_⟩ <;> simp [collapseLoop, Covers, hfl]
  | cons c cs ih =>
    rw [List.pairwise_cons] at hs
    have hlc : l < c := hs.1 c (by simp)
    simp only [collapseLoop]
    split
    · rename_i hc
      obtain ⟨h1, h2, h3⟩ := ih f c (by omega) hs.2
      refine ⟨h1, h2, ?_⟩
      intro x
      rw [h3, List.mem_cons]
      constructor
      · rintro (h | h)
        · by_cases hx : x = c
          · exact Or.inr (Or.inl hx)
          · left; omega
        · exact Or.inr (Or.inr h)
      · rintro (h | h | h)
        · left; omega
        · left; omega
        · exact Or.inr h
    · rename_i hc
      obtain ⟨h1, h2, h3⟩ := ih c c (le_refl _) hs.2
      refine ⟨⟨?_, ?_⟩, ?_, ?_⟩
      · intro r hr
        rcases List.mem_cons.1 hr with rfl | hr
        · exact hfl
        · exact h1.1 r hr
      · rw [List.pairwise_cons]
        refine ⟨?_, h1.2⟩
        intro r hr
        have := h2 r hr
        simp only; omega
      · intro r hr
        rcases List.mem_cons.1 hr with rfl | hr
        · exact le_refl _
        · have := h2 r hr; omega
      · intro x
        have hcov : Covers ((f, l) :: collapseLoop c c cs) x ↔
            (f ≤ x ∧ x ≤ l) ∨ Covers (collapseLoop c c cs) x := by
          unfold Covers
          simp only [List.exists_mem_cons_iff]
        rw [hcov, h3, List.mem_cons]
        constructor
        · rintro (h | h | h)
          · exact Or.inl h
          · right; left; omega
          · exact Or.inr (Or.inr h)
        · rintro (h | h | h)
          · exact Or.inl h
          · right; left; omega
          · exact Or.inr (Or.inr h)

theorem sorted_of_nodup {cps : List Nat} (h : cps.Nodup) : (sortAsc id cps).Pairwise (· < ·) := by
  have h1 := sortAsc_sorted id cps
  have h2 : (sortAsc id cps).Nodup := (sortAsc_perm _ _).nodup_iff.2 h
  refine (h1.and h2).imp ?_
  rintro a b ⟨h3, h4⟩
  exact lt_of_le_of_ne h3 h4

/-- **C05** On a non-empty list of distinct code points the result is a separated list of
ranges covering exactly the input. -/
theorem collapse_exact (cps : List Nat) (hn : cps.Nodup) (hne : cps ≠ []) :
    ∃ rs, collapseCodepoints cps = .ok rs ∧ Separated rs ∧ ∀ x, Covers rs x ↔ x ∈ cps := by
  have hs := sorted_of_nodup hn
  have hp := sortAsc_perm id cps
  unfold collapseCodepoints
  cases hc : sortAsc id cps with
  | nil => rw [hc] at hp; exact absurd hp.symm.eq_nil hne
  | cons c cs =>
    rw [hc] at hs hp
    obtain ⟨h1, _, h3⟩ := loop_spec cs c c (le_refl _) hs
    refine ⟨_, rfl, h1, ?_⟩
    intro x
    rw [h3, ← hp.mem_iff, List.mem_cons]
    constructor
    · rintro (h | h)
      · left; omega
      · exact Or.inr h
    · rintro (h | h)
      · left; omega
      · exact Or.inr h

/-- **C05** Such a cover is unique, so the specification determines the result; in particular
each range is maximal. -/
theorem cover_unique (rs ts : List (Nat × Nat)) (hr : Separated rs) (ht : Separated ts)
    (h : ∀ x, Covers rs x ↔ Covers ts x) : rs = ts := by
  induction rs generalizing ts with
  | nil =>
    cases ts with
    | nil => rfl
    | cons t ts =>
      exfalso
      have := (h t.1).2 ⟨t, by simp, le_refl _, ht.1 t (by simp)⟩
      simp [Covers] at this
  | cons r rs ih =>
    cases ts with
    | nil =>
      exfalso
      have := (h r.1).1 ⟨r, by simp, le_refl _, hr.1 r (by simp)⟩
      simp [Covers] at this
    | cons t ts =>
      have hr2 := hr.2; have ht2 := ht.2
      rw [List.pairwise_cons] at hr2 ht2
      have hr1 := hr.1 r (by simp)
      have ht1 := ht.1 t (by simp)
      -- points of the first list are at least r.1, and those above r.2 exceed r.2 + 1
      have hgeR : ∀ x, Covers (r :: rs) x → (r.1 ≤ x ∧ x ≤ r.2) ∨ r.2 + 1 < x := by
        rintro x ⟨q, hq, h1, h2⟩
        rcases List.mem_cons.1 hq with rfl | hq
        · exact Or.inl ⟨h1, h2⟩
        · right; have := hr2.1 q hq; omega
      have hgeT : ∀ x, Covers (t :: ts) x → (t.1 ≤ x ∧ x ≤ t.2) ∨ t.2 + 1 < x := by
        rintro x ⟨q, hq, h1, h2⟩
        rcases List.mem_cons.1 hq with rfl | hq
        · exact Or.inl ⟨h1, h2⟩
        · right; have := ht2.1 q hq; omega
      have inR : ∀ x, r.1 ≤ x → x ≤ r.2 → Covers (r :: rs) x := fun x h1 h2 => ⟨r, by simp, h1, h2⟩
      have inT : ∀ x, t.1 ≤ x → x ≤ t.2 → Covers (t :: ts) x := fun x h1 h2 => ⟨t, by simp, h1, h2⟩
      have e1 : r.1 = t.1 := by
        have a1 := hgeT r.1 ((h _).1 (inR r.1 (le_refl _) hr1))
        have a2 := hgeR t.1 ((h _).2 (inT t.1 (le_refl _) ht1))
        omega
      have e2 : r.2 = t.2 := by
        by_contra hne
        rcases Nat.lt_or_gt_of_ne hne with hlt | hgt
        · have := hgeR (r.2 + 1) ((h _).2 (inT (r.2 + 1) (by omega) (by omega)))
          omega
        · have := hgeT (t.2 + 1) ((h _).1 (inR (t.2 + 1) (by omega) (by omega)))
          omega
      have hrt : r = t := Prod.ext e1 e2
      subst hrt
      congr 1
      refine ih ts ⟨fun q hq => hr.1 q (by simp [hq]), hr2.2⟩
        ⟨fun q hq => ht.1 q (by simp [hq]), ht2.2⟩ ?_
      intro x
      have hx := h x
      constructor
      · rintro ⟨q, hq, h1, h2⟩
        obtain ⟨q', hq', h3, h4⟩ := hx.1 ⟨q, by simp [hq], h1, h2⟩
        rcases List.mem_cons.1 hq' with rfl | hq'
        · have := hr2.1 q hq; omega
        · exact ⟨q', hq', h3, h4⟩
      · rintro ⟨q, hq, h1, h2⟩
        obtain ⟨q', hq', h3, h4⟩ := hx.2 ⟨q, by simp [hq], h1, h2⟩
        rcases List.mem_cons.1 hq' with rfl | hq'
        · have := ht2.1 q hq; omega
        · exact ⟨q', hq', h3, h4⟩

/-- **C05** The result does not depend on the order of the input. -/
theorem collapse_order_independent (cps cps' : List Nat) (hp : cps.Perm cps') :
    collapseCodepoints cps = collapseCodepoints cps' := by
  have : sortAsc id cps = sortAsc id cps' := by
    have h1 := sortAsc_sorted id cps
    have h2 := sortAsc_sorted id cps'
    have hp' : (sortAsc id cps).Perm (sortAsc id cps') :=
      (sortAsc_perm _ _).trans (hp.trans (sortAsc_perm _ _).symm)
    exact hp'.eq_of_pairwise (fun a b _ _ => le_antisymm) h1 h2
  simp only [collapseCodepoints, this]

/-- **C05** The empty list raises. -/
theorem collapse_empty : collapseCodepoints [] = .error .indexError := by rfl

/-! Non-vacuity. -/
example : collapseCodepoints [12, 3, 1, 2, 15, 4, 11, 7, 10] =
    .ok [(1, 4), (7, 7), (10, 12), (15, 15)] := by rfl
/-- Repeated code points are outside the claim: the cover is not separated. -/
example : collapseCodepoints [5, 5] = .ok [(5, 5), (5, 5)] := by rfl

end Lgr.Props.C05
