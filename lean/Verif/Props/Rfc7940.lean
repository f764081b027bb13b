import Verif.Rfc7940

/-!
# C12: RFC 7940 conformance verdict: failures are sticky and order does not matter
-/

namespace Lgr.Props.C12
open Lgr Rfc7940

/-- A notification: test label and success. -/
abbrev Note := String × Bool

/-- Results after a sequence of notifications on a fresh object. -/
def results (notes : List Note) : Results := notes.foldl (fun r n => addTestResult r n.1 n.2) []

/-- The test was ever reported (run or failed). -/
def Reported (notes : List Note) (t : String) : Prop := ∃ b, (t, b) ∈ notes

/-- The test was ever reported failed. -/
def Failed (notes : List Note) (t : String) : Prop := (t, false) ∈ notes

/-! ## Helper lemmas -/

theorem addTestResult_get (r : Results) (l : String) (b : Bool) (t : String) :
    dget (addTestResult r l b) t =
      if l = t then some (b && (dget r t).getD true) else dget r t := by
  unfold addTestResult
  cases b with
  | false => simp [dget_dset]
  | true =>
    cases h : dget r l with
    | none =>
      simp only [Bool.true_eq_false, false_or, if_true, dget_dset]
      split
      · rename_i hlt; subst hlt; simp [h]
      · rfl
    | some v =>
      simp only [Bool.true_eq_false, reduceCtorEq, or_self, if_false]
      split
      · rename_i hlt; subst hlt; simp [h]
      · rfl

open Classical in
theorem results_get (notes : List Note) (t : String) :
    dget (results notes) t =
      if Reported notes t then some (decide (¬ Failed notes t)) else none := by
  have main : ∀ (notes : List Note) (r : Results),
      dget (notes.foldl (fun r n => addTestResult r n.1 n.2) r) t =
        if Reported notes t then some (decide (¬ Failed notes t) && (dget r t).getD true)
        else dget r t := by
    intro notes
    induction notes with
    | nil => intro r; simp [Reported]
    | cons n notes ih =>
      intro r
      obtain ⟨l, b⟩ := n
      rw [List.foldl_cons, ih, addTestResult_get]
      by_cases hl : l = t
      · subst hl
        have h1 : Reported ((l, b) :: notes) l := ⟨b, by simp⟩
        rw [if_pos h1]
        by_cases h2 : Reported notes l
        · rw [if_pos h2]
          by_cases h3 : (l, false) ∈ notes <;> cases b <;> simp [Failed, h3]
        · rw [if_neg h2]
          have h3 : (l, false) ∉ notes := fun h => h2 ⟨false, h⟩
          cases b <;> simp [Failed, h3]
      · have h1 : Reported ((l, b) :: notes) t ↔ Reported notes t := by
          unfold Reported
          constructor
          · rintro ⟨b', hb⟩
            rcases List.mem_cons.1 hb with h | h
            · injection h with h; exact absurd h.symm hl
            · exact ⟨b', h⟩
          · rintro ⟨b', hb⟩; exact ⟨b', by simp [hb]⟩
        have h2 : Failed ((l, b) :: notes) t ↔ Failed notes t := by
          unfold Failed
          simp only [List.mem_cons, Prod.mk.injEq]
          constructor
          · rintro (⟨h, _⟩ | h)
            · exact absurd h.symm hl
            · exact h
          · exact Or.inr
        simp only [h1, h2, hl, if_false]
  have := main notes []
  unfold results
  rw [this]
  simp [dget]

theorem results_nodup (notes : List Note) : ((results notes).map Prod.fst).Nodup := by
  unfold results
  have : ∀ (notes : List Note) (r : Results), (r.map Prod.fst).Nodup →
      ((notes.foldl (fun r n => addTestResult r n.1 n.2) r).map Prod.fst).Nodup := by
    intro notes
    induction notes with
    | nil => intro r h; exact h
    | cons n notes ih =>
      intro r h
      apply ih
      simp only [addTestResult]
      split
      · exact dset_nodup h _ _
      · exact h
  exact this notes [] (by simp)

theorem policyLoop_eq (r : Results) (pol : List (String × String)) (err warn : Bool) :
    ((policyLoop r pol (err, warn)).1 = true ↔ err = true ∨ ∃ q ∈ pol, dget r q.1 = none ∨
      (dget r q.1 = some false ∧ q.2 ≠ "IGNORE" ∧ q.2 ≠ "WARNING")) ∧
    ((policyLoop r pol (err, warn)).2 = true ↔ warn = true ∨ ∃ q ∈ pol,
      dget r q.1 = some false ∧ q.2 = "WARNING") := by
  induction pol generalizing err warn with
  | nil => simp [policyLoop]
  | cons q pol ih =>
    obtain ⟨t, p⟩ := q
    simp only [policyLoop, List.exists_mem_cons_iff]
    cases hg : dget r t with
    | none => simp [ih]
    | some b =>
      cases b with
      | true => simp [ih]
      | false =>
        by_cases h1 : p = "IGNORE"
        · simp [h1, ih]
        · by_cases h2 : p = "WARNING"
          · simp [h2, ih]
          · simp [h1, h2, ih]

/-! ## The property -/

/-- **C12** Without policy the verdict is FAIL iff some failure was ever reported, else PASS. -/
theorem verdict_no_policy (notes : List Note) :
    (finalResult (results notes) none = .fail ↔ ∃ t, Failed notes t) ∧
    (finalResult (results notes) none ≠ .fail → finalResult (results notes) none = .pass) := by
  have h : false ∈ (results notes).map Prod.snd ↔ ∃ t, Failed notes t := by
    rw [List.mem_map]
    constructor
    · rintro ⟨⟨t, b⟩, hm, hb⟩
      simp only at hb; subst hb
      have hg := dget_of_mem (results_nodup notes) hm
      rw [results_get] at hg
      split at hg
      · refine ⟨t, ?_⟩
        injection hg with hg
        by_contra hn; simp [hn] at hg
      · simp at hg
    · rintro ⟨t, ht⟩
      have hg : dget (results notes) t = some false := by
        rw [results_get, if_pos ⟨false, ht⟩]; simp [ht]
      exact ⟨(t, false), mem_of_dget hg, rfl⟩
  simp only [finalResult]
  rw [← h]
  by_cases hc : false ∈ (results notes).map Prod.snd
  · rw [if_pos hc]; exact ⟨iff_of_true rfl hc, by simp⟩
  · rw [if_neg hc]; exact ⟨iff_of_false (by simp) hc, by simp⟩

/-- **C12** With a policy: FAIL iff a listed test was never reported, or was reported failed and
is listed neither IGNORE nor WARNING; otherwise WARN iff a failed test is listed WARNING;
otherwise PASS. -/
theorem verdict_policy (notes : List Note) (pol : List (String × String)) :
    let bad := ∃ q ∈ pol, ¬ Reported notes q.1 ∨
      (Failed notes q.1 ∧ q.2 ≠ "IGNORE" ∧ q.2 ≠ "WARNING")
    let soft := ∃ q ∈ pol, Failed notes q.1 ∧ q.2 = "WARNING"
    (finalResult (results notes) (some pol) = .fail ↔ bad) ∧
    (finalResult (results notes) (some pol) = .warn ↔ ¬ bad ∧ soft) ∧
    (finalResult (results notes) (some pol) = .pass ↔ ¬ bad ∧ ¬ soft) := by
  intro bad soft
  obtain ⟨h1, h2⟩ := policyLoop_eq (results notes) pol false false
  have hnone : ∀ t, dget (results notes) t = none ↔ ¬ Reported notes t := by
    intro t; rw [results_get]; split <;> simp [*]
  have hfail : ∀ t, dget (results notes) t = some false ↔ Failed notes t := by
    intro t; rw [results_get]
    split
    · simp
    · rename_i h; simp only [reduceCtorEq, false_iff]; exact fun hf => h ⟨false, hf⟩
  simp only [hnone, hfail, Bool.false_eq_true, false_or] at h1 h2
  have h1' : (policyLoop (results notes) pol (false, false)).1 = true ↔ bad := h1
  have h2' : (policyLoop (results notes) pol (false, false)).2 = true ↔ soft := h2
  simp only [finalResult]
  generalize policyLoop (results notes) pol (false, false) = s at h1' h2'
  obtain ⟨e, w⟩ := s
  simp only at h1' h2' ⊢
  cases e <;> cases w <;> simp at h1' h2' <;> simp [h1', h2']

/-- **C12** The verdict depends only on which tests were ever reported and which were ever
reported failed: neither order nor repetition of notifications matters. -/
theorem verdict_order_independent (notes notes' : List Note) (pol : Option (List (String × String)))
    (hr : ∀ t, Reported notes t ↔ Reported notes' t) (hf : ∀ t, Failed notes t ↔ Failed notes' t) :
    finalResult (results notes) pol = finalResult (results notes') pol := by
  cases pol with
  | none =>
    have h1 := verdict_no_policy notes
    have h2 := verdict_no_policy notes'
    have : (∃ t, Failed notes t) ↔ ∃ t, Failed notes' t := by simp [hf]
    by_cases h : finalResult (results notes) none = .fail
    · rw [h, eq_comm]; exact h2.1.2 (this.1 (h1.1.1 h))
    · rw [h1.2 h, eq_comm]; apply h2.2; intro h'; exact h (h1.1.2 (this.2 (h2.1.1 h')))
  | some pol =>
    have h1 := verdict_policy notes pol
    have h2 := verdict_policy notes' pol
    simp only [hr, hf] at h1
    cases hv : finalResult (results notes') (some pol) with
    | pass => exact h1.2.2.2 (h2.2.2.1 hv)
    | warn => exact h1.2.1.2 (h2.2.1.1 hv)
    | fail => exact h1.1.2 (h2.1.1 hv)

/-! Non-vacuity. -/
example : finalResult (results [("a", true), ("b", false), ("b", true)])
    (some [("a", "ERROR"), ("b", "WARNING")]) = .warn := by decide
example : finalResult (results [("a", true), ("b", false)]) (some [("b", "IGNORE")]) = .pass := by decide
example : finalResult (results [("a", true)]) (some [("b", "IGNORE")]) = .fail := by decide
example : Failed [("b", false), ("b", true)] "b" := by simp [Failed]

end Lgr.Props.C12
