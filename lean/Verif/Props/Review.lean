import Verif.ReviewSets
import Verif.Props.LgrState

/-!
# C38, C39, C77, C79, C80: decisions and summary of the IDN review
-/

namespace Lgr.Props.C38
open Lgr Review

/-- The elements of a list, each at its first occurrence. -/
def firsts (l : List String) : List String := l.reverse.dedup.reverse

theorem firsts_snoc (l : List String) (x : String) :
    firsts (l ++ [x]) = if x ∈ l then firsts l else firsts l ++ [x] := by
  unfold firsts
  rw [List.reverse_append]
  simp only [List.reverse_cons, List.reverse_nil, List.nil_append, List.singleton_append]
  by_cases h : x ∈ l
  · rw [List.dedup_cons_of_mem (by simpa using h), if_pos h]
  · rw [List.dedup_cons_of_notMem (by simpa using h), if_neg h]; simp

theorem mem_firsts {l : List String} {x : String} : x ∈ firsts l ↔ x ∈ l := by simp [firsts]

theorem firsts_nodup (l : List String) : (firsts l).Nodup := by
  unfold firsts; rw [List.nodup_reverse]; exact List.nodup_dedup _

/-- Sum of the values of a dictionary after incrementing one of them. -/
theorem sum_bump (d : List (String × Nat)) (x : String) :
    ((dset d x ((dget d x).getD 0 + 1)).map Prod.snd).sum = (d.map Prod.snd).sum + 1 := by
  induction d with
  | nil => simp [dset, dget]
  | cons p d ih =>
    obtain ⟨k, v⟩ := p
    by_cases h : k = x
    · subst h; simp [dset, dget]; omega
    · simp only [dset, dget, h, if_false, List.map_cons, List.sum_cons, ih]; omega

/-- The state of the loop. -/
structure Inv (l : List (Result × String)) (s : SumState) : Prop where
  ge : ∀ p ∈ l, p.1.rank ≤ s.result.rank
  att : s.result = .matched ∨ ∃ p ∈ l, p.1 = s.result
  keys : s.remarks.map Prod.fst = firsts (l.map Prod.snd)
  count : ∀ m, (dget s.remarks m).getD 0 = (l.map Prod.snd).count m
  sum : (s.remarks.map Prod.snd).sum = l.length
  last : ∀ m, dget s.remarkResult m = ((l.reverse.find? (fun p => p.2 = m)).map Prod.fst)

theorem inv (l : List (Result × String)) : Inv l (l.foldl sumStep {}) := by
  induction l using List.reverseRecOn with
  | nil =>
    exact ⟨by simp, Or.inl rfl, by simp [firsts], by simp [dget], by simp, by simp [dget]⟩
  | append_singleton l p ih =>
    rw [List.foldl_append]
    simp only [List.foldl_cons, List.foldl_nil]
    generalize l.foldl sumStep {} = s at ih
    refine ⟨?_, ?_, ?_, ?_, ?_, ?_⟩
    · intro q hq
      rw [List.mem_append, List.mem_singleton] at hq
      simp only [sumStep]
      split
      · rename_i h
        rcases hq with hq | rfl
        · have := ih.ge q hq; omega
        · exact le_refl _
      · rename_i h
        rcases hq with hq | rfl
        · exact ih.ge q hq
        · omega
    · simp only [sumStep]
      split
      · exact Or.inr ⟨p, by simp, rfl⟩
      · rcases ih.att with h | ⟨q, hq, h⟩
        · exact Or.inl h
        · exact Or.inr ⟨q, by simp [hq], h⟩
    · simp only [sumStep]
      rw [dset_keys, ih.keys, List.map_append, List.map_cons, List.map_nil, firsts_snoc]
      simp only [mem_firsts]
    · intro m
      simp only [sumStep]
      rw [dget_dset, List.map_append, List.count_append]
      by_cases h : p.2 = m
      · subst h; rw [if_pos rfl, ih.count]; simp
      · rw [if_neg h, ih.count]; simp [h]
    · simp only [sumStep]
      rw [sum_bump, ih.sum]; simp
    · intro m
      simp only [sumStep]
      rw [dget_dset, ih.last, List.reverse_append]
      simp only [List.reverse_cons, List.reverse_nil, List.nil_append, List.singleton_append,
        List.find?_cons]
      by_cases h : p.2 = m
      · simp [h]
      · simp [h]

/-- **C38** The overall result is the most severe of the results (`MATCH` if there is none). -/
theorem overall_worst (l : List (Result × String)) :
    (∀ p ∈ l, p.1.rank ≤ (handleReport l).overall.rank) ∧
    ((handleReport l).overall = .matched ∨ ∃ p ∈ l, p.1 = (handleReport l).overall) :=
  ⟨(inv l).ge, (inv l).att⟩

/-- **C38** Each remark has one line, in order of first occurrence. -/
theorem lines (l : List (Result × String)) :
    (handleReport l).results.map Line.remark = firsts (l.map Prod.snd) := by
  rw [← (inv l).keys]; simp [handleReport, Function.comp_def]

/-- **C38** A line counts the occurrences of its remark, and has the result of the last of them. -/
theorem line_exact (l : List (Result × String)) {x : Line} (hx : x ∈ (handleReport l).results) :
    x.count = (l.map Prod.snd).count x.remark ∧
    x.result = (l.reverse.find? (fun p => p.2 = x.remark)).map Prod.fst := by
  have h := inv l
  simp only [handleReport, List.mem_map] at hx
  obtain ⟨p, hp, rfl⟩ := hx
  refine ⟨?_, h.last _⟩
  have hn : ((l.foldl sumStep {}).remarks.map Prod.fst).Nodup := by rw [h.keys]; exact firsts_nodup _
  rw [← h.count, dget_of_mem hn (v := p.2) hp]; rfl

/-- **C38** The counters add up to the number of results. -/
theorem counts_add_up (l : List (Result × String)) :
    ((handleReport l).results.map Line.count).sum = l.length := by
  rw [← (inv l).sum]; simp [handleReport, Function.comp_def]

example : handleReport [(.note, "a"), (.review, "b"), (.note, "a")] =
    ⟨.review, [⟨some .note, "a", 2⟩, ⟨some .review, "b", 1⟩]⟩ := by decide +kernel

end Lgr.Props.C38

namespace Lgr.Props.C77
open Lgr Review

/-- A remark has one result in the list. -/
def Functional (l : List (Result × String)) : Prop := ∀ p ∈ l, ∀ q ∈ l, p.2 = q.2 → p.1 = q.1

/-- If remarks determine results, then each line has the result of everything it counts, and the overall
result is the most severe of the lines. -/
theorem faithful {l : List (Result × String)} (h : Functional l) :
    (∀ x ∈ (handleReport l).results, ∀ p ∈ l, p.2 = x.remark → x.result = some p.1) ∧
    (∀ x ∈ (handleReport l).results, ∃ r, x.result = some r ∧ r.rank ≤ (handleReport l).overall.rank) ∧
    ((handleReport l).results = [] ∨ ∃ x ∈ (handleReport l).results, x.result = some (handleReport l).overall) := by
  have key : ∀ x ∈ (handleReport l).results, ∀ p ∈ l, p.2 = x.remark → x.result = some p.1 := by
    intro x hx p hp hm
    rw [(C38.line_exact l hx).2]
    cases hf : l.reverse.find? (fun p => p.2 = x.remark) with
    | none =>
      exfalso
      have := List.find?_eq_none.1 hf p (by simpa using hp)
      simp [hm] at this
    | some q =>
      have h1 := List.mem_of_find?_eq_some hf
      have h2 := List.find?_some hf
      simp only [decide_eq_true_eq] at h2
      rw [Option.map_some, h q (by simpa using h1) p hp (h2.trans hm.symm)]
  have hline : ∀ x ∈ (handleReport l).results, ∃ p ∈ l, p.2 = x.remark := by
    intro x hx
    have h1 : x.remark ∈ (handleReport l).results.map Line.remark := List.mem_map_of_mem hx
    rw [C38.lines, C38.mem_firsts] at h1
    obtain ⟨p, hp, h2⟩ := List.mem_map.1 h1
    exact ⟨p, hp, h2⟩
  have hrev : ∀ p ∈ l, ∃ x ∈ (handleReport l).results, x.remark = p.2 := by
    intro p hp
    have h1 : p.2 ∈ (handleReport l).results.map Line.remark := by
      rw [C38.lines, C38.mem_firsts]; exact List.mem_map_of_mem hp
    obtain ⟨x, hx, h2⟩ := List.mem_map.1 h1
    exact ⟨x, hx, h2⟩
  refine ⟨key, ?_, ?_⟩
  · intro x hx
    obtain ⟨p, hp, h1⟩ := hline x hx
    exact ⟨p.1, key x hx p hp h1, (C38.overall_worst l).1 p hp⟩
  · rcases (C38.overall_worst l).2 with h0 | ⟨p, hp, h0⟩
    · cases hl : (handleReport l).results with
      | nil => exact Or.inl rfl
      | cons x xs =>
        refine Or.inr ⟨x, List.mem_cons_self, ?_⟩
        have hx : x ∈ (handleReport l).results := by rw [hl]; exact List.mem_cons_self
        obtain ⟨p, hp, h1⟩ := hline x hx
        have h2 := (C38.overall_worst l).1 p hp
        rw [key x hx p hp h1, h0]
        rw [h0] at h2
        have : p.1 = .matched := by
          generalize p.1 = r at h2
          cases r <;> simp [Result.rank] at h2 ⊢
        rw [this]
    · obtain ⟨x, hx, h1⟩ := hrev p hp
      exact Or.inr ⟨x, hx, by rw [key x hx p hp h1.symm, h0]⟩

/-- A finite table of results and remarks. -/
theorem functional_of_table {l : List (Result × String)} (t : List (Result × String))
    (hl : ∀ p ∈ l, p ∈ t) (ht : Functional t) : Functional l :=
  fun p hp q hq h => ht p (hl p hp) q (hl q hq) h

end Lgr.Props.C77
