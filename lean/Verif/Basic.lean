import Mathlib.Data.List.Sort
import Mathlib.Data.List.Lex
import Mathlib.Data.List.MinMax

/-!
# Shared vocabulary

Code points, sequences, exceptions, Python dictionaries and `sorted`.
-/

namespace Lgr

/-- A code point sequence (Python: tuple or list of `int`); also used for labels. -/
abbrev Seq := List Nat

/-- Exceptions raised by the modelled code (`lgr/exceptions.py`, plus the Python built-in
exceptions the code can run into).  The payload is kept only where a property talks about it. -/
inductive Err where
  | notInLGR (cp : Seq)
  | charAlreadyExists (cp : Seq)
  | rangeAlreadyExists (first last : Nat)
  | variantAlreadyExists (cp var : Seq)
  | notInRepertoire (cp : Seq)
  | invalidParameter (name : String)
  | apiException
  | invalidIdna (cp : Nat)
  | charNotInScript (cp : Seq)
  | charInvalidContextRule (cp : Seq)
  | rangeInvalidContextRule (first last : Nat)
  | variantInvalidContextRule (cp var : Seq)
  | referenceNotDefined (id : String)
  | referenceAlreadyExists (id : String)
  | referenceInvalidId (id : String)
  | duplicateReference (cp : Seq)
  | format (reason : String)
  | ruleError (name : String)
  | keyError (key : String)
  | indexError
  | assertion
  | valueError
  | attributeError
  | typeError
  | nameError
  | overflowError
  | recursionError
  deriving DecidableEq, Repr, Inhabited

/-- Python `d[k]`/`d.get(k)` on a dictionary kept as an association list in insertion order. -/
def dget {κ β : Type} [DecidableEq κ] : List (κ × β) → κ → Option β
  | [], _ => none
  | (k, v) :: d, x => if k = x then some v else dget d x

/-- Python `d[k] = v`: in place when the key exists, at the end otherwise. -/
def dset {κ β : Type} [DecidableEq κ] : List (κ × β) → κ → β → List (κ × β)
  | [], x, w => [(x, w)]
  | (k, v) :: d, x, w => if k = x then (k, w) :: d else (k, v) :: dset d x w

/-- Python `del d[k]`. -/
def ddel {κ β : Type} [DecidableEq κ] : List (κ × β) → κ → List (κ × β)
  | [], _ => []
  | (k, v) :: d, x => if k = x then d else (k, v) :: ddel d x

/-- Python `sorted(l, key=key)` (stable, ascending). -/
def sortAsc {α κ : Type} [LinearOrder κ] (key : α → κ) (l : List α) : List α :=
  l.insertionSort (fun a b => key a ≤ key b)

/-- Python `sorted(l, key=key, reverse=True)`: descending, equal keys keep their order. -/
def sortDesc {α κ : Type} [LinearOrder κ] (key : α → κ) (l : List α) : List α :=
  l.insertionSort (fun a b => key b ≤ key a)

section dict
variable {κ β : Type} [DecidableEq κ]

theorem dget_eq_none {d : List (κ × β)} {x : κ} : dget d x = none ↔ x ∉ d.map Prod.fst := by
  induction d with
  | nil => simp [dget]
  | cons p d ih =>
    obtain ⟨k, v⟩ := p
    by_cases h : k = x
    · simp [dget, h]
    · have h2 : x ≠ k := fun h' => h h'.symm
      rw [dget, if_neg h, ih, List.map_cons, List.mem_cons, not_or]
      exact ⟨fun h3 => ⟨h2, h3⟩, fun h3 => h3.2⟩

theorem dget_isSome {d : List (κ × β)} {x : κ} : (dget d x).isSome ↔ x ∈ d.map Prod.fst := by
  rw [← not_iff_not, ← dget_eq_none]; simp

theorem mem_of_dget {d : List (κ × β)} {x : κ} {v : β} (h : dget d x = some v) : (x, v) ∈ d := by
  induction d with
  | nil => simp [dget] at h
  | cons p d ih =>
    obtain ⟨k, w⟩ := p
    by_cases hk : k = x
    · simp [dget, hk] at h; simp [hk, h]
    · simp [dget, hk] at h; exact List.mem_cons_of_mem _ (ih h)

theorem dget_of_mem {d : List (κ × β)} (hd : (d.map Prod.fst).Nodup) {x : κ} {v : β}
    (h : (x, v) ∈ d) : dget d x = some v := by
  induction d with
  | nil => simp at h
  | cons p d ih =>
    obtain ⟨k, w⟩ := p
    simp only [List.map_cons, List.nodup_cons] at hd
    rcases List.mem_cons.1 h with h1 | h1
    · cases h1; simp [dget]
    · have : k ≠ x := by
        rintro rfl; exact hd.1 (List.mem_map.2 ⟨_, h1, rfl⟩)
      simp [dget, this, ih hd.2 h1]

theorem dget_dset (d : List (κ × β)) (x y : κ) (v : β) :
    dget (dset d x v) y = if x = y then some v else dget d y := by
  induction d with
  | nil => simp [dset, dget]
  | cons p d ih =>
    obtain ⟨k, w⟩ := p
    by_cases hk : k = x
    · subst hk; by_cases h : k = y <;> simp [dset, dget, h]
    · by_cases h : k = y
      · subst h; simp [dset, dget, hk]; intro h; exact absurd h.symm hk
      · simp [dset, dget, hk, h, ih]

theorem dset_keys (d : List (κ × β)) (x : κ) (v : β) :
    (dset d x v).map Prod.fst = if x ∈ d.map Prod.fst then d.map Prod.fst
      else d.map Prod.fst ++ [x] := by
  induction d with
  | nil => simp [dset]
  | cons p d ih =>
    obtain ⟨k, w⟩ := p
    by_cases hk : k = x
    · subst hk; simp [dset]
    · simp only [dset, hk, if_false, List.map_cons, ih]
      by_cases h : x ∈ d.map Prod.fst
      · simp [h]
      · have h2 : x ≠ k := fun h => hk h.symm
        rw [if_neg h, if_neg]
        · simp
        · simp only [List.mem_cons, not_or]; exact ⟨h2, h⟩

theorem dset_nodup {d : List (κ × β)} (hd : (d.map Prod.fst).Nodup) (x : κ) (v : β) :
    ((dset d x v).map Prod.fst).Nodup := by
  rw [dset_keys]; split
  · exact hd
  · rename_i h
    rw [List.nodup_append]
    refine ⟨hd, by simp, ?_⟩
    intro a ha b hb; simp at hb; subst hb; rintro rfl; exact h ha

theorem ddel_keys (d : List (κ × β)) (x : κ) :
    (ddel d x).map Prod.fst = (d.map Prod.fst).erase x := by
  induction d with
  | nil => simp [ddel]
  | cons p d ih =>
    obtain ⟨k, w⟩ := p
    by_cases hk : k = x
    · subst hk; simp [ddel]
    · rw [List.map_cons, List.erase_cons_tail (by simpa using hk)]
      simp [ddel, hk, ih]

theorem ddel_sublist (d : List (κ × β)) (x : κ) : List.Sublist (ddel d x) d := by
  induction d with
  | nil => simp [ddel]
  | cons p d ih =>
    obtain ⟨k, w⟩ := p
    by_cases hk : k = x
    · simp [ddel, hk]
    · simp [ddel, hk, ih]

theorem ddel_nodup {d : List (κ × β)} (hd : (d.map Prod.fst).Nodup) (x : κ) :
    ((ddel d x).map Prod.fst).Nodup := by
  rw [ddel_keys]; exact hd.erase _

theorem dget_ddel {d : List (κ × β)} (hd : (d.map Prod.fst).Nodup) (x y : κ) :
    dget (ddel d x) y = if x = y then none else dget d y := by
  induction d with
  | nil => simp [ddel, dget]
  | cons p d ih =>
    obtain ⟨k, w⟩ := p
    simp only [List.map_cons, List.nodup_cons] at hd
    by_cases hk : k = x
    · subst hk
      by_cases h : k = y
      · subst h; simp [ddel, dget_eq_none]; simpa using hd.1
      · simp [ddel, dget, h]
    · by_cases h : k = y
      · subst h; simp [ddel, dget, hk]; intro h; exact absurd h.symm hk
      · simp [ddel, dget, hk, h, ih hd.2]

theorem mem_dset {d : List (κ × β)} {x : κ} {v : β} {p : κ × β} (h : p ∈ dset d x v) :
    p = (x, v) ∨ p ∈ d := by
  induction d with
  | nil => simpa [dset] using h
  | cons q d ih =>
    obtain ⟨k, w⟩ := q
    by_cases hk : k = x
    · subst hk
      simp [dset] at h
      rcases h with h | h
      · exact Or.inl h
      · exact Or.inr (List.mem_cons_of_mem _ h)
    · simp [dset, hk] at h
      rcases h with h | h
      · exact Or.inr (by simp [h])
      · rcases ih h with h | h
        · exact Or.inl h
        · exact Or.inr (List.mem_cons_of_mem _ h)

end dict

section sort
variable {α κ : Type} [LinearOrder κ] (key : α → κ)

theorem sortAsc_perm (l : List α) : (sortAsc key l).Perm l := List.perm_insertionSort _ l
theorem sortDesc_perm (l : List α) : (sortDesc key l).Perm l := List.perm_insertionSort _ l

@[simp] theorem mem_sortAsc {l : List α} {a : α} : a ∈ sortAsc key l ↔ a ∈ l :=
  (sortAsc_perm key l).mem_iff
@[simp] theorem mem_sortDesc {l : List α} {a : α} : a ∈ sortDesc key l ↔ a ∈ l :=
  (sortDesc_perm key l).mem_iff

theorem sortAsc_sorted (l : List α) : (sortAsc key l).Pairwise (fun a b => key a ≤ key b) := by
  have : Std.Total (fun a b : α => key a ≤ key b) := ⟨fun a b => le_total (key a) (key b)⟩
  have : IsTrans α (fun a b : α => key a ≤ key b) := ⟨fun a b c h1 h2 => le_trans h1 h2⟩
  exact List.pairwise_insertionSort _ l

theorem sortDesc_sorted (l : List α) : (sortDesc key l).Pairwise (fun a b => key b ≤ key a) := by
  have : Std.Total (fun a b : α => key b ≤ key a) := ⟨fun a b => le_total (key b) (key a)⟩
  have : IsTrans α (fun a b : α => key b ≤ key a) := ⟨fun a b c h1 h2 => le_trans h2 h1⟩
  exact List.pairwise_insertionSort _ l

end sort

example : sortAsc id [[3],[1,2],[1]] = [[1],[1,2],[3]] := by decide
example : sortDesc List.length [[3],[1,2],[1]] = [[1,2],[3],[1]] := by decide

end Lgr
