import Verif.References
import Mathlib.Data.Finset.Image
import Mathlib.Data.Finset.Card
import Mathlib.Algebra.Order.Group.Int

/-!
# C11: reference identifiers are unique and never silently reused

All theorems hold after any history on a fresh manager, for every identifier syntax (`valid`)
and every integer parser (`pyInt`).
-/

namespace Lgr.Props.C11
open Lgr RefManager

/-- What a user sees: the reference stored under an identifier (`manager[id]`). -/
def view (m : RefManager) (i : String) : Option Ref := dget m.refs i

/-! ## Helper lemmas -/

theorem idStr_inj {i j : Int} (h : idStr i = idStr j) : i = j :=
  Text.intStr_inj (String.ofList_injective h)

theorem nextFree_or (keys : List String) (fuel : Nat) (i : Int) :
    idStr (nextFree keys fuel i) ∉ keys ∨ ∀ k : Nat, k < fuel → idStr (i + k) ∈ keys := by
  induction fuel generalizing i with
  | zero => right; intro k hk; omega
  | succ n ih =>
    simp only [nextFree]
    by_cases h : idStr i ∈ keys
    · rw [if_pos h]
      rcases ih (i + 1) with h1 | h1
      · exact Or.inl h1
      · right
        intro k hk
        cases k with
        | zero => simpa using h
        | succ k =>
          have := h1 k (by omega)
          rw [show i + ((k + 1 : Nat) : Int) = i + 1 + (k : Int) by push_cast; omega]
          exact this
    · rw [if_neg h]; exact Or.inl h

/-- The identifier search always ends on an undefined identifier. -/
theorem nextFree_spec (keys : List String) (i : Int) :
    idStr (nextFree keys (keys.length + 1) i) ∉ keys := by
  rcases nextFree_or keys (keys.length + 1) i with h | h
  · exact h
  · exfalso
    have hinj : Function.Injective (fun k : Nat => idStr (i + k)) := by
      intro a b hab
      have := idStr_inj hab; omega
    have hsub : ((Finset.range (keys.length + 1)).image (fun k : Nat => idStr (i + k))) ⊆ keys.toFinset := by
      intro x hx
      obtain ⟨k, hk, rfl⟩ := Finset.mem_image.1 hx
      exact List.mem_toFinset.2 (h k (Finset.mem_range.1 hk))
    have h1 := Finset.card_le_card hsub
    rw [Finset.card_image_of_injective _ hinj, Finset.card_range] at h1
    have h2 := List.toFinset_card_le keys
    omega

section
variable (valid : String → Bool) (pyInt : String → Option Int)

theorem step_nodup {m : RefManager} (h : (m.refs.map Prod.fst).Nodup) (op : RefManager.Op) :
    ((m.step valid pyInt op).1.refs.map Prod.fst).Nodup := by
  cases op with
  | add v c i =>
    cases i with
    | none => exact dset_nodup h _ _
    | some i =>
      simp only [step, addReference]
      by_cases h1 : (dget m.refs i).isSome
      · simp [h1, h]
      · cases h2 : valid i
        · simp [h1, h]
        · simp [h1]; exact dset_nodup h _ _
  | del i =>
    simp only [step, delReference]
    by_cases h1 : (dget m.refs i).isNone
    · rw [if_pos h1]; exact h
    · rw [if_neg h1]
      cases pyInt i with
      | none => exact ddel_nodup h _
      | some k =>
        simp only
        by_cases hk : k < m.nextId
        · rw [if_pos hk]; exact ddel_nodup h _
        · rw [if_neg hk]; exact ddel_nodup h _
  | update i v c =>
    simp only [step, updateReference]
    cases dget m.refs i with
    | none => exact h
    | some r => exact dset_nodup h _ _

theorem run_nodup (ops : List RefManager.Op) :
    ((RefManager.run valid pyInt {} ops).refs.map Prod.fst).Nodup := by
  have : ∀ (ops : List RefManager.Op) (m : RefManager), (m.refs.map Prod.fst).Nodup →
      ((RefManager.run valid pyInt m ops).refs.map Prod.fst).Nodup := by
    intro ops
    induction ops with
    | nil => intro m h; exact h
    | cons op ops ih => intro m h; exact ih _ (step_nodup valid pyInt h op)
  exact this ops {} (by simp)

/-! ## The property -/

/-- **C11** Adding without identifier always succeeds; the identifier returned was undefined,
the reference can be read back under it, and no other reference changes. -/
theorem add_fresh_id (ops : List RefManager.Op) (v : String) (c : Option String) :
    ∃ id m', (RefManager.run valid pyInt {} ops).step valid pyInt (.add v c none) = (m', .ok id) ∧
      view (RefManager.run valid pyInt {} ops) id = none ∧
      view m' id = some { value := v, comment := c } ∧
      ∀ j, j ≠ id → view m' j = view (RefManager.run valid pyInt {} ops) j := by
  generalize RefManager.run valid pyInt {} ops = m
  refine ⟨_, _, rfl, ?_, ?_, ?_⟩
  · have := nextFree_spec (m.refs.map Prod.fst) m.nextId
    rw [List.length_map] at this
    exact dget_eq_none.2 this
  · simp [view, dget_dset]
  · intro j hj
    simp only [view, dget_dset]
    rw [if_neg (fun h => hj h.symm)]

/-- **C11** Adding with an identifier already defined raises and changes nothing. -/
theorem add_existing_raises (ops : List RefManager.Op) (v : String) (c : Option String) (i : String)
    (h : (view (RefManager.run valid pyInt {} ops) i).isSome) :
    (RefManager.run valid pyInt {} ops).step valid pyInt (.add v c (some i)) =
      (RefManager.run valid pyInt {} ops, .error (.referenceAlreadyExists i)) := by
  simp only [view] at h
  simp [step, addReference, h]

/-- **C11** Adding with an undefined identifier of valid syntax stores exactly that reference;
with an invalid identifier it raises and changes nothing. -/
theorem add_new_id (ops : List RefManager.Op) (v : String) (c : Option String) (i : String)
    (h : view (RefManager.run valid pyInt {} ops) i = none) :
    (valid i = true → ∃ m', (RefManager.run valid pyInt {} ops).step valid pyInt (.add v c (some i)) =
        (m', .ok i) ∧ ∀ j, view m' j =
          if j = i then some { value := v, comment := c }
          else view (RefManager.run valid pyInt {} ops) j) ∧
    (valid i = false → (RefManager.run valid pyInt {} ops).step valid pyInt (.add v c (some i)) =
        (RefManager.run valid pyInt {} ops, .error (.referenceInvalidId i))) := by
  simp only [view] at h ⊢
  constructor
  · intro hv
    refine ⟨_, by simp only [step, addReference, h, hv]; rfl, ?_⟩
    intro j
    simp only [dget_dset, eq_comm]
  · intro hv; simp [step, addReference, h, hv]

/-- **C11** Deleting: an undefined identifier raises and changes nothing; a defined one is
removed and no other reference changes. -/
theorem del_exact (ops : List RefManager.Op) (i : String) :
    (view (RefManager.run valid pyInt {} ops) i = none →
      (RefManager.run valid pyInt {} ops).step valid pyInt (.del i) =
        (RefManager.run valid pyInt {} ops, .error (.referenceNotDefined i))) ∧
    ((view (RefManager.run valid pyInt {} ops) i).isSome →
      ∃ m', (RefManager.run valid pyInt {} ops).step valid pyInt (.del i) = (m', .ok i) ∧
        ∀ j, view m' j = if j = i then none else view (RefManager.run valid pyInt {} ops) j) := by
  have hn := run_nodup valid pyInt ops
  simp only [view] at *
  constructor
  · intro h; simp [step, delReference, h]
  · intro h
    have h' : (dget (RefManager.run valid pyInt {} ops).refs i).isNone = false := by
      rw [← Option.not_isSome, h]; rfl
    generalize RefManager.run valid pyInt {} ops = m at *
    simp only [step, delReference, h', Bool.false_eq_true, if_false]
    cases pyInt i with
    | none => exact ⟨_, rfl, fun j => by simp only [dget_ddel hn, eq_comm]⟩
    | some k =>
      simp only
      by_cases hk : k < m.nextId
      · rw [if_pos hk]; exact ⟨_, rfl, fun j => by simp only [dget_ddel hn, eq_comm]⟩
      · rw [if_neg hk]; exact ⟨_, rfl, fun j => by simp only [dget_ddel hn, eq_comm]⟩

/-- **C11** Updating: raises without change on an undefined identifier; otherwise replaces the
given fields of that reference only. -/
theorem update_exact (ops : List RefManager.Op) (i : String) (v c : Option String) :
    match view (RefManager.run valid pyInt {} ops) i with
    | none => (RefManager.run valid pyInt {} ops).step valid pyInt (.update i v c) =
        (RefManager.run valid pyInt {} ops, .error (.referenceNotDefined i))
    | some r => ∃ m', (RefManager.run valid pyInt {} ops).step valid pyInt (.update i v c) = (m', .ok i) ∧
        view m' i = some { value := v.getD r.value, comment := c.orElse (fun _ => r.comment) } ∧
        ∀ j, j ≠ i → view m' j = view (RefManager.run valid pyInt {} ops) j := by
  simp only [view]
  generalize RefManager.run valid pyInt {} ops = m
  cases h : dget m.refs i with
  | none => simp [step, updateReference, h]
  | some r =>
    simp only
    refine ⟨_, by simp only [step, updateReference, h]; rfl, ?_, ?_⟩
    · simp [dget_dset]
    · intro j hj
      simp only [dget_dset]
      rw [if_neg (fun h => hj h.symm)]

/-- **C11** No identifier is listed twice. -/
theorem ids_unique (ops : List RefManager.Op) :
    ((RefManager.run valid pyInt {} ops).refs.map Prod.fst).Nodup := run_nodup valid pyInt ops

end

/-! Non-vacuity: generated identifiers skip explicit ones and deleted ones are reusable. -/
example : ((RefManager.run (fun _ => true) (fun s => if s = "0" then some 0 else none) {}
    [.add "A" none (some "1"), .add "B" none none, .add "C" none none, .del "0",
     .add "D" none none]).refs.map (fun p => (p.1, p.2.value))) =
    [("1", "A"), ("2", "C"), ("0", "D")] := by decide +kernel
/-- A negative counter after deleting the identifier "-5" is harmless. -/
example : ((RefManager.run (fun _ => true) (fun s => if s = "-5" then some (-5) else none) {}
    [.add "A" none (some "-5"), .del "-5", .add "B" none none, .add "C" none none]).refs.map
      (fun p => (p.1, p.2.value))) = [("-5", "B"), ("-4", "C")] := by decide +kernel

end Lgr.Props.C11
