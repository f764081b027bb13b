import Verif.Props.Compare
import Verif.Props.References

/-!
# C58: references of a union and an intersection
-/

namespace Lgr.Props.C58
open Lgr LGR Repertoire C26 Compare C30 C31

/-- The value of a reference known to the LGR. -/
def HasRef (g : LGR) (v : String) : Prop := ∃ i r, (i, r) ∈ g.refs.refs ∧ r.value = v

theorem dset_new {d : List (String × Ref)} {i : String} (h : i ∉ d.map Prod.fst) (r : Ref) :
    dset d i r = d ++ [(i, r)] := by
  induction d with
  | nil => rfl
  | cons p d ih =>
    simp only [List.map_cons, List.mem_cons, not_or] at h
    unfold dset
    rw [if_neg (by simpa using fun e => h.1 e.symm), ih h.2]
    rfl

theorem refs_loop (vals : List String) (m : RefManager) (hn : (m.refs.map Prod.fst).Nodup) :
    let m' := vals.foldl (fun m v =>
      match m.addReference (fun _ => true) v none none with
      | .ok (m', _) => m'
      | .error _ => m) m
    values m' = values m ++ vals ∧ (m'.refs.map Prod.fst).Nodup := by
  induction vals generalizing m with
  | nil => simp [hn]
  | cons v vals ih =>
    rw [List.foldl_cons]
    have hf := C11.nextFree_spec (m.refs.map Prod.fst) m.nextId
    rw [List.length_map] at hf
    obtain ⟨h1, h2⟩ := ih ⟨dset m.refs (RefManager.idStr (RefManager.nextFree (m.refs.map Prod.fst)
      (m.refs.length + 1) m.nextId)) ⟨v, none⟩, RefManager.nextFree (m.refs.map Prod.fst)
      (m.refs.length + 1) m.nextId⟩ (dset_nodup hn _ _)
    refine ⟨?_, h2⟩
    refine Eq.trans h1 ?_
    unfold values
    simp only [dset_new hf, List.map_append, List.map_cons, List.map_nil, List.append_assoc,
      List.singleton_append]

theorem refsOf_spec (vals : List String) :
    values (refsOf vals) = vals ∧ ((refsOf vals).refs.map Prod.fst).Nodup := by
  have := refs_loop vals {} (by simp)
  exact ⟨this.1, this.2⟩

theorem hasRef_iff (g : LGR) (v : String) : HasRef g v ↔ v ∈ values g.refs := by
  simp [HasRef, values]

theorem addNew_id_mem (l acc : List String) (v : String) : v ∈ addNew id l acc ↔ v ∈ acc ∨ v ∈ l := by
  unfold addNew
  induction l generalizing acc with
  | nil => simp
  | cons a l ih =>
    rw [List.foldl_cons, ih]
    split
    · rename_i h
      simp only [List.map_id, id_eq] at h
      constructor
      · rintro (h | h) <;> simp [h]
      · rintro (h' | h')
        · exact .inl h'
        · rcases List.mem_cons.1 h' with rfl | h'
          · exact .inl h
          · exact .inr h'
    · simp [or_assoc]

theorem addNew_id_nodup (l acc : List String) (h : acc.Nodup) : (addNew id l acc).Nodup := by
  unfold addNew
  induction l generalizing acc with
  | nil => exact h
  | cons a l ih =>
    rw [List.foldl_cons]
    apply ih
    split
    · exact h
    · rename_i hn
      simp only [List.map_id, id_eq] at hn
      rw [List.nodup_append]
      refine ⟨h, by simp, ?_⟩
      intro x hx y hy
      simp only [List.mem_singleton] at hy; subst hy
      exact fun e => hn (e ▸ hx)

/-- **C58** The references of a union are those of both inputs by value, each once, under distinct
identifiers. -/
theorem union_references (ord : SetOrder) (db1 db2 : UniDb) (g1 g2 g : LGR) (hw1 : WF g1.rep)
    (hw2 : WF g2.rep) (hi1 : Intact g1.rep) (hi2 : Intact g2.rep)
    (h : (unionLgrs ord db1 db2 g1 g2).2 = .ok g) :
    (∀ v, HasRef g v ↔ HasRef g1 v ∨ HasRef g2 v) ∧ (g.refs.refs.map (fun p => p.2.value)).Nodup ∧
      (g.refs.refs.map Prod.fst).Nodup := by
  obtain ⟨e1, e2, gc, gf, h1, h2, -, h4, h5, h6⟩ := unionLgrs_ok h
  obtain ⟨w1, r1, -, l1⟩ := expanded hw1 hi1 h1
  obtain ⟨w2, r2, -, l2⟩ := expanded hw2 hi2 h2
  obtain ⟨-, hr, -⟩ := union_core ord db1 db2 e1 e2 w1 w2
    (fun k c hc => range_noRange (by rw [← l1, hc])) (fun k c hc => range_noRange (by rw [← l2, hc]))
    _ gc gf g rfl h4 h5 h6
  obtain ⟨s1, s2⟩ := refsOf_spec (unionValues ord g1.refs g2.refs)
  simp only [r1, r2] at hr
  refine ⟨fun v => ?_, ?_, by rw [hr]; exact s2⟩
  · simp only [hasRef_iff]
    rw [hr, s1]
    unfold unionValues
    rw [(ord.strs_perm _).mem_iff, addNew_id_mem]
    unfold toSet
    simp [addNew_id_mem]
  · show (values g.refs).Nodup
    rw [hr, s1]
    exact ((ord.strs_perm _).nodup_iff).2 (addNew_id_nodup _ _ (addNew_id_nodup _ _ (by simp)))

/-- **C58** The references of an intersection are the common ones by value, each once, under distinct
identifiers. -/
theorem intersect_references (ord : SetOrder) (db1 db2 : UniDb) (g1 g2 g : LGR) (hw1 : WF g1.rep)
    (hw2 : WF g2.rep) (hi1 : Intact g1.rep) (hi2 : Intact g2.rep)
    (h : (intersectLgrs ord db1 db2 g1 g2).2 = .ok g) :
    (∀ v, HasRef g v ↔ HasRef g1 v ∧ HasRef g2 v) ∧ (g.refs.refs.map (fun p => p.2.value)).Nodup ∧
      (g.refs.refs.map Prod.fst).Nodup := by
  obtain ⟨e1, e2, h1, h2, -, h4⟩ := intersectLgrs_ok h
  obtain ⟨w1, r1, -, l1⟩ := expanded hw1 hi1 h1
  obtain ⟨w2, r2, -, l2⟩ := expanded hw2 hi2 h2
  have hw0 : WF (LGR.rep { refs := refsOf (intersectValues ord e1.refs e2.refs) }) := wf_empty
  obtain ⟨-, hr, -⟩ := forEach_fill (ord.seqs ((cps e1).filter (fun k => decide (k ∈ cps e2))))
    (((ord.seqs_perm _).nodup_iff).2 ((nodup_toSet _).filter _)) _ hw0
    (fun g k hg _ ho => intersectStep_effect ord db1 db2 e1 e2 g hg k ho) (by rw [h4])
  rw [h4] at hr
  obtain ⟨s1, s2⟩ := refsOf_spec (intersectValues ord g1.refs g2.refs)
  simp only [r1, r2] at hr
  refine ⟨fun v => ?_, ?_, by rw [hr]; exact s2⟩
  · simp only [hasRef_iff]
    rw [hr, s1]
    unfold intersectValues
    rw [(ord.strs_perm _).mem_iff]
    unfold toSet
    simp [addNew_id_mem]
  · show (values g.refs).Nodup
    rw [hr, s1]
    exact ((ord.strs_perm _).nodup_iff).2 ((addNew_id_nodup _ _ (by simp)).filter _)

/-! Non-vacuity: the reference lists `x, y` and `y, z` united. -/
example : values (refsOf (addNew id (toSet id ["y", "z"]) (toSet id ["x", "y"]))) = ["x", "y", "z"] := by
  rw [(refsOf_spec _).1]; decide +kernel

end Lgr.Props.C58
