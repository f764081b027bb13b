import Verif.MergeSet
import Verif.Props.References

/-!
# C94: merging the references of the LGRs of a set
-/

namespace Lgr.Props.C94
open Lgr RefManager MergeSet C11

/-- What each identifier denotes in `m` it denotes in `m'`. -/
def Grows (m m' : RefManager) : Prop := ∀ i r, view m i = some r → view m' i = some r

/-- The identifier that `f` gives for an identifier of `src` denotes the same text in `m`. -/
def Faithful (src m : RefManager) (f : String → String) : Prop :=
  ∀ i r, view src i = some r → ∃ r', view m (f i) = some r' ∧ r'.value = r.value

theorem Grows.trans {a b c : RefManager} (h : Grows a b) (h' : Grows b c) : Grows a c :=
  fun i r hr => h' i r (h i r hr)

theorem Faithful.grow {src m m' : RefManager} {f : String → String} (h : Faithful src m f) (hg : Grows m m') :
    Faithful src m' f := by
  intro i r hr
  obtain ⟨r', h1, h2⟩ := h i r hr
  exact ⟨r', hg _ _ h1, h2⟩

theorem inserted_spec {m : RefManager} (h : (m.refs.map Prod.fst).Nodup) {v j : String} :
    (dget (inserted m) v = some j → ∃ r, view m j = some r ∧ r.value = v) ∧
    (dget (inserted m) v = none → ∀ i r, view m i = some r → r.value ≠ v) := by
  have key : ∀ (l : List (String × Ref)) (d : List (String × String)),
      (∀ j, dget (l.foldl (fun d p => dset d p.2.value p.1) d) v = some j →
        dget d v = some j ∨ ∃ r, (j, r) ∈ l ∧ r.value = v) ∧
      (dget (l.foldl (fun d p => dset d p.2.value p.1) d) v = none →
        dget d v = none ∧ ∀ p ∈ l, p.2.value ≠ v) := by
    intro l
    induction l with
    | nil => intro d; simp
    | cons p l ih =>
      intro d
      obtain ⟨i1, i2⟩ := ih (dset d p.2.value p.1)
      refine ⟨fun j hj => ?_, fun hn => ?_⟩
      · rcases i1 j hj with h1 | ⟨r, hr, hv⟩
        · rw [dget_dset] at h1
          by_cases hv : p.2.value = v
          · rw [if_pos hv] at h1
            cases h1
            exact .inr ⟨p.2, by simp, hv⟩
          · rw [if_neg hv] at h1; exact .inl h1
        · exact .inr ⟨r, by simp [hr], hv⟩
      · obtain ⟨h1, h2⟩ := i2 hn
        rw [dget_dset] at h1
        by_cases hv : p.2.value = v
        · rw [if_pos hv] at h1; simp at h1
        · rw [if_neg hv] at h1
          refine ⟨h1, ?_⟩
          intro q hq
          rcases List.mem_cons.1 hq with rfl | hq
          · exact hv
          · exact h2 q hq
  obtain ⟨k1, k2⟩ := key m.refs []
  refine ⟨fun hj => ?_, fun hn i r hr => ?_⟩
  · rcases k1 j hj with h1 | ⟨r, hr, hv⟩
    · simp [dget] at h1
    · exact ⟨r, dget_of_mem h hr, hv⟩
  · exact (k2 hn).2 _ (mem_of_dget hr)

/-- What one round does. -/
structure Step (m0 : RefManager) (s s' : RefManager × List (String × String)) (p : String × Ref) : Prop where
  grows : Grows s.1 s'.1
  nodup : (s.1.refs.map Prod.fst).Nodup → (s'.1.refs.map Prod.fst).Nodup
  other : ∀ i, i ≠ p.1 → dget s'.2 i = dget s.2 i
  same : dget s.2 p.1 = none → ∃ r, view s'.1 (mapRef s'.2 p.1) = some r ∧ r.value = p.2.value
  only : ∀ i r, view s'.1 i = some r → view s.1 i = some r ∨
    r = p.2 ∧ ∀ j q, view m0 j = some q → q.value ≠ r.value

theorem refStep_spec {valid : String → Bool} {m0 : RefManager} (h0 : (m0.refs.map Prod.fst).Nodup)
    {s s' : RefManager × List (String × String)} {p : String × Ref} (hg : Grows m0 s.1)
    (h : refStep valid (inserted m0) s p = (s', .ok ())) : Step m0 s s' p := by
  unfold refStep at h
  cases hd : dget (inserted m0) p.2.value with
  | some j =>
    rw [hd] at h
    simp only [Prod.mk.injEq, and_true] at h
    subst h
    obtain ⟨r, hr, hv⟩ := (inserted_spec h0 (v := p.2.value) (j := j)).1 hd
    refine ⟨fun i r h => h, id, ?_, ?_, fun i r h => .inl h⟩
    · intro i hi
      simp only
      split
      · rw [dget_dset, if_neg (Ne.symm hi)]
      · rfl
    · intro hn
      refine ⟨r, ?_, hv⟩
      have : mapRef (if p.1 ≠ j then dset s.2 p.1 j else s.2) p.1 = j := by
        unfold mapRef
        by_cases hj : p.1 = j
        · rw [if_neg (by simp [hj]), hn]; exact hj
        · rw [if_pos hj, dget_dset, if_pos rfl]; rfl
      rw [this]
      exact hg _ _ hr
  | none =>
    rw [hd] at h
    have hnew := (inserted_spec h0 (v := p.2.value) (j := "")).2 hd
    simp only at h
    split at h
    · rename_i hi
      have hi' : dget s.1.refs p.1 = none := by simpa using hi
      simp only [addReference, hi', Option.isSome_none, Bool.false_eq_true, if_false] at h
      by_cases hv : valid p.1 = false
      · simp [hv] at h
      · rw [if_neg hv] at h
        simp only [Prod.mk.injEq, and_true] at h
        subst h
        refine ⟨?_, fun hn => dset_nodup hn _ _, fun i hi => rfl, ?_, ?_⟩
        · intro i r hr
          simp only [view] at hr ⊢
          rw [dget_dset, if_neg]
          · exact hr
          · rintro rfl; rw [hi'] at hr; simp at hr
        · intro hn
          refine ⟨_, ?_, rfl⟩
          simp only [view, mapRef, hn, Option.getD_none]
          rw [dget_dset, if_pos rfl]
        · intro i r hr
          simp only [view] at hr ⊢
          rw [dget_dset] at hr
          split at hr
          · cases hr
            exact .inr ⟨rfl, fun j q hq => hnew j q hq⟩
          · exact .inl hr
    · simp only [addReference, Prod.mk.injEq, and_true] at h
      subst h
      have hfree := nextFree_spec (s.1.refs.map Prod.fst) s.1.nextId
      rw [List.length_map] at hfree
      generalize hn : idStr (nextFree (s.1.refs.map Prod.fst) (s.1.refs.length + 1) s.1.nextId) = n at hfree
      rw [← dget_eq_none] at hfree
      refine ⟨?_, fun hn => dset_nodup hn _ _, ?_, ?_, ?_⟩
      · intro i r hr
        simp only [view] at hr ⊢
        rw [dget_dset, if_neg]
        · exact hr
        · rintro rfl; rw [hfree] at hr; simp at hr
      · intro i hi
        rw [dget_dset, if_neg (Ne.symm hi)]
      · intro _
        exact ⟨p.2, by simp [view, mapRef, dget_dset], rfl⟩
      · intro i r hr
        simp only [view] at hr ⊢
        rw [dget_dset] at hr
        split at hr
        · cases hr
          exact .inr ⟨rfl, fun j q hq => hnew j q hq⟩
        · exact .inl hr

theorem refs_loop {valid : String → Bool} {m0 : RefManager} (h0 : (m0.refs.map Prod.fst).Nodup)
    (ps : List (String × Ref)) (hps : (ps.map Prod.fst).Nodup)
    (s s' : RefManager × List (String × String)) (hg : Grows m0 s.1) (hnd : (s.1.refs.map Prod.fst).Nodup)
    (hfree : ∀ p ∈ ps, dget s.2 p.1 = none)
    (h : forEach (refStep valid (inserted m0)) s ps = (s', .ok ())) :
    Grows s.1 s'.1 ∧ (s'.1.refs.map Prod.fst).Nodup ∧
      (∀ p ∈ ps, ∃ r, view s'.1 (mapRef s'.2 p.1) = some r ∧ r.value = p.2.value) ∧
      (∀ i, i ∉ ps.map Prod.fst → dget s'.2 i = dget s.2 i) ∧
      (∀ i r, view s'.1 i = some r → view s.1 i = some r ∨
        (∃ p ∈ ps, r = p.2) ∧ ∀ j q, view m0 j = some q → q.value ≠ r.value) := by
  induction ps generalizing s with
  | nil =>
    simp only [forEach, Prod.mk.injEq, and_true] at h
    subst h
    exact ⟨fun _ _ h => h, hnd, by simp, fun _ _ => rfl, fun _ _ h => .inl h⟩
  | cons p ps ih =>
    unfold forEach at h
    generalize h1 : refStep valid (inserted m0) s p = r at h
    obtain ⟨s1, o⟩ := r
    cases o with
    | error e => simp at h
    | ok u =>
      simp only at h
      have st := refStep_spec h0 hg h1
      rw [List.map_cons, List.nodup_cons] at hps
      obtain ⟨i1, i2, i3, i4, i5⟩ := ih hps.2 s1 (hg.trans st.grows) (st.nodup hnd)
        (fun q hq => by
          rw [st.other q.1 (fun he => hps.1 (he ▸ List.mem_map_of_mem hq))]
          exact hfree q (by simp [hq])) h
      refine ⟨st.grows.trans i1, i2, ?_, ?_, ?_⟩
      · intro q hq
        rcases List.mem_cons.1 hq with rfl | hq
        · obtain ⟨r, hr, hv⟩ := st.same (hfree _ (by simp))
          refine ⟨r, ?_, hv⟩
          have : mapRef s'.2 q.1 = mapRef s1.2 q.1 := by unfold mapRef; rw [i4 _ hps.1]
          rw [this]
          exact i1 _ _ hr
        · exact i3 q hq
      · intro i hi
        rw [List.map_cons, List.mem_cons, not_or] at hi
        rw [i4 i hi.2, st.other i hi.1]
      · intro i r hr
        rcases i5 i r hr with h2 | ⟨⟨q, hq, rfl⟩, h2⟩
        · rcases st.only i r h2 with h3 | ⟨rfl, h3⟩
          · exact .inl h3
          · exact .inr ⟨⟨p, by simp, rfl⟩, h3⟩
        · exact .inr ⟨⟨q, by simp [hq], rfl⟩, h2⟩

/-- **C94** Merging the references of an LGR whose script comes up for the first time: the identifiers of
the merged LGR denote what they denoted, the identifier given to each reference of the LGR denotes the same
text, and a reference is added only when its text was missing. -/
theorem merge_references_faithful (valid : String → Bool) (src m : RefManager)
    (hs : (src.refs.map Prod.fst).Nodup) (hm : (m.refs.map Prod.fst).Nodup) (m' : RefManager)
    (map : List (String × String)) (h : mergeReferences valid src m [] = ((m', map), .ok ())) :
    Grows m m' ∧ Faithful src m' (mapRef map) ∧ (m'.refs.map Prod.fst).Nodup ∧
      ∀ i r, view m' i = some r → view m i = some r ∨
        (∃ j, view src j = some r) ∧ ∀ j q, view m j = some q → q.value ≠ r.value := by
  obtain ⟨h1, h2, h3, -, h5⟩ := refs_loop hm src.refs hs (m, []) (m', map) (fun _ _ h => h) hm
    (fun _ _ => rfl) h
  refine ⟨h1, ?_, h2, ?_⟩
  · intro i r hr
    exact h3 (i, r) (mem_of_dget hr)
  · intro i r hr
    rcases h5 i r hr with h4 | ⟨⟨p, hp, rfl⟩, h4⟩
    · exact .inl h4
    · exact .inr ⟨⟨p.1, dget_of_mem hs hp⟩, h4⟩

/-- With or without a mapping from before, what the merged LGR had is kept. -/
theorem merge_references_grows (valid : String → Bool) (src m : RefManager)
    (hm : (m.refs.map Prod.fst).Nodup) (map0 : List (String × String)) (m' : RefManager)
    (map : List (String × String)) (h : mergeReferences valid src m map0 = ((m', map), .ok ())) :
    Grows m m' ∧ (m'.refs.map Prod.fst).Nodup := by
  have key : ∀ (ps : List (String × Ref)) (s s' : RefManager × List (String × String)), Grows m s.1 →
      (s.1.refs.map Prod.fst).Nodup →
      forEach (refStep valid (inserted m)) s ps = (s', .ok ()) →
      Grows s.1 s'.1 ∧ (s'.1.refs.map Prod.fst).Nodup := by
    intro ps
    induction ps with
    | nil =>
      intro s s' _ hn h
      simp only [forEach, Prod.mk.injEq, and_true] at h
      subst h
      exact ⟨fun _ _ h => h, hn⟩
    | cons p ps ih =>
      intro s s' hg hn h
      unfold forEach at h
      generalize h1 : refStep valid (inserted m) s p = r at h
      obtain ⟨s1, o⟩ := r
      cases o with
      | error e => simp at h
      | ok u =>
        have st := refStep_spec hm hg h1
        obtain ⟨i1, i2⟩ := ih s1 s' (hg.trans st.grows) (st.nodup hn) h
        exact ⟨st.grows.trans i1, i2⟩
  exact key src.refs (m, map0) (m', map) (fun _ _ h => h) hm h

/-- **C94** The merge of the references goes through when their identifiers are valid. -/
theorem merge_references_ok (valid : String → Bool) (src m : RefManager) (map : List (String × String))
    (hv : ∀ p ∈ src.refs, valid p.1 = true) : (mergeReferences valid src m map).2 = .ok () := by
  unfold mergeReferences
  generalize inserted m = ins
  generalize (m, map) = s
  generalize src.refs = ps at hv
  induction ps generalizing s with
  | nil => rfl
  | cons p ps ih =>
    have h1 : (refStep valid ins s p).2 = .ok () := by
      unfold refStep
      split
      · split
        · rename_i hi
          have hi' : dget s.1.refs p.1 = none := by simpa using hi
          simp [addReference, hi', hv p (by simp)]
        · simp [addReference]
      · rfl
    unfold forEach
    generalize refStep valid ins s p = r at h1
    obtain ⟨s1, o⟩ := r
    subst h1
    exact ih s1 (fun q hq => hv q (by simp [hq]))

/-! A reference with an identifier used for another text gets a new one; one whose text is known gets the
known identifier. -/

example : mergeReferences (fun _ => true)
    { refs := [("0", { value := "B" }), ("1", { value := "A" }), ("2", { value := "C" })] }
    { refs := [("0", { value := "A" })] } [] =
      (({ refs := [("0", { value := "A" }), ("1", { value := "B" }), ("2", { value := "C" })], nextId := 1 },
        [("0", "1"), ("1", "0")]), .ok ()) := by decide +kernel

end Lgr.Props.C94
