import Verif.Props.ReviewSets

/-!
# C84, C87: which variant sets are compared with each other
-/

namespace Lgr.Props.C87
open Lgr Review

/-- Variant sets under their smallest member. -/
structure Ids (d : Sets) : Prop where
  nodup : (d.map Prod.fst).Nodup
  least : ∀ k s, dget d k = some s → k ∈ s ∧ ∀ x ∈ s, k ≤ x

/-- No member in common. -/
def Apart (d : Sets) : Prop :=
  ∀ k s k' s' x, dget d k = some s → dget d k' = some s' → x ∈ s → x ∈ s' → k = k'

/-- One of the sets includes the other. -/
def Rel (s t : List Seq) : Prop := (∀ x ∈ s, x ∈ t) ∨ ∀ x ∈ t, x ∈ s

theorem rel_iff {s t : List Seq} : (subsetOf s t || subsetOf t s) = true ↔ Rel s t := by
  simp [subsetOf, Rel]

def RelIds (idn0 ref0 : Sets) (i r : Seq) : Prop :=
  ∃ s t, dget idn0 i = some s ∧ dget ref0 r = some t ∧ Rel s t

/-- State after the pairs `done` of identifiers. -/
structure Inv (idn0 ref0 : Sets) (done : List (Seq × Seq)) (p : Pairing) : Prop where
  idnNodup : (p.idn.map Prod.fst).Nodup
  refNodup : (p.ref.map Prod.fst).Nodup
  dom : ∀ q ∈ done, (dget idn0 q.1).isSome ∧ dget ref0 q.1 = none ∧ (dget ref0 q.2).isSome ∧ dget idn0 q.2 = none
  refKeep : ∀ r t, dget ref0 r = some t → dget p.ref r = some t
  refNew : ∀ k t, dget p.ref k = some t → dget ref0 k = some t ∨
    (k ∈ p.newIds ∧ ∃ i r, (i, r) ∈ done ∧ RelIds idn0 ref0 i r ∧ k = min i r ∧ dget ref0 r = some t)
  upd : ∀ r ∈ p.updated, dget idn0 r = none ∧ (dget ref0 r).isSome ∧ ∃ k ∈ p.newIds, dget p.ref k = dget ref0 r
  idnKeep : ∀ j, (∀ q ∈ done, q.1 ≠ j) → ∀ s, dget idn0 j = some s → dget p.idn j = some s
  idnNew : ∀ k s, dget p.idn k = some s → dget idn0 k = some s ∨
    ∃ i, (i, k) ∈ done ∧ RelIds idn0 ref0 i k ∧ k < i ∧ dget idn0 i = some s
  idnAll : ∀ i s, dget idn0 i = some s → dget p.idn i = some s ∨
    ∃ r, (i, r) ∈ done ∧ RelIds idn0 ref0 i r ∧ r < i ∧ dget p.idn r = some s
  rel : ∀ q ∈ done, RelIds idn0 ref0 q.1 q.2 →
    min q.1 q.2 ∈ p.newIds ∧ (dget p.idn (min q.1 q.2)).isSome ∧ (dget p.ref (min q.1 q.2)).isSome

variable {idn0 ref0 : Sets}

theorem inv_skip {done : List (Seq × Seq)} {p : Pairing} (h : Inv idn0 ref0 done p) {i r : Seq}
    (hi : (dget idn0 i).isSome) (hi' : dget ref0 i = none) (hr : (dget ref0 r).isSome) (hr' : dget idn0 r = none)
    (hrel : ¬ RelIds idn0 ref0 i r) : Inv idn0 ref0 (done ++ [(i, r)]) p := by
  refine ⟨h.idnNodup, h.refNodup, ?_, h.refKeep, ?_, h.upd, ?_, ?_, ?_, ?_⟩
  · intro q hq
    rcases List.mem_append.1 hq with hq | hq
    · exact h.dom q hq
    · rw [List.mem_singleton] at hq; subst hq; exact ⟨hi, hi', hr, hr'⟩
  · intro k t hk
    rcases h.refNew k t hk with h1 | ⟨h1, i', r', h2, h3⟩
    · exact Or.inl h1
    · exact Or.inr ⟨h1, i', r', List.mem_append_left _ h2, h3⟩
  · intro j hj s hs
    exact h.idnKeep j (fun q hq => hj q (List.mem_append_left _ hq)) s hs
  · intro k s hk
    rcases h.idnNew k s hk with h1 | ⟨i', h2, h3⟩
    · exact Or.inl h1
    · exact Or.inr ⟨i', List.mem_append_left _ h2, h3⟩
  · intro i' s hs
    rcases h.idnAll i' s hs with h1 | ⟨r', h2, h3⟩
    · exact Or.inl h1
    · exact Or.inr ⟨r', List.mem_append_left _ h2, h3⟩
  · intro q hq hqr
    rcases List.mem_append.1 hq with hq | hq
    · exact h.rel q hq hqr
    · rw [List.mem_singleton] at hq; subst hq; exact absurd hqr hrel

theorem step (hI : Ids idn0) (hR : Ids ref0) (hA : Apart ref0) {done : List (Seq × Seq)} {p : Pairing}
    (h : Inv idn0 ref0 done p) {i r : Seq} {s : List Seq} (hs : dget idn0 i = some s) (hi' : dget ref0 i = none)
    (hr : (dget ref0 r).isSome) (hr' : dget idn0 r = none) (hnew : (i, r) ∉ done) :
    ∃ p', pairStep i s p r = .ok p' ∧ Inv idn0 ref0 (done ++ [(i, r)]) p' := by
  obtain ⟨t, ht⟩ := Option.isSome_iff_exists.1 hr
  have hpr := h.refKeep r t ht
  have hi : (dget idn0 i).isSome := by rw [hs]; rfl
  unfold pairStep
  rw [hpr]
  simp only
  by_cases hrel : Rel s t
  · rw [if_pos (rel_iff.2 hrel)]
    have hrelIds : RelIds idn0 ref0 i r := ⟨s, t, hs, ht, hrel⟩
    have hne : i ≠ r := by rintro rfl; rw [hi'] at ht; cases ht
    -- the identifier is still there
    have halive : dget p.idn i = some s := by
      rcases h.idnAll i s hs with h1 | ⟨r0, h1, ⟨s0, t0, e1, e2, h2⟩, h3, _⟩
      · exact h1
      · exfalso
        rw [hs] at e1; injection e1 with e1; subst e1
        have hi1 := (hI.least i s hs).1
        have hsub : ∀ x ∈ s, x ∈ t0 := by
          rcases h2 with h2 | h2
          · exact h2
          · have := (hI.least i s hs).2 r0 (h2 r0 (hR.least r0 t0 e2).1)
            exact absurd h3 (not_lt.2 this)
        have : r = r0 := by
          rcases hrel with hrel | hrel
          · exact hA r t r0 t0 i ht e2 (hrel i hi1) (hsub i hi1)
          · exact hA r t r0 t0 r ht e2 (hR.least r t ht).1 (hsub r (hrel r (hR.least r t ht).1))
        subst this
        exact hnew h1
    -- the new state of the table
    set idn' : Sets := if (dget p.idn (min i r)).isNone then dset (ddel p.idn i) (min i r) s else p.idn with hidn'
    have hmatch : (match (if (dget p.idn (min i r)).isNone then
          (match dget p.idn i with
           | none => none
           | some s => some (dset (ddel p.idn i) (min i r) s))
        else some p.idn) with
      | none => (.error (.keyError "idn") : Except Err Pairing)
      | some idn'' =>
        if (dget p.ref (min i r)).isNone then
          .ok { idn := idn'', ref := dset p.ref (min i r) t,
                updated := if r ∈ p.updated then p.updated else p.updated ++ [r], newIds := p.newIds ++ [min i r] }
        else .ok { p with idn := idn'', newIds := p.newIds ++ [min i r] }) =
      .ok { idn := idn'
            ref := if (dget p.ref (min i r)).isNone then dset p.ref (min i r) t else p.ref
            updated := if (dget p.ref (min i r)).isNone then
                (if r ∈ p.updated then p.updated else p.updated ++ [r]) else p.updated
            newIds := p.newIds ++ [min i r] } := by
      rw [halive]
      by_cases h1 : (dget p.idn (min i r)).isNone = true
      · simp only [hidn', if_pos h1]
        by_cases h2 : (dget p.ref (min i r)).isNone = true
        · simp only [if_pos h2]
        · simp only [if_neg h2]
      · simp only [hidn', if_neg h1]
        by_cases h2 : (dget p.ref (min i r)).isNone = true
        · simp only [if_pos h2]
        · simp only [if_neg h2]
    refine ⟨_, hmatch, ?_⟩
    -- facts on the new maps
    have hidnget : (idn' = p.idn ∧ (dget p.idn (min i r)).isSome) ∨
        (r < i ∧ min i r = r ∧ dget p.idn r = none ∧ (idn'.map Prod.fst).Nodup ∧
          ∀ k, dget idn' k = if r = k then some s else if i = k then none else dget p.idn k) := by
      by_cases h1 : (dget p.idn (min i r)).isNone = true
      · right
        have hlt : r < i := by
          by_contra hcon
          rw [min_eq_left (not_lt.1 hcon), halive] at h1
          simp at h1
        have hmin : min i r = r := min_eq_right (le_of_lt hlt)
        rw [hmin] at h1
        refine ⟨hlt, hmin, Option.isNone_iff_eq_none.1 h1, ?_, ?_⟩
        · rw [hidn', hmin, if_pos h1]; exact dset_nodup (ddel_nodup h.idnNodup _) _ _
        · intro k
          rw [hidn', hmin, if_pos h1, dget_dset, dget_ddel h.idnNodup]
      · left
        refine ⟨by rw [hidn', if_neg h1], ?_⟩
        rw [Option.isSome_iff_ne_none]
        rwa [Option.isNone_iff_eq_none] at h1
    have hidn'nodup : (idn'.map Prod.fst).Nodup := by
      rcases hidnget with ⟨h1, _⟩ | ⟨_, _, _, h1, _⟩
      · rw [h1]; exact h.idnNodup
      · exact h1
    have hrefget : ∀ k, dget (if (dget p.ref (min i r)).isNone then dset p.ref (min i r) t else p.ref) k =
        if (dget p.ref (min i r)).isNone ∧ min i r = k then some t else dget p.ref k := by
      intro k
      by_cases h1 : (dget p.ref (min i r)).isNone = true
      · rw [if_pos h1, dget_dset]; simp only [h1, true_and]
      · rw [if_neg h1, if_neg (fun h2 => h1 h2.1)]
    constructor
    · exact hidn'nodup
    · dsimp only
      split
      · exact dset_nodup h.refNodup _ _
      · exact h.refNodup
    · intro q hq
      rcases List.mem_append.1 hq with hq | hq
      · exact h.dom q hq
      · rw [List.mem_singleton] at hq; subst hq; exact ⟨hi, hi', hr, hr'⟩
    · intro r' t' ht'
      dsimp only
      rw [hrefget]
      have := h.refKeep r' t' ht'
      rw [if_neg]
      · exact this
      · rintro ⟨h1, h2⟩
        rw [h2, this] at h1
        simp at h1
    · intro k t' hk
      dsimp only at hk ⊢
      rw [hrefget] at hk
      split at hk
      · rename_i h1
        injection hk with hk; subst hk
        exact Or.inr ⟨by simp [h1.2], i, r, by simp, hrelIds, h1.2.symm, ht⟩
      · rcases h.refNew k t' hk with h1 | ⟨h1, i', r', h2, h3⟩
        · exact Or.inl h1
        · exact Or.inr ⟨List.mem_append_left _ h1, i', r', List.mem_append_left _ h2, h3⟩
    · intro r' hr''
      dsimp only at hr'' ⊢
      have hold : r' ∈ p.updated → dget idn0 r' = none ∧ (dget ref0 r').isSome ∧ ∃ k ∈ p.newIds ++ [min i r],
          dget (if (dget p.ref (min i r)).isNone then dset p.ref (min i r) t else p.ref) k = dget ref0 r' := by
        intro h1
        obtain ⟨h2, h2', k, h3, h4⟩ := h.upd r' h1
        refine ⟨h2, h2', k, List.mem_append_left _ h3, ?_⟩
        rw [hrefget]
        split
        · rename_i h5
          have h6 := h5.1
          rw [h5.2, h4, Option.isNone_iff_eq_none] at h6
          rw [h6] at h2'
          cases h2'
        · exact h4
      split at hr''
      · split at hr''
        · exact hold hr''
        · rcases List.mem_append.1 hr'' with h1 | h1
          · exact hold h1
          · rw [List.mem_singleton] at h1; subst h1
            rename_i h2 _
            refine ⟨hr', hr, min i r', by simp, ?_⟩
            rw [hrefget, if_pos ⟨h2, rfl⟩, ht]
      · exact hold hr''
    · intro j hj s' hs'
      have h1 := h.idnKeep j (fun q hq => hj q (List.mem_append_left _ hq)) s' hs'
      dsimp only
      rcases hidnget with ⟨h2, _⟩ | ⟨_, _, h2, _, h3⟩
      · rw [h2]; exact h1
      · rw [h3, if_neg, if_neg]
        · exact h1
        · exact hj (i, r) (by simp)
        · rintro rfl; rw [hr'] at hs'; cases hs'
    · intro k s' hk
      dsimp only at hk
      have hold : dget p.idn k = some s' → dget idn0 k = some s' ∨ ∃ i', (i', k) ∈ done ++ [(i, r)] ∧
          RelIds idn0 ref0 i' k ∧ k < i' ∧ dget idn0 i' = some s' := by
        intro h1
        rcases h.idnNew k s' h1 with h1 | ⟨i', h2, h3⟩
        · exact Or.inl h1
        · exact Or.inr ⟨i', List.mem_append_left _ h2, h3⟩
      rcases hidnget with ⟨h2, _⟩ | ⟨hlt, _, h2, _, h3⟩
      · rw [h2] at hk; exact hold hk
      · rw [h3] at hk
        split at hk
        · rename_i h4; subst h4
          injection hk with hk; subst hk
          exact Or.inr ⟨i, by simp, hrelIds, hlt, hs⟩
        · split at hk
          · cases hk
          · exact hold hk
    · intro i' s' hs'
      dsimp only
      rcases hidnget with ⟨h2, _⟩ | ⟨hlt, _, h2, _, h3⟩
      · rw [h2]
        rcases h.idnAll i' s' hs' with h1 | ⟨r', h2, h3⟩
        · exact Or.inl h1
        · exact Or.inr ⟨r', List.mem_append_left _ h2, h3⟩
      · by_cases hii : i = i'
        · subst hii
          rw [hs] at hs'; injection hs' with hs'; subst hs'
          exact Or.inr ⟨r, by simp, hrelIds, hlt, by rw [h3, if_pos rfl]⟩
        · rcases h.idnAll i' s' hs' with h1 | ⟨r', h4, h5, h6, h7⟩
          · left
            rw [h3, if_neg, if_neg hii]
            · exact h1
            · rintro rfl; rw [h2] at h1; cases h1
          · right
            refine ⟨r', List.mem_append_left _ h4, h5, h6, ?_⟩
            rw [h3, if_neg, if_neg]
            · exact h7
            · rintro rfl
              have := (h.dom _ h4).2.2.1
              simp only at this
              rw [hi'] at this; simp at this
            · rintro rfl; rw [h2] at h7; cases h7
    · intro q hq hqr
      dsimp only
      have hnewref : ∀ k, (dget p.ref k).isSome →
          (dget (if (dget p.ref (min i r)).isNone then dset p.ref (min i r) t else p.ref) k).isSome := by
        intro k hk
        rw [hrefget]
        split
        · rfl
        · exact hk
      rcases List.mem_append.1 hq with hq | hq
      · obtain ⟨h1, h2, h3⟩ := h.rel q hq hqr
        refine ⟨List.mem_append_left _ h1, ?_, hnewref _ h3⟩
        rcases hidnget with ⟨h4, _⟩ | ⟨hlt, _, h4, _, h5⟩
        · rw [h4]; exact h2
        · rw [h5]
          split
          · rfl
          · rw [if_neg]
            · exact h2
            · intro he
              -- `min q.1 q.2 = i`: then `q.1 = i`, and `i` has been related to `q.2 > i`
              have hq1 : q.1 = i := by
                rcases min_choice q.1 q.2 with h6 | h6
                · rw [← h6, ← he]
                · rw [h6] at he
                  have := (h.dom q hq).2.2.1
                  rw [← he, hi'] at this; simp at this
              have hle : i ≤ q.2 := by rw [he]; exact min_le_right _ _
              obtain ⟨s1, t1, e1, e2, h6⟩ := hqr
              rw [hq1, hs] at e1; injection e1 with e1; subst e1
              have hsub : ∀ x ∈ s, x ∈ t := by
                rcases hrel with hrel | hrel
                · exact hrel
                · exact absurd hlt (not_lt.2 ((hI.least i s hs).2 r (hrel r (hR.least r t ht).1)))
              have : q.2 = r := by
                rcases h6 with h6 | h6
                · exact hA _ _ _ _ i e2 ht (h6 i (hI.least i s hs).1) (hsub i (hI.least i s hs).1)
                · have := (hR.least _ t1 e2).1
                  exact hA _ _ _ _ q.2 e2 ht this (hsub _ (h6 _ this))
              rw [this] at hle
              exact absurd hlt (not_lt.2 hle)
      · rw [List.mem_singleton] at hq; subst hq
        refine ⟨by simp, ?_, ?_⟩
        · rcases hidnget with ⟨h4, h5⟩ | ⟨hlt, h6, h4, _, h5⟩
          · rw [h4]; exact h5
          · simp only [h6]; rw [h5, if_pos rfl]; rfl
        · simp only
          rw [hrefget]
          split
          · rfl
          · rename_i h1
            by_contra h2
            apply h1
            refine ⟨?_, rfl⟩
            rw [Option.isNone_iff_eq_none]
            rwa [Option.not_isSome_iff_eq_none] at h2
  · rw [if_neg (fun h1 => hrel (rel_iff.1 h1))]
    refine ⟨p, rfl, inv_skip h hi hi' hr hr' ?_⟩
    rintro ⟨s', t', e1, e2, h1⟩
    rw [hs] at e1; rw [ht] at e2
    injection e1 with e1; injection e2 with e2
    subst e1 e2
    exact hrel h1

theorem inner (hI : Ids idn0) (hR : Ids ref0) (hA : Apart ref0) {i : Seq} {s : List Seq}
    (hs : dget idn0 i = some s) (hi' : dget ref0 i = none) (l : List Seq) (hl : l.Nodup)
    (hdom : ∀ r ∈ l, (dget ref0 r).isSome ∧ dget idn0 r = none) :
    ∀ {done : List (Seq × Seq)} {p : Pairing}, Inv idn0 ref0 done p → (∀ r ∈ l, (i, r) ∉ done) →
    ∃ p', pairInner i s p l = .ok p' ∧ Inv idn0 ref0 (done ++ l.map (fun r => (i, r))) p' := by
  induction l with
  | nil => intro done p h _; exact ⟨p, rfl, by simpa using h⟩
  | cons r l ih =>
    intro done p h hnew
    obtain ⟨h1, h2⟩ := hdom r (by simp)
    obtain ⟨p1, e1, h3⟩ := step hI hR hA h hs hi' h1 h2 (hnew r (by simp))
    obtain ⟨hr, hl'⟩ := List.nodup_cons.1 hl
    obtain ⟨p2, e2, h4⟩ := ih hl' (fun x hx => hdom x (by simp [hx])) h3 (by
      intro x hx hx'
      rcases List.mem_append.1 hx' with h5 | h5
      · exact hnew x (by simp [hx]) h5
      · simp at h5; subst h5; exact hr hx)
    refine ⟨p2, by simp only [pairInner, e1]; exact e2, ?_⟩
    simpa using h4

theorem outer (hI : Ids idn0) (hR : Ids ref0) (hA : Apart ref0) (rs : List Seq) (hrs : rs.Nodup)
    (hdom : ∀ r ∈ rs, (dget ref0 r).isSome ∧ dget idn0 r = none) (l : List Seq) (hl : l.Nodup)
    (hdom' : ∀ i ∈ l, (dget idn0 i).isSome ∧ dget ref0 i = none) :
    ∀ {done : List (Seq × Seq)} {p : Pairing}, Inv idn0 ref0 done p → (∀ i ∈ l, ∀ q ∈ done, q.1 ≠ i) →
    ∃ p', pairOuter rs p l = .ok p' ∧
      Inv idn0 ref0 (done ++ l.flatMap (fun i => rs.map (fun r => (i, r)))) p' := by
  induction l with
  | nil => intro done p h _; exact ⟨p, rfl, by simpa using h⟩
  | cons i l ih =>
    intro done p h hnew
    obtain ⟨h1, h2⟩ := hdom' i (by simp)
    obtain ⟨s, hs⟩ := Option.isSome_iff_exists.1 h1
    have hk := h.idnKeep i (hnew i (by simp)) s hs
    obtain ⟨p1, e1, h3⟩ := inner hI hR hA hs h2 rs hrs hdom h (fun r _ hr' => hnew i (by simp) _ hr' rfl)
    obtain ⟨hi, hl'⟩ := List.nodup_cons.1 hl
    obtain ⟨p2, e2, h4⟩ := ih hl' (fun x hx => hdom' x (by simp [hx])) h3 (by
      intro x hx q hq he
      rcases List.mem_append.1 hq with h5 | h5
      · exact hnew x (by simp [hx]) q h5 he
      · obtain ⟨r, _, rfl⟩ := List.mem_map.1 h5
        subst he; exact hi hx)
    refine ⟨p2, by simp only [pairOuter, hk, e1]; exact e2, ?_⟩
    simpa using h4

theorem inv_start (hI : Ids idn0) (hR : Ids ref0) : Inv idn0 ref0 [] { idn := idn0, ref := ref0 } where
  idnNodup := hI.nodup
  refNodup := hR.nodup
  dom := by simp
  refKeep := fun _ _ h => h
  refNew := fun _ _ h => Or.inl h
  upd := by simp
  idnKeep := fun _ _ _ h => h
  idnNew := fun _ _ h => Or.inl h
  idnAll := fun _ _ h => Or.inl h
  rel := by simp

theorem dget_ddels {l : List Seq} {d : Sets} (hd : (d.map Prod.fst).Nodup) (k : Seq) :
    dget (l.foldl ddel d) k = if k ∈ l then none else dget d k := by
  induction l generalizing d with
  | nil => simp
  | cons x l ih =>
    rw [List.foldl_cons, ih (ddel_nodup hd x), dget_ddel hd]
    by_cases h : x = k
    · subst h; simp
    · have h' : ¬ k = x := fun e => h e.symm
      simp [h, h']

/-- What the pairing is: of the sets `idn0` of the table and `ref0` of the reference are made `si` and `sr`,
of which those with the same identifier are compared. -/
structure Paired (idn0 ref0 si sr : Sets) : Prop where
  /-- No set is lost, -/
  idnAll : ∀ i s, dget idn0 i = some s → ∃ k, dget si k = some s
  refAll : ∀ r t, dget ref0 r = some t → ∃ k, dget sr k = some t
  /-- and none is made up: -/
  idnFrom : ∀ k s, dget si k = some s → ∃ i, dget idn0 i = some s
  refFrom : ∀ k t, dget sr k = some t → ∃ r, dget ref0 r = some t
  /-- sets with the same identifier are compared, -/
  common : ∀ k s t, dget idn0 k = some s → dget ref0 k = some t → dget si k = some s ∧ dget sr k = some t
  /-- and a set of the table with one of the reference of which one includes the other, if both have no
  other such set. -/
  related : ∀ i r s t, dget idn0 i = some s → dget ref0 r = some t → dget ref0 i = none → dget idn0 r = none →
    Rel s t → (∀ j u, dget idn0 j = some u → Rel u t → j = i) → (∀ q u, dget ref0 q = some u → Rel s u → q = r) →
    ∃ k, dget si k = some s ∧ dget sr k = some t

theorem pairSets_paired (hI : Ids idn0) (hR : Ids ref0) (hA : Apart ref0) :
    ∃ si sr, pairSets idn0 ref0 = .ok (si, sr) ∧ Paired idn0 ref0 si sr := by
  have hkey : ∀ (d : Sets) (k : Seq), k ∈ d.map Prod.fst ↔ (dget d k).isSome := fun d k => C80.mem_keys
  have hnone : ∀ (d : Sets) (k : Seq), k ∉ d.map Prod.fst ↔ dget d k = none := by
    intro d k; rw [hkey, Option.not_isSome_iff_eq_none]
  obtain ⟨p, e, h⟩ := outer hI hR hA
    ((ref0.map Prod.fst).filter (fun k => decide (k ∉ idn0.map Prod.fst))) (hR.nodup.filter _)
    (by
      intro r hr
      rw [List.mem_filter, decide_eq_true_eq, hnone, hkey] at hr
      exact hr)
    ((idn0.map Prod.fst).filter (fun k => decide (k ∉ ref0.map Prod.fst))) (hI.nodup.filter _)
    (by
      intro r hr
      rw [List.mem_filter, decide_eq_true_eq, hnone, hkey] at hr
      exact hr)
    (inv_start hI hR) (by simp)
  rw [List.nil_append] at h
  set done := ((idn0.map Prod.fst).filter (fun k => decide (k ∉ ref0.map Prod.fst))).flatMap (fun i =>
    ((ref0.map Prod.fst).filter (fun k => decide (k ∉ idn0.map Prod.fst))).map (fun r => (i, r))) with hdone
  have hmem : ∀ i r, (i, r) ∈ done ↔ ((dget idn0 i).isSome ∧ dget ref0 i = none) ∧
      (dget ref0 r).isSome ∧ dget idn0 r = none := by
    intro i r
    rw [hdone, List.mem_flatMap]
    constructor
    · rintro ⟨a, ha, hb⟩
      obtain ⟨b, hb2, hc⟩ := List.mem_map.1 hb
      injection hc with h1 h2
      subst h1 h2
      rw [List.mem_filter, decide_eq_true_eq, hnone, hkey] at ha hb2
      exact ⟨ha, hb2⟩
    · rintro ⟨h1, h2⟩
      refine ⟨i, ?_, List.mem_map.2 ⟨r, ?_, rfl⟩⟩
      · rw [List.mem_filter, decide_eq_true_eq, hnone, hkey]; exact h1
      · rw [List.mem_filter, decide_eq_true_eq, hnone, hkey]; exact h2
  refine ⟨_, _, by unfold pairSets; simp only [e]; rfl, ?_⟩
  have hsr : ∀ k, dget ((p.updated.filter (fun k => decide (k ∉ p.newIds))).foldl ddel p.ref) k =
      if k ∈ p.updated ∧ k ∉ p.newIds then none else dget p.ref k := by
    intro k
    rw [dget_ddels h.refNodup]
    simp [List.mem_filter]
  constructor
  · intro i s hs
    rcases h.idnAll i s hs with h1 | ⟨r, _, _, _, h1⟩
    · exact ⟨i, h1⟩
    · exact ⟨r, h1⟩
  · intro r t ht
    by_cases hu : r ∈ p.updated ∧ r ∉ p.newIds
    · obtain ⟨_, _, k, hk, hk'⟩ := h.upd r hu.1
      refine ⟨k, ?_⟩
      rw [hsr, if_neg (fun h1 => h1.2 hk), hk', ht]
    · exact ⟨r, by rw [hsr, if_neg hu]; exact h.refKeep r t ht⟩
  · intro k s hs
    rcases h.idnNew k s hs with h1 | ⟨i, _, _, _, h1⟩
    · exact ⟨k, h1⟩
    · exact ⟨i, h1⟩
  · intro k t ht
    rw [hsr] at ht
    split at ht
    · cases ht
    · rcases h.refNew k t ht with h1 | ⟨_, i, r, _, _, _, h1⟩
      · exact ⟨k, h1⟩
      · exact ⟨r, h1⟩
  · intro k s t hs ht
    refine ⟨h.idnKeep k ?_ s hs, ?_⟩
    · intro q hq he
      have := (h.dom q hq).2.1
      rw [he, ht] at this; cases this
    · rw [hsr, if_neg]
      · exact h.refKeep k t ht
      · rintro ⟨h1, _⟩
        have := (h.upd k h1).1
        rw [hs] at this; cases this
  · intro i r s t hs ht hi hr hrel hu1 hu2
    have hin : (i, r) ∈ done := (hmem i r).2 ⟨⟨by rw [hs]; rfl, hi⟩, by rw [ht]; rfl, hr⟩
    obtain ⟨h1, h2, h3⟩ := h.rel (i, r) hin ⟨s, t, hs, ht, hrel⟩
    refine ⟨min i r, ?_, ?_⟩
    · obtain ⟨s', hs'⟩ := Option.isSome_iff_exists.1 h2
      simp only at hs'
      rcases h.idnNew _ _ hs' with h4 | ⟨j, _, ⟨u, t', h5, h6, h7⟩, _, h8⟩
      · have : min i r = i := by
          rcases min_choice i r with h5 | h5
          · exact h5
          · rw [h5, hr] at h4; cases h4
        rw [this, hs] at h4; injection h4 with h4; rw [hs', ← h4]
      · have : min i r = r := by
          rcases min_choice i r with h5 | h5
          · rw [h5, hi] at h6; cases h6
          · exact h5
        rw [this, ht] at h6; injection h6 with h6; subst h6
        have := hu1 j u h5 h7
        subst this
        rw [hs', ← hs, h8]
    · rw [hsr, if_neg (fun h4 => h4.2 h1)]
      obtain ⟨t', ht'⟩ := Option.isSome_iff_exists.1 h3
      simp only at ht'
      rcases h.refNew _ _ ht' with h4 | ⟨_, j, q, hjq, ⟨u, t2, h5, h6, h7⟩, h8, h9⟩
      · have : min i r = r := by
          rcases min_choice i r with h5 | h5
          · rw [h5, hi] at h4; cases h4
          · exact h5
        rw [this, ht] at h4; injection h4 with h4; rw [ht', ← h4]
      · have hd := h.dom _ hjq
        rcases min_choice i r with h10 | h10
        · have hji : j = i := by
            rw [h10] at h8
            rcases min_choice j q with h11 | h11
            · rw [h8, h11]
            · have : i = q := h8.trans h11
              rw [this, hd.2.2.2] at hs; cases hs
          subst hji
          rw [hs] at h5; injection h5 with h5; subst h5
          have := hu2 q t2 h6 h7
          subst this
          rw [ht', ← h9, ht]
        · have := h.refKeep r t ht
          rw [h10] at ht' ⊢
          exact this

end Lgr.Props.C87
