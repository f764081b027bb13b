import Verif.Props.ReviewVariants
import Verif.Props.CharVariants

/-!
# C89: the mappings compared for a variant set
-/

namespace Lgr.Props.C89
open Lgr Review Repertoire C88

variable {order : List Variant → List Variant}

/-- `v` is a variant which maps `a` to `b`. -/
def Var (r : Repertoire) (a b : Seq) (v : Variant) : Prop :=
  ∃ c, r.lookup a = some c ∧ v ∈ c.getVariants ∧ v.cp = b

/-- The data on the mapping of `a` to `b` are the variants in both directions. -/
def Data (r : Repertoire) (a b : Seq) (d : VData) : Prop :=
  (∀ v, v ∈ d.fwd ↔ Var r a b v) ∧ ∀ v, v ∈ d.rev ↔ Var r b a v

theorem mem_vadds (l acc : List Variant)
    (h : ∀ u ∈ acc ++ l, ∀ w ∈ acc ++ l, u.key = w.key → u = w) (u : Variant) :
    u ∈ l.foldl vadd acc ↔ u ∈ acc ∨ u ∈ l := by
  induction l generalizing acc with
  | nil => simp
  | cons x l ih =>
    rw [List.foldl_cons]
    have hm : ∀ y, y ∈ vadd acc x ↔ y ∈ acc ∨ y = x := by
      intro y
      unfold vadd
      split
      · rename_i hk
        obtain ⟨z, hz, hz'⟩ := List.mem_map.1 hk
        have := h z (by simp [hz]) x (by simp) hz'
        subst this
        constructor
        · exact Or.inl
        · rintro (h1 | rfl)
          · exact h1
          · exact hz
      · simp
    rw [ih, hm]
    · simp [or_assoc]
    · intro a ha b hb
      refine h a ?_ b ?_
      · rcases List.mem_append.1 ha with h1 | h1
        · rcases (hm a).1 h1 with h2 | rfl <;> simp [*]
        · simp [h1]
      · rcases List.mem_append.1 hb with h1 | h1
        · rcases (hm b).1 h1 with h2 | rfl <;> simp [*]
        · simp [h1]

theorem vadds_cp (l acc : List Variant) {u : Variant} (h : u ∈ l.foldl vadd acc) : u ∈ acc ∨ u ∈ l := by
  induction l generalizing acc with
  | nil => exact Or.inl h
  | cons x l ih =>
    rw [List.foldl_cons] at h
    rcases ih _ h with h1 | h1
    · unfold vadd at h1
      split at h1
      · exact Or.inl h1
      · rcases List.mem_append.1 h1 with h2 | h2
        · exact Or.inl h2
        · simp at h2; subst h2; exact Or.inr (by simp)
    · exact Or.inr (by simp [h1])

theorem vadd_ne (l : List Variant) (v : Variant) : vadd l v ≠ [] := by
  unfold vadd
  split
  · rename_i h; rintro rfl; simp at h
  · simp

/-- What `get_variant_data` has found after the variants `pre` of `a`. -/
structure DInv (r : Repertoire) (a : Seq) (rv0 : Reversed) (pre : List Variant) (s : List (Seq × VData) × Reversed) :
    Prop where
  keys : ∀ k, (dget s.1 k).isSome ↔ k ∉ (dget rv0 a).getD [] ∧ ∃ v ∈ pre, v.cp = k
  fwds : ∀ k d, dget s.1 k = some d → d.fwd ≠ [] ∧ ∀ u ∈ d.fwd, u.cp = k
  rev : ∀ x y, y ∈ (dget s.2 x).getD [] ↔
    y ∈ (dget rv0 x).getD [] ∨ (y = a ∧ (dget s.1 x).isSome ∧ (r.lookup x).isSome)
  data : ∀ k d, k ≠ a → dget s.1 k = some d → (∀ v, v ∈ d.fwd ↔ v ∈ pre ∧ v.cp = k) ∧ ∀ v, v ∈ d.rev ↔ Var r k a v

theorem var_key {r : Repertoire} (h : WF r) {a b b' : Seq} {u w : Variant} (hu : Var r a b u) (hw : Var r a b' w)
    (hk : u.key = w.key) : u = w := by
  obtain ⟨c, hc, hu, _⟩ := hu
  obtain ⟨c', hc', hw, _⟩ := hw
  rw [hc] at hc'; cases hc'
  exact List.inj_on_of_nodup_map (C08.getVariants_keys_nodup (lookup_charWF h hc).varWF) hu hw hk

theorem step {r : Repertoire} (h : WF r) (ho : ∀ l, (order l).Perm l) {c : CharObj} (hc : r.lookup c.cp = some c)
    {rv0 : Reversed} {pre post : List Variant} {v : Variant} (hl : c.getVariants = pre ++ v :: post)
    {s : List (Seq × VData) × Reversed} (hs : DInv r c.cp rv0 pre s) :
    DInv r c.cp rv0 (pre ++ [v]) (dataStep order r c s v) := by
  have hmo : ∀ l (u : Variant), u ∈ order l ↔ u ∈ l := fun l u => (ho l).mem_iff
  have hne : ∀ l, l ≠ [] → order l ≠ [] := by
    intro l hl h1
    have := (ho l).length_eq
    rw [h1] at this
    exact hl (List.length_eq_zero_iff.1 this.symm)
  have hv : v ∈ c.getVariants := by rw [hl]; simp
  have hpre : ∀ u ∈ pre, u ∈ c.getVariants := fun u hu => by rw [hl]; simp [hu]
  have hinj : ∀ u ∈ c.getVariants, ∀ w ∈ c.getVariants, u.key = w.key → u = w := fun u hu w hw =>
    List.inj_on_of_nodup_map (C08.getVariants_keys_nodup (lookup_charWF h hc).varWF) hu hw
  have hvne : v.cp ≠ [] := C26.variant_ne (lookup_charWF h hc).varWF hv
  unfold dataStep
  -- is the mapping skipped?
  have hskip : v.cp ∈ (dget s.2 c.cp).getD [] ↔ v.cp ∈ (dget rv0 c.cp).getD [] ∨
      (v.cp = c.cp ∧ (dget s.1 c.cp).isSome) := by
    rw [hs.rev, hc]; simp
  by_cases hsk : v.cp ∈ (dget s.2 c.cp).getD []
  · rw [if_pos hsk]
    rcases hskip.1 hsk with h1 | ⟨h1, h2⟩
    · refine ⟨?_, hs.fwds, hs.rev, ?_⟩
      · intro k
        rw [hs.keys]
        constructor
        · rintro ⟨h2, u, hu, hk⟩; exact ⟨h2, u, by simp [hu], hk⟩
        · rintro ⟨h2, u, hu, hk⟩
          rcases List.mem_append.1 hu with h3 | h3
          · exact ⟨h2, u, h3, hk⟩
          · simp at h3; subst h3; exact absurd (hk ▸ h1) h2
      · intro k d hk hd
        obtain ⟨h2, h3⟩ := hs.data k d hk hd
        refine ⟨fun u => ?_, h3⟩
        rw [h2]
        constructor
        · rintro ⟨h4, h5⟩; exact ⟨by simp [h4], h5⟩
        · rintro ⟨h4, h5⟩
          rcases List.mem_append.1 h4 with h6 | h6
          · exact ⟨h6, h5⟩
          · simp at h6; subst h6
            have := ((hs.keys k).1 (by rw [hd]; rfl)).1
            exact absurd (h5 ▸ h1) this
    · refine ⟨?_, hs.fwds, hs.rev, ?_⟩
      · intro k
        rw [hs.keys]
        constructor
        · rintro ⟨h2, u, hu, hk⟩; exact ⟨h2, u, by simp [hu], hk⟩
        · rintro ⟨h3, u, hu, hk⟩
          rcases List.mem_append.1 hu with h4 | h4
          · exact ⟨h3, u, h4, hk⟩
          · simp at h4; subst h4
            rw [h1] at hk; subst hk
            exact (hs.keys _).1 h2
      · intro k d hk hd
        obtain ⟨h2, h3⟩ := hs.data k d hk hd
        refine ⟨fun u => ?_, h3⟩
        rw [h2]
        constructor
        · rintro ⟨h4, h5⟩; exact ⟨by simp [h4], h5⟩
        · rintro ⟨h4, h5⟩
          rcases List.mem_append.1 h4 with h6 | h6
          · exact ⟨h6, h5⟩
          · simp at h6; subst h6; exact absurd (h5.symm.trans h1) hk
  · rw [if_neg hsk]
    have hnot : v.cp ∉ (dget rv0 c.cp).getD [] := fun h1 => hsk (hskip.2 (Or.inl h1))
    -- the new data
    have hkeys : ∀ (d0 : VData) k, (dget (dset s.1 v.cp d0) k).isSome ↔
        k ∉ (dget rv0 c.cp).getD [] ∧ ∃ w ∈ pre ++ [v], w.cp = k := by
      intro d0 k
      rw [dget_dset]
      split
      · rename_i he; subst he
        simp only [Option.isSome_some, true_iff]
        exact ⟨hnot, v, by simp, rfl⟩
      · rename_i he
        rw [hs.keys]
        constructor
        · rintro ⟨h2, u, hu, hk⟩; exact ⟨h2, u, by simp [hu], hk⟩
        · rintro ⟨h2, u, hu, hk⟩
          rcases List.mem_append.1 hu with h3 | h3
          · exact ⟨h2, u, h3, hk⟩
          · simp at h3; subst h3; exact absurd hk he
    have hsome : ∀ (b : Bool) (rl : List Variant) k d,
        dget (dset s.1 v.cp (((dget s.1 v.cp).getD { inLgr := b }).add order v rl)) k = some d →
        d.fwd ≠ [] ∧ ∀ u ∈ d.fwd, u.cp = k := by
      intro b rl k d hd
      rw [dget_dset] at hd
      split at hd
      · rename_i he; subst he
        injection hd with hd; subst hd
        refine ⟨hne _ (vadd_ne _ _), ?_⟩
        intro u hu
        have hu : u ∈ vadd (vset ((dget s.1 v.cp).getD { inLgr := b }).fwd) v := (hmo _ _).1 hu
        unfold vadd at hu
        have hold : u ∈ vset ((dget s.1 v.cp).getD { inLgr := b }).fwd → u.cp = v.cp := by
          intro h1
          rcases vadds_cp _ _ h1 with h2 | h2
          · simp at h2
          · cases hg : dget s.1 v.cp with
            | none => rw [hg] at h2; simp at h2
            | some d0 => rw [hg] at h2; exact (hs.fwds _ _ hg).2 u h2
        split at hu
        · exact hold hu
        · rcases List.mem_append.1 hu with h1 | h1
          · exact hold h1
          · simp at h1; rw [h1]
      · exact hs.fwds k d hd
    have hdata : ∀ (b : Bool) (rl : List Variant), (∀ u, u ∈ rl ↔ Var r v.cp c.cp u) → ∀ k d, k ≠ c.cp →
        dget (dset s.1 v.cp (((dget s.1 v.cp).getD { inLgr := b }).add order v rl)) k = some d →
        (∀ u, u ∈ d.fwd ↔ u ∈ pre ++ [v] ∧ u.cp = k) ∧ ∀ u, u ∈ d.rev ↔ Var r k c.cp u := by
      intro b rl hrl k d hk hd
      rw [dget_dset] at hd
      split at hd
      · rename_i he; subst he
        injection hd with hd; subst hd
        -- what was there
        have hold : (∀ u, u ∈ ((dget s.1 v.cp).getD { inLgr := b }).fwd ↔ u ∈ pre ∧ u.cp = v.cp) ∧
            ∀ u, u ∈ ((dget s.1 v.cp).getD { inLgr := b }).rev → Var r v.cp c.cp u := by
          cases hg : dget s.1 v.cp with
          | some d0 =>
            obtain ⟨h1, h2⟩ := hs.data _ _ hk hg
            exact ⟨h1, fun u hu => (h2 u).1 hu⟩
          | none =>
            refine ⟨fun u => ?_, by simp⟩
            simp only [Option.getD_none, List.not_mem_nil, false_iff]
            rintro ⟨h1, h2⟩
            have := (hs.keys v.cp).2 ⟨hnot, u, h1, h2⟩
            rw [hg] at this; cases this
        have hvset : ∀ u, u ∈ vset ((dget s.1 v.cp).getD { inLgr := b }).fwd ↔ u ∈ pre ∧ u.cp = v.cp := by
          intro u
          unfold vset
          rw [mem_vadds]
          · rw [hold.1]; simp
          · intro x hx y hy
            simp only [List.nil_append] at hx hy
            exact hinj x (hpre x ((hold.1 x).1 hx).1) y (hpre y ((hold.1 y).1 hy).1)
        constructor
        · intro u
          show u ∈ order (vadd (vset ((dget s.1 v.cp).getD { inLgr := b }).fwd) v) ↔ _
          rw [hmo]
          have := mem_vadds [v] (vset ((dget s.1 v.cp).getD { inLgr := b }).fwd) (by
            intro x hx y hy
            refine hinj x ?_ y ?_
            · rcases List.mem_append.1 hx with h1 | h1
              · exact hpre x ((hvset x).1 h1).1
              · simp at h1; subst h1; exact hv
            · rcases List.mem_append.1 hy with h1 | h1
              · exact hpre y ((hvset y).1 h1).1
              · simp at h1; subst h1; exact hv) u
          simp only [List.foldl_cons, List.foldl_nil] at this
          rw [this, hvset]
          constructor
          · rintro (⟨h1, h2⟩ | h1)
            · exact ⟨by simp [h1], h2⟩
            · simp at h1; subst h1; exact ⟨by simp, rfl⟩
          · rintro ⟨h1, h2⟩
            rcases List.mem_append.1 h1 with h3 | h3
            · exact Or.inl ⟨h3, h2⟩
            · exact Or.inr h3
        · intro u
          show u ∈ order (rl.foldl vadd (vset ((dget s.1 v.cp).getD { inLgr := b }).rev)) ↔ _
          rw [hmo]
          have hvs : ∀ u, u ∈ vset ((dget s.1 v.cp).getD { inLgr := b }).rev → Var r v.cp c.cp u := by
            intro u hu
            rcases vadds_cp _ _ hu with h1 | h1
            · simp at h1
            · exact hold.2 u h1
          rw [mem_vadds]
          · constructor
            · rintro (h1 | h1)
              · exact hvs u h1
              · exact (hrl u).1 h1
            · intro h1; exact Or.inr ((hrl u).2 h1)
          · intro x hx y hy hxy
            have hx' : Var r v.cp c.cp x := by
              rcases List.mem_append.1 hx with h1 | h1
              · exact hvs x h1
              · exact (hrl x).1 h1
            have hy' : Var r v.cp c.cp y := by
              rcases List.mem_append.1 hy with h1 | h1
              · exact hvs y h1
              · exact (hrl y).1 h1
            exact var_key h hx' hy' hxy
      · rename_i he
        obtain ⟨h2, h3⟩ := hs.data k d hk hd
        refine ⟨fun u => ?_, h3⟩
        rw [h2]
        constructor
        · rintro ⟨h4, h5⟩; exact ⟨by simp [h4], h5⟩
        · rintro ⟨h4, h5⟩
          rcases List.mem_append.1 h4 with h6 | h6
          · exact ⟨h6, h5⟩
          · simp at h6; subst h6; exact absurd h5 he
    cases hg : r.getVariant v.cp c.cp with
    | error e =>
      have hnl : r.lookup v.cp = none := by
        cases hd : r.lookup v.cp with
        | none => rfl
        | some d => simp [Repertoire.getVariant, getChar_ok.2 hd] at hg
      refine ⟨hkeys _, hsome _ _, ?_, hdata _ _ ?_⟩
      · intro x y
        rw [hs.rev]
        refine or_congr Iff.rfl (and_congr Iff.rfl ?_)
        rw [dget_dset]
        split
        · rename_i he; subst he; simp [hnl]
        · exact Iff.rfl
      · intro u
        simp only [List.not_mem_nil, false_iff]
        rintro ⟨d, hd, _⟩
        rw [hnl] at hd; cases hd
    | ok o =>
      have hl' : ∃ d, r.lookup v.cp = some d ∧ o = d.getVariant c.cp := by
        simp only [Repertoire.getVariant] at hg
        split at hg
        · cases hg
        · rename_i d hd
          injection hg with hg
          exact ⟨d, getChar_ok.1 hd, hg.symm⟩
      obtain ⟨d, hd, ho'⟩ := hl'
      refine ⟨hkeys _, hsome _ _, ?_, hdata _ _ ?_⟩
      · intro x y
        rw [dget_dset, dget_dset]
        by_cases he : v.cp = x
        · subst he
          rw [if_pos rfl, if_pos rfl, Option.getD_some, List.mem_append, hs.rev, hd]
          simp only [Option.isSome_some, and_true, List.mem_singleton]
          tauto
        · rw [if_neg he, if_neg he, hs.rev]
      · intro u
        have hwd := (lookup_charWF h hd).varWF
        constructor
        · intro hu
          cases hg2 : dget d.vars c.cp with
          | none => rw [ho', CharObj.getVariant, hg2] at hu; simp at hu
          | some l =>
            rw [ho', CharObj.getVariant, hg2] at hu
            have hcp : u.cp = c.cp := hwd.filed _ (mem_of_dget hg2) u hu
            exact ⟨d, hd, (CharObj.mem_getVariants hwd u).2 ⟨l, by rw [hcp]; exact hg2, hu⟩, hcp⟩
        · rintro ⟨d', hd', hu, hcp⟩
          rw [hd] at hd'; cases hd'
          obtain ⟨l, h1, h2⟩ := (CharObj.mem_getVariants hwd u).1 hu
          rw [hcp] at h1
          rw [ho', CharObj.getVariant, h1]
          exact h2

/-- The lists of variants are without duplicates, and `inLgr` says if the code point is there. -/
def Shape (r : Repertoire) (vs : List (Seq × VData)) : Prop :=
  (vs.map Prod.fst).Nodup ∧
  ∀ k d, dget vs k = some d → d.fwd.Nodup ∧ d.rev.Nodup ∧ d.inLgr = (r.lookup k).isSome

theorem vadds_nodup (l acc : List Variant) (h : (acc.map Variant.key).Nodup) : ((l.foldl vadd acc).map Variant.key).Nodup := by
  induction l generalizing acc with
  | nil => exact h
  | cons x l ih =>
    rw [List.foldl_cons]
    apply ih
    unfold vadd
    split
    · exact h
    · rename_i hx
      rw [List.map_append, List.nodup_append]
      refine ⟨h, by simp, ?_⟩
      intro a ha b hb
      simp at hb
      subst hb
      rintro rfl
      exact hx ha

theorem add_nodup (ho : ∀ l, (order l).Perm l) (d : VData) (v : Variant) (rl : List Variant) :
    (d.add order v rl).fwd.Nodup ∧ (d.add order v rl).rev.Nodup := by
  constructor
  · refine (ho _).nodup_iff.2 (List.Nodup.of_map Variant.key ?_)
    exact vadds_nodup [v] _ (vadds_nodup _ _ (by simp))
  · refine (ho _).nodup_iff.2 (List.Nodup.of_map Variant.key ?_)
    exact vadds_nodup _ _ (vadds_nodup _ _ (by simp))

theorem step_shape {r : Repertoire} (ho : ∀ l, (order l).Perm l) {c : CharObj} {v : Variant}
    {s : List (Seq × VData) × Reversed} (hs : Shape r s.1) : Shape r (dataStep order r c s v).1 := by
  unfold dataStep
  split
  · exact hs
  · split
    · rename_i o hg
      have hl : (r.lookup v.cp).isSome := by
        simp only [Repertoire.getVariant] at hg
        split at hg
        · cases hg
        · rename_i d hd
          rw [getChar_ok.1 hd]; rfl
      refine ⟨dset_nodup hs.1 _ _, ?_⟩
      intro k d hd
      rw [dget_dset] at hd
      split at hd
      · rename_i he; subst he
        injection hd with hd; subst hd
        refine ⟨(add_nodup ho _ _ _).1, (add_nodup ho _ _ _).2, ?_⟩
        show ((dget s.1 v.cp).getD { inLgr := true }).inLgr = _
        cases hx : dget s.1 v.cp with
        | none => rw [hl]; rfl
        | some d0 => exact (hs.2 _ _ hx).2.2
      · exact hs.2 k d hd
    · rename_i e hg
      have hl : r.lookup v.cp = none := by
        cases hd : r.lookup v.cp with
        | none => rfl
        | some d => simp [Repertoire.getVariant, getChar_ok.2 hd] at hg
      refine ⟨dset_nodup hs.1 _ _, ?_⟩
      intro k d hd
      rw [dget_dset] at hd
      split at hd
      · rename_i he; subst he
        injection hd with hd; subst hd
        refine ⟨(add_nodup ho _ _ _).1, (add_nodup ho _ _ _).2, ?_⟩
        show ((dget s.1 v.cp).getD { inLgr := false }).inLgr = _
        cases hx : dget s.1 v.cp with
        | none => rw [hl]; rfl
        | some d0 => exact (hs.2 _ _ hx).2.2
      · exact hs.2 k d hd

/-- `get_variant_data`. -/
theorem data_spec {r : Repertoire} (h : WF r) (ho : ∀ l, (order l).Perm l) {c : CharObj} (hc : r.lookup c.cp = some c)
    (rv : Reversed) : DInv r c.cp rv c.getVariants (variantData order r c rv) ∧ Shape r (variantData order r c rv).1 := by
  have key : ∀ post pre s, c.getVariants = pre ++ post → DInv r c.cp rv pre s → Shape r s.1 →
      DInv r c.cp rv (pre ++ post) (post.foldl (dataStep order r c) s) ∧ Shape r (post.foldl (dataStep order r c) s).1 := by
    intro post
    induction post with
    | nil => intro pre s _ h1 h2; rw [List.append_nil]; exact ⟨h1, h2⟩
    | cons v post ih =>
      intro pre s hl h1 h2
      have := ih (pre ++ [v]) (dataStep order r c s v) (by rw [hl]; simp) (step h ho hc hl h1) (step_shape ho h2)
      rw [List.append_assoc] at this
      exact this
  have := key c.getVariants [] ([], rv) rfl ⟨by simp [dget], by simp [dget], by simp [dget], by simp [dget]⟩
    ⟨by simp, by simp [dget]⟩
  exact this

/-! ### The loop on a set -/

/-- The code points reported by the dictionary of reversed variants, after the code points `done`. -/
structure RInv (r : Repertoire) (don : List Seq) (rv : Reversed) : Prop where
  sub : ∀ x y, y ∈ (dget rv x).getD [] → y ∈ don
  maps : ∀ x, x ∉ don → ∀ y, y ∈ (dget rv x).getD [] ↔ y ∈ don ∧ MapsTo r y x ∧ (r.lookup x).isSome

/-- The data on the character of one of the LGRs, when there is one. -/
def dataOf (order : List Variant → List Variant) (r : Repertoire) (a : Seq) (rv : Reversed) : List (Seq × VData) × Reversed :=
  match r.getChar a with
  | .ok c => variantData order r c rv
  | .error _ => ([], rv)

theorem mapsTo_iff {r : Repertoire} {a b : Seq} : MapsTo r a b ↔ ∃ v, Var r a b v := by
  unfold MapsTo Var
  constructor
  · rintro ⟨c, hc, v, hv, h⟩; exact ⟨v, c, hc, hv, h⟩
  · rintro ⟨v, c, hc, hv, h⟩; exact ⟨c, hc, v, hv, h⟩

/-- What the data say on the mapping of `a` to `k`. -/
theorem dataOf_spec {r : Repertoire} (h : WF r) (ho : ∀ l, (order l).Perm l) {don : List Seq} {rv : Reversed}
    (hr : RInv r don rv) {a : Seq} (ha : a ∉ don) :
    RInv r (don ++ [a]) (dataOf order r a rv).2 ∧ ((dataOf order r a rv).1.map Prod.fst).Nodup ∧
    (∀ k, (dget (dataOf order r a rv).1 k).isSome ↔ MapsTo r a k ∧ ¬ (k ∈ don ∧ MapsTo r k a)) ∧
    (∀ k d, dget (dataOf order r a rv).1 k = some d → d.fwd ≠ [] ∧ (∀ u ∈ d.fwd, u.cp = k) ∧
      d.fwd.Nodup ∧ d.rev.Nodup ∧ d.inLgr = (r.lookup k).isSome ∧ (k ≠ a → Data r a k d)) := by
  unfold dataOf
  cases hc : r.getChar a with
  | error e =>
    have hl : r.lookup a = none := by
      cases hd : r.lookup a with
      | none => rfl
      | some d => rw [getChar_ok.2 hd] at hc; cases hc
    have hno : ∀ k, ¬ MapsTo r a k := by
      rintro k ⟨c, h1, _⟩; rw [hl] at h1; cases h1
    refine ⟨⟨fun x y hy => by simp [hr.sub x y hy], ?_⟩, by simp, by simp [dget, hno], by simp [dget]⟩
    intro x hx y
    rw [hr.maps x (fun h1 => hx (by simp [h1]))]
    constructor
    · rintro ⟨h1, h2⟩; exact ⟨by simp [h1], h2⟩
    · rintro ⟨h1, h2⟩
      rcases List.mem_append.1 h1 with h3 | h3
      · exact ⟨h3, h2⟩
      · simp at h3; subst h3; exact absurd h2.1 (hno x)
  | ok c =>
    have hl := getChar_ok.1 hc
    have hcp := lookup_cp hl
    subst hcp
    obtain ⟨hD, hS⟩ := data_spec h ho hl rv
    simp only
    have hm : ∀ k, MapsTo r c.cp k ↔ ∃ v ∈ c.getVariants, v.cp = k := by
      intro k
      constructor
      · rintro ⟨c', h1, h2⟩; rw [hl] at h1; cases h1; exact h2
      · intro h1; exact ⟨c, hl, h1⟩
    have hk : ∀ k, (dget (variantData order r c rv).1 k).isSome ↔ MapsTo r c.cp k ∧ ¬ (k ∈ don ∧ MapsTo r k c.cp) := by
      intro k
      rw [hD.keys, hm, hr.maps _ ha, hl]
      simp only [Option.isSome_some, and_true]
      tauto
    refine ⟨⟨?_, ?_⟩, hS.1, hk, ?_⟩
    · intro x y hy
      rcases (hD.rev x y).1 hy with h1 | ⟨rfl, _⟩
      · simp [hr.sub x y h1]
      · simp
    · intro x hx y
      have hx' : x ∉ don := fun h1 => hx (by simp [h1])
      rw [hD.rev, hk, hr.maps x hx']
      constructor
      · rintro (⟨h1, h2⟩ | ⟨rfl, ⟨h1, _⟩, h2⟩)
        · exact ⟨by simp [h1], h2⟩
        · exact ⟨by simp, h1, h2⟩
      · rintro ⟨h1, h2, h3⟩
        rcases List.mem_append.1 h1 with h4 | h4
        · exact Or.inl ⟨h4, h2, h3⟩
        · simp at h4; subst h4; exact Or.inr ⟨rfl, ⟨h2, fun h5 => hx' h5.1⟩, h3⟩
    · intro k d hd
      obtain ⟨h1, h2⟩ := hD.fwds k d hd
      obtain ⟨h3, h4, h5⟩ := hS.2 k d hd
      refine ⟨h1, h2, h3, h4, h5, fun hne => ?_⟩
      obtain ⟨h6, h7⟩ := hD.data k d hne hd
      refine ⟨fun v => ?_, h7⟩
      rw [h6]
      constructor
      · rintro ⟨h8, h9⟩; exact ⟨c, hl, h8, h9⟩
      · rintro ⟨c', h8, h9⟩; rw [hl] at h8; cases h8; exact h9

/-- Both directions of each mapping are there. -/
def Sym (r : Repertoire) : Prop := ∀ a b, MapsTo r a b → MapsTo r b a

/-- The entry is about the mapping of `a` to `b`. -/
def About (e : VarEntry) (a b : Seq) : Prop := e.source = a ∧ e.dest = b

/-- What is known on an entry. -/
structure Row (order : List Variant → List Variant) (idn ref : Repertoire) (si sr : List Seq) (missing : Option Seq)
    (e : VarEntry) : Prop where
  maps : MapsTo idn e.source e.dest ∨ MapsTo ref e.source e.dest
  made : ∃ i r : VData, varEntry order idn (decide (si = [])) (decide (sr = [])) missing e.source i r = .ok e ∧
    i.fwd.Nodup ∧ i.rev.Nodup ∧ r.fwd.Nodup ∧ r.rev.Nodup ∧
    (i.inLgr = true → (idn.lookup e.dest).isSome) ∧ (r.inLgr = true → (ref.lookup e.dest).isSome) ∧
    (Sym idn → Sym ref → (i.inLgr = true ↔ MapsTo idn e.source e.dest) ∧ (r.inLgr = true ↔ MapsTo ref e.source e.dest)) ∧
    (Sym idn → Sym ref → e.source ≠ e.dest → Data idn e.source e.dest i ∧ Data ref e.source e.dest r)

variable {cps : List Seq → List Seq} {idn ref : Repertoire}

theorem cpOf_all {l : List Variant} {k : Seq} (h : l ≠ []) (hk : ∀ u ∈ l, u.cp = k) : cpOf l = k := by
  cases l with
  | nil => exact absurd rfl h
  | cons x l => exact hk x (by simp)

/-- The entries for one code point. -/
theorem entries_spec {rep : Repertoire} {im rm : Bool} {missing : Option Seq} {a : Seq} {vi vr : List (Seq × VData)}
    (hi : ∀ k d, dget vi k = some d → d.fwd ≠ [] ∧ ∀ u ∈ d.fwd, u.cp = k)
    (hr : ∀ k d, dget vr k = some d → d.fwd ≠ [] ∧ ∀ u ∈ d.fwd, u.cp = k) :
    ∀ ks es, (∀ k ∈ ks, k ≠ [] ∧ ((dget vi k).isSome ∨ (dget vr k).isSome)) →
      entriesFor order rep im rm missing a vi vr ks = .ok es →
      es.map VarEntry.dest = ks ∧ ∀ e ∈ es, e.source = a ∧ varEntry order rep im rm missing a ((dget vi e.dest).getD {})
        ((dget vr e.dest).getD {}) = .ok e := by
  intro ks
  induction ks with
  | nil => intro es _ h; simp only [entriesFor] at h; cases h; simp
  | cons k ks ih =>
    intro es hk h
    simp only [entriesFor] at h
    split at h
    · cases h
    · rename_i e he
      split at h
      · cases h
      · rename_i es' hes'
        injection h with h; subst h
        obtain ⟨h1, h2⟩ := ih es' (fun j hj => hk j (by simp [hj])) hes'
        have h3 : e.source = a ∧ e.dest = k := by
          have he' := he
          unfold varEntry at he'
          simp only at he'
          split at he'
          · cases he'
          · split at he'
            · cases he'
            · injection he' with he'
              subst he'
              refine ⟨rfl, ?_⟩
              dsimp only
              obtain ⟨hne, h4⟩ := hk k (by simp)
              cases hx : dget vi k with
              | some d =>
                have := cpOf_all (hi k d hx).1 (hi k d hx).2
                simp only [Option.getD_some]
                rw [this, if_pos hne]
              | none =>
                rw [hx] at h4
                simp only [Option.isSome_none, Bool.false_eq_true, false_or] at h4
                obtain ⟨d, hd⟩ := Option.isSome_iff_exists.1 h4
                rw [hd]
                simp only [Option.getD_none, Option.getD_some]
                rw [if_neg (by simp [cpOf])]
                exact cpOf_all (hr k d hd).1 (hr k d hd).2
        refine ⟨by simp [h3.2, h1], ?_⟩
        intro x hx
        rcases List.mem_cons.1 hx with rfl | hx
        · refine ⟨h3.1, ?_⟩
          rw [h3.2]; exact he
        · exact h2 x hx

/-- After the code points `don` of the set. -/
structure LInv (order : List Variant → List Variant) (idn ref : Repertoire) (si sr : List Seq) (missing : Option Seq)
    (don : List Seq) (s : SetState) : Prop where
  ri : RInv idn don s.ri
  rr : RInv ref don s.rr
  row : ∀ e ∈ s.entries, e.source ∈ don ∧ Row order idn ref si sr missing e
  all : ∀ a ∈ don, ∀ b, MapsTo idn a b ∨ MapsTo ref a b → ∃ e ∈ s.entries, About e a b ∨ About e b a
  dist : s.entries.Pairwise (fun e f => ¬ About f e.source e.dest)
  once : Sym idn → Sym ref → s.entries.Pairwise (fun e f => ¬ About f e.dest e.source)

theorem mapsTo_ne {r : Repertoire} (h : WF r) {a b : Seq} (hm : MapsTo r a b) : b ≠ [] := by
  obtain ⟨c, hc, v, hv, rfl⟩ := hm
  exact C26.variant_ne (lookup_charWF h hc).varWF hv

theorem data_empty {r : Repertoire} {a b : Seq} (h1 : ¬ MapsTo r a b) (h2 : ¬ MapsTo r b a) : Data r a b {} := by
  refine ⟨fun v => ?_, fun v => ?_⟩
  · simp only [List.not_mem_nil, false_iff]; exact fun h => h1 (mapsTo_iff.2 ⟨v, h⟩)
  · simp only [List.not_mem_nil, false_iff]; exact fun h => h2 (mapsTo_iff.2 ⟨v, h⟩)

theorem setStep_inv (hi : WF idn) (hr : WF ref) (ho : ∀ l, (order l).Perm l) (hcps : ∀ l, (cps l).Perm l)
    {si sr : List Seq} {missing : Option Seq} {don : List Seq} {s s' : SetState} {a : Seq} (ha : a ∉ don)
    (hs : LInv order idn ref si sr missing don s) (he : setStep order cps idn ref si sr missing s a = .ok s') :
    LInv order idn ref si sr missing (don ++ [a]) s' := by
  obtain ⟨i1, i2, i3, i4⟩ := dataOf_spec hi ho hs.ri ha
  obtain ⟨r1, r2, r3, r4⟩ := dataOf_spec hr ho hs.rr ha
  -- the step on the data of both
  have hst : ∃ es rel, entriesFor order idn (decide (si = [])) (decide (sr = [])) missing a (dataOf order idn a s.ri).1
      (dataOf order ref a s.rr).1 (cps ((dataOf order idn a s.ri).1.map Prod.fst ++ (dataOf order ref a s.rr).1.map Prod.fst).dedup) = .ok es ∧
      s' = { entries := s.entries ++ es, ri := (dataOf order idn a s.ri).2, rr := (dataOf order ref a s.rr).2, relevant := rel } := by
    unfold setStep at he
    unfold dataOf
    cases h1 : idn.getChar a <;> cases h2 : ref.getChar a <;> simp only [h1, h2] at he ⊢
    all_goals
      split at he
      · cases he
      · rename_i es hes
        injection he with he
        exact ⟨es, _, hes, he.symm⟩
  obtain ⟨es, rel, hes, rfl⟩ := hst
  generalize hvi : dataOf order idn a s.ri = vi at i1 i2 i3 i4 hes ⊢
  generalize hvr : dataOf order ref a s.rr = vr at r1 r2 r3 r4 hes ⊢
  have hmk : ∀ k, k ∈ cps (vi.1.map Prod.fst ++ vr.1.map Prod.fst).dedup ↔ (dget vi.1 k).isSome ∨ (dget vr.1 k).isSome := by
    intro k
    rw [(hcps _).mem_iff, List.mem_dedup, List.mem_append, C80.mem_keys, C80.mem_keys]
  obtain ⟨e1, e2⟩ := entries_spec (fun k d hd => ⟨(i4 k d hd).1, (i4 k d hd).2.1⟩)
    (fun k d hd => ⟨(r4 k d hd).1, (r4 k d hd).2.1⟩) _ es (by
      intro k hk
      have := (hmk k).1 hk
      refine ⟨?_, this⟩
      rcases this with h1 | h1
      · exact mapsTo_ne hi ((i3 k).1 h1).1
      · exact mapsTo_ne hr ((r3 k).1 h1).1) hes
  have hdest : ∀ e ∈ es, (dget vi.1 e.dest).isSome ∨ (dget vr.1 e.dest).isSome := by
    intro e he
    rw [← hmk, ← e1]
    exact List.mem_map_of_mem he
  have hnew : Sym idn → Sym ref → ∀ e ∈ es, e.dest ∉ don := by
    intro si' sr' e he hd
    rcases hdest e he with h1 | h1
    · obtain ⟨h2, h3⟩ := (i3 _).1 h1
      exact h3 ⟨hd, si' _ _ h2⟩
    · obtain ⟨h2, h3⟩ := (r3 _).1 h1
      exact h3 ⟨hd, sr' _ _ h2⟩
  have hesd : es.Pairwise (fun e f => e.dest ≠ f.dest) := by
    have : (es.map VarEntry.dest).Nodup := by
      rw [e1, (hcps _).nodup_iff]; exact List.nodup_dedup _
    exact List.pairwise_map.1 this
  refine ⟨i1, r1, ?_, ?_, ?_, ?_⟩
  · intro e he
    rcases List.mem_append.1 he with he | he
    · obtain ⟨h1, h2⟩ := hs.row e he
      exact ⟨by simp [h1], h2⟩
    · obtain ⟨h1, h2⟩ := e2 e he
      refine ⟨by simp [h1], ?_, ?_⟩
      · rw [h1]
        rcases hdest e he with h3 | h3
        · exact Or.inl ((i3 _).1 h3).1
        · exact Or.inr ((r3 _).1 h3).1
      · refine ⟨_, _, by rw [h1]; exact h2, ?_⟩
        have n1 : ((dget vi.1 e.dest).getD {}).fwd.Nodup ∧ ((dget vi.1 e.dest).getD {}).rev.Nodup := by
          cases hx : dget vi.1 e.dest with
          | none => simp
          | some d => exact ⟨(i4 _ d hx).2.2.1, (i4 _ d hx).2.2.2.1⟩
        have n2 : ((dget vr.1 e.dest).getD {}).fwd.Nodup ∧ ((dget vr.1 e.dest).getD {}).rev.Nodup := by
          cases hx : dget vr.1 e.dest with
          | none => simp
          | some d => exact ⟨(r4 _ d hx).2.2.1, (r4 _ d hx).2.2.2.1⟩
        refine ⟨n1.1, n1.2, n2.1, n2.2, ?_, ?_, fun si' sr' => ?_, fun si' sr' hne => ?_⟩
        · cases hx : dget vi.1 e.dest with
          | none => simp
          | some d =>
            intro h4
            have h5 := (i4 _ d hx).2.2.2.2.1
            simp only [Option.getD_some] at h4
            rw [h4] at h5
            exact h5.symm
        · cases hx : dget vr.1 e.dest with
          | none => simp
          | some d =>
            intro h4
            have h5 := (r4 _ d hx).2.2.2.2.1
            simp only [Option.getD_some] at h4
            rw [h4] at h5
            exact h5.symm
        · have hnd := hnew si' sr' e he
          rw [h1]
          constructor
          · cases hx : dget vi.1 e.dest with
            | none =>
              simp only [Option.getD_none, Bool.false_eq_true, false_iff]
              intro hm
              have := (i3 e.dest).2 ⟨hm, fun h4 => hnd h4.1⟩
              rw [hx] at this; cases this
            | some d =>
              have hm := ((i3 e.dest).1 (by rw [hx]; rfl)).1
              simp only [Option.getD_some, hm, iff_true, (i4 _ d hx).2.2.2.2.1]
              obtain ⟨c, hc, _⟩ := si' _ _ hm
              rw [hc]; rfl
          · cases hx : dget vr.1 e.dest with
            | none =>
              simp only [Option.getD_none, Bool.false_eq_true, false_iff]
              intro hm
              have := (r3 e.dest).2 ⟨hm, fun h4 => hnd h4.1⟩
              rw [hx] at this; cases this
            | some d =>
              have hm := ((r3 e.dest).1 (by rw [hx]; rfl)).1
              simp only [Option.getD_some, hm, iff_true, (r4 _ d hx).2.2.2.2.1]
              obtain ⟨c, hc, _⟩ := sr' _ _ hm
              rw [hc]; rfl
        have hnd := hnew si' sr' e he
        rw [h1] at hne ⊢
        constructor
        · cases hx : dget vi.1 e.dest with
          | some d => exact (i4 _ d hx).2.2.2.2.2 (Ne.symm hne)
          | none =>
            have : ¬ MapsTo idn a e.dest := by
              intro hm
              have := (i3 e.dest).2 ⟨hm, fun h4 => hnd h4.1⟩
              rw [hx] at this; cases this
            exact data_empty this (fun h4 => this (si' _ _ h4))
        · cases hx : dget vr.1 e.dest with
          | some d => exact (r4 _ d hx).2.2.2.2.2 (Ne.symm hne)
          | none =>
            have : ¬ MapsTo ref a e.dest := by
              intro hm
              have := (r3 e.dest).2 ⟨hm, fun h4 => hnd h4.1⟩
              rw [hx] at this; cases this
            exact data_empty this (fun h4 => this (sr' _ _ h4))
  · have hold : ∀ x ∈ don, ∀ b, MapsTo idn x b ∨ MapsTo ref x b → ∃ e ∈ s.entries ++ es, About e x b ∨ About e b x := by
      intro x hx b hb
      obtain ⟨e, he, h⟩ := hs.all x hx b hb
      exact ⟨e, by simp [he], h⟩
    have hkey : ∀ b, (dget vi.1 b).isSome ∨ (dget vr.1 b).isSome → ∃ e ∈ s.entries ++ es, About e a b ∨ About e b a := by
      intro b hb
      rw [← hmk, ← e1] at hb
      obtain ⟨e, he, rfl⟩ := List.mem_map.1 hb
      exact ⟨e, by simp [he], Or.inl ⟨(e2 e he).1, rfl⟩⟩
    intro x hx b hb
    rcases List.mem_append.1 hx with h1 | h1
    · exact hold x h1 b hb
    · simp at h1; subst h1
      rcases hb with hb | hb
      · by_cases h2 : b ∈ don ∧ MapsTo idn b x
        · obtain ⟨e, he, h⟩ := hold b h2.1 x (Or.inl h2.2)
          exact ⟨e, he, h.symm⟩
        · exact hkey b (Or.inl ((i3 b).2 ⟨hb, h2⟩))
      · by_cases h2 : b ∈ don ∧ MapsTo ref b x
        · obtain ⟨e, he, h⟩ := hold b h2.1 x (Or.inr h2.2)
          exact ⟨e, he, h.symm⟩
        · exact hkey b (Or.inr ((r3 b).2 ⟨hb, h2⟩))
  · refine List.pairwise_append.2 ⟨hs.dist, hesd.imp (fun h1 h2 => h1 h2.2.symm), ?_⟩
    rintro e he f hf ⟨h1, _⟩
    rw [(e2 f hf).1] at h1
    exact ha (h1 ▸ (hs.row e he).1)
  · intro si' sr'
    refine List.pairwise_append.2 ⟨hs.once si' sr', ?_, ?_⟩
    · refine List.Pairwise.imp_of_mem ?_ hesd
      rintro e f he hf hd ⟨h1, h2⟩
      rw [(e2 f hf).1] at h1
      rw [(e2 e he).1] at h2
      exact hd (h1.symm.trans h2.symm)
    · rintro e he f hf ⟨h1, h2⟩
      exact hnew si' sr' f hf (h2 ▸ (hs.row e he).1)

theorem setLoop_inv (hi : WF idn) (hr : WF ref) (ho : ∀ l, (order l).Perm l) (hcps : ∀ l, (cps l).Perm l)
    {si sr : List Seq} {missing : Option Seq} (l : List Seq) (don : List Seq) (s s' : SetState)
    (hn : (don ++ l).Nodup) (hs : LInv order idn ref si sr missing don s)
    (he : setLoop order cps idn ref si sr missing s l = .ok s') : LInv order idn ref si sr missing (don ++ l) s' := by
  induction l generalizing don s with
  | nil => simp only [setLoop] at he; injection he with he; subst he; rw [List.append_nil]; exact hs
  | cons a l ih =>
    simp only [setLoop] at he
    split at he
    · cases he
    · rename_i s1 h1
      have ha : a ∉ don := by
        intro h
        have := (List.nodup_append.1 hn).2.2 a h a (by simp)
        exact this rfl
      have := ih (don ++ [a]) s1 (by simpa using hn) (setStep_inv hi hr ho hcps ha hs h1) he
      simpa using this

/-- What is known on the report of a set. -/
structure Good (order : List Variant → List Variant) (idn ref : Repertoire) (si sr : List Seq) (es : List VarEntry) :
    Prop where
  row : ∀ e ∈ es, (e.source ∈ si ∨ e.source ∈ sr) ∧ ∃ missing, Row order idn ref si sr missing e
  all : ∀ a, (a ∈ si ∨ a ∈ sr) → ∀ b, MapsTo idn a b ∨ MapsTo ref a b → ∃ e ∈ es, About e a b ∨ About e b a
  dist : es.Pairwise (fun e f => ¬ About f e.source e.dest)
  once : Sym idn → Sym ref → es.Pairwise (fun e f => ¬ About f e.dest e.source)

theorem setReport_good (hi : WF idn) (hr : WF ref) (ho : ∀ l, (order l).Perm l) (hcps : ∀ l, (cps l).Perm l)
    {si sr : List Seq} {e : SetReport} (he : setReport order cps idn ref si sr = .ok (some e)) :
    e.idn = si ∧ e.ref = sr ∧ Good order idn ref si sr e.report := by
  unfold setReport at he
  split at he
  · cases he
  · split at he
    · cases he
    · rename_i es rel hes
      split at he
      · cases he
      · injection he with he
        injection he with he
        subst he
        refine ⟨rfl, rfl, ?_⟩
        unfold setEntries at hes
        split at hes
        · cases hes
        · rename_i missing rel0 _
          split at hes
          · cases hes
          · rename_i s hl
            injection hes with hes
            injection hes with hes1 hes2
            subst hes1
            have hinv := setLoop_inv hi hr ho hcps (sortAsc id (si ++ sr).dedup) [] _ s
              (by rw [List.nil_append, (sortAsc_perm _ _).nodup_iff]; exact List.nodup_dedup _)
              ⟨⟨by simp [dget], by simp [dget]⟩, ⟨by simp [dget], by simp [dget]⟩, by simp, by simp, by simp, by simp⟩ hl
            rw [List.nil_append] at hinv
            have hm : ∀ x, x ∈ sortAsc id (si ++ sr).dedup ↔ x ∈ si ∨ x ∈ sr := by
              intro x; rw [mem_sortAsc, List.mem_dedup, List.mem_append]
            have hp := sortAsc_perm VarEntry.dest s.entries
            refine ⟨?_, ?_, ?_, ?_⟩
            · intro x hx
              obtain ⟨h1, h2⟩ := hinv.row x (hp.mem_iff.1 hx)
              exact ⟨(hm _).1 h1, missing, h2⟩
            · intro a ha b hb
              obtain ⟨x, hx, h⟩ := hinv.all a ((hm a).2 ha) b hb
              exact ⟨x, hp.mem_iff.2 hx, h⟩
            · refine hp.symm.pairwise hinv.dist ?_
              rintro x y h1 ⟨h2, h3⟩
              exact h1 ⟨h2.symm, h3.symm⟩
            · intro s1 s2
              refine hp.symm.pairwise (hinv.once s1 s2) ?_
              rintro x y h1 ⟨h2, h3⟩
              exact h1 ⟨h3.symm, h2.symm⟩

theorem setsLoop_from {si sr : Sets} (ks : List Seq) (l : List SetReport)
    (h : setsLoop order cps idn ref si sr ks = .ok l) (e : SetReport) (he : e ∈ l) :
    ∃ s t, setReport order cps idn ref s t = .ok (some e) := by
  induction ks generalizing l with
  | nil => simp only [setsLoop] at h; injection h with h; subst h; cases he
  | cons k ks ih =>
    simp only [setsLoop] at h
    split at h
    · cases h
    · rename_i o ho
      split at h
      · cases h
      · rename_i l' hl'
        injection h with h; subst h
        rcases List.mem_append.1 he with h1 | h1
        · rw [Option.mem_toList] at h1
          rw [h1] at ho
          exact ⟨_, _, ho⟩
        · exact ih l' hl' h1

theorem report_good (hi : WF idn) (hr : WF ref) (ho : ∀ l, (order l).Perm l) (hcps : ∀ l, (cps l).Perm l)
    {l : List SetReport} (h : variantSetsReport order cps idn ref = .ok l) (e : SetReport) (he : e ∈ l) :
    Good order idn ref e.idn e.ref e.report := by
  unfold variantSetsReport at h
  split at h
  · cases h
  · obtain ⟨s, t, h1⟩ := setsLoop_from _ l h e he
    obtain ⟨h2, h3, h4⟩ := setReport_good hi hr ho hcps h1
    rw [h2, h3]; exact h4

/-- **C89** For each compared set, every variant mapping from one of its members, in the table or in the
reference, is in the report, in one direction or the other; the report has no other mappings, and no mapping
twice. -/
theorem mappings_exact (hi : WF idn) (hr : WF ref) (ho : ∀ l, (order l).Perm l) (hcps : ∀ l, (cps l).Perm l)
    {l : List SetReport} (h : variantSetsReport order cps idn ref = .ok l) (e : SetReport) (he : e ∈ l) :
    (∀ a, (a ∈ e.idn ∨ a ∈ e.ref) → ∀ b, MapsTo idn a b ∨ MapsTo ref a b → ∃ x ∈ e.report, About x a b ∨ About x b a) ∧
    (∀ x ∈ e.report, (x.source ∈ e.idn ∨ x.source ∈ e.ref) ∧ (MapsTo idn x.source x.dest ∨ MapsTo ref x.source x.dest)) ∧
    e.report.Pairwise (fun x y => ¬ About y x.source x.dest) := by
  have hg := report_good hi hr ho hcps h e he
  refine ⟨hg.all, fun x hx => ?_, hg.dist⟩
  obtain ⟨h1, _, h2⟩ := hg.row x hx
  exact ⟨h1, h2.maps⟩

/-- **C89** For a symmetric table and reference both directions of a mapping are in one entry. -/
theorem mappings_once (hi : WF idn) (hr : WF ref) (ho : ∀ l, (order l).Perm l) (hcps : ∀ l, (cps l).Perm l)
    (hs : Sym idn) (ht : Sym ref)
    {l : List SetReport} (h : variantSetsReport order cps idn ref = .ok l) (e : SetReport) (he : e ∈ l) :
    e.report.Pairwise (fun x y => ¬ About y x.source x.dest ∧ ¬ About y x.dest x.source) := by
  have hg := report_good hi hr ho hcps h e he
  exact (hg.dist.and (hg.once hs ht))

/-- A table and a reference with two mappings each. -/
example :
    let idn := (LGR.run {} (C87.clique [97, 98])).rep
    let ref := (LGR.run {} (C87.clique [98, 99])).rep
    WF idn ∧ WF ref ∧ (variantSetsReport id id idn ref).toOption.map (·.map (fun e => e.report.map (fun x => (x.source, x.dest)))) =
      some [[([97], [98]), ([98], [99])], [([98], [97]), ([98], [99])]] :=
  ⟨(run_wf _).1, (run_wf _).1, by decide +kernel⟩

end Lgr.Props.C89
