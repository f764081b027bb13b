import Verif.Props.ReviewPairing
import Verif.Props.ReviewChecks

/-!
# C84, C87: the report on variant sets
-/

namespace Lgr.Props.C84
open Lgr Review Repertoire C09

variable {order : List Variant → List Variant} {cps : List Seq → List Seq} {idn ref : Repertoire}

/-- The loop returns, and the relevant repertoire has the code points of the table that were visited. -/
theorem setLoop_total {si sr : List Seq} {missing : Option Seq} (l : List Seq) (s : SetState) :
    ∃ s', setLoop order cps idn ref si sr missing s l = .ok s' ∧ (∀ k ∈ s.relevant, k ∈ s'.relevant) ∧
      ∀ k ∈ l, (idn.lookup k).isSome → k ∈ s'.relevant := by
  induction l generalizing s with
  | nil => exact ⟨s, rfl, fun _ h => h, by simp⟩
  | cons k l ih =>
    have hent : ∀ vi vr ks, ∃ es, entriesFor order idn (decide (si = [])) (decide (sr = [])) missing k vi vr ks = .ok es := by
      intro vi vr ks
      induction ks with
      | nil => exact ⟨[], rfl⟩
      | cons x ks ihk =>
        obtain ⟨es, hes⟩ := ihk
        obtain ⟨f, hf, -⟩ := C39.variant_total order (decide (si = [])) (decide (sr = [])) ((dget vi x).getD {})
          ((dget vr x).getD {}) false (((dget vr x).getD {}).inRepertoire idn)
        obtain ⟨b, hb, -⟩ := C39.variant_total order (decide (si = [])) (decide (sr = [])) ((dget vi x).getD {})
          ((dget vr x).getD {}) true (((dget vr x).getD {}).inRepertoire idn)
        exact ⟨_, by simp only [entriesFor, varEntry, hf, hb, hes]; rfl⟩
    have : ∃ s1, setStep order cps idn ref si sr missing s k = .ok s1 ∧ (∀ j ∈ s.relevant, j ∈ s1.relevant) ∧
        ((idn.lookup k).isSome → k ∈ s1.relevant) := by
      unfold setStep
      simp only
      split
      · rename_i x hx
        obtain ⟨es, hes⟩ := hent _ _ _
        rw [hx] at hes; cases hes
      · refine ⟨_, rfl, ?_, ?_⟩
        · intro j hj
          dsimp only
          split
          · exact List.mem_append_left _ hj
          · exact hj
        · intro hk
          dsimp only
          obtain ⟨c, hc⟩ := Option.isSome_iff_exists.1 hk
          rw [getChar_ok.2 hc]
          simp
    obtain ⟨s1, e1, h1, h2⟩ := this
    obtain ⟨s2, e2, h3, h4⟩ := ih s1
    refine ⟨s2, by simp only [setLoop, e1, e2], fun j hj => h3 j (h1 j hj), ?_⟩
    intro j hj hj'
    rcases List.mem_cons.1 hj with rfl | hj
    · exact h3 _ (h2 hj')
    · exact h4 j hj hj'

theorem missing_total {l : List Seq} (h : ∀ k ∈ l, (ref.lookup k).isSome) :
    ∃ x, missingSequence idn ref l = .ok x := by
  induction l with
  | nil => exact ⟨_, rfl⟩
  | cons k l ih =>
    unfold missingSequence
    simp only
    split
    · obtain ⟨c, hc⟩ := Option.isSome_iff_exists.1 (h k (by simp))
      rw [getChar_ok.2 hc]
      exact ⟨_, rfl⟩
    · exact ih (fun j hj => h j (by simp [hj]))

/-- One variant set, or two. -/
theorem setReport_total (hidn : WF idn) {si sr : List Seq} (hs : si.Nodup) (hne : ∀ k ∈ si, k ≠ [])
    (hsr : si = [] → ∀ k ∈ sr, (ref.lookup k).isSome) :
    ∃ o, setReport order cps idn ref si sr = .ok o ∧ (∀ e, o = some e → e.idn = si ∧ e.ref = sr) ∧
      ((∃ k, (k ∈ si ∨ k ∈ sr) ∧ (idn.lookup k).isSome) → o.isSome) := by
  obtain ⟨s, t, hc, -⟩ := C88.checks_exact hidn si hs hne
  have hm : ∃ x, (if si = [] then missingSequence idn ref sr else .ok (none, [])) = .ok x := by
    by_cases h : si = []
    · rw [if_pos h]; exact missing_total (hsr h)
    · rw [if_neg h]; exact ⟨_, rfl⟩
  obtain ⟨⟨missing, rel⟩, hx⟩ := hm
  obtain ⟨s1, h1, -, h2⟩ := setLoop_total (order := order) (cps := cps) (idn := idn) (ref := ref) (si := si) (sr := sr)
    (missing := missing) (sortAsc id (si ++ sr).dedup) { relevant := rel }
  have hse : setEntries order cps idn ref si sr = .ok (s1.entries, sortAsc id s1.relevant.dedup) := by
    unfold setEntries
    rw [hx]
    simp only [h1]
  by_cases hrel : sortAsc id s1.relevant.dedup = []
  · refine ⟨none, by unfold setReport; rw [hc]; simp only [hse, if_pos hrel], by simp, ?_⟩
    rintro ⟨k, hk, hk'⟩
    exfalso
    have h3 : k ∈ s1.relevant := h2 k (by
      rw [mem_sortAsc, List.mem_dedup, List.mem_append]; exact hk) hk'
    have h4 : k ∈ sortAsc id s1.relevant.dedup := by rw [mem_sortAsc, List.mem_dedup]; exact h3
    rw [hrel] at h4; cases h4
  · refine ⟨some ⟨si, sr, sortAsc id s1.relevant.dedup, s, t, sortAsc VarEntry.dest s1.entries⟩,
      by unfold setReport; rw [hc]; simp only [hse, if_neg hrel], ?_, by simp⟩
    rintro e he
    injection he with he; subst he
    exact ⟨rfl, rfl⟩

theorem setsLoop_total {si sr : Sets} (ks : List Seq)
    (h : ∀ k, ∃ o, setReport order cps idn ref ((dget si k).getD []) ((dget sr k).getD []) = .ok o ∧
      (∀ e, o = some e → e.idn = (dget si k).getD [] ∧ e.ref = (dget sr k).getD []) ∧
      ((∃ x, (x ∈ (dget si k).getD [] ∨ x ∈ (dget sr k).getD []) ∧ (idn.lookup x).isSome) → o.isSome)) :
    ∃ l, setsLoop order cps idn ref si sr ks = .ok l ∧
      (∀ e ∈ l, ∃ k ∈ ks, e.idn = (dget si k).getD [] ∧ e.ref = (dget sr k).getD []) ∧
      ∀ k ∈ ks, (∃ x, (x ∈ (dget si k).getD [] ∨ x ∈ (dget sr k).getD []) ∧ (idn.lookup x).isSome) →
        ∃ e ∈ l, e.idn = (dget si k).getD [] ∧ e.ref = (dget sr k).getD [] := by
  induction ks with
  | nil => exact ⟨[], rfl, by simp, by simp⟩
  | cons k ks ih =>
    obtain ⟨l, h1, h2, h3⟩ := ih
    obtain ⟨o, h4, h5, h6⟩ := h k
    refine ⟨o.toList ++ l, by simp only [setsLoop, h4, h1], ?_, ?_⟩
    · intro e he
      rcases List.mem_append.1 he with he | he
      · rw [Option.mem_toList] at he
        exact ⟨k, by simp, h5 e he⟩
      · obtain ⟨j, hj, hj'⟩ := h2 e he
        exact ⟨j, by simp [hj], hj'⟩
    · intro j hj hx
      rcases List.mem_cons.1 hj with rfl | hj
      · obtain ⟨e, he⟩ := Option.isSome_iff_exists.1 (h6 hx)
        exact ⟨e, List.mem_append_left _ (by rw [he]; simp), h5 e he⟩
      · obtain ⟨e, he, he'⟩ := h3 j hj hx
        exact ⟨e, List.mem_append_right _ he, he'⟩

/-! ### Variant sets by identifier -/

theorem byId_aux (l : List (List Seq)) (d : Sets) (hd : (d.map Prod.fst).Nodup) (P : List Seq → Prop)
    (hP : ∀ s ∈ l, P s) (hdP : ∀ k s, dget d k = some s → P s ∧ s.headD [] = k) :
    (((l.foldl (fun d s => dset d (s.headD []) s) d)).map Prod.fst).Nodup ∧
    ∀ k s, dget (l.foldl (fun d s => dset d (s.headD []) s) d) k = some s → P s ∧ s.headD [] = k := by
  induction l generalizing d with
  | nil => exact ⟨hd, hdP⟩
  | cons x l ih =>
    rw [List.foldl_cons]
    refine ih _ (dset_nodup hd _ _) (fun s hs => hP s (by simp [hs])) ?_
    intro k s hk
    rw [dget_dset] at hk
    split at hk
    · rename_i h; injection hk with hk; subst hk; exact ⟨hP _ (by simp), h⟩
    · exact hdP k s hk

theorem byId_mem (l : List (List Seq)) (k : Seq) (s : List Seq) (h : dget (setsById l) k = some s) :
    s ∈ l ∧ s.headD [] = k :=
  (byId_aux l [] (by simp) (· ∈ l) (fun _ h => h) (by simp [dget])).2 k s h

theorem byId_nodup (l : List (List Seq)) : ((setsById l).map Prod.fst).Nodup :=
  (byId_aux l [] (by simp) (· ∈ l) (fun _ h => h) (by simp [dget])).1

/-- With different identifiers no set is lost. -/
theorem byId_all (l : List (List Seq)) (hl : l.Pairwise (fun s t => s.headD [] ≠ t.headD [])) {s : List Seq}
    (hs : s ∈ l) : dget (setsById l) (s.headD []) = some s := by
  have key : ∀ (l : List (List Seq)) (d : Sets), l.Pairwise (fun s t => s.headD [] ≠ t.headD []) →
      (∀ s ∈ l, dget (l.foldl (fun d s => dset d (s.headD []) s) d) (s.headD []) = some s) ∧
      ∀ k, (∀ s ∈ l, s.headD [] ≠ k) → dget (l.foldl (fun d s => dset d (s.headD []) s) d) k = dget d k := by
    intro l
    induction l with
    | nil => intro d _; exact ⟨by simp, by simp⟩
    | cons x l ih =>
      intro d hp
      obtain ⟨h1, h2⟩ := List.pairwise_cons.1 hp
      obtain ⟨h3, h4⟩ := ih (dset d (x.headD []) x) h2
      constructor
      · intro s hs
        rw [List.foldl_cons]
        rcases List.mem_cons.1 hs with rfl | hs
        · rw [h4 _ (fun t ht => (h1 t ht).symm), dget_dset, if_pos rfl]
        · exact h3 s hs
      · intro k hk
        rw [List.foldl_cons, h4 k (fun s hs => hk s (by simp [hs])), dget_dset, if_neg (hk x (by simp))]
  exact (key l [] hl).1 s hs

theorem member_ne {r : Repertoire} (h : WF r) {k : Seq} {c : CharObj} (hc : r.lookup k = some c) {a : Seq}
    (ha : Reach r true k a) : a ≠ [] := by
  induction ha with
  | refl => rintro rfl; simp [lookup] at hc
  | tail _ hbc _ =>
    obtain ⟨⟨c', hc', v, hv, rfl⟩, _⟩ := hbc
    exact C26.variant_ne (lookup_charWF h hc').varWF hv

theorem set_facts {r : Repertoire} (h : WF r) {s : List Seq} (hs : s ∈ r.getVariantSets true) :
    s.Nodup ∧ (∀ k ∈ s, k ≠ []) ∧ s.headD [] ∈ s ∧ (∀ x ∈ s, s.headD [] ≤ x) ∧ ∃ k ∈ s, (r.lookup k).isSome := by
  obtain ⟨h1, k, c, hk, h2⟩ := ((variant_sets_exact h true).2 s).1 hs
  refine ⟨h2.1.imp ne_of_lt, fun a ha => member_ne h hk ((h2.2 a).1 ha), ?_, ?_, k, (h2.2 k).2 .refl, by rw [hk]; rfl⟩
  · cases s with
    | nil => simp at h1
    | cons x s => simp
  · intro x hx
    have h3 := h2.1
    cases s with
    | nil => cases hx
    | cons y s =>
      rcases List.mem_cons.1 hx with rfl | hx
      · exact le_refl _
      · exact le_of_lt ((List.pairwise_cons.1 h3).1 x hx)

/-- Each variant mapping is there in both directions. -/
def Symmetric (r : Repertoire) : Prop := ∀ a b, Edge r true a b → Edge r true b a

theorem symmetric_of_all {r : Repertoire} (h : WF r)
    (ha : ∀ c ∈ r.allChars, ∀ v ∈ c.getVariants, (r.lookup v.cp).any (fun d => d.getVariants.any (fun w => w.cp == c.cp))) :
    Symmetric r := by
  rintro a b ⟨⟨c, hc, v, hv, rfl⟩, _⟩
  have h1 := ha c (lookup_allChars h hc) v hv
  rw [Option.any_eq_true] at h1
  obtain ⟨d, hd, h2⟩ := h1
  obtain ⟨w, hw, h3⟩ := List.any_eq_true.1 h2
  exact ⟨⟨d, hd, w, hw, by rw [← lookup_cp hc]; exact beq_iff_eq.1 h3⟩, Or.inl rfl⟩

theorem member_in {r : Repertoire} (h : WF r) (hsym : Symmetric r) {s : List Seq} (hs : s ∈ r.getVariantSets true) :
    ∀ k ∈ s, (r.lookup k).isSome := by
  obtain ⟨_, k, c, hk, h2⟩ := ((variant_sets_exact h true).2 s).1 hs
  intro a ha
  have hr := (h2.2 a).1 ha
  cases hr with
  | refl => rw [hk]; rfl
  | tail _ hbc =>
    obtain ⟨⟨c', hc', _⟩, _⟩ := hsym _ _ hbc
    rw [hc']; rfl

theorem byId_ids {r : Repertoire} (h : WF r) : C87.Ids (setsById (r.getVariantSets true)) where
  nodup := byId_nodup _
  least := by
    intro k s hs
    obtain ⟨h1, h2⟩ := byId_mem _ _ _ hs
    obtain ⟨_, _, h3, h4, _⟩ := set_facts h h1
    rw [h2] at h3 h4
    exact ⟨h3, h4⟩

theorem byId_apart {r : Repertoire} (h : WF r) (hsym : Symmetric r) : C87.Apart (setsById (r.getVariantSets true)) := by
  intro k s k' s' x hs hs' hx hx'
  obtain ⟨h1, h2⟩ := byId_mem _ _ _ hs
  obtain ⟨h3, h4⟩ := byId_mem _ _ _ hs'
  by_cases he : s = s'
  · subst he; rw [← h2, ← h4]
  · exact absurd hx' (variant_sets_disjoint h true hsym h1 h3 he x hx)

theorem heads_apart {r : Repertoire} (h : WF r) (hsym : Symmetric r) :
    (r.getVariantSets true).Pairwise (fun s t => s.headD [] ≠ t.headD []) := by
  refine List.Pairwise.imp_of_mem ?_ (variant_sets_exact h true).1
  intro s t hs ht hlt he
  exact variant_sets_disjoint h true hsym hs ht (ne_of_lt hlt) _ (set_facts h hs).2.2.1
    (he ▸ (set_facts h ht).2.2.1)

/-- What the report is made of. -/
theorem report_spec (hi : WF idn) (hr : WF ref) (hsym : Symmetric ref) :
    ∃ si sr l, C87.Paired (setsById (idn.getVariantSets true)) (setsById (ref.getVariantSets true)) si sr ∧
      variantSetsReport order cps idn ref = .ok l ∧
      (∀ e ∈ l, ∃ k, e.idn = (dget si k).getD [] ∧ e.ref = (dget sr k).getD []) ∧
      ∀ k, (∃ x, (x ∈ (dget si k).getD [] ∨ x ∈ (dget sr k).getD []) ∧ (idn.lookup x).isSome) →
        ∃ e ∈ l, e.idn = (dget si k).getD [] ∧ e.ref = (dget sr k).getD [] := by
  obtain ⟨si, sr, h1, hp⟩ := C87.pairSets_paired (byId_ids hi) (byId_ids hr) (byId_apart hr hsym)
  have hsi : ∀ k s, dget si k = some s → s ∈ idn.getVariantSets true := by
    intro k s hs
    obtain ⟨i, hi'⟩ := hp.idnFrom k s hs
    exact (byId_mem _ _ _ hi').1
  have hsr : ∀ k s, dget sr k = some s → s ∈ ref.getVariantSets true := by
    intro k s hs
    obtain ⟨i, hi'⟩ := hp.refFrom k s hs
    exact (byId_mem _ _ _ hi').1
  obtain ⟨l, h2, h3, h4⟩ := setsLoop_total (order := order) (cps := cps) (idn := idn) (ref := ref) (si := si) (sr := sr)
    (sortAsc id (si.map Prod.fst ++ sr.map Prod.fst).dedup) (by
      intro k
      apply setReport_total hi
      · cases hk : dget si k with
        | none => simp
        | some s => exact (set_facts hi (hsi k s hk)).1
      · cases hk : dget si k with
        | none => simp
        | some s => exact (set_facts hi (hsi k s hk)).2.1
      · intro _
        cases hk : dget sr k with
        | none => simp
        | some s => exact member_in hr hsym (hsr k s hk))
  refine ⟨si, sr, l, hp, by unfold variantSetsReport; rw [h1]; exact h2, ?_, ?_⟩
  · intro e he
    obtain ⟨k, _, hk⟩ := h3 e he
    exact ⟨k, hk⟩
  · intro k hx
    refine h4 k ?_ hx
    rw [mem_sortAsc, List.mem_dedup, List.mem_append, C80.mem_keys, C80.mem_keys]
    obtain ⟨x, hx | hx, _⟩ := hx
    · left
      cases hk : dget si k with
      | none => rw [hk] at hx; simp at hx
      | some s => rfl
    · right
      cases hk : dget sr k with
      | none => rw [hk] at hx; simp at hx
      | some s => rfl

/-- **C84** holds for a symmetric reference LGR: whatever the table, the report on variant sets is made without
exception. -/
theorem returns_partial (hi : WF idn) (hr : WF ref) (hsym : Symmetric ref) :
    ∃ l, variantSetsReport order cps idn ref = .ok l := by
  obtain ⟨_, _, l, _, h, _⟩ := report_spec (order := order) (cps := cps) hi hr hsym
  exact ⟨l, h⟩

def cp (x : Nat) : LGR.Ctx × LGR.Op := (C06.ctx0, .addCp (.int x) {})
def var (x y : Nat) : LGR.Ctx × LGR.Op := (C06.ctx0, .addVariant (.int x) (.int y) none {})

/-- **C84** is violated: a variant of the reference which is a sequence outside its repertoire, of which a code
point is in the table; -/
theorem raises_sequence :
    variantSetsReport id id (LGR.run {} [cp 98]).rep
      (LGR.run {} [cp 97, (C06.ctx0, .addVariant (.int 97) (.seq [98, 99]) none {})]).rep = .error (.notInLGR [98, 99]) := by
  decide +kernel

/-- and two overlapping sets of an asymmetric reference which include the same set of the table. -/
theorem raises_overlap :
    variantSetsReport id id (LGR.run {} [cp 97, cp 98, var 97 98, var 98 97]).rep
      (LGR.run {} [cp 49, cp 50, cp 97, cp 98, var 49 97, var 49 98, var 50 97, var 50 98]).rep =
        .error (.keyError "idn") := by
  decide +kernel

end Lgr.Props.C84

namespace Lgr.Props.C87
open Lgr Review Repertoire C09 C84

variable {order : List Variant → List Variant} {cps : List Seq → List Seq} {idn ref : Repertoire}

/-- The sets have the same smallest member, or one includes the other. -/
def Close (s t : List Seq) : Prop := s.headD [] = t.headD [] ∨ Rel s t

/-- **C87** For a symmetric table and a symmetric reference: the report is about the variant sets of both, all
those of the table, and those of the reference of which a member is in the table; sets with the same smallest
member are compared, and also close sets which have no other close set. What is missing: a set included in a
set of the other LGR may be compared with nothing if the latter includes several sets. -/
theorem report_partial (hi : WF idn) (hr : WF ref) (hsi : Symmetric idn) (hsr : Symmetric ref) :
    ∃ l, variantSetsReport order cps idn ref = .ok l ∧
      (∀ e ∈ l, (e.idn = [] ∨ e.idn ∈ idn.getVariantSets true) ∧ (e.ref = [] ∨ e.ref ∈ ref.getVariantSets true)) ∧
      (∀ s ∈ idn.getVariantSets true, ∃ e ∈ l, e.idn = s) ∧
      (∀ t ∈ ref.getVariantSets true, (∃ k ∈ t, (idn.lookup k).isSome) → ∃ e ∈ l, e.ref = t) ∧
      (∀ s ∈ idn.getVariantSets true, ∀ t ∈ ref.getVariantSets true, s.headD [] = t.headD [] →
        ∃ e ∈ l, e.idn = s ∧ e.ref = t) ∧
      ∀ s ∈ idn.getVariantSets true, ∀ t ∈ ref.getVariantSets true, Close s t →
        (∀ u ∈ idn.getVariantSets true, Close u t → u = s) → (∀ u ∈ ref.getVariantSets true, Close s u → u = t) →
        ∃ e ∈ l, e.idn = s ∧ e.ref = t := by
  obtain ⟨si, sr, l, hp, hl, h1, h2⟩ := report_spec (order := order) (cps := cps) hi hr hsr
  have gi : ∀ s ∈ idn.getVariantSets true, dget (setsById (idn.getVariantSets true)) (s.headD []) = some s :=
    fun s hs => byId_all _ (heads_apart hi hsi) hs
  have gr : ∀ s ∈ ref.getVariantSets true, dget (setsById (ref.getVariantSets true)) (s.headD []) = some s :=
    fun s hs => byId_all _ (heads_apart hr hsr) hs
  have hboth : ∀ s ∈ idn.getVariantSets true, ∀ t k, dget si k = some s → dget sr k = some t →
      ∃ e ∈ l, e.idn = s ∧ e.ref = t := by
    intro s hs t k hk hk'
    obtain ⟨_, _, _, _, x, hx, hx'⟩ := set_facts hi hs
    have := h2 k ⟨x, Or.inl (by rw [hk]; exact hx), hx'⟩
    rwa [hk, hk'] at this
  have hsame : ∀ s ∈ idn.getVariantSets true, ∀ t ∈ ref.getVariantSets true, s.headD [] = t.headD [] →
        ∃ e ∈ l, e.idn = s ∧ e.ref = t := by
    intro s hs t ht he
    have := hp.common (s.headD []) s t (gi s hs) (by rw [he]; exact gr t ht)
    exact hboth s hs t _ this.1 this.2
  refine ⟨l, hl, ?_, ?_, ?_, hsame, ?_⟩
  · intro e he
    obtain ⟨k, e1, e2⟩ := h1 e he
    constructor
    · rw [e1]
      cases hk : dget si k with
      | none => exact Or.inl rfl
      | some s =>
        obtain ⟨i, hi'⟩ := hp.idnFrom k s hk
        exact Or.inr (byId_mem _ _ _ hi').1
    · rw [e2]
      cases hk : dget sr k with
      | none => exact Or.inl rfl
      | some s =>
        obtain ⟨i, hi'⟩ := hp.refFrom k s hk
        exact Or.inr (byId_mem _ _ _ hi').1
  · intro s hs
    obtain ⟨k, hk⟩ := hp.idnAll _ s (gi s hs)
    obtain ⟨_, _, _, _, x, hx, hx'⟩ := set_facts hi hs
    obtain ⟨e, he, he', _⟩ := h2 k ⟨x, Or.inl (by rw [hk]; exact hx), hx'⟩
    exact ⟨e, he, by rw [he', hk]; rfl⟩
  · rintro t ht ⟨x, hx, hx'⟩
    obtain ⟨k, hk⟩ := hp.refAll _ t (gr t ht)
    obtain ⟨e, he, _, he'⟩ := h2 k ⟨x, Or.inr (by rw [hk]; exact hx), hx'⟩
    exact ⟨e, he, by rw [he', hk]; rfl⟩
  · intro s hs t ht hc hu1 hu2
    by_cases he : s.headD [] = t.headD []
    · exact hsame s hs t ht he
    · have hrel : Rel s t := hc.resolve_left he
      obtain ⟨k, hk, hk'⟩ := hp.related (s.headD []) (t.headD []) s t (gi s hs) (gr t ht)
        (by
          cases hd : dget (setsById (ref.getVariantSets true)) (s.headD []) with
          | none => rfl
          | some u =>
            obtain ⟨h3, h4⟩ := byId_mem _ _ _ hd
            have := hu2 u h3 (Or.inl h4.symm)
            subst this; exact absurd h4.symm he)
        (by
          cases hd : dget (setsById (idn.getVariantSets true)) (t.headD []) with
          | none => rfl
          | some u =>
            obtain ⟨h3, h4⟩ := byId_mem _ _ _ hd
            have := hu1 u h3 (Or.inl h4)
            subst this; exact absurd h4 he)
        hrel
        (by
          intro j u hu hru
          obtain ⟨h3, h4⟩ := byId_mem _ _ _ hu
          have := hu1 u h3 (Or.inr hru)
          subst this; exact h4.symm)
        (by
          intro j u hu hru
          obtain ⟨h3, h4⟩ := byId_mem _ _ _ hu
          have := hu2 u h3 (Or.inr hru)
          subst this; exact h4.symm)
      exact hboth s hs t k hk hk'

/-- All the code points are variants of each other. -/
def clique (l : List Nat) : List (LGR.Ctx × LGR.Op) :=
  l.map cp ++ l.flatMap (fun x => (l.filter (· ≠ x)).map (var x))

/-- **C87** is violated: two sets of the table included in one of the reference; only one of them is compared
with it. -/
theorem alone :
    (variantSetsReport id id (LGR.run {} (clique [98, 99] ++ clique [100, 101])).rep
        (LGR.run {} (clique [97, 98, 99, 100, 101])).rep).map (List.map (fun e => (e.idn, e.ref))) =
      .ok [([[98], [99]], [[97], [98], [99], [100], [101]]), ([[100], [101]], [])] := by
  decide +kernel

/-- The hypotheses of `report_partial` are met with a set included in a larger one with another smallest member,
and one that is only in the table. -/
example :
    let idn := (LGR.run {} (clique [98, 99] ++ clique [102, 103])).rep
    let ref := (LGR.run {} (clique [97, 98, 99])).rep
    WF idn ∧ WF ref ∧ Symmetric idn ∧ Symmetric ref ∧
    (variantSetsReport id id idn ref).map (List.map (fun e => (e.idn, e.ref))) =
      .ok [([[98], [99]], [[97], [98], [99]]), ([[102], [103]], [])] :=
  ⟨(run_wf _).1, (run_wf _).1, symmetric_of_all (run_wf _).1 (by decide +kernel),
    symmetric_of_all (run_wf _).1 (by decide +kernel), by decide +kernel⟩

end Lgr.Props.C87
