import Verif.MergeTool
import Verif.Props.CompareMeta
import Verif.Props.MergeMeta
import Verif.Props.MergeSet

/-!
# C143: the metadata and the references of a merged LGR can be written
-/

namespace Lgr.Props.C143
open Lgr LGR Xml MetaXml DocXml Compare CompareTool MergeSet MergeTool C45 C99 C104

/-! ## References -/

/-- A reference that can be written and read. -/
structure RefOk (p : String × Ref) : Prop where
  valid : refIdOk p.1.toList = true
  named : p.1 ≠ ""
  value : p.2.value = "" ∨ Full p.2.value
  comment : ∀ c, p.2.comment = some c → c ≠ "" ∧ xmlOk c = true

theorem refOk_read {x : MetaXml.Ctx} {md : Meta} (h : MGood x true md) : ∀ p ∈ (managerOf md).refs, RefOk p := by
  intro p hp
  obtain ⟨q, hq, rfl⟩ := List.mem_map.1 hp
  obtain ⟨h1, -, h3, h4⟩ := h.writable.refs q hq
  refine ⟨h1, ?_, ?_, ?_⟩
  · intro he
    have h5 := h.ids rfl
    have : (dget md.refs "").isSome = true := by
      cases hd : dget md.refs "" with
      | none => exact absurd (List.mem_map.2 ⟨q, hq, he⟩) (dget_eq_none.1 hd)
      | some _ => rfl
    rw [this] at h5
    cases h5
  · dsimp only
    cases hv : q.2.value with
    | none => exact .inl rfl
    | some v => exact .inr (h3.1 v hv)
  · intro c hc
    exact ⟨fun he => h4 (hc.trans (by rw [he])), h3.2 c hc⟩

theorem refs_loop {valid : String → Bool} {ins : List (String × String)} (l : List (String × Ref))
    {s s' : RefManager × List (String × String)} (hs : ∀ p ∈ s.1.refs, RefOk p) (hl : ∀ p ∈ l, RefOk p)
    (h : forEach (refStep valid ins) s l = (s', .ok ())) : ∀ p ∈ s'.1.refs, RefOk p := by
  induction l generalizing s with
  | nil =>
    simp only [forEach, Prod.mk.injEq, and_true] at h
    rw [← h]; exact hs
  | cons p l ih =>
    obtain ⟨s1, h1, h2⟩ := forEach_cons_ok h
    refine ih ?_ (fun q hq => hl q (by simp [hq])) h2
    have hp := hl p (by simp)
    unfold refStep at h1
    split at h1
    · split at h1
      · split at h1
        · simp at h1
        · rename_i m x ha
          simp only [Prod.mk.injEq, and_true] at h1
          rw [← h1]
          unfold RefManager.addReference at ha
          dsimp only at ha
          split at ha
          · simp at ha
          · split at ha
            · simp at ha
            · simp only [Except.ok.injEq, Prod.mk.injEq] at ha
              rw [← ha.1]
              intro q hq
              rcases mem_dset hq with rfl | hq
              · exact ⟨hp.valid, hp.named, hp.value, hp.comment⟩
              · exact hs q hq
      · split at h1
        · simp at h1
        · rename_i m x ha
          simp only [Prod.mk.injEq, and_true] at h1
          rw [← h1]
          unfold RefManager.addReference at ha
          simp only [Except.ok.injEq, Prod.mk.injEq] at ha
          rw [← ha.1]
          intro q hq
          rcases mem_dset hq with rfl | hq
          · exact ⟨refIdOk_idStr _, idStr_ne _, hp.value, hp.comment⟩
          · exact hs q hq
    · simp only [Prod.mk.injEq, and_true] at h1
      rw [← h1]; exact hs

theorem refs_one {ord : SetOrder} {valid : String → Bool} {D W : Prop} {done : List Input}
    {s s' : SState} {i : Input} (h0 : SInv D W done s) (hi : Good i) (hr : ∀ p ∈ i.lgr.refs.refs, RefOk p)
    (hs : ∀ p ∈ s.m.lgr.refs.refs, RefOk p)
    (h : mergeOne ord valid s i = (s', .ok ())) : ∀ p ∈ s'.m.lgr.refs.refs, RefOk p := by
  unfold mergeOne at h
  generalize he : i.lgr.expandRanges i.db = r at h
  obtain ⟨g, o⟩ := r
  cases o with
  | error e => simp at h
  | ok u =>
    obtain ⟨e1, e2, -, e4⟩ := C30.expanded hi.wf hi.intact he
    dsimp only at h
    generalize hm : mergeReferences valid g.refs s.m.lgr.refs ((dget s.maps i.script).getD []) = r at h
    obtain ⟨⟨rm, map⟩, o⟩ := r
    cases o with
    | error e => simp at h
    | ok u =>
      dsimp only at h
      rw [e2] at hm
      generalize hc : mergeChars ord i g map s.prev { s.m with lgr := { s.m.lgr with refs := rm } } = r at h
      obtain ⟨m, o⟩ := r
      cases o with
      | error e => simp at h
      | ok u =>
        simp only [Prod.mk.injEq, and_true] at h
        have hps : Plain g := by
          intro k c hc
          rw [e4] at hc
          cases hl : i.lgr.rep.lookup k with
          | none => rw [hl] at hc; simp at hc
          | some d => rw [hl] at hc; simp at hc; rw [← hc]; rfl
        have hspec := mergeChars_spec (m := { s.m with lgr := { s.m.lgr with refs := rm } }) e1 hps h0.inv.wf
          h0.inv.plain hc
        have h1 : m.lgr.refs = rm := hspec.refs
        rw [← h]
        show ∀ p ∈ m.lgr.refs.refs, RefOk p
        rw [h1]
        exact refs_loop _ hs hr hm

theorem refs_set {ord : SetOrder} {valid : String → Bool} (l : List Input) :
    ∀ (done : List Input) (s s' : SState), SInv False False done s → (∀ i ∈ l, Good i ∧ ∀ p ∈ i.lgr.refs.refs, RefOk p) →
      (∀ p ∈ s.m.lgr.refs.refs, RefOk p) → forEach (mergeOne ord valid) s l = (s', .ok ()) →
      ∀ p ∈ s'.m.lgr.refs.refs, RefOk p := by
  induction l with
  | nil =>
    intro done s s' _ _ hs h
    simp only [forEach, Prod.mk.injEq, and_true] at h
    rw [← h]; exact hs
  | cons i l ih =>
    intro done s s' h0 hg hs h
    obtain ⟨s1, h1, h2⟩ := forEach_cons_ok h
    have hi := hg i (by simp)
    exact ih _ s1 s' (mergeOne_spec h0 hi.1 False.elim False.elim h1) (fun j hj => hg j (by simp [hj]))
      (refs_one h0 hi.1 hi.2 hs h1) h2

/-- The references of the merged LGR. -/
theorem refs_all {ord : SetOrder} {valid : String → Bool} {l : List Input} {s : SState}
    (hg : ∀ i ∈ l, Good i ∧ ∀ p ∈ i.lgr.refs.refs, RefOk p) (h : mergeAll ord valid l = (s, .ok ())) :
    ∀ p ∈ s.m.lgr.refs.refs, RefOk p := by
  have hp : (ordered l).Perm l := sortAsc_perm _ _
  exact refs_set (ordered l) [] {} s ⟨minv_nil _, by simp, fun _ => by intro p hp; exact absurd hp (by simp)⟩
    (fun i hi => hg i (hp.mem_iff.1 hi)) (by intro p hp; exact absurd hp (by simp)) h

theorem refs_meta {m : RefManager} (hn : (m.refs.map Prod.fst).Nodup) (h : ∀ p ∈ m.refs, RefOk p) :
    ((refsMeta m).map Prod.fst).Nodup ∧ (dget (refsMeta m) "").isSome = false ∧
    ∀ p ∈ refsMeta m, refIdOk p.1.toList = true ∧ xmlOk p.1 = true ∧ Fits p.2 ∧ p.2.note ≠ some "" := by
  have hfst : (refsMeta m).map Prod.fst = m.refs.map Prod.fst := by
    unfold refsMeta
    rw [List.map_map]; rfl
  refine ⟨by rw [hfst]; exact hn, ?_, ?_⟩
  · cases hd : dget (refsMeta m) "" with
    | none => rfl
    | some t =>
      obtain ⟨q, hq, he⟩ := List.mem_map.1 (mem_of_dget hd)
      simp only [Prod.mk.injEq] at he
      exact absurd he.1 (h q hq).named
  · intro p hp
    obtain ⟨q, hq, rfl⟩ := List.mem_map.1 hp
    have hk := h q hq
    refine ⟨hk.valid, xmlOk_id hk.valid, ⟨fun v hv => ?_, fun n hn => (hk.comment n hn).2⟩, fun hn => (hk.comment _ hn).1 rfl⟩
    dsimp only at hv
    split at hv
    · cases hv
    · rename_i hne
      cases hv
      exact hk.value.resolve_left hne

/-! ## Texts -/

theorem xmlOk_append {a b : String} (ha : xmlOk a = true) (hb : xmlOk b = true) : xmlOk (a ++ b) = true := by
  unfold xmlOk at *
  rw [String.toList_append, List.all_append, ha, hb]; rfl

/-- What holds of texts put together with a separator. -/
theorem join_all {p : Char → Prop} {sep : String} (hs : ∀ c ∈ sep.toList, p c) : ∀ (l : List String),
    (∀ s ∈ l, ∀ c ∈ s.toList, p c) → ∀ c ∈ (sep.intercalate l).toList, p c := by
  intro l
  induction l with
  | nil => intro _ c hc; rw [String.intercalate_nil] at hc; simp at hc
  | cons y l ih =>
    intro h c hc
    cases l with
    | nil => rw [String.intercalate_singleton] at hc; exact h y (by simp) c hc
    | cons z l =>
      rw [String.intercalate_cons_cons] at hc
      simp only [String.toList_append, List.mem_append] at hc
      rcases hc with (hc | hc) | hc
      · exact h y (by simp) c hc
      · exact hs c hc
      · exact ih (fun s hs => h s (List.mem_cons_of_mem _ hs)) c hc

theorem xmlOk_iff {s : String} : xmlOk s = true ↔ ∀ c ∈ s.toList, xmlChar c = true := by
  unfold xmlOk; rw [List.all_eq_true]

/-! ## The whole -/

/-- One of the LGRs has a version and one has a description; descriptions in HTML have no bracket that could be the end of
a CDATA section, and there is no carriage return in types of descriptions and first languages. -/
structure Told (gs : List Loaded) : Prop where
  version : ∃ g ∈ gs, ∃ v, g.md.version = some v ∧ v.value ≠ none
  description : ∃ g ∈ gs, g.md.description ≠ none
  html : ∀ g ∈ gs, ∀ d, g.md.description = some d → d.note = some "text/html" → ∀ v, d.value = some v → ']' ∉ v.toList
  types : ∀ g ∈ gs, ∀ d, g.md.description = some d → ∀ n, d.note = some n → '\r' ∉ n.toList
  scripts : ∀ g ∈ gs, '\r' ∉ (g.md.languages.headD "").toList

theorem Told.perm {gs gs' : List Loaded} (h : Told gs) (hp : gs'.Perm gs) : Told gs' := by
  refine ⟨?_, ?_, fun g hg => h.html g (hp.mem_iff.1 hg), fun g hg => h.types g (hp.mem_iff.1 hg),
    fun g hg => h.scripts g (hp.mem_iff.1 hg)⟩
  · obtain ⟨g, hg, h⟩ := h.version
    exact ⟨g, hp.mem_iff.2 hg, h⟩
  · obtain ⟨g, hg, h⟩ := h.description
    exact ⟨g, hp.mem_iff.2 hg, h⟩

theorem choice {α : Type} {f : α → α → α} {a b : Option α} (hf : ∀ x y, f x y = x ∨ f x y = y) {t : α}
    (h : Metadata.compareObjects f a b = some t) : a = some t ∨ b = some t := by
  cases a with
  | none => exact .inr h
  | some y =>
    cases b with
    | none => exact .inl h
    | some z =>
      simp only [Metadata.compareObjects, Option.some.injEq] at h
      rcases hf y z with e | e
      · exact .inl (by rw [← h, e])
      · exact .inr (by rw [← h, e])

theorem max_one (a b : List Char) : Metadata.pyMax a b = a ∨ Metadata.pyMax a b = b := by
  unfold Metadata.pyMax; split <;> simp

theorem min_one (a b : List Char) : Metadata.pyMin a b = a ∨ Metadata.pyMin a b = b := by
  unfold Metadata.pyMin; split <;> simp

theorem step_start : ∀ (l : List Metadata.Metadata) (o : Metadata.Metadata) (t : List Char),
    (l.foldl MergeXml.metaStep o).validityStart = some t → o.validityStart = some t ∨ ∃ m ∈ l, m.validityStart = some t := by
  intro l
  induction l with
  | nil => intro o t h; exact .inl h
  | cons m l ih =>
    intro o t h
    rcases ih _ t h with h | ⟨n, hn, h⟩
    · rcases choice max_one h with h | h
      · exact .inl h
      · exact .inr ⟨m, by simp, h⟩
    · exact .inr ⟨n, by simp [hn], h⟩

theorem step_end : ∀ (l : List Metadata.Metadata) (o : Metadata.Metadata) (t : List Char),
    (l.foldl MergeXml.metaStep o).validityEnd = some t → o.validityEnd = some t ∨ ∃ m ∈ l, m.validityEnd = some t := by
  intro l
  induction l with
  | nil => intro o t h; exact .inl h
  | cons m l ih =>
    intro o t h
    rcases ih _ t h with h | ⟨n, hn, h⟩
    · rcases choice min_one h with h | h
      · exact .inl h
      · exact .inr ⟨m, by simp, h⟩
    · exact .inr ⟨n, by simp [hn], h⟩

theorem step_unicode : ∀ (l : List Metadata.Metadata) (o : Metadata.Metadata) (t : List Char),
    o.unicodeVersion = some t → ∃ u, (l.foldl MergeXml.metaStep o).unicodeVersion = some u ∧
      (u = t ∨ ∃ m ∈ l, m.unicodeVersion = some u) := by
  intro l
  induction l with
  | nil => intro o t h; exact ⟨t, h, .inl rfl⟩
  | cons m l ih =>
    intro o t h
    have : ∃ u, (MergeXml.metaStep o m).unicodeVersion = some u ∧ (u = t ∨ m.unicodeVersion = some u) := by
      show ∃ u, Metadata.compareObjects Metadata.pyMax o.unicodeVersion m.unicodeVersion = some u ∧ _
      rw [h]
      cases hm : m.unicodeVersion with
      | none => exact ⟨t, rfl, .inl rfl⟩
      | some w =>
        refine ⟨_, rfl, ?_⟩
        rcases max_one t w with e | e
        · exact .inl e
        · exact .inr (by rw [e])
    obtain ⟨u, h1, h2⟩ := this
    obtain ⟨v, h3, h4⟩ := ih _ u h1
    refine ⟨v, h3, ?_⟩
    rcases h4 with rfl | ⟨n, hn, h4⟩
    · rcases h2 with h2 | h2
      · exact .inl h2
      · exact .inr ⟨m, by simp, h2⟩
    · exact .inr ⟨n, by simp [hn], h4⟩

theorem mem_plain {gs : List Loaded} {m : Metadata.Metadata} : m ∈ gs.map (fun g => plainMeta g.md) ↔
    ∃ g ∈ gs, m = plainMeta g.md := by
  rw [List.mem_map]
  exact ⟨fun ⟨g, hg, h⟩ => ⟨g, hg, h.symm⟩, fun ⟨g, hg, h⟩ => ⟨g, hg, h.symm⟩⟩

theorem full_infix {s t : String} (h : s.toList <:+: t.toList) (hs : s ≠ "") : t ≠ "" := by
  rintro rfl
  obtain ⟨a, b, e⟩ := h
  have : s.toList = [] := by
    have e' : a ++ s.toList ++ b = [] := e
    simp only [List.append_eq_nil_iff] at e'
    exact e'.1.2
  exact hs (by rw [← String.ofList_toList (s := s), this])

variable {x : MetaXml.Ctx} {today : String} {gs : List Loaded} {m : RefManager}

theorem mem_said {f : Metadata.Version → Option String} {l : List Metadata.Metadata} {s : String} :
    s ∈ C119.said f l ↔ ∃ p ∈ l, ∃ v, p.version = some v ∧ f v = some s ∧ s ≠ "" := by
  unfold C119.said
  rw [List.mem_flatMap]
  refine exists_congr fun p => and_congr_right fun _ => ?_
  unfold C119.said1
  cases p.version with
  | none => simp
  | some v =>
    dsimp only
    unfold C119.some1
    cases hv : f v with
    | none => simp [hv]
    | some t =>
      by_cases h0 : t = ""
      · subst h0
        simp [hv]
      · simp only [Option.some.injEq, exists_eq_left', hv]
        rw [if_neg h0, List.mem_singleton]
        constructor
        · rintro rfl; exact ⟨rfl, h0⟩
        · rintro ⟨h, -⟩; exact h.symm

theorem version_ok (hg : ∀ g ∈ gs, MGood x true g.md) (ht : Told gs) {v : MetaXml.Txt}
    (hv : (mergeMeta today gs m).version = some v) : Fits v := by
  obtain ⟨vs, cs, h1, h2, h3⟩ := C119.merged_version today.toList (gs.map (fun g => plainMeta g.md))
  have : (mergeMeta today gs m).version =
      some ⟨some ("|".intercalate vs), some ("|".intercalate cs)⟩ := by
    unfold mergeMeta metaOf
    rw [h3]; rfl
  rw [this] at hv
  cases hv
  have hvs : ∀ s ∈ vs, xmlOk s = true := by
    intro s hs
    obtain ⟨p, hp, w, hw, h4, h5⟩ := mem_said.1 ((h1.2.1 s).1 hs)
    obtain ⟨g, hgm, rfl⟩ := mem_plain.1 hp
    cases hgv : g.md.version with
    | none => rw [show (plainMeta g.md).version = g.md.version.map _ from rfl, hgv] at hw; cases hw
    | some u =>
      rw [show (plainMeta g.md).version = g.md.version.map _ from rfl, hgv] at hw
      cases hw
      cases h4
      cases huv : u.value with
      | none => dsimp only at h5; rw [huv] at h5; exact absurd rfl h5
      | some t => dsimp only; rw [huv]; exact (((hg g hgm).writable.version u hgv).1 t huv).2
  have hcs : ∀ s ∈ cs, xmlOk s = true := by
    intro s hs
    obtain ⟨p, hp, w, hw, h4, h5⟩ := mem_said.1 ((h2.2.1 s).1 hs)
    obtain ⟨g, hgm, rfl⟩ := mem_plain.1 hp
    cases hgv : g.md.version with
    | none => rw [show (plainMeta g.md).version = g.md.version.map _ from rfl, hgv] at hw; cases hw
    | some u =>
      rw [show (plainMeta g.md).version = g.md.version.map _ from rfl, hgv] at hw
      cases hw
      exact ((hg g hgm).writable.version u hgv).2 s h4
  refine ⟨fun t h => ?_, fun n h => ?_⟩
  · cases h
    refine ⟨?_, xmlOk_iff.2 (join_all (by decide +kernel) vs fun s hs => xmlOk_iff.1 (hvs s hs))⟩
    obtain ⟨g, hgm, u, hu, hn⟩ := ht.version
    obtain ⟨t, htv⟩ := Option.ne_none_iff_exists'.1 hn
    have hf := ((hg g hgm).writable.version u hu).1 t htv
    have hmem : t ∈ vs := (h1.2.1 t).2 (mem_said.2 ⟨plainMeta g.md, mem_plain.2 ⟨g, hgm, rfl⟩, ⟨u.value.getD "", u.note⟩,
      by rw [show (plainMeta g.md).version = g.md.version.map _ from rfl, hu]; rfl, by rw [htv]; rfl, hf.1⟩)
    exact full_infix (C119.infix_join _ _ _ hmem) hf.1
  · cases h
    exact xmlOk_iff.2 (join_all (by decide +kernel) cs fun s hs => xmlOk_iff.1 (hcs s hs))

/-- The characters of a description of the set. -/
theorem described (hg : ∀ g ∈ gs, MGood x true g.md) {q : String × Metadata.Description}
    (hq : q ∈ MergeXml.descriptions (gs.map (fun g => plainMeta g.md))) :
    ∃ g ∈ gs, ∃ d v, g.md.description = some d ∧ d.value = some v ∧ Full v ∧ '\r' ∉ v.toList ∧ q.2.value = v ∧
      q.2.type = d.note ∧ q.1 = g.md.languages.headD "" := by
  obtain ⟨s, D⟩ := q
  obtain ⟨p, hp, hd, rfl⟩ := C119.mem_descriptions.1 hq
  obtain ⟨g, hgm, rfl⟩ := mem_plain.1 hp
  cases hgd : g.md.description with
  | none => rw [show (plainMeta g.md).description = g.md.description.map _ from rfl, hgd] at hd; cases hd
  | some d =>
    rw [show (plainMeta g.md).description = g.md.description.map _ from rfl, hgd] at hd
    cases hd
    obtain ⟨hf, v, hv, hr, -⟩ := (hg g hgm).writable.description d hgd
    exact ⟨g, hgm, d, v, hgd, hv, hf.1 v hv, hr, by dsimp only; rw [hv]; rfl, rfl, rfl⟩

theorem merged_desc (today : List Char) (l : List Metadata.Metadata) :
    (MergeXml.mergeMetadata today l).description = some (MergeXml.mergeDescriptions l) := by
  show (l.foldl MergeXml.metaStep _).description = _
  rw [C119.step_description]

theorem description_ok (hg : ∀ g ∈ gs, MGood x true g.md) (ht : Told gs) :
    C140.DescOk (mergeMeta today gs m).description := by
  have hdesc : (mergeMeta today gs m).description =
      some ⟨some (MergeXml.mergeDescriptions (gs.map (fun g => plainMeta g.md))).value,
        (MergeXml.mergeDescriptions (gs.map (fun g => plainMeta g.md))).type⟩ := by
    show Option.map _ (MergeXml.mergeMetadata _ _).description = _
    rw [merged_desc]
    rfl
  obtain ⟨D, h1, -, -, h4, -⟩ := C119.merged_description today.toList (gs.map (fun g => plainMeta g.md))
  have h1' : MergeXml.mergeDescriptions (gs.map (fun g => plainMeta g.md)) = D := by
    have e : some (MergeXml.mergeDescriptions (gs.map (fun g => plainMeta g.md))) = some D := by
      rw [← h1, merged_desc]
    exact Option.some.inj e
  have hne : D.value ≠ "" := by
    obtain ⟨g, hgm, hn⟩ := ht.description
    obtain ⟨d, hd⟩ := Option.ne_none_iff_exists'.1 hn
    obtain ⟨hf, v, hv, -⟩ := (hg g hgm).writable.description d hd
    have := h4 (plainMeta g.md) (mem_plain.2 ⟨g, hgm, rfl⟩) ⟨fmt d.value, d.note⟩
      (by rw [show (plainMeta g.md).description = g.md.description.map _ from rfl, hd]; rfl)
    rw [hv] at this
    exact full_infix this (hf.1 v hv).1
  rw [hdesc]
  unfold MergeXml.mergeDescriptions at h1' ⊢
  dsimp only at h1' ⊢
  split at h1'
  · rename_i hall
    rw [if_pos hall]
    have key : ∀ c ∈ ("".intercalate ((MergeXml.descriptions (gs.map (fun g => plainMeta g.md))).map (fun p => p.2.value))).toList,
        xmlChar c = true ∧ c ≠ '\r' ∧ c ≠ ']' := by
      refine join_all (by simp) _ ?_
      intro s hs c hc
      obtain ⟨q, hq, rfl⟩ := List.mem_map.1 hs
      obtain ⟨g, hgm, d, v, e1, e2, e3, e4, e5, e6, -⟩ := described hg hq
      rw [e5] at hc
      have htype := of_decide_eq_true (List.all_eq_true.1 hall q hq)
      exact ⟨xmlOk_iff.1 e3.2 c hc, fun h => e4 (h ▸ hc), fun h => ht.html g hgm d e1 (by rw [← e6]; exact htype) v e2 (h ▸ hc)⟩
    refine C140.desc_of ⟨xmlOk_iff.2 fun c hc => (key c hc).1, fun h => (key _ h).2.1 rfl, fun h => ?_⟩
      (by decide +kernel) (by rw [← h1'] at hne; exact hne)
    exact (key ']' (h.subset (by simp [C140.cdataEnd]))).2.2 rfl
  · rename_i hall
    rw [if_neg hall]
    have key : ∀ c ∈ ("----\n".intercalate ((MergeXml.descriptions (gs.map (fun g => plainMeta g.md))).map MergeXml.describe)).toList,
        xmlChar c = true ∧ c ≠ '\r' := by
      refine join_all (by decide +kernel) _ ?_
      intro s hs
      obtain ⟨q, hq, rfl⟩ := List.mem_map.1 hs
      obtain ⟨g, hgm, d, v, e1, e2, e3, e4, e5, e6, e7⟩ := described hg hq
      have hscript : ∀ c ∈ (q.1).toList, xmlChar c = true ∧ c ≠ '\r' := by
        rw [e7]
        intro c hc
        refine ⟨?_, fun h => ht.scripts g hgm (h ▸ hc)⟩
        cases hl : g.md.languages with
        | nil => rw [hl] at hc; simp at hc
        | cons l ls =>
          rw [hl] at hc
          exact xmlOk_iff.1 ((hg g hgm).writable.languages l (by rw [hl]; simp)).1.2 c hc
      have htype : ∀ c ∈ (MergeXml.showOpt q.2.type).toList, xmlChar c = true ∧ c ≠ '\r' := by
        rw [e6]
        cases hn : d.note with
        | none => exact by decide +kernel
        | some n =>
          intro c hc
          exact ⟨xmlOk_iff.1 (((hg g hgm).writable.description d e1).1.2 n hn) c hc, fun h => ht.types g hgm d e1 n hn (h ▸ hc)⟩
      have hval : ∀ c ∈ (q.2.value).toList, xmlChar c = true ∧ c ≠ '\r' := by
        rw [e5]
        intro c hc
        exact ⟨xmlOk_iff.1 e3.2 c hc, fun h => e4 (h ▸ hc)⟩
      unfold MergeXml.describe
      intro c hc
      simp only [String.toList_append, List.mem_append] at hc
      rcases hc with (((((hc | hc) | hc) | hc) | hc) | hc) | hc
      · revert c; decide +kernel
      · exact hscript c hc
      · revert c; decide +kernel
      · exact htype c hc
      · revert c; decide +kernel
      · exact hval c hc
      · revert c; decide +kernel
    intro d hd
    cases hd
    refine ⟨⟨fun v hv => ?_, fun n hn => by cases hn; decide +kernel⟩, _, rfl, fun h => (key _ h).2 rfl, .inr (.inl rfl)⟩
    cases hv
    exact ⟨by rw [← h1'] at hne; exact hne, xmlOk_iff.2 fun c hc => (key c hc).1⟩

/-- The metadata of the merged LGR can be written and read. -/
theorem mgood_merged (hg : ∀ g ∈ gs, MGood x true g.md) (ht : Told gs) (hd : DateOk x true (some today))
    (hn : (m.refs.map Prod.fst).Nodup) (hr : ∀ p ∈ m.refs, RefOk p) : MGood x true (mergeMeta today gs m) := by
  obtain ⟨r1, r2, r3⟩ := refs_meta hn hr
  obtain ⟨l1, l2, l3⟩ := C119.merged_lists today.toList (gs.map (fun g => plainMeta g.md))
  refine ⟨⟨fun v hv => version_ok hg ht hv, ⟨?_, ?_, ?_⟩, ?_, ?_, ?_, ?_, description_ok hg ht, r1, r3⟩, fun _ => r2⟩
  · have : (mergeMeta today gs m).date = some today := by
      show Option.map String.ofList (MergeXml.mergeMetadata today.toList (gs.map (fun g => plainMeta g.md))).date = _
      rw [l3]
      show some (String.ofList today.toList) = _
      rw [String.ofList_toList]
    rw [this]
    exact hd
  · intro t h
    have h' : Option.map String.ofList (MergeXml.mergeMetadata today.toList (gs.map (fun g => plainMeta g.md))).validityStart =
      some t := h
    cases hv : (MergeXml.mergeMetadata today.toList (gs.map (fun g => plainMeta g.md))).validityStart with
    | none => rw [hv] at h'; cases h'
    | some u =>
      rw [hv] at h'
      cases h'
      rcases step_start _ _ u hv with h | ⟨p, hp, h⟩
      · cases h
      · obtain ⟨g, hgm, rfl⟩ := mem_plain.1 hp
        cases hgv : g.md.validityStart with
        | none => rw [show (plainMeta g.md).validityStart = g.md.validityStart.map _ from rfl, hgv] at h; cases h
        | some w =>
          rw [show (plainMeta g.md).validityStart = g.md.validityStart.map _ from rfl, hgv] at h
          cases h
          rw [String.ofList_toList]
          exact (hg g hgm).writable.dates.2.1 w hgv
  · intro t h
    have h' : Option.map String.ofList (MergeXml.mergeMetadata today.toList (gs.map (fun g => plainMeta g.md))).validityEnd =
      some t := h
    cases hv : (MergeXml.mergeMetadata today.toList (gs.map (fun g => plainMeta g.md))).validityEnd with
    | none => rw [hv] at h'; cases h'
    | some u =>
      rw [hv] at h'
      cases h'
      rcases step_end _ _ u hv with h | ⟨p, hp, h⟩
      · cases h
      · obtain ⟨g, hgm, rfl⟩ := mem_plain.1 hp
        cases hgv : g.md.validityEnd with
        | none => rw [show (plainMeta g.md).validityEnd = g.md.validityEnd.map _ from rfl, hgv] at h; cases h
        | some w =>
          rw [show (plainMeta g.md).validityEnd = g.md.validityEnd.map _ from rfl, hgv] at h
          cases h
          rw [String.ofList_toList]
          exact (hg g hgm).writable.dates.2.2 w hgv
  · obtain ⟨u, h1, h2⟩ := step_unicode (gs.map (fun g => plainMeta g.md))
      { version := some (MergeXml.mergeVersions (gs.map (fun g => plainMeta g.md))),
        description := some (MergeXml.mergeDescriptions (gs.map (fun g => plainMeta g.md))) } "6.3.0".toList rfl
    have hu : (mergeMeta today gs m).unicodeVersion = some (String.ofList u) := by
      show Option.map String.ofList (MergeXml.mergeMetadata today.toList (gs.map (fun g => plainMeta g.md))).unicodeVersion = _
      rw [show (MergeXml.mergeMetadata today.toList (gs.map (fun g => plainMeta g.md))).unicodeVersion = some u from h1]
      rfl
    refine ⟨_, hu, ?_, fun h => by cases h⟩
    rcases h2 with rfl | ⟨p, hp, h⟩
    · rw [String.ofList_toList]
      exact ⟨by decide +kernel, by decide +kernel⟩
    · obtain ⟨g, hgm, rfl⟩ := mem_plain.1 hp
      obtain ⟨w, hw, hf, -⟩ := (hg g hgm).writable.unicode
      rw [show (plainMeta g.md).unicodeVersion = g.md.unicodeVersion.map _ from rfl, hw] at h
      cases h
      rw [String.ofList_toList]
      exact hf
  · intro l hl
    have hl' : l ∈ (MergeXml.mergeMetadata today.toList (gs.map (fun g => plainMeta g.md))).languages := hl
    rw [l1.2.1, List.mem_flatMap] at hl'
    obtain ⟨p, hp, h⟩ := hl'
    obtain ⟨g, hgm, rfl⟩ := mem_plain.1 hp
    exact (hg g hgm).writable.languages l h
  · exact l1.1
  · intro t h
    obtain ⟨u, hu, rfl⟩ := List.mem_map.1 h
    rw [l2.2.1, List.mem_flatMap] at hu
    obtain ⟨p, hp, h⟩ := hu
    obtain ⟨g, hgm, rfl⟩ := mem_plain.1 hp
    obtain ⟨w, hw, rfl⟩ := List.mem_map.1 h
    have hf := (hg g hgm).writable.scopes w hw
    refine ⟨fun v hv => ?_, hf.2⟩
    dsimp only at hv
    split at hv
    · cases hv
    · rename_i hne
      cases hv
      cases hwv : w.value with
      | none => rw [hwv] at hne; exact absurd rfl hne
      | some t => exact hf.1 t hwv

end Lgr.Props.C143
