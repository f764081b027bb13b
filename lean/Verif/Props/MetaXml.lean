import Verif.MetaXml

/-!
# C99: the `<meta>` section read back
-/

namespace Lgr.Props.C99
open Lgr Xml Text MetaXml

/-! ## What is asked of the metadata -/

/-- A string that can be written and is not lost by being empty. -/
def Full (s : String) : Prop := s ≠ "" ∧ xmlOk s = true

/-- A value and its note can be written. -/
def Fits (t : Txt) : Prop := (∀ v, t.value = some v → Full v) ∧ ∀ n, t.note = some n → xmlOk n = true

/-- A date that the parser accepts as it is. -/
def DateOk (x : Ctx) (force : Bool) (d : Option String) : Prop :=
  ∀ t, d = some t → Full t ∧ date x t force = .ok t

/-- Metadata and references which can be written and which the parser, with this `force`, accepts. -/
structure Writable (x : Ctx) (force : Bool) (m : Meta) : Prop where
  version : ∀ v, m.version = some v → Fits v
  dates : DateOk x force m.date ∧ DateOk x force m.validityStart ∧ DateOk x force m.validityEnd
  unicode : ∃ t, m.unicodeVersion = some t ∧ Full t ∧ (force = false → versionMatch x.digit t.toList = true)
  languages : ∀ l ∈ m.languages, Full l ∧ ∃ ok, x.check l = some ok ∧ (force = false → ok = true)
  distinct : m.languages.Nodup
  scopes : ∀ s ∈ m.scopes, Fits s
  description : ∀ d, m.description = some d → Fits d ∧ ∃ v, d.value = some v ∧ '\r' ∉ v.toList ∧
    (d.note = none ∨ d.note = some "text/plain" ∨ ¬ [']', ']', '>'] <:+: v.toList)
  ids : (m.refs.map Prod.fst).Nodup
  refs : ∀ p ∈ m.refs, refIdOk p.1.toList = true ∧ xmlOk p.1 = true ∧ Fits p.2 ∧ p.2.note ≠ some ""

/-- What is assumed of `lxml`: a CDATA section without carriage return is read as it is. -/
def Faithful (x : Ctx) : Prop := ∀ s, '\r' ∉ s.toList → x.cdata s = s

/-! ## Loops -/

theorem forEach_app {σ α : Type} {f : σ → α → σ × Except Err Unit} {s s' : σ} {l : List α} (m : List α)
    (h : forEach f s l = (s', .ok ())) : forEach f s (l ++ m) = forEach f s' m := by
  induction l generalizing s with
  | nil => simp only [forEach, Prod.mk.injEq, and_true] at h; rw [← h]; rfl
  | cons a l ih =>
    simp only [forEach] at h
    rw [List.cons_append, forEach]
    split at h
    · simp at h
    · exact ih h

theorem crlf_id {s : List Char} (h : '\r' ∉ s) : crlf s = s := by
  induction s with
  | nil => rfl
  | cons c s ih =>
    cases s with
    | nil => rfl
    | cons d s =>
      rw [crlf, if_neg, ih]
      · exact fun h2 => h (List.mem_cons_of_mem _ h2)
      · rintro ⟨rfl, -⟩
        exact h List.mem_cons_self

theorem read_plain (x : Ctx) {o : Option String} (h : ∀ v, o = some v → Full v) :
    readText x (plainText o) = o := by
  cases o with
  | none => rfl
  | some v => simp [plainText, readText, (h v rfl).1]

theorem read_full (x : Ctx) {s : String} (h : Full s) : readText x (.plain s) = some s := by
  simp [readText, h.1]

theorem dget_optAttr (k : String) (o : Option String) : dget (optAttr k o) k = o := by
  cases o <;> simp [optAttr, dget]

/-! ## The elements one by one -/

variable {x : Ctx} {force : Bool} {P : Prop}

/-- What happens to the conformance results: under the condition `P` no check fails, and the result of
`explicit_unicode_version` stays. -/
def Kept (P : Prop) (s s' : MState) : Prop :=
  (P → ∀ l, dget s'.checks l = some false → dget s.checks l = some false) ∧
    dget s'.checks "explicit_unicode_version" = dget s.checks "explicit_unicode_version"

theorem Kept.same {s s' : MState} (h : s'.checks = s.checks) : Kept P s s' := by
  rw [Kept, h]; exact ⟨fun _ _ h => h, rfl⟩

theorem Kept.trans {s s' s'' : MState} (h : Kept P s s') (h2 : Kept P s' s'') : Kept P s s'' :=
  ⟨fun hf l hl => h.1 hf l (h2.1 hf l hl), h2.2.trans h.2⟩

theorem addTest_get (r : Rfc7940.Results) (k l : String) (b : Bool) (h : dget (Rfc7940.addTestResult r k b) l =
    some false) : dget r l = some false ∨ (l = k ∧ b = false) := by
  unfold Rfc7940.addTestResult at h
  split at h
  · rw [dget_dset] at h
    split at h
    · rename_i _ h2
      simp at h
      exact .inr ⟨h2.symm, h⟩
    · exact .inl h
  · exact .inl h

theorem addTest_other (r : Rfc7940.Results) {k l : String} (b : Bool) (h : k ≠ l) :
    dget (Rfc7940.addTestResult r k b) l = dget r l := by
  unfold Rfc7940.addTestResult
  split
  · rw [dget_dset, if_neg h]
  · rfl

theorem Kept.note {s : MState} (k : String) (b : Bool) (hk : k ≠ "explicit_unicode_version")
    (hb : P → b = true) : Kept P s (s.note k b) := by
  refine ⟨fun hf l hl => ?_, addTest_other _ _ hk⟩
  rcases addTest_get _ _ _ _ hl with h | h
  · exact h
  · rw [hb hf] at h; simp at h

/-- The elements are read without exception, and the metadata are `md` afterwards. -/
def Reads (P : Prop) (x : Ctx) (force : Bool) (s : MState) (es : List MElem) (md : Meta) (b : Bool) : Prop :=
  ∃ s', forEach (parseMetaElem x force) s es = (s', .ok ()) ∧ s'.md = md ∧ Kept P s s' ∧
    s'.found = (s.found || b)

theorem Reads.nil (s : MState) : Reads P x force s [] s.md false :=
  ⟨s, rfl, rfl, .same rfl, by simp⟩

theorem Reads.app {s : MState} {l m : List MElem} {md md' : Meta} {b b' : Bool} (h : Reads P x force s l md b)
    (h2 : ∀ s', s'.md = md → Reads P x force s' m md' b') : Reads P x force s (l ++ m) md' (b || b') := by
  obtain ⟨s1, e1, m1, k1, f1⟩ := h
  obtain ⟨s2, e2, m2, k2, f2⟩ := h2 s1 m1
  exact ⟨s2, by rw [forEach_app m e1, e2], m2, k1.trans k2, by rw [f2, f1, Bool.or_assoc]⟩

theorem Reads.one {s s' : MState} {e : MElem} (h : parseMetaElem x force s e = (s', .ok ()))
    (hk : Kept P s s') {b : Bool} (hf : s'.found = (s.found || b)) : Reads P x force s [e] s'.md b :=
  ⟨s', by rw [forEach, h]; rfl, rfl, hk, hf⟩

/-- One element, when nothing but the metadata change. -/
theorem Reads.plain {s : MState} {md : Meta} {e : MElem}
    (h : parseMetaElem x force s e = ({ s with md := md }, .ok ())) : Reads P x force s [e] md false :=
  Reads.one h (.same rfl) (by simp)

theorem reads_version (s : MState) (o : Option Txt) (h : ∀ v, o = some v → Fits v) (h0 : s.md.version = none) :
    Reads P x force s (versionElems o) { s.md with version := o } false := by
  cases o with
  | none =>
    have : { s.md with version := none } = s.md := by rw [← h0]
    rw [this]
    exact .nil s
  | some v =>
    apply Reads.plain
    simp [parseMetaElem, read_plain x (h v rfl).1, dget_optAttr]

theorem reads_date {o : Option String} (h : DateOk x force o) (md : Meta) (h0 : md.date = none) (s : MState)
    (hs : s.md = md) :
    Reads P x force s (optElem "date" o) { md with date := o } false := by
  subst hs
  cases o with
  | none =>
    have : { s.md with date := none } = s.md := by rw [← h0]
    rw [this]
    exact .nil s
  | some t =>
    apply Reads.plain
    simp [parseMetaElem, read_full x (h t rfl).1, parseDate, setDate, (h t rfl).2]

theorem reads_start {o : Option String} (h : DateOk x force o) (md : Meta) (h0 : md.validityStart = none) (s : MState)
    (hs : s.md = md) :
    Reads P x force s (optElem "validity-start" o) { md with validityStart := o } false := by
  subst hs
  cases o with
  | none =>
    have : { s.md with validityStart := none } = s.md := by rw [← h0]
    rw [this]
    exact .nil s
  | some t =>
    apply Reads.plain
    simp [parseMetaElem, read_full x (h t rfl).1, parseDate, setDate, (h t rfl).2]

theorem reads_end {o : Option String} (h : DateOk x force o) (md : Meta) (h0 : md.validityEnd = none) (s : MState)
    (hs : s.md = md) :
    Reads P x force s (optElem "validity-end" o) { md with validityEnd := o } false := by
  subst hs
  cases o with
  | none =>
    have : { s.md with validityEnd := none } = s.md := by rw [← h0]
    rw [this]
    exact .nil s
  | some t =>
    apply Reads.plain
    simp [parseMetaElem, read_full x (h t rfl).1, parseDate, setDate, (h t rfl).2]

theorem reads_unicode {t : String} (h : Full t)
    (hd : force = false → versionMatch x.digit t.toList = true)
    (hP : P → versionMatch x.digit t.toList = true) (md : Meta) (s : MState) (hs : s.md = md) :
    Reads P x force s (optElem "unicode-version" (some t)) { md with unicodeVersion := some t } true := by
  subst hs
  cases hv : versionMatch x.digit t.toList
  · have hf : force = true := by
      cases force
      · rw [hd rfl] at hv; cases hv
      · rfl
    have e : parseMetaElem x force s { tag := "unicode-version", text := .plain t } =
        ({ (({ s with md := { s.md with unicodeVersion := some t } } : MState).note "valid_unicode_version" false)
            with found := true }, .ok ()) := by
      simp [parseMetaElem, read_full x h, setUnicodeVersion, hv, hf]
    refine Reads.one e ?_ (by simp)
    exact (Kept.same (s := s) (s' := { s with md := { s.md with unicodeVersion := some t } }) rfl).trans
      ((Kept.note "valid_unicode_version" false (by decide) (fun hp => by rw [hP hp] at hv; cases hv)).trans (.same rfl))
  · have e : parseMetaElem x force s { tag := "unicode-version", text := .plain t } =
        ({ s with md := { s.md with unicodeVersion := some t }, found := true }, .ok ()) := by
      simp [parseMetaElem, read_full x h, setUnicodeVersion, hv]
    exact Reads.one e (.same rfl) (by simp)

theorem reads_languages (L : List String) (md : Meta)
    (h : ∀ l ∈ L, Full l ∧ ∃ ok, x.check l = some ok ∧ (force = false → ok = true))
    (hP : P → ∀ l ∈ L, x.check l = some true)
    (hn : (md.languages ++ L).Nodup) (s : MState) (hs : s.md = md) :
    Reads P x force s (L.map (fun l => { tag := "language", text := .plain l }))
      { md with languages := md.languages ++ L } false := by
  induction L generalizing s md with
  | nil => subst hs; simpa using Reads.nil s
  | cons l L ih =>
    subst hs
    obtain ⟨hl, ok, hc, hf⟩ := h l List.mem_cons_self
    have hnew : l ∉ s.md.languages := by
      rw [List.nodup_append] at hn
      exact fun hm => hn.2.2 l hm l List.mem_cons_self rfl
    have hadd : Metadata.addLanguage x.check s.md.languages l force = (s.md.languages ++ [l], .ok ()) := by
      unfold Metadata.addLanguage
      rw [hc]
      simp only
      rw [if_neg, if_neg hnew]
      rintro ⟨h1, h2⟩
      rw [hf h2] at h1; cases h1
    have step : Reads P x force s [{ tag := "language", text := .plain l }]
        { s.md with languages := s.md.languages ++ [l] } false := by
      cases ok
      · have hft : force = true := by
          cases force
          · cases hf rfl
          · rfl
        have e : parseMetaElem x force s { tag := "language", text := .plain l } =
            ({ (s.note "metadata_language" false).note "metadata_language" true with
              md := { s.md with languages := s.md.languages ++ [l] } }, .ok ()) := by
          rw [hft] at hadd
          simp [parseMetaElem, read_full x hl, parseLanguage, hc, hadd, hft, MState.note]
        refine Reads.one e ?_ (by simp [MState.note])
        exact (Kept.note "metadata_language" false (by decide)
          (fun hp => by have := hP hp l List.mem_cons_self; rw [hc] at this; cases this)).trans
          ((Kept.note "metadata_language" true (by decide) (by simp)).trans (.same rfl))
      · have e : parseMetaElem x force s { tag := "language", text := .plain l } =
            ({ s.note "metadata_language" true with
              md := { s.md with languages := s.md.languages ++ [l] } }, .ok ()) := by
          simp [parseMetaElem, read_full x hl, parseLanguage, hc, hadd, MState.note]
        refine Reads.one e ?_ (by simp [MState.note])
        exact (Kept.note "metadata_language" true (by decide) (by simp)).trans (.same rfl)
    have rest := Reads.app step (ih { s.md with languages := s.md.languages ++ [l] }
      (fun l' hl' => h l' (List.mem_cons_of_mem _ hl'))
      (fun hp l' hl' => hP hp l' (List.mem_cons_of_mem _ hl')) (by simpa using hn))
    simpa using rest

theorem reads_scopes (L : List Txt) (md : Meta) (h : ∀ t ∈ L, Fits t) (s : MState) (hs : s.md = md) :
    Reads P x force s
      (L.map (fun t => { tag := "scope", attrs := optAttr "type" t.note, text := plainText t.value }))
      { md with scopes := md.scopes ++ L } false := by
  induction L generalizing s md with
  | nil => subst hs; simpa using Reads.nil s
  | cons t L ih =>
    subst hs
    have step : Reads P x force s [{ tag := "scope", attrs := optAttr "type" t.note, text := plainText t.value }]
        { s.md with scopes := s.md.scopes ++ [t] } false := by
      apply Reads.plain
      simp [parseMetaElem, read_plain x (h t List.mem_cons_self).1, dget_optAttr]
    have rest := Reads.app step (ih { s.md with scopes := s.md.scopes ++ [t] }
      (fun l' hl' => h l' (List.mem_cons_of_mem _ hl')))
    simpa using rest

theorem dset_new {κ β : Type} [DecidableEq κ] (d : List (κ × β)) {k : κ} (v : β) (h : k ∉ d.map Prod.fst) :
    dset d k v = d ++ [(k, v)] := by
  induction d with
  | nil => rfl
  | cons p d ih =>
    obtain ⟨k', w⟩ := p
    simp only [List.map_cons, List.mem_cons, not_or] at h
    rw [dset, if_neg (fun h' => h.1 h'.symm), ih h.2]
    rfl

theorem refs_loop (L : List (String × Txt)) (s : MState)
    (h : ∀ p ∈ L, refIdOk p.1.toList = true ∧ xmlOk p.1 = true ∧ Fits p.2 ∧ p.2.note ≠ some "")
    (hn : ((s.md.refs ++ L).map Prod.fst).Nodup) :
    forEach (parseRef x) s (L.map refElem) =
      ({ s with md := { s.md with refs := s.md.refs ++ L } }, .ok ()) := by
  induction L generalizing s with
  | nil => simp [forEach]
  | cons p L ih =>
    obtain ⟨i, t⟩ := p
    obtain ⟨h1, -, h3, h4⟩ := h (i, t) List.mem_cons_self
    have hi : i ∉ s.md.refs.map Prod.fst := by
      rw [List.map_append, List.nodup_append] at hn
      exact fun hm => hn.2.2 i hm i (by simp) rfl
    have e : parseRef x s (refElem (i, t)) =
        ({ s with md := { s.md with refs := s.md.refs ++ [(i, t)] } }, .ok ()) := by
      have hc : dget (refElem (i, t)).1 "comment" = t.note := by
        cases hnote : t.note with
        | none => simp [refElem, hnote, dget]
        | some c =>
          have : c ≠ "" := by rintro rfl; exact h4 hnote
          simp [refElem, hnote, dget, this]
      have hid : dget (refElem (i, t)).1 "id" = some i := by simp [refElem, dget]
      have ht : readText x (refElem (i, t)).2 = t.value := read_plain x h3.1
      unfold parseRef
      rw [hc, hid, ht]
      have : (dget s.md.refs i).isSome = false := by
        rw [dget_eq_none.2 hi]; rfl
      simp [addReference, this, h1, dset_new _ _ hi]
    rw [List.map_cons, forEach, e]
    simp only
    rw [ih _ (fun p hp => h p (List.mem_cons_of_mem _ hp)) (by simpa using hn)]
    simp

theorem reads_refs (m : Meta) (md : Meta) (hmd : md.refs = []) (hi : (m.refs.map Prod.fst).Nodup)
    (h : ∀ p ∈ m.refs, refIdOk p.1.toList = true ∧ xmlOk p.1 = true ∧ Fits p.2 ∧ p.2.note ≠ some "")
    (s : MState) (hs : s.md = md) : Reads P x force s (refElems m) { md with refs := m.refs } false := by
  subst hs
  unfold refElems
  split
  · apply Reads.plain
    have := refs_loop (x := x) m.refs s h (by rw [hmd]; simpa using hi)
    rw [hmd] at this
    simp only [List.nil_append] at this
    simp [parseMetaElem, this]
  · rename_i hl
    have : m.refs = [] := by
      cases hr : m.refs with
      | nil => rfl
      | cons a l => simp [hr] at hl
    rw [this, ← hmd]
    exact .nil s

/-- The description as it is written. -/
theorem desc_some (m : Meta) (h : ∀ d, m.description = some d → ∃ v, d.value = some v) :
    ∃ es, descElems m = .ok es ∧ (m.description = none → es = []) ∧ ∀ d v, m.description = some d →
      d.value = some v → es = [⟨"description", optAttr "type" d.note,
        if d.note = none ∨ d.note = some "text/plain" then .plain v else .cdata v, []⟩] := by
  unfold descElems
  cases hd : m.description with
  | none => exact ⟨[], rfl, fun _ => rfl, by simp⟩
  | some d =>
    obtain ⟨v, hv⟩ := h d hd
    by_cases hn : d.note = none ∨ d.note = some "text/plain"
    · exact ⟨_, by simp [hn]; rfl, by simp, by
        rintro d' v' h1 h2
        cases h1
        rw [hv] at h2; cases h2
        simp [hv, hn, plainText]⟩
    · exact ⟨_, by simp [hn, hv]; rfl, by simp, by
        rintro d' v' h1 h2
        cases h1
        rw [hv] at h2; cases h2
        simp [hn]⟩

theorem reads_desc (hx : Faithful x) {m : Meta} {es : List MElem} (he : descElems m = .ok es)
    (h : ∀ d, m.description = some d → Fits d ∧ ∃ v, d.value = some v ∧ '\r' ∉ v.toList ∧
      (d.note = none ∨ d.note = some "text/plain" ∨ ¬ [']', ']', '>'] <:+: v.toList))
    (md : Meta) (hmd : md.description = none) (s : MState) (hs : s.md = md) :
    Reads P x force s es { md with description := m.description } false ∧ es.all MElem.ok = true := by
  obtain ⟨es', he', h1, h2⟩ := desc_some m (fun d hd => (h d hd).2.imp (fun _ h => h.1))
  rw [he] at he'
  cases he'
  subst hs
  cases hd : m.description with
  | none =>
    have : { s.md with description := none } = s.md := by rw [← hmd]
    rw [h1 hd, this]
    exact ⟨.nil s, rfl⟩
  | some d =>
    obtain ⟨hf, v, hv, hr, hc⟩ := h d hd
    have hfull := hf.1 v hv
    have hdv : d = ⟨some v, d.note⟩ := by rw [← hv]
    have ht : readText x (if d.note = none ∨ d.note = some "text/plain" then .plain v else .cdata v) = some v := by
      split
      · exact read_full x hfull
      · simp [readText, hfull.1, hx v hr]
    rw [h2 d v hd hv]
    constructor
    · apply Reads.plain
      simp [parseMetaElem, ht, crlf_id hr, dget_optAttr]
      exact hdv.symm
    · have hok : XText.ok (if d.note = none ∨ d.note = some "text/plain" then .plain v else .cdata v) = true := by
        split
        · exact hfull.2
        · rename_i hnn
          rcases hc with h | h | h
          · exact absurd (.inl h) hnn
          · exact absurd (.inr h) hnn
          · simp [XText.ok, hfull.2, h]
      have ha : (optAttr "type" d.note).all (fun p => xmlOk p.2) = true := by
        cases hnote : d.note with
        | none => rfl
        | some n => simpa [optAttr] using hf.2 n hnote
      simp [MElem.ok, hok, ha]

/-! ## Everything can be written -/

theorem ok_note {k : String} {t : Txt} (h : Fits t) : (optAttr k t.note).all (fun p => xmlOk p.2) = true := by
  cases hnote : t.note with
  | none => rfl
  | some n => simpa [optAttr] using h.2 n hnote

theorem ok_value {t : Txt} (h : Fits t) : (plainText t.value).ok = true := by
  cases hv : t.value with
  | none => rfl
  | some v => exact (h.1 v hv).2

theorem ok_opt {tag : String} {o : Option String} (h : ∀ t, o = some t → Full t) :
    (optElem tag o).all MElem.ok = true := by
  cases o with
  | none => rfl
  | some t => simpa [optElem, MElem.ok, XText.ok] using (h t rfl).2

theorem head_ok {m : Meta} (h : Writable x force m) : (headElems m).all MElem.ok = true := by
  unfold headElems
  simp only [List.all_append, Bool.and_eq_true]
  refine ⟨⟨⟨⟨⟨⟨?_, ok_opt fun t ht => (h.dates.1 t ht).1⟩, ok_opt fun t ht => (h.dates.2.1 t ht).1⟩,
    ok_opt fun t ht => (h.dates.2.2 t ht).1⟩, ok_opt ?_⟩, ?_⟩, ?_⟩
  · cases hv : m.version with
    | none => rfl
    | some v => simp [versionElems, MElem.ok, ok_note (h.version v hv), ok_value (h.version v hv)]
  · obtain ⟨t, ht, hf, -⟩ := h.unicode
    intro t' ht'
    rw [ht] at ht'; cases ht'
    exact hf
  · simp only [List.all_map, List.all_eq_true, Function.comp]
    intro l hl
    simp [MElem.ok, XText.ok, (h.languages l hl).1.2]
  · simp only [List.all_map, List.all_eq_true, Function.comp]
    intro t ht
    simp [MElem.ok, ok_note (h.scopes t ht), ok_value (h.scopes t ht)]

theorem refs_ok {m : Meta} (h : Writable x force m) : (refElems m).all MElem.ok = true := by
  unfold refElems
  split
  · have : ∀ p ∈ m.refs, ((refElem p).1.all (fun q => xmlOk q.2) && (refElem p).2.ok) = true := by
      intro p hp
      obtain ⟨-, h2, h3, -⟩ := h.refs p hp
      have hv := ok_value h3
      cases hn : p.2.note with
      | none => simp [refElem, hn, h2, hv]
      | some c =>
        have := h3.2 c hn
        by_cases hc : c = "" <;> simp [refElem, hn, h2, hv, hc, this]
    simpa [MElem.ok, XText.ok, List.all_map, List.all_eq_true] using this
  · rfl

/-- The version of Unicode and the languages pass the checks. -/
def Checked (x : Ctx) (m : Meta) : Prop :=
  (∀ t, m.unicodeVersion = some t → versionMatch x.digit t.toList = true) ∧
    ∀ l ∈ m.languages, x.check l = some true

theorem reads_all (hx : Faithful x) {m : Meta} (h : Writable x force m) {ds : List MElem}
    (hds : descElems m = .ok ds) (checks : Rfc7940.Results) :
    Reads (Checked x m) x force { checks := checks } (headElems m ++ ds ++ refElems m) { m with nextId := 0 } true := by
  obtain ⟨t, ht, hfull, hver⟩ := h.unicode
  have r1 : Reads (Checked x m) x force { checks := checks } _ { version := m.version } false :=
    reads_version ({ checks := checks } : MState) m.version h.version rfl
  have r2 : Reads (Checked x m) x force { checks := checks } (_ ++
      optElem "date" m.date)
      { version := m.version, date := m.date }
      _ := r1.app (reads_date h.dates.1 _ rfl)
  have r3 : Reads (Checked x m) x force { checks := checks } (_ ++
      optElem "validity-start" m.validityStart)
      { version := m.version, date := m.date, validityStart := m.validityStart }
      _ := r2.app (reads_start h.dates.2.1 _ rfl)
  have r4 : Reads (Checked x m) x force { checks := checks } (_ ++
      optElem "validity-end" m.validityEnd)
      { version := m.version, date := m.date, validityStart := m.validityStart, validityEnd := m.validityEnd }
      _ := r3.app (reads_end h.dates.2.2 _ rfl)
  have r5 : Reads (Checked x m) x force { checks := checks } (_ ++
      optElem "unicode-version" (some t))
      { version := m.version, date := m.date, validityStart := m.validityStart,
        validityEnd := m.validityEnd, unicodeVersion := some t }
      _ := r4.app (reads_unicode hfull hver (fun hp => hp.1 t ht) _)
  have r6 : Reads (Checked x m) x force { checks := checks } (_ ++
      m.languages.map (fun l => { tag := "language", text := .plain l }))
      { version := m.version, date := m.date, validityStart := m.validityStart,
        validityEnd := m.validityEnd, unicodeVersion := some t, languages := m.languages }
      _ := r5.app (reads_languages m.languages _ h.languages (fun hp => hp.2) h.distinct)
  have r7 : Reads (Checked x m) x force { checks := checks } (_ ++
      m.scopes.map (fun s => { tag := "scope", attrs := optAttr "type" s.note, text := plainText s.value }))
      { version := m.version, date := m.date, validityStart := m.validityStart,
        validityEnd := m.validityEnd, unicodeVersion := some t, languages := m.languages, scopes := m.scopes }
      _ := r6.app (reads_scopes m.scopes _ h.scopes)
  have r8 : Reads (Checked x m) x force { checks := checks } (_ ++
      ds)
      { version := m.version, date := m.date, validityStart := m.validityStart,
        validityEnd := m.validityEnd, unicodeVersion := some t, languages := m.languages, scopes := m.scopes, description := m.description }
      _ := r7.app (fun s hs => (reads_desc hx hds h.description _ rfl s hs).1)
  have r9 : Reads (Checked x m) x force { checks := checks } (_ ++
      refElems m)
      { version := m.version, date := m.date, validityStart := m.validityStart,
        validityEnd := m.validityEnd, unicodeVersion := some t, languages := m.languages, scopes := m.scopes, description := m.description, refs := m.refs }
      _ := r8.app (reads_refs m _ rfl h.ids h.refs)
  have hm : ({ m with nextId := 0 } : Meta) =
      { version := m.version, date := m.date, validityStart := m.validityStart, validityEnd := m.validityEnd,
        unicodeVersion := some t, languages := m.languages, scopes := m.scopes,
        description := m.description, refs := m.refs } := by
    rw [← ht]
  rw [hm]
  unfold headElems
  rw [ht]
  exact r9

/-- **C99** (partial) Metadata and references whose texts can be written and read, and which the parser
accepts, are written and read back as they were: version, dates, languages, scopes, version of Unicode,
description and references, in the same order. No conformance check fails if the version of Unicode and
the languages are valid, as they are for a parser without `force`. Missing: empty
texts, carriage returns, CDATA sections with `]]>`, no version of Unicode, repeated languages and empty
comments of references, for which it is false (`*_wrong`). -/
theorem meta_round_trip_partial (hx : Faithful x) {m : Meta} (h : Writable x force m)
    (checks : Rfc7940.Results) :
    ∃ es s', serializeMeta m = .ok es ∧ parseMeta x force checks es = (s', .ok ()) ∧
      s'.md = { m with nextId := 0 } ∧
      (Checked x m → ∀ l, dget s'.checks l = some false → dget checks l = some false) ∧
      (dget checks "explicit_unicode_version" = none →
        dget s'.checks "explicit_unicode_version" = some true) := by
  obtain ⟨ds, hds, -⟩ := desc_some m (fun d hd => (h.description d hd).2.imp (fun _ h => h.1))
  have hdok := (reads_desc (force := force) (P := True) hx hds h.description {} rfl {} rfl).2
  have hser : serializeMeta m = .ok (headElems m ++ ds ++ refElems m) := by
    unfold serializeMeta
    rw [if_neg (by rw [head_ok h]; simp), hds]
    simp [hdok, refs_ok h]
  obtain ⟨s', e, hm, hk, hf⟩ := reads_all hx h hds checks
  refine ⟨_, s'.note "explicit_unicode_version" s'.found, hser, ?_, hm, fun hff l hl => ?_, fun hn => ?_⟩
  · unfold parseMeta
    rw [e]
  · rcases addTest_get _ _ _ _ hl with h1 | h1
    · exact hk.1 hff l h1
    · rw [hf] at h1; simp at h1
  · have : dget s'.checks "explicit_unicode_version" = none := hk.2.trans hn
    simp [MState.note, Rfc7940.addTestResult, this, hf, dget_dset]

end Lgr.Props.C99
