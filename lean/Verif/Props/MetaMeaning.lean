import Verif.Props.MetaHistory
import Verif.Props.SchemaDoc

/-!
# C148: the metadata of a document are read exactly

What `<meta>` says is stated by the elements themselves: `last` of a kind, or all of a kind in order.
-/

namespace Lgr.Props.C148
open Lgr Xml Text MetaXml

/-! ## The specification -/

/-- A date of the calendar, written `YYYY-MM-DD`. -/
def DateText (o : Option String) : Prop := ∃ y m d, C61.IsDate y m d ∧ o = some (String.ofList (Metadata.iso (y, m, d)))

/-- A text which begins with a version `x.y.z`. -/
def VersionText (x : MetaXml.Ctx) (o : Option String) : Prop :=
  ∃ s v t, o = some s ∧ C100.IsVersion x.digit v ∧ s.toList = v ++ t

/-- A language tag which the library accepts. -/
def LanguageText (x : MetaXml.Ctx) (o : Option String) : Prop := ∃ l, o = some l ∧ x.check l = some true

/-- The characters of identifiers of references. -/
def IdChar (c : Char) : Prop := c ∈ ['-', '_', '.', ':'] ∨ ('0' ≤ c ∧ c ≤ '9') ∨ ('A' ≤ c ∧ c ≤ 'Z')

/-- An identifier, possibly with a line feed at the end. -/
def IdText (i : String) : Prop := ∃ t, (i.toList = t ∨ i.toList = t ++ ['\n']) ∧ ∀ c ∈ t, IdChar c

/-- The text of an element. -/
def text (x : MetaXml.Ctx) (e : MElem) : Option String := readText x e.text

/-- An element which can be read. -/
structure Fine (x : MetaXml.Ctx) (e : MElem) : Prop where
  date : e.tag = "date" ∨ e.tag = "validity-start" ∨ e.tag = "validity-end" → DateText (text x e)
  version : e.tag = "unicode-version" → VersionText x (text x e)
  language : e.tag = "language" → LanguageText x (text x e)
  description : e.tag = "description" → text x e ≠ none
  refs : e.tag = "references" → ∀ r ∈ e.refs, ∀ i, dget r.1 "id" = some i → IdText i

/-- The identifiers of the references in an element. -/
def idsOf (e : MElem) : List String := if e.tag = "references" then e.refs.map (fun r => (dget r.1 "id").getD "") else []

/-- A reference: identifier, text and comment. -/
def refOf (x : MetaXml.Ctx) (r : XAttrs × XText) : String × Txt :=
  ((dget r.1 "id").getD "", ⟨readText x r.2, dget r.1 "comment"⟩)

/-- The references in an element. -/
def refsOf (x : MetaXml.Ctx) (e : MElem) : List (String × Txt) := if e.tag = "references" then e.refs.map (refOf x) else []

/-- The last element of a kind. -/
def last (t : String) (es : List MElem) : Option MElem := (es.filter (fun e => e.tag = t)).getLast?

/-- The elements of a kind. -/
def all (t : String) (es : List MElem) : List MElem := es.filter (fun e => e.tag = t)

/-- What the elements say, when all are fine. -/
structure Says (x : MetaXml.Ctx) (es : List MElem) (md : Meta) : Prop where
  version : md.version = (last "version" es).map (fun e => ⟨text x e, dget e.attrs "comment"⟩)
  date : md.date = (last "date" es).bind (text x)
  start : md.validityStart = (last "validity-start" es).bind (text x)
  fin : md.validityEnd = (last "validity-end" es).bind (text x)
  unicode : md.unicodeVersion = if last "unicode-version" es = none then some "6.3.0" else (last "unicode-version" es).bind (text x)
  description : md.description = (last "description" es).map (fun e =>
    ⟨(text x e).map (fun t => String.ofList (crlf t.toList)), dget e.attrs "type"⟩)
  scopes : md.scopes = (all "scope" es).map (fun e => ⟨text x e, dget e.attrs "type"⟩)
  languages : md.languages.Nodup ∧ md.languages.Sublist ((all "language" es).filterMap (text x)) ∧
    ∀ l, l ∈ md.languages ↔ ∃ e ∈ all "language" es, text x e = some l
  refs : md.refs = es.flatMap (refsOf x)

/-! ## One element -/

/-- The metadata after an element. -/
def step (x : MetaXml.Ctx) (m : Meta) (e : MElem) : Meta :=
  { version := if e.tag = "version" then some ⟨text x e, dget e.attrs "comment"⟩ else m.version
    date := if e.tag = "date" then text x e else m.date
    languages := if e.tag = "language" then
      (if (text x e).getD "" ∈ m.languages then m.languages else m.languages ++ [(text x e).getD ""]) else m.languages
    scopes := if e.tag = "scope" then m.scopes ++ [⟨text x e, dget e.attrs "type"⟩] else m.scopes
    validityStart := if e.tag = "validity-start" then text x e else m.validityStart
    validityEnd := if e.tag = "validity-end" then text x e else m.validityEnd
    unicodeVersion := if e.tag = "unicode-version" then text x e else m.unicodeVersion
    description := if e.tag = "description" then
      some ⟨(text x e).map (fun t => String.ofList (crlf t.toList)), dget e.attrs "type"⟩ else m.description
    refs := m.refs ++ refsOf x e
    nextId := m.nextId }

variable {x : MetaXml.Ctx}

theorem id_iff (i : String) : refIdOk i.toList = true ↔ IdText i := by
  have ok : ∀ t : List Char, t.all (fun c => decide (c ∈ ['-', '_', '.', ':'] ∨ ('0' ≤ c ∧ c ≤ '9') ∨ ('A' ≤ c ∧ c ≤ 'Z'))) = true ↔
      ∀ c ∈ t, IdChar c := by
    intro t
    simp only [List.all_eq_true, decide_eq_true_eq]
    rfl
  unfold refIdOk IdText
  simp only [Bool.or_eq_true, Bool.and_eq_true, ok, decide_eq_true_eq]
  constructor
  · rintro (h | ⟨h1, h2⟩)
    · exact ⟨_, .inl rfl, h⟩
    · refine ⟨i.toList.dropLast, .inr ?_, h2⟩
      have hne : i.toList ≠ [] := by rintro h; rw [h] at h1; cases h1
      rw [List.getLast?_eq_some_getLast hne] at h1
      injection h1 with h1
      rw [← h1, List.dropLast_append_getLast]
  · rintro ⟨t, ht | ht, h⟩
    · rw [ht]; exact .inl h
    · rw [ht]; refine .inr ⟨by simp, by simpa using h⟩

theorem dset_new {β : Type} {d : List (String × β)} {k : String} (v : β) (h : (dget d k).isSome = false) :
    dset d k v = d ++ [(k, v)] := by
  induction d with
  | nil => rfl
  | cons p d ih =>
    obtain ⟨a, b⟩ := p
    unfold dget at h
    unfold dset
    split
    · rename_i hk
      simp [hk] at h
    · rename_i hk
      simp only [hk, if_false] at h
      rw [ih h]
      rfl

/-- References whose identifiers are given. -/
theorem refs_step : ∀ (rs : List (XAttrs × XText)) (s : MState), (∀ r ∈ rs, (dget r.1 "id").isSome = true) →
    (s.md.refs.map Prod.fst).Nodup →
    (((∀ r ∈ rs, ∀ i, dget r.1 "id" = some i → IdText i) ∧
        (s.md.refs.map Prod.fst ++ rs.map (fun r => (dget r.1 "id").getD "")).Nodup ∧
        ∃ s', forEach (parseRef x) s rs = (s', .ok ()) ∧ s'.md = { s.md with refs := s.md.refs ++ rs.map (refOf x) }) ∨
      (¬ ((∀ r ∈ rs, ∀ i, dget r.1 "id" = some i → IdText i) ∧
        (s.md.refs.map Prod.fst ++ rs.map (fun r => (dget r.1 "id").getD "")).Nodup) ∧
        ∃ s' e, forEach (parseRef x) s rs = (s', .error e)))
  | [], s, _, hn => by
    left
    refine ⟨by simp, by simpa using hn, s, rfl, by simp⟩
  | r :: rs, s, hid, hn => by
    obtain ⟨i, hi⟩ := Option.isSome_iff_exists.1 (hid r (by simp))
    simp only [forEach]
    unfold parseRef addReference
    simp only [hi]
    by_cases h1 : (dget s.md.refs i).isSome = true
    · right
      simp only [h1, if_true]
      refine ⟨?_, _, _, rfl⟩
      rintro ⟨-, h⟩
      rw [List.nodup_append] at h
      exact h.2.2 i (dget_isSome.1 h1) i (by simp [hi]) rfl
    · rw [if_neg h1]
      have h1' : (dget s.md.refs i).isSome = false := by simpa using h1
      by_cases h2 : refIdOk i.toList = false
      · right
        simp only [h2, if_true]
        refine ⟨?_, _, _, rfl⟩
        rintro ⟨h, -⟩
        have := (id_iff i).2 (h r (by simp) i hi)
        rw [h2] at this
        cases this
      · rw [if_neg h2]
        have h2' := (id_iff i).1 (by simpa using h2)
        dsimp only
        rw [dset_new _ h1']
        have hnew : ((s.md.refs ++ [(i, (⟨readText x r.2, dget r.1 "comment"⟩ : Txt))]).map Prod.fst).Nodup := by
          rw [List.map_append, List.nodup_append]
          refine ⟨hn, by simp, ?_⟩
          intro a ha b hb
          simp only [List.map_cons, List.map_nil, List.mem_singleton] at hb
          subst hb
          rintro rfl
          exact h1 (dget_isSome.2 ha)
        have hkeys : (s.md.refs ++ [(i, (⟨readText x r.2, dget r.1 "comment"⟩ : Txt))]).map Prod.fst ++
            rs.map (fun r => (dget r.1 "id").getD "") =
            s.md.refs.map Prod.fst ++ (r :: rs).map (fun r => (dget r.1 "id").getD "") := by simp [hi]
        rcases refs_step rs { s with md := { s.md with refs := s.md.refs ++ [(i, ⟨readText x r.2, dget r.1 "comment"⟩)] } }
          (fun q hq => hid q (List.mem_cons_of_mem _ hq)) hnew with ⟨h3, h4, s', h5, h6⟩ | ⟨h3, s', e, h5⟩
        · left
          dsimp only at h4
          rw [hkeys] at h4
          refine ⟨?_, h4, s', h5, ?_⟩
          · intro q hq j hj
            rcases List.mem_cons.1 hq with rfl | hq
            · rw [hi] at hj; cases hj; exact h2'
            · exact h3 q hq j hj
          · rw [h6]
            simp [refOf, hi]
        · right
          dsimp only at h3
          rw [hkeys] at h3
          refine ⟨?_, s', e, h5⟩
          rintro ⟨h, h'⟩
          exact h3 ⟨fun q hq => h q (List.mem_cons_of_mem _ hq), h'⟩

theorem date_iff (hi : C61.ReadsDigits x.pyInt) (t : String) :
    (date x t false = .ok t ∧ DateText (some t)) ∨ (¬ DateText (some t) ∧ ∃ e, date x t false = .error e) := by
  unfold date
  cases hv : Metadata.validateDate x.pyInt t.toList false with
  | ok r =>
    obtain ⟨rfl, y, m, d, h1, h2⟩ := (C61.validate_date_iff _ hi _ _).1 hv
    left
    refine ⟨by simp, y, m, d, h1, ?_⟩
    rw [← h2, String.ofList_toList]
  | error e =>
    right
    refine ⟨?_, e, rfl⟩
    rintro ⟨y, m, d, h1, h2⟩
    injection h2 with h2
    have := (C61.validate_date_iff _ hi t.toList t.toList).2 ⟨rfl, y, m, d, h1, by rw [h2, String.toList_ofList]⟩
    rw [hv] at this
    cases this

/-- All that one element needs. -/
def Good (x : MetaXml.Ctx) (m : Meta) (e : MElem) : Prop := Fine x e ∧ (m.refs.map Prod.fst ++ idsOf e).Nodup

theorem one (hi : C61.ReadsDigits x.pyInt) (hd : x.digit '.' = false) (s : MState) (e : MElem)
    (hid : e.tag = "references" → ∀ r ∈ e.refs, (dget r.1 "id").isSome = true) (hn : (s.md.refs.map Prod.fst).Nodup) :
    (Good x s.md e ∧ ∃ s', parseMetaElem x false s e = (s', .ok ()) ∧ s'.md = step x s.md e) ∨
    (¬ Good x s.md e ∧ ∃ s' er, parseMetaElem x false s e = (s', .error er)) := by
  have hmd : ∀ l b, (s.note l b).md = s.md := fun _ _ => rfl
  by_cases hdate : e.tag = "date" ∨ e.tag = "validity-start" ∨ e.tag = "validity-end"
  · have e1 : parseMetaElem x false s e = parseDate x false s e.tag (text x e) := by
      unfold parseMetaElem; rw [if_pos hdate]; rfl
    have hrf : refsOf x e = [] ∧ idsOf e = [] := by
      unfold refsOf idsOf; rcases hdate with h | h | h <;> rw [h] <;> simp
    have hgood : DateText (text x e) → Good x s.md e := by
      intro h
      refine ⟨⟨fun _ => h, ?_, ?_, ?_, ?_⟩, by rw [hrf.2]; simpa using hn⟩ <;> intro ht <;> rw [ht] at hdate <;> simp at hdate
    rw [e1]
    unfold parseDate
    cases ht : text x e with
    | none =>
      right
      refine ⟨?_, _, _, rfl⟩
      rintro ⟨h, -⟩
      obtain ⟨y, m, d, -, h⟩ := h.date hdate
      rw [ht] at h; cases h
    | some t =>
      dsimp only
      unfold setDate
      rcases date_iff hi t with ⟨h1, h2⟩ | ⟨h1, er, h2⟩
      · left
        rw [h1]
        refine ⟨hgood (ht ▸ h2), ?_⟩
        dsimp only
        rcases hdate with h | h | h <;> rw [h] <;> refine ⟨_, rfl, ?_⟩ <;> simp [step, h, hrf.1, ht]
      · right
        rw [h2]
        refine ⟨?_, _, _, rfl⟩
        rintro ⟨h, -⟩
        exact h1 (ht ▸ h.date hdate)
  have hdate' := hdate
  simp only [not_or] at hdate'
  obtain ⟨d1, d2, d3⟩ := hdate'
  by_cases huv : e.tag = "unicode-version"
  · have hrf : refsOf x e = [] ∧ idsOf e = [] := by unfold refsOf idsOf; rw [huv]; simp
    unfold parseMetaElem
    rw [if_neg hdate, if_pos huv]
    rw [show readText x e.text = text x e from rfl]
    cases ht : text x e with
    | none =>
      right
      refine ⟨?_, _, _, rfl⟩
      rintro ⟨h, -⟩
      obtain ⟨t, v, w, h, -⟩ := h.version huv
      rw [ht] at h; cases h
    | some t =>
      dsimp only
      by_cases hv : versionMatch x.digit t.toList = true
      · left
        have hset : setUnicodeVersion x s.md t false = ({ s.md with unicodeVersion := some t }, false, .ok ()) := by
          simp [setUnicodeVersion, hv]
        rw [hset]
        obtain ⟨v, w, h1, h2⟩ := (C100.versionMatch_iff hd _).1 hv
        refine ⟨⟨⟨fun h => absurd h hdate, fun _ => ⟨t, v, w, ht, h1, h2⟩, ?_, ?_, ?_⟩, by rw [hrf.2]; simpa using hn⟩, _, rfl, ?_⟩
        · intro h; rw [huv] at h; simp at h
        · intro h; rw [huv] at h; simp at h
        · intro h; rw [huv] at h; simp at h
        · simp [step, huv, ht, hrf.1]
      · right
        have hset : setUnicodeVersion x s.md t false = (s.md, true, .error (.format "INVALID_UNICODE_VERSION_TAG")) := by
          simp [setUnicodeVersion, hv]
        rw [hset]
        refine ⟨?_, _, _, rfl⟩
        rintro ⟨h, -⟩
        obtain ⟨t', v, w, h, h1, h2⟩ := h.version huv
        rw [ht] at h; cases h
        exact hv ((C100.versionMatch_iff hd _).2 ⟨v, w, h1, h2⟩)
  by_cases hver : e.tag = "version"
  · have hrf : refsOf x e = [] ∧ idsOf e = [] := by unfold refsOf idsOf; rw [hver]; simp
    left
    unfold parseMetaElem
    rw [if_neg hdate, if_neg huv, if_pos hver]
    refine ⟨⟨⟨fun h => absurd h hdate, fun h => absurd h huv, ?_, ?_, ?_⟩, by rw [hrf.2]; simpa using hn⟩, _, rfl, ?_⟩
    · intro h; rw [hver] at h; simp at h
    · intro h; rw [hver] at h; simp at h
    · intro h; rw [hver] at h; simp at h
    · simp [step, hver, text, hrf.1]
  by_cases hlang : e.tag = "language"
  · have hrf : refsOf x e = [] ∧ idsOf e = [] := by unfold refsOf idsOf; rw [hlang]; simp
    unfold parseMetaElem
    rw [if_neg hdate, if_neg huv, if_neg hver, if_pos hlang]
    rw [show readText x e.text = text x e from rfl]
    cases ht : text x e with
    | none =>
      right
      refine ⟨?_, _, _, rfl⟩
      rintro ⟨h, -⟩
      obtain ⟨t, h, -⟩ := h.language hlang
      rw [ht] at h; cases h
    | some l =>
      dsimp only
      unfold parseLanguage Metadata.addLanguage
      have hbad : x.check l ≠ some true → ¬ Good x s.md e := by
        rintro hc ⟨h, -⟩
        obtain ⟨l', h1, h2⟩ := h.language hlang
        rw [ht] at h1; cases h1
        exact hc h2
      cases hc : x.check l with
      | none => right; exact ⟨hbad (by rw [hc]; simp), _, _, rfl⟩
      | some b =>
        cases b with
        | false => right; exact ⟨hbad (by rw [hc]; simp), _, _, rfl⟩
        | true =>
          left
          refine ⟨⟨⟨fun h => absurd h hdate, fun h => absurd h huv, fun _ => ⟨l, ht, hc⟩, ?_, ?_⟩, by rw [hrf.2]; simpa using hn⟩, _, rfl, ?_⟩
          · intro h; rw [hlang] at h; simp at h
          · intro h; rw [hlang] at h; simp at h
          · simp [step, hlang, ht, hrf.1, MState.note]
  by_cases hsc : e.tag = "scope"
  · have hrf : refsOf x e = [] ∧ idsOf e = [] := by unfold refsOf idsOf; rw [hsc]; simp
    left
    unfold parseMetaElem
    rw [if_neg hdate, if_neg huv, if_neg hver, if_neg hlang, if_pos hsc]
    refine ⟨⟨⟨fun h => absurd h hdate, fun h => absurd h huv, fun h => absurd h hlang, ?_, ?_⟩, by rw [hrf.2]; simpa using hn⟩, _, rfl, ?_⟩
    · intro h; rw [hsc] at h; simp at h
    · intro h; rw [hsc] at h; simp at h
    · simp [step, hsc, text, hrf.1]
  by_cases hde : e.tag = "description"
  · have hrf : refsOf x e = [] ∧ idsOf e = [] := by unfold refsOf idsOf; rw [hde]; simp
    unfold parseMetaElem
    rw [if_neg hdate, if_neg huv, if_neg hver, if_neg hlang, if_neg hsc, if_pos hde]
    rw [show readText x e.text = text x e from rfl]
    cases ht : text x e with
    | none =>
      right
      refine ⟨?_, _, _, rfl⟩
      rintro ⟨h, -⟩
      exact h.description hde ht
    | some t =>
      left
      refine ⟨⟨⟨fun h => absurd h hdate, fun h => absurd h huv, fun h => absurd h hlang, fun _ => by rw [ht]; simp, ?_⟩,
        by rw [hrf.2]; simpa using hn⟩, _, rfl, ?_⟩
      · intro h; rw [hde] at h; simp at h
      · simp [step, hde, ht, hrf.1]
  by_cases href : e.tag = "references"
  · have hrf : refsOf x e = e.refs.map (refOf x) ∧ idsOf e = e.refs.map (fun r => (dget r.1 "id").getD "") := by
      unfold refsOf idsOf; rw [href]; simp
    unfold parseMetaElem
    rw [if_neg hdate, if_neg huv, if_neg hver, if_neg hlang, if_neg hsc, if_neg hde, if_pos href]
    rcases refs_step (x := x) e.refs s (hid href) hn with ⟨h1, h2, s', h3, h4⟩ | ⟨h1, s', er, h3⟩
    · left
      refine ⟨⟨⟨fun h => absurd h hdate, fun h => absurd h huv, fun h => absurd h hlang, fun h => absurd h hde, fun _ => h1⟩,
        by rw [hrf.2]; exact h2⟩, s', h3, ?_⟩
      rw [h4]
      simp [step, d1, d2, d3, huv, hver, hlang, hsc, hde, hrf.1]
    · right
      refine ⟨?_, s', er, h3⟩
      rintro ⟨h, h'⟩
      rw [hrf.2] at h'
      exact h1 ⟨h.refs href, h'⟩
  · left
    unfold parseMetaElem
    rw [if_neg hdate, if_neg huv, if_neg hver, if_neg hlang, if_neg hsc, if_neg hde, if_neg href]
    have hrf : refsOf x e = [] ∧ idsOf e = [] := by unfold refsOf idsOf; simp [href]
    refine ⟨⟨⟨fun h => absurd h hdate, fun h => absurd h huv, fun h => absurd h hlang, fun h => absurd h hde, fun h => absurd h href⟩,
      by rw [hrf.2]; simpa using hn⟩, _, rfl, ?_⟩
    simp [step, d1, d2, d3, huv, hver, hlang, hsc, hde, hrf.1, MState.note]

/-! ## All elements -/

theorem keys_step (m : Meta) (e : MElem) : (step x m e).refs.map Prod.fst = m.refs.map Prod.fst ++ idsOf e := by
  unfold step refsOf idsOf
  by_cases h : e.tag = "references" <;> simp [h, refOf, Function.comp_def]

theorem many (hi : C61.ReadsDigits x.pyInt) (hd : x.digit '.' = false) : ∀ (es : List MElem) (s : MState),
    (∀ e ∈ es, e.tag = "references" → ∀ r ∈ e.refs, (dget r.1 "id").isSome = true) → (s.md.refs.map Prod.fst).Nodup →
    (((∀ e ∈ es, Fine x e) ∧ (s.md.refs.map Prod.fst ++ es.flatMap idsOf).Nodup ∧
        ∃ s', forEach (parseMetaElem x false) s es = (s', .ok ()) ∧ s'.md = es.foldl (step x) s.md) ∨
      (¬ ((∀ e ∈ es, Fine x e) ∧ (s.md.refs.map Prod.fst ++ es.flatMap idsOf).Nodup) ∧
        ∃ s' er, forEach (parseMetaElem x false) s es = (s', .error er)))
  | [], s, _, hn => .inl ⟨by simp, by simpa using hn, s, rfl, rfl⟩
  | e :: es, s, hid, hn => by
    have hcat : ∀ l : List String, l ++ (e :: es).flatMap idsOf = (l ++ idsOf e) ++ es.flatMap idsOf := by simp
    simp only [forEach, hcat]
    rcases one hi hd s e (hid e (by simp)) hn with ⟨⟨h1, h2⟩, s1, h3, h4⟩ | ⟨h1, s1, er, h3⟩
    · rw [h3]
      dsimp only
      have hk : s1.md.refs.map Prod.fst = s.md.refs.map Prod.fst ++ idsOf e := by rw [h4, keys_step]
      rcases many hi hd es s1 (fun q hq => hid q (List.mem_cons_of_mem _ hq)) (by rw [hk]; exact h2) with
        ⟨h5, h6, s', h7, h8⟩ | ⟨h5, s', er, h7⟩
      · left
        rw [hk] at h6
        refine ⟨?_, h6, s', h7, ?_⟩
        · intro q hq
          rcases List.mem_cons.1 hq with rfl | hq
          · exact h1
          · exact h5 q hq
        · rw [h8, h4]; rfl
      · right
        rw [hk] at h5
        refine ⟨?_, s', er, h7⟩
        rintro ⟨h, h'⟩
        exact h5 ⟨fun q hq => h q (List.mem_cons_of_mem _ hq), h'⟩
    · right
      rw [h3]
      refine ⟨?_, s1, er, rfl⟩
      rintro ⟨h, h'⟩
      exact h1 ⟨h e (by simp), (List.nodup_append.1 h').1⟩

theorem last_cons (t : String) (e : MElem) (es : List MElem) :
    last t (e :: es) = (last t es).or (if e.tag = t then some e else none) := by
  unfold last
  by_cases h : e.tag = t
  · simp only [List.filter_cons, h, decide_true, if_true]
    cases hl : es.filter (fun e => e.tag = t) with
    | nil => simp
    | cons a l => simp [List.getLast?_cons]
  · simp [h]

/-- A field which the last element of a kind decides. -/
theorem field_last {β : Type} (get : Meta → β) (t : String) (f : MElem → β)
    (h : ∀ m e, get (step x m e) = if e.tag = t then f e else get m) : ∀ (es : List MElem) (m : Meta),
    get (es.foldl (step x) m) = ((last t es).map f).getD (get m)
  | [], m => rfl
  | e :: es, m => by
    rw [List.foldl_cons, field_last get t f h es, h, last_cons]
    cases last t es with
    | none => by_cases ht : e.tag = t <;> simp [ht]
    | some a => simp

/-- A field to which all elements contribute. -/
theorem field_all {β : Type} (get : Meta → List β) (f : MElem → List β) (h : ∀ m e, get (step x m e) = get m ++ f e) :
    ∀ (es : List MElem) (m : Meta), get (es.foldl (step x) m) = get m ++ es.flatMap f
  | [], m => by simp
  | e :: es, m => by
    rw [List.foldl_cons, field_all get f h es, h]
    simp

theorem langs : ∀ (es : List MElem) (m : Meta), (∀ e ∈ es, Fine x e) → m.languages.Nodup →
    (es.foldl (step x) m).languages.Nodup ∧
    (∃ l, (es.foldl (step x) m).languages = m.languages ++ l ∧ l.Sublist ((all "language" es).filterMap (text x))) ∧
    ∀ l, l ∈ (es.foldl (step x) m).languages ↔ l ∈ m.languages ∨ ∃ e ∈ all "language" es, text x e = some l
  | [], m, _, hn => ⟨hn, ⟨[], by simp, by simp⟩, by simp [all]⟩
  | e :: es, m, hf, hn => by
    rw [List.foldl_cons]
    by_cases ht : e.tag = "language"
    · obtain ⟨l, hl, -⟩ := (hf e (by simp)).language ht
      have ha : all "language" (e :: es) = e :: all "language" es := by simp [all, ht]
      have hs : (step x m e).languages = if l ∈ m.languages then m.languages else m.languages ++ [l] := by simp [step, ht, hl]
      rw [ha]
      by_cases hm : l ∈ m.languages
      · rw [if_pos hm] at hs
        obtain ⟨h1, ⟨k, h2, h3⟩, h4⟩ := langs es (step x m e) (fun q hq => hf q (List.mem_cons_of_mem _ hq)) (by rw [hs]; exact hn)
        refine ⟨h1, ⟨k, by rw [h2, hs], ?_⟩, ?_⟩
        · rw [List.filterMap_cons_some hl]; exact h3.cons _
        · intro j
          rw [h4, hs]
          constructor
          · rintro (h | ⟨q, hq, h⟩)
            · exact .inl h
            · exact .inr ⟨q, List.mem_cons_of_mem _ hq, h⟩
          · rintro (h | ⟨q, hq, h⟩)
            · exact .inl h
            · rcases List.mem_cons.1 hq with rfl | hq
              · rw [hl] at h; cases h; exact .inl hm
              · exact .inr ⟨q, hq, h⟩
      · rw [if_neg hm] at hs
        obtain ⟨h1, ⟨k, h2, h3⟩, h4⟩ := langs es (step x m e) (fun q hq => hf q (List.mem_cons_of_mem _ hq)) (by
          rw [hs, List.nodup_append]
          refine ⟨hn, by simp, ?_⟩
          rintro a ha b hb rfl
          simp only [List.mem_singleton] at hb
          exact hm (hb ▸ ha))
        refine ⟨h1, ⟨l :: k, by rw [h2, hs]; simp, ?_⟩, ?_⟩
        · rw [List.filterMap_cons_some hl]; exact h3.cons₂ _
        · intro j
          rw [h4, hs]
          constructor
          · rintro (h | ⟨q, hq, h⟩)
            · rcases List.mem_append.1 h with h | h
              · exact .inl h
              · simp only [List.mem_singleton] at h
                exact .inr ⟨e, by simp, h ▸ hl⟩
            · exact .inr ⟨q, List.mem_cons_of_mem _ hq, h⟩
          · rintro (h | ⟨q, hq, h⟩)
            · exact .inl (List.mem_append_left _ h)
            · rcases List.mem_cons.1 hq with rfl | hq
              · rw [hl] at h; cases h; exact .inl (by simp)
              · exact .inr ⟨q, hq, h⟩
    · have ha : all "language" (e :: es) = all "language" es := by simp [all, ht]
      have hs : (step x m e).languages = m.languages := by simp [step, ht]
      rw [ha]
      have := langs es (step x m e) (fun q hq => hf q (List.mem_cons_of_mem _ hq)) (by rw [hs]; exact hn)
      rw [hs] at this
      exact this

theorem says_of {es : List MElem} (hf : ∀ e ∈ es, Fine x e) : Says x es (es.foldl (step x) {}) := by
  refine ⟨?_, ?_, ?_, ?_, ?_, ?_, ?_, ?_, ?_⟩
  · rw [field_last (fun m => m.version) "version" (fun e => some ⟨text x e, dget e.attrs "comment"⟩) (fun _ _ => rfl)]
    cases last "version" es <;> rfl
  · rw [field_last (fun m => m.date) "date" (text x) (fun _ _ => rfl)]
    cases last "date" es <;> rfl
  · rw [field_last (fun m => m.validityStart) "validity-start" (text x) (fun _ _ => rfl)]
    cases last "validity-start" es <;> rfl
  · rw [field_last (fun m => m.validityEnd) "validity-end" (text x) (fun _ _ => rfl)]
    cases last "validity-end" es <;> rfl
  · rw [field_last (fun m => m.unicodeVersion) "unicode-version" (text x) (fun _ _ => rfl)]
    cases last "unicode-version" es <;> rfl
  · rw [field_last (fun m => m.description) "description"
      (fun e => some ⟨(text x e).map (fun t => String.ofList (crlf t.toList)), dget e.attrs "type"⟩) (fun _ _ => rfl)]
    cases last "description" es <;> rfl
  · rw [field_all (fun m => m.scopes) (fun e => if e.tag = "scope" then [⟨text x e, dget e.attrs "type"⟩] else [])
      (fun m e => by by_cases h : e.tag = "scope" <;> simp [step, h])]
    show [] ++ _ = _
    induction es with
    | nil => rfl
    | cons e es ih =>
      have := ih (fun q hq => hf q (List.mem_cons_of_mem _ hq))
      by_cases h : e.tag = "scope" <;> simp_all [all]
  · obtain ⟨h1, ⟨l, h2, h3⟩, h4⟩ := langs es {} hf (by simp)
    refine ⟨h1, ?_, fun l => by rw [h4]; simp⟩
    rw [h2]
    exact h3
  · rw [field_all (fun m => m.refs) (refsOf x) (fun _ _ => rfl)]
    rfl

/-- **C148** Without `force`, the section `<meta>` is read exactly when every date is a date of the calendar, the Unicode
version begins with a version, every language tag is accepted, no description is empty, and the identifiers of the
references are of the form required and different.
The metadata then are what the elements say. References have an identifier, as the schema requires. -/
theorem meta_means (hi : C61.ReadsDigits x.pyInt) (hd : x.digit '.' = false) (cs : Rfc7940.Results) (es : List MElem)
    (hid : ∀ e ∈ es, e.tag = "references" → ∀ r ∈ e.refs, (dget r.1 "id").isSome = true) :
    ((parseMeta x false cs es).2 = .ok () ↔ (∀ e ∈ es, Fine x e) ∧ (es.flatMap idsOf).Nodup) ∧
    ((parseMeta x false cs es).2 = .ok () → Says x es (parseMeta x false cs es).1.md) := by
  unfold parseMeta
  rcases many hi hd es { checks := cs } hid (by simp) with ⟨h1, h2, s', h3, h4⟩ | ⟨h1, s', er, h3⟩
  · rw [h3]
    refine ⟨⟨fun _ => ⟨h1, by simpa using h2⟩, fun _ => rfl⟩, fun _ => ?_⟩
    show Says x es s'.md
    rw [h4]
    exact says_of h1
  · rw [h3]
    refine ⟨⟨fun h => (by cases h), fun h => absurd ⟨h.1, by simpa using h.2⟩ h1⟩, fun h => (by cases h)⟩

/-- **C148** For a document which is valid for the schema. -/
theorem valid_meta_means {lx : Schema.Lex} {R : DocXml.Reader} {d : DocXml.Doc} {ms : List MElem} (hv : Schema.Valid lx R.x d)
    (hm : d.metaE = some ms) (hi : C61.ReadsDigits R.x.pyInt) (hd : R.x.digit '.' = false) (cs : Rfc7940.Results) :
    ((parseMeta R.x false cs ms).2 = .ok () ↔ (∀ e ∈ ms, Fine R.x e) ∧ (ms.flatMap idsOf).Nodup) ∧
    ((parseMeta R.x false cs ms).2 = .ok () → Says R.x ms (parseMeta R.x false cs ms).1.md) := by
  refine meta_means hi hd cs ms ?_
  intro e he ht r hr
  obtain ⟨i, h, -⟩ := ((C147.parts_of hv hm).elems e he).refs ht r hr
  rw [h]
  rfl

/-- The LGR which is read from a document has these metadata. -/
theorem document_meta {lx : Schema.Lex} {R : DocXml.Reader} {d : DocXml.Doc} {ms : List MElem} (hv : Schema.Valid lx R.x d)
    (hm : d.metaE = some ms) (hi : C61.ReadsDigits R.x.pyInt) (hd : R.x.digit '.' = false) (hf : R.force = false)
    (cs : Rfc7940.Results) {c' : Rfc7940.Results} {g : DocXml.Loaded} (h : DocXml.parseDoc R cs d = (c', .ok (some g))) :
    (∀ e ∈ ms, Fine R.x e) ∧ (ms.flatMap idsOf).Nodup ∧ Says R.x ms g.md := by
  obtain ⟨h1, h2⟩ := valid_meta_means hv hm hi hd cs
  unfold DocXml.parseDoc at h
  rw [hm, hf] at h
  dsimp only at h
  cases hp : parseMeta R.x false cs ms with
  | mk s o =>
    rw [hp] at h h1 h2
    cases o with
    | error e => simp at h
    | ok u =>
      dsimp only at h
      obtain ⟨h3, h4⟩ := h1.1 rfl
      have h5 := h2 rfl
      refine ⟨h3, h4, ?_⟩
      split at h
      · simp at h
      · split at h
        · simp at h
        · simp only [Prod.mk.injEq, Except.ok.injEq, Option.some.injEq] at h
          rw [← h.2]
          exact h5

/-! ## An example -/

/-- Metadata with all kinds of elements; the second date counts, the second language is the first one again. -/
def meta0 : List MElem :=
  [{ tag := "date", text := .plain "2023-12-31" }, { tag := "version", attrs := [("comment", "c")], text := .plain "1" },
   { tag := "language", text := .plain "en" }, { tag := "language", text := .plain "en" }, { tag := "date", text := .plain "2024-02-29" },
   { tag := "scope", attrs := [("type", "domain")], text := .plain "example" },
   { tag := "references", refs := [([("id", "A")], .plain "RFC 5646"), ([("id", "0"), ("comment", "x")], .plain "RFC 7940")] }]

example : (parseMeta C99.x0 false [] meta0).2 = .ok () ∧
    (∀ e ∈ meta0, e.tag = "references" → ∀ r ∈ e.refs, (dget r.1 "id").isSome = true) ∧
    (parseMeta C99.x0 false [] meta0).1.md.date = some "2024-02-29" ∧
    (parseMeta C99.x0 false [] meta0).1.md.languages = ["en"] ∧
    (parseMeta C99.x0 false [] meta0).1.md.unicodeVersion = some "6.3.0" ∧
    (parseMeta C99.x0 false [] meta0).1.md.refs.map Prod.fst = ["A", "0"] := by decide +kernel

/-! ## An empty description -/

/-- A document with an empty description. -/
def doc4 : DocXml.Doc := { C147.doc1 with metaE := some [{ tag := "description" }] }

/-- An empty description, which the schema admits, is not refused with an exception of the package: an `AttributeError` is
raised, whatever the parser, forced or not. -/
theorem empty_description_error (m : MetaXml.Ctx) : Schema.Valid C147.lex0 m doc4 ∧
    ∀ (R : DocXml.Reader) (cs : Rfc7940.Results), (DocXml.parseDoc R cs doc4).2 = .error .attributeError := by
  constructor
  · have hp := C147.parts_of (ms := [{ tag := "unicode-version", text := .plain "6.3.0" }]) (C147.doc1_valid m) rfl
    refine C147.valid_of ?_ (C147.data0_matches C147.char0_ok) hp.rules hp.unique
    refine C147.elem_nodes ?_
    have hE : Schema.Matches C147.lex0 Schema.defs (.optional (.elem "description" (.group (.optional (.attr "type" .text)) .text))) []
        [.node (Schema.metaNode m { tag := "description" })] :=
      .left (C147.elem_text (o := none) (C147.group_attrs (b := []) (.right .empty) (.text (by simp))))
    exact C147.inter_front (X := []) (.right .empty) (C147.inter_front (X := []) (.right .empty)
      (C147.inter_front (X := []) (.right .empty) (C147.inter_front (X := []) (.right .empty)
        (C147.inter_front (X := []) (.right .empty) (C147.inter_front (X := []) (.right .empty)
          (C147.inter_front (X := []) (.right .empty) (C147.inter_front (B := []) hE (.right .empty))))))))
  · intro R cs
    rfl

end Lgr.Props.C148
