import Verif.Props.Rfc7940Tool
import Verif.Props.DocXmlWrong

/-!
# C125: the verdict of `rfc7940_validate`
-/

namespace Lgr.Props.C125
open Lgr Rfc7940 Validate Checks DocXml Rfc7940Tool C52

/-! ## Notes -/

theorem none_iff (ns : List Note) (t : String) :
    dget (recorded [] ns) t = none ↔ Note.error t ∉ ns ∧ Note.tested t ∉ ns := by
  rw [recorded_get]
  by_cases h1 : Note.error t ∈ ns
  · simp [h1]
  · by_cases h2 : Note.tested t ∈ ns
    · simp [h1, h2]
    · simp [h1, h2, dget]

theorem false_iff (ns : List Note) (t : String) : dget (recorded [] ns) t = some false ↔ Note.error t ∈ ns := by
  rw [recorded_get]
  by_cases h1 : Note.error t ∈ ns
  · simp [h1]
  · by_cases h2 : Note.tested t ∈ ns
    · simp [h1, h2, dget]
    · simp [h1, h2, dget]

/-- The verdict, from the notifications. -/
theorem verdict_notes (ns : List Note) (pol : List (String × String)) :
    let bad := ∃ q ∈ pol, (Note.error q.1 ∉ ns ∧ Note.tested q.1 ∉ ns) ∨
      (Note.error q.1 ∈ ns ∧ q.2 ≠ "IGNORE" ∧ q.2 ≠ "WARNING")
    let soft := ∃ q ∈ pol, Note.error q.1 ∈ ns ∧ q.2 = "WARNING"
    (finalResult (recorded [] ns) (some pol) = .fail ↔ bad) ∧
    (finalResult (recorded [] ns) (some pol) = .warn ↔ ¬ bad ∧ soft) ∧
    (finalResult (recorded [] ns) (some pol) = .pass ↔ ¬ bad ∧ ¬ soft) := by
  intro bad soft
  obtain ⟨h1, h2⟩ := C12.policyLoop_eq (recorded [] ns) pol false false
  simp only [none_iff, false_iff, Bool.false_eq_true, false_or] at h1 h2
  have h1' : (policyLoop (recorded [] ns) pol (false, false)).1 = true ↔ bad := h1
  have h2' : (policyLoop (recorded [] ns) pol (false, false)).2 = true ↔ soft := h2
  simp only [finalResult]
  generalize policyLoop (recorded [] ns) pol (false, false) = s at h1' h2'
  obtain ⟨e, w⟩ := s
  simp only at h1' h2' ⊢
  cases e <;> cases w <;> simp at h1' h2' <;> simp [h1', h2']

/-! ## Requirements on a document -/

/-- There is a `language`, with a text. -/
def HasLanguage (x : MetaXml.Ctx) (ms : List MetaXml.MElem) : Prop :=
  ∃ e ∈ ms, e.tag = "language" ∧ ∃ l, MetaXml.readText x e.text = some l

/-- A `language` is not a language tag. -/
def BadLanguage (x : MetaXml.Ctx) (ms : List MetaXml.MElem) : Prop :=
  ∃ e ∈ ms, e.tag = "language" ∧ ∃ l, MetaXml.readText x e.text = some l ∧ x.check l ≠ some true

/-- The elements of `<meta>`, RFC 7940 section 4.3. -/
def metaTags : List String := ["version", "date", "language", "scope", "validity-start", "validity-end",
  "unicode-version", "description", "references"]

/-- An element of `<meta>` is not one of them. -/
def UnknownMeta (ms : List MetaXml.MElem) : Prop := ∃ e ∈ ms, e.tag ∉ metaTags

/-- The parser meets an element of `<rules>` that it does not handle. -/
def UnknownRule (S : Setup) (d : Doc) (g : Loaded) : Prop :=
  (RulesXml.parseRules S.reader.parser (newRules g.lgr, {}) (d.rules.getD [])).1.2.bad = true

/-- What is wrong, as far as reading the document tells. -/
def ReadWrong (S : Setup) (d : Doc) (ms : List MetaXml.MElem) (g : Loaded) (test : String) : Prop :=
  (test = "metadata_language" ∧ BadLanguage S.x ms) ∨
  (test = "char_ascending_order" ∧ Unordered (charCps d.data)) ∨
  (test = "codepoint_valid" ∧ Refused (S.db.map Db.valid) (newLgr S.reader g.md) d.data) ∨
  (test = "parse_xml" ∧ (UnknownMeta ms ∨ UnknownRule S d g ∨ Refused (S.db.map Db.valid) (newLgr S.reader g.md) d.data))

theorem metaNotes_mem (x : MetaXml.Ctx) (e : MetaXml.MElem) (n : Note) :
    n ∈ metaNotes x e ↔
      (e.tag = "unicode-version" ∧ n = .error "valid_unicode_version" ∧ ∃ t, MetaXml.readText x e.text = some t ∧
        MetaXml.versionMatch x.digit t.toList = false) ∨
      (e.tag = "language" ∧ ∃ l, MetaXml.readText x e.text = some l ∧ (n = .tested "metadata_language" ∨
        n = .error "metadata_language" ∧ x.check l ≠ some true)) ∨
      (e.tag ∉ metaTags ∧ n = .error "parse_xml") := by
  unfold metaNotes
  split
  · rename_i h
    rcases h with h | h | h <;> simp [h, metaTags]
  rename_i h1
  split
  · rename_i h
    cases ht : MetaXml.readText x e.text with
    | none => simp [h, metaTags]
    | some t =>
      by_cases hv : MetaXml.versionMatch x.digit t.toList = false <;> simp [h, hv, metaTags]
  rename_i h2
  split
  · rename_i h; simp [h, metaTags]
  rename_i h3
  split
  · rename_i h
    cases ht : MetaXml.readText x e.text with
    | none => simp [h, metaTags]
    | some t =>
      by_cases hv : x.check t = some true
      · simp [h, hv, metaTags]
      · simp only [h, hv, metaTags]
        simp
        tauto
  rename_i h4
  split
  · rename_i h; simp [h, metaTags]
  rename_i h5
  split
  · rename_i h; simp [h, metaTags]
  rename_i h6
  split
  · rename_i h; simp [h, metaTags]
  rename_i h7
  rw [not_or, not_or] at h1
  simp [h1, h2, h3, h4, h5, h6, h7, metaTags]

/-- The tests of the tool. -/
def Listed (t : String) : Prop := t ∈ policy.map Prod.fst

theorem listed_ne {t : String} (h : Listed t) : t ≠ "valid_unicode_version" ∧ t ≠ "explicit_unicode_version" := by
  constructor
  · rintro rfl; revert h; unfold Listed; decide
  · rintro rfl; revert h; unfold Listed; decide

theorem metas_error (x : MetaXml.Ctx) (ms : List MetaXml.MElem) {t : String} (ht : Listed t) :
    Note.error t ∈ ms.flatMap (metaNotes x) ↔ (t = "metadata_language" ∧ BadLanguage x ms) ∨
      (t = "parse_xml" ∧ UnknownMeta ms) := by
  rw [List.mem_flatMap]
  have hn := (listed_ne ht).1
  simp only [metaNotes_mem, Note.error.injEq, reduceCtorEq, false_or, hn, false_and, and_false]
  unfold BadLanguage UnknownMeta
  constructor
  · rintro ⟨e, he, ⟨h1, l, h2, h3, h4⟩ | ⟨h1, h2⟩⟩
    · exact .inl ⟨h3, e, he, h1, l, h2, h4⟩
    · exact .inr ⟨h2, e, he, h1⟩
  · rintro (⟨h3, e, he, h1, l, h2, h4⟩ | ⟨h2, e, he, h1⟩)
    · exact ⟨e, he, .inl ⟨h1, l, h2, h3, h4⟩⟩
    · exact ⟨e, he, .inr ⟨h1, h2⟩⟩

theorem metas_tested (x : MetaXml.Ctx) (ms : List MetaXml.MElem) (t : String) :
    Note.tested t ∈ ms.flatMap (metaNotes x) ↔ t = "metadata_language" ∧ HasLanguage x ms := by
  rw [List.mem_flatMap]
  simp only [metaNotes_mem, Note.tested.injEq, reduceCtorEq, false_and, and_false, or_false, false_or]
  unfold HasLanguage
  constructor
  · rintro ⟨e, he, h1, l, h2, h3⟩
    exact ⟨h3, e, he, h1, l, h2⟩
  · rintro ⟨h3, e, he, h1, l, h2⟩
    exact ⟨e, he, h1, l, h2, h3⟩

theorem unordered_nil (ks : List Seq) : Unordered ([] :: ks) ↔ Unordered ks := by
  constructor
  · rintro ⟨pre, p, k, post, h1, h2, h3⟩
    cases pre with
    | nil =>
      simp only [List.nil_append, List.cons.injEq] at h1
      rw [← h1.1] at h2
      exact absurd h2 (List.not_lt_nil _)
    | cons a pre =>
      simp only [List.cons_append, List.cons.injEq] at h1
      exact ⟨pre, p, k, post, h1.2, h2, h3⟩
  · rintro ⟨pre, p, k, post, h1, h2⟩
    exact ⟨[] :: pre, p, k, post, by rw [h1]; rfl, h2⟩

/-- What the notifications of reading a document are, for the tests of the tool (but for `char_strict_ascending_order`,
whose failure is ignored, it is only said that it is run). -/
structure ReadNotes (S : Setup) (d : Doc) (ms : List MetaXml.MElem) (g : Loaded) (ns : List Note) : Prop where
  error : ∀ t, Listed t → t ≠ "char_strict_ascending_order" → (Note.error t ∈ ns ↔ ReadWrong S d ms g t)
  tested : ∀ t, Listed t → (Note.tested t ∈ ns ↔ (t = "metadata_language" ∧ HasLanguage S.x ms) ∨
    t = "char_ascending_order" ∨ t = "char_strict_ascending_order" ∨ t = "parse_xml")

theorem read_notes {S : Setup} {d : Doc} {cs r : Results} {g : Loaded}
    (h : parseDoc S.reader cs d = (r, .ok (some g))) :
    ∃ ms, d.metaE = some ms ∧
      ((∀ e ∈ d.data, C104.ElemOk e) → (dget g.md.refs "").isSome = false →
        C104.Good (S.db.map Db.valid) true true (managerOf g.md) g.lgr) ∧
      ∃ ns, r = recorded cs ns ∧ ReadNotes S d ms g ns := by
  unfold parseDoc at h
  cases hms : d.metaE with
  | none =>
    rw [hms] at h
    simp only [Prod.mk.injEq] at h
    exfalso
    have h2 := h.2
    unfold orphan at h2
    split at h2
    · cases h2
    · split at h2
      · cases h2
      · cases h2
  | some ms =>
  rw [hms] at h
  dsimp only at h
  cases hpm : MetaXml.parseMeta S.reader.x S.reader.force cs ms with
  | mk ma o =>
  rw [hpm] at h
  cases o with
  | error e => simp at h
  | ok u =>
  dsimp only at h
  cases hpd : Xml.parseData S.reader.db S.reader.force { lgr := newLgr S.reader ma.md, checks := ma.checks } d.data with
  | mk p o =>
  rw [hpd] at h
  cases o with
  | error e => simp at h
  | ok u =>
  dsimp only at h
  cases hpr : RulesXml.parseRules S.reader.parser (newRules p.lgr, {}) (d.rules.getD []) with
  | mk rt o =>
  obtain ⟨ru, t⟩ := rt
  rw [hpr] at h
  cases o with
  | error e => simp at h
  | ok u =>
  simp only [Prod.mk.injEq, Except.ok.injEq, Option.some.injEq] at h
  obtain ⟨hr, rfl⟩ := h
  have hm := metaSection_checks hpm
  refine ⟨ms, rfl, fun hel hid => ?_, ?_⟩
  · refine C104.good_data (fun _ => ?_) (.inr (.inl rfl)) hel hpd
    rw [C104.manager_get]; exact hid
  · have hunk : UnknownRule S d { md := ma.md, lgr := p.lgr, rules := ru, ids := t.nextId } ↔ t.bad = true := by
      unfold UnknownRule
      dsimp only
      rw [hpr]
    unfold Xml.parseData at hpd
    cases hf : forEach (Xml.parseElem S.reader.db S.reader.force)
        { lgr := newLgr S.reader ma.md, checks := ma.checks, prev := [] } d.data with
    | mk p1 o =>
    rw [hf] at hpd
    cases o with
    | error e => simp at hpd
    | ok u =>
    simp only [Prod.mk.injEq, and_true] at hpd
    obtain ⟨ns, d1, d2, d3⟩ := (elems_notes d.data hf).ex
    dsimp only at d1 d2
    refine ⟨ms.flatMap (metaNotes S.x) ++
      [if ma.found then .tested "explicit_unicode_version" else .error "explicit_unicode_version"] ++ ns ++
      [.tested "char_ascending_order", .tested "char_strict_ascending_order"] ++
      (if t.bad then [.error "parse_xml"] else []) ++ [.tested "parse_xml"], ?_, ?_, ?_⟩
    · rw [← hr, ← hpd]
      rw [recorded_append, recorded_append, recorded_append, recorded_append]
      have hm' : ma.checks = recorded cs (ms.flatMap (metaNotes S.x) ++
          [if ma.found then .tested "explicit_unicode_version" else .error "explicit_unicode_version"]) := hm
      rw [← hm', ← d1]
      cases t.bad <;> rfl
    · intro test ht hns
      have hx := (listed_ne ht).2
      have he : Note.error test ∉ ([if ma.found then .tested "explicit_unicode_version"
          else .error "explicit_unicode_version"] : List Note) := by
        cases ma.found <;> simp [hx]
      have hb : Note.error test ∈ (if t.bad then [.error "parse_xml"] else [] : List Note) ↔
          test = "parse_xml" ∧ t.bad = true := by
        cases t.bad <;> simp
      simp only [List.mem_append, metas_error S.x ms ht, he, d2, hb, List.mem_cons, reduceCtorEq, List.not_mem_nil,
        or_false]
      have hord : test ∈ C34.orderNotes [] (charCps d.data) ↔ test = "char_ascending_order" ∧ Unordered (charCps d.data) := by
        constructor
        · intro h
          have : test = "char_ascending_order" := by
            rcases C104.orderNotes_labels _ _ test h with h' | h'
            · exact h'
            · exact absurd h' hns
          subst this
          exact ⟨rfl, (unordered_nil _).1 ((orderNotes_asc _ _).1 h)⟩
        · rintro ⟨rfl, h⟩
          exact (orderNotes_asc _ _).2 ((unordered_nil _).2 h)
      rw [hord]
      have href : Refused S.reader.db (newLgr S.reader ma.md) d.data ↔
          Refused (S.db.map Db.valid) (newLgr S.reader ma.md) d.data := Iff.rfl
      rw [href]
      unfold ReadWrong
      rw [hunk]
      dsimp only
      constructor
      · rintro (((⟨h1, h2⟩ | ⟨h1, h2⟩) | (⟨h1, h2⟩ | ⟨h1 | h1, h2⟩)) | ⟨h1, h2⟩)
        · exact .inl ⟨h1, h2⟩
        · exact .inr (.inr (.inr ⟨h1, .inl h2⟩))
        · exact .inr (.inl ⟨h1, h2⟩)
        · exact .inr (.inr (.inr ⟨h1, .inr (.inr h2)⟩))
        · exact .inr (.inr (.inl ⟨h1, h2⟩))
        · exact .inr (.inr (.inr ⟨h1, .inr (.inl h2)⟩))
      · rintro (⟨h1, h2⟩ | ⟨h1, h2⟩ | ⟨h1, h2⟩ | ⟨h1, h2 | h2 | h2⟩)
        · exact .inl (.inl (.inl ⟨h1, h2⟩))
        · exact .inl (.inr (.inl ⟨h1, h2⟩))
        · exact .inl (.inr (.inr ⟨.inr h1, h2⟩))
        · exact .inl (.inl (.inr ⟨h1, h2⟩))
        · exact .inr ⟨h1, h2⟩
        · exact .inl (.inr (.inr ⟨.inl h1, h2⟩))
    · intro test ht
      have hx := (listed_ne ht).2
      have he : Note.tested test ∉ ([if ma.found then .tested "explicit_unicode_version"
          else .error "explicit_unicode_version"] : List Note) := by
        cases ma.found <;> simp [hx]
      have hb : Note.tested test ∉ (if t.bad then [.error "parse_xml"] else [] : List Note) := by
        cases t.bad <;> simp
      simp only [List.mem_append, metas_tested S.x ms, he, d3, hb, List.mem_cons, Note.tested.injEq, List.not_mem_nil,
        or_false, or_assoc]

/-! ## The checks -/

theorem runChecks_notes {body : Check → Results → Results × Except Err Unit} {N : Check → List Note}
    {O : Check → Except Err Unit} (hb : ∀ c s, body c s = (recorded s (N c), O c)) :
    ∀ (cs : List Check) {s s' : Results} {l}, runChecks body cs s = (s', .ok l) →
      s' = recorded s (cs.flatMap N) ∧ ∀ c ∈ cs, ∀ e, O c = .error e → isLgrException e = true
  | [], s, s', l, h => by
    simp only [runChecks, Prod.mk.injEq] at h
    exact ⟨h.1.symm, by simp⟩
  | c :: cs, s, s', l, h => by
    rw [runChecks, hb c s] at h
    rw [List.flatMap_cons, recorded_append]
    cases ho : O c with
    | error e =>
      rw [ho] at h
      dsimp only at h
      split at h
      · rename_i he
        cases hr : runChecks body cs (recorded s (N c)) with
        | mk s2 o =>
        rw [hr] at h
        cases o with
        | error e' => simp at h
        | ok l' =>
        simp only [Prod.mk.injEq] at h
        obtain ⟨h1, h2⟩ := runChecks_notes hb cs hr
        refine ⟨h.1 ▸ h1, fun c' hc' e' he' => ?_⟩
        rcases List.mem_cons.1 hc' with rfl | hc'
        · rw [ho] at he'; cases he'; exact he
        · exact h2 c' hc' e' he'
      · simp at h
    | ok u =>
      rw [ho] at h
      dsimp only at h
      cases hr : runChecks body cs (recorded s (N c)) with
      | mk s2 o =>
      rw [hr] at h
      cases o with
      | error e' => simp at h
      | ok l' =>
      simp only [Prod.mk.injEq] at h
      obtain ⟨h1, h2⟩ := runChecks_notes hb cs hr
      refine ⟨h.1 ▸ h1, fun c' hc' e' he' => ?_⟩
      rcases List.mem_cons.1 hc' with rfl | hc'
      · rw [ho] at he'; cases he'
      · exact h2 c' hc' e' he'

/-- The notifications of a check. -/
def checkNotes (S : Setup) (g : Loaded) : Check → List Note
  | .symmetry => (checkSymmetry (S.db.map Db.valid) g.lgr false).1
  | .transitivity => (checkTransitivity (S.db.map Db.valid) g.lgr).1
  | .metadata => (metadataCheck S.world g.md).1
  | .miscellaneous =>
    (checkMisc S.world.digit S.x.pyInt S.db (g.md.unicodeVersion.map String.toList) g.rules.actions g.lgr.rep).1
  | _ => []

theorem body_notes (S : Setup) (g : Loaded) : ∀ c s, body S g c s = (recorded s (checkNotes S g c), (body S g c []).2) := by
  intro c s
  cases c <;> simp only [body, checkNotes, noted, recorded]
  · cases S.rng <;> rfl
  all_goals rfl

/-- A variant mapping is not symmetric. -/
def Asymmetric (g : LGR) : Prop :=
  ∃ a b, C26.Maps g a b ∧ ¬ ∃ w, C26.Maps g b.cp w ∧ w.cp = a

/-- A symmetric mapping has a context rule that no mapping back has. -/
def AsymmetricRule (g : LGR) : Prop :=
  ∃ a b, C26.Maps g a b ∧ (∃ w, C26.Maps g b.cp w ∧ w.cp = a) ∧
    (C26.Lacks g a b Variant.whenR ∨ C26.Lacks g a b Variant.notWhenR)

theorem symmetry_notes {db : UniDb} {g : LGR} (hwf : Repertoire.WF g.rep)
    (hi : ∀ a b, C26.Maps g a b → C50.IdnaOk db g b.cp) (t : String) :
    (Note.error t ∈ (checkSymmetry db g false).1 ↔
      (t = "basic_symmetry" ∧ Asymmetric g) ∨ (t = "strict_symmetry" ∧ AsymmetricRule g)) ∧
    (Note.tested t ∈ (checkSymmetry db g false).1 ↔ t = "basic_symmetry" ∨ t = "strict_symmetry") := by
  obtain ⟨r, hr⟩ := (C26.check_symmetry_returns_iff db g hwf false).2 (fun a b h _ => hi a b h)
  obtain ⟨acc, h1, -, -, h2⟩ := C26.checkSymmetry_form (s := r.1) (es := r.2) hr
  have h3 := (C26.symmetry_adds hwf h1).2.2
  rw [h2]
  simp only [List.mem_append, h3, List.mem_cons, reduceCtorEq, List.not_mem_nil, or_false, Note.error.injEq,
    Note.tested.injEq, and_false, exists_false, false_or, and_true]
  constructor
  · rintro ⟨a, b, k, hm, hw, -, rfl⟩
    cases hw with
    | outside ho =>
      refine .inl ⟨rfl, a, b, hm, ?_⟩
      rintro ⟨w, ⟨c, hc, _⟩, _⟩
      exact ho ⟨c, hc⟩
    | missing ho hn => exact .inl ⟨rfl, a, b, hm, fun ⟨w, h, h'⟩ => hn w h h'⟩
    | noWhen ho hb hl => exact .inr ⟨rfl, a, b, hm, hb, .inl hl⟩
    | noNotWhen ho hb _ hl => exact .inr ⟨rfl, a, b, hm, hb, .inr hl⟩
  · rintro (⟨rfl, a, b, hm, hn⟩ | ⟨rfl, a, b, hm, hb, hl⟩)
    · by_cases ho : C26.In g b.cp
      · exact ⟨a, b, _, hm, .missing ho (fun w h h' => hn ⟨w, h, h'⟩), .inl rfl, rfl⟩
      · exact ⟨a, b, _, hm, .outside ho, .inl rfl, rfl⟩
    · have ho : C26.In g b.cp := by
        obtain ⟨w, ⟨c, hc, _⟩, _⟩ := hb
        exact ⟨c, hc⟩
      by_cases hl1 : C26.Lacks g a b Variant.whenR
      · exact ⟨a, b, _, hm, .noWhen ho hb hl1, .inl rfl, rfl⟩
      · exact ⟨a, b, _, hm, .noNotWhen ho hb hl1 (hl.resolve_left hl1), .inl rfl, rfl⟩

/-- The variants of a variant of `a`, other than `a`, are not all variants of `a`. -/
def Intransitive (g : LGR) : Prop := ∃ a b c, C27.Gap g a b c

theorem transitivity_notes {db : UniDb} {g : LGR} (hwf : Repertoire.WF g.rep)
    (hi : ∀ a b, C26.Maps g a b → C50.IdnaOk db g b.cp) (t : String) :
    (Note.error t ∈ (checkTransitivity db g).1 ↔ t = "basic_transitivity" ∧ Intransitive g) ∧
    (Note.tested t ∈ (checkTransitivity db g).1 ↔ t = "basic_transitivity") := by
  obtain ⟨r, hr⟩ := (C27.check_transitivity_returns_iff db g hwf).2 hi
  obtain ⟨acc, h1, -, -, h2⟩ := C27.checkTransitivity_form (s := r.1) (es := r.2) hr
  have h3 := (C27.transitivity_adds hwf h1).2.2
  rw [h2]
  simp [h3, Intransitive]

/-- An action has a disposition that is not one of RFC 7940 section 7.3. -/
def BadDisposition (g : Loaded) : Prop :=
  ∃ a ∈ g.rules.actions, a.disp ∉ ["invalid", "blocked", "allocatable", "activated", "valid"]

/-- The Unicode version of the LGR. -/
def versionOf (g : Loaded) : Option (List Char) := g.md.unicodeVersion.map String.toList

/-- What is wrong with a document, by test. -/
def Unmet (S : Setup) (D : Db) (t : Nat × Nat × Nat) (d : Doc) (ms : List MetaXml.MElem) (g : Loaded) (test : String) :
    Prop :=
  ReadWrong S d ms g test ∨
  C71.Wrong S.world t (metadataOf g.md) test ∨
  (test = "standard_dispositions" ∧ BadDisposition g) ∨
  C70.Wrong (numeric S.world.digit) S.x.pyInt D (versionOf g) g.lgr.rep test ∨
  (test = "basic_symmetry" ∧ Asymmetric g.lgr) ∨
  (test = "strict_symmetry" ∧ AsymmetricRule g.lgr) ∨
  (test = "basic_transitivity" ∧ Intransitive g.lgr)

/-- The tests that are always run. -/
def Always (test : String) : Prop :=
  test ∈ C71.tests ∨ test ∈ ["char_ascending_order", "char_strict_ascending_order", "parse_xml", "basic_symmetry",
    "strict_symmetry", "basic_transitivity", "standard_dispositions", "ref_attribute_ascending"]

/-- All but an entry that is not in a range. -/
def HasSingle (g : Loaded) : Prop := C70.Entry g.lgr.rep fun c => c.range = none

/-- The surroundings of the tool are sensible. -/
structure Sane (S : Setup) (t : Nat × Nat × Nat) : Prop where
  ints : ∀ s, numeric S.world.digit s = true → ∃ i : Int, 0 ≤ i ∧ S.x.pyInt s = some i
  newline : S.world.digit '\n' = false
  date : C61.IsDate t.1 t.2.1 t.2.2
  today : S.world.today = Metadata.iso t

theorem misc_notes {digit : Char → Bool} {pyInt : List Char → Option Int} {D : Db} {uv : Option (List Char)}
    {actions : List Action} {r : Repertoire}
    (hp : ∀ s, numeric digit s = true → ∃ i : Int, 0 ≤ i ∧ pyInt s = some i) (h : Repertoire.WF r)
    (hi : Intact r)
    (hstd : ¬ ∃ a ∈ actions, a.disp ∉ ["invalid", "blocked", "allocatable", "activated", "valid"]) (t : String) :
    (Note.error t ∈ (checkMisc digit pyInt (some D) uv actions r).1 ↔ C70.Wrong (numeric digit) pyInt D uv r t) ∧
    (Note.tested t ∈ (checkMisc digit pyInt (some D) uv actions r).1 ↔ t = "standard_dispositions" ∨ C70.Run D uv r t) := by
  have hr := C70.rules_exact actions
  have hall : ∀ a ∈ actions, a.disp ∈ ["invalid", "blocked", "allocatable", "activated", "valid"] := by
    intro a ha
    by_contra hc
    exact hstd ⟨a, ha, hc⟩
  obtain ⟨e1, e2, -⟩ := C70.data_exact hp D uv h hi
  unfold checkMisc
  cases hc : checkRules actions with
  | mk ns b =>
  rw [hc] at hr
  obtain rfl : b = true := hr.1.2 hall
  dsimp only
  cases hd : checkData digit pyInt (some D) uv r with
  | mk ns' res =>
  rw [hd] at e1 e2
  dsimp only at e1 e2 hr ⊢
  simp only [List.mem_append, hr.2, e1, e2, reduceCtorEq, false_or, Note.error.injEq, Note.tested.injEq, false_and,
    or_false]
  constructor
  · constructor
    · rintro (⟨_, h⟩ | h)
      · exact absurd h hstd
      · exact h
    · exact .inr
  · trivial

theorem misc_nonstandard {digit : Char → Bool} {pyInt : List Char → Option Int} {D : Option Db} {uv : Option (List Char)}
    {actions : List Action} {r : Repertoire}
    (hstd : ∃ a ∈ actions, a.disp ∉ ["invalid", "blocked", "allocatable", "activated", "valid"]) :
    Note.error "standard_dispositions" ∈ (checkMisc digit pyInt D uv actions r).1 := by
  have hr := C70.rules_exact actions
  unfold checkMisc
  cases hc : checkRules actions with
  | mk ns b =>
  rw [hc] at hr
  have : Note.error "standard_dispositions" ∈ ns := (hr.2 _).2 (.inr ⟨rfl, hstd⟩)
  cases b
  · exact this
  · dsimp only
    exact List.mem_append_left _ this

/-! ## The verdict -/

/-- All the notifications of a run: those of reading, and those of the checks. -/
structure AllNotes (S : Setup) (D : Db) (t : Nat × Nat × Nat) (d : Doc) (ms : List MetaXml.MElem) (g : Loaded)
    (ns : List Note) : Prop where
  disp : BadDisposition g → Note.error "standard_dispositions" ∈ ns
  error : ¬ BadDisposition g → ∀ test, Listed test → test ≠ "char_strict_ascending_order" →
    (Note.error test ∈ ns ↔ Unmet S D t d ms g test)
  tested : ¬ BadDisposition g → ∀ test, Listed test → (Note.tested test ∈ ns ↔ Always test ∨ test = "schema" ∨
    (test = "metadata_language" ∧ HasLanguage S.x ms) ∨ (test = "data_variant_type" ∧ HasSingle g) ∨
    (test = "codepoint_valid" ∧ some D.version = versionOf g))

theorem good_maps {db : UniDb} {m : RefManager} {g : LGR} (h : C104.Good db true true m g) :
    ∀ a b, C26.Maps g a b → C50.IdnaOk db g b.cp := by
  rintro a b ⟨c, hc, hv⟩
  have h1 := ((h.inv.all a c hc).vars b hv).1
  unfold C50.IdnaOk
  intro hr valid hdb x hx
  exact h1 rfl valid hdb x hx

/-- What is known of the metadata of a document when `check_metadata` returns. -/
theorem metadata_notes {S : Setup} {t : Nat × Nat × Nat} (hs : Sane S t) {m : MetaXml.Meta} (hm : C59.Dated (metadataOf m))
    (hv : emptyVersion m = false) (test : String) :
    (Note.error test ∈ (metadataCheck S.world m).1 ↔ C71.Wrong S.world t (metadataOf m) test) ∧
    (Note.tested test ∈ (metadataCheck S.world m).1 ↔ test ∈ C71.tests) := by
  unfold metadataCheck
  rw [hv]
  have := C71.metadata_exact S.world hs.newline t hs.date hs.today (metadataOf m) hm
  exact ⟨this.1 test, this.2.1 test⟩

theorem validate_notes {S : Setup} {g : Loaded} {r r' : Results} (h : validate S g r = (r', .ok ())) :
    r' = recorded r (checkNotes S g .symmetry ++ checkNotes S g .transitivity ++ checkNotes S g .metadata ++
      checkNotes S g .miscellaneous) ∧ emptyVersion g.md = false := by
  unfold validate validateLgr at h
  simp only [if_true] at h
  cases hr : runChecks (body S g) (baseChecks ++ rfcChecks) r with
  | mk s o =>
  rw [hr] at h
  cases o with
  | error e => simp at h
  | ok l =>
  simp only [Prod.mk.injEq, and_true] at h
  obtain ⟨h1, h2⟩ := runChecks_notes (body_notes S g) _ hr
  refine ⟨?_, ?_⟩
  · rw [← h, h1]
    simp [baseChecks, rfcChecks, checkNotes]
  · cases he : emptyVersion g.md with
    | false => rfl
    | true =>
      have := h2 .metadata (by simp [rfcChecks]) .typeError (by
        simp [body, noted, metadataCheck, he, Except.map])
      simp [isLgrException] at this

theorem all_notes {S : Setup} {D : Db} {t : Nat × Nat × Nat} {d : Doc} {valid : Doc → Bool} (hs : Sane S t)
    (hdb : S.db = some D) (hrng : S.rng = some valid) (hvalid : valid d = true) {r r' : Results} {g : Loaded}
    (hel : ∀ e ∈ d.data, C104.ElemOk e) (hid : (dget g.md.refs "").isSome = false) (hm : C59.Dated (metadataOf g.md))
    (hp : parseLgr S d = (r, .ok (some g))) (hc : validate S g r = (r', .ok ())) :
    ∃ ms ns, d.metaE = some ms ∧ r' = recorded [] ns ∧ AllNotes S D t d ms g ns := by
  unfold parseLgr at hp
  rw [hrng] at hp
  dsimp only at hp
  rw [if_pos hvalid] at hp
  obtain ⟨ms, h1, h2, ns, h3, h4⟩ := read_notes hp
  have hg := h2 hel hid
  obtain ⟨h5, h6⟩ := validate_notes hc
  refine ⟨ms, [.tested "schema"] ++ ns ++ (checkNotes S g .symmetry ++ checkNotes S g .transitivity ++
    checkNotes S g .metadata ++ checkNotes S g .miscellaneous), h1, ?_, ?_, ?_, ?_⟩
  · rw [h5, h3]
    simp only [recorded_append]
    rfl
  · intro hb
    refine List.mem_append_right _ (List.mem_append_right _ ?_)
    exact misc_nonstandard hb
  all_goals
    intro hb test ht
    have a1 := symmetry_notes hg.inv.wf (good_maps hg) test
    have a2 := transitivity_notes hg.inv.wf (good_maps hg) test
    have a3 := metadata_notes hs hm h6 test
    have a4 := misc_notes (D := D) (uv := versionOf g) hs.ints hg.inv.wf hg.intact hb test
    unfold checkNotes
    rw [← hdb] at a4
  · intro hn
    rw [List.mem_append, List.mem_append, List.mem_append, List.mem_append, List.mem_append, a1.1, a2.1, a3.1,
      h4.error test ht hn]
    have a4' := a4.1
    unfold versionOf at a4'
    rw [a4']
    unfold Unmet versionOf
    constructor
    · rintro ((h | h) | (((h | h) | h) | h) | h)
      · simp at h
      · exact .inl h
      · exact .inr (.inr (.inr (.inr (.inl h))))
      · exact .inr (.inr (.inr (.inr (.inr (.inl h)))))
      · exact .inr (.inr (.inr (.inr (.inr (.inr h)))))
      · exact .inr (.inl h)
      · exact .inr (.inr (.inr (.inl h)))
    · rintro (h | h | h | h | h | h | h)
      · exact .inl (.inr h)
      · exact .inr (.inl (.inr h))
      · exact absurd h.2 hb
      · exact .inr (.inr h)
      · exact .inr (.inl (.inl (.inl (.inl h))))
      · exact .inr (.inl (.inl (.inl (.inr h))))
      · exact .inr (.inl (.inl (.inr h)))
  · rw [List.mem_append, List.mem_append, List.mem_append, List.mem_append, List.mem_append, a1.2, a2.2, a3.2,
      h4.tested test ht]
    have a4' := a4.2
    unfold versionOf at a4'
    rw [a4']
    have hv := (listed_ne ht).1
    unfold Always C70.Run versionOf HasSingle
    simp only [List.mem_singleton, Note.tested.injEq, List.mem_cons, List.not_mem_nil, or_false, hv, false_or]
    constructor
    · rintro ((h | h | h | h | h) | (((h | h) | h) | h) | h | h | h | h) <;> simp [h]
    · rintro ((h | h | h | h | h | h | h | h | h) | h | h | h | h) <;> simp [h]

/-- What the tool is to fail a document for. -/
def Fails (S : Setup) (D : Db) (t : Nat × Nat × Nat) (d : Doc) (ms : List MetaXml.MElem) (g : Loaded) : Prop :=
  ∃ test, (test, "ERROR") ∈ policy ∧ Unmet S D t d ms g test

/-- What the tool is to warn of. -/
def Warns (S : Setup) (D : Db) (t : Nat × Nat × Nat) (d : Doc) (ms : List MetaXml.MElem) (g : Loaded) : Prop :=
  ∃ test, (test, "WARNING") ∈ policy ∧ Unmet S D t d ms g test

/-- What makes the tool leave out a test. -/
def LeftOut (S : Setup) (D : Db) (ms : List MetaXml.MElem) (g : Loaded) : Prop :=
  ¬ HasLanguage S.x ms ∨ ¬ HasSingle g ∨ some D.version ≠ versionOf g

theorem policy_cases {q : String × String} (h : q ∈ policy) : Listed q.1 ∧ (q.2 = "ERROR" ∨ q.2 = "WARNING" ∨ q.2 = "IGNORE") ∧
    (q.1 = "char_strict_ascending_order" ↔ q.2 = "IGNORE") ∧
    (Always q.1 ∨ q = ("schema", "ERROR") ∨ q = ("metadata_language", "ERROR") ∨ q = ("data_variant_type", "ERROR") ∨
      q = ("codepoint_valid", "ERROR")) := by
  refine ⟨List.mem_map_of_mem h, ?_⟩
  unfold Always C71.tests
  revert q
  unfold policy
  simp

theorem all_verdict {S : Setup} {D : Db} {t : Nat × Nat × Nat} {d : Doc} {ms : List MetaXml.MElem} {g : Loaded}
    {ns : List Note} (h : AllNotes S D t d ms g ns) :
    (finalResult (recorded [] ns) (some policy) = .fail ↔ Fails S D t d ms g ∨ LeftOut S D ms g) ∧
    (finalResult (recorded [] ns) (some policy) = .warn ↔ ¬ (Fails S D t d ms g ∨ LeftOut S D ms g) ∧
      Warns S D t d ms g) := by
  obtain ⟨v1, v2, -⟩ := verdict_notes ns policy
  rw [v1, v2]
  by_cases hb : BadDisposition g
  · have hf : Fails S D t d ms g := ⟨"standard_dispositions", by decide, .inr (.inr (.inl ⟨rfl, hb⟩))⟩
    have hn : ∃ q ∈ policy, (Note.error q.1 ∉ ns ∧ Note.tested q.1 ∉ ns) ∨
        (Note.error q.1 ∈ ns ∧ q.2 ≠ "IGNORE" ∧ q.2 ≠ "WARNING") :=
      ⟨("standard_dispositions", "ERROR"), by decide, .inr ⟨h.disp hb, by decide, by decide⟩⟩
    exact ⟨⟨fun _ => .inl hf, fun _ => hn⟩, ⟨fun x => absurd hn x.1, fun x => absurd (.inl hf) x.1⟩⟩
  have he := h.error hb
  have ht := h.tested hb
  have key : (∃ q ∈ policy, (Note.error q.1 ∉ ns ∧ Note.tested q.1 ∉ ns) ∨
        (Note.error q.1 ∈ ns ∧ q.2 ≠ "IGNORE" ∧ q.2 ≠ "WARNING")) ↔ Fails S D t d ms g ∨ LeftOut S D ms g := by
    constructor
    · rintro ⟨q, hq, hq' | ⟨h1, h2, h3⟩⟩
      · obtain ⟨a1, a2, a3, a4⟩ := policy_cases hq
        rw [ht q.1 a1] at hq'
        obtain ⟨h1, h2⟩ := hq'
        simp only [not_or, not_and] at h2
        rcases a4 with a4 | rfl | rfl | rfl | rfl
        · exact absurd a4 h2.1
        · exact absurd rfl h2.2.1
        · exact .inr (.inl (h2.2.2.1 rfl))
        · exact .inr (.inr (.inl (h2.2.2.2.1 rfl)))
        · exact .inr (.inr (.inr (h2.2.2.2.2 rfl)))
      · obtain ⟨a1, a2, a3, a4⟩ := policy_cases hq
        refine .inl ⟨q.1, ?_, (he q.1 a1 (fun x => h2 (a3.1 x))).1 h1⟩
        have : q.2 = "ERROR" := by rcases a2 with a | a | a; exacts [a, absurd a h3, absurd a h2]
        rw [← this]; exact hq
    · rintro (⟨test, h1, h2⟩ | h)
      · obtain ⟨a1, a2, a3, a4⟩ := policy_cases h1
        have hne : test ≠ "char_strict_ascending_order" := fun x => by simpa using a3.1 x
        exact ⟨_, h1, .inr ⟨(he test a1 hne).2 h2, by simp, by simp⟩⟩
      · have aux : ∀ test, (test, "ERROR") ∈ policy → Note.tested test ∉ ns → ∃ q ∈ policy,
            (Note.error q.1 ∉ ns ∧ Note.tested q.1 ∉ ns) ∨
              (Note.error q.1 ∈ ns ∧ q.2 ≠ "IGNORE" ∧ q.2 ≠ "WARNING") := by
          intro test h1 h2
          by_cases h3 : Note.error test ∈ ns
          · exact ⟨_, h1, .inr ⟨h3, by simp, by simp⟩⟩
          · exact ⟨_, h1, .inl ⟨h3, h2⟩⟩
        have note : ∀ test, Always test → test ∉ ["metadata_language", "data_variant_type", "codepoint_valid"] := by
          intro test h
          unfold Always C71.tests at h
          simp only [List.mem_cons, List.not_mem_nil, or_false] at h
          rcases h with (h | h | h | h | h | h) | h | h | h | h | h | h | h | h <;> subst h <;> decide
        rcases h with h | h | h
        · refine aux "metadata_language" (by decide) ?_
          rw [ht _ (by unfold Listed; decide)]
          rintro (h' | h' | h' | h' | h')
          · exact note _ h' (by decide)
          · revert h'; decide
          · exact h h'.2
          · exact absurd h'.1 (by decide)
          · exact absurd h'.1 (by decide)
        · refine aux "data_variant_type" (by decide) ?_
          rw [ht _ (by unfold Listed; decide)]
          rintro (h' | h' | h' | h' | h')
          · exact note _ h' (by decide)
          · revert h'; decide
          · exact absurd h'.1 (by decide)
          · exact h h'.2
          · exact absurd h'.1 (by decide)
        · refine aux "codepoint_valid" (by decide) ?_
          rw [ht _ (by unfold Listed; decide)]
          rintro (h' | h' | h' | h' | h')
          · exact note _ h' (by decide)
          · revert h'; decide
          · exact absurd h'.1 (by decide)
          · exact absurd h'.1 (by decide)
          · exact h h'.2
  refine ⟨key, ?_⟩
  rw [key]
  refine and_congr_right fun _ => ?_
  constructor
  · rintro ⟨q, hq, h1, h2⟩
    obtain ⟨a1, a2, a3, a4⟩ := policy_cases hq
    have hne : q.1 ≠ "char_strict_ascending_order" := fun x => by
      have := a3.1 x; rw [h2] at this; revert this; decide
    refine ⟨q.1, ?_, (he q.1 a1 hne).1 h1⟩
    rw [← h2]; exact hq
  · rintro ⟨test, h1, h2⟩
    obtain ⟨a1, a2, a3, a4⟩ := policy_cases h1
    have hne : test ≠ "char_strict_ascending_order" := fun x => by simpa using a3.1 x
    exact ⟨_, h1, (he test a1 hne).2 h2, rfl⟩

/-- What is written for a verdict. -/
def Wrote (S : Setup) (out : String) (v : Verdict) : Prop :=
  ∃ info, out = info ++ word v ++ "\n" ∧ (S.quiet = true → info = "") ∧
    (S.quiet = false → ∃ ls : List String, info = text ls ++ "Validation result: " ∧ ls.length = policy.length)

theorem wrote_final (S : Setup) (r : Results) :
    Wrote S (finalText r policy (!S.quiet) ++ "\n") (finalResult r (some policy)) := by
  rw [text_exact]
  refine ⟨_, rfl, ?_, ?_⟩
  · intro h; simp [h]
  · intro h
    refine ⟨lines r policy, by simp [h], by simp [lines]⟩

theorem main_form {S : Setup} {d : Doc} {out : String} {r : Results} {g : Loaded} (h : main S d = .ok out)
    (hp : parseLgr S d = (r, .ok (some g))) :
    ∃ r', checked S g r = (r', .ok ()) ∧ out = finalText r' policy (!S.quiet) ++ "\n" := by
  unfold main at h
  rw [hp] at h
  dsimp only at h
  cases hc : checked S g r with
  | mk r' o =>
  rw [hc] at h
  cases o with
  | error e => simp at h
  | ok u => exact ⟨r', rfl, (Except.ok.inj h).symm⟩

/-- **C125** The verdict of the tool on a document that the schema accepts, that is read, and of which all the checks
return: FAIL exactly if a requirement with policy ERROR is not met or a test is left out, else WARN exactly if a
requirement with policy WARNING is not met, else PASS. -/
theorem verdict_exact {S : Setup} {D : Db} {t : Nat × Nat × Nat} {d : Doc} {valid : Doc → Bool} (hs : Sane S t)
    (hdb : S.db = some D) (hrng : S.rng = some valid) (hvalid : valid d = true) (htest : S.test = false)
    {r : Results} {g : Loaded} (hp : parseLgr S d = (r, .ok (some g)))
    (hel : ∀ e ∈ d.data, C104.ElemOk e) (hid : (dget g.md.refs "").isSome = false) (hm : C59.Dated (metadataOf g.md))
    {out : String} (h : main S d = .ok out) :
    ∃ ms v, d.metaE = some ms ∧ Wrote S out v ∧
      (v = .fail ↔ Fails S D t d ms g ∨ LeftOut S D ms g) ∧
      (v = .warn ↔ ¬ (Fails S D t d ms g ∨ LeftOut S D ms g) ∧ Warns S D t d ms g) := by
  obtain ⟨r', h1, rfl⟩ := main_form h hp
  unfold checked at h1
  rw [htest] at h1
  obtain ⟨ms, ns, h2, rfl, h3⟩ := all_notes hs hdb hrng hvalid hel hid hm hp h1
  exact ⟨ms, _, h2, wrote_final S _, all_verdict h3⟩

/-- **C125** Where the document states a language, has an entry that is not of a range, and is for the Unicode version
of the database, the verdict is that of the requirements. The last three hypotheses are what is missing for C125. -/
theorem verdict_partial {S : Setup} {D : Db} {t : Nat × Nat × Nat} {d : Doc} {valid : Doc → Bool} (hs : Sane S t)
    (hdb : S.db = some D) (hrng : S.rng = some valid) (hvalid : valid d = true) (htest : S.test = false)
    {r : Results} {g : Loaded} (hp : parseLgr S d = (r, .ok (some g)))
    (hel : ∀ e ∈ d.data, C104.ElemOk e) (hid : (dget g.md.refs "").isSome = false) (hm : C59.Dated (metadataOf g.md))
    {out : String} (h : main S d = .ok out) (hl : ∀ ms, d.metaE = some ms → HasLanguage S.x ms) (he : HasSingle g)
    (hv : some D.version = versionOf g) :
    ∃ ms v, d.metaE = some ms ∧ Wrote S out v ∧ (v = .fail ↔ Fails S D t d ms g) ∧
      (v = .warn ↔ ¬ Fails S D t d ms g ∧ Warns S D t d ms g) ∧
      (v = .pass ↔ ¬ Fails S D t d ms g ∧ ¬ Warns S D t d ms g) := by
  obtain ⟨ms, v, h1, h2, h3, h4⟩ := verdict_exact hs hdb hrng hvalid htest hp hel hid hm h
  have hn : ¬ LeftOut S D ms g := by
    rintro (h | h | h)
    · exact h (hl ms h1)
    · exact h he
    · exact h hv
  refine ⟨ms, v, h1, h2, ?_, ?_, ?_⟩
  · rw [h3]; exact ⟨fun h => h.resolve_right hn, .inl⟩
  · rw [h4]
    exact ⟨fun ⟨a, b⟩ => ⟨fun x => a (.inl x), b⟩, fun ⟨a, b⟩ => ⟨fun x => a (x.resolve_right hn), b⟩⟩
  · have := h3.not
    have := h4.not
    cases v <;> simp only [reduceCtorEq, false_iff, true_iff, not_or, not_and] at h3 h4 ⊢ <;> tauto

/-! ## Violations -/

/-- **C125 (violated)** A document without a `language` fails, whatever else; so does one with no entry outside ranges,
and one for another Unicode version than that of the database, a test of the policy not being executed. -/
theorem left_out_wrong {S : Setup} {D : Db} {t : Nat × Nat × Nat} {d : Doc} {valid : Doc → Bool} (hs : Sane S t)
    (hdb : S.db = some D) (hrng : S.rng = some valid) (hvalid : valid d = true) (htest : S.test = false)
    {r : Results} {g : Loaded} (hp : parseLgr S d = (r, .ok (some g)))
    (hel : ∀ e ∈ d.data, C104.ElemOk e) (hid : (dget g.md.refs "").isSome = false) (hm : C59.Dated (metadataOf g.md))
    {out : String} (h : main S d = .ok out)
    (hl : (∀ ms, d.metaE = some ms → ¬ HasLanguage S.x ms) ∨ ¬ HasSingle g ∨ some D.version ≠ versionOf g) :
    Wrote S out .fail := by
  obtain ⟨ms, v, h1, h2, h3, h4⟩ := verdict_exact hs hdb hrng hvalid htest hp hel hid hm h
  have : v = .fail := h3.2 (.inr (by
    rcases hl with hl | hl | hl
    · exact .inl (hl ms h1)
    · exact .inr (.inl hl)
    · exact .inr (.inr hl)))
  rw [← this]; exact h2

theorem read_absent {S : Setup} {d : Doc} {cs r : Results} {g : Loaded} (h : parseDoc S.reader cs d = (r, .ok (some g)))
    {test : String} (ht : test ∈ ["schema", "validity_end_expiry"]) (hc : dget cs test = none) : dget r test = none := by
  obtain ⟨ms, -, -, ns, rfl, hn⟩ := read_notes h
  have hL : Listed test := by
    unfold Listed
    simp only [List.mem_cons, List.not_mem_nil, or_false] at ht
    rcases ht with rfl | rfl <;> decide
  have e : Note.error test ∉ ns := by
    rw [hn.error test hL (by rintro rfl; revert ht; decide)]
    unfold ReadWrong
    rintro (h | h | h | h) <;> obtain ⟨rfl, _⟩ := h <;> revert ht <;> decide
  have f : Note.tested test ∉ ns := by
    rw [hn.tested test hL]
    rintro (⟨rfl, _⟩ | rfl | rfl | rfl) <;> revert ht <;> decide
  rw [recorded_get, if_neg e, if_neg f, hc]
  
theorem fail_of_absent {S : Setup} {r : Results} {q : String × String} (hq : q ∈ policy) (h : dget r q.1 = none) :
    Wrote S (finalText r policy (!S.quiet) ++ "\n") .fail := by
  have := wrote_final S r
  have hv : finalResult r (some policy) = .fail := by
    obtain ⟨h1, -⟩ := C12.policyLoop_eq r policy false false
    have := h1.2 (.inr ⟨q, hq, .inl h⟩)
    simp only [finalResult]
    rw [if_pos this]
  rw [hv] at this
  exact this

theorem main_cases {S : Setup} {d : Doc} {out : String} (h : main S d = .ok out) :
    out = "FAIL\n" ∨ ∃ r g, parseLgr S d = (r, .ok (some g)) := by
  unfold main at h
  cases hp : parseLgr S d with
  | mk r o =>
  rw [hp] at h
  cases o with
  | error e => simp at h
  | ok o =>
  cases o with
  | none => exact .inl (Except.ok.inj h).symm
  | some g => exact .inr ⟨r, g, rfl⟩

/-- **C125 (violated)** With `-t` ("Skip LGR validation"), no document passes. -/
theorem skip_wrong {S : Setup} {d : Doc} {out : String} (ht : S.test = true) (h : main S d = .ok out) :
    out = "FAIL\n" ∨ Wrote S out .fail := by
  refine (main_cases h).imp_right ?_
  rintro ⟨r, g, hp⟩
  obtain ⟨r', h1, rfl⟩ := main_form h hp
  unfold checked at h1
  rw [ht] at h1
  simp only [if_true, Prod.mk.injEq, and_true] at h1
  subst h1
  refine fail_of_absent (q := ("validity_end_expiry", "ERROR")) (by decide) ?_
  unfold parseLgr at hp
  split at hp
  · exact read_absent hp (by decide) rfl
  · split at hp
    · exact read_absent hp (by decide) (by decide)
    · cases hp

theorem forEach_keeps {σ α : Type} {f : σ → α → σ × Except Err Unit} {P : σ → Prop}
    (h : ∀ s a, P s → P (f s a).1) : ∀ (l : List α) (s : σ), P s → P (forEach f s l).1
  | [], s, hs => hs
  | a :: l, s, hs => by
    have := h s a hs
    rw [forEach]
    cases hf : f s a with
    | mk s' o =>
    rw [hf] at this
    cases o with
    | error e => exact this
    | ok u => exact forEach_keeps h l s' this

/-- The test of a notification. -/
def label : Note → String
  | .error l => l
  | .tested l => l

/-- None is about the schema. -/
def Other (ns : List Note) : Prop := ∀ n ∈ ns, label n ≠ "schema"

theorem other_append {a b : List Note} : Other (a ++ b) ↔ Other a ∧ Other b := by
  unfold Other
  simp only [List.mem_append, or_imp, forall_and]

theorem other_fail {α : Type} {acc : Acc α} {e : α} {l : String} (h : Other acc.notes) (hl : l ≠ "schema") :
    Other (acc.fail e l).notes := by
  unfold Acc.fail
  rw [other_append]
  refine ⟨h, ?_⟩
  intro n hn
  rw [List.mem_singleton.1 hn]
  exact hl

theorem other_symmetry (db : UniDb) (g : LGR) (ign : Bool) : Other (checkSymmetry db g ign).1 := by
  have h1 : ∀ (a : CharObj) (acc : Acc SymEntry) (b : Variant), Other acc.notes → Other (symBody db g ign a acc b).1.notes := by
    intro a acc b h
    unfold symBody
    split
    · exact h
    · exact other_fail h (by decide)
    · split
      · exact h
      · dsimp only
        split
        · exact other_fail h (by decide)
        · split
          · exact h
          · split
            · exact other_fail h (by decide)
            · split
              · exact other_fail h (by decide)
              · exact h
  have h2 : ∀ (acc : Acc SymEntry) (a : CharObj), Other acc.notes → Other (symChar db g ign acc a).1.notes := by
    intro acc a h
    unfold symChar
    split
    · exact h
    · exact forEach_keeps (P := fun acc : Validate.Acc SymEntry => Other acc.notes) (h1 a) _ _ h
  have h3 := forEach_keeps (P := fun acc : Validate.Acc SymEntry => Other acc.notes) h2 g.rep.iter {} (by simp [Other])
  unfold checkSymmetry
  cases hf : forEach (symChar db g ign) {} g.rep.iter with
  | mk acc o =>
  rw [hf] at h3
  cases o with
  | error e => exact h3
  | ok u =>
    refine other_append.2 ⟨h3, ?_⟩
    unfold Other; simp [label]

theorem other_transitivity (db : UniDb) (g : LGR) : Other (checkTransitivity db g).1 := by
  have h0 : ∀ (a : CharObj) (l : List Variant) (acc : Acc TransEntry), Other acc.notes →
      Other (l.foldl (transInner a) acc).notes := by
    intro a l
    induction l with
    | nil => intro acc h; exact h
    | cons c l ih =>
      intro acc h
      refine ih _ ?_
      unfold transInner
      split
      · exact other_fail h (by decide)
      · exact h
  have h1 : ∀ (a : CharObj) (acc : Acc TransEntry) (b : Variant), Other acc.notes → Other (transBody db g a acc b).1.notes := by
    intro a acc b h
    unfold transBody
    split
    · exact h
    · exact h
    · exact h0 a _ acc h
  have h2 : ∀ (acc : Acc TransEntry) (a : CharObj), Other acc.notes → Other (transChar db g acc a).1.notes := by
    intro acc a h
    unfold transChar
    split
    · exact h
    · exact forEach_keeps (P := fun acc : Validate.Acc TransEntry => Other acc.notes) (h1 a) _ _ h
  have h3 := forEach_keeps (P := fun acc : Validate.Acc TransEntry => Other acc.notes) h2 g.rep.iter {} (by simp [Other])
  unfold checkTransitivity
  cases hf : forEach (transChar db g) {} g.rep.iter with
  | mk acc o =>
  rw [hf] at h3
  cases o with
  | error e => exact h3
  | ok u =>
    refine other_append.2 ⟨h3, ?_⟩
    unfold Other; simp [label]

theorem other_item (b : Bool) {l : String} (h : l ≠ "schema") : Other (item b l) := by
  unfold Other item
  cases b <;> simp [label, h]

theorem other_map {α : Type} (l : List α) {t : String} (h : t ≠ "schema") : Other (l.map (fun _ => Note.error t)) := by
  intro n hn
  obtain ⟨_, _, rfl⟩ := List.mem_map.1 hn
  exact h

theorem other_metadata (w : World) (m : Metadata.Metadata) : Other (checkMetadata w m).1 := by
  unfold checkMetadata
  simp only [other_append]
  refine ⟨⟨⟨⟨⟨⟨?_, ?_⟩, ?_⟩, ?_⟩, ?_⟩, ?_⟩, ?_⟩
  any_goals exact other_item _ (by decide)
  · exact other_map _ (by decide)
  · unfold Other; simp [label]

theorem other_misc (digit : Char → Bool) (pyInt : List Char → Option Int) (db : Option Db) (uv : Option (List Char))
    (actions : List Action) (r : Repertoire) : Other (checkMisc digit pyInt db uv actions r).1 := by
  have hr : Other (checkRules actions).1 := by
    unfold checkRules
    dsimp only
    rw [other_append]
    exact ⟨other_map _ (by decide), by unfold Other; simp [label]⟩
  have ht : Other (r.iter.flatMap typeNotes) := by
    intro n hn
    obtain ⟨c, _, hc⟩ := List.mem_flatMap.1 hn
    unfold typeNotes at hc
    split at hc
    · simp at hc
    · rcases List.mem_append.1 hc with hc | hc
      · exact other_map _ (t := "data_variant_type") (by decide) n hc
      · rw [List.mem_singleton.1 hc]; decide
  have hl : ∀ (acc : List Note × Bool) (refs : List String), Other acc.1 → Other (refLoop digit pyInt acc refs).1.1 := by
    intro acc refs h
    unfold refLoop
    split
    · exact h
    · exact h
    · rw [other_append]; exact ⟨h, by unfold Other; simp [label]⟩
  have hfin : ∀ (ns : List Note) (b : Bool) (l : List (List String)), Other ns →
      Other (match forEach (refLoop digit pyInt) (ns, b) l with
        | (acc, .error e) => ((acc.1, .error e) : List Note × Except Err Bool)
        | (acc, .ok ()) => (acc.1 ++ [Note.tested "ref_attribute_ascending"], .ok acc.2)).1 := by
    intro ns b l h
    have := forEach_keeps (P := fun acc => Other acc.1) hl l (ns, b) h
    cases hf : forEach (refLoop digit pyInt) (ns, b) l with
    | mk acc o =>
    rw [hf] at this
    cases o with
    | error e => exact this
    | ok u =>
      refine other_append.2 ⟨this, ?_⟩
      unfold Other; simp [label]
  have hd : Other (checkData digit pyInt db uv r).1 := by
    unfold checkData
    cases db with
    | none => exact ht
    | some d =>
      by_cases hv : some d.version = uv
      · simp only [if_pos hv]
        refine hfin _ _ _ ?_
        rw [other_append, other_append, other_append]
        exact ⟨⟨⟨ht, by unfold Other; simp [label]⟩, other_map _ (by decide)⟩, by unfold Other; simp [label]⟩
      · simp only [if_neg hv]
        exact hfin _ _ _ ht
  unfold checkMisc
  cases hc : checkRules actions with
  | mk ns b =>
  rw [hc] at hr
  cases b with
  | false => exact hr
  | true => exact other_append.2 ⟨hr, hd⟩

/-- Notifications about the schema do not come from the checks. -/
theorem no_schema (S : Setup) (g : Loaded) (c : Check) : ∀ n ∈ checkNotes S g c, label n ≠ "schema" := by
  cases c
  case symmetry => exact other_symmetry _ _ _
  case transitivity => exact other_transitivity _ _
  case metadata =>
    unfold checkNotes metadataCheck
    dsimp only
    split
    · intro n hn
      exact other_metadata _ _ n (List.dropLast_subset _ hn)
    · exact other_metadata _ _
  case miscellaneous => exact other_misc _ _ _ _ _ _
  all_goals intro n hn; simp [checkNotes] at hn

/-- **C125 (violated)** Without `-r`, no document passes: a test of the policy is that of the schema, and it is not
executed. -/
theorem schema_wrong {S : Setup} {d : Doc} {out : String} (hr : S.rng = none) (h : main S d = .ok out) :
    out = "FAIL\n" ∨ Wrote S out .fail := by
  refine (main_cases h).imp_right ?_
  rintro ⟨r, g, hp⟩
  obtain ⟨r', h1, rfl⟩ := main_form h hp
  refine fail_of_absent (q := ("schema", "ERROR")) (by decide) ?_
  unfold parseLgr at hp
  rw [hr] at hp
  have h0 := read_absent hp (test := "schema") (by decide) rfl
  unfold checked at h1
  split at h1
  · simp only [Prod.mk.injEq, and_true] at h1
    rw [← h1]; exact h0
  · rw [(validate_notes h1).1, recorded_get, if_neg, if_neg]
    · exact h0
    all_goals
      simp only [List.mem_append, not_or]
      exact ⟨⟨⟨fun h => no_schema S g _ _ h rfl, fun h => no_schema S g _ _ h rfl⟩, fun h => no_schema S g _ _ h rfl⟩,
        fun h => no_schema S g _ _ h rfl⟩

/-- **C125 (violated)** `<version/>`: the tool has no verdict (`TypeError`). -/
theorem version_wrong {S : Setup} {d : Doc} {r : Results} {g : Loaded} (ht : S.test = false)
    (hp : parseLgr S d = (r, .ok (some g))) (hv : emptyVersion g.md = true) (out : String) : main S d ≠ .ok out := by
  intro h
  obtain ⟨r', h1, -⟩ := main_form h hp
  unfold checked at h1
  rw [ht] at h1
  rw [(validate_notes h1).2] at hv
  cases hv

/-! ## Examples -/

/-- `int`, on the strings that are numbers. -/
def intOf (s : List Char) : Option Int := some ((s.filter Char.isDigit).foldl (fun n c => 10 * n + (c.toNat - 48)) 0 : Nat)

/-- The tool run with a schema that accepts everything and a Unicode database in which `b` is not valid. -/
def setup0 : Setup :=
  { x := { C99.x0 with pyInt := intOf }, db := some ⟨"6.3.0".toList, fun n => n != 0x62⟩,
    props := fun _ => .ok (fun _ => false), fuel := 5,
    world := ⟨fun c => decide ('0' ≤ c ∧ c ≤ '9'), fun t => decide (t = "text/plain"), "2026-11-17".toList⟩,
    script := some (fun _ => true), rng := some (fun _ => true), test := false, quiet := true }

/-- A document with a symmetric pair of variants, a range and an action. -/
def doc1 : Doc :=
  { metaE := some
      [{ tag := "version", text := .plain "1" },
       { tag := "language", text := .plain "en" },
       { tag := "unicode-version", text := .plain "6.3.0" },
       { tag := "validity-start", text := .plain "2026-11-17" }]
    data :=
      [{ tag := "char", attrs := [("cp", "0061")], vars := [[("cp", "0065"), ("type", "blocked")]] },
       { tag := "char", attrs := [("cp", "0065")], vars := [[("cp", "0061"), ("type", "blocked")]] },
       { tag := "range", attrs := [("first-cp", "70"), ("last-cp", "73"), ("tag", "t")] }]
    rules := some [.mk "action" [("disp", "invalid"), ("any-variant", "blocked")] none []] }

theorem sane0 : Sane setup0 (2026, 11, 17) :=
  ⟨fun s _ => ⟨_, Int.natCast_nonneg _, rfl⟩, by decide, by simp [C61.IsDate], by decide +kernel⟩

theorem doc1_read : (match parseLgr setup0 doc1 with
    | (_, .ok (some g)) => decide ((dget g.md.refs "").isSome = false ∧
        (metadataOf g.md).validityStart = some (Metadata.iso (2026, 11, 17)) ∧ (metadataOf g.md).validityEnd = none ∧
        ((g.lgr.rep.lookup [0x61]).map CharObj.range) = some none ∧ some "6.3.0".toList = versionOf g)
    | _ => false) = true := by decide +kernel

/-- The hypotheses of `verdict_partial` are met, and the verdict is PASS. -/
example : ∃ r g, Sane setup0 (2026, 11, 17) ∧ parseLgr setup0 doc1 = (r, .ok (some g)) ∧
    (∀ e ∈ doc1.data, C104.ElemOk e) ∧ (dget g.md.refs "").isSome = false ∧ C59.Dated (metadataOf g.md) ∧
    main setup0 doc1 = .ok "PASS\n" ∧ (∀ ms, doc1.metaE = some ms → HasLanguage setup0.x ms) ∧ HasSingle g ∧
    some "6.3.0".toList = versionOf g := by
  have h := doc1_read
  rcases hp : parseLgr setup0 doc1 with ⟨r, o⟩
  rw [hp] at h
  match o, h with
  | .ok (some g), h =>
    obtain ⟨h1, h2, h3, h4, h5⟩ := of_decide_eq_true h
    refine ⟨r, g, sane0, rfl, by decide +kernel, h1, ⟨?_, ?_⟩, by decide +kernel, ?_, ?_, h5⟩
    · intro s hs
      rw [h2] at hs
      exact ⟨(2026, 11, 17), by simp [C61.IsDate], (Option.some.inj hs).symm⟩
    · intro s hs
      rw [h3] at hs; cases hs
    · rintro ms hms
      cases hms
      exact ⟨{ tag := "language", text := .plain "en" }, by simp, rfl, "en", by decide +kernel⟩
    · cases hl : g.lgr.rep.lookup [0x61] with
      | none => rw [hl] at h4; cases h4
      | some c =>
        rw [hl] at h4
        exact ⟨_, c, hl, Option.some.inj h4⟩

/-- Variants that are not symmetric: a warning. A type of variant that is reserved, a disposition that is not standard,
a code point that is not valid: failures. Without `language` a failure too (`left_out_wrong`). -/
example : main setup0 { doc1 with data := doc1.data.take 1 } = .ok "WARN\n" ∧
    main setup0 { doc1 with data := [{ tag := "char", attrs := [("cp", "0061")], vars := [[("cp", "61"), ("type", "_x")]] }] } =
      .ok "FAIL\n" ∧
    main setup0 { doc1 with rules := some [.mk "action" [("disp", "odd")] none []] } = .ok "FAIL\n" ∧
    main setup0 { doc1 with data := { tag := "char", attrs := [("cp", "0062")] } :: doc1.data } = .ok "FAIL\n" ∧
    main setup0 { doc1 with metaE := doc1.metaE.map (fun l => l.eraseIdx 1) } = .ok "FAIL\n" ∧
    main { setup0 with rng := none } doc1 = .ok "FAIL\n" ∧ main { setup0 with test := true } doc1 = .ok "FAIL\n" := by
  decide +kernel

/-- A document with a date that is none, a reference to nothing, and an entry with both kinds of context rules. -/
def doc2 : Doc :=
  { metaE := some
      [{ tag := "language", text := .plain "en" },
       { tag := "date", text := .plain "yesterday" },
       { tag := "unicode-version", text := .plain "6.3.0" }]
    data := [{ tag := "char", attrs := [("cp", "0061"), ("ref", "9"), ("when", "r"), ("not-when", "s")] }] }

/-- **C125 (violated)** The tool reads leniently: what the parser refuses when it does not, for a date, for the two
kinds of context rules, or for a reference, passes. -/
theorem lenient_wrong : main setup0 doc2 = .ok "PASS\n" ∧
    (parseDoc { setup0.reader with force := false } [] doc2).2.isOk = false ∧
    (parseDoc { setup0.reader with force := false } [] { doc2 with metaE := some [] }).2.isOk = false ∧
    (parseDoc { setup0.reader with force := false } []
      { metaE := some [], data := [{ tag := "char", attrs := [("cp", "0061"), ("ref", "9")] }] }).2.isOk = false := by
  decide +kernel

/-- The verdicts of `version_wrong`: none. -/
example : (match parseLgr setup0 { doc1 with metaE := doc1.metaE.map (fun l => { tag := "version", text := .none } :: l.tail) } with
    | (_, .ok (some g)) => emptyVersion g.md
    | _ => false) = true := by decide +kernel

end Lgr.Props.C125
