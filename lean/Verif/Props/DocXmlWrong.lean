import Verif.Props.DocXml

/-!
# C104: examples and violations
-/

namespace Lgr.Props.C104
open Lgr Xml Text MetaXml RulesXml DocXml LGR C50 C34 C99 C101 C06

/-! ## An example -/

/-- A reader without Unicode database, not forced. -/
def reader0 : Reader := { x := x0, db := none, props := fun _ => .ok (fun _ => false), fuel := 5, strict := true, force := false }

/-- A document with metadata, a reference, a range with a tag, characters out of order, a sequence, variants, a
class of the tag, a rule and an action. -/
def doc0 : Doc :=
  { metaE := some
      [{ tag := "version", attrs := [("comment", "draft")], text := .plain "1" },
       { tag := "date", text := .plain "2024-02-29" },
       { tag := "language", text := .plain "en" },
       { tag := "description", attrs := [("type", "text/html")], text := .cdata "<p>\r\n</p>" },
       { tag := "references", refs := [([("id", "0"), ("comment", "c")], .plain "RFC 7940")] }]
    data :=
      [{ tag := "range", attrs := [("first-cp", "61"), ("last-cp", "63"), ("tag", "t")] },
       { tag := "char", attrs := [("cp", "0065"), ("ref", "0")], vars := [[("cp", "66 67"), ("type", "blocked")], [("cp", "65")]] },
       { tag := "char", attrs := [("cp", "64 65"), ("when", "r")] }]
    rules := some
      [.mk "rule" [("name", "r")] none [.mk "class" [("from-tag", "t")] none []],
       .mk "action" [("disp", "invalid"), ("not-match", "r")] none [],
       .mk "class" [("name", "a")] (some "61-63") []] }

theorem doc0_read : (match (parseDoc reader0 [] doc0).2 with
    | .ok (some g) => decide (g.md.version = some ⟨some "1", some "draft"⟩ ∧
        g.md.description = some ⟨some "<p>\n</p>", some "text/html"⟩ ∧
        (g.lgr.rep.lookup [0x62]).isSome ∧ (g.lgr.rep.lookup [0x64, 0x65]).isSome ∧
        ((g.lgr.rep.lookup [0x65]).map (fun c => c.getVariants.length)) = some 2 ∧
        tagSet g.lgr "t" = [0x61, 0x62, 0x63] ∧ g.rules.ruleNames = [some "r"] ∧ g.rules.clsNames = [some "a"] ∧
        g.rules.actions.length = 1)
    | _ => false) = true := by decide +kernel

theorem attrsOk_iff {a : XAttrs} : AttrsOk a ↔ a.all (fun p => xmlOk p.2) = true := by
  rw [List.all_eq_true]; rfl

instance (a : XAttrs) : Decidable (AttrsOk a) := decidable_of_iff _ attrsOk_iff.symm

instance (e : Elem) : Decidable (ElemOk e) := inferInstanceAs (Decidable (_ ∧ _))

/-- A decidable form of `MElemOk`. -/
def melemOk (x : MetaXml.Ctx) (force : Bool) (e : MElem) : Bool :=
  decide (AttrsOk e.attrs) && (readText x e.text).all (fun v => decide (Full v)) &&
  (decide (e.tag ≠ "description") || (readText x e.text).all (fun v => decide ('\r' ∉ crlf v.toList ∧
    (dget e.attrs "type" = none ∨ dget e.attrs "type" = some "text/plain" ∨ ¬ [']', ']', '>'] <:+: crlf v.toList)))) &&
  e.refs.all (fun r => decide (AttrsOk r.1) && (readText x r.2).all (fun v => decide (Full v)) &&
    decide (dget r.1 "comment" ≠ some "") && (!force || decide (dget r.1 "id" ≠ some "")))

theorem all_opt {o : Option String} {p : String → Bool} (h : o.all p = true) {v : String} (hv : o = some v) :
    p v = true := by
  rw [hv] at h; exact h

theorem melemOk_sound {x : MetaXml.Ctx} {force : Bool} {e : MElem} (h : melemOk x force e = true) : MElemOk x force e := by
  unfold melemOk at h
  simp only [Bool.and_eq_true, Bool.or_eq_true, decide_eq_true_eq, List.all_eq_true] at h
  obtain ⟨⟨⟨h1, h2⟩, h3⟩, h4⟩ := h
  refine ⟨h1, fun v hv => of_decide_eq_true (all_opt h2 hv), fun ht v hv => ?_, fun r hr => ?_⟩
  · rcases h3 with h3 | h3
    · exact absurd ht h3
    · exact of_decide_eq_true (all_opt h3 hv)
  · obtain ⟨⟨⟨a1, a2⟩, a3⟩, a4⟩ := h4 r hr
    refine ⟨a1, fun v hv => of_decide_eq_true (all_opt a2 hv), a3, fun hf => ?_⟩
    rcases a4 with a4 | a4
    · rw [hf] at a4; cases a4
    · exact a4

theorem doc0_ok : DocOk reader0 doc0 := by
  refine ⟨?_, by decide +kernel, by intro h; cases h⟩
  intro ms hms e he
  apply melemOk_sound
  cases hms
  revert e
  decide +kernel

example : Sound reader0.x ∧ Safe reader0.db reader0.strict reader0.force ∧ DocOk reader0 doc0 ∧
    ∃ cs g, parseDoc reader0 [] doc0 = (cs, .ok (some g)) := by
  refine ⟨x0_sound, .inl rfl, doc0_ok, ?_⟩
  have h := doc0_read
  rcases hp : parseDoc reader0 [] doc0 with ⟨cs, o⟩
  rw [hp] at h
  match o, h with
  | .ok (some g), _ => exact ⟨cs, g, rfl⟩

/-! ## Violations -/

/-- **C104** is violated: a document without `<meta>`, which RFC 7940 makes optional, cannot be read: the
first character, whatever it is, raises `AttributeError`, with `force` and without. -/
theorem no_meta_wrong (R : Reader) (cs : Rfc7940.Results) {e : Elem} {cp : Seq} (ht : e.tag = "char")
    (hc : getCp e.attrs = .ok cp) (es : List Elem) (ns : Option (List Node)) :
    (parseDoc R cs { metaE := none, data := e :: es, rules := ns }).2 = .error .attributeError := by
  simp [parseDoc, orphan, orphanData, ht, hc]

/-- Nor is there an LGR when there is no character. -/
theorem no_meta_no_lgr (R : Reader) (cs : Rfc7940.Results) (d : Doc) (h : d.metaE = none) (g : Loaded) :
    (parseDoc R cs d).2 ≠ .ok (some g) := by
  unfold parseDoc
  rw [h]
  dsimp only
  unfold orphan
  split
  · exact fun h => by cases h
  · split
    · exact fun h => by cases h
    · exact fun h => by cases h

/-- The elements which `parse_document` handles. -/
def KnownData (e : Elem) : Prop := e.tag = "char" ∨ e.tag = "range"

/-- As above. -/
def KnownRule (n : Node) : Prop :=
  n.tag = "class" ∨ n.tag = "union" ∨ n.tag = "intersection" ∨ n.tag = "difference" ∨
    n.tag = "symmetric-difference" ∨ n.tag = "complement" ∨ n.tag = "rule" ∨ n.tag = "action"

theorem orphanData_iff (es : List Elem) : orphanData es = .ok () ↔ ∀ e ∈ es, ¬ KnownData e := by
  induction es with
  | nil => simp [orphanData]
  | cons e es ih =>
    rw [List.forall_mem_cons, ← ih]
    rw [orphanData.eq_2]
    unfold KnownData
    by_cases h1 : e.tag = "char"
    · simp only [h1]
      cases getCp e.attrs <;> simp
    · by_cases h2 : e.tag = "range"
      · simp only [h2]
        cases getHex e.attrs "first-cp" <;> simp
        cases getHex e.attrs "last-cp" <;> simp
      · simp [h1, h2]

theorem orphanRules_iff (ns : List Node) : orphanRules ns = .ok () ↔ ∀ n ∈ ns, ¬ KnownRule n := by
  induction ns with
  | nil => simp [orphanRules]
  | cons n ns ih =>
    rw [List.forall_mem_cons, ← ih]
    have hk : KnownRule n ↔ (n.tag = "class" ∨ (combOf n.tag).isSome) ∨ n.tag = "rule" ∨ n.tag = "action" := by
      unfold KnownRule combOf
      repeat' split
      all_goals simp_all
    rw [hk]
    rw [orphanRules.eq_2]
    by_cases h1 : n.tag = "class" ∨ (combOf n.tag).isSome
    · simp only [if_pos h1]
      cases parseClass n <;> simp [h1]
    · simp only [if_neg h1]
      by_cases h2 : n.tag = "rule"
      · simp only [if_pos h2]
        rcases parseRuleElem {} n with ⟨_, _ | _⟩ <;> simp [h2]
      · simp only [if_neg h2]
        by_cases h3 : n.tag = "action"
        · simp only [if_pos h3]
          cases parseAction n <;> simp [h3]
        · simp [h1, h2, h3]

/-- Exactly which documents without `<meta>` are read without an exception, and give no LGR: those which list
nothing. -/
theorem no_meta_iff (R : Reader) (cs : Rfc7940.Results) (d : Doc) (h : d.metaE = none) :
    (parseDoc R cs d).2 = .ok none ↔
      (∀ e ∈ d.data, ¬ KnownData e) ∧ ∀ n ∈ d.rules.getD [], ¬ KnownRule n := by
  rw [← orphanData_iff, ← orphanRules_iff]
  unfold parseDoc
  rw [h]
  dsimp only
  unfold orphan
  cases orphanData d.data with
  | error e => simp
  | ok u =>
    cases orphanRules (d.rules.getD []) with
    | error e => simp
    | ok u => simp

example : getCp [("cp", "0061")] = .ok [0x61] := by decide

/-- A forced reader which accepts IDNA-invalid code points; `b` is invalid. -/
def lenient : Reader :=
  { x := x0, db := some (fun n => n != 0x62), props := fun _ => .ok (fun _ => false), fuel := 5, strict := false,
    force := true }

/-- `b`, then the range from `a` to `c`. -/
def clash : Doc :=
  { metaE := some [], data := [{ tag := "char", attrs := [("cp", "62")] },
    { tag := "range", attrs := [("first-cp", "61"), ("last-cp", "63")] }] }

/-- **C104** is violated by a forced reader which accepts invalid code points (`Safe` is false): of a range
which clashes with an invalid character, the first part is added; written and read again, the LGR has
the other part, too. -/
theorem half_range_wrong : (match (parseDoc lenient [] clash).2 with
    | .ok (some g) => (match serializeDoc g with
      | .ok d => (match (parseDoc lenient [] d).2 with
        | .ok (some g') => decide (g.lgr.rep.lookup [0x63] = none ∧ (g'.lgr.rep.lookup [0x63]).isSome = true)
        | _ => false)
      | _ => false)
    | _ => false) = true := by decide +kernel

/-! ## The version of Unicode -/

/-- What has to agree when only the conformance results differ. -/
def Same (a b : MState × Except Err Unit) : Prop := a.1.md = b.1.md ∧ a.2 = b.2

theorem same_language {x : MetaXml.Ctx} {force : Bool} {s s' : MState} (h : s.md = s'.md) (l : String) :
    Same (parseLanguage x force s l) (parseLanguage x force s' l) := by
  unfold parseLanguage Same
  dsimp only
  rw [h]
  have n1 : ∀ (u : MState) l b, (u.note l b).md = u.md := fun _ _ _ => rfl
  rcases x.check l with _ | _ | _ <;> cases force <;>
    (dsimp only; rcases Metadata.addLanguage x.check s'.md.languages l _ with ⟨ls, _ | ⟨⟩⟩ <;> simp [n1, h])

theorem same_elem {x : MetaXml.Ctx} {force : Bool} {s s' : MState} (h : s.md = s'.md) (e : MElem) :
    Same (parseMetaElem x force s e) (parseMetaElem x force s' e) := by
  unfold parseMetaElem
  dsimp only
  by_cases c1 : e.tag = "date" ∨ e.tag = "validity-start" ∨ e.tag = "validity-end"
  · rw [if_pos c1, if_pos c1]
    unfold parseDate Same
    cases readText x e.text with
    | none => exact ⟨h, rfl⟩
    | some t => simp only; rw [h]; exact ⟨rfl, rfl⟩
  rw [if_neg c1, if_neg c1]
  by_cases c2 : e.tag = "unicode-version"
  · rw [if_pos c2, if_pos c2]
    cases readText x e.text with
    | none => exact ⟨h, rfl⟩
    | some t =>
      simp only
      rw [h]
      rcases setUnicodeVersion x s'.md t force with ⟨m, f, _ | ⟨⟩⟩ <;> cases f <;> exact ⟨rfl, rfl⟩
  rw [if_neg c2, if_neg c2]
  by_cases c3 : e.tag = "version"
  · rw [if_pos c3, if_pos c3]; exact ⟨by simp [h], rfl⟩
  rw [if_neg c3, if_neg c3]
  by_cases c4 : e.tag = "language"
  · rw [if_pos c4, if_pos c4]
    cases readText x e.text with
    | none => exact ⟨h, rfl⟩
    | some t => exact same_language h t
  rw [if_neg c4, if_neg c4]
  by_cases c5 : e.tag = "scope"
  · rw [if_pos c5, if_pos c5]; exact ⟨by simp [h], rfl⟩
  rw [if_neg c5, if_neg c5]
  by_cases c6 : e.tag = "description"
  · rw [if_pos c6, if_pos c6]
    cases readText x e.text with
    | none => exact ⟨h, rfl⟩
    | some t => exact ⟨by simp [h], rfl⟩
  rw [if_neg c6, if_neg c6]
  by_cases c7 : e.tag = "references"
  · rw [if_pos c7, if_pos c7]
    generalize e.refs = rs
    induction rs generalizing s s' with
    | nil => exact ⟨h, rfl⟩
    | cons r rs ih =>
      rw [forEach, forEach]
      unfold parseRef
      rw [h]
      rcases MetaXml.addReference s'.md (readText x r.2) (dget r.1 "comment") (dget r.1 "id") with ⟨m, _ | ⟨⟩⟩
      · exact ⟨rfl, rfl⟩
      · exact ih rfl
  rw [if_neg c7, if_neg c7]
  exact ⟨h, rfl⟩

theorem same_elems {x : MetaXml.Ctx} {force : Bool} (es : List MElem) {s s' : MState} (h : s.md = s'.md) :
    Same (forEach (parseMetaElem x force) s es) (forEach (parseMetaElem x force) s' es) := by
  induction es generalizing s s' with
  | nil => exact ⟨h, rfl⟩
  | cons e es ih =>
    rw [forEach, forEach]
    have he := same_elem (x := x) (force := force) h e
    rcases h1 : parseMetaElem x force s e with ⟨t, _ | ⟨⟩⟩ <;>
      rcases h2 : parseMetaElem x force s' e with ⟨t', _ | ⟨⟩⟩ <;> rw [h1, h2] at he
    · exact he
    · cases he.2
    · cases he.2
    · exact ih he.1

theorem same_meta (x : MetaXml.Ctx) (force : Bool) (cs cs' : Rfc7940.Results) (es : List MElem) :
    Same (parseMeta x force cs es) (parseMeta x force cs' es) := by
  unfold parseMeta
  have h := same_elems (x := x) (force := force) es (s := { checks := cs }) (s' := { checks := cs' }) rfl
  rcases h1 : forEach (parseMetaElem x force) { checks := cs } es with ⟨t, _ | ⟨⟩⟩ <;>
    rcases h2 : forEach (parseMetaElem x force) { checks := cs' } es with ⟨t', _ | ⟨⟩⟩ <;> rw [h1, h2] at h
  · exact h
  · cases h.2
  · cases h.2
  · exact ⟨h.1, rfl⟩

/-- The version of Unicode a document states: the text of the last `<unicode-version>`; "6.3.0" when there
is none. -/
def stated (x : MetaXml.Ctx) (es : List MElem) : Option String :=
  match (es.filter (fun e => e.tag == "unicode-version")).getLast? with
  | none => some "6.3.0"
  | some e => readText x e.text

theorem setDate_version (x : MetaXml.Ctx) (tag : String) (m : Meta) (t : String) (force : Bool) :
    (setDate x tag m t force).1.unicodeVersion = m.unicodeVersion := by
  unfold setDate
  repeat' split
  all_goals rfl

theorem addReference_version (m : Meta) (v c i : Option String) :
    (MetaXml.addReference m v c i).1.unicodeVersion = m.unicodeVersion := by
  unfold MetaXml.addReference
  repeat' split
  all_goals rfl

theorem elem_version {x : MetaXml.Ctx} {force : Bool} {s s1 : MState} {e : MElem}
    (h : parseMetaElem x force s e = (s1, .ok ())) :
    s1.md.unicodeVersion = if e.tag = "unicode-version" then readText x e.text else s.md.unicodeVersion := by
  unfold parseMetaElem at h
  dsimp only at h
  by_cases c1 : e.tag = "date" ∨ e.tag = "validity-start" ∨ e.tag = "validity-end"
  · rw [if_pos c1] at h
    have hn : e.tag ≠ "unicode-version" := by
      rcases c1 with c | c | c <;> rw [c] <;> decide
    rw [if_neg hn]
    unfold parseDate at h
    cases ht : readText x e.text with
    | none => rw [ht] at h; cases h
    | some t => rw [ht] at h; injection h with h1 h2; subst h1; exact setDate_version ..
  rw [if_neg c1] at h
  by_cases c2 : e.tag = "unicode-version"
  · rw [if_pos c2] at h
    rw [if_pos c2]
    cases ht : readText x e.text with
    | none => rw [ht] at h; cases h
    | some t =>
      rw [ht] at h
      simp only at h
      have hv : (setUnicodeVersion x s.md t force).2.2 = .ok () →
          (setUnicodeVersion x s.md t force).1.unicodeVersion = some t := by
        unfold setUnicodeVersion
        repeat' split
        all_goals (intro h; first | rfl | cases h)
      rcases hq : setUnicodeVersion x s.md t force with ⟨m, f, _ | ⟨⟩⟩ <;> rw [hq] at h hv
      · cases h
      · have := hv rfl
        cases f <;> (injection h with h1 h2; subst h1; exact this)
  rw [if_neg c2] at h
  rw [if_neg c2]
  by_cases c3 : e.tag = "version"
  · rw [if_pos c3] at h; injection h with h1 h2; subst h1; rfl
  rw [if_neg c3] at h
  by_cases c4 : e.tag = "language"
  · rw [if_pos c4] at h
    cases ht : readText x e.text with
    | none => rw [ht] at h; cases h
    | some t =>
      rw [ht] at h
      simp only at h
      unfold parseLanguage at h
      dsimp only at h
      rcases hq : Metadata.addLanguage x.check s.md.languages t force with ⟨ls, _ | ⟨⟩⟩ <;> rw [hq] at h
      · cases h
      · injection h with h1 h2
        subst h1
        rcases x.check t with _ | _ | _ <;> cases force <;> rfl
  rw [if_neg c4] at h
  by_cases c5 : e.tag = "scope"
  · rw [if_pos c5] at h; injection h with h1 h2; subst h1; rfl
  rw [if_neg c5] at h
  by_cases c6 : e.tag = "description"
  · rw [if_pos c6] at h
    cases ht : readText x e.text with
    | none => rw [ht] at h; cases h
    | some t => rw [ht] at h; injection h with h1 h2; subst h1; rfl
  rw [if_neg c6] at h
  by_cases c7 : e.tag = "references"
  · rw [if_pos c7] at h
    generalize e.refs = rs at h
    clear c1 c2 c3 c4 c5 c6 c7
    induction rs generalizing s with
    | nil => injection h with h1 h2; subst h1; rfl
    | cons r rs ih =>
      rw [forEach] at h
      have hr : (parseRef x s r).1.md.unicodeVersion = s.md.unicodeVersion := addReference_version ..
      rcases hp : parseRef x s r with ⟨t, _ | ⟨⟩⟩
      · rw [hp] at h; cases h
      · rw [hp] at h hr
        rw [ih h]; exact hr
  rw [if_neg c7] at h
  injection h with h1 h2; subst h1; rfl

theorem elems_version {x : MetaXml.Ctx} {force : Bool} (es : List MElem) {s s1 : MState}
    (h : forEach (parseMetaElem x force) s es = (s1, .ok ())) :
    s1.md.unicodeVersion = match (es.filter (fun e => e.tag == "unicode-version")).getLast? with
      | none => s.md.unicodeVersion
      | some e => readText x e.text := by
  induction es generalizing s with
  | nil => injection h with h1 h2; subst h1; rfl
  | cons e es ih =>
    rw [forEach] at h
    rcases hp : parseMetaElem x force s e with ⟨t, _ | ⟨⟩⟩
    · rw [hp] at h; cases h
    · rw [hp] at h
      rw [ih h, elem_version hp, List.filter_cons]
      by_cases c : e.tag = "unicode-version"
      · rw [if_pos c, if_pos (by simpa using c), List.getLast?_cons]
        cases (es.filter _).getLast? <;> rfl
      · rw [if_neg c, if_neg (by simpa using c)]

/-- **C104**: the version of Unicode which is looked up before an LGR is loaded (to choose the Unicode
database) is the one the document states last, and it is the one of the LGR loaded; whatever the
conformance results so far. -/
theorem unicode_version_agrees (R : Reader) {d : Doc} {cs cs1 : Rfc7940.Results} {g : Loaded}
    (h : parseDoc R cs d = (cs1, .ok (some g))) (cs0 : Rfc7940.Results) :
    ∃ ms, d.metaE = some ms ∧ g.md.unicodeVersion = stated R.x ms ∧
      unicodeVersion R cs0 d = .ok (stated R.x ms) := by
  cases hm : d.metaE with
  | none =>
    exact absurd (by rw [h]) (no_meta_no_lgr R cs d hm g)
  | some ms =>
    refine ⟨ms, rfl, ?_⟩
    have hst : ∀ {cs m}, parseMeta R.x R.force cs ms = (m, .ok ()) → m.md.unicodeVersion = stated R.x ms := by
      intro cs m hp
      unfold parseMeta at hp
      rcases hf : forEach (parseMetaElem R.x R.force) { checks := cs } ms with ⟨t, _ | ⟨⟩⟩
      · rw [hf] at hp; cases hp
      · rw [hf] at hp
        injection hp with h1 h2
        subst h1
        exact elems_version ms hf
    have hsame := same_meta R.x R.force cs cs0 ms
    unfold parseDoc at h
    unfold DocXml.unicodeVersion
    rw [hm] at h ⊢
    dsimp only at h ⊢
    rcases hp : parseMeta R.x R.force cs ms with ⟨m, _ | ⟨⟩⟩
    · rw [hp] at h; cases h
    · rw [hp] at h hsame
      rcases hp0 : parseMeta R.x R.force cs0 ms with ⟨m0, _ | ⟨⟩⟩
      · rw [hp0] at hsame; cases hsame.2
      · refine ⟨?_, by dsimp only; rw [hst hp0]⟩
        rw [← hst hp]
        dsimp only at h
        split at h
        · cases h
        · split at h
          · cases h
          · injection h with h1 h2
            injection h2 with h2
            injection h2 with h2
            subst h2
            rfl

example : stated x0 [{ tag := "unicode-version", text := .plain "6.0.0" }, { tag := "version" },
    { tag := "unicode-version", text := .plain "10.0.0" }] = some "10.0.0" := by decide +kernel

end Lgr.Props.C104
