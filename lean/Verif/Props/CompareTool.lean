import Verif.Props.CompareSections
import Verif.Props.CompareRefs
import Verif.Props.PopulateTool

/-!
# C140: what `lgr_compare` prints
-/

namespace Lgr.Props.C140
open Lgr LGR Repertoire Xml MetaXml RulesXml DocXml Compare CompareTool C50 C26 C30 C34 C101 C104

/-! ## Specification -/

/-- The rules section of a document. -/
def sect (d : Doc) : List Node := d.rules.getD []

/-- The value is the one there is, or of two that which `better` says. -/
def Best (better : String → String → Prop) (a b r : Option String) : Prop :=
  (a = none → r = b) ∧ (b = none → r = a) ∧
    ∀ x y, a = some x → b = some y → ∃ z, r = some z ∧ (z = x ∨ z = y) ∧ better z x ∧ better z y

/-- Not earlier, for dates; not less, for texts. -/
def NotLess (z x : String) : Prop := ¬ z.toList < x.toList

/-- Not later. -/
def NotMore (z x : String) : Prop := ¬ x.toList < z.toList

/-- The text has both parts. -/
def Holds (s : String) (a b : Option String) : Prop :=
  (∀ v, a = some v → v.toList <:+: s.toList) ∧ ∀ v, b = some v → v.toList <:+: s.toList

/-- What both have in common of the metadata of a union and of an intersection. -/
structure CommonMeta (today : String) (m1 m2 m : Meta) : Prop where
  scopes : m.scopes.Nodup ∧ ∀ s, s ∈ m.scopes ↔ s ∈ m1.scopes
  date : m.date = some today
  start : Best NotLess m1.validityStart m2.validityStart m.validityStart
  end_ : Best NotMore m1.validityEnd m2.validityEnd m.validityEnd
  unicode : Best NotLess m1.unicodeVersion m2.unicodeVersion m.unicodeVersion

/-- The metadata of a union. The version and the description of the second LGR are lost when the first has none, and its
scopes always. -/
structure UnionMeta (today : String) (m1 m2 m : Meta) : Prop where
  common : CommonMeta today m1 m2 m
  version : (m1.version = none → m.version = none) ∧ (m2.version = none → m.version = m1.version) ∧
    ∀ a b, m1.version = some a → m2.version = some b →
      ∃ v, m.version = some v ∧ Comment a.value b.value v.value ∧ Comment a.note b.note v.note
  description : (m1.description = none → m.description = none) ∧ (m2.description = none → m.description = m1.description) ∧
    ∀ a b, m1.description = some a → m2.description = some b → (a = b → m.description = some a) ∧
      (a ≠ b → ∃ s t, m.description = some ⟨some s, some t⟩ ∧ Holds s a.value b.value)
  languages : m.languages.Nodup ∧ ∀ l, l ∈ m.languages ↔ l ∈ m1.languages ∨ l ∈ m2.languages

/-- The metadata of an intersection. -/
structure IntersectMeta (today : String) (m1 m2 m : Meta) : Prop where
  common : CommonMeta today m1 m2 m
  version : (m1.version = none → m.version = m2.version) ∧ (m2.version = none → m.version = m1.version) ∧
    ∀ a b, m1.version = some a → m2.version = some b →
      ∃ v, m.version = some v ∧ Comment a.value b.value v.value ∧ Comment a.note b.note v.note
  description : (m1.description = none → m.description = m2.description) ∧
    (m2.description = none → m.description = m1.description) ∧
    ∀ a b, m1.description = some a → m2.description = some b →
      (a.note = b.note → ∃ s, m.description = some ⟨s, a.note⟩ ∧ Comment a.value b.value s) ∧
      (a.note ≠ b.note → ∃ s t, m.description = some ⟨some s, some t⟩ ∧ Holds s a.value b.value)
  languages : m.languages.Nodup ∧ ∀ l, l ∈ m.languages ↔ l ∈ m1.languages ∧ l ∈ m2.languages

/-- The entries of a union, as C30 says. -/
structure UnionEntries (g1 g2 g : LGR) : Prop where
  neither : ∀ k, g1.rep.lookup k = none → g2.rep.lookup k = none → g.rep.lookup k = none
  first : ∀ k c1, g1.rep.lookup k = some c1 → g2.rep.lookup k = none →
    ∃ c, g.rep.lookup k = some c ∧ c.attrs = plain c1.attrs ∧ c.range = none ∧ c.getVariants = []
  second : ∀ k c2, g1.rep.lookup k = none → g2.rep.lookup k = some c2 →
    ∃ c, g.rep.lookup k = some c ∧ c.attrs = plain c2.attrs ∧ c.range = none ∧
      ∀ u, u ∈ c.getVariants ↔ ∃ v ∈ c2.getVariants, u = bare v
  both : ∀ k c1 c2, g1.rep.lookup k = some c1 → g2.rep.lookup k = some c2 →
    ∃ c, g.rep.lookup k = some c ∧ United c1 c2 c
  refs : (∀ v, C58.HasRef g v ↔ C58.HasRef g1 v ∨ C58.HasRef g2 v) ∧ (g.refs.refs.map (fun p => p.2.value)).Nodup

/-- The entries of an intersection, as C31 says. -/
structure IntersectEntries (g1 g2 g : LGR) : Prop where
  other : ∀ k, g1.rep.lookup k = none ∨ g2.rep.lookup k = none → g.rep.lookup k = none
  both : ∀ k c1 c2, g1.rep.lookup k = some c1 → g2.rep.lookup k = some c2 →
    ∃ c, g.rep.lookup k = some c ∧ C31.Shared c1 c2 c
  refs : (∀ v, C58.HasRef g v ↔ C58.HasRef g1 v ∧ C58.HasRef g2 v) ∧ (g.refs.refs.map (fun p => p.2.value)).Nodup

/-- The rules section `c` of the union of LGRs with sections `a` and `b`: classes, then rules, then actions. -/
structure UnionSection (a b c : List Node) : Prop where
  order : c = c.filter isCls ++ c.filter isRule ++ c.filter isAct
  classes : (∀ n, n ∈ c.filter isCls ↔ n ∈ a.filter isCls ∨ n ∈ b.filter isCls) ∧ ((c.filter isCls).map nameOf).Nodup
  rules : (∀ n, n ∈ c.filter isRule ↔ n ∈ a.filter isRule ∨ n ∈ b.filter isRule) ∧ ((c.filter isRule).map nameOf).Nodup
  actions : (∀ n, n ∈ c.filter isAct ↔ n ∈ a.filter isAct ∨ n ∈ b.filter isAct) ∧
    (c.filter isAct).map shown = C38.firsts ((a.filter isAct ++ b.filter isAct).map shown)

/-- The rules section of an intersection. -/
structure IntersectSection (a b c : List Node) : Prop where
  order : c = c.filter isCls ++ c.filter isRule ++ c.filter isAct
  classes : (∀ n, n ∈ c.filter isCls ↔ n ∈ a.filter isCls ∧ n ∈ b.filter isCls) ∧ ((c.filter isCls).map nameOf).Nodup
  rules : (∀ n, n ∈ c.filter isRule ↔ n ∈ a.filter isRule ∧ n ∈ b.filter isRule) ∧ ((c.filter isRule).map nameOf).Nodup
  actions : ∀ n ∈ c.filter isAct, n ∈ a.filter isAct

/-- What is read of a rules section. -/
structure ReadFrom (c : List Node) (r : Rules) : Prop where
  classes : r.clsNames = (c.filter isCls).map (fun n => dget n.attrs "name")
  rules : r.ruleNames = (c.filter isRule).map (fun n => dget n.attrs "name")
  actions : Acts (c.filter isAct) r.actions
  xml : r.clsXml = c.filter isCls ∧ r.rulesXml = c.filter isRule ∧ r.actionsXml = c.filter isAct

/-- What is asked of two documents and the LGRs read from them: their rules are read back from their texts, a name stands
for one rule and one class in both, no tag is empty, and descriptions may be put in a CDATA section. -/
structure Fair (E : CompareTool.Env) (d1 d2 : Doc) (g1 g2 : Loaded) : Prop where
  read : ReadBack E (sect d1) ∧ ReadBack E (sect d2)
  classes : Agree ((sect d1).filter isCls) ((sect d2).filter isCls)
  rules : Agree ((sect d1).filter isRule) ((sect d2).filter isRule)
  tags : (∀ k c, g1.lgr.rep.lookup k = some c → "" ∉ c.attrs.tags) ∧ ∀ k c, g2.lgr.rep.lookup k = some c → "" ∉ c.attrs.tags
  descriptions : MildDesc g1.md.description ∧ MildDesc g2.md.description

/-! ## Metadata -/

theorem best_max (a b : Option String) : Best NotLess a b (Metadata.compareObjects maxStr a b) := by
  refine ⟨by rintro rfl; rfl, by rintro rfl; cases a <;> rfl, ?_⟩
  rintro x y rfl rfl
  refine ⟨maxStr x y, rfl, max_choice x y, ?_, ?_⟩
  · unfold maxStr NotLess
    split
    · rename_i h; exact fun h' => absurd (lt_trans h h') (lt_irrefl _)
    · exact lt_irrefl _
  · unfold maxStr NotLess
    split
    · exact lt_irrefl _
    · assumption

theorem best_min (a b : Option String) : Best NotMore a b (Metadata.compareObjects minStr a b) := by
  refine ⟨by rintro rfl; rfl, by rintro rfl; cases a <;> rfl, ?_⟩
  rintro x y rfl rfl
  refine ⟨minStr x y, rfl, min_choice x y, ?_, ?_⟩
  · unfold minStr NotMore
    split
    · rename_i h; exact fun h' => absurd (lt_trans h h') (lt_irrefl _)
    · exact lt_irrefl _
  · unfold minStr NotMore
    split
    · exact lt_irrefl _
    · assumption

theorem infix_mid {s a b c : String} (h : s = a ++ b ++ c) : b.toList <:+: s.toList :=
  ⟨a.toList, c.toList, by rw [h, String.toList_append, String.toList_append]⟩

theorem fmt_some {o : Option String} {v : String} (h : o = some v) : fmt o = v := by subst h; rfl

theorem holds_both (a b : MetaXml.Txt) (t : String) :
    Holds ("\nOriginal MIME-type for first description: '" ++ fmt a.note ++ t ++ fmt a.value ++
      "\n\n----\n\nOriginal MIME-type for second description: '" ++ fmt b.note ++ "'.\n" ++ fmt b.value ++ "\n")
      a.value b.value := by
  constructor
  · intro v hv
    rw [fmt_some hv]
    exact infix_mid (a := "\nOriginal MIME-type for first description: '" ++ fmt a.note ++ t)
      (c := "\n\n----\n\nOriginal MIME-type for second description: '" ++ fmt b.note ++ "'.\n" ++ fmt b.value ++ "\n")
      (by simp only [String.append_assoc])
  · intro v hv
    rw [fmt_some hv]
    exact infix_mid (a := "\nOriginal MIME-type for first description: '" ++ fmt a.note ++ t ++ fmt a.value ++
      "\n\n----\n\nOriginal MIME-type for second description: '" ++ fmt b.note ++ "'.\n") (c := "\n") rfl

theorem union_meta (E : CompareTool.Env) (m : RefManager) (m1 m2 : Meta) :
    UnionMeta E.today m1 m2 (unionMeta E m m1 m2) := by
  refine ⟨⟨⟨?_, ?_⟩, rfl, best_max _ _, best_min _ _, best_max _ _⟩, ⟨?_, ?_, ?_⟩, ⟨?_, ?_, ?_⟩, ?_, ?_⟩
  · exact ((E.scopes_perm _).nodup_iff).2 (nodup_union _ _)
  · intro s
    show s ∈ E.scopes _ ↔ _
    rw [(E.scopes_perm _).mem_iff, mem_union, or_self]
  · intro h; show (if m1.version.isSome then _ else none) = none; rw [h]; rfl
  · intro h
    show (if m1.version.isSome then _ else none) = _
    rw [h]
    cases m1.version <;> rfl
  · intro a b h1 h2
    show ∃ v, (if m1.version.isSome then _ else none) = some v ∧ _
    rw [h1, h2]
    dsimp only [Option.isSome, if_true, unionVersion]
    by_cases hab : a = b
    · subst hab
      refine ⟨a, by simp, ?_, ?_⟩
      · have := letUserChoose_spec a.value a.value
        rwa [show letUserChoose a.value a.value = a.value by cases a.value <;> simp [letUserChoose]] at this
      · have := letUserChoose_spec a.note a.note
        rwa [show letUserChoose a.note a.note = a.note by cases a.note <;> simp [letUserChoose]] at this
    · exact ⟨⟨letUserChoose a.value b.value, letUserChoose a.note b.note⟩, by simp [hab], letUserChoose_spec _ _,
        letUserChoose_spec _ _⟩
  · intro h; show (if m1.description.isSome then _ else none) = none; rw [h]; rfl
  · intro h
    show (if m1.description.isSome then _ else none) = _
    rw [h]
    cases m1.description <;> rfl
  · intro a b h1 h2
    have e : (unionMeta E m m1 m2).description = unionDescription (some a) (some b) := by
      show (if m1.description.isSome then _ else none) = _
      rw [h1, h2]; rfl
    rw [e]
    dsimp only [unionDescription]
    constructor
    · intro hab; rw [if_pos hab]
    · intro hab
      rw [if_neg hab]
      split
      · refine ⟨_, _, rfl, ?_, ?_⟩
        · intro v hv
          rw [fmt_some hv]
          exact infix_mid (a := "") (c := "\n" ++ fmt b.value) (by rw [String.empty_append, String.append_assoc])
        · intro v hv
          rw [fmt_some hv]
          exact infix_mid (a := fmt a.value ++ "\n") (c := "") (by rw [String.append_empty])
      · exact ⟨_, _, rfl, holds_both a b "':\n"⟩
  · exact ((E.ord.strs_perm _).nodup_iff).2 (nodup_union _ _)
  · intro l
    show l ∈ E.ord.strs _ ↔ _
    rw [(E.ord.strs_perm _).mem_iff, mem_union]

theorem intersect_meta (E : CompareTool.Env) (m : RefManager) (m1 m2 : Meta) :
    IntersectMeta E.today m1 m2 (intersectMeta E m m1 m2) := by
  refine ⟨⟨⟨?_, ?_⟩, rfl, best_max _ _, best_min _ _, best_max _ _⟩, ⟨?_, ?_, ?_⟩, ⟨?_, ?_, ?_⟩, ?_, ?_⟩
  · exact ((E.scopes_perm _).nodup_iff).2 ((nodup_toSet _).filter _)
  · intro s
    show s ∈ E.scopes _ ↔ _
    rw [(E.scopes_perm _).mem_iff, List.mem_filter, mem_toSet, decide_eq_true_eq, and_self]
  · intro h; show intersectVersion _ _ = _; rw [h]; rfl
  · intro h; show intersectVersion _ _ = _; rw [h]; cases m1.version <;> rfl
  · intro a b h1 h2
    show ∃ v, intersectVersion _ _ = some v ∧ _
    rw [h1, h2]
    exact ⟨⟨letUserChoose a.value b.value, letUserChoose a.note b.note⟩, rfl, letUserChoose_spec _ _, letUserChoose_spec _ _⟩
  · intro h; show intersectDescription _ _ = _; rw [h]; rfl
  · intro h; show intersectDescription _ _ = _; rw [h]; cases m1.description <;> rfl
  · intro a b h1 h2
    have e : (intersectMeta E m m1 m2).description = intersectDescription (some a) (some b) := by
      show intersectDescription _ _ = _
      rw [h1, h2]
    rw [e]
    dsimp only [intersectDescription]
    constructor
    · intro hab
      rw [if_pos hab]
      exact ⟨_, rfl, letUserChoose_spec _ _⟩
    · intro hab
      rw [if_neg hab]
      exact ⟨_, _, rfl, holds_both a b "'.\n"⟩
  · exact ((E.ord.strs_perm _).nodup_iff).2 ((nodup_toSet _).filter _)
  · intro l
    show l ∈ E.ord.strs _ ↔ _
    rw [(E.ord.strs_perm _).mem_iff, List.mem_filter, mem_toSet, decide_eq_true_eq]

/-! ## Sections -/

theorem filter_all {p : Node → Bool} {l : List Node} (h : ∀ n ∈ l, p n = true) : l.filter p = l := List.filter_eq_self.2 h

theorem filter_none {p : Node → Bool} {l : List Node} (h : ∀ n ∈ l, p n = false) : l.filter p = [] :=
  List.filter_eq_nil_iff.2 fun n hn => by rw [h n hn]; simp

/-- The parts of a section that is put together. -/
theorem parts {cs rs as : List Node} (hc : ∀ n ∈ cs, isCls n = true) (hr : ∀ n ∈ rs, isRule n = true)
    (ha : ∀ n ∈ as, isAct n = true) : (cs ++ rs ++ as).filter isCls = cs ∧ (cs ++ rs ++ as).filter isRule = rs ∧
    (cs ++ rs ++ as).filter isAct = as := by
  have cr : ∀ n, isCls n = true → isRule n = false := fun n h => by
    cases hr : isRule n with
    | false => rfl
    | true => rw [not_cls_of_rule hr] at h; cases h
  have ca : ∀ n, isCls n = true → isAct n = false := fun n h => by
    cases hr : isAct n with
    | false => rfl
    | true => rw [not_cls_of_act hr] at h; cases h
  have ra : ∀ n, isRule n = true → isAct n = false := fun n h => by
    cases hr : isAct n with
    | false => rfl
    | true => rw [not_rule_of_act hr] at h; cases h
  simp only [List.filter_append]
  refine ⟨?_, ?_, ?_⟩
  · rw [filter_all hc, filter_none fun n hn => not_cls_of_rule (hr n hn), filter_none fun n hn => not_cls_of_act (ha n hn)]
    simp
  · rw [filter_all hr, filter_none fun n hn => cr n (hc n hn), filter_none fun n hn => not_rule_of_act (ha n hn)]
    simp
  · rw [filter_all ha, filter_none fun n hn => ca n (hc n hn), filter_none fun n hn => ra n (hr n hn)]
    simp

/-- What is read from a document. -/
theorem read_from {P : Parser} {q : LGR} {ns : List Node} {r : Rules} {t : RState}
    (h : parseRules P (newRules q, {}) ns = ((r, t), .ok ())) : ReadFrom ns r := by
  obtain ⟨x1, x2, x3, -⟩ := xml_run ns h
  obtain ⟨n1, n2, as, n3, n4⟩ := names_run ns h
  simp only [newRules, List.nil_append] at x1 x2 x3 n1 n2 n3
  exact ⟨n2, n1, by rw [n3]; exact n4, x1, x2, x3⟩

theorem names_of {l : List Node} : namesOf (l.map (fun n => dget n.attrs "name")) = l.map nameOf := by
  unfold namesOf
  rw [List.map_map]; rfl

/-! ## Reading the outcome -/

/-- An LGR which is the outcome of the comparison is written, and the document is read as that LGR. -/
theorem outcome_reread (R : Reader) (hdb : R.db = none) (hx : C99.Sound R.x) {md : Meta} {l : LGR} {m : RefManager}
    (hmd : MGood R.x true md) (hm : managerOf md = m) (hl : Good none true false m l) {r : Rules}
    (hc : ∀ n ∈ r.clsXml, isCls n = true ∧ Legible n) (hr : ∀ n ∈ r.rulesXml, isRule n = true ∧ Legible n)
    (ha : ∀ n ∈ r.actionsXml, isAct n = true ∧ Legible n) :
    ∃ d', serializeDoc { md := md, lgr := l, rules := r } = .ok d' ∧
      sect d' = r.clsXml ++ r.rulesXml ++ r.actionsXml ∧
      ∀ cs, ∃ cs' g', parseDoc (PopulateTool.reader R) cs d' = (cs', .ok (some g')) ∧ g'.md = { md with nextId := 0 } ∧
        (∀ k c, l.rep.lookup k = some c → ∃ c', g'.lgr.rep.lookup k = some c' ∧ C34.Same c c') ∧
        (∀ k, (g'.lgr.rep.lookup k).isSome → (l.rep.lookup k).isSome) ∧ g'.lgr.refs.refs = l.refs.refs ∧
        ReadFrom (sect d') g'.rules ∧ serializeDoc g' = .ok d' := by
  obtain ⟨p1, p2, p3⟩ := parts (fun n hn => (hc n hn).1) (fun n hn => (hr n hn).1) (fun n hn => (ha n hn).1)
  have hleg : ∀ n ∈ r.clsXml ++ r.rulesXml ++ r.actionsXml, Legible n := by
    intro n hn
    rcases List.mem_append.1 hn with hn | hn
    · exact (List.mem_append.1 hn).elim (fun h => (hc n h).2) (fun h => (hr n h).2)
    · exact (ha n hn).2
  obtain ⟨⟨r', t⟩, hpr⟩ := run_any (P := (PopulateTool.reader R).parser) rfl
    (by show R.db.isSome = false; rw [hdb]; rfl) _ hleg (newRules l, {})
  have hf := read_from hpr
  have hdb' : (PopulateTool.reader R).db = none := hdb
  have hF : C104.Fit (PopulateTool.reader R).db (PopulateTool.reader R).strict (PopulateTool.reader R).force (managerOf md) l := by
    rw [hdb', hm]
    exact good_forced hl
  have hser : serializeDoc { md := md, lgr := l, rules := r } = serializeDoc { md := md, lgr := l, rules := r' } := by
    unfold serializeDoc serializeRules
    simp only [hf.xml.1, hf.xml.2.1, hf.xml.2.2, p1, p2, p3]
  have key := fun cs => fit_reread (PopulateTool.reader R) hx (C130.reader_safe R) hmd hF (ns := _) (r := r') (t := t)
    (by rw [hdb']; intro h; cases h) hpr (ids := 0) cs
  obtain ⟨d', -, -, k1, -⟩ := key []
  have hsect : sect d' = r.clsXml ++ r.rulesXml ++ r.actionsXml := by
    rw [← hser] at k1
    unfold serializeDoc at k1
    split at k1
    · cases k1
    · split at k1
      · cases k1
      · cases k1; rfl
  refine ⟨d', by rw [hser]; exact k1, hsect, fun cs => ?_⟩
  obtain ⟨d2, cs2, g', j1, j2, j3, -, -, -, j7, -⟩ := key cs
  rw [k1] at j1
  cases j1
  have al := j3 (fun t => hl.types t)
  refine ⟨cs2, g', j2, al.md, al.entries, al.only, al.refs, ?_, j7⟩
  obtain ⟨t', ht'⟩ : ∃ t', parseRules (PopulateTool.reader R).parser (newRules g'.lgr, {}) (sect d') = ((g'.rules, t'), .ok ()) := by
    have := congrArg Prod.snd j2
    unfold parseDoc at this
    dsimp only at this
    split at this
    · rename_i hme
      exfalso
      unfold serializeDoc at k1
      split at k1
      · cases k1
      · split at k1
        · cases k1
        · cases k1; cases hme
    · split at this
      · cases this
      · split at this
        · cases this
        · split at this
          · cases this
          · rename_i hpp
            cases this
            exact ⟨_, hpp⟩
  exact read_from ht'

/-! ## The tool -/

variable {E : CompareTool.Env} {R : Reader}

theorem main_printed {u : Bool} {s1 s2 : Option Bool} {d1 d2 d' : Doc} (h : main E R u s1 s2 d1 d2 = .printed d') :
    ∃ g1 g2 g, (parseDoc (PopulateTool.reader R) [] d1).2 = .ok (some g1) ∧
      (parseDoc (PopulateTool.reader R) [] d2).2 = .ok (some g2) ∧
      (if u then unionLoaded E g1 g2 else intersectLoaded E g1 g2) = .ok g ∧ serializeDoc g = .ok d' := by
  unfold main at h
  split at h
  · cases h
  rename_i o1 h1
  split at h
  · cases h
  rename_i o2 h2
  split at h
  · rename_i g1 g2
    unfold PopulateTool.parseLgr at h1 h2
    split at h1
    · cases h1
    split at h2
    · cases h2
    unfold printed at h
    split at h
    · cases h
    rename_i g hg
    split at h
    · cases h
    rename_i d hd
    cases h
    exact ⟨g1, g2, g, h1, h2, hg, hd⟩
  · cases h

theorem readRules_ok {classes rules : List String × List String} {actions : List Action × List String} {r : Rules}
    (h : readRules E classes rules actions = .ok r) : readAll E.read classes.2 = .ok r.clsXml ∧
    readAll E.read rules.2 = .ok r.rulesXml ∧ readAll E.read actions.2 = .ok r.actionsXml := by
  unfold readRules at h
  split at h
  · cases h
  rename_i cs hc
  split at h
  · cases h
  rename_i rs hr
  split at h
  · cases h
  rename_i as ha
  cases h
  exact ⟨hc, hr, ha⟩

theorem neat_source {d : Doc} {g : Loaded} (h : C130.Source (PopulateTool.reader R) d g)
    (ht : ∀ k c, g.lgr.rep.lookup k = some c → "" ∉ c.attrs.tags) : NeatLgr g.lgr :=
  ⟨h.lgr.inv.wf, h.lgr.intact, fun k c hc =>
    ⟨fun t hm => ⟨fun he => ht k c hc (he ▸ hm), (h.lgr.inv.all k c hc).tagWords.1 t hm⟩, (h.lgr.inv.all k c hc).xml⟩⟩

theorem read_filter {l : List Node} {p : Node → Bool} (h : ReadBack E l) : ReadBack E (l.filter p) :=
  fun n hn => h n (List.mem_of_mem_filter hn)

theorem union_shape {g1 g2 g : Loaded} (h : unionLoaded E g1 g2 = .ok g) :
    ∃ l rules classes r, (unionLgrs E.ord none none g1.lgr g2.lgr).2 = .ok l ∧
      unionNamed E.ord renamed (namesOf g1.rules.ruleNames) (g1.rules.rulesXml.map shown)
        (namesOf g2.rules.ruleNames) (g2.rules.rulesXml.map shown) = .ok rules ∧
      unionNamed E.ord renamed (namesOf g1.rules.clsNames) (g1.rules.clsXml.map shown)
        (namesOf g2.rules.clsNames) (g2.rules.clsXml.map shown) = .ok classes ∧
      readRules E classes rules (unionActions g1.rules.actions (g1.rules.actionsXml.map shown)
        g2.rules.actions (g2.rules.actionsXml.map shown)) = .ok r ∧
      g = { md := unionMeta E l.refs g1.md g2.md, lgr := l, rules := r } := by
  unfold unionLoaded at h
  split at h
  · cases h
  rename_i l hl
  split at h
  · cases h
  rename_i rules hr
  split at h
  · cases h
  rename_i classes hc
  split at h
  · cases h
  rename_i r hrr
  cases h
  exact ⟨l, rules, classes, r, hl, hr, hc, hrr, rfl⟩

theorem intersect_shape {g1 g2 g : Loaded} (h : intersectLoaded E g1 g2 = .ok g) :
    ∃ l rules classes actions r, (intersectLgrs E.ord none none g1.lgr g2.lgr).2 = .ok l ∧
      intersectActions E.acts E.second g1.rules.actions (g1.rules.actionsXml.map shown) g2.rules.actions = .ok actions ∧
      intersectNamed E.ord renamed (namesOf g1.rules.ruleNames) (g1.rules.rulesXml.map shown)
        (namesOf g2.rules.ruleNames) (g2.rules.rulesXml.map shown) = .ok rules ∧
      intersectNamed E.ord renamed (namesOf g1.rules.clsNames) (g1.rules.clsXml.map shown)
        (namesOf g2.rules.clsNames) (g2.rules.clsXml.map shown) = .ok classes ∧
      readRules E classes rules actions = .ok r ∧
      g = { md := intersectMeta E l.refs g1.md g2.md, lgr := l, rules := r } := by
  unfold intersectLoaded at h
  split at h
  · cases h
  rename_i l hl
  split at h
  · cases h
  rename_i actions ha
  split at h
  · cases h
  rename_i rules hr
  split at h
  · cases h
  rename_i classes hc
  split at h
  · cases h
  rename_i r hrr
  cases h
  exact ⟨l, rules, classes, actions, r, hl, ha, hr, hc, hrr, rfl⟩

/-- **C140** (partial) What `lgr_compare ... UNION` prints: the document is read, by the same parser and in any state of the
conformance results, into an LGR with the entries and references of the union (C30, C58), the metadata of both, the classes
and rules of both, and the actions of both, those of the first LGR first; and this LGR is written as the same document.
Missing: documents where a name stands for two rules or classes (`Fair`), and texts for which the writer or the parser
fail (`DocOk`, C104); no Unicode database is used by the tool. The order of classes and rules is any, see `order_wrong`. -/
theorem union_printed_partial (hdb : R.db = none) (hx : C99.Sound R.x) (ht : C99.DateOk R.x true (some E.today))
    {d1 d2 d' : Doc} (hd1 : DocOk (PopulateTool.reader R) d1) (hd2 : DocOk (PopulateTool.reader R) d2)
    {s1 s2 : Option Bool} (h : main E R true s1 s2 d1 d2 = .printed d') :
    ∃ g1 g2, (parseDoc (PopulateTool.reader R) [] d1).2 = .ok (some g1) ∧
      (parseDoc (PopulateTool.reader R) [] d2).2 = .ok (some g2) ∧
      (Fair E d1 d2 g1 g2 → UnionSection (sect d1) (sect d2) (sect d') ∧
        ∀ cs, ∃ cs' g', parseDoc (PopulateTool.reader R) cs d' = (cs', .ok (some g')) ∧
          UnionEntries g1.lgr g2.lgr g'.lgr ∧ UnionMeta E.today g1.md g2.md g'.md ∧ ReadFrom (sect d') g'.rules ∧
          (∀ a, a ∈ g'.rules.actions ↔ a ∈ g1.rules.actions ∨ a ∈ g2.rules.actions) ∧ serializeDoc g' = .ok d') := by
  obtain ⟨g1, g2, g, p1, p2, hu, hser⟩ := main_printed h
  refine ⟨g1, g2, p1, p2, fun hf => ?_⟩
  have so1 := C130.source (R := PopulateTool.reader R) hx (C130.reader_safe R) hd1 p1
  have so2 := C130.source (R := PopulateTool.reader R) hx (C130.reader_safe R) hd2 p2
  obtain ⟨t1, q1, -⟩ := so1.rules
  obtain ⟨t2, q2, -⟩ := so2.rules
  have f1 : ReadFrom (sect d1) g1.rules := read_from q1
  have f2 : ReadFrom (sect d2) g2.rules := read_from q2
  have leg1 := legible_run _ q1
  have leg2 := legible_run _ q2
  have n1 := neat_source so1 hf.tags.1
  have n2 := neat_source so2 hf.tags.2
  rw [if_pos rfl] at hu
  obtain ⟨l, rules, classes, r, hl, hr, hc, hrr, rfl⟩ := union_shape hu
  obtain ⟨c1, c2, c3⟩ := readRules_ok hrr
  rw [f1.rules, f1.xml.2.1, f2.rules, f2.xml.2.1, names_of, names_of] at hr
  rw [f1.classes, f1.xml.1, f2.classes, f2.xml.1, names_of, names_of] at hc
  rw [f1.xml.2.2, f2.xml.2.2] at c3
  obtain ⟨ec1, ec2⟩ := union_elements hf.classes (read_filter hf.read.1) (read_filter hf.read.2) hc c1
  obtain ⟨er1, er2⟩ := union_elements hf.rules (read_filter hf.read.1) (read_filter hf.read.2) hr c2
  obtain ⟨ea1, ea2⟩ := union_acts (read_filter hf.read.1) (read_filter hf.read.2) c3
  have from_ : ∀ {p : Node → Bool} {n : Node}, n ∈ (sect d1).filter p ∨ n ∈ (sect d2).filter p → p n = true ∧ Legible n := by
    rintro p n (hn | hn)
    · exact ⟨(List.mem_filter.1 hn).2, leg1 n (List.mem_filter.1 hn).1⟩
    · exact ⟨(List.mem_filter.1 hn).2, leg2 n (List.mem_filter.1 hn).1⟩
  have hcls := fun n hn => from_ ((ec1 n).1 hn)
  have hrul := fun n hn => from_ ((er1 n).1 hn)
  have hact := fun n hn => from_ ((ea2 n).1 hn)
  have gl := good_union n1 n2 hl
  have hmd : MGood R.x true (unionMeta E l.refs g1.md g2.md) := by
    refine mgood_union (vals := unionValues E.ord g1.lgr.refs g2.lgr.refs) ?_ gl.refs so1.md so2.md ht hf.descriptions.1
      hf.descriptions.2
    intro v hv
    unfold unionValues at hv
    rw [(E.ord.strs_perm _).mem_iff, mem_union] at hv
    rcases hv with hv | hv
    · exact values_full so1.md so1.lgr.refs v hv
    · exact values_full so2.md so2.lgr.refs v hv
  obtain ⟨d2', k1, k2, k3⟩ := outcome_reread R hdb hx hmd (manager_refs rfl rfl) (gl.refs ▸ gl) hcls hrul hact
  rw [hser] at k1
  cases k1
  obtain ⟨v1, v2, v3⟩ := parts (fun n hn => (hcls n hn).1) (fun n hn => (hrul n hn).1) (fun n hn => (hact n hn).1)
  rw [← k2] at v1 v2 v3
  refine ⟨⟨by rw [v1, v2, v3, k2], ⟨by rw [v1]; exact ec1, by rw [v1]; exact ec2⟩, ⟨by rw [v2]; exact er1, by rw [v2]; exact er2⟩,
    ⟨by rw [v3]; exact ea2, by rw [v3]; exact ea1⟩⟩, fun cs => ?_⟩
  obtain ⟨cs', g', w1, w2, w3, w4, w5, w6, w7⟩ := k3 cs
  obtain ⟨-, u1, u2, u3, u4, -⟩ := union_exact_partial E.ord none none g1.lgr g2.lgr l n1.wf n2.wf n1.intact n2.intact hl
  obtain ⟨o1, o2, -⟩ := C58.union_references E.ord none none g1.lgr g2.lgr l n1.wf n2.wf n1.intact n2.intact hl
  refine ⟨cs', g', w1, ⟨?_, ?_, ?_, ?_, ?_, ?_⟩, ?_, w6, ?_, w7⟩
  · intro k h1 h2
    cases hk : g'.lgr.rep.lookup k with
    | none => rfl
    | some c =>
      have := w4 k (by rw [hk]; rfl)
      rw [u1 k h1 h2] at this
      cases this
  · intro k e h1 h2
    obtain ⟨c', e1, e2⟩ := w3 k _ (u2 k e h1 h2)
    exact ⟨c', e1, e2.attrs.symm, e2.range.symm, by rw [← e2.vars]; simp [CharObj.getVariants, sortAsc]⟩
  · intro k e h1 h2
    obtain ⟨c, e0, e1, e2, e3⟩ := u3 k e h1 h2
    obtain ⟨c', e4, e5⟩ := w3 k _ e0
    exact ⟨c', e4, e5.attrs ▸ e1, e5.range ▸ e2, by rw [← e5.vars]; exact e3⟩
  · intro k a b h1 h2
    obtain ⟨c, e0, e1⟩ := u4 k a b h1 h2
    obtain ⟨c', e4, e5⟩ := w3 k _ e0
    exact ⟨c', e4, ⟨e5.attrs ▸ e1.comment, e5.attrs ▸ e1.tags, e5.attrs ▸ e1.tagsNodup, e5.attrs ▸ e1.norules,
      e5.attrs ▸ e1.norefs, e5.range ▸ e1.norange, by rw [← e5.vars]; exact e1.vars⟩⟩
  · intro v
    rw [← o1]
    unfold C58.HasRef
    rw [w5]
  · rw [w5]; exact o2
  · have := union_meta E l.refs g1.md g2.md
    rw [w2]
    exact ⟨⟨this.common.1, this.common.2, this.common.3, this.common.4, this.common.5⟩, this.version, this.description,
      this.languages⟩
  · intro a
    rw [acts_mem w6.actions, acts_mem f1.actions, acts_mem f2.actions, v3]
    constructor
    · rintro ⟨n, hn, e⟩
      exact ((ea2 n).1 hn).imp (fun h => ⟨n, h, e⟩) (fun h => ⟨n, h, e⟩)
    · rintro (⟨n, hn, e⟩ | ⟨n, hn, e⟩)
      · exact ⟨n, (ea2 n).2 (.inl hn), e⟩
      · exact ⟨n, (ea2 n).2 (.inr hn), e⟩

/-- **C140** (partial) What `lgr_compare ... INTERSECT` prints, in the same way: of the actions there is one of the first LGR
for those that both have, up to comments and references. Missing: as in `union_printed_partial`. -/
theorem intersect_printed_partial (hdb : R.db = none) (hx : C99.Sound R.x) (ht : C99.DateOk R.x true (some E.today))
    {d1 d2 d' : Doc} (hd1 : DocOk (PopulateTool.reader R) d1) (hd2 : DocOk (PopulateTool.reader R) d2)
    {s1 s2 : Option Bool} (h : main E R false s1 s2 d1 d2 = .printed d') :
    ∃ g1 g2, (parseDoc (PopulateTool.reader R) [] d1).2 = .ok (some g1) ∧
      (parseDoc (PopulateTool.reader R) [] d2).2 = .ok (some g2) ∧
      (Fair E d1 d2 g1 g2 → IntersectSection (sect d1) (sect d2) (sect d') ∧
        ∀ cs, ∃ cs' g', parseDoc (PopulateTool.reader R) cs d' = (cs', .ok (some g')) ∧
          IntersectEntries g1.lgr g2.lgr g'.lgr ∧ IntersectMeta E.today g1.md g2.md g'.md ∧ ReadFrom (sect d') g'.rules ∧
          (∀ a, (∃ b ∈ g'.rules.actions, C55.Alike b a) ↔
            (∃ b ∈ g1.rules.actions, C55.Alike b a) ∧ ∃ b ∈ g2.rules.actions, C55.Alike b a) ∧
          g'.rules.actions.Pairwise (fun a b => ¬ C55.Alike a b) ∧ serializeDoc g' = .ok d') := by
  obtain ⟨g1, g2, g, p1, p2, hu, hser⟩ := main_printed h
  refine ⟨g1, g2, p1, p2, fun hf => ?_⟩
  have so1 := C130.source (R := PopulateTool.reader R) hx (C130.reader_safe R) hd1 p1
  have so2 := C130.source (R := PopulateTool.reader R) hx (C130.reader_safe R) hd2 p2
  obtain ⟨t1, q1, -⟩ := so1.rules
  obtain ⟨t2, q2, -⟩ := so2.rules
  have f1 : ReadFrom (sect d1) g1.rules := read_from q1
  have f2 : ReadFrom (sect d2) g2.rules := read_from q2
  have leg1 := legible_run _ q1
  have n1 := neat_source so1 hf.tags.1
  have n2 := neat_source so2 hf.tags.2
  rw [if_neg (by simp)] at hu
  obtain ⟨l, rules, classes, actions, r, hl, ha, hr, hc, hrr, rfl⟩ := intersect_shape hu
  obtain ⟨c1, c2, c3⟩ := readRules_ok hrr
  rw [f1.rules, f1.xml.2.1, f2.rules, f2.xml.2.1, names_of, names_of] at hr
  rw [f1.classes, f1.xml.1, f2.classes, f2.xml.1, names_of, names_of] at hc
  rw [f1.xml.2.2] at ha
  obtain ⟨ec1, ec2⟩ := intersect_elements hf.classes (read_filter hf.read.1) hc c1
  obtain ⟨er1, er2⟩ := intersect_elements hf.rules (read_filter hf.read.1) hr c2
  have from_ : ∀ {p : Node → Bool} {n : Node}, n ∈ (sect d1).filter p → p n = true ∧ Legible n := fun hn =>
    ⟨(List.mem_filter.1 hn).2, leg1 _ (List.mem_filter.1 hn).1⟩
  have hcls := fun n hn => from_ ((ec1 n).1 hn).1
  have hrul := fun n hn => from_ ((er1 n).1 hn).1
  have hsub := intersect_sub E.acts_perm (read_filter hf.read.1) ha c3
  have hact := fun n hn => from_ (hsub n hn)
  have gl := good_intersect n1 n2 hl
  have hmd : MGood R.x true (intersectMeta E l.refs g1.md g2.md) := by
    refine mgood_intersect (vals := intersectValues E.ord g1.lgr.refs g2.lgr.refs) ?_ gl.refs so1.md so2.md ht
      hf.descriptions.1 hf.descriptions.2
    intro v hv
    unfold intersectValues at hv
    rw [(E.ord.strs_perm _).mem_iff, List.mem_filter, mem_toSet] at hv
    exact values_full so1.md so1.lgr.refs v hv.1
  obtain ⟨d2', k1, k2, k3⟩ := outcome_reread R hdb hx hmd (manager_refs rfl rfl) (gl.refs ▸ gl) hcls hrul hact
  rw [hser] at k1
  cases k1
  obtain ⟨v1, v2, v3⟩ := parts (fun n hn => (hcls n hn).1) (fun n hn => (hrul n hn).1) (fun n hn => (hact n hn).1)
  rw [← k2] at v1 v2 v3
  refine ⟨⟨by rw [v1, v2, v3, k2], ⟨by rw [v1]; exact ec1, by rw [v1]; exact ec2⟩, ⟨by rw [v2]; exact er1, by rw [v2]; exact er2⟩,
    by rw [v3]; exact hsub⟩, fun cs => ?_⟩
  obtain ⟨cs', g', w1, w2, w3, w4, w5, w6, w7⟩ := k3 cs
  obtain ⟨-, u1, u2, -⟩ := C31.intersect_exact E.ord none none g1.lgr g2.lgr l n1.wf n2.wf n1.intact n2.intact hl
  obtain ⟨o1, o2, -⟩ := C58.intersect_references E.ord none none g1.lgr g2.lgr l n1.wf n2.wf n1.intact n2.intact hl
  have hacts : Acts r.actionsXml g'.rules.actions := by
    have := w6.actions
    rwa [v3] at this
  obtain ⟨-, -, z3, z4⟩ := intersect_acts E.acts_perm (read_filter hf.read.1) f1.actions ha c3 hacts
  refine ⟨cs', g', w1, ⟨?_, ?_, ?_, ?_⟩, ?_, w6, z3, z4, w7⟩
  · intro k hk0
    cases hk : g'.lgr.rep.lookup k with
    | none => rfl
    | some c =>
      have := w4 k (by rw [hk]; rfl)
      rw [u1 k hk0] at this
      cases this
  · intro k a b h1 h2
    obtain ⟨c, e0, e1⟩ := u2 k a b h1 h2
    obtain ⟨c', e4, e5⟩ := w3 k _ e0
    exact ⟨c', e4, ⟨e5.attrs ▸ e1.comment, e5.attrs ▸ e1.tags, e5.attrs ▸ e1.tagsNodup, e5.attrs ▸ e1.norules,
      e5.attrs ▸ e1.norefs, e5.range ▸ e1.norange, by rw [← e5.vars]; exact e1.vars⟩⟩
  · intro v
    rw [← o1]
    unfold C58.HasRef
    rw [w5]
  · rw [w5]; exact o2
  · have := intersect_meta E l.refs g1.md g2.md
    rw [w2]
    exact ⟨⟨this.common.1, this.common.2, this.common.3, this.common.4, this.common.5⟩, this.version, this.description,
      this.languages⟩

/-! ## When the tool prints -/

theorem forall_len {α β : Type} {R : α → β → Prop} {l : List α} {m : List β} (h : List.Forall₂ R l m) : m.length = l.length :=
  h.length_eq.symm

/-- **C140** (partial) The tool prints both, whenever both documents are read and the schema does not reject them, if no entry
and no variant has both a `when` and a `not-when` rule (`C30.Fit`); `force` lets these in, and then `add_cp` or
`add_variant` raise, see `both_rules_wrong`. -/
theorem tool_prints_partial (hdb : R.db = none) (hx : C99.Sound R.x) (ht : C99.DateOk R.x true (some E.today))
    {d1 d2 : Doc} (hd1 : DocOk (PopulateTool.reader R) d1) (hd2 : DocOk (PopulateTool.reader R) d2)
    {s1 s2 : Option Bool} (hs1 : s1 ≠ some false) (hs2 : s2 ≠ some false) {g1 g2 : Loaded}
    (p1 : (parseDoc (PopulateTool.reader R) [] d1).2 = .ok (some g1))
    (p2 : (parseDoc (PopulateTool.reader R) [] d2).2 = .ok (some g2)) (hf : Fair E d1 d2 g1 g2)
    (t1 : C30.Fit none g1.lgr) (t2 : C30.Fit none g2.lgr) (u : Bool) :
    ∃ d', main E R u s1 s2 d1 d2 = .printed d' := by
  have so1 := C130.source (R := PopulateTool.reader R) hx (C130.reader_safe R) hd1 p1
  have so2 := C130.source (R := PopulateTool.reader R) hx (C130.reader_safe R) hd2 p2
  obtain ⟨_, q1, -⟩ := so1.rules
  obtain ⟨_, q2, -⟩ := so2.rules
  have f1 : ReadFrom (sect d1) g1.rules := read_from q1
  have f2 : ReadFrom (sect d2) g2.rules := read_from q2
  have leg1 := legible_run _ q1
  have leg2 := legible_run _ q2
  have n1 := neat_source so1 hf.tags.1
  have n2 := neat_source so2 hf.tags.2
  have from_ : ∀ {p : Node → Bool} {n : Node}, n ∈ (sect d1).filter p ∨ n ∈ (sect d2).filter p → p n = true ∧ Legible n := by
    rintro p n (hn | hn)
    · exact ⟨(List.mem_filter.1 hn).2, leg1 n (List.mem_filter.1 hn).1⟩
    · exact ⟨(List.mem_filter.1 hn).2, leg2 n (List.mem_filter.1 hn).1⟩
  unfold main PopulateTool.parseLgr
  rw [if_neg hs1, if_neg hs2, p1, p2]
  dsimp only
  cases u with
  | true =>
    rw [if_pos rfl]
    obtain ⟨l, hl⟩ := union_returns E.ord none none g1.lgr g2.lgr n1.wf n2.wf n1.intact n2.intact t1 t2
    obtain ⟨⟨rules, hr⟩, -⟩ := C57.union_named_returns E.ord renamed (((sect d1).filter isRule).map nameOf)
      (((sect d1).filter isRule).map shown) (((sect d2).filter isRule).map nameOf) (((sect d2).filter isRule).map shown)
      (by simp) (by simp)
    obtain ⟨⟨classes, hc⟩, -⟩ := C57.union_named_returns E.ord renamed (((sect d1).filter isCls).map nameOf)
      (((sect d1).filter isCls).map shown) (((sect d2).filter isCls).map nameOf) (((sect d2).filter isCls).map shown)
      (by simp) (by simp)
    obtain ⟨cs, hcs⟩ := named_read hf.classes (read_filter hf.read.1) (read_filter hf.read.2) hc
    obtain ⟨rs, hrs⟩ := named_read hf.rules (read_filter hf.read.1) (read_filter hf.read.2) hr
    obtain ⟨as, has⟩ := acts_read (a1 := g1.rules.actions) (a2 := g2.rules.actions) (read_filter (p := isAct) hf.read.1)
      (read_filter (p := isAct) hf.read.2)
    let r : Rules := { ruleNames := rules.1.map some, rulesXml := rs, clsNames := classes.1.map some, clsXml := cs,
                       actions := (unionActions g1.rules.actions (((sect d1).filter isAct).map shown) g2.rules.actions
                         (((sect d2).filter isAct).map shown)).1, actionsXml := as }
    have hu : unionLoaded E g1 g2 = .ok { md := unionMeta E l.refs g1.md g2.md, lgr := l, rules := r } := by
      unfold unionLoaded
      rw [hl]
      dsimp only
      rw [f1.rules, f1.xml.2.1, f2.rules, f2.xml.2.1, names_of, names_of, hr]
      dsimp only
      rw [f1.classes, f1.xml.1, f2.classes, f2.xml.1, names_of, names_of, hc]
      dsimp only
      rw [f1.xml.2.2, f2.xml.2.2]
      unfold readRules
      rw [hcs, hrs, has]
    obtain ⟨ec1, -⟩ := union_elements hf.classes (read_filter hf.read.1) (read_filter hf.read.2) hc hcs
    obtain ⟨er1, -⟩ := union_elements hf.rules (read_filter hf.read.1) (read_filter hf.read.2) hr hrs
    obtain ⟨-, ea2⟩ := union_acts (read_filter hf.read.1) (read_filter hf.read.2) has
    have gl := good_union n1 n2 hl
    have hmd : MGood R.x true (unionMeta E l.refs g1.md g2.md) := by
      refine mgood_union (vals := unionValues E.ord g1.lgr.refs g2.lgr.refs) ?_ gl.refs so1.md so2.md ht hf.descriptions.1
        hf.descriptions.2
      intro v hv
      unfold unionValues at hv
      rw [(E.ord.strs_perm _).mem_iff, mem_union] at hv
      rcases hv with hv | hv
      · exact values_full so1.md so1.lgr.refs v hv
      · exact values_full so2.md so2.lgr.refs v hv
    obtain ⟨d', k1, -⟩ := outcome_reread R hdb hx hmd (manager_refs rfl rfl) (gl.refs ▸ gl) (r := r)
      (fun n hn => from_ ((ec1 n).1 hn)) (fun n hn => from_ ((er1 n).1 hn)) (fun n hn => from_ ((ea2 n).1 hn))
    exact ⟨d', by unfold printed; rw [hu]; dsimp only; rw [k1]⟩
  | false =>
    rw [if_neg (by simp)]
    obtain ⟨l, hl⟩ := C31.intersect_returns E.ord none none g1.lgr g2.lgr n1.wf n2.wf n1.intact n2.intact t1 t2
    obtain ⟨out, xs, ha⟩ := C56.intersect_actions_returns E.acts E.acts_perm E.second g1.rules.actions
      (((sect d1).filter isAct).map shown) g2.rules.actions (by rw [List.length_map]; exact forall_len f1.actions)
    obtain ⟨-, rules, hr⟩ := C57.union_named_returns E.ord renamed (((sect d1).filter isRule).map nameOf)
      (((sect d1).filter isRule).map shown) (((sect d2).filter isRule).map nameOf) (((sect d2).filter isRule).map shown)
      (by simp) (by simp)
    obtain ⟨-, classes, hc⟩ := C57.union_named_returns E.ord renamed (((sect d1).filter isCls).map nameOf)
      (((sect d1).filter isCls).map shown) (((sect d2).filter isCls).map nameOf) (((sect d2).filter isCls).map shown)
      (by simp) (by simp)
    obtain ⟨cs, hcs⟩ := common_read hf.classes (read_filter hf.read.1) hc
    obtain ⟨rs, hrs⟩ := common_read hf.rules (read_filter hf.read.1) hr
    obtain ⟨as, has⟩ := sub_read E.acts_perm (read_filter hf.read.1) ha
    let r : Rules := { ruleNames := rules.1.map some, rulesXml := rs, clsNames := classes.1.map some, clsXml := cs,
                       actions := out, actionsXml := as }
    have hu : intersectLoaded E g1 g2 = .ok { md := intersectMeta E l.refs g1.md g2.md, lgr := l, rules := r } := by
      unfold intersectLoaded
      rw [hl]
      dsimp only
      rw [f1.xml.2.2, ha]
      dsimp only
      rw [f1.rules, f1.xml.2.1, f2.rules, f2.xml.2.1, names_of, names_of, hr]
      dsimp only
      rw [f1.classes, f1.xml.1, f2.classes, f2.xml.1, names_of, names_of, hc]
      dsimp only
      unfold readRules
      rw [hcs, hrs, has]
    obtain ⟨ec1, -⟩ := intersect_elements hf.classes (read_filter hf.read.1) hc hcs
    obtain ⟨er1, -⟩ := intersect_elements hf.rules (read_filter hf.read.1) hr hrs
    have hsub := intersect_sub E.acts_perm (read_filter hf.read.1) ha has
    have gl := good_intersect n1 n2 hl
    have hmd : MGood R.x true (intersectMeta E l.refs g1.md g2.md) := by
      refine mgood_intersect (vals := intersectValues E.ord g1.lgr.refs g2.lgr.refs) ?_ gl.refs so1.md so2.md ht
        hf.descriptions.1 hf.descriptions.2
      intro v hv
      unfold intersectValues at hv
      rw [(E.ord.strs_perm _).mem_iff, List.mem_filter, mem_toSet] at hv
      exact values_full so1.md so1.lgr.refs v hv.1
    obtain ⟨d', k1, -⟩ := outcome_reread R hdb hx hmd (manager_refs rfl rfl) (gl.refs ▸ gl) (r := r)
      (fun n hn => from_ (.inl ((ec1 n).1 hn).1)) (fun n hn => from_ (.inl ((er1 n).1 hn).1))
      (fun n hn => from_ (.inl (hsub n hn)))
    exact ⟨d', by unfold printed; rw [hu]; dsimp only; rw [k1]⟩

end Lgr.Props.C140
