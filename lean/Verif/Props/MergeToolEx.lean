import Verif.Props.MergeTool
import Verif.Props.CompareToolWrong
import Verif.Props.MergeCases

/-!
# C143: examples and violations
-/

namespace Lgr.Props.C143
open Lgr LGR Repertoire Xml MetaXml RulesXml DocXml Compare CompareTool MergeSet MergeTool C104 C140

/-- The rules of the documents below, and as they are after the merge. -/
def cls1 : Node := .mk "class" [("name", "a")] (some "61-63") []
def cls2 : Node := .mk "class" [("name", "en-a")] (some "61-63") []
def rule1 : Node := .mk "rule" [("name", "r")] none [.mk "class" [("by-ref", "a")] none []]
def rule2 : Node := .mk "rule" [("name", "en-r")] none [.mk "class" [("by-ref", "en-a")] none []]
def rule3 : Node := .mk "rule" [("name", "s")] none [.mk "any" [] none []]
def rule4 : Node := .mk "rule" [("name", "und-Grek-s")] none [.mk "any" [] none []]
def act1 : Node := .mk "action" [("disp", "invalid"), ("match", "r")] none []
def act2 : Node := .mk "action" [("disp", "invalid"), ("match", "en-r")] none []

def mread (t : String) : Option Node :=
  if t = shown cls2 then some cls2 else if t = shown rule2 then some rule2 else if t = shown rule4 then some rule4
  else if t = shown act2 then some act2 else none

def menv : MergeTool.Env := { env0 with read := mread, scx := fun _ => [] }

def set1 : Doc :=
  { metaE := some
      [{ tag := "version", attrs := [("comment", "draft")], text := .plain "1" },
       { tag := "language", text := .plain "en" },
       { tag := "description", attrs := [("type", "text/plain")], text := .plain "First" },
       { tag := "validity-start", text := .plain "2020-01-01" },
       { tag := "references", refs := [([("id", "0"), ("comment", "c")], .plain "RFC 7940")] }]
    data :=
      [{ tag := "range", attrs := [("first-cp", "61"), ("last-cp", "62"), ("tag", "t")] },
       { tag := "char", attrs := [("cp", "0065"), ("ref", "0")],
         vars := [[("cp", "66"), ("type", "allocatable"), ("when", "r")]] }]
    rules := some [cls1, rule1, act1] }

def set2 : Doc :=
  { metaE := some
      [{ tag := "version", text := .plain "2" },
       { tag := "language", text := .plain "und-Grek" },
       { tag := "description", attrs := [("type", "text/html")], text := .cdata "<p>Second</p>" },
       { tag := "validity-start", text := .plain "2021-01-01" },
       { tag := "references", refs := [([("id", "1")], .plain "RFC 7940"), ([("id", "2")], .plain "Other")] }]
    data :=
      [{ tag := "char", attrs := [("cp", "0062"), ("tag", "u"), ("ref", "2")] },
       { tag := "char", attrs := [("cp", "03B1")] }]
    rules := some [rule3] }

/-- The merged section. -/
def nodes : List Node := [cls2, rule2, rule4, act2]

theorem set1_ok : DocOk (PopulateTool.reader reader0) set1 := by
  refine ⟨?_, by decide +kernel, fun h => by cases h⟩
  rintro ms ⟨⟩ e he
  apply melemOk_sound
  revert e
  decide +kernel

theorem set2_ok : DocOk (PopulateTool.reader reader0) set2 := by
  refine ⟨?_, by decide +kernel, fun h => by cases h⟩
  rintro ms ⟨⟩ e he
  apply melemOk_sound
  revert e
  decide +kernel

/-- What is needed of an LGR for `Told`. -/
def tells (lang ver desc type : String) (g : Loaded) : Bool :=
  decide (g.md.languages = [lang]) && decide ((g.md.version.map MetaXml.Txt.value) = some (some ver)) &&
    decide (g.md.description = some ⟨some desc, some type⟩)

theorem set1_read : isRead (parseDoc (PopulateTool.reader reader0) [] set1).2 (tells "en" "1" "First" "text/plain") = true := by
  decide +kernel

theorem set2_read : isRead (parseDoc (PopulateTool.reader reader0) [] set2).2
    (tells "und-Grek" "2" "<p>Second</p>" "text/html") = true := by
  decide +kernel

theorem tells_facts {lang ver desc type : String} {g : Loaded} (h : tells lang ver desc type g = true) :
    g.md.languages = [lang] ∧ (∃ v, g.md.version = some v ∧ v.value ≠ none) ∧
      g.md.description = some ⟨some desc, some type⟩ := by
  unfold tells at h
  simp only [Bool.and_eq_true, decide_eq_true_eq] at h
  refine ⟨h.1.1, ?_, h.2⟩
  have h2 := h.1.2
  cases hv : g.md.version with
  | none => rw [hv] at h2; cases h2
  | some v =>
    rw [hv] at h2
    refine ⟨v, rfl, fun hn => ?_⟩
    rw [show Option.map MetaXml.Txt.value (some v) = some v.value from rfl, hn] at h2
    cases h2

theorem set_told (gs : List Loaded) (h : Read reader0 [set2, set1] gs) : Told gs := by
  obtain ⟨g2, e2, f2⟩ := of_read set2_read
  obtain ⟨g1, e1, f1⟩ := of_read set1_read
  obtain ⟨a1, a2, a3⟩ := tells_facts f1
  obtain ⟨b1, b2, b3⟩ := tells_facts f2
  have hgs : gs = [g2, g1] := by
    cases h with
    | cons h h' =>
      cases h' with
      | cons h' h'' =>
        cases h''
        rw [e2] at h
        rw [e1] at h'
        cases h; cases h'; rfl
  subst hgs
  refine ⟨⟨g2, by simp, b2⟩, ⟨g2, by simp, by rw [b3]; simp⟩, ?_, ?_, ?_⟩
  · intro g hg d hd hn v hv
    simp only [List.mem_cons, List.not_mem_nil, or_false] at hg
    rcases hg with rfl | rfl
    · rw [b3] at hd; cases hd; cases hv; decide
    · rw [a3] at hd; cases hd; exact absurd hn (by decide)
  · intro g hg d hd n hn
    simp only [List.mem_cons, List.not_mem_nil, or_false] at hg
    rcases hg with rfl | rfl
    · rw [b3] at hd; cases hd; cases hn; decide
    · rw [a3] at hd; cases hd; cases hn; decide
  · intro g hg
    simp only [List.mem_cons, List.not_mem_nil, or_false] at hg
    rcases hg with rfl | rfl
    · rw [b1]; decide
    · rw [a1]; decide

abbrev VarRow := Option String × Option String × Option String
abbrev Row := Option String × Option String × List VarRow
instance : DecidableEq VarRow := inferInstance
instance : DecidableEq Row := inferInstance

/-- What is printed of the data. -/
def rows (d : Doc) : List Row :=
  d.data.map (fun e => (dget e.attrs "cp", dget e.attrs "tag", e.vars.map (fun v => (dget v "cp", dget v "type", dget v "when"))))

/-- The documents meet the hypotheses of `merge_prints_partial`, and a document is printed. -/
example : C99.Sound reader0.x ∧ C99.DateOk reader0.x true (some menv.today) ∧
    (∀ d ∈ [set2, set1], DocOk (PopulateTool.reader reader0) d) ∧ (∀ gs, Read reader0 [set2, set1] gs → Told gs) ∧
    ∃ d', MergeTool.main menv reader0 [set2, set1] = .printed d' ∧
      rows d' = [(some "0061", some "en-t", []), (some "0062", some "und-Grek-u en-t", []),
        (some "0065", none, [(some "0066", some "blocked", some "en-r")]), (some "03B1", none, [])] ∧
      (sect d').map shown = nodes.map shown := by
  refine ⟨C99.x0_sound, ?_, ?_, set_told, ?_⟩
  · rintro t ⟨⟩
    exact ⟨by decide +kernel, rfl⟩
  · intro d hd
    simp only [List.mem_cons, List.not_mem_nil, or_false] at hd
    rcases hd with rfl | rfl
    · exact set2_ok
    · exact set1_ok
  · obtain ⟨d', h, hp⟩ := of_printed (o := MergeTool.main menv reader0 [set2, set1]) (p := fun d' => decide
      (rows d' = [(some "0061", some "en-t", []), (some "0062", some "und-Grek-u en-t", []),
        (some "0065", none, [(some "0066", some "blocked", some "en-r")]), (some "03B1", none, [])] ∧
      (sect d').map shown = nodes.map shown)) (by decide +kernel)
    exact ⟨d', h, of_decide_eq_true hp⟩

/-- The sections, whatever the identifiers of references. -/
def sec1 (map : List (String × String)) (other : String → List (String × String)) : C117.Doc :=
  { script := "en", es := [cls1, rule1, act1], map := map, other := other }
def sec2 (map : List (String × String)) (other : String → List (String × String)) : C117.Doc :=
  { script := "und-Grek", es := [rule3], map := map, other := other }

/-- They can be written, and the texts of the merged section are read as the elements. -/
example (m1 m2 : List (String × String)) (o1 o2 : String → List (String × String)) :
    (∀ doc ∈ [sec1 m1 o1, sec2 m2 o2], C117.Writable doc) ∧ C117.mNodes [sec1 m1 o1, sec2 m2 o2] = nodes ∧
    ∀ n ∈ nodes, menv.read (shown n) = some n := by
  have hrefs : ∀ e ∈ [cls1, rule1, act1, rule3], ∀ m, C117.refsOf m e = [] := by
    intro e he m
    simp only [List.mem_cons, List.not_mem_nil, or_false] at he
    rcases he with rfl | rfl | rfl | rfl <;> rfl
  refine ⟨?_, by rfl, ?_⟩
  · intro doc hd
    simp only [List.mem_cons, List.not_mem_nil, or_false] at hd
    rcases hd with rfl | rfl
    · refine ⟨by show C117.Clean "en"; decide, (fun q hq => by cases hq), ?_, ?_, ?_, ?_⟩
      · intro e he m _
        rw [hrefs e (by simp only [sec1, List.mem_cons, List.not_mem_nil, or_false] at he; simp [he]; tauto)]
        decide
      · intro e he _
        exact C117.written_of (by
          have : ∀ e ∈ [cls1, rule1, act1], C117.writtenB e = true := by decide +kernel
          exact this e he)
      · intro e he hr
        exact ⟨C117.written_of (by
          have : ∀ e ∈ [cls1, rule1, act1], C117.writtenB e = true := by decide +kernel
          exact this e he), by
          have : ∀ e ∈ [cls1, rule1, act1], C101.isRule e = true → C117.nameOf e ≠ "" := by decide +kernel
          exact this e he hr⟩
      · intro e he ha
        simp only [sec1, List.mem_cons, List.not_mem_nil, or_false] at he
        rcases he with rfl | rfl | rfl
        · exact absurd ha (by decide)
        · exact absurd ha (by decide)
        · exact C117.leaf_act (k := "match") (m := "r") (i := 30) (by decide +kernel) (by decide) (by decide) (by decide)
            (by decide) (.inr (by decide +kernel))
    · refine ⟨by show C117.Clean "und-Grek"; decide, (fun q hq => by cases hq), ?_, ?_, ?_, ?_⟩
      · intro e he m _
        rw [hrefs e (by simp only [sec2, List.mem_cons, List.not_mem_nil, or_false] at he; simp [he])]
        decide
      · intro e he _
        exact C117.written_of (by
          have : ∀ e ∈ [rule3], C117.writtenB e = true := by decide +kernel
          exact this e he)
      · intro e he hr
        exact ⟨C117.written_of (by
          have : ∀ e ∈ [rule3], C117.writtenB e = true := by decide +kernel
          exact this e he), by
          have : ∀ e ∈ [rule3], C101.isRule e = true → C117.nameOf e ≠ "" := by decide +kernel
          exact this e he hr⟩
      · intro e he ha
        simp only [sec2, List.mem_cons, List.not_mem_nil, or_false] at he
        subst he
        exact absurd ha (by decide)
  · have hd : [shown cls2, shown rule2, shown rule4, shown act2].Nodup := by decide +kernel
    simp only [List.nodup_cons, List.mem_cons, List.not_mem_nil, or_false, not_or] at hd
    obtain ⟨⟨a1, a2, a3⟩, ⟨b1, b2⟩, c1, -⟩ := hd
    intro n hn
    show mread (shown n) = some n
    unfold mread
    simp only [nodes, List.mem_cons, List.not_mem_nil, or_false] at hn
    rcases hn with rfl | rfl | rfl | rfl
    · rw [if_pos rfl]
    · rw [if_neg (Ne.symm a1), if_pos rfl]
    · rw [if_neg (Ne.symm a2), if_neg (Ne.symm b1), if_pos rfl]
    · rw [if_neg (Ne.symm a3), if_neg (Ne.symm b2), if_neg (Ne.symm c1), if_pos rfl]

/-! ## Violations -/

theorem readDocs_none {R : Reader} {d : Doc} {ds2 : List Doc} (hd : (parseDoc (PopulateTool.reader R) [] d).2 = .ok none) :
    ∀ {ds1 : List Doc} {gs : List Loaded}, Read R ds1 gs → readDocs R (ds1 ++ d :: ds2) = .ok none
  | [], _, _ => by
    rw [List.nil_append]
    unfold readDocs
    rw [hd]
  | e :: ds1, gs, h => by
    cases h with
    | cons h1 h2 =>
      rw [List.cons_append]
      unfold readDocs
      rw [h1]
      dsimp only
      rw [readDocs_none hd h2]

/-- **C143** (violation) The tool means to report a document which has no LGR, but ends with a `TypeError` instead: what
`merge_lgrs` returns then cannot be unpacked. -/
theorem no_lgr_wrong (E : MergeTool.Env) (R : Reader) {ds1 ds2 : List Doc} {d : Doc} {gs : List Loaded} (h1 : Read R ds1 gs)
    (hd : (parseDoc (PopulateTool.reader R) [] d).2 = .ok none) (hl : (ds1 ++ d :: ds2).length ≠ 1) :
    MergeTool.main E R (ds1 ++ d :: ds2) = .raised .typeError := by
  unfold MergeTool.main
  rw [if_neg hl, readDocs_none hd h1]

/-- A document without metadata and entries has no LGR. -/
example : (parseDoc (PopulateTool.reader reader0) [] { metaE := none, data := [] }).2 = .ok none ∧
    ∃ gs, Read reader0 [set1] gs := by
  obtain ⟨g, h, -⟩ := of_read set1_read
  exact ⟨rfl, [g], .cons h .nil⟩

/-- A document without version and description. -/
def set3 : Doc :=
  { metaE := some [{ tag := "language", text := .plain "und-Cyrl" }]
    data := [{ tag := "char", attrs := [("cp", "0430")] }]
    rules := none }

/-- The same with a description. -/
def set4 : Doc :=
  { set3 with metaE := some [{ tag := "language", text := .plain "und-Cyrl" }, { tag := "description", text := .plain "text" }] }

/-- **C143** (violation) Documents which have no description are read, but no document is printed for them: their merged description
is an empty one of type `text/html`, written as an empty CDATA section, and where `lxml` reads no text from such a section (as
`reader0` does; `emptyCdata`) the merged LGR is not read again. With a description the document is printed. -/
theorem untold_wrong : reader0.x.emptyCdata = none ∧
    (∀ d ∈ [set3, set3], DocOk (PopulateTool.reader reader0) d ∧ ∃ g, (parseDoc (PopulateTool.reader reader0) [] d).2 = .ok (some g)) ∧
    (∃ e, MergeTool.main menv reader0 [set3, set3] = .raised e) ∧
    ∃ d', MergeTool.main menv reader0 [set4, set4] = .printed d' := by
  refine ⟨rfl, ?_, of_raised (by decide +kernel), ?_⟩
  · intro d hd
    have h : d = set3 := by simpa using hd
    subst h
    obtain ⟨g, h, -⟩ := of_read (o := (parseDoc (PopulateTool.reader reader0) [] set3).2) (p := fun _ => true) (by decide +kernel)
    refine ⟨⟨?_, by decide +kernel, fun h => (by cases h)⟩, g, h⟩
    rintro ms ⟨⟩ e he
    apply melemOk_sound
    revert e
    decide +kernel
  · obtain ⟨d', h, -⟩ := of_printed (o := MergeTool.main menv reader0 [set4, set4]) (p := fun _ => true) (by decide +kernel)
    exact ⟨d', h⟩

end Lgr.Props.C143
