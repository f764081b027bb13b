import Verif.Props.CompareTool

/-!
# C140: examples and violations
-/

namespace Lgr.Props.C140
open Lgr LGR Repertoire Xml MetaXml RulesXml DocXml Compare CompareTool C101 C104

/-- Rules which the documents below have. -/
def ruleR : Node := .mk "rule" [("name", "r")] none [.mk "class" [("by-ref", "a")] none []]
def ruleS : Node := .mk "rule" [("name", "s")] none [.mk "rule" [("by-ref", "r")] none []]
def classA : Node := .mk "class" [("name", "a")] (some "61-63") []
def actI : Node := .mk "action" [("disp", "invalid"), ("match", "r")] none []
def actV : Node := .mk "action" [("disp", "valid")] none []

/-- How their texts are read. -/
def read0 (t : String) : Option Node :=
  if t = shown ruleR then some ruleR else if t = shown ruleS then some ruleS else if t = shown classA then some classA
  else if t = shown actI then some actI else if t = shown actV then some actV else none

/-- Sets of strings are iterated backwards. -/
def env0 : CompareTool.Env :=
  { ord := { seqs := id, vars := id, keys := id, strs := List.reverse, seqs_perm := fun _ => .refl _,
             vars_perm := fun _ => .refl _, keys_perm := fun _ => .refl _, strs_perm := List.reverse_perm }
    scopes := id, acts := id, second := false, today := "2024-02-29", read := read0
    scopes_perm := fun _ => .refl _, acts_perm := fun _ => .refl _ }

theorem texts_distinct : [shown ruleR, shown ruleS, shown classA, shown actI, shown actV].Nodup := by decide +kernel

theorem read0_back {n : Node} (h : n ∈ [ruleR, ruleS, classA, actI, actV]) : env0.read (shown n) = some n := by
  have hd := texts_distinct
  simp only [List.nodup_cons, List.mem_cons, List.not_mem_nil, or_false, not_or] at hd
  obtain ⟨⟨a1, a2, a3, a4⟩, ⟨b1, b2, b3⟩, ⟨c1, c2⟩, d1, -⟩ := hd
  show read0 (shown n) = some n
  unfold read0
  simp only [List.mem_cons, List.not_mem_nil, or_false] at h
  rcases h with rfl | rfl | rfl | rfl | rfl
  · rw [if_pos rfl]
  · rw [if_neg (Ne.symm a1), if_pos rfl]
  · rw [if_neg (Ne.symm a2), if_neg (Ne.symm b1), if_pos rfl]
  · rw [if_neg (Ne.symm a3), if_neg (Ne.symm b2), if_neg (Ne.symm c1), if_pos rfl]
  · rw [if_neg (Ne.symm a4), if_neg (Ne.symm b3), if_neg (Ne.symm c2), if_neg (Ne.symm d1), if_pos rfl]

def docA : Doc :=
  { metaE := some
      [{ tag := "version", attrs := [("comment", "draft")], text := .plain "1" },
       { tag := "language", text := .plain "en" },
       { tag := "description", attrs := [("type", "text/plain")], text := .plain "First" },
       { tag := "validity-start", text := .plain "2020-01-01" },
       { tag := "references", refs := [([("id", "0"), ("comment", "c")], .plain "RFC 7940")] }]
    data :=
      [{ tag := "range", attrs := [("first-cp", "61"), ("last-cp", "62"), ("tag", "t")] },
       { tag := "char", attrs := [("cp", "0065"), ("ref", "0")], vars := [[("cp", "66"), ("type", "blocked")]] }]
    rules := some [classA, ruleR, actI] }

def docB : Doc :=
  { metaE := some
      [{ tag := "version", text := .plain "2" },
       { tag := "language", text := .plain "und-Latn" },
       { tag := "description", attrs := [("type", "text/html")], text := .cdata "<p>Second</p>" },
       { tag := "validity-start", text := .plain "2021-01-01" },
       { tag := "references", refs := [([("id", "1")], .plain "RFC 7940"), ([("id", "2")], .plain "Other")] }]
    data :=
      [{ tag := "char", attrs := [("cp", "0062"), ("tag", "u")] },
       { tag := "char", attrs := [("cp", "0065")], vars := [[("cp", "66"), ("type", "allocatable")], [("cp", "67")]] }]
    rules := some [ruleR, ruleS, actV, actI] }

theorem docA_ok : DocOk (PopulateTool.reader reader0) docA := by
  refine ⟨?_, by decide +kernel, fun h => by cases h⟩
  rintro ms ⟨⟩ e he
  apply melemOk_sound
  revert e
  decide +kernel

theorem docB_ok : DocOk (PopulateTool.reader reader0) docB := by
  refine ⟨?_, by decide +kernel, fun h => by cases h⟩
  rintro ms ⟨⟩ e he
  apply melemOk_sound
  revert e
  decide +kernel

def isPrinted (o : PopulateTool.Outcome) (p : Doc → Bool) : Bool :=
  match o with
  | .printed d => p d
  | _ => false

theorem of_printed {o : PopulateTool.Outcome} {p : Doc → Bool} (h : isPrinted o p = true) : ∃ d, o = .printed d ∧ p d = true := by
  cases o with
  | printed d => exact ⟨d, rfl, h⟩
  | logged => cases h
  | raised e => cases h

def isRead (o : Except Err (Option Loaded)) (p : Loaded → Bool) : Bool :=
  match o with
  | .ok (some g) => p g
  | _ => false

theorem of_read {o : Except Err (Option Loaded)} {p : Loaded → Bool} (h : isRead o p = true) : ∃ g, o = .ok (some g) ∧ p g = true := by
  rcases o with e | _ | g
  · cases h
  · cases h
  · exact ⟨g, rfl, h⟩

/-- The texts of elements of a section, as the writer makes them. -/
def textsOf (d : Doc) : List String := (sect d).map shown

/-- No entry of an LGR that was read has the empty tag if no character has it. -/
theorem no_empty_tag {d : Doc} {g : Loaded} (h : C130.Source (PopulateTool.reader reader0) d g) (ht : C50.tagSet g.lgr "" = []) :
    ∀ k c, g.lgr.rep.lookup k = some c → "" ∉ c.attrs.tags := by
  intro k c hc hm
  have hne : k ≠ [] := by
    rintro rfl
    simp [Repertoire.lookup] at hc
  obtain ⟨x, l, rfl⟩ := List.exists_cons_of_ne_nil hne
  have := (h.lgr.tags "" x).2 ⟨_, c, hc, hm, by simp⟩
  rw [ht] at this
  cases this

def plainDesc (g : Loaded) (v n : String) : Bool :=
  decide (g.md.description = some ⟨some v, some n⟩ ∧ C50.tagSet g.lgr "" = [])

theorem docA_read : isRead (parseDoc (PopulateTool.reader reader0) [] docA).2 (fun g => plainDesc g "First" "text/plain") = true := by
  decide +kernel

theorem docB_read : isRead (parseDoc (PopulateTool.reader reader0) [] docB).2 (fun g => plainDesc g "<p>Second</p>" "text/html") = true := by
  decide +kernel

theorem mild_of {o : Option MetaXml.Txt} {v n : String} (h : o = some ⟨some v, some n⟩) (hv : Mild v) (hn : Mild n) : MildDesc o := by
  intro d hd
  rw [h] at hd
  cases hd
  exact ⟨fun w hw => by cases hw; exact hv, fun w hw => by cases hw; exact hn⟩

theorem agree_cls : Agree ((sect docA).filter isCls) ((sect docB).filter isCls) := by
  have h1 : (sect docA).filter isCls = [classA] := by simp [sect, docA, docB, isCls, isRule, classA, ruleR, ruleS, actI, actV, Node.tag, combOf]
  have h2 : (sect docB).filter isCls = [] := by simp [sect, docA, docB, isCls, isRule, classA, ruleR, ruleS, actI, actV, Node.tag, combOf]
  rw [h1, h2]
  exact ⟨by decide +kernel, by decide +kernel, fun n _ m hm => by cases hm⟩

theorem agree_rule : Agree ((sect docA).filter isRule) ((sect docB).filter isRule) := by
  have h1 : (sect docA).filter isRule = [ruleR] := by simp [sect, docA, docB, isCls, isRule, classA, ruleR, ruleS, actI, actV, Node.tag, combOf]
  have h2 : (sect docB).filter isRule = [ruleR, ruleS] := by simp [sect, docA, docB, isCls, isRule, classA, ruleR, ruleS, actI, actV, Node.tag, combOf]
  rw [h1, h2]
  refine ⟨by decide +kernel, by decide +kernel, fun n hn m hm e => ?_⟩
  simp only [List.mem_cons, List.not_mem_nil, or_false] at hn hm
  subst hn
  rcases hm with rfl | rfl
  · rfl
  · exact absurd e (by decide +kernel)

/-- The documents meet the hypotheses, and what is printed has entries of both with the variants of both, and the classes, rules
and actions of both; the intersection has the common ones, without types of variants. -/
example : C99.Sound reader0.x ∧ C99.DateOk reader0.x true (some env0.today) ∧ DocOk (PopulateTool.reader reader0) docA ∧
    DocOk (PopulateTool.reader reader0) docB ∧
    (∃ g1 g2, (parseDoc (PopulateTool.reader reader0) [] docA).2 = .ok (some g1) ∧
      (parseDoc (PopulateTool.reader reader0) [] docB).2 = .ok (some g2) ∧ Fair env0 docA docB g1 g2) ∧
    (∃ d', main env0 reader0 true none none docA docB = .printed d' ∧
      d'.data.map (fun e => (dget e.attrs "cp", dget e.attrs "tag", e.vars.map (fun v => (dget v "cp", dget v "type")))) =
        [(some "0061", some "t", []), (some "0062", some "u t", []),
         (some "0065", none, [(some "0066", some "blocked"), (some "0067", none)])] ∧
      (sect d').map shown = [classA, ruleR, ruleS, actI, actV].map shown) ∧
    ∃ d', main env0 reader0 false none none docA docB = .printed d' ∧
      d'.data.map (fun e => (dget e.attrs "cp", dget e.attrs "tag", e.vars.map (fun v => (dget v "cp", dget v "type")))) =
        [(some "0062", none, []), (some "0065", none, [(some "0066", none)])] ∧
      (sect d').map shown = [ruleR, actI].map shown := by
  refine ⟨C99.x0_sound, ?_, docA_ok, docB_ok, ?_, ?_, ?_⟩
  · rintro t ⟨⟩
    exact ⟨by decide +kernel, rfl⟩
  · obtain ⟨g1, h1, q1⟩ := of_read docA_read
    obtain ⟨g2, h2, q2⟩ := of_read docB_read
    obtain ⟨a1, a2⟩ := of_decide_eq_true q1
    obtain ⟨b1, b2⟩ := of_decide_eq_true q2
    refine ⟨g1, g2, h1, h2, ⟨fun n hn => read0_back ?_, fun n hn => read0_back ?_⟩, agree_cls, agree_rule, ⟨?_, ?_⟩,
      mild_of a1 (mild_lit (by decide +kernel)) (mild_lit (by decide +kernel)),
      mild_of b1 (mild_lit (by decide +kernel)) (mild_lit (by decide +kernel))⟩
    · simp only [sect, docA, Option.getD_some, List.mem_cons, List.not_mem_nil, or_false] at hn ⊢
      rcases hn with rfl | rfl | rfl <;> simp
    · simp only [sect, docB, Option.getD_some, List.mem_cons, List.not_mem_nil, or_false] at hn ⊢
      rcases hn with rfl | rfl | rfl | rfl <;> simp
    · exact no_empty_tag (C130.source (R := PopulateTool.reader reader0) C99.x0_sound (C130.reader_safe _) docA_ok h1) a2
    · exact no_empty_tag (C130.source (R := PopulateTool.reader reader0) C99.x0_sound (C130.reader_safe _) docB_ok h2) b2
  · obtain ⟨d', h, hp⟩ := of_printed (o := main env0 reader0 true none none docA docB) (p := fun d' => decide
      (d'.data.map (fun e => (dget e.attrs "cp", dget e.attrs "tag", e.vars.map (fun v => (dget v "cp", dget v "type")))) =
        [(some "0061", some "t", []), (some "0062", some "u t", []),
         (some "0065", none, [(some "0066", some "blocked"), (some "0067", none)])] ∧
      (sect d').map shown = [classA, ruleR, ruleS, actI, actV].map shown)) (by decide +kernel)
    exact ⟨d', h, of_decide_eq_true hp⟩
  · obtain ⟨d', h, hp⟩ := of_printed (o := main env0 reader0 false none none docA docB) (p := fun d' => decide
      (d'.data.map (fun e => (dget e.attrs "cp", dget e.attrs "tag", e.vars.map (fun v => (dget v "cp", dget v "type")))) =
        [(some "0062", none, []), (some "0065", none, [(some "0066", none)])] ∧
      (sect d').map shown = [ruleR, actI].map shown)) (by decide +kernel)
    exact ⟨d', h, of_decide_eq_true hp⟩

/-! ## Violations -/

/-- A parser with a Unicode database. -/
def reader1 : Reader := { reader0 with db := some (fun _ => true), force := true }

def docC : Doc :=
  { metaE := some [], data := [{ tag := "char", attrs := [("cp", "0061")] }], rules := some [classA, ruleR, ruleS] }

def isError (o : Except Err (Option Loaded)) : Bool :=
  match o with
  | .error _ => true
  | _ => false

theorem of_error {o : Except Err (Option Loaded)} (h : isError o = true) : ∃ e, o = .error e := by
  cases o with
  | error e => exact ⟨e, rfl⟩
  | ok g => cases h

theorem docC_ok : DocOk (PopulateTool.reader reader0) docC :=
  ⟨fun ms h e he => (by cases h; cases he), by decide +kernel, fun h => by cases h⟩

/-- **C140** (violation) The union of an LGR with itself is printed as a document which a parser with a Unicode database does not
read, though it reads that of the LGR: a rule comes before the rule it refers to, because names are kept in a set. -/
theorem order_wrong : DocOk (PopulateTool.reader reader0) docC ∧ (∃ g, (parseDoc reader1 [] docC).2 = .ok (some g)) ∧
    ∃ d' e, main env0 reader0 true none none docC docC = .printed d' ∧ (parseDoc reader1 [] d').2 = .error e := by
  refine ⟨docC_ok, ?_, ?_⟩
  · obtain ⟨g, h, -⟩ := of_read (o := (parseDoc reader1 [] docC).2) (p := fun _ => true) (by decide +kernel)
    exact ⟨g, h⟩
  · obtain ⟨d', h, hp⟩ := of_printed (o := main env0 reader0 true none none docC docC)
      (p := fun d' => isError (parseDoc reader1 [] d').2) (by decide +kernel)
    obtain ⟨e, he⟩ := of_error hp
    exact ⟨d', e, h, he⟩

/-- Another class of the same name, and what becomes of both in the union. -/
def classB : Node := .mk "class" [("name", "a")] (some "64") []
def class1 : Node := .mk "cla_1ss" [("na_1me", "a_1")] (some "61-63") []
def class2 : Node := .mk "cla_2ss" [("na_2me", "a_2")] (some "64") []

/-- The texts of these. -/
def read1 (t : String) : Option Node :=
  if t = shown class1 then some class1 else if t = shown class2 then some class2 else none

def env1 : CompareTool.Env := { env0 with read := read1 }

def docD : Doc :=
  { metaE := some [], data := [{ tag := "char", attrs := [("cp", "0061")] }], rules := some [classA] }

def docE : Doc :=
  { metaE := some [], data := [{ tag := "char", attrs := [("cp", "0061")] }], rules := some [classB] }

/-- **C140** (violation) Two LGRs have different classes named `a`. In the texts of both each `a` is replaced, so the union has no
class at all but elements `cla_1ss` and `cla_2ss`, and nothing is read of them. -/
theorem replace_wrong : DocOk (PopulateTool.reader reader0) docD ∧ DocOk (PopulateTool.reader reader0) docE ∧
    (∃ g1, (parseDoc (PopulateTool.reader reader0) [] docD).2 = .ok (some g1) ∧ g1.rules.clsNames = [some "a"]) ∧
    (∃ g2, (parseDoc (PopulateTool.reader reader0) [] docE).2 = .ok (some g2) ∧ g2.rules.clsNames = [some "a"]) ∧
    ∃ d' g', main env1 reader0 true none none docD docE = .printed d' ∧ (sect d').map Node.tag = ["cla_1ss", "cla_2ss"] ∧
      (parseDoc (PopulateTool.reader reader0) [] d').2 = .ok (some g') ∧ g'.rules.clsNames = [] := by
  refine ⟨⟨fun ms h e he => (by cases h; cases he), by decide +kernel, fun h => (by cases h)⟩,
    ⟨fun ms h e he => (by cases h; cases he), by decide +kernel, fun h => (by cases h)⟩, ?_, ?_, ?_⟩
  · obtain ⟨g, h, hp⟩ := of_read (o := (parseDoc (PopulateTool.reader reader0) [] docD).2)
      (p := fun g => decide (g.rules.clsNames = [some "a"])) (by decide +kernel)
    exact ⟨g, h, of_decide_eq_true hp⟩
  · obtain ⟨g, h, hp⟩ := of_read (o := (parseDoc (PopulateTool.reader reader0) [] docE).2)
      (p := fun g => decide (g.rules.clsNames = [some "a"])) (by decide +kernel)
    exact ⟨g, h, of_decide_eq_true hp⟩
  · obtain ⟨d', h, hp⟩ := of_printed (o := main env1 reader0 true none none docD docE)
      (p := fun d' => decide ((sect d').map Node.tag = ["cla_1ss", "cla_2ss"]) &&
        isRead (parseDoc (PopulateTool.reader reader0) [] d').2 (fun g => decide (g.rules.clsNames = []))) (by decide +kernel)
    rw [Bool.and_eq_true] at hp
    obtain ⟨g, hg, hq⟩ := of_read hp.2
    exact ⟨d', g, h, of_decide_eq_true hp.1, hg, of_decide_eq_true hq⟩

def docF : Doc :=
  { metaE := some [], data := [{ tag := "char", attrs := [("cp", "0061"), ("when", "r"), ("not-when", "s")] }], rules := none }

def isRaised (o : PopulateTool.Outcome) : Bool :=
  match o with
  | .raised _ => true
  | _ => false

theorem of_raised {o : PopulateTool.Outcome} (h : isRaised o = true) : ∃ e, o = .raised e := by
  cases o with
  | raised e => exact ⟨e, rfl⟩
  | logged => cases h
  | printed d => cases h

/-- **C140** (violation) An LGR which is read, with an entry that has both kinds of rule, has no union with one that does not have
this entry. -/
theorem both_rules_wrong : DocOk (PopulateTool.reader reader0) docF ∧
    (∃ g, (parseDoc (PopulateTool.reader reader0) [] docF).2 = .ok (some g)) ∧
    ∃ e, main env0 reader0 true none none docF docE = .raised e := by
  refine ⟨⟨fun ms h e he => (by cases h; cases he), by decide +kernel, fun h => (by cases h)⟩, ?_, of_raised (by decide +kernel)⟩
  obtain ⟨g, h, -⟩ := of_read (o := (parseDoc (PopulateTool.reader reader0) [] docF).2) (p := fun _ => true) (by decide +kernel)
  exact ⟨g, h⟩

/-- **C140** A document which the schema rejects, or which cannot be read, gives no document. -/
theorem tool_rejects (E : CompareTool.Env) (R : Reader) (u : Bool) (s1 s2 : Option Bool) (d1 d2 : Doc)
    (h : s1 = some false ∨ s2 = some false ∨ (∀ g, (parseDoc (PopulateTool.reader R) [] d1).2 ≠ .ok (some g)) ∨
      ∀ g, (parseDoc (PopulateTool.reader R) [] d2).2 ≠ .ok (some g)) :
    main E R u s1 s2 d1 d2 = .logged ∨ ∃ e, main E R u s1 s2 d1 d2 = .raised e := by
  unfold main PopulateTool.parseLgr
  split
  · exact .inr ⟨_, rfl⟩
  rename_i o1 h1
  split
  · exact .inr ⟨_, rfl⟩
  rename_i o2 h2
  split
  · exfalso
    split at h1
    · cases h1
    split at h2
    · cases h2
    rename_i n1 n2
    rcases h with h | h | h | h
    · exact n1 h
    · exact n2 h
    · exact h _ h1
    · exact h _ h2
  · exact .inl rfl

end Lgr.Props.C140
