import Verif.Props.RulesXml

/-!
# C101: examples and violations
-/

namespace Lgr.Props.C101
open Lgr Xml Text RulesXml Matcher

/-- `<class name="a">…</class>` -/
def clsA (text : String) : Node := .mk "class" [("name", "a")] (some text) []

/-- `<rule name="r"><class by-ref="a"/></rule>` -/
def ruleA : Node := .mk "rule" [("name", "r")] none [.mk "class" [("by-ref", "a")] none []]

/-- The rule made of it. -/
def matA (i : Nat) : Matcher := .rule i (some "r") none [.cls (.base { byRef := some "a" }) .none] .none

/-- With Unicode database. -/
def withDb : Parser := { db := C42.noDb, fuel := 9, udb := true, force := false }

/-- The class with one code point. -/
def valA (x : Nat) : Cls := .base { name := some "a", codepoints := [x] }

theorem patternA {lk : Lookups} {x : Nat} (hx : x < 0x110000) (h : dget lk.classes "a" = some (valA x))
    {κ : Cache} {beh : Bool} (hκ : dget κ (0, beh) = none) :
    patternC C42.noDb lk 9 beh (matA 0) κ =
      (dset κ (0, beh) (.seqs [.set (fun c => decide (c ∈ [x]))]),
        .ok (.seqs [.set (fun c => decide (c ∈ [x]))])) := by
  have e : classPattern C42.noDb lk 7 (.base { byRef := some "a" }) = .ok (.set (fun c => decide (c ∈ [x]))) := by
    unfold classPattern
    rw [Cls.getSet]
    simp only [h]
    rw [valA, Cls.getSet]
    simp only
    rw [C65.pat_of _ x hx (by simp)]
  rw [matA, patternC.eq_def]
  simp only [hκ, mapC]
  rw [patternC.eq_def]
  simp only [e]
  rfl

/-- The cache once the rule has been read. -/
def cacheA (x : Nat) : Cache :=
  [((0, true), .seqs [.set (fun c => decide (c ∈ [x]))]), ((0, false), .seqs [.set (fun c => decide (c ∈ [x]))])]

theorem precalcA {lk : Lookups} {x : Nat} (hx : x < 0x110000) (h : dget lk.classes "a" = some (valA x)) :
    precalculate C42.noDb lk 9 (matA 0) [] = (cacheA x, .ok ()) := by
  unfold precalculate
  rw [patternA hx h rfl]
  simp only
  rw [patternA hx h rfl]
  rfl

/-- The state with these classes, and no rules. -/
def before (cl : List (String × Cls)) (ns : List (Option String)) (xs : List Node) : Rules :=
  { rs := { lk := { classes := cl } }, clsNames := ns, clsXml := xs }

/-- The state after the rule. -/
def after (x : Nat) (cl : List (String × Cls)) (ns : List (Option String)) (xs : List Node) : Rules :=
  { rs := { lk := { rules := [("r", matA 0)], classes := cl }, cache := cacheA x }, ruleNames := [some "r"],
    rulesXml := [ruleA], clsNames := ns, clsXml := xs }

theorem readA {x : Nat} (hx : x < 0x110000) {cl : List (String × Cls)} (h : dget cl "a" = some (valA x))
    (ns : List (Option String)) (xs : List Node) :
    parseItem withDb (before cl ns xs, {}) ruleA = ((after x cl ns xs, { nextId := 1 }), .ok ()) := by
  rw [item_rule (by rfl)]
  refine ⟨matA 0, cacheA x, rfl, ?_, .inl ?_, rfl, rfl, rfl⟩
  · simp only [withDb, if_true]
    exact precalcA hx h
  · simp [matA, Matcher.validate, Matcher.validateAll, Cls.validate, before, h]

/-- The document: the class is defined after the rule a second time. -/
def twice : List Node := [clsA "61", ruleA, clsA "62"]

theorem read_twice : parseRules withDb ({}, {}) twice =
    ((after 0x61 [("a", valA 0x62)] [some "a", some "a"] [clsA "61", clsA "62"], { nextId := 1 }), .ok ()) := by
  have h1 : parseItem withDb ({}, {}) (clsA "61") = ((before [("a", valA 0x61)] [some "a"] [clsA "61"], {}), .ok ()) := by
    rw [item_cls (by rfl)]
    exact ⟨valA 0x61, rfl, .inl rfl, rfl, rfl, rfl, rfl⟩
  refine forEach_cons.2 ⟨_, h1, forEach_cons.2 ⟨_, readA (by decide) rfl _ _, forEach_cons.2 ⟨_, ?_, rfl⟩⟩⟩
  rw [item_cls (by rfl)]
  exact ⟨valA 0x62, rfl, .inl rfl, rfl, rfl, rfl, rfl⟩

theorem reread_twice : parseRules withDb ({}, {}) [clsA "61", clsA "62", ruleA] =
    ((after 0x62 [("a", valA 0x62)] [some "a", some "a"] [clsA "61", clsA "62"], { nextId := 1 }), .ok ()) := by
  have h1 : parseItem withDb ({}, {}) (clsA "61") = ((before [("a", valA 0x61)] [some "a"] [clsA "61"], {}), .ok ()) := by
    rw [item_cls (by rfl)]
    exact ⟨valA 0x61, rfl, .inl rfl, rfl, rfl, rfl, rfl⟩
  refine forEach_cons.2 ⟨_, h1, forEach_cons.2 ⟨(before [("a", valA 0x62)] [some "a", some "a"]
    [clsA "61", clsA "62"], {}), ?_, forEach_cons.2 ⟨_, readA (by decide) rfl _ _, rfl⟩⟩⟩
  rw [item_cls (by rfl)]
  exact ⟨valA 0x62, rfl, .inl rfl, rfl, rfl, rfl, rfl⟩

theorem matchesA (x : Nat) (cl : List (String × Cls)) (ns : List (Option String)) (xs : List Node) (label : Seq) :
    ((after x cl ns xs).rs.matches_ C42.noDb 9 "r" label none 0).2 = .ok (label.any (fun c => decide (c ∈ [x]))) := by
  have h : patternC C42.noDb (after x cl ns xs).rs.lk 9 false (matA 0) (cacheA x) =
      (cacheA x, .ok (.seqs [.set (fun c => decide (c ∈ [x]))])) := by
    rw [matA, patternC.eq_def]
    rfl
  unfold RuleState.matches_
  have hd : dget (after x cl ns xs).rs.lk.rules "r" = some (matA 0) := rfl
  have hk : (after x cl ns xs).rs.cache = cacheA x := rfl
  simp only [hd]
  rw [Matcher.ruleMatchesC, hk, h]
  simp only [C65.matches_set]

/-- **C101** is violated if a class is defined a second time after a rule which refers to it: a label which
the rule matches is not matched any more once the document has been written and read, and another is. -/
theorem redefined_class_wrong :
    ∃ s t, parseRules withDb ({}, {}) twice = (s, .ok ()) ∧
      parseRules withDb ({}, {}) (serializeRules s.1) = (t, .ok ()) ∧
      (s.1.rs.matches_ C42.noDb 9 "r" [0x61] none 0).2 = .ok true ∧
      (t.1.rs.matches_ C42.noDb 9 "r" [0x61] none 0).2 = .ok false ∧
      (s.1.rs.matches_ C42.noDb 9 "r" [0x62] none 0).2 = .ok false ∧
      (t.1.rs.matches_ C42.noDb 9 "r" [0x62] none 0).2 = .ok true := by
  refine ⟨_, _, read_twice, reread_twice, ?_, ?_, ?_, ?_⟩ <;> rw [matchesA] <;> rfl

/-- **C101** is violated by rules and actions which were added by calls: nothing is written. -/
theorem added_rule_wrong : ∃ rs : RuleState,
    RuleState.addRule {} (.rule 0 (some "r") none [.start] .none) false = (rs, .ok ()) ∧
    (dget rs.lk.rules "r").isSome = true ∧
    serializeRules { rs := rs, ruleNames := [some "r"], actions := [{ disp := "blocked" }] } = [] :=
  ⟨_, rfl, rfl, rfl⟩

/-- A section with all kinds of elements, in a mixed order. -/
def section0 : List Node :=
  [.mk "action" [("disp", "invalid"), ("not-match", "r")] none [],
   clsA "61-63 E9",
   .mk "rule" [("name", "r")] none [.mk "start" [] none [], .mk "choice" [("count", "1+")] none
      [.mk "class" [("by-ref", "a")] none [], .mk "rule" [] none [.mk "char" [("cp", "64 65")] none []]],
      .mk "end" [] none []],
   .mk "union" [("name", "u")] none [.mk "class" [("by-ref", "a")] none [],
      .mk "class" [] none [.mk "range" [("first-cp", "0030"), ("last-cp", "0039")] none []]],
   .mk "rule" [("name", "q")] none [.mk "rule" [("by-ref", "r")] none [], .mk "class" [("by-ref", "u")] none []],
   .mk "action" [("disp", "blocked"), ("any-variant", "blocked allocatable")] none []]

/-- Without Unicode database. -/
def noDb : Parser := { withDb with udb := false }

theorem section_ok : (parseRules noDb ({}, {}) section0).2 = .ok () := by decide +kernel

theorem section_read : (parseRules noDb ({}, {}) section0).1.2 = { nextId := 4 } ∧
    (parseRules noDb ({}, {}) section0).1.1.ruleNames = [some "r", some "q"] ∧
    (parseRules noDb ({}, {}) section0).1.1.clsNames = [some "a", some "u"] ∧
    (parseRules noDb ({}, {}) section0).1.1.actions.length = 2 :=
  ⟨by decide +kernel, by decide +kernel, by decide +kernel, by decide +kernel⟩

example : ∃ s, parseRules noDb ({}, {}) section0 = (s, .ok ()) ∧ (noDb.udb = true → Fresh [] section0) := by
  refine ⟨(parseRules noDb ({}, {}) section0).1, ?_, by intro h; cases h⟩
  rw [← section_ok]

example : ∃ s, parseRules withDb ({}, {}) [clsA "61", ruleA] = (s, .ok ()) ∧ Fresh [] [clsA "61", ruleA] := by
  have h1 : parseItem withDb ({}, {}) (clsA "61") = ((before [("a", valA 0x61)] [some "a"] [clsA "61"], {}), .ok ()) := by
    rw [item_cls (by rfl)]
    exact ⟨valA 0x61, rfl, .inl rfl, rfl, rfl, rfl, rfl⟩
  refine ⟨_, forEach_cons.2 ⟨_, h1, forEach_cons.2 ⟨_, readA (by decide) rfl _ _, rfl⟩⟩, by decide, ?_⟩
  intro n hn
  have : n = "a" := by simpa [classNames, isCls, clsA, ruleA, combOf, Node.tag, Node.attrs, dget] using hn
  subst this
  refine ⟨rfl, fun t h => ?_⟩
  have := congrArg (fun s : String => s.toList.head?) h
  simp [Cls.tagPrefix] at this

end Lgr.Props.C101
