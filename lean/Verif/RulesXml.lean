import Verif.MetaXml
import Verif.Rule
import Verif.Action

/-!
# The `<rules>` section of an LGR document, and whole documents

`lgr/parser/xml_parser.py` 330-543, `lgr/parser/xml_serializer.py` 19-37, 173-186. Elements are trees. That
`drop_ns` (570-592), `etree.tostring` and `etree.fromstring` give back the tree is assumed of `lxml`, as well
as that the default name space is added to the tags of a written document. Comments and references of
rules and classes are only in the trees.
-/

namespace Lgr.RulesXml
open Lgr Text Xml

/-- An element: tag, attributes, text and children. -/
inductive Node where
  | mk (tag : String) (attrs : XAttrs) (text : Option String) (children : List Node)
  deriving Repr

namespace Node
def tag : Node → String | mk t _ _ _ => t
def attrs : Node → XAttrs | mk _ a _ _ => a
def text : Node → Option String | mk _ _ t _ => t
def children : Node → List Node | mk _ _ _ c => c
end Node

/-! ## Classes -/

/-- One token of the text of a class, `xml_parser.py` 535-542. -/
def tokenCps (s : List Char) : Except Err (List Nat) :=
  if '-' ∈ s then
    match splitOn '-' s with
    | [a, b] =>
      match parseHex a, parseHex b with
      | some f, some l => .ok (List.range' f (l + 1 - f))
      | _, _ => .error .valueError
    | _ => .error .valueError
  else
    match parseHex s with
    | some n => .ok [n]
    | none => .error .valueError

/-- The loop of `xml_parser.py` 535-542. -/
def textCps : List (List Char) → Except Err (List Nat)
  | [] => .ok []
  | t :: ts =>
    match tokenCps t with
    | .error e => .error e
    | .ok a =>
      match textCps ts with
      | .error e => .error e
      | .ok b => .ok (a ++ b)

/-- `xml_parser.py` 519-543: `cp_or_sequence_from_class`; `None` for other elements, which
`add_codepoint` cannot iterate (`TypeError`). `None.strip` is an `AttributeError`. -/
def cpsOf (n : Node) : Except Err (Option (List Nat)) :=
  if n.tag = "char" then (getCp n.attrs).map some
  else if n.tag = "range" then
    match getHex n.attrs "first-cp" with
    | .error e => .error e
    | .ok f =>
      match getHex n.attrs "last-cp" with
      | .error e => .error e
      | .ok l => .ok (some (List.range' f (l + 1 - f)))
  else if n.tag = "class" then
    match n.text with
    | none => .error .attributeError
    | some t => (textCps (splitWs (strip t.toList))).map some
  else .ok none

/-- `add_codepoint`, `lgr/classes.py` 96-108, after `cp_or_sequence_from_class`. -/
def addCps (b : BaseCls) (n : Node) : Except Err BaseCls :=
  match cpsOf n with
  | .error e => .error e
  | .ok cps =>
    if b.byRef.isSome then .error (.format "BY_REF_AND_OTHER")
    else
      match cps with
      | none => .error .typeError
      | some cps => .ok { b with codepoints := b.codepoints ++ cps }

/-- `for child in elem: cls.add_codepoint(...)`, `xml_parser.py` 471-472. -/
def addAll (b : BaseCls) : List Node → Except Err BaseCls
  | [] => .ok b
  | n :: ns =>
    match addCps b n with
    | .error e => .error e
    | .ok b => addAll b ns

/-- `xml_parser.py` 473-481. -/
def combOf (tag : String) : Option Comb :=
  if tag = "complement" then some .complement
  else if tag = "union" then some .union
  else if tag = "intersection" then some .intersection
  else if tag = "difference" then some .difference
  else if tag = "symmetric-difference" then some .symDiff
  else none

mutual

/-- `xml_parser.py` 451-489: `_parse_class`. For other tags `cls` is unbound: `UnboundLocalError`, a
`NameError`. -/
def parseClass : Node → Except Err Cls
  | .mk tag attrs text children =>
    if tag = "class" then
      match Cls.mkBase { name := dget attrs "name", fromTag := dget attrs "from-tag",
                         property := dget attrs "property", byRef := dget attrs "by-ref" }
          (getList attrs "ref") with
      | .error e => .error e
      | .ok b =>
        match (if children.isEmpty ∧ truthy text then addCps b (.mk tag attrs text children) else .ok b) with
        | .error e => .error e
        | .ok b =>
          match addAll b children with
          | .error e => .error e
          | .ok b => .ok (.base b)
    else
      match combOf tag with
      | none => .error .nameError
      | some op =>
        match parseClasses op [] children with
        | .error e => .error e
        | .ok cs => .ok (.comb (dget attrs "name") op cs)

/-- `for child in elem: cls.add_child(self._parse_class(child))`. -/
def parseClasses (op : Comb) (acc : List Cls) : List Node → Except Err (List Cls)
  | [] => .ok acc
  | n :: ns =>
    match parseClass n with
    | .error e => .error e
    | .ok c =>
      match Cls.addChild op acc c with
      | .error e => .error e
      | .ok acc => parseClasses op acc ns

end

/-! ## Rules -/

/-- Decimal digits. -/
def parseDec (s : List Char) : Option Nat :=
  match s with
  | [] => none
  | _ :: _ => if s.all (fun c => decide ('0' ≤ c ∧ c ≤ '9')) then (s.mapM hexVal).map (valueOf 10) else none

/-- The attribute `count`, as `lgr/matcher.py` 250-272 reads it. Simplified: a malformed count is rejected
here and not when the pattern is made. -/
def parseCount (o : Option String) : Except Err Count :=
  if truthy o = false then .ok .none
  else
    let s := (o.getD "").toList
    if ':' ∈ s then
      match splitOn ':' s with
      | [a, b] =>
        match parseDec a, parseDec b with
        | some lo, some hi => .ok (.range lo hi)
        | _, _ => .error .valueError
      | _ => .error .valueError
    else if s.getLast? = some '+' then
      match parseDec s.dropLast with
      | some n => .ok (.atLeast n)
      | none => .error .valueError
    else
      match parseDec s with
      | some n => .ok (.exact n)
      | none => .error .valueError

/-- What parsing a rule changes besides the rule: the identities used so far, and whether an element was
not handled. -/
structure RState where
  nextId : Nat := 0
  bad : Bool := false
  deriving DecidableEq, Repr

mutual

/-- `xml_parser.py` 377-427: `_parse_rule_helper`; the child to add, if any. -/
def parseHelper : RState → Node → RState × Except Err (Option Matcher)
  | s, .mk tag attrs text children =>
    match parseCount (dget attrs "count") with
    | .error e => (s, .error e)
    | .ok count =>
      if tag = "anchor" then (s, .ok (some .anchor))
      else if tag = "any" then (s, .ok (some (.any count)))
      else if tag = "char" then
        match getCp attrs with
        | .error e => (s, .error e)
        | .ok cp => (s, .ok (some (.char cp count)))
      else if tag = "choice" then
        match parseHelpers false s children with
        | (s, .error e) => (s, .error e)
        | (s, .ok ms) => (s, .ok (some (.choice ms count)))
      else if tag = "end" then (s, .ok (some .fin))
      else if tag = "look-ahead" then
        match parseHelpers false s children with
        | (s, .error e) => (s, .error e)
        | (s, .ok ms) => (s, .ok (some (.ahead ms)))
      else if tag = "look-behind" then
        match parseHelpers false s children with
        | (s, .error e) => (s, .error e)
        | (s, .ok ms) => (s, .ok (some (.behind ms)))
      else if tag = "start" then (s, .ok (some .start))
      else if tag = "rule" then
        if (dget attrs "name").isSome ∧ (dget attrs "by-ref").isSome then
          (s, .error (.format "BY_REF_AND_OTHER"))
        else
          match parseHelpers (dget attrs "by-ref").isSome { s with nextId := s.nextId + 1 } children with
          | (s', .error e) => (s', .error e)
          | (s', .ok ms) => (s', .ok (some (.rule s.nextId (dget attrs "name") (dget attrs "by-ref") ms count)))
      else if tag = "class" ∨ (combOf tag).isSome then
        match parseClass (.mk tag attrs text children) with
        | .error e => (s, .error e)
        | .ok k => (s, .ok (some (.cls k count)))
      else ({ s with bad := true }, .ok none)

/-- The loop over the children of a rule or matcher; `closed` when the rule has `by-ref` (`lgr/rule.py`
59-64). -/
def parseHelpers : Bool → RState → List Node → RState × Except Err (List Matcher)
  | _, s, [] => (s, .ok [])
  | closed, s, n :: ns =>
    match parseHelper s n with
    | (s, .error e) => (s, .error e)
    | (s, .ok none) => parseHelpers closed s ns
    | (s, .ok (some m)) =>
      if closed then (s, .error (.format "BY_REF_AND_OTHER"))
      else
        match parseHelpers closed s ns with
        | (s, .error e) => (s, .error e)
        | (s, .ok ms) => (s, .ok (m :: ms))

end

/-- `xml_parser.py` 357-375: `_parse_rule`, without `precalculate_patterns`. -/
def parseRuleElem (s : RState) (n : Node) : RState × Except Err Matcher :=
  if (dget n.attrs "name").isSome ∧ (dget n.attrs "by-ref").isSome then
    (s, .error (.format "BY_REF_AND_OTHER"))
  else
    match parseHelpers (dget n.attrs "by-ref").isSome { s with nextId := s.nextId + 1 } n.children with
    | (s', .error e) => (s', .error e)
    | (s', .ok ms) => (s', .ok (.rule s.nextId (dget n.attrs "name") (dget n.attrs "by-ref") ms .none))

/-! ## Actions -/

/-- `xml_parser.py` 429-449: `_parse_action`. A missing `disp` is taken for an empty one. -/
def parseAction (n : Node) : Except Err Action :=
  Action.mk?
    { disp := (dget n.attrs "disp").getD "", comment := dget n.attrs "comment", refs := getList n.attrs "ref"
      matchR := dget n.attrs "match", notMatchR := dget n.attrs "not-match"
      anyVariant := getList n.attrs "any-variant", allVariants := getList n.attrs "all-variants"
      onlyVariants := getList n.attrs "only-variants" }

/-! ## The section -/

/-- The part of an LGR about rules, `lgr/core.py` 118-134. -/
structure Rules where
  rs : RuleState := {}
  ruleNames : List (Option String) := []
  rulesXml : List Node := []
  clsNames : List (Option String) := []
  clsXml : List Node := []
  actions : List Action := []
  actionsXml : List Node := []

/-- The parser: Unicode properties and depth of recursion for `precalculate_patterns`, whether it has a
Unicode database, and `force`. -/
structure Parser where
  db : String → Except Err CpSet
  fuel : Nat
  udb : Bool
  force : Bool

/-- One child of `<rules>`, `xml_parser.py` 335-355. -/
def parseItem (P : Parser) (s : Rules × RState) (n : Node) : (Rules × RState) × Except Err Unit :=
  if n.tag = "class" ∨ (combOf n.tag).isSome then
    match parseClass n with
    | .error e => (s, .error e)
    | .ok k =>
      match s.1.rs.addClass k P.force with
      | (_, .error e) => (s, .error e)
      | (rs, .ok ()) =>
        (({ s.1 with rs := rs, clsNames := s.1.clsNames ++ [RuleState.clsName k],
                     clsXml := s.1.clsXml ++ [n] }, s.2), .ok ())
  else if n.tag = "rule" then
    match parseRuleElem s.2 n with
    | (t, .error e) => ((s.1, t), .error e)
    | (t, .ok m) =>
      match s.1.rs.parseRule P.db P.fuel P.udb m P.force with
      | (rs, .error e) => (({ s.1 with rs := rs }, t), .error e)
      | (rs, .ok ()) =>
        (({ s.1 with rs := rs, ruleNames := s.1.ruleNames ++ [dget n.attrs "name"],
                     rulesXml := s.1.rulesXml ++ [n] }, t), .ok ())
  else if n.tag = "action" then
    match parseAction n with
    | .error e => (s, .error e)
    | .ok a =>
      (({ s.1 with actions := s.1.actions ++ [a], actionsXml := s.1.actionsXml ++ [n] }, s.2), .ok ())
  else ((s.1, { s.2 with bad := true }), .ok ())

/-- `xml_parser.py` 330-355: `_process_rules`. -/
def parseRules (P : Parser) (s : Rules × RState) (es : List Node) : (Rules × RState) × Except Err Unit :=
  forEach (parseItem P) s es

/-- `xml_serializer.py` 173-186: `_serialize_rules`. -/
def serializeRules (r : Rules) : List Node := r.clsXml ++ r.rulesXml ++ r.actionsXml

end Lgr.RulesXml
