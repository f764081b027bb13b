import Verif.Lgr
import Verif.Rfc7940
import Verif.Checks

/-!
# The `<data>` section of an LGR document

`lgr/parser/xml_serializer.py` 125-170 and `lgr/parser/xml_parser.py` 231-328, 546-567. An element is its
tag (without the namespace), its attributes and the attributes of the `var` elements inside. That writing
a tree of elements to text and reading it gives back the tree is assumed of `lxml`.
-/

namespace Lgr.Xml
open Lgr Text Checks

/-- Attributes of an element. -/
abbrev XAttrs := List (String × String)

/-- A child of `<data>`; `vars` are the `var` elements that `child.iter(VARIANT_TAG)` lists. -/
structure Elem where
  tag : String
  attrs : XAttrs := []
  vars : List XAttrs := []
  deriving DecidableEq, Repr

/-! ## Writing -/

/-- Characters which `lxml` accepts in text ("All strings must be XML compatible"). -/
def xmlChar (c : Char) : Bool :=
  (c.toNat ∈ [9, 10, 13] || 0x20 ≤ c.toNat) && c.toNat ≠ 0xFFFE && c.toNat ≠ 0xFFFF

/-- A string which `lxml` accepts; `ValueError` is raised for others. -/
def xmlOk (s : String) : Bool := s.toList.all xmlChar

/-- `' '.join(l)`. -/
def joinS (l : List String) : String := String.ofList (join ' ' (l.map String.toList))

/-- `if x is not None: attributes[key] = x`. -/
def optAttr (key : String) : Option String → XAttrs
  | some v => [(key, v)]
  | none => []

/-- `if len(l) > 0: attributes[key] = ' '.join(l)`. -/
def listAttr (key : String) (l : List String) : XAttrs := if l.length > 0 then [(key, joinS l)] else []

/-- `lgr/parser/xml_serializer.py` 155-170: the attributes of a `var` element. -/
def varAttrs (v : Variant) : XAttrs :=
  optAttr "type" v.type ++ optAttr "when" v.whenR ++ optAttr "not-when" v.notWhenR ++
    optAttr "comment" v.comment ++ listAttr "ref" v.refs ++ [("cp", String.ofList (cpAttr v.cp))]

/-- `lgr/parser/xml_serializer.py` 132-170: the element for a character. -/
def charElem (c : CharObj) : Elem :=
  let a := optAttr "comment" c.attrs.comment ++ optAttr "when" c.attrs.whenR ++
    optAttr "not-when" c.attrs.notWhenR ++ listAttr "ref" c.attrs.refs ++ listAttr "tag" c.attrs.tags
  match c.range with
  | some (f, l) =>
    { tag := "range",
      attrs := a ++ [("first-cp", String.ofList (cpToStr f)), ("last-cp", String.ofList (cpToStr l))],
      vars := c.getVariants.map varAttrs }
  | none =>
    { tag := "char", attrs := a ++ [("cp", String.ofList (cpAttr c.cp))],
      vars := c.getVariants.map varAttrs }

/-- All strings of an element are accepted by `lxml`. -/
def Elem.ok (e : Elem) : Bool :=
  e.attrs.all (fun p => xmlOk p.2) && e.vars.all (fun a => a.all (fun p => xmlOk p.2))

/-- `lgr/parser/xml_serializer.py` 125-170: `_serialize_data`. -/
def serializeData (r : Repertoire) : Except Err (List Elem) :=
  let es := r.iter.map charElem
  if es.all Elem.ok then .ok es else .error .valueError

/-! ## Reading -/

/-- `lgr/parser/xml_parser.py` 546-567: `string_to_list`. -/
def splitS (s : String) : List String := (stringToList s.toList).map String.ofList

/-- `string_to_list(child.get(key, ''))`. -/
def getList (a : XAttrs) (key : String) : List String := splitS ((dget a key).getD "")

/-- `[int(c, 16) for c in child.get('cp').split()]`; `None.split` is an `AttributeError`. -/
def getCp (a : XAttrs) : Except Err Seq :=
  match dget a "cp" with
  | none => .error .attributeError
  | some s =>
    match parseCpAttr s.toList with
    | none => .error .valueError
    | some cp => .ok cp

/-- `int(child.get(key), 16)`; `int(None, 16)` is a `TypeError`. -/
def getHex (a : XAttrs) (key : String) : Except Err Nat :=
  match dget a key with
  | none => .error .typeError
  | some s =>
    match parseHex s.toList with
    | none => .error .valueError
    | some n => .ok n

/-- The keyword arguments taken from the attributes, `xml_parser.py` 240-250, 279-285. -/
def optsOf (force : Bool) (a : XAttrs) : Opts :=
  { comment := dget a "comment", ref := getList a "ref", tag := getList a "tag",
    whenR := dget a "when", notWhenR := dget a "not-when", force := force }

/-- The same without `tag`, for a variant. -/
def varOptsOf (force : Bool) (a : XAttrs) : Opts :=
  { comment := dget a "comment", ref := getList a "ref",
    whenR := dget a "when", notWhenR := dget a "not-when", force := force }

/-- State of the parser: the LGR, the conformance results and `previous_codepoint`. -/
structure PState where
  lgr : LGR
  checks : Rfc7940.Results := []
  prev : Seq := []

/-- `self.rfc7940_checks.error(label)`. -/
def PState.error (s : PState) (label : String) : PState :=
  { s with checks := Rfc7940.addTestResult s.checks label false }

/-- `self.rfc7940_checks.tested(label)`. -/
def PState.tested (s : PState) (label : String) : PState :=
  { s with checks := Rfc7940.addTestResult s.checks label true }

/-- `except LGRException`: two failed checks, and the exception is raised again unless `force`
(`xml_parser.py` 269-274, 295-304, 316-325). -/
def guard (force : Bool) (s : PState) : LGR × Except Err Unit → PState × Except Err Unit
  | (g, .ok ()) => ({ s with lgr := g }, .ok ())
  | (g, .error e) =>
    if isLgrException e then
      (({ s with lgr := g }.error "parse_xml").error "codepoint_valid",
        if force then .ok () else .error e)
    else ({ s with lgr := g }, .error e)

/-- The order check, `xml_parser.py` 254-262. Python compares lists lexicographically. -/
def orderCheck (s : PState) (cp : Seq) : PState :=
  let s1 :=
    if cp ≤ s.prev then
      if s.prev.take cp.length = cp then s.error "char_strict_ascending_order"
      else s.error "char_ascending_order"
    else s
  { s1 with prev := cp }

/-- One `var` element, `xml_parser.py` 276-304. -/
def parseVar (db : UniDb) (force : Bool) (cp : Seq) (s : PState) (a : XAttrs) : PState × Except Err Unit :=
  match getCp a with
  | .error e => (s, .error e)
  | .ok v => guard force s (s.lgr.addVariant db (.seq cp) (.seq v) (dget a "type") (varOptsOf force a))

/-- One child of `<data>`, `xml_parser.py` 239-326. -/
def parseElem (db : UniDb) (force : Bool) (s : PState) (e : Elem) : PState × Except Err Unit :=
  if e.tag = "char" then
    match getCp e.attrs with
    | .error er => (s, .error er)
    | .ok cp =>
      let s1 := orderCheck s cp
      match guard force s1 (s1.lgr.addCp db (.seq cp) (optsOf force e.attrs)) with
      | (s2, .error er) => (s2, .error er)
      | (s2, .ok ()) => forEach (parseVar db force cp) s2 e.vars
  else if e.tag = "range" then
    match getHex e.attrs "first-cp" with
    | .error er => (s, .error er)
    | .ok f =>
      match getHex e.attrs "last-cp" with
      | .error er => (s, .error er)
      | .ok l => guard force s (s.lgr.addRange db f l (optsOf force e.attrs))
  else (s, .ok ())

/-- `xml_parser.py` 231-328: `_process_data`. -/
def parseData (db : UniDb) (force : Bool) (s : PState) (es : List Elem) : PState × Except Err Unit :=
  match forEach (parseElem db force) { s with prev := [] } es with
  | (s1, .error e) => (s1, .error e)
  | (s1, .ok ()) => ((s1.tested "char_ascending_order").tested "char_strict_ascending_order", .ok ())

end Lgr.Xml
