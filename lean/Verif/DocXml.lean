import Verif.RulesXml

/-!
# Whole LGR documents

`lgr/parser/xml_parser.py` 137-171, 491-516 and `lgr/parser/xml_serializer.py` 19-37: the sections of a
document one after the other. Simplified: the sections are in the order of RFC 7940 (`meta`, `data`,
`rules`), each at most once; `Verif/Sections.lean` has them in any order and number.
-/

namespace Lgr.DocXml
open Lgr Xml MetaXml RulesXml

/-- A document. `<data>` is required; RFC 7940 section 4 makes the other sections optional. -/
structure Doc where
  metaE : Option (List MElem)
  data : List Elem
  rules : Option (List Node) := none

/-- The parser: `lxml` and languages (`x`), Unicode database, Unicode properties and depth of recursion for
the patterns of rules, whether IDNA-invalid code points are refused, and `force`. -/
structure Reader where
  x : MetaXml.Ctx
  db : UniDb
  props : String → Except Err CpSet
  fuel : Nat
  strict : Bool
  force : Bool

/-- The part of the parser for rules. -/
def Reader.parser (R : Reader) : Parser := { db := R.props, fuel := R.fuel, udb := R.db.isSome, force := R.force }

/-- An LGR: metadata and references, code points, rules; `ids` counts the rules read. The classes of tags
are in `lgr` and, once rules are read, in `rules` too. -/
structure Loaded where
  md : Meta
  lgr : LGR
  rules : Rules
  ids : Nat := 0

/-- The references of the metadata, as the edit operations see them. -/
def managerOf (m : Meta) : RefManager :=
  { refs := m.refs.map (fun p => (p.1, { value := p.2.value.getD "", comment := p.2.note })), nextId := m.nextId }

/-- `LGR(...)`, `xml_parser.py` 225-229, `lgr/core.py` 84-145. -/
def newLgr (R : Reader) (m : Meta) : LGR := { refs := managerOf m, raiseInvalid := R.strict }

/-- The classes of tags in `classes_lookup`, `lgr/core.py` 2094-2109. -/
def tagClasses (g : LGR) : List (String × Cls) :=
  g.tagCls.map (fun p => (Cls.tagPrefix ++ p.1, .base { name := some p.1, codepoints := p.2 }))

/-- The rules before the section is read. -/
def newRules (g : LGR) : Rules := { rs := { lk := { classes := tagClasses g } } }

/-- `_process_data` when `self._lgr` is `None`: `self._lgr.add_cp` is an `AttributeError`. -/
def orphanData : List Elem → Except Err Unit
  | [] => .ok ()
  | e :: es =>
    if e.tag = "char" then
      match getCp e.attrs with
      | .error er => .error er
      | .ok _ => .error .attributeError
    else if e.tag = "range" then
      match getHex e.attrs "first-cp" with
      | .error er => .error er
      | .ok _ =>
        match getHex e.attrs "last-cp" with
        | .error er => .error er
        | .ok _ => .error .attributeError
    else orphanData es

/-- `_process_rules` when `self._lgr` is `None`. -/
def orphanRules : List Node → Except Err Unit
  | [] => .ok ()
  | n :: ns =>
    if n.tag = "class" ∨ (combOf n.tag).isSome then
      match parseClass n with
      | .error e => .error e
      | .ok _ => .error .attributeError
    else if n.tag = "rule" then
      match parseRuleElem {} n with
      | (_, .error e) => .error e
      | (_, .ok _) => .error .attributeError
    else if n.tag = "action" then
      match parseAction n with
      | .error e => .error e
      | .ok _ => .error .attributeError
    else orphanRules ns

/-- A document without `meta`: `elem == DATA_TAG` on line 497 compares an element with a string, so the
metadata is not created. The conformance results are left out here. -/
def orphan (d : Doc) : Except Err (Option Loaded) :=
  match orphanData d.data with
  | .error e => .error e
  | .ok () =>
    match orphanRules (d.rules.getD []) with
    | .error e => .error e
    | .ok () => .ok none

/-- `self.rfc7940_checks.error('parse_xml')` for the elements of rules which are not handled. -/
def noteBad (bad : Bool) (cs : Rfc7940.Results) : Rfc7940.Results :=
  if bad then Rfc7940.addTestResult cs "parse_xml" false else cs

/-- `xml_parser.py` 155-171, 491-516: `parse_document`, with the conformance results. -/
def parseDoc (R : Reader) (checks : Rfc7940.Results) (d : Doc) : Rfc7940.Results × Except Err (Option Loaded) :=
  match d.metaE with
  | none => (checks, orphan d)
  | some ms =>
    match parseMeta R.x R.force checks ms with
    | (m, .error e) => (m.checks, .error e)
    | (m, .ok ()) =>
      match parseData R.db R.force { lgr := newLgr R m.md, checks := m.checks } d.data with
      | (p, .error e) => (p.checks, .error e)
      | (p, .ok ()) =>
        match parseRules R.parser (newRules p.lgr, {}) (d.rules.getD []) with
        | ((_, t), .error e) => (noteBad t.bad p.checks, .error e)
        | ((r, t), .ok ()) =>
          (Rfc7940.addTestResult (noteBad t.bad p.checks) "parse_xml" true,
            .ok (some { md := m.md, lgr := p.lgr, rules := r, ids := t.nextId }))

/-- `xml_parser.py` 137-153: `unicode_version`, which only reads `<meta>`. `None.metadata` is an
`AttributeError`. -/
def unicodeVersion (R : Reader) (checks : Rfc7940.Results) (d : Doc) : Except Err (Option String) :=
  match d.metaE with
  | none => .error .attributeError
  | some ms =>
    match parseMeta R.x R.force checks ms with
    | (_, .error e) => .error e
    | (m, .ok ()) => .ok m.md.unicodeVersion

/-- `xml_serializer.py` 19-37: `serialize_lgr`. -/
def serializeDoc (g : Loaded) : Except Err Doc :=
  match serializeMeta g.md with
  | .error e => .error e
  | .ok ms =>
    match serializeData g.lgr.rep with
    | .error e => .error e
    | .ok es => .ok { metaE := some ms, data := es, rules := some (serializeRules g.rules) }

end Lgr.DocXml
