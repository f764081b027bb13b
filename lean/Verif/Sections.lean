import Verif.AllTags

/-!
# The sections of a document, in any order

`lgr/parser/xml_parser.py` 155-171, 491-516: `parse_document` and `_fast_iter` take the elements of the
document one after the other, whatever their order and number. `Verif/DocXml.lean` is the case of one
`meta`, one `data` and at most one `rules`, in this order.
-/

namespace Lgr.Sections
open Lgr Xml MetaXml RulesXml DocXml

/-- An element of the document; sections are not inside one another. -/
inductive Sect where
  | metaE (ms : List MElem)
  | data (es : List Elem)
  | rules (ns : List Node)
  | other

/-- State of the parser: conformance results and `self._lgr`. -/
structure Reading where
  checks : Rfc7940.Results := []
  lgr : Option Loaded := none

/-- The name of a class is the one of a tag class. -/
def isTag (k : String) : Bool := (AllTags.tagOf k).isSome

/-- `classes_lookup` after a `data` section: the tag classes are those of the LGR (`lgr/core.py` 2094-2109).
Simplified: a class declared under the name of a tag class before that section is dropped. -/
def withTags (g : LGR) (r : Rules) : Rules :=
  { r with rs := { r.rs with lk := { r.rs.lk with
      classes := r.rs.lk.classes.filter (fun p => !isTag p.1) ++ tagClasses g } } }

/-- One turn of the loop of `_fast_iter`, `xml_parser.py` 496-515. The test of line 497 compares an element
with a string and is false. `self._lgr` is a new LGR after each `meta`. Simplified: what a section without
LGR writes in the conformance results is left out. -/
def readSect (R : Reader) (s : Reading) : Sect → Reading × Except Err Unit
  | .metaE ms =>
    match parseMeta R.x R.force s.checks ms with
    | (m, .error e) => ({ s with checks := m.checks }, .error e)
    | (m, .ok ()) => ({ checks := m.checks, lgr := some { md := m.md, lgr := newLgr R m.md, rules := {} } }, .ok ())
  | .data es =>
    match s.lgr with
    | none => (s, orphanData es)
    | some g =>
      match parseData R.db R.force { lgr := g.lgr, checks := s.checks } es with
      | (p, .error e) => ({ s with checks := p.checks }, .error e)
      | (p, .ok ()) =>
        ({ checks := p.checks, lgr := some { g with lgr := p.lgr, rules := withTags p.lgr g.rules } }, .ok ())
  | .rules ns =>
    match s.lgr with
    | none => (s, orphanRules ns)
    | some g =>
      match parseRules R.parser (g.rules, { nextId := g.ids }) ns with
      | ((_, t), .error e) => ({ s with checks := noteBad t.bad s.checks }, .error e)
      | ((r, t), .ok ()) =>
        ({ checks := noteBad t.bad s.checks, lgr := some { g with rules := r, ids := t.nextId } }, .ok ())
  | .other => (s, .ok ())

/-- `xml_parser.py` 155-171: `parse_document`. -/
def readDoc (R : Reader) (checks : Rfc7940.Results) (l : List Sect) : Rfc7940.Results × Except Err (Option Loaded) :=
  match forEach (readSect R) { checks := checks } l with
  | (s, .error e) => (s.checks, .error e)
  | (s, .ok ()) => (Rfc7940.addTestResult s.checks "parse_xml" true, .ok s.lgr)

end Lgr.Sections
