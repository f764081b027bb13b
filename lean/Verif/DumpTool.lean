import Verif.Tables
import Verif.PopulateTool

/-!
# The tools which print tables as documents

`tools/one_per_line_dump.py`, `tools/rfc4290_dump.py`, `tools/rfc3743_dump.py`: `LgrDumpTool` of `lgr/tools/utils.py`
496-520. The regular expressions of `Reference` and `Version` lines are written as functions; `digit` is `\d`, which matches
no white space; there is no line feed inside a line, so that `.` is any character. Not modelled: arguments, logging, decoding of the file, the output file in place of standard output.
-/

namespace Lgr.DumpTool
open Lgr Text Tables MetaXml DocXml

/-- A word at the start of a text: the rest. -/
def afterWord (w s : List Char) : Option (List Char) := if w.isPrefixOf s then some (s.drop w.length) else none

/-- `\s+` at the start of a text, as long as possible: the rest. -/
def someSpaces : List Char → Option (List Char)
  | [] => none
  | c :: s => if isSpace c then some (s.dropWhile isSpace) else none

/-- `(?:#\s*(?P<comment>.*))?` at the start of a text: the comment. -/
def noteOf : List Char → Option (List Char)
  | '#' :: s => some (s.dropWhile isSpace)
  | _ => none

/-- `\s+(?P<value>[^#]+)\s*(?:#\s*(?P<comment>.*))?` at the start of a text. If nothing is left for the value, the white space
gives back its last character. -/
def refValue (s : List Char) : Option (List Char × Option (List Char)) :=
  let sp := s.takeWhile isSpace
  let rest := s.dropWhile isSpace
  let v := rest.takeWhile (fun c => decide (c ≠ '#'))
  if sp = [] then none
  else if v ≠ [] then some (v, noteOf (rest.drop v.length))
  else if 2 ≤ sp.length then some (sp.drop (sp.length - 1), noteOf rest)
  else none

/-- `\s+(?P<ref_id>\d)…` after the word, `lgr/parser/rfc3743_parser.py` 18. -/
def refAfter (digit : Char → Bool) (s : List Char) : Option (Char × List Char × Option (List Char)) :=
  match someSpaces s with
  | some (c :: t) => if digit c then (refValue t).map (fun p => (c, p)) else none
  | _ => none

/-- `REFERENCE_RE.match`, `lgr/parser/rfc3743_parser.py` 18: value, identifier, comment. -/
def refMatch (digit : Char → Bool) (l : List Char) : Option (String × String × Option String) :=
  match afterWord "Reference".toList l with
  | none => none
  | some s => (refAfter digit s).map (fun p => (String.ofList p.2.1, String.ofList [p.1], p.2.2.map String.ofList))

/-- `\s+(?P<date>\d{8})\s*(?:#\s*(?P<comment>.*))?` at the start of a text. -/
def verDate (digit : Char → Bool) (s : List Char) : Option (List Char × Option (List Char)) :=
  match someSpaces s with
  | none => none
  | some t => if (t.take 8).length = 8 ∧ (t.take 8).all digit = true then some (t.take 8, noteOf ((t.drop 8).dropWhile isSpace)) else none

/-- `\s+(?P<version_no>\d)…` after the word, `lgr/parser/rfc3743_parser.py` 19. -/
def verAfter (digit : Char → Bool) (s : List Char) : Option (Char × List Char × Option (List Char)) :=
  match someSpaces s with
  | some (c :: t) => if digit c then (verDate digit t).map (fun p => (c, p)) else none
  | _ => none

/-- `VERSION_RE.match`, `lgr/parser/rfc3743_parser.py` 19: number, date, comment. -/
def verMatch (digit : Char → Bool) (l : List Char) : Option (String × String × Option String) :=
  match afterWord "Version".toList l with
  | none => none
  | some s => (verAfter digit s).map (fun p => (String.ofList [p.1], String.ofList p.2.1, p.2.2.map String.ofList))

/-- The regular expressions of the parser of RFC 3743 tables. -/
def rex (digit : Char → Bool) : Rex := ⟨digit, refMatch digit, fun l => (verMatch digit l).isSome⟩

/-- The metadata set by a line, `lgr/parser/rfc3743_parser.py` 53-89; `metadata.date` is set without `set_date`. -/
def metaLine (digit : Char → Bool) (m : Meta) (line : List Char) : Meta :=
  if strip line = [] ∨ (strip line).head? = some '#' ∨ (refMatch digit (strip line)).isSome = true then m
  else
    match verMatch digit (strip line) with
    | none => m
    | some (n, d, c) => { m with version := some ⟨some n, c⟩, date := some d }

/-- The parsers the tools are made for. -/
inductive Table where
  | lines | rfc4290 | rfc3743
  deriving DecidableEq, Repr

/-- `self.rfc_parser_cls(self.args.file).parse_document()`, `lgr/tools/utils.py` 511-512; `force` is `True` and
`allow_invalid_property` is `False` (`lgr/parser/parser.py` 20-24). -/
def parse (digit : Char → Bool) (k : Table) (lines : List (List Char)) : LGR × Except Err Unit :=
  match k with
  | .lines => parseLines false lines
  | .rfc4290 => ((parse4290 true false lines).1.1, (parse4290 true false lines).2)
  | .rfc3743 => ((parse3743 (rex digit) (fun i => refIdOk i.toList) true false lines).1.1,
      (parse3743 (rex digit) (fun i => refIdOk i.toList) true false lines).2)

/-- The metadata of the LGR that was read. -/
def metaOf (digit : Char → Bool) (k : Table) (lines : List (List Char)) : Meta :=
  match k with
  | .rfc3743 => lines.foldl (metaLine digit) {}
  | _ => {}

/-- The references of the LGR, as the writer sees them. -/
def withRefs (m : Meta) (r : RefManager) : Meta :=
  { m with refs := r.refs.map (fun p => (p.1, ⟨some p.2.value, p.2.comment⟩)), nextId := r.nextId }

/-- An LGR without rules. -/
def loaded (m : Meta) (g : LGR) : Loaded := { md := withRefs m g.refs, lgr := g, rules := newRules g, ids := 0 }

/-- `LgrDumpTool.run`, `lgr/tools/utils.py` 502-520. -/
def run (digit : Char → Bool) (k : Table) (lines : List (List Char)) : PopulateTool.Outcome :=
  match parse digit k lines with
  | (_, .error e) => .raised e
  | (g, .ok ()) =>
    match serializeDoc (loaded (metaOf digit k lines) g) with
    | .error e => .raised e
    | .ok d => .printed d

end Lgr.DumpTool
