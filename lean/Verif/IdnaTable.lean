import Verif.DocXml

/-!
# `tools/make_idna_repertoire.py`

From the registry of IDNA properties of a Unicode version to the document which the tool prints. Fetching the registry
and reading it as XML are left out: the registry is given by its `registry` elements with their `record` elements.
-/

namespace Lgr.IdnaTable
open Lgr Text DocXml

/-- A `record` element: `record.find(tag)` for `codepoint` and `property`, `none` when there is no such element, and
its text, `none` for an empty one. -/
structure Record where
  codepoint : Option (Option (List Char))
  prop : Option (Option String)
  deriving DecidableEq, Repr

/-- A `registry` element: its attribute `id` and its records. -/
structure Registry where
  id : Option String
  records : List Record
  deriving DecidableEq, Repr

/-- Python `<=` on lists of integers. -/
def lexLe : List Int → List Int → Bool
  | [], _ => true
  | _ :: _, [] => false
  | a :: l, b :: m => decide (a < b) || (decide (a = b) && lexLe l m)

/-- Lines 42-44: the identifier of the registry with the properties. -/
def registryId (pyInt : List Char → Option Int) (version : String) : Option String :=
  match (splitOn '.' version.toList).mapM pyInt with
  | none => none
  | some v => some (if lexLe v [6, 0, 0] then "idna-tables-" ++ version ++ "-properties" else "idna-tables-properties")

/-- Lines 45-48: `registry.findall(record_xpath)`. -/
def recordsOf (regs : List Registry) (id : String) : List Record :=
  (regs.filter (fun r => decide (r.id = some id))).flatMap Registry.records

/-- Line 52. -/
def keptProps : List String := ["PVALID", "CONTEXTO", "CONTEXTJ"]

/-- Line 55: `codepoint.find('-') > 0`. -/
def dashed : List Char → Bool
  | [] => false
  | c :: s => decide (c ≠ '-') && decide ('-' ∈ s)

/-- Lines 55-61; unpacking a list which has not two items is a `ValueError`. The LGR has no Unicode database. -/
def addText (g : LGR) (s : List Char) : LGR × Except Err Unit :=
  if dashed s then
    match (splitOn '-' s).mapM parseHex with
    | some [f, l] => g.addRange none f l {}
    | _ => (g, .error .valueError)
  else
    match parseHex s with
    | some x => g.addCp none (.int x) {}
    | none => (g, .error .valueError)

/-- Lines 48-61: the body of the loop. -/
def addRecord (g : LGR) (r : Record) : LGR × Except Err Unit :=
  match r.codepoint with
  | none => (g, .error .attributeError)
  | some cp =>
    match r.prop with
    | none => (g, .error .attributeError)
    | some none => (g, .ok ())
    | some (some p) =>
      if p ∉ keptProps then (g, .ok ())
      else
        match cp with
        | none => (g, .error .attributeError)
        | some s => addText g s

/-- Lines 23-65: `make_idna_repertoire`, with the document which is printed. The LGR has the metadata of
`lgr/metadata.py` 148-163. -/
def makeRepertoire (pyInt : List Char → Option Int) (version : String) (regs : List Registry) : Except Err Doc :=
  match registryId pyInt version with
  | none => .error .valueError
  | some id =>
    match forEach addRecord {} (recordsOf regs id) with
    | (_, .error e) => .error e
    | (g, .ok ()) => serializeDoc { md := {}, lgr := g, rules := {} }

end Lgr.IdnaTable
