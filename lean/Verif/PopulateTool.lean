import Verif.DocXml
import Verif.Populate

/-!
# The tool which populates variants: `tools/lgr_populate_variants.py`
-/

namespace Lgr.PopulateTool
open Lgr DocXml

/-- What the tool does: it prints a document, logs that the LGR cannot be read and ends, or ends with an
exception. -/
inductive Outcome where
  | printed (d : Doc)
  | logged
  | raised (e : Err)

/-- `XMLParser(xml)`, `lgr/parser/parser.py` 20-24: `force` is `True` and `allow_invalid_property` is `False`. -/
def reader (R : Reader) : Reader := { R with strict := true, force := true }

/-- `lgr/tools/utils.py` 351-363: `parse_lgr`. `schema` is the verdict of the RelaxNG schema, if one is given with
`--rng`; the schema itself is not modelled. -/
def parseLgr (R : Reader) (schema : Option Bool) (d : Doc) : Except Err (Option Loaded) :=
  if schema = some false then .ok none else (parseDoc (reader R) [] d).2

/-- `tools/lgr_populate_variants.py` 28-29 and `lgr/core.py` 1507-1512: the LGR is populated in place, then
written; `none` when populating needs more than `fuel` iterations. -/
def complete (R : Reader) (fuel : Nat) (g : Loaded) : Option Outcome :=
  match Populate.populate R.db fuel g.lgr with
  | none => none
  | some (_, .error e) => some (.raised e)
  | some (l, .ok ()) =>
    match serializeDoc { g with lgr := l } with
    | .error e => some (.raised e)
    | .ok d => some (.printed d)

/-- `tools/lgr_populate_variants.py` 17-29: `main`, after the arguments are read. -/
def main (R : Reader) (schema : Option Bool) (fuel : Nat) (d : Doc) : Option Outcome :=
  match parseLgr R schema d with
  | .error e => some (.raised e)
  | .ok none => some .logged
  | .ok (some g) => complete R fuel g

end Lgr.PopulateTool
