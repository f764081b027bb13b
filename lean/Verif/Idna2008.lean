import Verif.RepLemmas

/-!
# IDNA 2008 compliance: `is_idna_valid_cp_or_sequence` (`lgr/utils.py`), `lgr/tools/idna2008_compliance.py`

Names, glyphs and categories of the code points in the report (`cp_report`) are not modelled.
-/

namespace Lgr.Idna2008
open Lgr

/-- `lgr/utils.py` 17: `VALID_IDNA_PROPERTY_VALUES`. -/
def validValues : List String := ["PVALID", "CONTEXTJ", "CONTEXTO"]

/-- The loop of `is_idna_valid_cp_or_sequence`, `lgr/utils.py` 235-243, from the dictionary `bad` of the code points
so far; `prop` is `udata.get_idna_prop`. -/
def validLoop (prop : Nat → String) (all : Bool) : List (Nat × String) → Seq → Bool × List (Nat × String)
  | bad, [] => (decide (bad.length = 0), bad)
  | bad, x :: l =>
    if prop x ∈ validValues then validLoop prop all bad l
    else if all then validLoop prop all (dset bad x (prop x)) l
    else (false, dset bad x (prop x))

/-- `lgr/utils.py` 235-243: `is_idna_valid_cp_or_sequence`. -/
def validSeq (prop : Nat → String) (all : Bool) (s : Seq) : Bool × List (Nat × String) := validLoop prop all [] s

/-- What is read in the Unicode database, and `str.lower`. -/
structure Db where
  prop : Nat → String
  disallowed2003 : Nat → Bool
  lower : String → String

/-- `idna2008_compliance.py` 27-31: `is_out_of_repertoire`; an empty type is false. -/
def outOfRepertoire (db : Db) (c : CharObj) : Bool :=
  c.reflexiveVariants.any fun v =>
    match v.type with
    | none => false
    | some t => decide (t ≠ "") && "out-of-repertoire".isPrefixOf (db.lower t)

/-- A line of the report: `cp`, `idna_property` and `idna2003_compliant`. -/
structure Row where
  cp : Seq
  props : List String
  ok2003 : Bool
  deriving DecidableEq, Repr

/-- The loop of lines 15-19. -/
def compliant2003 (db : Db) : Seq → Bool
  | [] => true
  | x :: l => if db.disallowed2003 x then false else compliant2003 db l

/-- The report. -/
structure Report where
  contains : Bool
  rows : List Row
  compliant : Int
  deriving DecidableEq, Repr

/-- `idna2008_compliance.py` 9-24: `check_idna2008_compliance`. -/
def check (db : Db) (r : Repertoire) : Report :=
  let rows := (r.allChars.filter fun c => !outOfRepertoire db c && !(validSeq db.prop false c.cp).1).map fun c =>
    ({ cp := c.cp, props := c.cp.map db.prop, ok2003 := compliant2003 db c.cp } : Row)
  { contains := decide (0 < rows.length), rows, compliant := (r.len : Int) - rows.length }

end Lgr.Idna2008
