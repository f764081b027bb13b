import Verif.Populate
import Verif.Compare

/-!
# `lgr/tools/harmonize.py`

The function works on deep copies of the LGRs (`_copy` is `False` only in the calls it makes to
itself, on copies), so that an exception leaves nothing behind: the outcome is the pair of results or
the exception. Recursion is at most two calls deep: the inner calls have no root zone LGR.
-/

namespace Lgr.Harmonize
open Lgr LGR Compare Populate

/-- What `harmonize` returns. -/
structure Harmonized where
  g1 : LGR
  g2 : LGR
  review1 : List Seq
  review2 : List Seq

/-- `harmonize.py` 61-71 and 74-84: the loop body for one variant that the LGR does not have. -/
def addMissing (db : UniDb) (cp : Seq) (g : LGR) (v : Seq) : LGR × Except Err Unit :=
  if g.rep.hasCp v = false then
    match g.addCp db (.seq v) { comment := some "Out-of-repertoire" } with
    | (g1, .error e) => (g1, .error e)
    | (g1, .ok ()) =>
      match g1.addVariant db (.seq v) (.seq v) (some "out-of-repertoire")
          { comment := some "Out-of-repertoire" } with
      | (g2, .error e) => (g2, .error e)
      | (g2, .ok ()) => g2.addVariant db (.seq cp) (.seq v) (some "blocked") {}
  else if v = cp then (g, .ok ())
  else g.addVariant db (.seq cp) (.seq v) (some "blocked") {}

/-- `harmonize.py` 57-58: `{v.cp for v in char.get_variants()}`. -/
def variantCps (c : CharObj) : List Seq := toSet id (c.getVariants.map Variant.cp)

/-- `harmonize.py` 52-84: the loop body for one code point of both LGRs. -/
def step (ord : SetOrder) (db1 db2 : UniDb) (s : LGR × LGR) (cp : Seq) :
    (LGR × LGR) × Except Err Unit :=
  match s.1.getChar db1 (.seq cp) with
  | .error e => (s, .error e)
  | .ok c1 =>
    match s.2.getChar db2 (.seq cp) with
    | .error e => (s, .error e)
    | .ok c2 =>
      let v1 := variantCps c1
      let v2 := variantCps c2
      match forEach (addMissing db2 cp) s.2 (ord.seqs (v1.filter (fun v => v ∉ v2))) with
      | (g2, .error e) => ((s.1, g2), .error e)
      | (g2, .ok ()) =>
        match forEach (addMissing db1 cp) s.1 (ord.seqs (v2.filter (fun v => v ∉ v1))) with
        | (g1, r) => ((g1, g2), r)

/-- `harmonize.py` 47-92: what follows the harmonisation with the root zone. `none`: the loop of
`populate_lgr` did not end within `fuel` iterations. -/
def rest (ord : SetOrder) (fuel : Nat) (db1 db2 : UniDb) (g1 g2 : LGR) :
    Option (Except Err Harmonized) :=
  let r1 := cps g1
  let r2 := cps g2
  match forEach (step ord db1 db2) (g1, g2) (ord.seqs (r2.filter (fun x => x ∈ r1))) with
  | (_, .error e) => some (.error e)
  | ((h1, h2), .ok ()) =>
    match populate db1 fuel h1 with
    | none => none
    | some (_, .error e) => some (.error e)
    | some (p1, .ok ()) =>
      match populate db2 fuel h2 with
      | none => none
      | some (_, .error e) => some (.error e)
      | some (p2, .ok ()) =>
        some (.ok ⟨p1, p2, r1.filter (fun x => x ∉ r2), r2.filter (fun x => x ∉ r1)⟩)

/-- `harmonize.py` 15-92 without a root zone LGR. -/
def harmonizeTwo (ord : SetOrder) (fuel : Nat) (db1 db2 : UniDb) (g1 g2 : LGR) :
    Option (Except Err Harmonized) :=
  match g1.expandRanges db1 with
  | (_, .error e) => some (.error e)
  | (e1, .ok ()) =>
    match g2.expandRanges db2 with
    | (_, .error e) => some (.error e)
    | (e2, .ok ()) => rest ord fuel db1 db2 e1 e2

/-- `harmonize.py` 15-92: `harmonize`. The version comments are in `harmonizedComment`. -/
def harmonize (ord : SetOrder) (fuel : Nat) (db1 db2 : UniDb) (g1 g2 : LGR)
    (rz : Option (UniDb × LGR)) : Option (Except Err Harmonized) :=
  match g1.expandRanges db1 with
  | (_, .error e) => some (.error e)
  | (e1, .ok ()) =>
    match g2.expandRanges db2 with
    | (_, .error e) => some (.error e)
    | (e2, .ok ()) =>
      match rz with
      | none => rest ord fuel db1 db2 e1 e2
      | some (dbz, z) =>
        match harmonizeTwo ord fuel db1 dbz e1 z with
        | none => none
        | some (.error e) => some (.error e)
        | some (.ok h1) =>
          match harmonizeTwo ord fuel db2 dbz e2 z with
          | none => none
          | some (.error e) => some (.error e)
          | some (.ok h2) => rest ord fuel db1 db2 h1.g1 h2.g1

/-- `harmonize.py` 38-40: the comment of the version in the metadata, `comment or '' + ' - Harmonized'`.
-/
def harmonizedComment (comment : Option String) : Option String :=
  if truthy comment then comment else some ("" ++ " - Harmonized")

end Lgr.Harmonize
