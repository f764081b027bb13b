import Verif.PopulateTool
import Verif.Harmonize

/-!
# The tool which harmonises two LGRs: `tools/lgr_harmonize`

Simplified: a line of output stands for the code point it is about (`format_cp` and `cp_to_ulabel` are not
applied); the output directory is a dictionary of documents; the names of the LGRs are those of the files they are read
from, without directories (`lgr/parser/parser.py` 25-30). The LGRs are copied (`harmonize.py` 33-34, 44, 46) with `deepcopy`,
which leaves the Unicode database behind (`lgr/core.py` 144-160: `__getstate__`, `__setstate__`).
-/

namespace Lgr.HarmonizeTool
open Lgr Compare MetaXml DocXml PopulateTool

/-- `tools/lgr_harmonize` 41-44: the name of a file written for an LGR of that name. -/
def fileName (n : String) : String :=
  if n.toList.drop (n.toList.length - 4) = ".xml".toList then
    String.ofList (n.toList.take (n.toList.length - 4)) ++ "_harmonized.xml"
  else n ++ "_harmonized"

/-- `harmonize.py` 40: the comment of a version. -/
def markTxt (t : Txt) : Txt := { t with note := Harmonize.harmonizedComment t.note }

/-- `harmonize.py` 38-40: metadata after one call of `harmonize`. -/
def mark (m : Meta) : Meta := { m with version := m.version.map markTxt }

/-- The metadata of a result: with a root zone LGR `harmonize` is called on the copies once more, `harmonize.py` 43-47. -/
def marked (root : Bool) (m : Meta) : Meta := if root then mark (mark m) else mark m

/-- The outcome: the files written, and the code points listed for review or the exception. -/
structure Outcome where
  files : List (String × Doc)
  result : Except Err (List Seq × List Seq)

/-- `tools/lgr_harmonize` 39-46: the loop body for one LGR. -/
def write (files : List (String × Doc)) (p : String × Loaded) : List (String × Doc) × Except Err Unit :=
  match serializeDoc p.2 with
  | .error e => (files, .error e)
  | .ok d => (dset files (fileName p.1) d, .ok ())

/-- `tools/lgr_harmonize` 39-56: what follows the call of `harmonize`. -/
def finish (ord : SetOrder) (n1 n2 : String) (h1 h2 : Loaded) (r1 r2 : List Seq) : Outcome :=
  match forEach write [] [(n1, h1), (n2, h2)] with
  | (files, .error e) => ⟨files, .error e⟩
  | (files, .ok ()) => ⟨files, .ok (ord.seqs r1, ord.seqs r2)⟩

/-- `tools/lgr_harmonize` 37-56 with two LGRs. -/
def both (ord : SetOrder) (fuel : Nat) (n1 n2 : String) (g1 g2 : Loaded) (rz : Option Loaded) : Option Outcome :=
  match Harmonize.harmonize ord fuel none none g1.lgr g2.lgr (rz.map (fun z => (none, z.lgr))) with
  | none => none
  | some (.error e) => some ⟨[], .error e⟩
  | some (.ok h) =>
    some (finish ord n1 n2 { g1 with md := marked rz.isSome g1.md, lgr := h.g1 }
      { g2 with md := marked rz.isSome g2.md, lgr := h.g2 } h.review1 h.review2)

/-- `tools/lgr_harmonize` 33-35: the root zone LGR, if there is one. -/
def rootLgr (R : Reader) : Option (Option Bool × Doc) → Except Err (Option Loaded)
  | none => .ok none
  | some (s, d) => parseLgr R s d

/-- `tools/lgr_harmonize` 19-56: `main`, after the arguments are read; an LGR that is `None` has no
`expand_ranges`. `none`: populating needs more than `fuel` iterations. -/
def main (ord : SetOrder) (R : Reader) (fuel : Nat) (n1 n2 : String) (s1 s2 : Option Bool) (d1 d2 : Doc)
    (z : Option (Option Bool × Doc)) : Option Outcome :=
  match parseLgr R s1 d1 with
  | .error e => some ⟨[], .error e⟩
  | .ok o1 =>
    match parseLgr R s2 d2 with
    | .error e => some ⟨[], .error e⟩
    | .ok o2 =>
      match rootLgr R z with
      | .error e => some ⟨[], .error e⟩
      | .ok rz =>
        match o1, o2 with
        | none, _ => some ⟨[], .error .attributeError⟩
        | some g1, none =>
          match g1.lgr.expandRanges none with
          | (_, .error e) => some ⟨[], .error e⟩
          | (_, .ok ()) => some ⟨[], .error .attributeError⟩
        | some g1, some g2 => both ord fuel n1 n2 g1 g2 rz

end Lgr.HarmonizeTool
