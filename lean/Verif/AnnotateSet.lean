import Verif.CollisionReports

/-!
# Annotation of labels with a set of LGRs: `lgr_set_annotate`, `lgr/tools/annotate.py` 45-94
-/

namespace Lgr.AnnotateSet
open Lgr LabelInput Collisions

/-- What is yielded: line 54, lines 59 and 63, line 66, and what `_out_valid_label` yields or line 71. -/
inductive Out where
  | header
  | bad (label : Seq) (text : String)
  | footer
  | block (b : Block)
  deriving DecidableEq

/-- What the function needs of an LGR. -/
structure Tested where
  env : FullEnv
  rep : Repertoire
  actions : List Action

/-- The filter on the labels of the set, lines 55-65: `m` is the merged LGR. -/
def filter (m : Tested) (str : Err → String) : List Read → List Out × Except Err (List Seq)
  | [] => ([], .ok [])
  | x :: xs =>
    if !x.valid then (.bad x.label (x.errorText str) :: (filter m str xs).1, (filter m str xs).2)
    else
      match m.env.prelim m.rep x.label with
      | .error e => ([], .error e)
      | .ok p =>
        if !p.ok then (.bad x.label "invalid" :: (filter m str xs).1, (filter m str xs).2)
        else ((filter m str xs).1, (filter m str xs).2.map (x.label :: ·))

/-- Lines 78-86 for an eligible label. `reread` is what `read_labels` makes of a label handed over as text to
`get_collisions` (`lgr/tools/diff_collisions.py` 596-599), `order` the order of a set, `log` the logs of the computations. -/
def verdict (m : Tested) (log : Seq → Seq → String) (order : List Seq → List Seq) (reread : Seq → List Seq)
    (filtered : List Seq) (label : Seq) : Except Err Annotate.Verdict :=
  Annotate.verdict (indexOf m.env m.rep) (dispoOf m.env m.rep m.actions log)
    (fun ls => order (ls.flatMap reread)) filtered label

/-- `lgr_set_annotate`, lines 45-94, on the labels read: what was yielded, and how it ended. `m` is the merged LGR,
`s` the LGR of the script. -/
def annotate (m s : Tested) (log : Seq → Seq → String) (order : List Seq → List Seq) (reread : Seq → List Seq)
    (str : Err → String) (set labels : List Read) : List Out × Except Err Unit :=
  match filter m str set with
  | (out, .error e) => (.header :: out, .error e)
  | (out, .ok kept) =>
    let (bs, y) := setAnnotate s.env s.rep s.actions m.actions (verdict m log order reread kept) str labels
    (.header :: out ++ .footer :: bs.map .block, y)

end Lgr.AnnotateSet
