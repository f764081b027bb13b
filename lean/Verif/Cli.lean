import Verif.Disposition
import Verif.Collisions
import Verif.LabelInput

/-!
# Tools testing labels: `tools/lgr_cli.py`, `tools/lgr_validate.py`, `tools/lgr_collision.py`

What is written is a list of lines, as values; messages to the logger are left out. The label lines of the standard
input are code point sequences. A tool that raises has written the lines before it.
-/

namespace Lgr.Cli
open Lgr FullEnv

/-! ## `tools/lgr_cli.py` -/

/-- How a triggered action is named, lines 28-30 and 57-59: `Action[i]` or `DefaultAction[i]`. -/
inductive Trig where
  | action (i : Int)
  | default (i : Int)
  deriving DecidableEq, Repr

/-- Lines 28-30, 57-59, `n` being the number of actions of the LGR (`len(lgr.actions)`, without the default
actions). -/
def named (n : Nat) (idx : Int) : Trig := if idx > n then .default (idx - n) else .action idx

/-- The lines written by `check_label`. -/
inductive Line where
  | validation (l : Seq) (ok : Bool)
  | disposition (l : Seq) (disp : Option String) (by_ : Trig)
  | variant (l : Seq) (types : List String) (disp : Option String) (by_ : Trig)
  deriving DecidableEq, Repr

/-- `','.join(disp_set)`, line 61: `disp_set` is a set of types, iterated over in the order `order`; `None` is not
a string. -/
def joinTypes (order : List (Option String) → List (Option String)) (ts : DispSet) : Except Err (List String) :=
  Env.mapE (fun t => match t with | some s => .ok s | none => .error .typeError) (order ts)

variable (env : FullEnv) (r : Repertoire) (actions : List Action) (hasDb : Bool)

/-- The loop over the variants, lines 44-65. -/
def cliItems (order : List (Option String) → List (Option String)) (n : Nat) : List Item → List Line × Except Err Unit
  | [] => ([], .ok ())
  | it :: its =>
    match joinTypes order it.types with
    | .error e => ([], .error e)
    | .ok ts =>
      (.variant it.cps ts it.disp (named n it.idx) :: (cliItems order n its).1, (cliItems order n its).2)

/-- `check_label`, lines 19-71. -/
def cliLabel (order : List (Option String) → List (Option String)) (invalid : Bool) (l : Seq) :
    List Line × Except Err Unit :=
  match env.testEligible r actions l with
  | .error e => ([], .error e)
  | .ok el =>
    if el.ok then
      match env.computeDisposition r actions hasDb { includeInvalid := invalid } l with
      | .error e => ([.validation l true, .disposition l el.disp (named actions.length el.idx)], .error e)
      | .ok its =>
        (.validation l true :: .disposition l el.disp (named actions.length el.idx) ::
          (cliItems order actions.length its).1, (cliItems order actions.length its).2)
    else ([.validation l false], .ok ())

/-- A loop over labels, each writing lines and possibly raising: `main`, lines 121-123 (and the corresponding
loops of the two other tools). -/
def eachLabel {α β : Type} (f : α → List β × Except Err Unit) : List α → List β × Except Err Unit
  | [] => ([], .ok ())
  | a :: l =>
    match f a with
    | (out, .error e) => (out, .error e)
    | (out, .ok ()) => (out ++ (eachLabel f l).1, (eachLabel f l).2)

/-- `lgr_cli.py -c`, labels from the standard input, lines 121-123. -/
def cliRun (order : List (Option String) → List (Option String)) (invalid : Bool) (labels : List Seq) :
    List Line × Except Err Unit :=
  eachLabel (cliLabel env r actions hasDb order invalid) labels

/-! ## `tools/lgr_validate.py` -/

/-- The lines written by `check_label` of the tool and by `main`. -/
inductive VLine where
  | label (l : Seq)
  | eligible (ok : Bool)
  | disposition (disp : Option String)
  | collisions
  | inSet
  | collides (l : Seq)
  | noCollision
  | variants
  | variant (l : Seq) (disp : Option String)
  | validParts (cps : Seq)
  | invalidParts (ps : List (Nat × Option (List String)))
  | setLabels
  | badSetLabel (l : Seq)
  | notInLgr (l : Seq)
  | endSetLabels
  deriving DecidableEq, Repr

/-- The collisions of a label, lines 48-79; `none`: an error is logged and the function returns. `reread` is what
`read_labels` makes of the label handed over to `get_collisions` as text, `order` the order of a set. -/
def validateCollisions (index : Seq → Except Err Seq) (dispo : Collisions.Dispo) (order : List Seq → List Seq)
    (reread : Seq → List Seq) (set : List Seq) (l : Seq) : Except Err (Option VLine) :=
  if l ∈ set then .ok (some .inSet)
  else
    match Collisions.getCollisions index dispo (order ((set ++ [l]).flatMap reread)) true [] with
    | .error e => .error e
    | .ok [] => .ok (some .noCollision)
    | .ok [g] =>
      if g.2.any (fun e => decide (e.cp = l)) then
        match g.2.filter (fun e => decide (e.cp ∈ set)) with
        | [e] => .ok (some (.collides e.cp))
        | _ => .ok none
      else .ok none
    | .ok _ => .ok none

/-- The merged LGR with what is needed to look for collisions (`merged_lgr`, `set_labels`). -/
structure Merged where
  index : Seq → Except Err Seq
  dispo : Collisions.Dispo
  order : List Seq → List Seq
  reread : Seq → List Seq

/-- Python: unpacking a tuple of `size` values into `names` names. -/
def unpack (names size : Nat) : Except Err Unit := if names = size then .ok () else .error .valueError

/-- Python: `format % args` with `places` places and `args` arguments. -/
def percent (places args : Nat) : Except Err Unit := if places = args then .ok () else .error .typeError

/-- Number of values of an item, `lgr/core.py` 1192-1203 (without `generate_chars`). -/
def itemSize : Nat := 6

/-- The loop over the variants, lines 84-87: each item is unpacked into 5 names. -/
def validateItems : List Item → List VLine × Except Err Unit
  | [] => ([], .ok ())
  | it :: its =>
    match unpack 5 itemSize with
    | .error e => ([], .error e)
    | .ok () => (.variant it.cps it.disp :: (validateItems its).1, (validateItems its).2)

/-- Lines 81-87. -/
def validateVariants (gen : Bool) (l : Seq) : List VLine × Except Err Unit :=
  if gen then
    match env.computeDisposition r actions hasDb {} l with
    | .error e => ([.variants], .error e)
    | .ok its => (.variants :: (validateItems its).1, (validateItems its).2)
  else ([], .ok ())

/-- `check_label`, lines 38-94. -/
def validateLabel (gen : Bool) (merged : Option Merged) (set : List Seq) (l : Seq) : List VLine × Except Err Unit :=
  match env.testEligible r actions l with
  | .error e => ([.label l], .error e)
  | .ok el =>
    let head := [VLine.label l, .eligible el.ok, .disposition el.disp]
    if el.ok then
      match (if set = [] then none else merged) with
      | none =>
        (head ++ (validateVariants env r actions hasDb gen l).1, (validateVariants env r actions hasDb gen l).2)
      | some m =>
        match validateCollisions m.index m.dispo m.order m.reread set l with
        | .error e => (head ++ [.collisions], .error e)
        | .ok none => (head ++ [.collisions], .ok ())
        | .ok (some x) =>
          (head ++ .collisions :: x :: (validateVariants env r actions hasDb gen l).1,
            (validateVariants env r actions hasDb gen l).2)
    else
      (head ++ .validParts el.parts :: (if el.invalid = [] then [] else [.invalidParts el.invalid]), .ok ())

/-- The labels of the set, lines 111-119: the loop returns the labels kept. `"%s: Not in LGR %s" % label, lgr` has
two places and one argument. -/
def filterSet : List LabelInput.Read → List VLine × Except Err (List Seq)
  | [] => ([], .ok [])
  | x :: xs =>
    if !x.valid then (.badSetLabel x.label :: (filterSet xs).1, (filterSet xs).2)
    else
      match env.prelim r x.label with
      | .error e => ([], .error e)
      | .ok p =>
        if !p.ok then
          match percent 2 1 with
          | .error e => ([], .error e)
          | .ok () => (.notInLgr x.label :: (filterSet xs).1, (filterSet xs).2)
        else ((filterSet xs).1, (filterSet xs).2.map (x.label :: ·))

/-- `main`, lines 97-127, once the LGRs are read: `merged` is set when there are several LGRs, and then `env`, `r`
and `actions` are those of the LGR of the script. -/
def validateMain (gen : Bool) (merged : Option Merged) (setLabels : List LabelInput.Read) (labels : List Seq) :
    List VLine × Except Err Unit :=
  match merged with
  | none => eachLabel (validateLabel env r actions hasDb gen none []) labels
  | some m =>
    match filterSet env r setLabels with
    | (out, .error e) => (.setLabels :: out, .error e)
    | (out, .ok set) =>
      let rest := eachLabel (validateLabel env r actions hasDb gen (some m) set) labels
      (.setLabels :: out ++ .endSetLabels :: rest.1, rest.2)

/-- The choice of the LGR of a script, `lgr/tools/utils.py` 472-485 and `get_script`, `tools/lgr_validate.py`
20-35: `first` is `metadata.languages[0]`, `none` when there is none. -/
def scriptLgr {α : Type} (first : α → Option String) (script : String) : List α → Option α → Option α
  | [], cur => cur
  | x :: xs, cur => scriptLgr first script xs (if first x = some script then some x else cur)

/-! ## `tools/lgr_collision.py` -/

/-- The lines written. -/
inductive CLine where
  | check (l : Seq)
  | collision (l ref : Seq)
  | block (v : Seq) (types : DispSet) (disp : Option String)
  | noCollision (l : Seq)
  deriving DecidableEq, Repr

/-- The indexes of the reference labels, lines 52-63: a dictionary. -/
def refIndexes (index : Seq → Except Err Seq) : List (Seq × Seq) → List Seq → Except Err (List (Seq × Seq))
  | d, [] => .ok d
  | d, l :: ls =>
    match index l with
    | .error (.notInLGR _) => refIndexes index d ls
    | .error e => .error e
    | .ok k => refIndexes index (dset d k l) ls

/-- `find_variants_to_block`, lines 22-31. (`compute_label_disposition` is a generator: what is written before it
raises is not represented.) -/
def variantsToBlock (ref l : Seq) : List CLine × Except Err Unit :=
  match env.genVariants r false ref with
  | .error e => ([], .error e)
  | .ok gs =>
    match env.computeDisposition r actions hasDb {} l with
    | .error e => ([], .error e)
    | .ok its =>
      ((its.filter (fun it => decide (it.cps ∈ gs.map Gen.cps))).map (fun it => .block it.cps it.types it.disp), .ok ())

/-- The loop on one label, lines 66-83. -/
def collisionLabel (generate : Bool) (refs : List (Seq × Seq)) (l : Seq) : List CLine × Except Err Unit :=
  match env.indexLabel r l 0 with
  | .error e => ([.check l], .error e)
  | .ok k =>
    match dget refs k with
    | none => ([.check l, .noCollision l], .ok ())
    | some ref =>
      if generate then
        (.check l :: .collision l ref :: (variantsToBlock env r actions hasDb ref l).1,
          (variantsToBlock env r actions hasDb ref l).2)
      else ([.check l, .collision l ref], .ok ())

/-- `main`, lines 34-83, once the LGR is read; `refs` are the stripped lines of the file of reference labels. -/
def collisionMain (generate : Bool) (refs labels : List Seq) : List CLine × Except Err Unit :=
  match refIndexes (fun l => env.indexLabel r l 0) [] refs with
  | .error e => ([], .error e)
  | .ok d => eachLabel (collisionLabel env r actions hasDb generate d) labels

end Lgr.Cli
