import Verif.LabelInput

/-!
# Reports on collisions and differences: `lgr/tools/diff_collisions.py`

The generators `_compare`, `_write_complete_output`, `_write_simple_output`, `_full_dump`, `diff`, `collision` and
`basic_collision`. What they yield is kept as structured lines instead of text; lines below a heading for a label carry
this label. Sets are enumerated in an order given as a parameter. `with_annotations` is left out: it only writes
the output of `annotate` (`Verif/LabelInput.lean`) first.
-/

namespace Lgr.Collisions
open Lgr LabelInput

/-- The lines of the reports. -/
inductive Line where
  | text (s : String)
  | labelError (l : Seq)
  | tldError (l : Seq)
  | isTld (l : Seq)
  /-- Listed as not in the LGR, with the number of the LGR when two are compared. -/
  | notIn (lgr : Nat) (l : Seq)
  /-- Left out of the comparison. -/
  | skipped (lgr : Nat) (l : Seq)
  | index (k : Seq)
  | within (existing : Bool) (a b : Seq × Cat)
  | collides (tld : Bool) (a b : Seq)
  | comparison (l : Seq)
  | change (l : Seq) (cat : Cat) (x : Seq) (d2 d1 : String) (rules : Option (String × String))
  | noChange (l : Seq)
  | added (l : Seq) (cat : Cat) (x : Seq)
  | addedRules (l : Seq) (s : String)
  | removed (l : Seq) (cat : Cat) (x : Seq)
  | removedRules (l : Seq) (s : String)
  | sameVariants (l : Seq)
  | dump (p : Seq)
  | dumped (p : Seq) (cat : Cat) (x : Seq)
  | dumpedDisp (p x : Seq) (d : String)
  | count (p : Seq) (d : String) (n : Nat)
  deriving DecidableEq

/-- How a generator fails: `InvalidSymmetry` (`lgr/exceptions.py` 235) or another exception. -/
inductive Fail where
  | invalidSymmetry
  | other (e : Err)
  deriving DecidableEq

/-- A generator: what it yields, and how it ends. -/
abbrev Report := List Line × Except Fail Unit

/-- Yield these lines. -/
def say (ls : List Line) : Report := (ls, .ok ())

/-- One after the other. -/
def Report.next (a : Report) (b : Report) : Report :=
  match a.2 with
  | .error e => (a.1, .error e)
  | .ok () => (a.1 ++ b.1, b.2)

/-- A loop. -/
def eachR {α : Type} (f : α → Report) : List α → Report
  | [] => say []
  | a :: l => (f a).next (eachR f l)

/-! ## Comparison of two LGRs -/

/-- `_compare_labels`, lines 208-242: `none` when nothing has changed. -/
def compareLabels (l : Seq) (e1 e2 : Entry) : Except Fail (Option Line) :=
  match dget e1.info l, dget e2.info l with
  | some i1, some i2 =>
    if i1.disp = i2.disp then .ok none
    else if e2.cat = .primary then .ok (some (.change l e2.cat e2.cp i2.disp i1.disp none))
    else .ok (some (.change l e2.cat e2.cp i2.disp i1.disp (some (i2.rules, i1.rules))))
  | _, _ => .error .invalidSymmetry

/-- `_get_new_variants`, lines 245-264. -/
def newVariants (new old : List Entry) : List Entry :=
  new.filter (fun e => decide (e.cp ∉ old.map Entry.cp))

/-- The pairs of the two loops of lines 161-166. -/
def samePairs (es1 es2 : List Entry) : List (Entry × Entry) :=
  es2.flatMap (fun e2 => (es1.filter (fun e1 => decide (e1.cp = e2.cp))).map (fun e1 => (e1, e2)))

/-- Lines 166-171: one change. -/
def changeOf (l : Seq) (p : Entry × Entry) : Report :=
  match compareLabels l p.1 p.2 with
  | .error e => ([], .error e)
  | .ok o => say o.toList

/-- Lines 161-171: the changes. -/
def changes (l : Seq) (ps : List (Entry × Entry)) : Report := eachR (changeOf l) ps

/-- Lines 181-190, 191-201: one variant added or removed. -/
def variantLines (l : Seq) (head : Cat → Seq → Line) (rules : String → Line) (e : Entry) : Report :=
  (say [head e.cat e.cp]).next
    (match dget e.info l with
    | some i => say [rules i.rules]
    | none => ([], .error .invalidSymmetry))

/-- One round of `_compare`, lines 149-205, with the groups of the label in both LGRs. `ret` of line 160 is whether
no change was written. -/
def compareOne (l : Seq) (es1 es2 : List Entry) : Report :=
  let ch := changes l (samePairs es1 es2)
  let added := newVariants es2 es1
  let removed := newVariants es1 es2
  ((say [.comparison l]).next ch).next
  ((say (if ch.1 = [] then [.noChange l] else [])).next
  ((eachR (variantLines l (.added l) (.addedRules l)) added).next
  ((eachR (variantLines l (.removed l) (.removedRules l)) removed).next
  (say (if added.length = 0 ∧ removed.length = 0 then [.sameVariants l] else [])))))

/-- One label with its two indexes; the heading is yielded before the groups are looked up. -/
def compareStep (d1 d2 : Indexes) (l : Seq × Seq × Seq) : Report :=
  match dget d2 l.2.2, dget d1 l.2.1 with
  | some es2, some es1 => compareOne l.1 es1 es2
  | _, _ => ([.comparison l.1], .error (.other (.keyError "index")))

/-- `_compare`, lines 147-205; the dictionary gives the two indexes of the labels. -/
def compare (d1 d2 : Indexes) (labels : List (Seq × Seq × Seq)) : Report :=
  eachR (compareStep d1 d2) labels

/-! ## Collisions -/

/-- `print_collision` of `_write_complete_output`, lines 292-302. -/
def withinLine (p : Entry × Entry) : Line :=
  .within (decide (p.1.cat = .tld ∨ p.2.cat = .tld)) (p.1.cp, p.1.cat) (p.2.cp, p.2.cat)

/-- One group of `_write_complete_output`, lines 306-319. -/
def completeGroup (labels tlds : List Seq) (g : Seq × List Entry) : List Line :=
  let cl := g.2.filter (fun e => decide (e.cp ∈ labels))
  let ct := g.2.filter (fun e => decide (e.cp ∈ tlds))
  [.index g.1] ++
    (if 1 < cl.length then (dumpCollisions cl none).map withinLine else []) ++
    (if ct = [] then [] else (dumpCollisions cl (some ct)).map withinLine)

/-- What `_write_complete_output` says when there is nothing to report, line 323. -/
def noneInList : Line := .text "No collision in the list of labels"

/-- `_write_complete_output`, lines 280-324. -/
def completeOutput (labels tlds : List Seq) (d : Indexes) : Report :=
  say (d.flatMap (completeGroup labels tlds) ++
    (if d.any (fun g => decide (1 < (g.2.filter (fun e => decide (e.cp ∈ labels))).length)) then []
      else [noneInList]))

/-- One group of `_write_simple_output`, lines 337-346; `order` enumerates a set. -/
def simpleGroup (order : List Seq → List Seq) (labels tlds : List Seq) (es : List Entry) : List Line :=
  let cl := order (labels.filter (fun l => decide (l ∈ es.map Entry.cp)))
  let ct := order (tlds.filter (fun l => decide (l ∈ es.map Entry.cp)))
  (if 1 < cl.length then (dumpCollisions cl none).map (fun p => .collides false p.1 p.2) else []) ++
    (if ct = [] then [] else (dumpCollisions cl (some ct)).map (fun p => .collides true p.1 p.2))

/-- `_write_simple_output`, lines 327-346. -/
def simpleOutput (order : List Seq → List Seq) (labels tlds : List Seq) (d : Indexes) : List Line :=
  d.flatMap (fun g => simpleGroup order labels tlds g.2)

/-! ## Full dump -/

/-- `Counter(…).most_common()`: most frequent first, in order of first appearance otherwise. -/
def mostCommon (l : List String) : List (String × Nat) :=
  sortDesc Prod.snd (l.foldl (fun d x => dset d x ((dget d x).getD 0 + 1)) [])

/-- The list of line 378. -/
def dispsFor (lower : String → String) (p : Seq) : List Entry → Option (List String)
  | [] => some []
  | e :: es =>
    match dget e.info p with
    | none => none
    | some i => (dispsFor lower p es).map (lower i.disp :: ·)

/-- Lines 366-374: one other label of the group. -/
def dumpEntry (p : Seq) (e : Entry) : Report :=
  (say [.dumped p e.cat e.cp]).next
    (match dget e.info p with
    | some i => say [.dumpedDisp p e.cp i.disp]
    | none => ([], .error .invalidSymmetry))

/-- Lines 357-382: one primary of a group; `lower` is `str.lower`. -/
def dumpPrimary (lower : String → String) (es : List Entry) (p : Entry) : Report :=
  (say [.dump p.cp]).next
  ((eachR (dumpEntry p.cp) (es.filter (fun e => decide (e.cp ≠ p.cp)))).next
  (match dispsFor lower p.cp es with
  | some ds => say ((mostCommon ds).map (fun c => .count p.cp c.1 c.2))
  | none => ([], .error .invalidSymmetry)))

/-- `_full_dump`, lines 349-382. -/
def fullDump (lower : String → String) (d : Indexes) : Report :=
  eachR (fun es => eachR (dumpPrimary lower es) (es.filter (fun e => decide (e.cat = .primary)))) (d.map Prod.snd)

/-! ## The tools -/

/-- The labels read without error. -/
def validLabels (rs : List Read) : List Seq := (rs.filter Read.valid).map Read.label

/-- The labels read with an error. -/
def badLabels (rs : List Read) : List Seq := (rs.filter (fun r => !r.valid)).map Read.label

/-- Lines 428-441: the labels compared with their indexes, and the lines written; the index is computed again. -/
def indexBoth (index1 index2 : Seq → Except Err Seq) : List Seq → List (Seq × Seq × Seq) → Report × List (Seq × Seq × Seq)
  | [], dic => (say [], dic)
  | l :: ls, dic =>
    match index1 l with
    | .error (.notInLGR _) =>
      let r := indexBoth index1 index2 ls dic
      ((say [.skipped 1 l]).next r.1, r.2)
    | .error e => (([], .error (.other e)), dic)
    | .ok k1 =>
      match index2 l with
      | .error (.notInLGR _) =>
        let r := indexBoth index1 index2 ls dic
        ((say [.skipped 2 l]).next r.1, r.2)
      | .error e => (([], .error (.other e)), dic)
      | .ok k2 => indexBoth index1 index2 ls (dset dic l (k1, k2))

/-- Lines 442-457: the collisions and dumps of one LGR. -/
def diffCollisions (lower : String → String) (showDump : Bool) (name : String) (labels : List Seq) (d : Indexes) :
    Report :=
  ((say [.text ("Collisions for " ++ name)]).next (completeOutput labels [] d)).next
    (if showDump then (say [.text ("Summary for " ++ name)]).next (fullDump lower d) else say [])

/-- `diff`, lines 385-457. -/
def diff (order : List Seq → List Seq) (lower : String → String)
    (index1 index2 : Seq → Except Err Seq) (dispo1 dispo2 : Dispo) (rs : List Read)
    (showCollision showDump quiet : Bool) : Report :=
  let labels := order (validLabels rs)
  (say ((badLabels rs).map .labelError)).next
  (match generateIndexes index1 dispo1 labels [] true quiet [], generateIndexes index2 dispo2 labels [] true quiet [] with
  | .error e, _ => ([], .error (.other e))
  | .ok _, .error e => ([], .error (.other e))
  | .ok (d1, n1), .ok (d2, n2) =>
    (say (if n1 = [] ∧ n2 = [] then [] else
      [.text "Labels not in LGR 1"] ++ n1.map (.notIn 1) ++ [.text "Labels not in LGR 2"] ++ n2.map (.notIn 2))).next
    ((say [.text "LGR comparison"]).next
    (let r := indexBoth index1 index2 labels []
    r.1.next
    ((compare d1 d2 r.2).next
    (if showCollision then
      (diffCollisions lower showDump "LGR1" labels d1).next (diffCollisions lower showDump "LGR2" labels d2)
      else say [])))))

/-- The keys of a dictionary filled in this order. -/
def firsts (l : List Seq) : List Seq := (l.foldl (fun d x => dset d x ()) ([] : List (Seq × Unit))).map Prod.fst

/-- The set of the TLDs, lines 492-494. -/
def tldSet (order : List Seq → List Seq) : Option (List Read) → List Seq
  | none => []
  | some t => order (validLabels t)

/-- What is written about the TLDs, lines 495-502. -/
def tldLines (order : List Seq → List Seq) (labels : List Seq) : Option (List Read) → List Line
  | none => []
  | some t =>
    let both := sortAsc id (order (labels.filter (fun l => decide (l ∈ order (validLabels t)))))
    (badLabels t).map .tldError ++ (if both = [] then [] else .text "Labels that are TLDs" :: both.map .isTld)

/-- `collision`, lines 474-519; `tlds` is `none` for `None` or an empty input. -/
def collision (order : List Seq → List Seq) (lower : String → String) (index : Seq → Except Err Seq) (dispo : Dispo)
    (rs : List Read) (tlds : Option (List Read)) (showDump quiet : Bool) : Report :=
  let labels := firsts (validLabels rs)
  let ts := tldSet order tlds
  (say ((badLabels rs).map .labelError)).next
  ((say (tldLines order labels tlds)).next
  (match generateIndexes index dispo labels ts showDump quiet [] with
  | .error e => ([], .error (.other e))
  | .ok (d, n) =>
    (say (if n = [] then [] else .text "Labels not in LGR" :: (sortAsc id n).map (.notIn 0))).next
    ((say [.text "Collisions"]).next
    ((completeOutput labels ts d).next
    (if showDump then (say [.text "Summary"]).next (fullDump lower d) else say [])))))

/-- What `basic_collision` says when there is nothing to report, line 572. -/
def noCollision : Line := .text "No collision"

/-- `basic_collision`, lines 522-582, without annotations. `None` cannot be iterated (`_read_tlds`, line 465). -/
def basicCollision (order : List Seq → List Seq) (index : Seq → Except Err Seq) (dispo : Dispo)
    (rs : List Read) (tlds : Option (List Read)) : Report :=
  let labels := order (validLabels rs)
  match tlds with
  | none => ([], .error (.other .typeError))
  | some t =>
    let ts := order (validLabels t)
    let both := sortAsc id (order (labels.filter (fun l => decide (l ∈ ts))))
    (say ((badLabels t).map .tldError ++ [.text "Collisions"] ++ both.map .isTld)).next
    (match generateIndexes index dispo labels ts false true [] with
    | .error e => ([], .error (.other e))
    | .ok (d, n) =>
      let out := simpleOutput order labels ts d
      let nots := sortAsc id n
      say (out ++ (if both = [] ∧ out = [] then [noCollision] else []) ++
        (if badLabels rs = [] ∧ nots = [] then [] else
          .text "Errors" :: (badLabels rs).map .labelError ++ nots.map (.notIn 0))))

/-- The index of a label, `generate_index_label` with its default `max_recursion` (lines 28, 429, 434). -/
def indexOf (env : FullEnv) (r : Repertoire) (l : Seq) : Except Err Seq := env.indexLabel r l 0

/-- What is kept of a variant, lines 106-115; `log` is the log of the computation. (All labels have a disposition:
there are default actions, `C20.never_none`.) -/
def infoOf (log : Seq → Seq → String) (collect : Bool) (l : Seq) (it : FullEnv.Item) : Seq × Info :=
  (it.cps, ⟨it.disp.getD "None", if collect then log l it.cps else "", some it.idx⟩)

/-- The calls of `compute_label_disposition` (lines 106-112); `None` and the empty list of labels are the same. When it
raises, whatever it yielded before is not used. -/
def dispoOf (env : FullEnv) (r : Repertoire) (actions : List Action) (log : Seq → Seq → String) : Dispo :=
  fun collect l w =>
    match env.computeDisposition r actions true { includeInvalid := true, withLabels := w.getD [] } l with
    | .error e => ([], .error e)
    | .ok its => (its.map (infoOf log collect l), .ok ())

end Lgr.Collisions
