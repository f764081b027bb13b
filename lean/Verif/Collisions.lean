import Verif.Validate

/-!
# Collisions of labels: `lgr/tools/diff_collisions.py`

A label (U-label) is identified with its code point sequence: `tuple(ord(c) for c in label)` and
`cp_to_ulabel` are inverse to each other. The index of a label (`generate_index_label`) and its
dispositions (`compute_label_disposition`) are parameters; the latter is a generator: what it yields,
and how it ends.
-/

namespace Lgr.Collisions
open Lgr

/-- `PRIMARY`, `VARIANT`, `TLD`, lines 19-21. -/
inductive Cat where
  | primary
  | variant
  | tld
  deriving DecidableEq, Repr

/-- The values under one key of the dictionaries `disp`, `rules` and `action_idx` of an entry, which
are always written together; `none` stands for the action index `'-'`. -/
structure Info where
  disp : String
  rules : String
  action : Option Int
  deriving DecidableEq, Repr

/-- An entry of the lists of `label_indexes` (lines 81-90, 127-137); `bidi` and `cp_out` are
computed from the label and left out. -/
structure Entry where
  cp : Seq
  cat : Cat
  info : List (Seq × Info)
  index : Option Seq
  deriving DecidableEq, Repr

abbrev Indexes := List (Seq × List Entry)

/-- `label_indexes` and `not_in_lgr`. -/
structure St where
  idx : Indexes := []
  notIn : List Seq := []
  deriving DecidableEq, Repr

/-- `compute_label_disposition(label, include_invalid=True, collect_log, with_labels)`: the variants
yielded with disposition, stripped log and action index, and how the generator ends. -/
abbrev Dispo := Bool → Seq → Option (List Seq) → List (Seq × Info) × Except Err Unit

/-- The values `'-'` of lines 86-88. -/
def dash : Info := ⟨"-", "-", none⟩

/-- Lines 78-90: a label is filed under its index. -/
def St.add (st : St) (cat : Cat) (l k : Seq) : St :=
  { st with idx := dset st.idx k ((dget st.idx k).getD [] ++ [⟨l, cat, [(l, dash)], some k⟩]) }

variable (index : Seq → Except Err Seq) (dispo : Dispo)

/-- One round of `_get_indexes` on a label (lines 24-35, 71-90). -/
def labelStep (isTld : Bool) (st : St) (l : Seq) : St × Except Err Unit :=
  match index l with
  | .error (.notInLGR _) =>
    if isTld then (st, .ok ()) else ({ st with notIn := st.notIn ++ [l] }, .ok ())
  | .error e => (st, .error e)
  | .ok k => (st.add (if isTld then .tld else .primary) l k, .ok ())

/-- One round of `_get_indexes` on a cached index (lines 38-41, 71-90), which is a string or an
index label. -/
def cachedStep (st : St) (c : Seq × Except String Seq) : St :=
  match c.2 with
  | .error s => if s = "NotInLGR" then { st with notIn := st.notIn ++ [c.1] } else st
  | .ok k => st.add .primary c.1 k

/-- One variant of a primary `p` of group `k`, lines 109-142. -/
def variantStep (quiet : Bool) (k p : Seq) (d : Indexes) (v : Seq × Info) :
    Indexes × Except Err Unit :=
  let es := (dget d k).getD []
  let info : Info := { v.2 with rules := if quiet then "" else v.2.rules }
  match es.filter (fun e => decide (e.cp = v.1)) with
  | [] => (dset d k (es ++ [⟨v.1, .variant, [(p, info)], none⟩]), .ok ())
  | [_] =>
    (dset d k (es.map (fun e => if e.cp = v.1 then { e with info := dset e.info p info } else e)),
      .ok ())
  | _ => (d, .error .assertion)

/-- One primary, lines 106-142. -/
def primaryStep (quiet keep : Bool) (k : Seq) (cps : List Seq) (d : Indexes) (p : Entry) :
    Indexes × Except Err Unit :=
  let out := dispo (!quiet) p.cp (if keep then none else some cps)
  match forEach (variantStep quiet k p.cp) d out.1 with
  | (d', .error e) => (d', .error e)
  | (d', .ok ()) => (d', out.2)

/-- One group, lines 99-142. -/
def groupStep (quiet keep : Bool) (d : Indexes) (g : Seq × List Entry) :
    Indexes × Except Err Unit :=
  if decide (g.2.length < 2) && !keep then (ddel d g.1, .ok ())
  else if !keep && quiet then (d, .ok ())
  else forEach (primaryStep dispo quiet keep g.1 (g.2.map Entry.cp)) d g.2

/-- Lines 61-97. -/
def collect (labels : List Seq) (cached : List (Seq × Except String Seq)) (tlds : List Seq) :
    St × Except Err Unit :=
  match forEach (labelStep index false) {} labels with
  | (st, .error e) => (st, .error e)
  | (st, .ok ()) =>
    forEach (labelStep index true) (cached.foldl cachedStep st)
      (tlds.filter (fun t => decide (t ∉ labels)))

/-- `_generate_indexes`, lines 44-144. `labels` is a list, or a set in any order; `tlds` a set in any
order, `cached` a dictionary. The second loop runs on a copy of the dictionary. -/
def generateIndexes (labels : List Seq) (tlds : List Seq) (keep quiet : Bool)
    (cached : List (Seq × Except String Seq)) : Except Err (Indexes × List Seq) :=
  match collect index labels cached tlds with
  | (_, .error e) => .error e
  | (st, .ok ()) =>
    match forEach (groupStep dispo quiet keep) st.idx st.idx with
    | (_, .error e) => .error e
    | (d, .ok ()) => .ok (d, st.notIn)

/-- `get_collisions`, lines 585-601, after the labels have been read; `labels` is the set of valid
labels in any order. -/
def getCollisions (labels : List Seq) (quiet : Bool) (cached : List (Seq × Except String Seq)) :
    Except Err Indexes :=
  match generateIndexes index dispo labels [] false quiet cached with
  | .error e => .error e
  | .ok (d, _) => .ok d

/-- The outer loop of `dump_collisions`, lines 267-277; `idx` and `list2` are carried along. The
arguments of the calls of `cb`. -/
def dumpLoop {α : Type} [DecidableEq α] (c1 : List α) : Nat → Option (List α) → List α → List (α × α)
  | _, _, [] => []
  | idx, list2, l1 :: rest =>
    let l2s := list2.getD (c1.drop (idx + 1))
    ((l2s.filter (fun l2 => decide (l1 ≠ l2))).map (fun l2 => (l1, l2))) ++
      dumpLoop c1 (idx + 1) (some l2s) rest

/-- `dump_collisions`, lines 267-277. -/
def dumpCollisions {α : Type} [DecidableEq α] (c1 : List α) (c2 : Option (List α)) : List (α × α) :=
  dumpLoop c1 0 c2 c1

end Lgr.Collisions

namespace Lgr.Annotate
open Lgr Collisions

/-- What is appended to the disposition of a label. -/
inductive Verdict where
  | none
  | inSet
  | collides
  deriving DecidableEq, Repr

/-- `lgr_set_annotate` for one label that is eligible in its script's LGR, `lgr/tools/annotate.py`
78-88; `filtered` is the list of valid set labels, `order` the arbitrary order in which the set of
labels re-read by `get_collisions` is enumerated (see `Verif/AnnotateSet.lean` for the reading). -/
def verdict (index : Seq → Except Err Seq) (dispo : Dispo) (order : List Seq → List Seq)
    (filtered : List Seq) (label : Seq) : Except Err Verdict :=
  match getCollisions index dispo (order (filtered ++ [label])) false [] with
  | .error e => .error e
  | .ok d =>
    .ok (if 0 < d.length then .collides
      else if label ∈ filtered then .inSet else .none)

end Lgr.Annotate
