import Verif.Validate
import Verif.Disposition
import Verif.Classes
import Mathlib.Data.String.Basic
import Mathlib.Data.Prod.Lex

/-!
# Review of an IDN table against a reference LGR

`lgr/tools/idn_review/`: `utils.py`, `summary.py`, `classes.py`, `repertoire.py`, `actions.py`,
`language_tag.py`, `whole_label_evaluation_rules.py`. The review of variant sets is in
`Verif.ReviewSets`.

Both LGRs have a Unicode database. Names and glyphs of code points (`cp_report`, and the keys `name`,
`glyph` of the reports) and the header of the report are not modelled.
-/

namespace Lgr.Review
open Lgr

/-- `lgr/tools/idn_review/utils.py` 13-22: `IdnReviewResult`. The names written to the reports are read
back by `summary.py` 23-24, so that results stand for their names. -/
inductive Result where
  | matched | subset | note | manualCheck | review
  deriving DecidableEq, Repr, Inhabited

/-- The numbers of `utils.py` 14-18. -/
def Result.rank : Result → Nat
  | .matched => 0
  | .subset => 1
  | .note => 2
  | .manualCheck => 3
  | .review => 4

/-! ## Summary -/

/-- A line of the summary. -/
structure Line where
  result : Option Result
  remark : String
  count : Nat
  deriving DecidableEq, Repr

structure Summary where
  overall : Result
  results : List Line
  deriving DecidableEq, Repr

/-- Local variables of `handle_report`: `result`, `result_remarks`, `remarks`. -/
structure SumState where
  result : Result := .matched
  remarkResult : List (String × Result) := []
  remarks : List (String × Nat) := []
  deriving DecidableEq, Repr

/-- Body of the loop, `summary.py` 21-26. `result` is never empty. -/
def sumStep (s : SumState) (p : Result × String) : SumState :=
  { result := if p.1.rank > s.result.rank then p.1 else s.result
    remarkResult := dset s.remarkResult p.2 p.1
    remarks := dset s.remarks p.2 ((dget s.remarks p.2).getD 0 + 1) }

/-- `summary.py` 15-35: `handle_report`; the argument is the pairs of result and remark of the reports,
for each of the keys. -/
def handleReport (l : List (Result × String)) : Summary :=
  let s := l.foldl sumStep {}
  { overall := s.result
    results := s.remarks.map (fun p => ⟨dget s.remarkResult p.1, p.1, p.2⟩) }

/-! ## Classes -/

/-- `a & b` is not empty. -/
def meets {α : Type} [DecidableEq α] (a b : List α) : Bool := a.any (fun x => decide (x ∈ b))

/-- `a - b`. -/
def minus {α : Type} [DecidableEq α] (a b : List α) : List α := a.filter (fun x => decide (x ∉ b))

/-- `a ^ b` is not empty. -/
def differ {α : Type} [DecidableEq α] (a b : List α) : Bool :=
  decide (minus a b ≠ []) || decide (minus b a ≠ [])

/-- `classes.py` 27-67: `compute_result_and_remark`. `.ok none` is the end of the function without
`return`. Sets are lists of which only membership counts. -/
def classVerdict (idn ref idnRep refRep : List Nat) : Except Err (Option (Result × String)) :=
  if differ idn ref = false then .ok (some (.matched, "Classes and their members are matched"))
  else
    let extraIdn := minus idn ref
    let extraRef := minus ref idn
    if idn = [] then
      if meets ref idnRep = false then .error .assertion
      else .ok (some (.manualCheck,
        "Mismatch class (class does not exist in IDN Table; check for different class names)"))
    else if ref = [] ∧ meets idn refRep = true then
      .ok (some (.manualCheck,
        "Mismatch class (class does not exist in ref. LGR; check for different class names)"))
    else if ref = [] ∧ differ idn refRep = true then
      .ok (some (.manualCheck, "Mismatch class with only additional code points."))
    else
      let b1 := decide (extraIdn ≠ []) && meets extraIdn refRep
      let b2 := decide (extraRef ≠ []) && meets extraRef idnRep
      if b1 || b2 then
        .ok (some (.review, "\n".intercalate
          ((if b1 then ["Mismatch class members (extra member(s) in IDN Table)"] else []) ++
           (if b2 then ["Mismatch class members (missing member(s) in IDN Table)"] else []))))
      else if extraIdn ≠ [] then
        .ok (some (.manualCheck,
          "Mismatch class members (extra member(s) in IDN Table which are not in Ref. LGR repertoire)"))
      else if extraRef ≠ [] then
        .ok (some (.subset, "Extra members in Ref. LGR not in IDN Table"))
      else .ok none

/-- An entry of the report on classes. -/
structure ClassEntry where
  name : String
  idn : List Nat
  ref : List Nat
  result : Result
  remark : String
  deriving DecidableEq, Repr

/-- `classes.py` 69-81: `to_dict`; `.ok none` is the empty dictionary. Unpacking `None` is a `TypeError`.
The prefix of tag classes is kept in the name. -/
def classEntry (name : String) (idn ref idnRep refRep : List Nat) : Except Err (Option ClassEntry) :=
  if idn = [] ∧ meets ref idnRep = false then .ok none
  else
    match classVerdict idn ref idnRep refRep with
    | .error e => .error e
    | .ok none => .error .typeError
    | .ok (some (r, m)) => .ok (some ⟨name, sortAsc id idn.dedup, sortAsc id ref.dedup, r, m⟩)

/-- Members of the classes of an LGR which are not implicit: by name. -/
abbrev Members := List (String × List Nat)

/-- The order of `classes.py` 90 and 110. -/
def classKey (x : String) : Bool ×ₗ String := toLex (x.startsWith Cls.tagPrefix, x)

/-- `classes.py` 85-101: `get_repertoire_and_class_members`. `classes` is `classes_lookup`, with the
attribute `implicit`; `eval` is `get_pattern(..., as_set=True)` (see `Cls.getSet`). A `RuntimeError`,
which includes `RecursionError`, empties the class; other exceptions are raised. -/
def classMembers {γ : Type} (eval : γ → Except Err CpSet) (rep : List Nat) (classes : List (String × γ × Bool)) :
    Except Err Members :=
  let names := sortAsc classKey (classes.map Prod.fst)
  names.foldl (fun acc n =>
    match acc with
    | .error e => .error e
    | .ok ms =>
      match dget classes n with
      | none => .error (.keyError n)
      | some (c, implicit) =>
        if implicit then .ok ms
        else
          match eval c with
          | .ok s => .ok (dset ms n (rep.filter s))
          | .error .recursionError => .ok (dset ms n [])
          | .error e => .error e) (.ok [])

/-- `classes.py` 87: the single code points of an LGR. -/
def singles (r : Repertoire) : List Nat :=
  (r.allChars.filter (fun c => !c.isSequence)).map (fun c => c.cp.headD 0)

/-- Loop of `classes.py` 109-117. -/
def classLoop (mi mr : Members) (idnRep refRep : List Nat) : List String → Except Err (List ClassEntry)
  | [] => .ok []
  | n :: ns =>
    match classEntry n ((dget mi n).getD []) ((dget mr n).getD []) idnRep refRep with
    | .error e => .error e
    | .ok o =>
      match classLoop mi mr idnRep refRep ns with
      | .error e => .error e
      | .ok l => .ok (o.toList ++ l)

/-- `classes.py` 104-118: `generate_classes_report`, given the members of the classes. -/
def classesReport (mi mr : Members) (idnRep refRep : List Nat) : Except Err (List ClassEntry) :=
  classLoop mi mr idnRep refRep (sortAsc classKey (mi.map Prod.fst ++ mr.map Prod.fst).dedup)

/-! ## Repertoire -/

/-- `not result`: `None`, or the result with number 0. -/
def unset : Option Result → Bool
  | none => true
  | some r => decide (r.rank = 0)

/-- The tags which are in one of the lists only, except scripts; `repertoire.py` 38-39. -/
def loneTags (a b : List String) : List String :=
  ((minus a b ++ minus b a).dedup).filter (fun t => !t.startsWith "sc:")

/-- Loop on tags, `repertoire.py` 38-47. -/
def tagLoop (idn ref : List String) : Option Result × String → List String → Option Result × String
  | st, [] => st
  | st, t :: ts =>
    if t ∉ idn then (some .review, "Tags do not match")
    else if t ∉ ref ∧ unset st.1 = true then
      tagLoop idn ref (some .note, "Tags not required in Reference LGR") ts
    else tagLoop idn ref st ts

/-- `repertoire.py` 49-59: name of the rule of a character. -/
def ruleName (w n : Option String) : Option String :=
  if truthy w then some ("when-" ++ w.getD "")
  else if truthy n then some ("not-when-" ++ n.getD "")
  else none

/-- `repertoire.py` 26-78: `compare_char`. `order` is the order of iteration on a set of tags. Characters
are never empty, so only `None` is false. -/
def compareChar (order : List String → List String) (idn ref : Option CharObj) : Result × String :=
  match idn, ref with
  | none, _ => (.subset, "Match as a subset of repertoire")
  | some _, none =>
    (.manualCheck, "The code point only exists in the IDN Table but not in the reference LGR")
  | some a, some b =>
    let st := tagLoop a.attrs.tags b.attrs.tags (none, "") (order (loneTags a.attrs.tags b.attrs.tags))
    let ra := ruleName a.attrs.whenR a.attrs.notWhenR
    let rb := ruleName b.attrs.whenR b.attrs.notWhenR
    if ra ≠ rb then
      let remark := if st.2 ≠ "" then st.2 ++ "\n" else st.2
      if st.1 ≠ some .review then
        if ra.isSome ∧ rb.isNone then (.note, remark ++ "Rules not required in Reference LGR")
        else (.review, "" ++ "Rules do not match")
      else (.review, remark ++ "Rules do not match")
    else
      match st.1 with
      | none => (.matched, "Matches code point (including tags, context rule)")
      | some r =>
        if r.rank = 0 then (.matched, "Matches code point (including tags, context rule)") else (r, st.2)

/-- An entry of the report on the repertoire. -/
structure RepEntry where
  cp : Seq
  inIdn : Bool
  inRef : Bool
  result : Result
  remark : String
  deriving DecidableEq, Repr

/-- `{c.cp: c for c in l}`. -/
def dictOf (l : List CharObj) : List (Seq × CharObj) := l.foldl (fun d c => dset d c.cp c) []

/-- `repertoire.py` 113-123: the reports of `generate_repertoire_report`. -/
def repertoireReport (order : List String → List String) (idn ref : Repertoire) : List RepEntry :=
  let di := dictOf idn.allChars
  let dr := dictOf ref.allChars
  (sortAsc id (di.map Prod.fst ++ dr.map Prod.fst).dedup).map (fun cp =>
    let p := compareChar order (dget di cp) (dget dr cp)
    ⟨cp, (dget di cp).isSome, (dget dr cp).isSome, p.1, p.2⟩)

/-- `repertoire.py` 94-110: `get_idn_cp_in_ref_seq`: pairs of the code point and the sequence. -/
def cpInRefSeq (idn ref : Repertoire) : List (Nat × Seq) :=
  (ref.allChars.filter (fun c => !c.isRange)).flatMap (fun c =>
    if 1 < c.len then
      (c.cp.filter (fun x => !ref.hasCp [x] && idn.hasCp [x])).map (fun x => (x, c.cp))
    else [])

/-! ## Actions -/

/-- Equality of frozen sets. -/
def sameSet (a b : List String) : Bool := a.all (fun x => decide (x ∈ b)) && b.all (fun x => decide (x ∈ a))

/-- `lgr/action.py` 143-150: `Action.__eq__`. -/
def eqAction (a b : Action) : Bool :=
  decide (a.disp = b.disp) && decide (a.matchR = b.matchR) && decide (a.notMatchR = b.notMatchR) &&
  sameSet a.anyVariant b.anyVariant && sameSet a.allVariants b.allVariants &&
  sameSet a.onlyVariants b.onlyVariants

/-- `x in l` for actions. -/
def hasAction (l : List Action) (a : Action) : Bool := l.any (eqAction a)

/-- Equality of lists of actions. -/
def sameActions : List Action → List Action → Bool
  | [], [] => true
  | a :: l, b :: m => eqAction a b && sameActions l m
  | _, _ => false

/-- An entry of the report on actions; the name is made of the number and the comment. -/
structure ActionEntry where
  fromIdn : Bool
  number : Nat
  comment : Option String
  inIdn : Bool
  inRef : Bool
  result : Result
  remark : String
  deriving DecidableEq, Repr

/-- `actions.py` 41-51: the actions with their numbers. The keys `IDN Table-1 (comment)` are distinct
since the number, which ends at the first blank, is part of them. -/
def numbered (l : List Action) : List (Nat × Action) := (List.range' 1 l.length).zip l

/-- `a.comment if a.comment else ''`. -/
def shownComment (a : Action) : Option String := if truthy a.comment then a.comment else none

/-- `actions.py` 37-82: `generate_actions_report`: `comparison` and `sequence`. Membership in the set
`matching_actions` is membership in both. -/
def actionsReport (idn ref : List Action) : List ActionEntry × Result :=
  let matching := fun a => hasAction idn a && hasAction ref a
  let mi := idn.filter matching
  let mr := ref.filter matching
  let seq := if idn ≠ [] ∧ sameActions mi mr = true then Result.matched else .manualCheck
  ((numbered idn).map (fun p =>
      if hasAction mi p.2 then
        ⟨true, p.1, shownComment p.2, true, true, .matched,
          "Exact Match (action name and content are the same)"⟩
      else ⟨true, p.1, shownComment p.2, true, false, .manualCheck, "Mismatch (additional action)"⟩) ++
   ((numbered ref).filter (fun p => !hasAction mr p.2)).map (fun p =>
      ⟨false, p.1, shownComment p.2, false, true, .manualCheck, "Mismatch (missing action)"⟩), seq)

/-! ## Language tags -/

/-- What `language_tags` says of a tag: `tag_to_language_script`, whether an error is `ERR_UNKNOWN`
or `ERR_SUPPRESS_SCRIPT`, and `tag.language.script.format`. -/
structure TagInfo where
  language : String
  script : String
  unknown : Bool
  suppress : Bool
  langScript : Option String

/-- `language_tag.py` 24-48: `compare_with_tag`. -/
def compareTag (info : String → TagInfo) (idn : Option String) (ref : String) : Result × String :=
  match idn with
  | none => (.manualCheck, "Language tag may be included in the comment")
  | some t =>
    let a := info t
    let b := info ref
    if a.language = b.language ∧ a.script = b.script then (.matched, "Exact match")
    else if a.unknown then (.manualCheck, "Language tag may be included in the comment")
    else if a.language ≠ "" ∧ a.language = b.language then
      if a.suppress then
        (.matched, "Consider minimizing the tag as per the RFC5646 and IANA subtag registry")
      else (.matched, "Language match")
    else if b.script ≠ "" ∧ a.langScript = some b.script then
      (.matched, "The language tag in IDN Table relevant to the script tag in Reference LGR")
    else (.review, "The language tag in IDN Table and Reference LGR are mismatched")

/-- `language_tag.py` 50-73: `generate_language_tag_report`: for each tag of the table (or none), the
tags of the reference with result and remark. -/
def tagsReport (info : String → TagInfo) (idn ref : List String) :
    List (Option String × List (String × Result × String)) :=
  let tags := sortAsc id idn
  (if tags = [] then [none] else tags.map some).map (fun t =>
    (t, sortAsc (fun x => x.1) (ref.map (fun u => (u, compareTag info t u)))))

/-! ## Whole label evaluation rules -/

/-- `whole_label_evaluation_rules.py` 280-295: `compare_wle`. A rule is represented by `str(rule)`;
the arguments are those of the constructor, 271-278, with the code points listed by iterating over the
repertoire of the IDN table. -/
def compareWle (idn ref : Option String) (idnCtx refCtx idnRep : List Seq) : Result × String :=
  match idn, ref with
  | none, _ =>
    if refCtx ≠ [] ∧ meets idnRep refCtx = false then
      (.subset, "Match as a subset (for the rules missing in IDN Table, " ++
        "applicable code points in Ref. LGR are not in IDN Table)")
    else (.manualCheck, "Mismatch (WLE rule only exists in Ref. LGR)")
  | some _, none => (.manualCheck, "Mismatch (WLE rule only exists in IDN Table)")
  | some a, some b =>
    if a = b ∧ differ idnCtx refCtx = false then (.matched, "Exact Match (matched names and content)")
    else (.manualCheck, "Check the content of the rule")

/-- `d.setdefault(k, set()).add(x)`. -/
def setAdd (d : List (String × List Seq)) (k : String) (x : Seq) : List (String × List Seq) :=
  let l := (dget d k).getD []
  dset d k (if x ∈ l then l else l ++ [x])

/-- `whole_label_evaluation_rules.py` 347-363: `idn_table_context_rules`. -/
def idnContext (l : List CharObj) : List (String × List Seq) :=
  l.foldl (fun d c =>
    if truthy c.attrs.whenR then setAdd d (c.attrs.whenR.getD "") c.cp
    else if truthy c.attrs.notWhenR then setAdd d (c.attrs.notWhenR.getD "") c.cp
    else d) []

/-- `whole_label_evaluation_rules.py` 368-373: `reference_lgr_context_rules`. -/
def refContext (l : List CharObj) : List (String × List Seq) :=
  l.foldl (fun d c =>
    let d := if truthy c.attrs.whenR then setAdd d (c.attrs.whenR.getD "") c.cp else d
    if truthy c.attrs.notWhenR then setAdd d (c.attrs.notWhenR.getD "") c.cp else d) []

/-- An entry of the comparison of rules. -/
structure WleEntry where
  name : String
  inIdn : Bool
  inRef : Bool
  result : Result
  remark : String
  deriving DecidableEq, Repr

/-- `whole_label_evaluation_rules.py` 473-482: the comparison of `generate_whole_label_evaluation_rules_report`;
`ri` and `rr` are the rules of the two LGRs, by name, as text. The reference and the code points of the
table are listed by iteration (of a range, the first code point only), the contexts in the table with
`all_repertoire`. The name of a rule is its key. -/
def wleReport (ri rr : List (String × String)) (idn ref : Repertoire) : List WleEntry :=
  let ci := idnContext idn.allChars
  let cr := refContext ref.iter
  (sortAsc id (ri.map Prod.fst ++ rr.map Prod.fst).dedup).map (fun n =>
    let p := compareWle (dget ri n) (dget rr n) ((dget ci n).getD []) ((dget cr n).getD [])
      (idn.iter.map CharObj.cp)
    ⟨n, (dget ri n).isSome, (dget rr n).isSome, p.1, p.2⟩)

/-- `whole_label_evaluation_rules.py` 361-363, 455-457: code points without rule which are not in the
reference. -/
def additionalCps (idn ref : Repertoire) : List Seq :=
  sortAsc id ((idn.allChars.filter (fun c =>
    !truthy c.attrs.whenR && !truthy c.attrs.notWhenR && !ref.hasCp c.cp)).map CharObj.cp).dedup

/-- The loop of `check_label_cp_in_repertoire`, `whole_label_evaluation_rules.py` 411-420; `rec` is the
recursive call. The accumulated `result` is the first argument. -/
def coverLoop (rec : Seq → Except Err Bool) (label : Seq) : Bool → List CharObj → Except Err Bool
  | b, [] => .ok b
  | b, c :: cs =>
    if c.isSequence then
      if c.isPrefixOf label then
        match rec (label.drop c.len) with
        | .error e => .error e
        | .ok b' => coverLoop rec label (b || b') cs
      else coverLoop rec label b cs
    else if 1 < label.length then
      match rec (label.drop 1) with
      | .error e => .error e
      | .ok b' => coverLoop rec label (b || b') cs
    else .ok true

/-- `whole_label_evaluation_rules.py` 402-422: `check_label_cp_in_repertoire`; the first argument bounds
the recursion (each call is on a shorter label). -/
def cover (r : Repertoire) : Nat → Seq → Except Err Bool
  | 0, _ => .error .recursionError
  | _ + 1, [] => .error .indexError
  | fuel + 1, x :: xs =>
    match r.charsFromPrefix x with
    | .error (.notInLGR _) => .ok false
    | .error e => .error e
    | .ok l => coverLoop (cover r fuel) (x :: xs) false l

/-- A call of `check_label_cp_in_repertoire`. -/
def checkLabelCps (r : Repertoire) (label : Seq) : Except Err Bool := cover r (label.length + 1) label

/-- The loop of `make_report`, `whole_label_evaluation_rules.py` 387-394; `eligible` is `test_label`. -/
def reportLoop (r : Repertoire) (eligible : Seq → Except Err Bool) :
    Option Bool → List Seq → Except Err (Option Bool)
  | res, [] => .ok res
  | _, label :: ls =>
    match checkLabelCps r label with
    | .error e => .error e
    | .ok false => .ok none
    | .ok true =>
      match eligible label with
      | .error e => .error e
      | .ok true => .ok (some false)
      | .ok false => reportLoop r eligible (some true) ls

/-- `whole_label_evaluation_rules.py` 384-399: `make_report`: the pair `applicable`, `exists`. -/
def makeReport (r : Repertoire) (eligible : Seq → Except Err Bool) (cond : Bool) (labels : List Seq) :
    Except Err (Bool × Option Bool) :=
  if cond then
    match reportLoop r eligible none labels with
    | .error e => .error e
    | .ok o => .ok (true, o)
  else .ok (false, none)

/-- `whole_label_evaluation_rules.py` 375-382: `get_labels`; `same` is `SAME_SCRIPTS`. -/
def getLabels (same : List (String × String)) (collection : List (String × List Seq)) (tags : List String) :
    List Seq :=
  tags.flatMap (fun t => (dget collection ((dget same t).getD t)).getD [])

end Lgr.Review
