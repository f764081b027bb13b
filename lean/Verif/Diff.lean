import Verif.Compare
import Verif.Metadata

/-!
# Textual comparison of LGRs: `lgr/tools/compare/diff.py`

The text returned is kept as a list of structured lines. Sets are enumerated in an order given as parameter.
-/

namespace Lgr.Diff
open Lgr Compare Metadata

/-- `VariantProperties`, `lgr/tools/compare/utils.py` 11-13. -/
structure VarProps where
  cp : Seq
  type : Option String
  whenR : Option String
  notWhenR : Option String
  comment : Option String
  deriving DecidableEq, Repr

/-- `VariantProperties(v.cp, v.type, v.when, v.not_when, v.comment)`, `diff.py` 214-215. -/
def propsOf (v : Variant) : VarProps := ⟨v.cp, v.type, v.whenR, v.notWhenR, v.comment⟩

/-- The values compared. -/
inductive Val where
  | str (s : Option String)
  | chars (s : Option (List Char))
  | strs (l : List String)
  | scope (s : Scope)
  | cp (s : Seq)
  | var (v : VarProps)
  deriving DecidableEq, Repr

/-- The lines of the text. `at` is the code point of the block, if any. -/
inductive Line where
  | heading (s : String)
  /-- `First LGR has no …`, `Second LGR has no …`. -/
  | no (first : Bool) (what : String)
  | differ (at_ : Option Seq) (name : String) (a b : Val)
  | sets (at_ : Option Seq) (name : String) (only1 only2 : List Val)
  | same (at_ : Option Seq) (name : String) (v : Val)
  | sameSet (at_ : Option Seq) (name : String) (vs : List Val)
  | codePoint (cp : Seq)
  | identical (n : Nat)
  deriving DecidableEq, Repr

/-- The order in which sets are enumerated. -/
structure Enum where
  vals : List Val → List Val
  seqs : List Seq → List Seq
  strs : List String → List String
  vals_perm : ∀ l, (vals l).Perm l
  seqs_perm : ∀ l, (seqs l).Perm l
  strs_perm : ∀ l, (strs l).Perm l

/-- `compare_things`, `diff.py` 44-76, with `is_set=False`. -/
def compareThings (at_ : Option Seq) (name : String) (a b : Val) (showSame : Bool) : List Line :=
  if a ≠ b then [.differ at_ name a b]
  else if showSame then [.same at_ name a] else []

variable (ord : Enum)

/-- `compare_things`, `diff.py` 44-76, with `is_set=True`, and `compare_sets`, 12-41, which is called without
`show_same`. The sets are given by lists. -/
def compareSets (at_ : Option Seq) (name : String) (a b : List Val) (showSame : Bool) : List Line :=
  let s1 := toSet id a
  let s2 := toSet id b
  if (s1.all (fun v => decide (v ∈ s2)) && s2.all (fun v => decide (v ∈ s1))) = false then
    [.sets at_ name (ord.vals (s1.filter (fun v => decide (v ∉ s2)))) (ord.vals (s2.filter (fun v => decide (v ∉ s1))))]
  else if showSame then [.sameSet at_ name (ord.vals s1)] else []

/-- A heading, if anything comes below it. -/
def headed (h : String) (ls : List Line) : List Line := if ls = [] then [] else .heading h :: ls

/-- `diff_version`, `diff.py` 79-104. -/
def diffVersion (a b : Option Version) (showSame : Bool) : List Line :=
  headed "Compare Version:"
    ((if a = none then [.no true "version"] else []) ++ (if b = none then [.no false "version"] else []) ++
      match a, b with
      | some a, some b =>
        compareThings none "version" (.str (some a.value)) (.str (some b.value)) showSame ++
          compareThings none "version comment" (.str a.comment) (.str b.comment) showSame
      | _, _ => [])

/-- `diff_description`, `diff.py` 107-133. -/
def diffDescription (a b : Option Description) (showSame : Bool) : List Line :=
  headed "Compare Description:"
    ((if a = none then [.no true "description"] else []) ++ (if b = none then [.no false "description"] else []) ++
      match a, b with
      | some a, some b =>
        compareThings none "description type" (.str a.type) (.str b.type) showSame ++
          compareThings none "description" (.str (some a.value)) (.str (some b.value)) showSame
      | _, _ => [])

/-- `diff_metadata`, `diff.py` 136-180; `heading` depends on `is_set`. -/
def diffMetadata (heading : String) (a b : Metadata) (showSame : Bool) : List Line :=
  headed heading
    (diffVersion a.version b.version showSame ++
    diffDescription a.description b.description showSame ++
    compareSets ord none "scopes" (a.scopes.map .scope) (b.scopes.map .scope) showSame ++
    compareSets ord none "languages" (a.languages.map (fun l => .str (some l))) (b.languages.map (fun l => .str (some l)))
      showSame ++
    compareThings none "date" (.chars a.date) (.chars b.date) showSame ++
    compareThings none "validity start" (.chars a.validityStart) (.chars b.validityStart) showSame ++
    compareThings none "validity end" (.chars a.validityEnd) (.chars b.validityEnd) showSame ++
    compareThings none "unicode version" (.chars a.unicodeVersion) (.chars b.unicodeVersion) showSame)

/-- Names, values of references: sets of strings. -/
def compareNames (name : String) (a b : List String) (showSame : Bool) : List Line :=
  compareSets ord none name (a.map (fun s => .str (some s))) (b.map (fun s => .str (some s))) showSame

/-- `variant_first`, `variant_second`, `diff.py` 214-215. -/
def varsOf (c : CharObj) : List Val := c.getVariants.map (fun v => .var (propsOf v))

/-- `variant_first == variant_second`. -/
def sameVars (c1 c2 : CharObj) : Bool :=
  (varsOf c1).all (fun v => decide (v ∈ varsOf c2)) && (varsOf c2).all (fun v => decide (v ∈ varsOf c1))

/-- `diff_char`, `diff.py` 202-230. -/
def diffChar (c1 c2 : CharObj) (showSame : Bool) : List Line :=
  if showSame = false ∧ c1.attrs.comment = c2.attrs.comment ∧ c1.attrs.tags = c2.attrs.tags ∧ sameVars c1 c2 = true then []
  else
    compareThings (some c1.cp) "comment" (.str c1.attrs.comment) (.str c2.attrs.comment) showSame ++
    compareThings (some c1.cp) "tags" (.strs c1.attrs.tags) (.strs c2.attrs.tags) showSame ++
    compareSets ord (some c1.cp) "variants" (varsOf c1) (varsOf c2) showSame

/-- The loop on the common code points, `diff.py` 313-325: what is written and the number of identical ones. -/
def charLoop (db1 db2 : UniDb) (g1 g2 : LGR) (showSame : Bool) : List Seq → Except Err (List Line × Nat)
  | [] => .ok ([], 0)
  | k :: ks =>
    match g1.getChar db1 (.seq k) with
    | .error e => .error e
    | .ok c1 =>
      match g2.getChar db2 (.seq k) with
      | .error e => .error e
      | .ok c2 =>
        match charLoop db1 db2 g1 g2 showSame ks with
        | .error e => .error e
        | .ok (ls, n) =>
          let d := diffChar ord c1 c2 showSame
          if showSame = false ∧ d = [] then .ok (ls, n + 1)
          else .ok (.codePoint k :: d ++ ls, n)

/-- An LGR with the parts compared: actions, the names of rules and classes with their elements in the document. -/
structure Doc where
  name : String := ""
  lgr : LGR := {}
  metadata : Metadata := {}
  actions : List Action := []
  rules : List (String × String) := []
  classes : List (String × String) := []

/-- `diff_lgrs`, `diff.py` 274-341: the LGRs afterwards (ranges are expanded in place) and the text. -/
def diffLgrs (db1 db2 : UniDb) (d1 d2 : Doc) (showSame : Bool) : (LGR × LGR) × Except Err (List Line) :=
  match d1.lgr.expandRanges db1 with
  | (g1, .error e) => ((g1, d2.lgr), .error e)
  | (g1, .ok ()) =>
    match d2.lgr.expandRanges db2 with
    | (g2, .error e) => ((g1, g2), .error e)
    | (g2, .ok ()) =>
      ((g1, g2),
        match charLoop ord db1 db2 g1 g2 showSame (ord.seqs ((cps g1).filter (fun k => decide (k ∈ cps g2)))) with
        | .error e => .error e
        | .ok (ls, n) =>
          .ok (diffMetadata ord "Compare Metadata" d1.metadata d2.metadata showSame ++
            compareNames ord "references" (values g1.refs) (values g2.refs) showSame ++
            [.heading "Compare repertoire"] ++
            compareSets ord none "repertoire" ((cps g1).map .cp) ((cps g2).map .cp) showSame ++
            [.heading "Compare common code points in repertoire"] ++ ls ++
            (if showSame = false ∧ 0 < n then [.identical n] else []) ++
            [.heading "Compare WLE"] ++
            compareNames ord "actions" (d1.actions.map Action.disp) (d2.actions.map Action.disp) false ++
            compareNames ord "rules" (d1.rules.map Prod.fst) (d2.rules.map Prod.fst) false ++
            compareNames ord "classes" (d1.classes.map Prod.fst) (d2.classes.map Prod.fst) false))

/-! ## Sets of LGRs -/

/-- The parts of the comparison of two sets. -/
inductive SetLine where
  /-- `More than one LGR in set … match script …`. -/
  | duplicate (first : Bool) (script : String)
  | onlyIn (first : Bool) (script : String) (lgrs : List String)
  | metadata (l : Line)
  /-- One comparison of two LGRs with its text. -/
  | pair (script : String) (lgr1 lgr2 : String) (text : List Line)
  deriving DecidableEq

/-- `get_scripts`, `diff.py` 359-372; LGRs without language are left out. LGRs are objects: the sets are lists of
identities, `st` gives their contents. -/
def getScripts (st : Nat → Doc) (first : Bool) :
    List Nat → List (String × List Nat) → List (String × List Nat) × List SetLine
  | [], m => (m, [])
  | d :: ds, m =>
    match (st d).metadata.languages with
    | [] => getScripts st first ds m
    | s :: _ =>
      let r := getScripts st first ds (dset m s ((dget m s).getD [] ++ [d]))
      (r.1, (if (dget m s).isSome then [.duplicate first s] else []) ++ r.2)

/-- The contents after a comparison of the objects `i` and `j`. -/
def putBack (st : Nat → Doc) (i j : Nat) (gs : LGR × LGR) : Nat → Doc :=
  fun k => if k = j then { st j with lgr := gs.2 } else if k = i then { st i with lgr := gs.1 } else st k

/-- The two inner loops, `diff.py` 399-408, on the pairs of LGRs of a script. When the two objects are the same, ranges
are expanded once instead of twice: `expand_twice` shows that this makes no difference. -/
def pairLoop (db : Nat → UniDb) (showSame : Bool) (script : String) :
    (Nat → Doc) → List (Nat × Nat) → (Nat → Doc) × Except Err (List SetLine)
  | st, [] => (st, .ok [])
  | st, (i, j) :: ps =>
    match diffLgrs ord (db i) (db j) (st i) (st j) showSame with
    | (gs, .error e) => (putBack st i j gs, .error e)
    | (gs, .ok t) =>
      match pairLoop db showSame script (putBack st i j gs) ps with
      | (st', .error e) => (st', .error e)
      | (st', .ok ls) => (st', .ok (.pair script (st i).name (st j).name t :: ls))

/-- The pairs of the two inner loops, `diff.py` 399-400. -/
def pairs (as bs : List Nat) : List (Nat × Nat) := as.flatMap (fun a => bs.map (fun b => (a, b)))

/-- The loop on the common scripts, `diff.py` 398-408. -/
def scriptLoop (db : Nat → UniDb) (showSame : Bool) (m1 m2 : List (String × List Nat)) :
    (Nat → Doc) → List String → (Nat → Doc) × Except Err (List SetLine)
  | st, [] => (st, .ok [])
  | st, s :: ss =>
    match pairLoop ord db showSame s st (pairs ((dget m1 s).getD []) ((dget m2 s).getD [])) with
    | (st', .error e) => (st', .error e)
    | (st', .ok ls) =>
      match scriptLoop db showSame m1 m2 st' ss with
      | (st'', .error e) => (st'', .error e)
      | (st'', .ok ls') => (st'', .ok (ls ++ ls'))

/-- The scripts of one set only, `diff.py` 380-392. -/
def onlyLines (st : Nat → Doc) (first : Bool) (m1 m2 : List (String × List Nat)) : List SetLine :=
  (ord.strs ((m1.map Prod.fst).filter (fun s => decide (s ∉ m2.map Prod.fst)))).map
    (fun s => .onlyIn first s (((dget m1 s).getD []).map (fun d => (st d).name)))

/-- `diff_lgr_sets`, `diff.py` 344-410: `md1` and `md2` are the metadata of the merged LGRs, nothing else of which is
used but the names. `show_same` is not passed to `diff_metadata`. -/
def diffSets (db : Nat → UniDb) (st : Nat → Doc) (md1 md2 : Metadata) (set1 set2 : List Nat) (showSame : Bool) :
    (Nat → Doc) × Except Err (List SetLine) :=
  let r1 := getScripts st true set1 []
  let r2 := getScripts st false set2 []
  match scriptLoop ord db showSame r1.1 r2.1 st
      (ord.strs ((r1.1.map Prod.fst).filter (fun s => decide (s ∈ r2.1.map Prod.fst)))) with
  | (st', .error e) => (st', .error e)
  | (st', .ok ls) =>
    (st', .ok (r1.2 ++ r2.2 ++ onlyLines ord st true r1.1 r2.1 ++ onlyLines ord st false r2.1 r1.1 ++
      (diffMetadata ord "Compare Metadata on merged LGRs" md1 md2 false).map .metadata ++ ls))

end Lgr.Diff
