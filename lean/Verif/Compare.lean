import Verif.Validate
import Verif.Action

/-!
# Union and intersection of LGRs: `lgr/tools/compare/union.py`, `lgr/tools/compare/intersect.py`

Metadata is not modelled; actions, rules and classes are modelled by `unionActions` and following,
apart from the repertoire.
-/

namespace Lgr.Compare
open Lgr

/-- The order in which Python iterates over a set, as a function of the elements in order of
insertion: any permutation. -/
structure SetOrder where
  seqs : List Seq → List Seq
  vars : List Variant → List Variant
  keys : List (Seq × Option String × Option String) → List (Seq × Option String × Option String)
  strs : List String → List String
  seqs_perm : ∀ l, (seqs l).Perm l
  vars_perm : ∀ l, (vars l).Perm l
  keys_perm : ∀ l, (keys l).Perm l
  strs_perm : ∀ l, (strs l).Perm l

/-- Adding the elements of `l` to a set one by one: an element equal to one already there is not
added. `key` is what equality compares. -/
def addNew {α κ : Type} [DecidableEq κ] (key : α → κ) (l acc : List α) : List α :=
  l.foldl (fun acc a => if key a ∈ acc.map key then acc else acc ++ [a]) acc

/-- Python `set(l)`. -/
def toSet {α κ : Type} [DecidableEq κ] (key : α → κ) (l : List α) : List α := addNew key l []

/-- `lgr/utils.py` 175-202: `let_user_choose` on strings. -/
def letUserChoose : Option String → Option String → Option String
  | none, s => s
  | f, none => f
  | some f, some s => if f = s then some f else some (f ++ "|" ++ s)

/-- `union.py` 116-132: `union_reference_manager` (`vals` is the set of values in iteration order),
and `intersect.py` 107-123. -/
def refsOf (vals : List String) : RefManager :=
  vals.foldl (fun m v =>
    match m.addReference (fun _ => true) v none none with
    | .ok (m', _) => m'
    | .error _ => m) {}

def values (m : RefManager) : List String := m.refs.map (fun p => p.2.value)

variable (ord : SetOrder)

/-- The loops adding variants, `union.py` 149-152 and 344-347. The new LGR has no Unicode database.
-/
def addVars (cp : Seq) (g : LGR) (vs : List Variant) : LGR × Except Err Unit :=
  forEach (fun g v => g.addVariant none (.seq cp) (.seq v.cp) v.type
    { whenR := v.whenR, notWhenR := v.notWhenR, comment := v.comment }) g vs

/-- `union.py` 135-152: `union_char`. -/
def unionChar (g : LGR) (first second : CharObj) : LGR × Except Err Unit :=
  let comment := letUserChoose first.attrs.comment second.attrs.comment
  let tags := ord.strs (addNew id (toSet id second.attrs.tags) (toSet id first.attrs.tags))
  match g.addCp none (.seq first.cp) { comment, tag := tags } with
  | (g', .error e) => (g', .error e)
  | (g', .ok ()) =>
    addVars first.cp g'
      (ord.vars (addNew Variant.key (toSet Variant.key second.getVariants)
        (toSet Variant.key first.getVariants)))

/-- One round of the loop on the common code points, `union.py` 319-323. -/
def unionStep (db1 db2 : UniDb) (g1 g2 g : LGR) (cp : Seq) : LGR × Except Err Unit :=
  match g1.getChar db1 (.seq cp) with
  | .error e => (g, .error e)
  | .ok c1 =>
    match g2.getChar db2 (.seq cp) with
    | .error e => (g, .error e)
    | .ok c2 => unionChar ord g c1 c2

/-- `union.py` 329-333 and 338-342: `add_cp` with what the code point has. -/
def copyCp (g : LGR) (c : CharObj) : LGR × Except Err Unit :=
  let a := c.attrs
  g.addCp none (.seq c.cp)
    { comment := a.comment, tag := a.tags, whenR := a.whenR, notWhenR := a.notWhenR }

/-- A code point in the first LGR only, `union.py` 326-333. -/
def firstStep (db1 : UniDb) (g1 g : LGR) (cp : Seq) : LGR × Except Err Unit :=
  match g1.getChar db1 (.seq cp) with
  | .error e => (g, .error e)
  | .ok c => copyCp g c

/-- A code point in the second LGR only, `union.py` 335-347. -/
def secondStep (db2 : UniDb) (g2 g : LGR) (cp : Seq) : LGR × Except Err Unit :=
  match g2.getChar db2 (.seq cp) with
  | .error e => (g, .error e)
  | .ok c =>
    match copyCp g c with
    | (g', .error e) => (g', .error e)
    | (g', .ok ()) => addVars c.cp g' c.getVariants

/-- `{c.cp for c in lgr.repertoire}`. -/
def cps (g : LGR) : List Seq := toSet id (g.rep.iter.map CharObj.cp)

/-- `{r['value'] for r in first.values()}` and the other, united. -/
def unionValues (m1 m2 : RefManager) : List String :=
  ord.strs (addNew id (toSet id (values m2)) (toSet id (values m1)))

/-- `union.py` 284-361: `union_lgrs`. The two inputs afterwards (their ranges are expanded in place)
and the new LGR, or the exception. -/
def unionLgrs (db1 db2 : UniDb) (g1 g2 : LGR) : (LGR × LGR) × Except Err LGR :=
  match g1.expandRanges db1 with
  | (g1, .error e) => ((g1, g2), .error e)
  | (g1, .ok ()) =>
    match g2.expandRanges db2 with
    | (g2, .error e) => ((g1, g2), .error e)
    | (g2, .ok ()) =>
      ((g1, g2),
        let g : LGR := { refs := refsOf (unionValues ord g1.refs g2.refs) }
        match forEach (unionStep ord db1 db2 g1 g2) g
            (ord.seqs ((cps g1).filter (fun k => decide (k ∈ cps g2)))) with
        | (_, .error e) => .error e
        | (g, .ok ()) =>
          match forEach (firstStep db1 g1) g
              (ord.seqs ((cps g1).filter (fun k => decide (k ∉ cps g2)))) with
          | (_, .error e) => .error e
          | (g, .ok ()) =>
            match forEach (secondStep db2 g2) g
                (ord.seqs ((cps g2).filter (fun k => decide (k ∉ cps g1)))) with
            | (_, .error e) => .error e
            | (g, .ok ()) => .ok g)

/-- `intersect.py` 126-144: `intersect_char`. -/
def intersectChar (g : LGR) (first second : CharObj) : LGR × Except Err Unit :=
  let comment := letUserChoose first.attrs.comment second.attrs.comment
  let tags := ord.strs ((toSet id first.attrs.tags).filter (fun t => decide (t ∈ second.attrs.tags)))
  match g.addCp none (.seq first.cp) { comment, tag := tags } with
  | (g', .error e) => (g', .error e)
  | (g', .ok ()) =>
    let f := toSet id (first.getVariants.map Variant.key)
    let s := toSet id (second.getVariants.map Variant.key)
    forEach (fun g v => g.addVariant none (.seq first.cp) (.seq v.1) none
      { whenR := v.2.1, notWhenR := v.2.2 }) g' (ord.keys (f.filter (fun k => decide (k ∈ s))))

/-- One round of the loop of `intersect_lgrs`, `intersect.py` 271-275. -/
def intersectStep (db1 db2 : UniDb) (g1 g2 g : LGR) (cp : Seq) : LGR × Except Err Unit :=
  match g1.getChar db1 (.seq cp) with
  | .error e => (g, .error e)
  | .ok c1 =>
    match g2.getChar db2 (.seq cp) with
    | .error e => (g, .error e)
    | .ok c2 => intersectChar ord g c1 c2

/-- `{r['value'] for r in first.values()}` and the other, intersected. -/
def intersectValues (m1 m2 : RefManager) : List String :=
  ord.strs ((toSet id (values m1)).filter (fun v => decide (v ∈ values m2)))

/-- `intersect.py` 241-289: `intersect_lgrs`. -/
def intersectLgrs (db1 db2 : UniDb) (g1 g2 : LGR) : (LGR × LGR) × Except Err LGR :=
  match g1.expandRanges db1 with
  | (g1, .error e) => ((g1, g2), .error e)
  | (g1, .ok ()) =>
    match g2.expandRanges db2 with
    | (g2, .error e) => ((g1, g2), .error e)
    | (g2, .ok ()) =>
      ((g1, g2),
        let g : LGR := { refs := refsOf (intersectValues ord g1.refs g2.refs) }
        match forEach (intersectStep ord db1 db2 g1 g2) g
            (ord.seqs ((cps g1).filter (fun k => decide (k ∈ cps g2)))) with
        | (_, .error e) => .error e
        | (g, .ok ()) => .ok g)

/-! ### Actions, rules and classes -/

/-- Equality of two frozen sets given by lists. -/
def sameSet (l m : List String) : Bool := l.all (fun t => decide (t ∈ m)) && m.all (fun t => decide (t ∈ l))

/-- `Action.__eq__` and `Action.__hash__`, `lgr/action.py` 143-154: comment and references do not
count. -/
def _root_.Lgr.Action.same (a b : Action) : Bool :=
  decide (a.disp = b.disp) && decide (a.matchR = b.matchR) && decide (a.notMatchR = b.notMatchR) &&
    sameSet a.anyVariant b.anyVariant && sameSet a.allVariants b.allVariants &&
    sameSet a.onlyVariants b.onlyVariants

/-- `actions.update(OrderedDict.fromkeys(l))`. -/
def updateActions (l acc : List Action) : List Action :=
  l.foldl (fun acc a => if acc.any (fun b => b.same a) then acc else acc ++ [a]) acc

/-- `union.py` 155-178: `union_actions`: the actions of both in an ordered dictionary, and likewise
their XML (strings). -/
def unionActions (a1 : List Action) (x1 : List String) (a2 : List Action) (x2 : List String) :
    List Action × List String :=
  (updateActions a2 (updateActions a1 []), addNew id x2 (toSet id x1))

/-- The position of the first action equal to `a` (`list.index`). -/
def indexOfAction (a : Action) (l : List Action) : Nat := l.findIdx (fun b => b.same a)

/-- `intersect.py` 147-163: `intersect_actions`. The intersection of two sets is made of the objects of
one of them (`second` tells which) and is iterated in any order. -/
def intersectActions (order : List Action → List Action) (second : Bool) (a1 : List Action)
    (x1 : List String) (a2 : List Action) : Except Err (List Action × List String) :=
  let s1 := updateActions a1 []
  let s2 := updateActions a2 []
  let common := if second then s2.filter (fun a => s1.any (fun b => b.same a))
    else s1.filter (fun a => s2.any (fun b => b.same a))
  let actions := order common
  match actions.mapM (fun a => x1[indexOfAction a a1]?) with
  | some xs => .ok (actions, xs)
  | none => .error .indexError

/-- Python `l[names.index(n)]` for a name that is there; `IndexError` when `l` is shorter. -/
def atName (names l : List String) (n : String) : Except Err String :=
  match l[names.idxOf n]? with
  | some x => .ok x
  | none => .error .indexError

/-- One common name, `union.py` 203-219, 254-270 and `intersect.py` 183-199, 220-236. `replace`
is `str.replace` of the first argument by the second in the third. -/
def commonStep (replace : String → String → String → String) (names1 xml1 names2 xml2 : List String)
    (out : List String × List String) (n : String) : (List String × List String) × Except Err Unit :=
  match atName names1 xml1 n with
  | .error e => (out, .error e)
  | .ok x1 =>
    match atName names2 xml2 n with
    | .error e => (out, .error e)
    | .ok x2 =>
      if x1 = x2 then ((out.1 ++ [n], out.2 ++ [x1]), .ok ())
      else ((out.1 ++ [n ++ "_1", n ++ "_2"],
        out.2 ++ [replace n (n ++ "_1") x1, replace n (n ++ "_2") x2]), .ok ())

/-- A name in one list only, `union.py` 221-227, 273-279. -/
def ownStep (names xml : List String) (out : List String × List String) (n : String) :
    (List String × List String) × Except Err Unit :=
  match atName names xml n with
  | .error e => (out, .error e)
  | .ok x => ((out.1 ++ [n], out.2 ++ [x]), .ok ())

/-- `union.py` 181-229 (`union_rules`) and 232-281 (`union_classes`), which are alike. -/
def unionNamed (replace : String → String → String → String) (names1 xml1 names2 xml2 : List String) :
    Except Err (List String × List String) :=
  let s1 := toSet id names1
  let s2 := toSet id names2
  match forEach (commonStep replace names1 xml1 names2 xml2) ([], [])
      (ord.strs (s1.filter (fun n => decide (n ∈ s2)))) with
  | (_, .error e) => .error e
  | (out, .ok ()) =>
    match forEach (ownStep names1 xml1) out (ord.strs (s1.filter (fun n => decide (n ∉ s2)))) with
    | (_, .error e) => .error e
    | (out, .ok ()) =>
      match forEach (ownStep names2 xml2) out (ord.strs (s2.filter (fun n => decide (n ∉ s1)))) with
      | (_, .error e) => .error e
      | (out, .ok ()) => .ok out

/-- `intersect.py` 166-201 (`intersect_rules`) and 204-238 (`intersect_classes`). -/
def intersectNamed (replace : String → String → String → String)
    (names1 xml1 names2 xml2 : List String) : Except Err (List String × List String) :=
  let s1 := toSet id names1
  let s2 := toSet id names2
  match forEach (commonStep replace names1 xml1 names2 xml2) ([], [])
      (ord.strs (s1.filter (fun n => decide (n ∈ s2)))) with
  | (_, .error e) => .error e
  | (out, .ok ()) => .ok out

end Lgr.Compare
