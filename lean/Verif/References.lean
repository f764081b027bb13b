import Verif.Text

/-!
# Reference manager: `lgr/metadata.py` lines 337-477
-/

namespace Lgr

/-- A reference: a dictionary with `value` and possibly `comment`, `lgr/metadata.py` 398-402. -/
structure Ref where
  value : String
  comment : Option String := none
  deriving DecidableEq, Repr

/-- `ReferenceManager`, an ordered dictionary from identifiers (strings: every access goes
through `str(k)`, `lgr/metadata.py` 360-370) with the `next_id` counter. -/
structure RefManager where
  refs : List (String × Ref) := []
  nextId : Int := 0
  deriving DecidableEq, Repr

namespace RefManager

/-- Python `str(i)`. -/
def idStr (i : Int) : String := String.ofList (Text.intStr i)

/-- The loop `while str(next_id) in sorted(self): next_id += 1`, `lgr/metadata.py` 414-416.
`fuel` bounds the recursion; it is never exhausted (`Props.C11.nextFree_spec`). -/
def nextFree (keys : List String) : Nat → Int → Int
  | 0, i => i
  | fuel + 1, i => if idStr i ∈ keys then nextFree keys fuel (i + 1) else i

variable (valid : String → Bool) (pyInt : String → Option Int)

/-- `lgr/metadata.py` 372-424: `add_reference`. `valid` is the regular expression test
(352, 409). Returns the manager and the identifier as a string, or raises unchanged. -/
def addReference (m : RefManager) (value : String) (comment : Option String)
    (refId : Option String) : Except Err (RefManager × String) :=
  match refId with
  | some i =>
    if (dget m.refs i).isSome then .error (.referenceAlreadyExists i)
    else if valid i = false then .error (.referenceInvalidId i)
    else .ok ({ m with refs := dset m.refs i ({ value, comment } : Ref) }, i)
  | none =>
    let n := nextFree (m.refs.map Prod.fst) (m.refs.length + 1) m.nextId
    .ok ({ refs := dset m.refs (idStr n) ({ value, comment } : Ref), nextId := n }, idStr n)

/-- `lgr/metadata.py` 426-452: `del_reference`. `pyInt` is Python's `int(ref_id)`, `none` for
`ValueError`. -/
def delReference (m : RefManager) (i : String) : Except Err RefManager :=
  if (dget m.refs i).isNone then .error (.referenceNotDefined i)
  else
    let m' := { m with refs := ddel m.refs i }
    match pyInt i with
    | some k => if k < m.nextId then .ok { m' with nextId := k } else .ok m'
    | none => .ok m'

/-- `lgr/metadata.py` 454-477: `update_reference`. -/
def updateReference (m : RefManager) (i : String) (value comment : Option String) :
    Except Err RefManager :=
  match dget m.refs i with
  | none => .error (.referenceNotDefined i)
  | some r =>
    .ok { m with refs := (dset m.refs i
      ({ value := value.getD r.value, comment := comment.orElse (fun _ => r.comment) } : Ref)) }

/-- The calls on the manager. -/
inductive Op where
  | add (value : String) (comment : Option String) (refId : Option String)
  | del (i : String)
  | update (i : String) (value comment : Option String)

/-- One call: manager afterwards, and returned identifier or exception. -/
def step (m : RefManager) : Op → RefManager × Except Err String
  | .add v c i =>
    match m.addReference valid v c i with
    | .ok (m', s) => (m', .ok s)
    | .error e => (m, .error e)
  | .del i =>
    match m.delReference pyInt i with
    | .ok m' => (m', .ok i)
    | .error e => (m, .error e)
  | .update i v c =>
    match m.updateReference i v c with
    | .ok m' => (m', .ok i)
    | .error e => (m, .error e)

def run (m : RefManager) (ops : List Op) : RefManager :=
  ops.foldl (fun m op => (m.step valid pyInt op).1) m

end RefManager
end Lgr
