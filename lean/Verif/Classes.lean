import Verif.Basic

/-!
# Classes

`lgr/classes.py`. A set of code points (`UnicodeSet`) is a Boolean function on code points. The set of a
Unicode property is a parameter. `get_pattern` with `as_set=True` is `getSet`; with `as_set=False` the
pattern is the empty string if the set is empty, and else matches one code point of the set
(`lgr/classes.py` 21-42); see `Verif.Rule`.
-/

namespace Lgr
open Lgr

/-- A set of code points. -/
abbrev CpSet := Nat → Bool

/-- `len(cp_set) == 0`. -/
def CpSet.isEmpty (s : CpSet) : Bool := (List.range 0x110000).all (fun c => !s c)

/-- `lgr/classes.py` 45-91: an object of `Class` itself. -/
structure BaseCls where
  name : Option String := none
  fromTag : Option String := none
  property : Option String := none
  codepoints : List Nat := []
  byRef : Option String := none
  deriving DecidableEq, Repr

/-- The combinators, `lgr/classes.py` 250-444. -/
inductive Comb where
  | complement | union | intersection | difference | symDiff
  deriving DecidableEq, Repr

/-- Classes. -/
inductive Cls where
  | base (b : BaseCls)
  | comb (name : Option String) (op : Comb) (children : List Cls)
  deriving Repr

namespace Cls

/-- `TAG_CLASSNAME_PREFIX`, `lgr/classes.py` 18. -/
def tagPrefix : String := "#__internal_tag_"

/-- `Class.__init__`, `lgr/classes.py` 74-91, with the references given. -/
def mkBase (b : BaseCls) (ref : List String) : Except Err BaseCls :=
  if b.byRef.isSome then
    if b.name.isSome ∨ b.fromTag.isSome ∨ b.property.isSome ∨ ref ≠ [] then
      .error (.format "BY_REF_AND_OTHER")
    else .ok b
  else .ok b

/-- `MAX_CHILDREN`, `lgr/classes.py` 218, 255, 331, 371, 410; 0 is no limit. -/
def maxChildren : Comb → Nat
  | .complement => 1
  | .union => 0
  | .intersection => 2
  | .difference => 2
  | .symDiff => 2

/-- `CombinatorClass.add_child`, `lgr/classes.py` 225-230. -/
def addChild (op : Comb) (children : List Cls) (c : Cls) : Except Err (List Cls) :=
  if maxChildren op > 0 ∧ children.length ≥ maxChildren op then
    .error (.format "INVALID_CHILDREN_NUMBER")
  else .ok (children ++ [c])

/-- All code points. -/
def allCps (c : Nat) : Bool := decide (c < 0x110000)

/-- `get_pattern(..., as_set=True)` of classes, `lgr/classes.py` 124-167, 262-272, 299-309, 338-352,
378-391, 417-431. `db` is the set of a property (with the exceptions of an invalid one), `lk` is
`classes_lookup`, the first argument bounds the depth of recursion: at 0 it is Python's
`RecursionError`. -/
def getSet (db : String → Except Err CpSet) (lk : List (String × Cls)) : Nat → Cls → Except Err CpSet
  | 0, _ => .error .recursionError
  | fuel + 1, .base b =>
    match b.byRef with
    | some n =>
      match dget lk n with
      | none => .error (.ruleError n)
      | some c => getSet db lk fuel c
    | none =>
      match b.fromTag with
      | some t =>
        match dget lk (tagPrefix ++ t) with
        | none => .ok (fun _ => false)
        | some c => getSet db lk fuel c
      | none =>
        match b.property with
        | some p => db p
        | none => .ok (fun c => decide (c ∈ b.codepoints))
  | fuel + 1, .comb _ .complement cs =>
    match cs with
    | [] => .error .indexError
    | c :: _ =>
      match getSet db lk fuel c with
      | .error e => .error e
      | .ok s => .ok (fun x => allCps x && !s x)
  | fuel + 1, .comb _ .union cs =>
    match cs.mapM (getSet db lk fuel) with
    | .error e => .error e
    | .ok ss => .ok (fun x => ss.any (fun s => s x))
  | fuel + 1, .comb _ op cs =>
    match cs with
    | [] => .error .indexError
    | c :: cs =>
      match getSet db lk fuel c with
      | .error e => .error e
      | .ok s1 =>
        match cs with
        | [] => .error .indexError
        | d :: _ =>
          match getSet db lk fuel d with
          | .error e => .error e
          | .ok s2 =>
            match op with
            | .intersection => .ok (fun x => s1 x && s2 x)
            | .difference => .ok (fun x => s1 x && !s2 x)
            | _ => .ok (fun x => (s1 x || s2 x) && !(s1 x && s2 x))

mutual

/-- `Class.validate` and `CombinatorClass.validate`, `lgr/classes.py` 169-201, 232-238, 274-282, 311-319,
354-362, 393-401, 433-441. `top` is `len(parents) == 0`. -/
def validate (lk : List (String × Cls)) (top : Bool) : Cls → Except Err Unit
  | .base b =>
    if b.byRef.isSome ∧ (b.byRef.bind (dget lk)).isNone then .error (.format "INVALID_BY_REF")
    else if top = b.name.isNone then .error (.format "INVALID_TOP_LEVEL_NAME")
    else .ok ()
  | .comb name op cs =>
    if top = name.isNone then .error (.format "INVALID_TOP_LEVEL_NAME")
    else
      match validateAll lk cs with
      | .error e => .error e
      | .ok () =>
        match op with
        | .complement => if cs.length ≠ 1 then .error (.format "INVALID_CHILDREN_NUMBER") else .ok ()
        | .union => if cs.length < 2 then .error (.format "INVALID_CHILDREN_NUMBER") else .ok ()
        | _ => if cs.length ≠ 2 then .error (.format "INVALID_CHILDREN_NUMBER") else .ok ()

/-- The loop over the children. -/
def validateAll (lk : List (String × Cls)) : List Cls → Except Err Unit
  | [] => .ok ()
  | c :: cs =>
    match validate lk false c with
    | .error e => .error e
    | .ok () => validateAll lk cs

end

end Cls

end Lgr
