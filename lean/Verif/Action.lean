import Verif.Label

/-!
# Actions: `lgr/action.py`, `lgr/core.py` 43-63, 163-168, 1877-1913
-/

namespace Lgr

/-- Rule evaluation for context rules (`Env`) and on whole labels, without anchor
(`rules_lookup[name].matches(label, ...)`, `lgr/action.py` 82-98; an undefined name is a
`KeyError`), and the script of a code point (`unicode_database.get_script`). -/
structure FullEnv extends Env where
  labelMatches : String → Seq → Except Err Bool
  script : Nat → String

/-- A set of variant types; `none` is Python's `None` (type of an untyped variant). Represented
by a list of which only membership counts. -/
abbrev DispSet := List (Option String)

/-- `lgr/action.py` 15-54. `any_variant`, `all_variants`, `only_variants` are `None` when not given
or empty (lines 45-47): here the empty list. Simplification: `disp` is a string, not `None`. -/
structure Action where
  disp : String
  matchR : Option String := none
  notMatchR : Option String := none
  anyVariant : List String := []
  allVariants : List String := []
  onlyVariants : List String := []
  comment : Option String := none
  refs : List String := []
  deriving DecidableEq, Repr, Inhabited

/-- `lgr/action.py` 49-54: the constructor rejects `match` together with `not_match`. -/
def Action.mk? (a : Action) : Except Err Action :=
  if a.matchR ≠ none ∧ a.notMatchR ≠ none then .error (.format "MATCH_NOT_MATCH") else .ok a

/-- `lgr/action.py` 81-98: rule part of `apply`. -/
def Action.ruleMatched (env : FullEnv) (a : Action) (label : Seq) : Except Err Bool :=
  match a.matchR with
  | some m => env.labelMatches m label
  | none =>
    match a.notMatchR with
    | some m =>
      match env.labelMatches m label with
      | .ok b => .ok (!b)
      | .error e => .error e
    | none => .ok true

/-- `lgr/action.py` 100-129: variant part of `apply`. -/
def Action.variantMatched (a : Action) (d : DispSet) (only : Bool) : Bool :=
  if a.anyVariant ≠ [] then a.anyVariant.any (fun t => decide (some t ∈ d))
  else if a.allVariants ≠ [] then
    decide (d ≠ []) && d.all (fun t => decide (t ∈ a.allVariants.map some))
  else if a.onlyVariants ≠ [] then
    only && (decide (d ≠ []) && d.all (fun t => decide (t ∈ a.onlyVariants.map some)))
  else true

/-- `lgr/action.py` 56-138: `apply`; the disposition when triggered, else `None`. -/
def Action.apply (env : FullEnv) (a : Action) (label : Seq) (d : DispSet) (only : Bool) :
    Except Err (Option String) :=
  match a.ruleMatched env label with
  | .error e => .error e
  | .ok b => .ok (if b && a.variantMatched d only then some a.disp else none)

/-- `lgr/core.py` 53-63: `DEFAULT_ACTIONS`. -/
def defaultActions : List Action :=
  [ { disp := "invalid", anyVariant := ["invalid"], comment := some "Default action for invalid" },
    { disp := "blocked", anyVariant := ["blocked"], comment := some "Default action for blocked" },
    { disp := "allocatable", anyVariant := ["allocatable"],
      comment := some "Default action for allocatable" },
    { disp := "activated", allVariants := ["activated"],
      comment := some "Default action for activated" },
    { disp := "valid", comment := some "Default catch-all" } ]

/-- `lgr/core.py` 163-168: `effective_actions`. -/
def effectiveActions (actions : List Action) : List Action := actions ++ defaultActions

/-- The loop of `lgr/core.py` 1894-1908, from index `idx`; the end of the list (1910-1913) returns
`None, -1`. -/
def applyLoop (env : FullEnv) (label : Seq) (d : DispSet) (only : Bool) :
    Nat → List Action → Except Err (Option String × Int)
  | _, [] => .ok (none, -1)
  | idx, a :: as =>
    match a.apply env label d only with
    | .error e => .error e
    | .ok (some disp) => .ok (some disp, idx)
    | .ok none => applyLoop env label d only (idx + 1) as

/-- `lgr/core.py` 1877-1913: `_apply_actions`. -/
def applyActions (env : FullEnv) (actions : List Action) (label : Seq) (d : DispSet) (only : Bool) :
    Except Err (Option String × Int) :=
  applyLoop env label d only 0 (effectiveActions actions)

end Lgr
