import Verif.Basic

/-!
# RFC 7940 conformance results: `lgr/rfc7940.py` lines 40-139
-/

namespace Lgr.Rfc7940

/-- `lgr/rfc7940.py` 40-41: `test_result`, test label to success. -/
abbrev Results := List (String × Bool)

/-- `lgr/rfc7940.py` 63-76: `add_test_result`; `error` (43-49) and `tested` (51-61) call it
with `False` and `True`. -/
def addTestResult (r : Results) (label : String) (success : Bool) : Results :=
  if success = false ∨ dget r label = none then dset r label success else r

inductive Verdict where
  | pass | warn | fail
  deriving DecidableEq, Repr

/-- The loop of `lgr/rfc7940.py` 108-129: state is (`got_error`, `got_warning`).
A policy is a dictionary test label to policy string. -/
def policyLoop (r : Results) : List (String × String) → Bool × Bool → Bool × Bool
  | [], s => s
  | (test, p) :: rest, (err, warn) =>
    match dget r test with
    | none => policyLoop r rest (true, warn)
    | some false =>
      if p = "IGNORE" then policyLoop r rest (err, warn)
      else if p = "WARNING" then policyLoop r rest (err, true)
      else policyLoop r rest (true, warn)
    | some true => policyLoop r rest (err, warn)

/-- `lgr/rfc7940.py` 78-139: `get_final_result` with `verbose=False`. -/
def finalResult (r : Results) (policy : Option (List (String × String))) : Verdict :=
  match policy with
  | none => if false ∈ r.map Prod.snd then .fail else .pass
  | some pol =>
    let (err, warn) := policyLoop r pol (false, false)
    if err then .fail else if warn then .warn else .pass

end Lgr.Rfc7940
