import Verif.Basic

/-!
# `collapse_codepoints`: `lgr/utils.py` lines 112-143
-/

namespace Lgr

/-- The loop of `lgr/utils.py` 130-141; the accumulated `result` list is returned in order. -/
def collapseLoop (first last : Nat) : List Nat → List (Nat × Nat)
  | [] => [(first, last)]
  | cp :: cps =>
    if cp = last + 1 then collapseLoop first cp cps
    else (first, last) :: collapseLoop cp cp cps

/-- `lgr/utils.py` 112-143. `codepoints[0]` on an empty list raises `IndexError`. -/
def collapseCodepoints (cps : List Nat) : Except Err (List (Nat × Nat)) :=
  match sortAsc id cps with
  | [] => .error .indexError
  | c :: cs => .ok (collapseLoop c c cs)

end Lgr
