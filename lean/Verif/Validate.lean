import Verif.Lgr
import Verif.Rfc7940

/-!
# Symmetry and transitivity checks: `lgr/validate/symmetry.py`, `lgr/validate/transitivity.py`
-/

namespace Lgr

/-- A Python `for` loop whose body may raise: state afterwards and outcome. -/
def forEach {σ α : Type} (f : σ → α → σ × Except Err Unit) : σ → List α → σ × Except Err Unit
  | s, [] => (s, .ok ())
  | s, a :: l =>
    match f s a with
    | (s', .error e) => (s', .error e)
    | (s', .ok ()) => forEach f s' l

/-- Python truth value of a string or `None`. -/
def truthy : Option String → Bool
  | none => false
  | some s => decide (s ≠ "")

namespace LGR

variable (db : UniDb)

/-- `lgr/core.py` 778-801: `get_variants`. -/
def getVariants (g : LGR) (arg : CpArg) : Except Err (List Variant) :=
  match checkConvert db g.raiseInvalid arg with
  | .error e => .error e
  | .ok s => g.rep.getVariants s

end LGR

namespace Validate

/-- Calls of `lgr.notify_error` / `lgr.notify_tested` (`lgr/core.py` 1471-1492). -/
inductive Note where
  | error (label : String)
  | tested (label : String)
  deriving DecidableEq, Repr

/-- What the calls do to the conformance results (`lgr/rfc7940.py` 43-61). -/
def Note.apply (r : Rfc7940.Results) : Note → Rfc7940.Results
  | .error l => Rfc7940.addTestResult r l false
  | .tested l => Rfc7940.addTestResult r l true

inductive SymKind where
  | notInRepertoire
  | missingSymmetric
  | missingRule (kind : String) (rule : Option String)
  deriving DecidableEq, Repr

/-- The local variables of a check: `success`, `result['repertoire']`, and the notifications sent
so far. -/
structure Acc (α : Type) where
  success : Bool := true
  entries : List α := []
  notes : List Note := []
  deriving DecidableEq, Repr

/-- An entry of the report of `check_symmetry`: character, variant, type (and rule). -/
structure SymEntry where
  char : Seq
  variant : Variant
  kind : SymKind
  deriving DecidableEq, Repr

/-- Record a problem. -/
def Acc.fail {α : Type} (acc : Acc α) (e : α) (label : String) : Acc α :=
  { success := false, entries := acc.entries ++ [e], notes := acc.notes ++ [.error label] }

/-- Body of the inner loop of `check_symmetry`, `lgr/validate/symmetry.py` 43-105. -/
def symBody (db : UniDb) (g : LGR) (ignoreRules : Bool) (a : CharObj) (acc : Acc SymEntry)
    (b : Variant) : Acc SymEntry × Except Err Unit :=
  match g.rep.contains b.cp with
  | .error e => (acc, .error e)
  | .ok false => (acc.fail ⟨a.cp, b, .notInRepertoire⟩ "basic_symmetry", .ok ())
  | .ok true =>
    match g.getVariants db (.seq b.cp) with
    | .error e => (acc, .error e)
    | .ok vs =>
      let reverse := vs.filter (fun v => decide (a.cp = v.cp))
      if reverse = [] then
        (acc.fail ⟨a.cp, b, .missingSymmetric⟩ "basic_symmetry", .ok ())
      else if ignoreRules then (acc, .ok ())
      else if truthy b.whenR && !decide (b.whenR ∈ reverse.map Variant.whenR) then
        (acc.fail ⟨a.cp, b, .missingRule "when" b.whenR⟩ "strict_symmetry", .ok ())
      else if truthy b.notWhenR && !decide (b.notWhenR ∈ reverse.map Variant.notWhenR) then
        (acc.fail ⟨a.cp, b, .missingRule "not-when" b.notWhenR⟩ "strict_symmetry", .ok ())
      else (acc, .ok ())

/-- Body of the outer loop, `lgr/validate/symmetry.py` 38-105. -/
def symChar (db : UniDb) (g : LGR) (ignoreRules : Bool) (acc : Acc SymEntry) (a : CharObj) :
    Acc SymEntry × Except Err Unit :=
  if a.isRange then (acc, .ok ()) else forEach (symBody db g ignoreRules a) acc a.getVariants

/-- `lgr/validate/symmetry.py` 15-111: `check_symmetry`; `ignoreRules` is the truth of
`options and options.get('ignore_rules')`. The repertoire is not changed by the calls made while
iterating. Returns the notifications (also sent when the call raises) and the outcome. -/
def checkSymmetry (db : UniDb) (g : LGR) (ignoreRules : Bool) :
    List Note × Except Err (Bool × List SymEntry) :=
  match forEach (symChar db g ignoreRules) {} g.rep.iter with
  | (acc, .error e) => (acc.notes, .error e)
  | (acc, .ok ()) =>
    (acc.notes ++ [.tested "basic_symmetry", .tested "strict_symmetry"],
      .ok (acc.success, acc.entries))

/-- An entry of the report of `check_transitivity`: character, missing variant. -/
structure TransEntry where
  char : Seq
  variant : Variant
  deriving DecidableEq, Repr

/-- The innermost loop, `lgr/validate/transitivity.py` 54-71; it cannot raise. -/
def transInner (a : CharObj) (acc : Acc TransEntry) (c : Variant) : Acc TransEntry :=
  if c.cp ∉ a.getVariants.map Variant.cp then acc.fail ⟨a.cp, c⟩ "basic_transitivity" else acc

/-- Body of the loop on the variants, `lgr/validate/transitivity.py` 43-71. A variant which is not
in the LGR makes the check fail without notification or entry. -/
def transBody (db : UniDb) (g : LGR) (a : CharObj) (acc : Acc TransEntry) (b : Variant) :
    Acc TransEntry × Except Err Unit :=
  match g.getVariants db (.seq b.cp) with
  | .error (.notInLGR _) => ({ acc with success := false }, .ok ())
  | .error e => (acc, .error e)
  | .ok vs => ((vs.filter (fun v => decide (v.cp ≠ a.cp))).foldl (transInner a) acc, .ok ())

/-- Body of the outer loop, `lgr/validate/transitivity.py` 36-71. -/
def transChar (db : UniDb) (g : LGR) (acc : Acc TransEntry) (a : CharObj) :
    Acc TransEntry × Except Err Unit :=
  if a.isRange then (acc, .ok ()) else forEach (transBody db g a) acc a.getVariants

/-- `lgr/validate/transitivity.py` 16-75: `check_transitivity`. -/
def checkTransitivity (db : UniDb) (g : LGR) : List Note × Except Err (Bool × List TransEntry) :=
  match forEach (transChar db g) {} g.rep.iter with
  | (acc, .error e) => (acc.notes, .error e)
  | (acc, .ok ()) =>
    (acc.notes ++ [.tested "basic_transitivity"], .ok (acc.success, acc.entries))

end Validate
end Lgr
