import Verif.Lgr

/-!
# Histories of LGR edits
-/

namespace Lgr.LGR

/-- The calls of `lgr/core.py` 200-957 that change the modelled part of an LGR. `setRaise`
assigns the attribute `raise_on_invalid_property` (`lgr/core.py` 114). -/
inductive Op where
  | addCp (arg : CpArg) (o : Opts)
  | delCp (arg : CpArg)
  | addRange (f l : Nat) (o : Opts)
  | delRange (f l : Nat)
  | expandRange (f l : Nat)
  | expandRanges
  | addVariant (arg var : CpArg) (type : Option String) (o : Opts)
  | delVariant (arg var : CpArg) (w n : Option String)
  | addCodepoints (cps : List Nat) (o : Opts)
  | delTag (t : String)
  | addReference (value : String) (comment refId : Option String)
  | delReference (i : String)
  | setRaise (b : Bool)

/-- The environment of a call: Unicode database, identifier syntax, integer parser. -/
structure Ctx where
  db : UniDb
  valid : String → Bool
  pyInt : String → Option Int

/-- State after one call, and whether it raised. -/
def step (c : Ctx) (g : LGR) : Op → LGR × Except Err Unit
  | .addCp arg o => g.addCp c.db arg o
  | .delCp arg => g.delCp c.db arg
  | .addRange f l o => g.addRange c.db f l o
  | .delRange f l => g.delRange f l
  | .expandRange f l => g.expandRange c.db f l
  | .expandRanges => g.expandRanges c.db
  | .addVariant arg var t o => g.addVariant c.db arg var t o
  | .delVariant arg var w n =>
    match g.delVariant c.db arg var w n with
    | (g', .ok _) => (g', .ok ())
    | (g', .error e) => (g', .error e)
  | .addCodepoints cps o => g.addCodepoints c.db cps o
  | .delTag t => (g.delTag t, .ok ())
  | .addReference v k i =>
    match g.addReference c.valid v k i with
    | (g', .ok _) => (g', .ok ())
    | (g', .error e) => (g', .error e)
  | .delReference i => g.delReference c.pyInt i
  | .setRaise b => ({ g with raiseInvalid := b }, .ok ())

/-- State after a history; the environment may differ from call to call. -/
def run (g : LGR) (ops : List (Ctx × Op)) : LGR := ops.foldl (fun g p => (step p.1 g p.2).1) g

end Lgr.LGR
