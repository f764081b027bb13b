import Verif.Repertoire
import Mathlib.Data.Prod.Lex
import Mathlib.Data.List.Dedup

/-!
# Variant sets: `lgr/char.py` 773-812
-/

namespace Lgr.Repertoire

/-- `dfs` of `lgr/char.py` 786-802. The set `visited` is a list of which only membership counts.
`fuel` bounds the depth (see `dfsFuel`; the depth limit of the interpreter is not modelled).
`NotInLGR` is the only exception of `get_char` here: variants are not empty. -/
def dfs (r : Repertoire) (force : Bool) : Nat → List Seq → CharObj → List Seq
  | 0, visited, _ => visited
  | fuel + 1, visited, c =>
    (c.getVariants.map Variant.cp).foldl (fun vis v =>
      if v ∈ vis then vis
      else
        match r.getChar v with
        | .error _ => if force then dfs r force fuel vis { cp := v } else vis
        | .ok d => dfs r force fuel vis d) (c.cp :: visited)

/-- Number of characters and variants: more than any depth of `dfs`. -/
def dfsFuel (r : Repertoire) : Nat := (r.allChars.map (fun c => 1 + c.getVariants.length)).sum

/-- `tuple(sorted(dfs(char)))`. -/
def variantSet (r : Repertoire) (force : Bool) (c : CharObj) : List Seq :=
  sortAsc id (r.dfs force r.dfsFuel [] c).dedup

/-- Python `min` of a non-empty collection. -/
def pyMinSeq (l : List Seq) : Seq := l.foldl min (l.headD [])

/-- `lgr/char.py` 804-812: the set of pairs `(lowest, variant_set)`, sorted. -/
def getVariantSets (r : Repertoire) (force : Bool) : List (List Seq) :=
  let keys := sortAsc id (r.dict.map Prod.fst)
  let sets := keys.flatMap (fun i => (r.bucket i).filterMap (fun c =>
    let s := r.variantSet force c
    if 1 < s.length then some (pyMinSeq s, s) else none))
  (sortAsc (fun p => toLex p) sets.dedup).map Prod.snd

end Lgr.Repertoire
