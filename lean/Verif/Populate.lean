import Verif.Validate

/-!
# Populating variants: `lgr/populate/__init__.py`
-/

namespace Lgr.Populate
open Lgr LGR

variable (db : UniDb)

/-- The inner loop of `Repertoire.__iter__` (`lgr/char.py` 429-439) driving a loop body: the list is
the sorted copy made when the key is reached; the body gets the code point sequence of the
character. -/
def bucketLoop (f : LGR → Seq → LGR × Except Err Unit) :
    LGR → Option Nat → List CharObj → Option Nat × LGR × Except Err Unit
  | g, last, [] => (last, g, .ok ())
  | g, last, c :: l =>
    let go (last : Option Nat) : Option Nat × LGR × Except Err Unit :=
      match f g c.cp with
      | (g', .error e) => (last, g', .error e)
      | (g', .ok ()) => bucketLoop f g' last l
    match c.range with
    | some (_, rl) =>
      match last with
      | some _ => bucketLoop f g last l
      | none => go (some rl)
    | none => go last

/-- The outer loop of `Repertoire.__iter__` (`lgr/char.py` 421-439): each key's list of characters
is read when the key is reached, so it reflects what the body has done so far. -/
def keysLoop (f : LGR → Seq → LGR × Except Err Unit) :
    LGR → Option Nat → List Nat → LGR × Except Err Unit
  | g, _, [] => (g, .ok ())
  | g, last, i :: ks =>
    let last1 : Option Nat :=
      match last with
      | some m => if m < i then none else some m
      | none => none
    match bucketLoop f g last1 (sortAsc CharObj.len (g.rep.bucket i)) with
    | (_, g', .error e) => (g', .error e)
    | (last2, g', .ok ()) => keysLoop f g' last2 ks

/-- `for a in lgr.repertoire: body(a)`, where the body may change the LGR; the keys are those present
at the start. -/
def forRepertoire (f : LGR → Seq → LGR × Except Err Unit) (g : LGR) : LGR × Except Err Unit :=
  keysLoop f g none (sortAsc id (g.rep.dict.map Prod.fst))

/-- `for b in a.get_variants(): body(b)`, where `a` is the character object with this code point
sequence in its current state (objects are changed in place). Simplification: the variants are
listed before the first call of the body; the bodies below never touch the variants of `a` listed
(`Props/Populate.lean`, `body_keeps_listed`). -/
def forVariants (f : LGR → Variant → LGR × Except Err Unit) (g : LGR) (a : Seq) :
    LGR × Except Err Unit :=
  match g.rep.getChar a with
  | .error _ => (g, .ok ())
  | .ok c => forEach f g c.getVariants

/-- Body of the first loop, `lgr/populate/__init__.py` 25-36. -/
def missBody (a : Seq) (g : LGR) (b : Variant) : LGR × Except Err Unit :=
  match g.getVariants db (.seq b.cp) with
  | .error (.notInLGR _) =>
    match g.addCp db (.seq b.cp) {} with
    | (g1, .error e) => (g1, .error e)
    | (g1, .ok ()) => g1.addVariant db (.seq b.cp) (.seq a) (some "blocked") {}
  | .error e => (g, .error e)
  | .ok _ => (g, .ok ())

/-- The last truthy rule of the reverse variants, lines 82-86. -/
def lastRule (f : Variant → Option String) (l : List Variant) : Option String :=
  l.foldl (fun acc r => if truthy (f r) then f r else acc) none

/-- Lines 100-106 and 120-126: replace the unconditional variant by one with a rule. -/
def replaceVariant (g : LGR) (b : Seq) (r : Variant) (o : Opts) : LGR × Except Err Unit :=
  match g.delVariant db (.seq b) (.seq r.cp) none none with
  | (g1, .error e) => (g1, .error e)
  | (g1, .ok _) =>
    g1.addVariant db (.seq b) (.seq r.cp) r.type { o with comment := r.comment, ref := r.refs }

/-- Lines 88-106 (with `when`) and 108-126 (with `not-when`): `rule` is the rule of `b`, `same` the
rule of that kind found on the reverse variants, `other` the one of the other kind; `o` carries
`rule` as the keyword argument. -/
def fixRule (g : LGR) (a : Seq) (b : Variant) (reverse : List Variant)
    (rule same other : Option String) (o : Opts) : LGR × Except Err Unit :=
  if truthy rule && truthy same && decide (rule ≠ same) then (g, .ok ())
  else if truthy rule && !truthy same then
    if truthy other then g.addVariant db (.seq b.cp) (.seq a) (some "blocked") o
    else
      match reverse with
      | [] => (g, .error .indexError)
      | r :: _ => replaceVariant db g b.cp r o
  else (g, .ok ())

/-- Body of the loops of `_add_symmetry`, `lgr/populate/__init__.py` 57-126. -/
def symBody (a : Seq) (g : LGR) (b : Variant) : LGR × Except Err Unit :=
  match g.getVariants db (.seq b.cp) with
  | .error e => (g, .error e)
  | .ok vs =>
    let reverse := vs.filter (fun v => decide (a = v.cp))
    if reverse = [] then
      g.addVariant db (.seq b.cp) (.seq a) (some "blocked")
        { whenR := b.whenR, notWhenR := b.notWhenR }
    else
      let w := lastRule Variant.whenR reverse
      let n := lastRule Variant.notWhenR reverse
      match fixRule db g a b reverse b.whenR w n { whenR := b.whenR } with
      | (g1, .error e) => (g1, .error e)
      | (g1, .ok ()) => fixRule db g1 a b reverse b.notWhenR n w { notWhenR := b.notWhenR }

/-- `lgr/populate/__init__.py` 54-126: `_add_symmetry`. -/
def addSymmetry (g : LGR) : LGR × Except Err Unit :=
  forRepertoire (fun g a => forVariants (symBody db a) g a) g

/-- The innermost loop body of `_add_transitivity`, lines 135-138: `a.get_variants()` is read
anew for each `c`. -/
def transStep (a : Seq) (g : LGR) (c : Variant) : LGR × Except Err Unit :=
  match g.rep.getChar a with
  | .error _ => (g, .ok ())
  | .ok ca =>
    if c.cp ∉ ca.getVariants.map Variant.cp then
      g.addVariant db (.seq a) (.seq c.cp) (some "blocked") {}
    else (g, .ok ())

/-- Body of the loop on the variants, lines 131-138. -/
def transBody (a : Seq) (g : LGR) (b : Variant) : LGR × Except Err Unit :=
  match g.getVariants db (.seq b.cp) with
  | .error e => (g, .error e)
  | .ok vs => forEach (transStep db a) g (vs.filter (fun v => decide (v.cp ≠ a)))

/-- `lgr/populate/__init__.py` 129-138: `_add_transitivity`. -/
def addTransitivity (g : LGR) : LGR × Except Err Unit :=
  forRepertoire (fun g a => forVariants (transBody db a) g a) g

/-- The loop test, line 40: `not check_symmetry(...)[0] or not check_transitivity(...)[0]`. The
notifications sent by the checks are left out: they do not touch the modelled state. -/
def loopTest (g : LGR) : Except Err Bool :=
  match (Validate.checkSymmetry db g true).2 with
  | .error e => .error e
  | .ok (false, _) => .ok true
  | .ok (true, _) =>
    match (Validate.checkTransitivity db g).2 with
    | .error e => .error e
    | .ok (s, _) => .ok (!s)

/-- The `while` loop, lines 40-45; `none` when it has not ended within `fuel` tests. -/
def fixLoop : Nat → LGR → Option (LGR × Except Err Unit)
  | 0, _ => none
  | fuel + 1, g =>
    match loopTest db g with
    | .error e => some (g, .error e)
    | .ok false => some (g, .ok ())
    | .ok true =>
      match addSymmetry db g with
      | (g1, .error e) => some (g1, .error e)
      | (g1, .ok ()) =>
        match addTransitivity db g1 with
        | (g2, .error e) => some (g2, .error e)
        | (g2, .ok ()) => fixLoop fuel g2

/-- Lines 51-52. -/
def finish (g : LGR) : LGR × Except Err Unit :=
  match (Validate.checkSymmetry db g false).2 with
  | .error e => (g, .error e)
  | .ok (true, _) => (g, .ok ())
  | .ok (false, _) => addSymmetry db g

/-- `lgr/populate/__init__.py` 17-52: `populate_lgr`; `none` when the loop needs more than `fuel`
tests. -/
def populate (fuel : Nat) (g : LGR) : Option (LGR × Except Err Unit) :=
  match forRepertoire (fun g a => forVariants (missBody db a) g a) g with
  | (g1, .error e) => some (g1, .error e)
  | (g1, .ok ()) =>
    match fixLoop db fuel g1 with
    | none => none
    | some (g2, .error e) => some (g2, .error e)
    | some (g2, .ok ()) => some (finish db g2)

end Lgr.Populate
