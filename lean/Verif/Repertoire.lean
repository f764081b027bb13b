import Verif.Char

/-!
# Repertoire: `lgr/char.py` lines 337-932
-/

namespace Lgr

/-- `lgr/char.py` 337-352: `ranges` is the list of declared ranges, `dict` is `_chardict`
(first code point to the list of characters starting with it, insertion order). -/
structure Repertoire where
  ranges : List (Nat × Nat) := []
  dict : List (Nat × List CharObj) := []
  deriving DecidableEq, Repr, Inhabited

/-- Python `range(first, last + 1)`. -/
def cpRange (first last : Nat) : List Nat := List.range' first (last + 1 - first)

namespace Repertoire

/-- The list stored under a first code point; `[]` when the key is absent. -/
def bucket (r : Repertoire) (k : Nat) : List CharObj := (dget r.dict k).getD []

/-- `lgr/char.py` 365-390: `cp in repertoire` for a non-empty sequence (`[]` would raise
`IndexError` in `_to_index`, see `contains`). -/
def hasCp (r : Repertoire) (k : Seq) : Bool :=
  match k with
  | [] => false
  | i :: _ =>
    match dget r.dict i with
    | none => false
    | some l => decide (k ∈ l.map CharObj.cp)

/-- `lgr/char.py` 365-390 with the empty-sequence error of `_to_index` (20-43). -/
def contains (r : Repertoire) (k : Seq) : Except Err Bool :=
  match k with
  | [] => .error .indexError
  | _ :: _ => .ok (r.hasCp k)

/-- `lgr/char.py` 464-481. -/
def len (r : Repertoire) : Nat := (r.dict.map (fun p => p.2.length)).sum

/-- `lgr/char.py` 881-905: `_add_char`.  `char in set(list)` is equality of `cp`
(`CharBase.__eq__`, 181-185).  `as_index` is the first code point. -/
def addCharObj (r : Repertoire) (c : CharObj) : Except Err Repertoire :=
  match c.cp with
  | [] => .error .indexError
  | i :: _ =>
    match dget r.dict i with
    | some l =>
      if c.cp ∈ l.map CharObj.cp then .error (.charAlreadyExists c.cp)
      else .ok { r with dict := dset r.dict i (l ++ [c]) }
    | none => .ok { r with dict := dset r.dict i [c] }

/-- Python `list.remove(char)`: drop the first element with the same `cp`. -/
def removeCp (k : Seq) : List CharObj → List CharObj
  | [] => []
  | c :: l => if c.cp = k then l else c :: removeCp k l

/-- `lgr/char.py` 907-932: `_del_char`; `none` stands for the return value `False`. -/
def delCharObj (r : Repertoire) (k : Seq) : Option Repertoire :=
  match k with
  | [] => none
  | i :: _ =>
    match dget r.dict i with
    | some l =>
      if k ∈ l.map CharObj.cp then
        let l' := removeCp k l
        if l' = [] then some { r with dict := ddel r.dict i }
        else some { r with dict := dset r.dict i l' }
      else none
    | none => none

/-- `lgr/char.py` 483-520: `add_char`. -/
def addChar (r : Repertoire) (k : Seq) (a : Attrs) : Except Err Repertoire :=
  if k = [] then .error .assertion
  else r.addCharObj { cp := k, attrs := a }

/-- `lgr/char.py` 522-547: `del_char`. -/
def delChar (r : Repertoire) (k : Seq) : Except Err Repertoire :=
  if k = [] then .error .assertion
  else
    match r.delCharObj k with
    | some r' => .ok r'
    | none => .error (.notInLGR k)

/-- Sorting of the list of ranges, `self.ranges.sort()` in `lgr/char.py` 868 (pairs compare
lexicographically). -/
def sortRanges (l : List (Nat × Nat)) : List (Nat × Nat) :=
  l.insertionSort (fun a b => a.1 < b.1 ∨ (a.1 = b.1 ∧ a.2 ≤ b.2))

/-- The loop of `lgr/char.py` 869-879. -/
def overlapLoop (first last : Nat) : List (Nat × Nat) → Bool
  | [] => false
  | (rf, rl) :: l =>
    if rl < first ∨ last < rf then overlapLoop first last l
    else if rf ≤ first ∨ last ≤ rl then true
    else overlapLoop first last l

/-- `lgr/char.py` 858-879: `_check_range_overlap` sorts `ranges` in place. -/
def checkRangeOverlap (r : Repertoire) (first last : Nat) : Repertoire × Bool :=
  let rs := sortRanges r.ranges
  ({ r with ranges := rs }, overlapLoop first last rs)

/-- The loop of `lgr/char.py` 588-595: insert `RangeChar`s one by one, no clean-up on error. -/
def addRangeLoop (first last : Nat) (a : Attrs) : Repertoire → List Nat → Repertoire × Except Err Unit
  | r, [] => (r, .ok ())
  | r, cp :: cps =>
    match r.addCharObj { cp := [cp], range := some (first, last), attrs := a } with
    | .ok r' => addRangeLoop first last a r' cps
    | .error e => (r, .error e)

/-- `lgr/char.py` 549-598: `add_range`. Returns the repertoire after the call and the outcome. -/
def addRange (r : Repertoire) (first last : Nat) (a : Attrs) (skipCheck : Bool) :
    Repertoire × Except Err Unit :=
  if ¬ first < last then (r, .error .assertion)
  else
    let (r1, overlap) := if skipCheck then (r, false) else r.checkRangeOverlap first last
    if overlap then (r1, .error (.rangeAlreadyExists first last))
    else
      match addRangeLoop first last a r1 (cpRange first last) with
      | (r2, .ok ()) => ({ r2 with ranges := r2.ranges ++ [(first, last)] }, .ok ())
      | (r2, .error e) => (r2, .error e)

/-- The loop of `lgr/char.py` 627-637. -/
def delRangeLoop : Repertoire → List Nat → Repertoire × Except Err Unit
  | r, [] => (r, .ok ())
  | r, cp :: cps =>
    match r.delCharObj [cp] with
    | some r' => delRangeLoop r' cps
    | none => (r, .error (.notInLGR [cp]))

/-- `lgr/char.py` 600-640: `del_range`. -/
def delRange (r : Repertoire) (first last : Nat) : Repertoire × Except Err Unit :=
  if ¬ first < last then (r, .error .assertion)
  else if (first, last) ∉ r.ranges then (r, .error (.notInLGR [first]))
  else
    match delRangeLoop r (cpRange first last) with
    | (r', .ok ()) => ({ r' with ranges := r'.ranges.erase (first, last) }, .ok ())
    | (r', .error e) => (r', .error e)

/-- `lgr/char.py` 642-673: `get_char`. -/
def getChar (r : Repertoire) (k : Seq) : Except Err CharObj :=
  match k with
  | [] => .error .assertion
  | i :: _ =>
    match dget r.dict i with
    | none => .error (.notInLGR k)
    | some l =>
      match l.find? (fun c => c.cp == k) with
      | some c => .ok c
      | none => .error (.notInLGR k)

/-- Replace the character object found by `getChar` (Python mutates the object in place). -/
def putChar (r : Repertoire) (c : CharObj) : Repertoire :=
  match c.cp with
  | [] => r
  | i :: _ =>
    match dget r.dict i with
    | none => r
    | some l => { r with dict := dset r.dict i (l.map (fun d => if d.cp = c.cp then c else d)) }

/-- `lgr/char.py` 675-707: `add_variant`. -/
def addVariant (r : Repertoire) (k : Seq) (v : Variant) : Except Err Repertoire :=
  match r.getChar k with
  | .error e => .error e
  | .ok c =>
    match c.addVariant v with
    | .error e => .error e
    | .ok c' => .ok (r.putChar c')

/-- `lgr/char.py` 709-734: `del_variant`. -/
def delVariant (r : Repertoire) (k vcp : Seq) (w n : Option String) :
    Except Err (Repertoire × Bool) :=
  match r.getChar k with
  | .error e => .error e
  | .ok c =>
    match c.delVariant vcp w n with
    | .error e => .error e
    | .ok (c', b) => .ok (r.putChar c', b)

/-- `lgr/char.py` 736-752: `get_variants`. -/
def getVariants (r : Repertoire) (k : Seq) : Except Err (List Variant) :=
  match r.getChar k with
  | .error e => .error e
  | .ok c => .ok c.getVariants

/-- `lgr/char.py` 754-771: `get_variant`. -/
def getVariant (r : Repertoire) (k vcp : Seq) : Except Err (Option (List Variant)) :=
  match r.getChar k with
  | .error e => .error e
  | .ok c => .ok (c.getVariant vcp)

/-- `lgr/char.py` 841-856: `get_chars_from_prefix`. -/
def charsFromPrefix (r : Repertoire) (cp : Nat) (onlyVariants : Bool := false) :
    Except Err (List CharObj) :=
  match dget r.dict cp with
  | none => .error (.notInLGR [cp])
  | some l =>
    .ok (sortDesc CharObj.len (if onlyVariants then l.filter CharObj.hasVariant else l))

/-- `lgr/char.py` 441-462: `all_repertoire()` with both options `True`. -/
def allChars (r : Repertoire) : List CharObj := r.dict.flatMap Prod.snd

/-- Inner loop of `__iter__`, `lgr/char.py` 429-439: state is `last_cp`. -/
def iterBucket : Option Nat → List CharObj → Option Nat × List CharObj
  | last, [] => (last, [])
  | last, c :: l =>
    match c.range with
    | some (_, rl) =>
      match last with
      | some _ => iterBucket last l
      | none =>
        let (last', out) := iterBucket (some rl) l
        (last', c :: out)
    | none =>
      let (last', out) := iterBucket last l
      (last', c :: out)

/-- Outer loop of `__iter__`, `lgr/char.py` 421-439, over the sorted keys. -/
def iterKeys (r : Repertoire) : Option Nat → List Nat → List CharObj
  | _, [] => []
  | last, i :: ks =>
    let last1 : Option Nat :=
      match last with
      | some m => if m < i then none else some m
      | none => none
    let (last2, out) := iterBucket last1 (sortAsc CharObj.len (r.bucket i))
    out ++ iterKeys r last2 ks

/-- `lgr/char.py` 408-439: iteration over a repertoire. -/
def iter (r : Repertoire) : List CharObj :=
  r.iterKeys none (sortAsc id (r.dict.map Prod.fst))

/-- The mutators of `Repertoire`. -/
inductive Op where
  | addChar (k : Seq) (a : Attrs)
  | delChar (k : Seq)
  | addRange (first last : Nat) (a : Attrs) (skipCheck : Bool)
  | delRange (first last : Nat)
  | addVariant (k : Seq) (v : Variant)
  | delVariant (k vcp : Seq) (w n : Option String)
  deriving Repr

/-- One call: repertoire afterwards and outcome (`del_variant` returns a Boolean, the others
return nothing, rendered `true`). -/
def step (r : Repertoire) : Op → Repertoire × Except Err Bool
  | .addChar k a =>
    match r.addChar k a with
    | .ok r' => (r', .ok true)
    | .error e => (r, .error e)
  | .delChar k =>
    match r.delChar k with
    | .ok r' => (r', .ok true)
    | .error e => (r, .error e)
  | .addRange f l a s =>
    match r.addRange f l a s with
    | (r', .ok ()) => (r', .ok true)
    | (r', .error e) => (r', .error e)
  | .delRange f l =>
    match r.delRange f l with
    | (r', .ok ()) => (r', .ok true)
    | (r', .error e) => (r', .error e)
  | .addVariant k v =>
    match r.addVariant k v with
    | .ok r' => (r', .ok true)
    | .error e => (r, .error e)
  | .delVariant k v w n =>
    match r.delVariant k v w n with
    | .ok (r', b) => (r', .ok b)
    | .error e => (r, .error e)

/-- State after a list of calls. -/
def run (r : Repertoire) (ops : List Op) : Repertoire := ops.foldl (fun r op => (r.step op).1) r

/-- Outcomes of a list of calls. -/
def outcomes (r : Repertoire) : List Op → List (Except Err Bool)
  | [] => []
  | op :: ops => (r.step op).2 :: outcomes (r.step op).1 ops

end Repertoire
end Lgr
