import Verif.Text
import Verif.Compare

/-!
# Metadata

`lgr/metadata.py` 27-340 (dates, languages), `lgr/memoize.py`, and the metadata part of
`lgr/tools/compare/union.py` 22-113 and `lgr/tools/compare/intersect.py` 22-104.
`rfc7940_checks` is not modelled, `rfc5646.check` is a parameter.
-/

namespace Lgr.Metadata
open Lgr Text

/-! ### Dates -/

/-- `"%02d" % n` for `n < 100`. -/
def pad2 (n : Nat) : List Char := [n / 10 % 10, n % 10].map digitChar

/-- `"%04d" % n` for `n < 10000`. -/
def pad4 (n : Nat) : List Char := [n / 1000 % 10, n / 100 % 10, n / 10 % 10, n % 10].map digitChar

/-- Days in a month, as `datetime` counts them. -/
def daysIn (y m : Nat) : Nat :=
  if m = 2 then (if y % 4 = 0 ∧ (y % 100 ≠ 0 ∨ y % 400 = 0) then 29 else 28)
  else if m = 4 ∨ m = 6 ∨ m = 9 ∨ m = 11 then 30 else 31

/-- `datetime.date(y, m, d)`: `OverflowError` for numbers that do not fit a C `int`, `ValueError` for
what is not a date. Arguments are converted before being checked. -/
def mkDate (y m d : Int) : Except Err (Nat × Nat × Nat) :=
  let fits := fun i : Int => decide (-2147483648 ≤ i ∧ i ≤ 2147483647)
  if (fits y && fits m && fits d) = false then .error .overflowError
  else if 1 ≤ y ∧ y ≤ 9999 ∧ 1 ≤ m ∧ m ≤ 12 ∧ 1 ≤ d ∧ d ≤ daysIn y.toNat m.toNat then
    .ok (y.toNat, m.toNat, d.toNat)
  else .error .valueError

/-- `date.isoformat()`. -/
def iso (t : Nat × Nat × Nat) : List Char := pad4 t.1 ++ '-' :: pad2 t.2.1 ++ '-' :: pad2 t.2.2

/-- `lgr/metadata.py` 27-74: `_validate_date`. `pyInt` is Python's `int(s)`, `none` for `ValueError`.
-/
def validateDate (pyInt : List Char → Option Int) (date : List Char) (force : Bool) :
    Except Err (List Char) :=
  let bad : Except Err (List Char) := if force then .ok date else .error (.format "INVALID_DATE_TAG")
  match splitOn '-' date with
  | [a, b, c] =>
    match pyInt a, pyInt b, pyInt c with
    | some y, some m, some d =>
      match mkDate y m d with
      | .ok t => if iso t = date then .ok date else bad
      | .error .valueError => bad
      | .error e => .error e
    | _, _, _ => bad
  | _ => bad

/-! ### Languages -/

/-- `rfc5646.check(language)`; `none` is `UnicodeEncodeError`. -/
abbrev Check := String → Option Bool

/-- `lgr/metadata.py` 199-230: `add_language`. -/
def addLanguage (check : Check) (langs : List String) (l : String) (force : Bool) :
    List String × Except Err Unit :=
  match check l with
  | none => (langs, .error (.format "INVALID_LANGUAGE_TAG"))
  | some ok =>
    if ok = false ∧ force = false then (langs, .error (.format "INVALID_LANGUAGE_TAG"))
    else (if l ∈ langs then langs else langs ++ [l], .ok ())

/-- The loop of `set_languages`, `lgr/metadata.py` 244-252, over a list from which elements are removed
while it runs: `i` is the position of the iterator. -/
def checkLoop (check : Check) : Nat → Nat → List String → Bool → List String × Bool
  | 0, _, langs, found => (langs, found)
  | fuel + 1, i, langs, found =>
    match langs[i]? with
    | none => (langs, found)
    | some l =>
      match check l with
      | some true => checkLoop check fuel (i + 1) langs found
      | some false => checkLoop check fuel (i + 1) langs true
      | none => checkLoop check fuel (i + 1) (langs.erase l) found

/-- `lgr/metadata.py` 232-258: `set_languages`. -/
def setLanguages (check : Check) (old new : List String) (force : Bool) : List String × Except Err Unit :=
  match checkLoop check (new.length + 1) 0 new false with
  | (langs, found) =>
    if found = true ∧ force = false then (old, .error (.format "INVALID_LANGUAGE_TAG"))
    else (langs, .ok ())

/-! ### Memoised methods -/

/-- An object with an attribute and the results cached so far. -/
structure Memo (ρ : Type) where
  attr : List String
  cache : List ((String × String × String) × ρ) := []

/-- `lgr/memoize.py` 23-39: a memoised method called `name` with body `f` (of the attribute and the
arguments), on an object. `showA` and `showX` are `str` of the attribute and of the arguments. -/
def memoCall {ρ ξ : Type} (showA : List String → String) (showX : ξ → String) (name : String)
    (f : List String → ξ → ρ) (o : Memo ρ) (x : ξ) : Memo ρ × ρ :=
  let key := (name, showA o.attr, showX x)
  match dget o.cache key with
  | some r => (o, r)
  | none => ({ o with cache := dset o.cache key (f o.attr x) }, f o.attr x)

/-- What can happen to the object. -/
inductive MemoOp (ξ : Type) where
  | setAttr (l : List String)
  | call (x : ξ)

def memoStep {ρ ξ : Type} (showA : List String → String) (showX : ξ → String) (name : String)
    (f : List String → ξ → ρ) (o : Memo ρ) : MemoOp ξ → Memo ρ
  | .setAttr l => { o with attr := l }
  | .call x => (memoCall showA showX name f o x).1

/-! ### Union and intersection -/

/-- `lgr/metadata.py` 77-96. -/
structure Version where
  value : String
  comment : Option String := none
  deriving DecidableEq, Repr

/-- `lgr/metadata.py` 99-121. -/
structure Scope where
  value : String
  type : Option String := none
  deriving DecidableEq, Repr

/-- `lgr/metadata.py` 124-149. -/
structure Description where
  value : String
  type : Option String := none
  deriving DecidableEq, Repr

/-- `lgr/metadata.py` 152-171. -/
structure Metadata where
  version : Option Version := none
  date : Option (List Char) := none
  languages : List String := []
  scopes : List Scope := []
  validityStart : Option (List Char) := none
  validityEnd : Option (List Char) := none
  unicodeVersion : Option (List Char) := some "6.3.0".toList
  description : Option Description := none
  deriving DecidableEq, Repr

/-- Python `max(a, b)` on strings. -/
def pyMax (a b : List Char) : List Char := if a < b then b else a

/-- Python `min(a, b)` on strings. -/
def pyMin (a b : List Char) : List Char := if b < a then b else a

/-- `lgr/tools/compare/utils.py` 29-53: `compare_objects`. -/
def compareObjects {α : Type} (f : α → α → α) : Option α → Option α → Option α
  | none, s => s
  | s, none => s
  | some a, some b => some (f a b)

/-- `union.py` 22-42 (`union_version`); `intersect.py` 22-38 is the same up to the test of equality.
-/
def mergeVersion : Option Version → Option Version → Option Version
  | none, s => s
  | s, none => s
  | some a, some b =>
    some ⟨(Compare.letUserChoose (some a.value) (some b.value)).getD "", Compare.letUserChoose a.comment b.comment⟩

/-- `union.py` 78-113: `union_metadata`. `order` is the iteration order of sets, `today` the date of
today, `describe` the function `union_description` (45-75). -/
def unionMetadata (order : {α : Type} → List α → List α) (today : List Char)
    (describe : Description → Option Description → Option Description) (m1 m2 : Metadata) : Metadata :=
  { version := match m1.version with
      | none => none
      | some v => mergeVersion (some v) m2.version
    description := match m1.description with
      | none => none
      | some d => describe d m2.description
    scopes := order (Compare.addNew id (Compare.toSet id m1.scopes) (Compare.toSet id m1.scopes))
    languages := order (Compare.addNew id (Compare.toSet id m2.languages) (Compare.toSet id m1.languages))
    date := some today
    validityStart := compareObjects pyMax m1.validityStart m2.validityStart
    validityEnd := compareObjects pyMin m1.validityEnd m2.validityEnd
    unicodeVersion := compareObjects pyMax m1.unicodeVersion m2.unicodeVersion }

/-- `intersect.py` 72-104: `intersect_metadata`. `describe` is `intersect_description` (41-69). -/
def intersectMetadata (order : {α : Type} → List α → List α) (today : List Char)
    (describe : Option Description → Option Description → Option Description) (m1 m2 : Metadata) : Metadata :=
  { version := mergeVersion m1.version m2.version
    description := describe m1.description m2.description
    scopes := order ((Compare.toSet id m1.scopes).filter (fun s => decide (s ∈ m1.scopes)))
    languages := order ((Compare.toSet id m1.languages).filter (fun l => decide (l ∈ m2.languages)))
    date := some today
    validityStart := compareObjects pyMax m1.validityStart m2.validityStart
    validityEnd := compareObjects pyMin m1.validityEnd m2.validityEnd
    unicodeVersion := compareObjects pyMax m1.unicodeVersion m2.unicodeVersion }

end Lgr.Metadata
