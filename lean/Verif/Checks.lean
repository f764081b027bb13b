import Verif.Validate
import Verif.Metadata
import Verif.Action

/-!
# The validation suite

`lgr/validate/__init__.py`, `conditional_variants.py`, `lgr_stats.py`, `metadata.py`,
`miscellaneous.py`, `rebuild_lgr.py`. The symmetry and transitivity checks are in `Verif.Validate`;
`xml_validity.py` (XML schema validation) is not modelled. Log messages are not modelled.
-/

namespace Lgr.Checks
open Lgr Validate Metadata

/-- What `except LGRException` catches (`lgr/exceptions.py`): not Python's own exceptions. -/
def isLgrException : Err → Bool
  | .keyError _ | .indexError | .assertion | .valueError | .attributeError | .typeError
  | .nameError | .overflowError | .recursionError => false
  | _ => true

/-! ### The driver, `lgr/validate/__init__.py` -/

/-- The check functions, `lgr/validate/__init__.py` 20-32. -/
inductive Check where
  | xmlValidity | symmetry | transitivity | conditionalVariants | rebuild | stats
  | metadata | miscellaneous
  deriving DecidableEq, Repr

/-- Initial value of the global list `CHECKS`, lines 20-27. -/
def baseChecks : List Check :=
  [.xmlValidity, .symmetry, .transitivity, .conditionalVariants, .rebuild, .stats]

/-- `RFC7940_CHECKS`, lines 29-32. -/
def rfcChecks : List Check := [.metadata, .miscellaneous]

/-- The loop, lines 57-64. `body` is the check function: it may change the state, and returns its
result or raises. The entry of a check is its result or the `LGRException` it raised. -/
def runChecks {σ ρ : Type} (body : Check → σ → σ × Except Err ρ) :
    List Check → σ → σ × Except Err (List (Check × Except Err ρ))
  | [], s => (s, .ok [])
  | c :: cs, s =>
    match body c s with
    | (s', .error e) =>
      if isLgrException e then
        match runChecks body cs s' with
        | (s'', .ok l) => (s'', .ok ((c, .error e) :: l))
        | (s'', .error e') => (s'', .error e')
      else (s', .error e)
    | (s', .ok r) =>
      match runChecks body cs s' with
      | (s'', .ok l) => (s'', .ok ((c, .ok r) :: l))
      | (s'', .error e') => (s'', .error e')

/-- `validate_lgr`, lines 37-66. `checks` is the global list `CHECKS`; `TO_RUN = CHECKS` is the same
list object and `+=` extends it in place, so the list returned first is the value of `CHECKS`
afterwards. -/
def validateLgr {σ ρ : Type} (body : Check → σ → σ × Except Err ρ) (checks : List Check) (rfc : Bool)
    (s : σ) : List Check × σ × Except Err (List (Check × Except Err ρ)) :=
  let toRun := if rfc then checks ++ rfcChecks else checks
  let (s', res) := runChecks body toRun s
  (toRun, s', res)

/-! ### `conditional_variants.py` -/

/-- An entry of the report: character, variant, `rule_type`, `rule`. -/
structure CondEntry where
  char : Seq
  variant : Variant
  kind : String
  rule : String
  deriving DecidableEq, Repr

/-- `lgr/validate/conditional_variants.py` 32-61, for one variant: first `when`, then `not-when`. -/
def condVariant (rules : List String) (c : CharObj) (v : Variant) : List CondEntry :=
  (match v.whenR with
    | some w => if w ∈ rules then [] else [⟨c.cp, v, "when", w⟩]
    | none => []) ++
  (match v.notWhenR with
    | some w => if w ∈ rules then [] else [⟨c.cp, v, "not-when", w⟩]
    | none => [])

/-- `lgr/validate/conditional_variants.py` 16-65: `check_conditional_variants`; `rules` is `lgr.rules`,
the names of the top level rules. -/
def checkConditional (rules : List String) (r : Repertoire) : Bool × List CondEntry :=
  let entries := r.iter.flatMap (fun c =>
    if c.isRange then [] else c.getVariants.flatMap (condVariant rules c))
  (decide (entries = []), entries)

/-! ### `lgr_stats.py` -/

/-- `lgr/validate/lgr_stats.py` 22-44. The average (a rounded float) is left out. -/
structure Stats where
  codepoints : Nat := 0
  ranges : Nat := 0
  largestRange : Option CharObj := none
  largestRangeLen : Nat := 0
  sequences : Nat := 0
  largestSequence : Option CharObj := none
  largestSequenceLen : Nat := 0
  withVariants : Nat := 0
  mappings : Nat := 0
  byType : List (Option String × Nat) := []
  largestSet : Nat := 0
  byTag : List (String × Nat) := []
  rules : Nat := 0
  deriving DecidableEq, Repr

/-- `if t in d: d[t] += n else: d[t] = n`. -/
def bump {κ : Type} [DecidableEq κ] (d : List (κ × Nat)) (t : κ) (n : Nat) : List (κ × Nat) :=
  dset d t ((dget d t).getD 0 + n)

/-- `range_len`, lines 48-51. (The last code point of a range is not below the first.) -/
def rangeLen (c : CharObj) : Nat :=
  match c.range with
  | some (f, l) => l + 1 - f
  | none => 1

/-- Lines 48-65. -/
def statsKind (s : Stats) (c : CharObj) : Stats :=
  if c.isRange then
    let s := { s with codepoints := s.codepoints + rangeLen c, ranges := s.ranges + 1 }
    if s.largestRangeLen < rangeLen c then
      { s with largestRangeLen := rangeLen c, largestRange := some c }
    else s
  else if c.isSequence then
    let s := { s with codepoints := s.codepoints + 1, sequences := s.sequences + 1 }
    if s.largestSequenceLen < c.cp.length then
      { s with largestSequenceLen := c.cp.length, largestSequence := some c }
    else s
  else { s with codepoints := s.codepoints + 1 }

/-- Lines 67-71. -/
def statsTags (s : Stats) (c : CharObj) : Stats :=
  { s with byTag := c.attrs.tags.foldl (fun d t => bump d t (rangeLen c)) s.byTag }

/-- Lines 73-86. -/
def statsVariants (s : Stats) (c : CharObj) : Stats :=
  let vs := c.getVariants
  let setLen := (vs.map Variant.cp ++ if 0 < vs.length then [c.cp] else []).dedup.length
  { s with
    mappings := s.mappings + (vs.map Variant.cp).dedup.length
    largestSet := max s.largestSet setLen
    withVariants := if 0 < setLen then s.withVariants + 1 else s.withVariants
    byType := vs.foldl (fun d v => bump d v.type 1) s.byType }

/-- `lgr/validate/lgr_stats.py` 15-91: `generate_stats`; `nRules` is `len(lgr.rules)`. -/
def generateStats (nRules : Nat) (r : Repertoire) : Stats :=
  r.iter.foldl (fun s c => statsVariants (statsTags (statsKind s c) c) c) { rules := nRules }

/-! ### `metadata.py` -/

/-- `re.match(r'[1-9]\d*$', value)`: `$` also matches before a final newline. `digit` is what `\d`
matches. -/
def versionMatches (digit : Char → Bool) : List Char → Bool
  | [] => false
  | c :: cs =>
    decide ('1' ≤ c ∧ c ≤ '9') &&
      (decide (cs.dropWhile digit = []) || decide (cs.dropWhile digit = ['\n']))

/-- A check of one item: notify the error if it is one, then that it was tested. -/
def item (bad : Bool) (label : String) : List Note :=
  (if bad then [.error label] else []) ++ [.tested label]

/-- What `check_metadata` needs to know of the world: `\d`, the values of `mimetypes.types_map`, and
today's date as a string. -/
structure World where
  digit : Char → Bool
  mime : String → Bool
  today : List Char

/-- `validity_end_expiry`, lines 41-44. -/
def expired (w : World) (m : Metadata) : Bool :=
  match m.validityEnd with
  | some e => decide (e < w.today)
  | none => false

/-- `validity_start_end`, lines 47-50. -/
def startAfterEnd (m : Metadata) : Bool :=
  match m.validityStart, m.validityEnd with
  | some s, some e => decide (e < s)
  | _, _ => false

/-- `validity_started`, lines 53-56. -/
def notStarted (w : World) (m : Metadata) : Bool :=
  match m.validityStart with
  | some s => decide (w.today < s)
  | none => false

/-- `metadata_description_type`, lines 60-66. -/
def badDescription (w : World) (m : Metadata) : Bool :=
  match m.description with
  | some d =>
    match d.type with
    | some t => !w.mime t
    | none => false
  | none => false

/-- Membership in `VALID_SCOPE_TYPES`, lines 13-16. -/
def badScope (s : Scope) : Bool := !decide (s.type ∈ [none, some "domain"])

/-- `metadata_version_integer`, lines 77-80. -/
def badVersion (w : World) (m : Metadata) : Bool :=
  match m.version with
  | some v => !versionMatches w.digit v.value.toList
  | none => false

/-- `lgr/validate/metadata.py` 18-84: `check_metadata`: notifications and `success`. -/
def checkMetadata (w : World) (m : Metadata) : List Note × Bool :=
  (item (expired w m) "validity_end_expiry"
    ++ item (startAfterEnd m) "validity_start_end"
    ++ item (notStarted w m) "validity_started"
    ++ item (badDescription w m) "metadata_description_type"
    ++ (m.scopes.filter badScope).map (fun _ => Note.error "metadata_scope_type")
    ++ [Note.tested "metadata_scope_type"]
    ++ item (badVersion w m) "metadata_version_integer",
    !(expired w m || startAfterEnd m || notStarted w m || badDescription w m
      || m.scopes.any badScope || badVersion w m))

/-! ### `miscellaneous.py` -/

/-- `STANDARD_DISPOSITIONS`, lines 15-21. -/
def standardDispositions : List String := ["invalid", "blocked", "allocatable", "activated", "valid"]

/-- `lgr/validate/miscellaneous.py` 88-101: `check_lgr_rules`. -/
def checkRules (actions : List Action) : List Note × Bool :=
  let bad := actions.filter (fun a => !decide (a.disp ∈ standardDispositions))
  (bad.map (fun _ => Note.error "standard_dispositions") ++ [.tested "standard_dispositions"],
    decide (bad = []))

/-- `re.match(r'\d+$', n)`. -/
def numeric (digit : Char → Bool) (s : List Char) : Bool :=
  match s with
  | [] => false
  | c :: cs => digit c && (decide (cs.dropWhile digit = []) || decide (cs.dropWhile digit = ['\n']))

/-- `lgr/validate/miscellaneous.py` 75-86: `check_ref_ascending` from value `last` on. `pyInt` is
`int(n)`, `none` is `ValueError` (too many digits for Python's `int`). The error notification is sent
exactly if the result is `False`. -/
def refAscending (digit : Char → Bool) (pyInt : List Char → Option Int) :
    Int → List String → Except Err Bool
  | _, [] => .ok true
  | last, n :: ns =>
    if numeric digit n.toList then
      match pyInt n.toList with
      | none => .error .valueError
      | some i => if last < i then refAscending digit pyInt i ns else .ok false
    else .ok true

/-- `' ' in t or t == '' or t[0] == '_'`, line 37. -/
def badType (t : List Char) : Bool :=
  decide (' ' ∈ t) || decide (t = []) || decide (t.head? = some '_')

/-- A variant with a bad type. -/
def badVariant (v : Variant) : Bool :=
  match v.type with
  | some t => badType t.toList
  | none => false

/-- Lines 29-42, for one character: the label is notified as tested for every character that is not a
range. -/
def typeNotes (c : CharObj) : List Note :=
  if c.isRange then []
  else (c.getVariants.filter badVariant).map (fun _ => Note.error "data_variant_type")
    ++ [.tested "data_variant_type"]

/-- `to_check`, lines 49-56. -/
def toCheck (r : Repertoire) : List Nat :=
  (r.iter.flatMap (fun c =>
    match c.range with
    | some (f, l) => cpRange f l
    | none => c.cp ++ c.getVariants.flatMap Variant.cp)).dedup

/-- The Unicode database: version and IDNA validity. -/
structure Db where
  version : List Char
  valid : Nat → Bool

/-- The loop of lines 70-73: state is (notifications, `success`). The right operand of `and` is a
variable: the check is always called. -/
def refLoop (digit : Char → Bool) (pyInt : List Char → Option Int) (acc : List Note × Bool)
    (refs : List String) : (List Note × Bool) × Except Err Unit :=
  match refAscending digit pyInt (-1) refs with
  | .error e => (acc, .error e)
  | .ok true => (acc, .ok ())
  | .ok false => ((acc.1 ++ [.error "ref_attribute_ascending"], false), .ok ())

/-- `lgr/validate/miscellaneous.py` 24-73: `check_lgr_data`. `db` is `lgr.unicode_database`, `none` for
`None`: then `get_unicode_version` is an attribute error. -/
def checkData (digit : Char → Bool) (pyInt : List Char → Option Int) (db : Option Db)
    (uniVersion : Option (List Char)) (r : Repertoire) : List Note × Except Err Bool :=
  let notes := r.iter.flatMap typeNotes
  let ok := r.iter.all (fun c => c.isRange || !c.getVariants.any badVariant)
  match db with
  | none => (notes, .error .attributeError)
  | some d =>
    let (notes, ok) :=
      if some d.version = uniVersion then
        let bad := (toCheck r).filter (fun x => !d.valid x)
        (notes ++ [.tested "valid_unicode_version"] ++ bad.map (fun _ => Note.error "codepoint_valid")
          ++ [.tested "codepoint_valid"], ok && decide (bad = []))
      else (notes, ok)
    match forEach (refLoop digit pyInt) (notes, ok)
        (r.iter.flatMap (fun c => c.attrs.refs :: c.getVariants.map Variant.refs)) with
    | (acc, .error e) => (acc.1, .error e)
    | (acc, .ok ()) => (acc.1 ++ [.tested "ref_attribute_ascending"], .ok acc.2)

/-- `lgr/validate/miscellaneous.py` 103-124: `check_miscellaneous`; `and` does not call
`check_lgr_data` when `check_lgr_rules` is false. -/
def checkMisc (digit : Char → Bool) (pyInt : List Char → Option Int) (db : Option Db)
    (uniVersion : Option (List Char)) (actions : List Action) (r : Repertoire) :
    List Note × Except Err Bool :=
  match checkRules actions with
  | (notes, false) => (notes, .ok false)
  | (notes, true) =>
    match checkData digit pyInt db uniVersion r with
    | (notes', res) => (notes ++ notes', res)

/-! ### `rebuild_lgr.py` -/

/-- An entry of `result['repertoire']`. -/
inductive Event where
  | error (char : Seq) (e : Err)
  | warning (char cp : Seq)
  | variant (char : Seq) (v : Variant) (e : Err)
  deriving DecidableEq, Repr

/-- `lgr.cp_in_script(s)[0]` (`lgr/core.py` 2024-2053): `none` is an LGR without Unicode database, on
which any code point is an attribute error. -/
def cpInScript (script : Option (Nat → Bool)) (s : Seq) : Except Err Bool :=
  match script with
  | none => if s = [] then .ok true else .error .attributeError
  | some f => .ok (s.all f)

/-- The loop on the result of `check_range`, `lgr/validate/rebuild_lgr.py` 72-80. -/
def rangeEvents (script : Option (Nat → Bool)) (c : CharObj) :
    List (Nat × LGR.Status) → Except Err (List Event)
  | [] => .ok []
  | (cp, st) :: l =>
    match cpInScript script [cp] with
    | .error e => .error e
    | .ok b =>
      match rangeEvents script c l with
      | .error e => .error e
      | .ok evs =>
        .ok ((match st with
          | some e => [.error c.cp e]
          | none => []) ++ (if b then [] else [.warning c.cp [cp]]) ++ evs)

/-- What is passed on of the attributes of a character. -/
def charOpts (vrep : VRep) (force : Bool) (a : Attrs) : Opts :=
  { comment := a.comment, ref := a.refs, tag := a.tags, whenR := a.whenR, notWhenR := a.notWhenR,
    vrep := vrep, override := false, force := force }

/-- What is passed on of a variant. -/
def varOpts (vrep : VRep) (override force : Bool) (v : Variant) : Opts :=
  { comment := v.comment, ref := v.refs, whenR := v.whenR, notWhenR := v.notWhenR,
    vrep := vrep, override := override, force := force }

/-- `isinstance(exc, CharInvalidIdnaProperty)`. -/
def isInvalidIdna : Err → Bool
  | .invalidIdna _ => true
  | _ => false

/-- A range, `lgr/validate/rebuild_lgr.py` 70-98. -/
def rebuildRange (db : UniDb) (vrep : VRep) (script : Option (Nat → Bool)) (g : LGR)
    (evs : List Event) (c : CharObj) (f l : Nat) : (LGR × List Event) × Except Err Unit :=
  match g.checkRange db f l vrep with
  | (g, .error e) => ((g, evs), .error e)
  | (g, .ok sts) =>
    match rangeEvents script c sts with
    | .error e => ((g, evs), .error e)
    | .ok [] =>
      match g.addRange db f l (charOpts vrep false c.attrs) with
      | (g, .ok ()) => ((g, evs), .ok ())
      | (g, .error e) =>
        if isLgrException e then ((g, evs ++ [.error c.cp e]), .ok ()) else ((g, evs), .error e)
    | .ok new => ((g, evs ++ new), .ok ())

/-- A variant, `lgr/validate/rebuild_lgr.py` 129-147. -/
def rebuildVariant (db : UniDb) (vrep : VRep) (c : CharObj) (s : LGR × List Event) (v : Variant) :
    (LGR × List Event) × Except Err Unit :=
  match s.1.addVariant db (.seq c.cp) (.seq v.cp) v.type (varOpts vrep true false v) with
  | (g, .ok ()) => ((g, s.2), .ok ())
  | (g, .error e) =>
    if isLgrException e then
      let evs := s.2 ++ [.variant c.cp v e]
      if isInvalidIdna e then ((g, evs), .ok ())
      else
        match g.addVariant db (.seq c.cp) (.seq v.cp) v.type (varOpts none false true v) with
        | (g, res) => ((g, evs), res)
    else ((g, s.2), .error e)

/-- The insertion of a code point or sequence, `lgr/validate/rebuild_lgr.py` 104-125. -/
def rebuildCp (db : UniDb) (vrep : VRep) (c : CharObj) (s : LGR × List Event) :
    (LGR × List Event) × Except Err Unit :=
  match s.1.addCp db (.seq c.cp) (charOpts vrep false c.attrs) with
  | (g, .ok ()) => ((g, s.2), .ok ())
  | (g, .error e) =>
    if isLgrException e then
      let evs := s.2 ++ [.error c.cp e]
      if isInvalidIdna e then ((g, evs), .ok ())
      else
        match g.addCp db (.seq c.cp) (charOpts none true c.attrs) with
        | (g, res) => ((g, evs), res)
    else ((g, s.2), .error e)

/-- The body of the main loop, `lgr/validate/rebuild_lgr.py` 69-147. -/
def rebuildChar (db : UniDb) (vrep : VRep) (script : Option (Nat → Bool)) (s : LGR × List Event)
    (c : CharObj) : (LGR × List Event) × Except Err Unit :=
  match c.range with
  | some (f, l) => rebuildRange db vrep script s.1 s.2 c f l
  | none =>
    match cpInScript script c.cp with
    | .error e => (s, .error e)
    | .ok b =>
      let s := if b then s else (s.1, s.2 ++ [.warning c.cp c.cp])
      match rebuildCp db vrep c s with
      | (s, .error e) => (s, .error e)
      | (s, .ok ()) => forEach (rebuildVariant db vrep c) s c.getVariants

/-- `lgr/validate/rebuild_lgr.py` 17-151: `rebuild_lgr`: the report. `db` is `options['unidb']`, `vrep`
the validating repertoire, `script` the test of the scripts of `lgr`. -/
def rebuildLgr (db : UniDb) (vrep : VRep) (script : Option (Nat → Bool)) (g : LGR) :
    (LGR × List Event) × Except Err Unit :=
  forEach (rebuildChar db vrep script) ({ refs := g.refs }, []) g.rep.iter

end Lgr.Checks
