import Verif.Repertoire
import Verif.Collapse
import Verif.References

/-!
# LGR edit operations: `lgr/core.py` lines 200-960 and 1952-2130
-/

namespace Lgr

/-- The part of `LGR` (`lgr/core.py` 84-145) touched by the edit operations. `types` is the set of
variant types and each value of `tagCls` the code point set of a tag class (an entry of
`classes_lookup` whose key starts with `TAG_CLASSNAME_PREFIX`; tags are XML NMTOKENs so these keys
are distinct from those of named classes, `lgr/classes.py` 15-18). Sets are duplicate-free lists in
insertion order. Not included: metadata, rules, named classes, actions. -/
structure LGR where
  rep : Repertoire := {}
  refs : RefManager := {}
  types : List (Option String) := []
  tagCls : List (String × List Nat) := []
  raiseInvalid : Bool := true
  deriving DecidableEq, Repr

/-- What a caller may pass as code point: an `int`, a sequence, or something without `len`. -/
inductive CpArg where
  | int (n : Nat)
  | seq (s : Seq)
  | other
  deriving DecidableEq, Repr

/-- The Unicode database, if any: only IDNA validity of a code point matters here
(`lgr/utils.py` 235-243). -/
abbrev UniDb := Option (Nat → Bool)

/-- A validating repertoire, if any: its `check_cp` on a code point, which may raise. -/
abbrev VRep := Option (Nat → Except Err Bool)

/-- Keyword arguments of the edit operations; `None` for `ref`/`tag` is the empty list. -/
structure Opts where
  comment : Option String := none
  ref : List String := []
  tag : List String := []
  whenR : Option String := none
  notWhenR : Option String := none
  vrep : VRep := none
  override : Bool := false
  force : Bool := false

namespace LGR

variable (db : UniDb)

/-- `lgr/core.py` 1994-2008: conversion of the argument. -/
def convCp : CpArg → Except Err Seq
  | .int n => .ok [n]
  | .seq [] => .error (.invalidParameter "cp_or_sequence")
  | .seq (x :: s) => .ok (x :: s)
  | .other => .error (.invalidParameter "cp_or_sequence")

/-- `lgr/core.py` 1952-2022: `_check_convert_cp` with `assert_in_script=False`. The dictionary
`invalid_cps` lists the invalid code points in order of first occurrence; its first key is raised. -/
def checkConvert (raiseInvalid : Bool) (arg : CpArg) : Except Err Seq :=
  match convCp arg with
  | .error e => .error e
  | .ok s =>
    match db with
    | none => .ok s
    | some valid =>
      match s.find? (fun x => !valid x) with
      | some x => if raiseInvalid then .error (.invalidIdna x) else .ok s
      | none => .ok s

/-- The loop on the validating repertoire, `lgr/core.py` 295-312 and 680-697; `whole` is the
payload of `NotInRepertoire`. -/
def checkVRep (check : Nat → Except Err Bool) (lenient : Bool) (whole : Seq) :
    Seq → Except Err Unit
  | [] => .ok ()
  | x :: s =>
    match check x with
    | .error e => .error e
    | .ok true => checkVRep check lenient whole s
    | .ok false =>
      if lenient then checkVRep check lenient whole s else .error (.notInRepertoire whole)

/-- `validating_repertoire is not None` and the loop. -/
def checkVRepOpt (o : Opts) (whole s : Seq) : Except Err Unit :=
  match o.vrep with
  | none => .ok ()
  | some check => checkVRep check (o.override || o.force) whole s

/-- The reference loop, `lgr/core.py` 314-324, 510-520, 699-711. -/
def gatherRefs (m : RefManager) (force : Bool) : List String → Except Err (List String)
  | [] => .ok []
  | i :: is =>
    if (dget m.refs i).isSome then
      match gatherRefs m force is with
      | .error e => .error e
      | .ok l => .ok (i :: l)
    else if force then gatherRefs m force is
    else .error (.referenceNotDefined i)

/-- The references kept, with the duplicate check (326-335, 522-531, 713-725). -/
def takeRefs (m : RefManager) (o : Opts) (whole : Seq) : Except Err (List String) :=
  match gatherRefs m o.force o.ref with
  | .error e => .error e
  | .ok l => if ¬ l.Nodup ∧ ¬ o.force then .error (.duplicateReference whole) else .ok l

/-- Python `set.update`. -/
def addAll (l : List Nat) (s : Seq) : List Nat :=
  s.foldl (fun l x => if x ∈ l then l else l ++ [x]) l

/-- `lgr/core.py` 2094-2109: `_add_cp_to_tag_classes` (with `Class.add_codepoint`,
`lgr/classes.py` 93-106). -/
def addToTags (cls : List (String × List Nat)) (s : Seq) (tags : List String) :
    List (String × List Nat) :=
  tags.foldl (fun cls t => dset cls t (addAll ((dget cls t).getD []) s)) cls

/-- `lgr/core.py` 2111-2124: `_del_cp_from_tag_classes` (with `Class.del_codepoint`,
`lgr/classes.py` 108-122). -/
def delFromTags (cls : List (String × List Nat)) (s : Seq) (tags : List String) :
    List (String × List Nat) :=
  tags.foldl (fun cls t =>
    match dget cls t with
    | some l => dset cls t (l.filter (fun x => x ∉ s))
    | none => cls) cls

/-- The attributes stored with the characters. -/
def mkAttrs (o : Opts) (refs : List String) : Attrs :=
  { comment := o.comment, refs := refs, tags := o.tag, whenR := o.whenR, notWhenR := o.notWhenR }

/-- The checks of `add_cp` before the insertion, `lgr/core.py` 288-358. -/
def addCpChecks (g : LGR) (arg : CpArg) (o : Opts) : Except Err (Seq × Attrs) :=
  match checkConvert db g.raiseInvalid arg with
  | .error e => .error e
  | .ok s =>
    if ¬ o.force ∧ o.whenR.isSome ∧ o.notWhenR.isSome then .error (.charInvalidContextRule s)
    else
      match checkVRepOpt o s s with
      | .error e => .error e
      | .ok () =>
        match takeRefs g.refs o s with
        | .error e => .error e
        | .ok refs =>
          if 1 < s.length ∧ 0 < o.tag.length ∧ ¬ o.force then .error (.format "SEQUENCE_NO_TAG")
          else if ¬ o.tag.Nodup ∧ ¬ o.force then .error (.format "DUPLICATE_TAG")
          else .ok (s, mkAttrs o refs)

/-- `lgr/core.py` 241-369: `add_cp`. -/
def addCp (g : LGR) (arg : CpArg) (o : Opts) : LGR × Except Err Unit :=
  match g.addCpChecks db arg o with
  | .error e => (g, .error e)
  | .ok (s, a) =>
    match g.rep.addChar s a with
    | .error e => (g, .error e)
    | .ok r =>
      let g1 := { g with rep := r }
      ({ g1 with tagCls := addToTags g1.tagCls s o.tag }, .ok ())

/-- `lgr/core.py` 371-388: `check_cp`. -/
def checkCp (g : LGR) (arg : CpArg) : Except Err Bool :=
  match checkConvert db g.raiseInvalid arg with
  | .error e => .error e
  | .ok s => g.rep.contains s

/-- `lgr/core.py` 834-859: `get_char`. -/
def getChar (g : LGR) (arg : CpArg) : Except Err CharObj :=
  match checkConvert db g.raiseInvalid arg with
  | .error e => .error e
  | .ok s => g.rep.getChar s

/-- `lgr/core.py` 390-415: `del_cp`. -/
def delCp (g : LGR) (arg : CpArg) : LGR × Except Err Unit :=
  match checkConvert db g.raiseInvalid arg with
  | .error e => (g, .error e)
  | .ok s =>
    match g.rep.getChar s with
    | .error e => (g, .error e)
    | .ok c =>
      match g.rep.delChar s with
      | .error e => (g, .error e)
      | .ok r =>
        let g1 := { g with rep := r }
        ({ g1 with tagCls := delFromTags g1.tagCls s c.attrs.tags }, .ok ())

/-- Status of a code point of a range: `None` or the exception object. -/
abbrev Status := Option Err

/-- The loop of `check_range`, `lgr/core.py` 893-922. The flag is set before and restored after each
`_check_convert_cp`; any other exception (only `validating_repertoire.check_cp` can raise one)
propagates after the flag has been restored. -/
def checkRangeLoop (vrep : VRep) (g : LGR) : List Nat → LGR × Except Err (List (Nat × Status))
  | [] => (g, .ok [])
  | cp :: cps =>
    let keep := g.raiseInvalid
    let g1 := { g with raiseInvalid := true }
    let res := checkConvert db g1.raiseInvalid (.int cp)
    let g2 := { g1 with raiseInvalid := keep }
    let rest (g : LGR) (st : Status) : LGR × Except Err (List (Nat × Status)) :=
      match checkRangeLoop vrep g cps with
      | (g', .ok l) => (g', .ok ((cp, st) :: l))
      | (g', .error e) => (g', .error e)
    match res with
    | .error (.invalidIdna x) => rest g2 (some (.invalidIdna x))
    | .error e => (g2, .error e)
    | .ok s =>
      let present (g : LGR) : LGR × Except Err (List (Nat × Status)) :=
        match g.rep.contains s with
        | .error e => (g, .error e)
        | .ok true => rest g (some (.charAlreadyExists s))
        | .ok false => rest g none
      match vrep with
      | none => present g2
      | some check =>
        match check cp with
        | .error e => (g2, .error e)
        | .ok false => rest g2 (some (.notInRepertoire [cp]))
        | .ok true => present g2

/-- `lgr/core.py` 861-924: `check_range`. -/
def checkRange (g : LGR) (first last : Nat) (vrep : VRep) :
    LGR × Except Err (List (Nat × Status)) :=
  if last < first then (g, .error (.invalidParameter "first_cp"))
  else checkRangeLoop db vrep g (cpRange first last)

/-- The selection loop of `add_range`, `lgr/core.py` 474-507. -/
def selectCps (raiseInvalid lenient force : Bool) :
    List (Nat × Status) → Except Err (List Nat)
  | [] => .ok []
  | (cp, st) :: l =>
    let keep : Except Err (List Nat) :=
      match selectCps raiseInvalid lenient force l with
      | .error e => .error e
      | .ok cps => .ok (cp :: cps)
    match st with
    | none => keep
    | some (.notInRepertoire x) => if ¬ lenient then .error (.notInRepertoire x) else keep
    | some (.invalidIdna x) =>
      if ¬ raiseInvalid then keep
      else if ¬ force then .error (.invalidIdna x)
      else selectCps raiseInvalid lenient force l
    | some (.charAlreadyExists x) =>
      if ¬ force then .error (.charAlreadyExists x) else selectCps raiseInvalid lenient force l
    | some _ => .error .apiException

/-- The loop of `_insert_list`, `lgr/core.py` 2077-2092. -/
def insertRanges (a : Attrs) : Repertoire → List (Nat × Nat) → Repertoire × Except Err Unit
  | r, [] => (r, .ok ())
  | r, (f, l) :: rs =>
    if f = l then
      match r.addChar [f] a with
      | .error e => (r, .error e)
      | .ok r' => insertRanges a r' rs
    else
      match r.addRange f l a true with
      | (r', .error e) => (r', .error e)
      | (r', .ok ()) => insertRanges a r' rs

/-- `lgr/core.py` 2055-2092: `_insert_list`. -/
def insertList (r : Repertoire) (cps : List Nat) (a : Attrs) : Repertoire × Except Err Unit :=
  match collapseCodepoints cps with
  | .error e => (r, .error e)
  | .ok rs => insertRanges a r rs

/-- `lgr/core.py` 417-550: `add_range`. -/
def addRange (g : LGR) (first last : Nat) (o : Opts) : LGR × Except Err Unit :=
  if last < first then (g, .error (.invalidParameter "first_cp"))
  else if ¬ o.force ∧ o.whenR.isSome ∧ o.notWhenR.isSome then
    (g, .error (.rangeInvalidContextRule first last))
  else
    match g.checkRange db first last o.vrep with
    | (g1, .error e) => (g1, .error e)
    | (g1, .ok sts) =>
      match selectCps g1.raiseInvalid (o.override || o.force) o.force sts with
      | .error e => (g1, .error e)
      | .ok cps =>
        match takeRefs g1.refs o [first] with
        | .error e => (g1, .error e)
        | .ok refs =>
          if ¬ o.tag.Nodup ∧ ¬ o.force then (g1, .error (.format "DUPLICATE_TAG"))
          else
            match insertList g1.rep cps (mkAttrs o refs) with
            | (r, .error e) => ({ g1 with rep := r }, .error e)
            | (r, .ok ()) =>
              ({ g1 with rep := r, tagCls := cps.foldl (fun t x => addToTags t [x] o.tag) g1.tagCls },
                .ok ())

/-- `lgr/core.py` 552-578: `del_range`. -/
def delRange (g : LGR) (first last : Nat) : LGR × Except Err Unit :=
  if last < first then (g, .error (.invalidParameter "first_cp"))
  else
    match g.rep.delRange first last with
    | (r, res) => ({ g with rep := r }, res)

/-- The loop of `expand_range`, `lgr/core.py` 617-623. -/
def addSingles (a : Attrs) : Repertoire → List Nat → Repertoire × Except Err Unit
  | r, [] => (r, .ok ())
  | r, x :: xs =>
    match r.addChar [x] a with
    | .error e => (r, .error e)
    | .ok r' => addSingles a r' xs

/-- `lgr/core.py` 590-623: `expand_range`. -/
def expandRange (g : LGR) (first last : Nat) : LGR × Except Err Unit :=
  if last < first then (g, .error (.invalidParameter "first_cp"))
  else
    match g.getChar db (.int first) with
    | .error e => (g, .error e)
    | .ok c =>
      match g.rep.delRange first last with
      | (r, .error e) => ({ g with rep := r }, .error e)
      | (r, .ok ()) =>
        match addSingles c.attrs r (cpRange first last) with
        | (r', res) => ({ g with rep := r' }, res)

/-- The loop of `expand_ranges`. -/
def expandLoop (g : LGR) : List (Nat × Nat) → LGR × Except Err Unit
  | [] => (g, .ok ())
  | (f, l) :: rs =>
    match g.expandRange db f l with
    | (g', .error e) => (g', .error e)
    | (g', .ok ()) => expandLoop g' rs

/-- `lgr/core.py` 580-588: `expand_ranges` (over a copy of `ranges`). -/
def expandRanges (g : LGR) : LGR × Except Err Unit := g.expandLoop db g.rep.ranges

/-- The checks of `add_variant`, `lgr/core.py` 671-725. -/
def addVariantChecks (g : LGR) (arg var : CpArg) (type : Option String) (o : Opts) :
    Except Err (Seq × Variant) :=
  match checkConvert db g.raiseInvalid arg with
  | .error e => .error e
  | .ok s =>
    match checkConvert db g.raiseInvalid var with
    | .error e => .error e
    | .ok v =>
      if ¬ o.force ∧ o.whenR.isSome ∧ o.notWhenR.isSome then
        .error (.variantInvalidContextRule s v)
      else
        match checkVRepOpt o s v with
        | .error e => .error e
        | .ok () =>
          match takeRefs g.refs o s with
          | .error e => .error e
          | .ok refs =>
            .ok (s, Variant.mk v type o.whenR o.notWhenR o.comment refs)

/-- `lgr/core.py` 625-740: `add_variant`. `types.add` on line 740. -/
def addVariant (g : LGR) (arg var : CpArg) (type : Option String) (o : Opts) :
    LGR × Except Err Unit :=
  match g.addVariantChecks db arg var type o with
  | .error e => (g, .error e)
  | .ok (s, v) =>
    match g.rep.addVariant s v with
    | .error e => (g, .error e)
    | .ok r =>
      let g1 := { g with rep := r }
      ({ g1 with types := if type ∈ g1.types then g1.types else g1.types ++ [type] }, .ok ())

/-- `lgr/core.py` 742-776: `del_variant`. The variant is not converted: an `int` (or anything
without `len`) makes `len(cp_or_sequence)` in `char.py` 171 raise `TypeError`, after the character
has been looked up (on a `RangeChar` the method raises first, `char.py` 316-319). -/
def delVariant (g : LGR) (arg var : CpArg) (w n : Option String) : LGR × Except Err Bool :=
  match checkConvert db g.raiseInvalid arg with
  | .error e => (g, .error e)
  | .ok s =>
    match var with
    | .seq v =>
      match g.rep.delVariant s v w n with
      | .error e => (g, .error e)
      | .ok (r, b) => ({ g with rep := r }, .ok b)
    | _ =>
      match g.rep.getChar s with
      | .error e => (g, .error e)
      | .ok c => (g, .error (if c.range.isSome then .format "RANGE_NO_CHILD" else .typeError))

/-- `lgr/char.py` 814-827: `Repertoire.del_reference`; `list.remove` drops the first occurrence. -/
def _root_.Lgr.CharObj.delReference (c : CharObj) (i : String) : CharObj :=
  { c with
    attrs := { c.attrs with refs := c.attrs.refs.erase i },
    vars := c.vars.map (fun p => (p.1, p.2.map (fun v => { v with refs := v.refs.erase i }))) }

/-- Apply a change to every character object of a repertoire, in place. -/
def _root_.Lgr.Repertoire.mapChars (r : Repertoire) (f : CharObj → CharObj) : Repertoire :=
  { r with dict := r.dict.map (fun p => (p.1, p.2.map f)) }

/-- `lgr/core.py` 218-227: `del_reference`: first the repertoire, then the reference manager, which
may raise. Characters sharing one list object (those of one range) are treated as having their own
copy; the outcome is the same when the list has no duplicates. -/
def delReference (pyInt : String → Option Int) (g : LGR) (i : String) : LGR × Except Err Unit :=
  let g1 := { g with rep := g.rep.mapChars (fun c => c.delReference i) }
  match g1.refs.delReference pyInt i with
  | .error e => (g1, .error e)
  | .ok m => ({ g1 with refs := m }, .ok ())

/-- `lgr/char.py` 829-839. -/
def _root_.Lgr.CharObj.delTag (c : CharObj) (t : String) : CharObj :=
  { c with attrs := { c.attrs with tags := c.attrs.tags.erase t } }

/-- `lgr/core.py` 229-239: `del_tag` (`pop` with a default does not raise). -/
def delTag (g : LGR) (t : String) : LGR :=
  let g1 := { g with rep := g.rep.mapChars (fun c => c.delTag t) }
  { g1 with tagCls := ddel g1.tagCls t }

/-- `lgr/core.py` 200-216: `add_reference`. -/
def addReference (valid : String → Bool) (g : LGR) (value : String) (comment refId : Option String) :
    LGR × Except Err String :=
  match g.refs.addReference valid value comment refId with
  | .error e => (g, .error e)
  | .ok (m, s) => ({ g with refs := m }, .ok s)

/-- The loop of `add_codepoints`. -/
def addCollapsed (g : LGR) (o : Opts) : List (Nat × Nat) → LGR × Except Err Unit
  | [] => (g, .ok ())
  | (f, l) :: rs =>
    match if f = l then g.addCp db (.seq [f]) o else g.addRange db f l o with
    | (g', .error e) => (g', .error e)
    | (g', .ok ()) => addCollapsed g' o rs

/-- `lgr/core.py` 926-957: `add_codepoints`. -/
def addCodepoints (g : LGR) (cps : List Nat) (o : Opts) : LGR × Except Err Unit :=
  match cps with
  | [] => (g, .ok ())
  | _ :: _ =>
    match collapseCodepoints cps with
    | .error e => (g, .error e)
    | .ok rs => g.addCollapsed db ({ comment := o.comment, ref := o.ref, tag := o.tag } : Opts) rs

end LGR
end Lgr
