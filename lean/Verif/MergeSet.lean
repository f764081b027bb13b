import Verif.Compare
import Verif.Xml
import Verif.RepLemmas

/-!
# Merging the LGRs of a set: `lgr/tools/merge_set.py`

References (135-157), code points and variants (317-449), names of the rules (215-269) and the loop over
the set (452-492). Not modelled: metadata, actions, classes, the text of the rules. Scripts and
rule names used in regular expressions (389-391, 399, 410) stand for themselves: they are taken to
contain none of the special characters.
-/

namespace Lgr.MergeSet
open Lgr Compare Xml

/-- An LGR of the set. `scx` is `unicode_database.get_script_extensions`; `rules` are the names in
`rules_lookup`, which are those of `rules`. -/
structure Input where
  languages : List String := []
  lgr : LGR
  db : UniDb := none
  scx : Nat → List String := fun _ => []
  rules : List String := []

/-- `merge_set.py` 36-40: `get_script`. -/
def Input.script (i : Input) : String :=
  match i.languages with
  | [] => ""
  | s :: _ => s

/-- `x + '-' + y`. -/
def pre (x y : String) : String := x ++ "-" ++ y

/-- `script + '-' + rule` if there is a rule, else `None`. -/
def preRule (script : String) : Option String → Option String
  | some r => if r ≠ "" then some (pre script r) else none
  | none => none

/-! ## References -/

/-- `merge_set.py` 146: the identifier of each value already in the merged LGR. -/
def inserted (m : RefManager) : List (String × String) :=
  m.refs.foldl (fun d p => dset d p.2.value p.1) []

/-- The loop body, `merge_set.py` 147-157: the merged references and the mapping for the script. -/
def refStep (valid : String → Bool) (ins : List (String × String))
    (s : RefManager × List (String × String)) (p : String × Ref) :
    (RefManager × List (String × String)) × Except Err Unit :=
  match dget ins p.2.value with
  | none =>
    if (dget s.1.refs p.1).isNone then
      match s.1.addReference valid p.2.value p.2.comment (some p.1) with
      | .error e => (s, .error e)
      | .ok (m, _) => ((m, s.2), .ok ())
    else
      match s.1.addReference valid p.2.value p.2.comment none with
      | .error e => (s, .error e)
      | .ok (m, n) => ((m, dset s.2 p.1 n), .ok ())
  | some j => ((s.1, if p.1 ≠ j then dset s.2 p.1 j else s.2), .ok ())

/-- `merge_set.py` 135-157: `merge_references`; `map` is `ref_mapping[script]`. -/
def mergeReferences (valid : String → Bool) (src m : RefManager) (map : List (String × String)) :
    (RefManager × List (String × String)) × Except Err Unit :=
  forEach (refStep valid (inserted m)) (m, map) src.refs

/-- `ref_mapping[script].get(x, x)`. -/
def mapRef (map : List (String × String)) (x : String) : String := (dget map x).getD x

/-! ## Rules -/

/-- `merge_set.py` 32: `MSR_2_RULES`. -/
def msrRules : List String := ["leading-combining-mark"]

/-- `merge_set.py` 224-229: the name given by `rename_rule`. -/
def ruleName (script name : String) : String :=
  if name ∈ msrRules then pre "Common" name else pre script name

/-- `merge_set.py` 243-269: the names added by `merge_rules`. -/
def mergeRules (rules : List String) (script : String) (specific : Option String) (done : List String) :
    List String :=
  rules.foldl (fun done name =>
    if truthy specific && specific ≠ some name then done
    else if ruleName script name ∈ done then done
    else done ++ [ruleName script name]) done

/-! ## Code points -/

/-- The merged LGR under construction. -/
structure Merged where
  lgr : LGR := {}
  rules : List String := []
  deriving DecidableEq, Repr

/-- `merge_set.py` 330-334: `new_tags`. -/
def newTags (i : Input) (c : CharObj) : List String :=
  addNew id
    (if c.cp.length = 1 ∧ i.db.isSome then toSet id (i.scx (c.cp.headD 0)) else [])
    (toSet id (c.attrs.tags.map (fun x => if ':' ∈ x.toList then x else pre i.script x)))

variable (ord : SetOrder)

/-- `set.difference(set(a), set(b))`. -/
def varDiff (a b : List Variant) : List Variant :=
  (toSet Variant.key a).filter (fun v => v.key ∉ b.map Variant.key)

/-- `merge_set.py` 351-359: without the first variant (in the order of the set) that is the code point
itself. -/
def dropReflexive (cp : Seq) (s : List Variant) : List Variant :=
  match (ord.vars s).find? (fun v => v.cp = cp) with
  | some v => s.filter (fun w => w.key ≠ v.key)
  | none => s

/-- `merge_set.py` 366-375 and 430-440: a variant added to the code point. -/
def addRenamed (script : String) (map : List (String × String)) (cp : Seq) (g : LGR) (v : Variant) :
    LGR × Except Err Unit :=
  g.addVariant none (.seq cp) (.seq v.cp) (some "blocked")
    { comment := v.comment, ref := v.refs.map (mapRef map), whenR := preRule script v.whenR,
      notWhenR := preRule script v.notWhenR }

/-- `re.sub(r'^{}-'.format(p), '', s)`. -/
def dropPrefix (p s : String) : String :=
  let q := (pre p "").toList
  if q <+: s.toList then String.ofList (s.toList.drop q.length) else s

/-- `re.sub(r'-{}$'.format(p), '', s)`. -/
def dropSuffix (p s : String) : String :=
  let q := (pre "" p).toList
  if q <:+ s.toList then String.ofList (s.toList.take (s.toList.length - q.length)) else s

/-- `merge_set.py` 384-391: the name of the existing rule without the scripts before it. -/
def bareRule (prev : List String) (r : Option String) : Option String :=
  match r with
  | some r => if r ≠ "" then some (prev.reverse.foldl (fun r p => dropPrefix p r) r) else some r
  | none => none

/-- `merge_set.py` 393-402 and 404-413: the rule after the merge and, if a rule has to be added, its
script and name; `none` for `CharInvalidContextRule`. -/
def mergeRule (script : String) (prev : List String) (old new : Option String) :
    Option (Option String × Option (String × String)) :=
  match new with
  | none => some (old, none)
  | some r =>
    if r = "" then some (old, none)
    else
      let bare := bareRule prev old
      if truthy bare = false then some (some (pre script r), none)
      else if bare = some r then
        let name := pre script (old.getD "")
        some (some name, some (dropSuffix r name, r))
      else none

/-- Apply the addition of a rule. -/
def addRule (rules : List String) (done : List String) : Option (String × String) → List String
  | some (script, name) => mergeRules rules script (some name) done
  | none => done

/-- The loop state of `merge_chars`: the merged LGR and `new_variants`. -/
abbrev CState := Merged × List (List Variant × List Variant)

/-- `merge_set.py` 340-415: the code point is in the merged LGR already. -/
def mergeExisting (i : Input) (map : List (String × String)) (prev : List String) (s : CState)
    (e c : CharObj) : CState × Except Err Unit :=
  let g := s.1.lgr
  let e1 : CharObj :=
    { e with attrs := { e.attrs with
                        comment := letUserChoose e.attrs.comment c.attrs.comment,
                        tags := ord.strs (addNew id (newTags i c) (toSet id e.attrs.tags)),
                        refs := ord.strs (addNew id (toSet id c.attrs.refs) (toSet id e.attrs.refs)) } }
  let g1 := { g with rep := g.rep.putChar e1 }
  let new1 := dropReflexive ord e.cp (varDiff c.getVariants e.getVariants)
  let new2 := dropReflexive ord e.cp (varDiff e.getVariants c.getVariants)
  let pend := if new1 ≠ [] ∧ new2 ≠ [] then s.2 ++ [(new1, new2)] else s.2
  match forEach (addRenamed i.script map e.cp) g1 (ord.vars (varDiff c.getVariants e.getVariants)) with
  | (g2, .error er) => (({ s.1 with lgr := g2 }, pend), .error er)
  | (g2, .ok ()) =>
    match g2.rep.lookup e.cp with
    | none => (({ s.1 with lgr := g2 }, pend), .ok ())
    | some e2 =>
      match mergeRule i.script prev e2.attrs.whenR c.attrs.whenR with
      | none => (({ s.1 with lgr := g2 }, pend), .error (.charInvalidContextRule c.cp))
      | some (w, r1) =>
        let e3 := { e2 with attrs := { e2.attrs with whenR := w } }
        let g3 := { g2 with rep := g2.rep.putChar e3 }
        let rs := addRule i.rules s.1.rules r1
        match mergeRule i.script prev e3.attrs.notWhenR c.attrs.notWhenR with
        | none => (({ lgr := g3, rules := rs }, pend), .error (.charInvalidContextRule c.cp))
        | some (n, r2) =>
          let e4 := { e3 with attrs := { e3.attrs with notWhenR := n } }
          (({ lgr := { g3 with rep := g3.rep.putChar e4 }, rules := addRule i.rules rs r2 }, pend), .ok ())

/-- `merge_set.py` 417-440: the code point is new. -/
def mergeNew (i : Input) (map : List (String × String)) (s : CState) (c : CharObj) :
    CState × Except Err Unit :=
  match s.1.lgr.addCp none (.seq c.cp)
      { comment := c.attrs.comment, ref := c.attrs.refs.map (mapRef map), tag := ord.strs (newTags i c),
        whenR := preRule i.script c.attrs.whenR, notWhenR := preRule i.script c.attrs.notWhenR } with
  | (g, .error e) => (({ s.1 with lgr := g }, s.2), .error e)
  | (g, .ok ()) =>
    match forEach (addRenamed i.script map c.cp) g c.getVariants with
    | (g, r) => (({ s.1 with lgr := g }, s.2), r)

/-- One round of the loop over the code points, `merge_set.py` 329-440. `snap` are the code points of the
merged LGR before the loop (328); `lookup` gives the object in the dictionary, changed in place. -/
def mergeChar (i : Input) (map : List (String × String)) (prev : List String) (snap : List Seq)
    (s : CState) (c : CharObj) : CState × Except Err Unit :=
  if c.cp ∈ snap then
    match s.1.lgr.rep.lookup c.cp with
    | some e => mergeExisting ord i map prev s e c
    | none => mergeNew ord i map s c
  else mergeNew ord i map s c

/-- The comment of the variants added, `merge_set.py` 447. -/
def transComment : String := "New variant for merge to keep transitivity"

/-- `merge_set.py` 446-449. -/
def addBoth (g : LGR) (p : Seq × Seq) : LGR × Except Err Unit :=
  match g.addVariant none (.seq p.1) (.seq p.2) (some "blocked") { comment := some transComment } with
  | (g, .error e) => (g, .error e)
  | (g, .ok ()) =>
    g.addVariant none (.seq p.2) (.seq p.1) (some "blocked") { comment := some transComment }

/-- The pairs of `merge_set.py` 443-445 in the order of the loops. -/
def pairsOf (p : List Variant × List Variant) : List (Seq × Seq) :=
  (ord.vars p.1).flatMap (fun v1 => (ord.vars p.2).map (fun v2 => (v1.cp, v2.cp)))

/-- `merge_set.py` 317-449: `merge_chars`. -/
def mergeChars (i : Input) (g : LGR) (map : List (String × String)) (prev : List String) (m : Merged) :
    Merged × Except Err Unit :=
  match forEach (mergeChar ord i map prev (cps m.lgr)) (m, []) g.rep.iter with
  | (s, .error e) => (s.1, .error e)
  | (s, .ok ()) =>
    match forEach addBoth s.1.lgr (s.2.flatMap (pairsOf ord)) with
    | (g, r) => ({ s.1 with lgr := g }, r)

/-! ## The set -/

/-- The state of the loop over the set: merged LGR, `ref_mapping` and `previous_scripts`. -/
structure SState where
  m : Merged := {}
  maps : List (String × List (String × String)) := []
  prev : List String := []

/-- `merge_set.py` 475-483: one LGR of the set. -/
def mergeOne (valid : String → Bool) (s : SState) (i : Input) : SState × Except Err Unit :=
  match i.lgr.expandRanges i.db with
  | (_, .error e) => (s, .error e)
  | (g, .ok ()) =>
    match mergeReferences valid g.refs s.m.lgr.refs ((dget s.maps i.script).getD []) with
    | ((rm, map), .error e) =>
      ({ s with m := { s.m with lgr := { s.m.lgr with refs := rm } }, maps := dset s.maps i.script map },
        .error e)
    | ((rm, map), .ok ()) =>
      let s1 : SState :=
        { s with m := { s.m with lgr := { s.m.lgr with refs := rm } }, maps := dset s.maps i.script map }
      match mergeChars ord i g map s1.prev s1.m with
      | (m, .error e) => ({ s1 with m := m }, .error e)
      | (m, .ok ()) =>
        ({ s1 with m := { m with rules := mergeRules i.rules i.script none m.rules },
                   prev := s1.prev ++ [i.script] }, .ok ())

/-- `s.replace('und-', 'zzz')`. -/
def replaceUnd : List Char → List Char
  | 'u' :: 'n' :: 'd' :: '-' :: l => 'z' :: 'z' :: 'z' :: replaceUnd l
  | c :: l => c :: replaceUnd l
  | [] => []

/-- `merge_set.py` 462-463: the order of the LGRs. -/
def ordered (l : List Input) : List Input :=
  sortAsc (fun i => (replaceUnd i.script.toList).map Char.toNat) l

/-- `merge_set.py` 452-483: the merged LGR before it is written and read. -/
def mergeAll (valid : String → Bool) (l : List Input) : SState × Except Err Unit :=
  forEach (mergeOne ord valid) {} (ordered l)

/-- `merge_set.py` 485-492: the merged LGR is written and read again, without Unicode database and with `force`, which is the
default of `XMLParser` (`lgr/parser/parser.py` 20). The references are taken to be read as they were (`Verif/MergeTool.lean` has
the metadata); the next free identifier is looked for from the start again. -/
def reread (g : LGR) : Except Err LGR :=
  match serializeData g.rep with
  | .error e => .error e
  | .ok es =>
    match parseData none true { lgr := { refs := { g.refs with nextId := 0 }, raiseInvalid := true } } es with
    | (_, .error e) => .error e
    | (s, .ok ()) => .ok s.lgr

/-- `merge_set.py` 452-492: `merge_lgr_set`. -/
def mergeSet (valid : String → Bool) (l : List Input) : Except Err LGR :=
  match mergeAll ord valid l with
  | (_, .error e) => .error e
  | (s, .ok ()) => reread s.m.lgr

end Lgr.MergeSet
