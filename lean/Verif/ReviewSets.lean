import Verif.Review
import Verif.VariantSets

/-!
# Review of the variant sets of an IDN table: `lgr/tools/idn_review/variant_sets.py`

The order of iteration on a set of variants or code points is a function `order` of its elements in
order of insertion.
-/

namespace Lgr.Review
open Lgr

/-- `variant_sets.py` 20-25: `VariantData`. -/
structure VData where
  fwd : List Variant := []
  rev : List Variant := []
  inLgr : Bool := false
  deriving DecidableEq, Repr, Inhabited

/-- `s.add(v)` for a set of variants (compared by code point and rules). -/
def vadd (l : List Variant) (v : Variant) : List Variant :=
  if v.key ∈ l.map Variant.key then l else l ++ [v]

/-- A set built from a list. -/
def vset (l : List Variant) : List Variant := l.foldl vadd []

section
variable (order : List Variant → List Variant)

/-- `variant_sets.py` 27-33: `add_variant`. -/
def VData.add (d : VData) (v : Variant) (rev : List Variant) : VData :=
  { d with fwd := order (vadd (vset d.fwd) v), rev := order (rev.foldl vadd (vset d.rev)) }

/-- The variants of one direction, in the order of `set(self._fwd)` or `set(self._rev)`, `variant_sets.py`
47-51. -/
def VData.side (d : VData) (rev : Bool) : List Variant := order (vset (if rev then d.rev else d.fwd))

/-- `variant_sets.py` 68-90: `get_when`, `get_rev_when`. -/
def VData.getWhen (d : VData) (rev : Bool) : Option String :=
  ((d.side order rev).find? (fun v => truthy v.whenR)).bind Variant.whenR

/-- `variant_sets.py` 74-90: `get_not_when`, `get_rev_not_when`. -/
def VData.getNotWhen (d : VData) (rev : Bool) : Option String :=
  ((d.side order rev).find? (fun v => truthy v.notWhenR)).bind Variant.notWhenR

/-- The type of the first variant with a property; `''` if there is none. -/
def typeOf (o : Option Variant) : Option String :=
  match o with
  | some v => v.type
  | none => some ""

/-- `variant_sets.py` 92-126: the types for `when`, `not-when` and no rule. -/
def VData.typeTriple (d : VData) (rev : Bool) : List (Option String) :=
  [typeOf ((d.side order rev).find? (fun v => truthy v.whenR)),
   typeOf ((d.side order rev).find? (fun v => truthy v.notWhenR)),
   typeOf ((d.side order rev).find? (fun v => !truthy v.whenR && !truthy v.notWhenR))]

/-- `variant_sets.py` 62-66: `get_types`, `get_rev_types`. -/
def VData.types (d : VData) (rev : Bool) : String :=
  " - ".intercalate (sortAsc id ((if rev then d.rev else d.fwd).filterMap Variant.type))

/-- `variant_sets.py` 53-57: `get_cp`, `get_rev_cp`. -/
def cpOf (l : List Variant) : Seq := (l.head?.map Variant.cp).getD []

/-- `variant_sets.py` 59-60: `in_repertoire`. -/
def VData.inRepertoire (d : VData) (r : Repertoire) : Bool :=
  decide (d.fwd ≠ []) && r.hasCp (cpOf d.fwd) && decide (d.rev ≠ []) && r.hasCp (cpOf d.rev)

/-- `variant_sets.py` 140-150. -/
inductive RuleCheck where
  | same | lessConservative | missing | different
  deriving DecidableEq, Repr

inductive TypeCheck where
  | same | lessConservative | moreConservative | unknown
  deriving DecidableEq, Repr

/-- `variant_sets.py` 199-208: the rules of the table (`iw`, `inw`) and of the reference. The precedence of
`and` and `or` in line 206 is that of Python. -/
def rulesOf (iw inw rw rnw : Option String) : RuleCheck :=
  if iw = rw ∧ inw = rnw then .same
  else if (truthy iw && truthy inw) || (truthy rw && truthy rnw) then .different
  else if (truthy iw || truthy inw) && !truthy rw && !truthy rnw then .lessConservative
  else if (!truthy iw && !truthy inw && truthy rw) || truthy rnw then .missing
  else .different

/-- `variant_sets.py` 179-208: `check_rules`. -/
def checkRules (i r : VData) (rev : Bool) : RuleCheck :=
  rulesOf (i.getWhen order rev) (i.getNotWhen order rev) (r.getWhen order rev) (r.getNotWhen order rev)

/-- `variant_sets.py` 134: `VARIANT_TYPES_ORDER`. -/
def typesOrder : List String :=
  ["activated", "optionally-activated", "allocatable", "optionally-allocatable", "blocked"]

/-- `VARIANT_TYPES_ORDER.index(t)`; `none` is the `ValueError`. -/
def typeIndex (t : Option String) : Option Nat :=
  match t with
  | none => none
  | some s => if s ∈ typesOrder then some (typesOrder.idxOf s) else none

/-- Loop of `variant_sets.py` 238-256, on the pairs of types. -/
def typeLoop : Option TypeCheck → List (Option String × Option String) → Option TypeCheck
  | res, [] => res
  | res, (a, b) :: l =>
    if a = some "" ∨ b = some "" then typeLoop res l
    else
      match typeIndex a, typeIndex b with
      | some i, some j =>
        let new := if i < j then TypeCheck.lessConservative else .moreConservative
        match res with
        | none => typeLoop (some new) l
        | some old => if old ≠ new then some .unknown else typeLoop (some old) l
      | _, _ => some .unknown

/-- `variant_sets.py` 210-260: `check_type`, on the types. -/
def typesOf (it rt : List (Option String)) : Option TypeCheck :=
  if it = rt then some .same else typeLoop none (it.zip rt)

def checkType (i r : VData) (rev : Bool) : Option TypeCheck :=
  typesOf (i.typeTriple order rev) (r.typeTriple order rev)

/-- `variant_sets.py` 324-354: the decision on the two checks. -/
def decideChecks (rc : RuleCheck) (tc : Option TypeCheck) : Except Err (Result × String) :=
  if rc = .lessConservative then
    .ok (.review, "IDN Table variant generation is less conservative as it only applies with some conditions" ++
      (if tc = some .lessConservative then
        "\nVariant type in the IDN Table is less conservative compared to the Ref. LGR"
      else if tc = some .unknown then "\nUnknown variant type" else ""))
  else if tc = some .lessConservative then
    .ok (.review, "Variant type in the IDN Table is less conservative compared to the Ref. LGR")
  else if tc = some .unknown then .ok (.review, "Unknown variant type")
  else if rc = .missing then
    .ok (.manualCheck, "Variant condition rules are mismatched. The IDN Table misses the rule. " ++
      "If the rule is not needed for the proper variant index calculation, then this is ok")
  else if rc = .different then .ok (.manualCheck, "Variant contextual rules are different")
  else if tc = some .moreConservative then
    .ok (.note, "Variant types are mismatched. IDN Table is more conservative compared to the Reference LGR")
  else if (tc = some .same ∨ tc = none) ∧ rc = .same then
    .ok (.matched, "Exact match (including type, conditional variant rule)")
  else .error .assertion

/-- `variant_sets.py` 308-354: `get_result_and_remark`. -/
def variantVerdict (idnMissing refMissing : Bool) (i r : VData) (rev inIdnRep : Bool) :
    Except Err (Result × String) :=
  if idnMissing then .ok (.review, "Variant set exists in the reference LGR")
  else if refMissing then .ok (.manualCheck, "Variant set only exists in the IDN Table")
  else if i.fwd = [] then
    if inIdnRep then .ok (.review, "Variant member exists in the reference LGR")
    else .ok (.note, "Not applicable")
  else if r.fwd = [] then
    .ok (.manualCheck, "Variant member exists in IDN Table but not in the reference LGR")
  else decideChecks (checkRules order i r rev) (checkType order i r rev)

/-- `variant_sets.py` 162-171: `check_symmetry`. -/
def checkSym (i r : VData) : Option Bool :=
  if i.fwd ≠ [] ∧ r.fwd ≠ [] then
    some (decide (i.types false = i.types true) && decide (r.types false = r.types true))
  else if i.fwd ≠ [] then some (decide (i.types false = i.types true))
  else if r.fwd ≠ [] then some (decide (r.types false = r.types true))
  else none

/-- An entry of the report on a variant set; `missing` is the sequence mentioned in the remarks. -/
structure VarEntry where
  source : Seq
  dest : Seq
  destInIdn : Bool
  destInRef : Bool
  symmetric : Option Bool
  fwd : Result × String
  rev : Result × String
  missing : Option Seq
  deriving DecidableEq, Repr

/-- `variant_sets.py` 280-306: `to_dict` of `VariantReport`. -/
def varEntry (rep : Repertoire) (idnMissing refMissing : Bool) (missing : Option Seq) (source : Seq)
    (i r : VData) : Except Err VarEntry :=
  let inRep := r.inRepertoire rep
  match variantVerdict order idnMissing refMissing i r false inRep with
  | .error e => .error e
  | .ok f =>
    match variantVerdict order idnMissing refMissing i r true inRep with
    | .error e => .error e
    | .ok b =>
      .ok ⟨source, if cpOf i.fwd ≠ [] then cpOf i.fwd else cpOf r.fwd, i.inLgr, r.inLgr, checkSym i r, f, b,
        missing⟩

/-- The dictionary `reversed_variants`. -/
abbrev Reversed := List (Seq × List Seq)

/-- Body of the loop of `get_variant_data`, `variant_sets.py` 418-428. `get_variant` raises only
`NotInLGR` here. -/
def dataStep (r : Repertoire) (c : CharObj) (s : List (Seq × VData) × Reversed) (v : Variant) :
    List (Seq × VData) × Reversed :=
  if v.cp ∈ (dget s.2 c.cp).getD [] then s
  else
    match r.getVariant v.cp c.cp with
    | .ok o =>
      (dset s.1 v.cp (((dget s.1 v.cp).getD { inLgr := true }).add order v (o.getD [])),
       dset s.2 v.cp ((dget s.2 v.cp).getD [] ++ [c.cp]))
    | .error _ => (dset s.1 v.cp (((dget s.1 v.cp).getD { inLgr := false }).add order v []), s.2)

/-- `variant_sets.py` 415-429: `get_variant_data`. -/
def variantData (r : Repertoire) (c : CharObj) (rv : Reversed) : List (Seq × VData) × Reversed :=
  c.getVariants.foldl (dataStep order r c) ([], rv)

/-- `variant_sets.py` 372-384: look for a sequence missing in the IDN table: `missing_sequence` and what is
added to `relevant_repertoire`. -/
def missingSequence (idn ref : Repertoire) : List Seq → Except Err (Option Seq × List Seq)
  | [] => .ok (none, [])
  | cp :: l =>
    let inIdn := cp.filter (fun c => decide (c ∈ idn.iter.flatMap CharObj.cp))
    if 1 < cp.length ∧ inIdn ≠ [] then
      match ref.getChar cp with
      | .error e => .error e
      | .ok _ => .ok (some cp, (inIdn.filter (fun c => idn.hasCp [c])).map (fun c => [c]))
    else missingSequence idn ref l

/-- State of the loop of `generate_variant_set_report`: `variant_reports`, the two dictionaries of
reversed variants, `relevant_repertoire`. -/
structure SetState where
  entries : List VarEntry := []
  ri : Reversed := []
  rr : Reversed := []
  relevant : List Seq := []
  deriving DecidableEq, Repr

/-- The reports for the code points of one character, `variant_sets.py` 404-411. -/
def entriesFor (rep : Repertoire) (idnMissing refMissing : Bool) (missing : Option Seq) (source : Seq)
    (vi vr : List (Seq × VData)) : List Seq → Except Err (List VarEntry)
  | [] => .ok []
  | k :: ks =>
    match varEntry order rep idnMissing refMissing missing source ((dget vi k).getD {}) ((dget vr k).getD {}) with
    | .error e => .error e
    | .ok e =>
      match entriesFor rep idnMissing refMissing missing source vi vr ks with
      | .error e => .error e
      | .ok es => .ok (e :: es)

/-- Body of the loop of `variant_sets.py` 386-411. `cps` is the order of iteration on a set of code
points. `source_cp` is the same for both characters. -/
def setStep (cps : List Seq → List Seq) (idn ref : Repertoire) (si sr : List Seq) (missing : Option Seq)
    (s : SetState) (cp : Seq) : Except Err SetState :=
  let (vi, ri, rel) :=
    match idn.getChar cp with
    | .ok c => let p := variantData order idn c s.ri; (p.1, p.2, s.relevant ++ [cp])
    | .error _ => ([], s.ri, s.relevant)
  let (vr, rr) :=
    match ref.getChar cp with
    | .ok c => variantData order ref c s.rr
    | .error _ => ([], s.rr)
  match entriesFor order idn (decide (si = [])) (decide (sr = [])) missing cp vi vr
      (cps (vi.map Prod.fst ++ vr.map Prod.fst).dedup) with
  | .error e => .error e
  | .ok es => .ok { entries := s.entries ++ es, ri := ri, rr := rr, relevant := rel }

/-- The loop. -/
def setLoop (cps : List Seq → List Seq) (idn ref : Repertoire) (si sr : List Seq) (missing : Option Seq) :
    SetState → List Seq → Except Err SetState
  | s, [] => .ok s
  | s, cp :: l =>
    match setStep order cps idn ref si sr missing s cp with
    | .error e => .error e
    | .ok s' => setLoop cps idn ref si sr missing s' l

/-- `variant_sets.py` 366-413: `generate_variant_set_report`: the entries, and the relevant repertoire. -/
def setEntries (cps : List Seq → List Seq) (idn ref : Repertoire) (si sr : List Seq) :
    Except Err (List VarEntry × List Seq) :=
  match (if si = [] then missingSequence idn ref sr else .ok (none, [])) with
  | .error e => .error e
  | .ok (missing, rel) =>
    match setLoop order cps idn ref si sr missing { relevant := rel } (sortAsc id (si ++ sr).dedup) with
    | .error e => .error e
    | .ok s => .ok (s.entries, sortAsc id s.relevant.dedup)

end

/-- Body of the inner loop of `checks`, `variant_sets.py` 442-447: only `VariantAlreadyExists` is caught. -/
def checksVar (cp : Seq) (g : LGR) (v : Variant) : LGR × Except Err Unit :=
  match g.addVariant none (.seq cp) (.seq v.cp) none {} with
  | (g', .error (.variantAlreadyExists _ _)) => (g', .ok ())
  | r => r

/-- The loop of `checks`, `variant_sets.py` 436-447; `none` is the early `return False, False`. -/
def checksLoop (idn : Repertoire) : LGR → List Seq → Except Err (Option LGR)
  | g, [] => .ok (some g)
  | g, cp :: l =>
    match g.addCp none (.seq cp) {} with
    | (_, .error e) => .error e
    | (g1, .ok ()) =>
      match idn.getChar cp with
      | .error (.notInLGR _) => .ok none
      | .error e => .error e
      | .ok c =>
        match forEach (checksVar cp) g1 c.getVariants with
        | (_, .error e) => .error e
        | (g2, .ok ()) => checksLoop idn g2 l

/-- `variant_sets.py` 431-451: `checks`; the LGR made there has no Unicode database. -/
def setChecks (idn : Repertoire) (si : List Seq) : Except Err (Option Bool × Option Bool) :=
  if si = [] then .ok (none, none)
  else
    match checksLoop idn {} si with
    | .error e => .error e
    | .ok none => .ok (some false, some false)
    | .ok (some g) =>
      match (Validate.checkSymmetry none g false).2 with
      | .error e => .error e
      | .ok (s, _) =>
        match (Validate.checkTransitivity none g).2 with
        | .error e => .error e
        | .ok (t, _) => .ok (some s, some t)

/-- The report on a variant set. -/
structure SetReport where
  idn : List Seq
  ref : List Seq
  relevant : List Seq
  symmetry : Option Bool
  transitivity : Option Bool
  report : List VarEntry
  deriving DecidableEq, Repr

/-- `variant_sets.py` 453-467: `to_dict` of `VariantSetsReport`; `none` is the empty dictionary. -/
def setReport (order : List Variant → List Variant) (cps : List Seq → List Seq) (idn ref : Repertoire)
    (si sr : List Seq) : Except Err (Option SetReport) :=
  match setChecks idn si with
  | .error e => .error e
  | .ok (sym, tr) =>
    match setEntries order cps idn ref si sr with
    | .error e => .error e
    | .ok (es, rel) =>
      if rel = [] then .ok none
      else .ok (some ⟨si, sr, rel, sym, tr, sortAsc VarEntry.dest es⟩)

/-- Variant sets by their identifier. -/
abbrev Sets := List (Seq × List Seq)

/-- `{s[0]: s for s in sets}`, `variant_sets.py` 481-482. Variant sets are not empty. -/
def setsById (l : List (List Seq)) : Sets := l.foldl (fun d s => dset d (s.headD []) s) []

/-- Local variables of `generate_variant_sets_report`; of `updated_ref_sets` the keys. -/
structure Pairing where
  idn : Sets
  ref : Sets
  updated : List Seq := []
  newIds : List Seq := []
  deriving DecidableEq, Repr

/-- `set(a) <= set(b)`. -/
def subsetOf (a b : List Seq) : Bool := a.all (fun x => decide (x ∈ b))

/-- Body of the inner loop, `variant_sets.py` 494-503. -/
def pairStep (idnId : Seq) (idnCps : List Seq) (p : Pairing) (refId : Seq) : Except Err Pairing :=
  match dget p.ref refId with
  | none => .error (.keyError "ref")
  | some refCps =>
    if subsetOf idnCps refCps || subsetOf refCps idnCps then
      let newId := min idnId refId
      let newIds := p.newIds ++ [newId]
      match (if (dget p.idn newId).isNone then
          (match dget p.idn idnId with
           | none => none
           | some s => some (dset (ddel p.idn idnId) newId s))
        else some p.idn) with
      | none => .error (.keyError "idn")
      | some idn' =>
        if (dget p.ref newId).isNone then
          .ok { idn := idn', ref := dset p.ref newId refCps,
                updated := if refId ∈ p.updated then p.updated else p.updated ++ [refId], newIds := newIds }
        else .ok { p with idn := idn', newIds := newIds }
    else .ok p

/-- The inner loop. -/
def pairInner (idnId : Seq) (idnCps : List Seq) : Pairing → List Seq → Except Err Pairing
  | p, [] => .ok p
  | p, refId :: l =>
    match pairStep idnId idnCps p refId with
    | .error e => .error e
    | .ok p' => pairInner idnId idnCps p' l

/-- The outer loop, `variant_sets.py` 490-503. -/
def pairOuter (onlyRef : List Seq) : Pairing → List Seq → Except Err Pairing
  | p, [] => .ok p
  | p, idnId :: l =>
    match dget p.idn idnId with
    | none => .error (.keyError "idn")
    | some idnCps =>
      match pairInner idnId idnCps p onlyRef with
      | .error e => .error e
      | .ok p' => pairOuter onlyRef p' l

/-- `variant_sets.py` 481-512: the variant sets paired by identifier. -/
def pairSets (idnSets refSets : Sets) : Except Err (Sets × Sets) :=
  let onlyIdn := (idnSets.map Prod.fst).filter (fun k => decide (k ∉ refSets.map Prod.fst))
  let onlyRef := (refSets.map Prod.fst).filter (fun k => decide (k ∉ idnSets.map Prod.fst))
  match pairOuter onlyRef { idn := idnSets, ref := refSets } onlyIdn with
  | .error e => .error e
  | .ok p => .ok (p.idn, (p.updated.filter (fun k => decide (k ∉ p.newIds))).foldl ddel p.ref)

/-- The loop of `variant_sets.py` 514-521. -/
def setsLoop (order : List Variant → List Variant) (cps : List Seq → List Seq) (idn ref : Repertoire)
    (si sr : Sets) : List Seq → Except Err (List SetReport)
  | [] => .ok []
  | k :: ks =>
    match setReport order cps idn ref ((dget si k).getD []) ((dget sr k).getD []) with
    | .error e => .error e
    | .ok o =>
      match setsLoop order cps idn ref si sr ks with
      | .error e => .error e
      | .ok l => .ok (o.toList ++ l)

/-- `variant_sets.py` 480-524: the reports of `generate_variant_sets_report`. -/
def variantSetsReport (order : List Variant → List Variant) (cps : List Seq → List Seq)
    (idn ref : Repertoire) : Except Err (List SetReport) :=
  match pairSets (setsById (idn.getVariantSets true)) (setsById (ref.getVariantSets true)) with
  | .error e => .error e
  | .ok (si, sr) => setsLoop order cps idn ref si sr (sortAsc id (si.map Prod.fst ++ sr.map Prod.fst).dedup)

/-- `variant_sets.py` 285-288: the end of the remarks when a sequence may be missing; `glyph` is `str` of a
character. -/
def suffix (glyph : Seq → String) : Option Seq → String
  | none => ""
  | some s => ".\nThe sequence \"" ++ glyph s ++ "\" may be missing."

/-- The pairs of results and remarks which the summary gets, `summary.py` 41-42. -/
def setsResults (glyph : Seq → String) (l : List SetReport) : List (Result × String) :=
  l.flatMap (fun s => s.report.flatMap (fun e =>
    [(e.fwd.1, e.fwd.2 ++ suffix glyph e.missing), (e.rev.1, e.rev.2 ++ suffix glyph e.missing)]))

/-- The set `variants_flat` of `get_additional_codepoints`, `variant_sets.py` 475: `zip(*sets)` is made of
tuples with one code point sequence of each set. -/
def zipAll : List (List Seq) → List (List Seq)
  | [] => []
  | l :: ls =>
    (List.range ((l :: ls).map List.length).min?.get!).map (fun i => (l :: ls).map (fun s => s.getD i []))

/-- A Python value compared with a member of `variants_flat`: a tuple of code points is equal to a tuple of
tuples of code points only if both are empty. -/
def tupleEq (cp : Seq) (t : List Seq) : Bool := decide (cp = []) && decide (t = [])

/-- `variant_sets.py` 470-477: `get_additional_codepoints`: the code points listed. -/
def additionalInSets (idn ref : Repertoire) (sets : Sets) : List Seq :=
  (idn.iter.filter (fun c =>
    !(zipAll (sets.map Prod.snd)).any (tupleEq c.cp) && !ref.hasCp c.cp)).map CharObj.cp

end Lgr.Review
