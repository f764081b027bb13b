import Verif.Variants

/-!
# Label dispositions: `lgr/core.py` 1023-1282, 1592-1672

Logs are not modelled. Generators are modelled as lists: a call that raises part-way raises, and
what it yielded before is not represented.
-/

namespace Lgr
namespace FullEnv
variable (env : FullEnv)

/-- The loop over the reflexive variants of one character, `lgr/core.py` 1648-1657: types of those
in valid context (`None` for an untyped one), and whether there is one. -/
def reflexiveLoop (label : Seq) (i : Nat) : List Variant → Except Err (DispSet × Bool)
  | [] => .ok ([], false)
  | v :: vs =>
    match env.testVar v label i with
    | .error e => .error e
    | .ok b =>
      match reflexiveLoop label i vs with
      | .error e => .error e
      | .ok (d, isVar) => .ok (if b then (v.type :: d, true) else (d, isVar))

/-- The loop over the characters starting at one position, `lgr/core.py` 1637-1662. -/
def dispCharLoop (reflexive : Bool) (label : Seq) (i : Nat) (rest : Seq) :
    List CharObj → Except Err (DispSet × Bool)
  | [] => .ok ([], true)
  | c :: cs =>
    if c.isSequence && !c.isPrefixOf rest then dispCharLoop reflexive label i rest cs
    else
      match env.testChar c label i with
      | .error e => .error e
      | .ok false => dispCharLoop reflexive label i rest cs
      | .ok true =>
        match (if reflexive then env.reflexiveLoop label i c.reflexiveVariants
            else .ok ([], false)) with
        | .error e => .error e
        | .ok (d, isVar) =>
          match dispCharLoop reflexive label i rest cs with
          | .error e => .error e
          | .ok (d', only) => .ok (d ++ d', isVar && only)

/-- One position of the label, `lgr/core.py` 1622-1637: code points starting no entry are
skipped. -/
def dispAt (r : Repertoire) (reflexive : Bool) (label : Seq) (i cp : Nat) (rest : Seq) :
    Except Err (DispSet × Bool) :=
  match r.charsFromPrefix cp with
  | .error _ => .ok ([], true)
  | .ok cs => env.dispCharLoop reflexive label i (cp :: rest) cs

/-- The loop over the positions of the label, `lgr/core.py` 1622-1662; `rest` is `label[i:]`. -/
def dispLoop (r : Repertoire) (reflexive : Bool) (label : Seq) :
    Nat → Seq → Except Err (DispSet × Bool)
  | _, [] => .ok ([], true)
  | i, cp :: rest =>
    match env.dispAt r reflexive label i cp rest with
    | .error e => .error e
    | .ok (d, only) =>
      match dispLoop r reflexive label (i + 1) rest with
      | .error e => .error e
      | .ok (d', only') => .ok (d ++ d', only && only')

/-- `lgr/core.py` 1592-1672: `_test_label_disposition`. -/
def testDisposition (r : Repertoire) (actions : List Action) (reflexive : Bool) (label : Seq) :
    Except Err (Option String × Int) :=
  match env.dispLoop r reflexive label 0 label with
  | .error e => .error e
  | .ok (d, only) => applyActions env actions label d (if d ≠ [] then only else false)

/-- Result of `test_label_eligible`, without the log; `chars` is what `generate_chars` adds. -/
structure Eligible where
  ok : Bool
  parts : Seq
  invalid : List (Nat × Option (List String))
  disp : Option String
  idx : Int
  chars : List CharObj
  deriving DecidableEq, Repr, Inhabited

/-- `lgr/core.py` 1023-1090: `test_label_eligible`. -/
def testEligible (r : Repertoire) (actions : List Action) (label : Seq) (isVariant : Bool := false) :
    Except Err Eligible :=
  if label = [] then .error (.invalidParameter "label")
  else
    match env.prelim r label with
    | .error e => .error e
    | .ok p =>
      if !p.ok then .ok ⟨false, p.parts, p.invalid, some "invalid", -1, p.chars⟩
      else
        match env.testDisposition r actions (!isVariant) label with
        | .error e => .error e
        | .ok (d, i) =>
          if d = some "invalid" then .ok ⟨false, [], [], d, i, p.chars⟩
          else .ok ⟨true, label, [], d, i, p.chars⟩

/-- An item yielded by `compute_label_disposition`; `chars` is what `generate_chars` adds (for a
generated variant, the code points of the characters and variants it is made of). -/
structure Item where
  cps : Seq
  disp : Option String
  invalid : Option (List (Nat × Option (List String)))
  idx : Int
  types : DispSet
  chars : List Seq
  deriving DecidableEq, Repr, Inhabited

/-- Options of `compute_label_disposition`. -/
structure Options where
  includeInvalid : Bool := false
  hide : Bool := false
  withLabels : List Seq := []   -- `None` behaves as the empty list (line 1163)
  generateChars : Bool := false

/-- The disposition of one generated variant, `lgr/core.py` 1172-1190. -/
def itemOf (r : Repertoire) (actions : List Action) (label : Seq) (g : Gen) : Except Err Item :=
  match env.testEligible r actions g.cps (isVariant := decide (g.cps ≠ label)) with
  | .error e => .error e
  | .ok el =>
    if !el.ok then .ok ⟨g.cps, some "invalid", some el.invalid, el.idx, g.disp, g.chars⟩
    else
      match applyActions env actions g.cps g.disp g.only with
      | .error e => .error e
      | .ok (d, i) => .ok ⟨g.cps, d.or (some "allocatable"), some el.invalid, i, g.disp, g.chars⟩

/-- The loop over the generated variants, `lgr/core.py` 1151-1206: state is the labels already
handled and the stored original; returns what is yielded and the stored original. -/
def listLoop (r : Repertoire) (actions : List Action) (o : Options) (label : Seq) :
    List Seq → Option Item → List Gen → Except Err (List Item × Option Item)
  | _, orig, [] => .ok ([], orig)
  | handled, orig, g :: gs =>
    if !o.generateChars && decide (g.cps ∈ handled) then listLoop r actions o label handled orig gs
    else if decide (o.withLabels ≠ []) && decide (g.cps ∉ o.withLabels) then
      listLoop r actions o label handled orig gs
    else
      match env.itemOf r actions label g with
      | .error e => .error e
      | .ok it =>
        if it.disp ≠ some "invalid" ∨ o.includeInvalid then
          if g.cps = label then listLoop r actions o label (g.cps :: handled) (some it) gs
          else
            match listLoop r actions o label (g.cps :: handled) orig gs with
            | .error e => .error e
            | .ok (its, orig') => .ok (it :: its, orig')
        else listLoop r actions o label (g.cps :: handled) orig gs

/-- `lgr/core.py` 1092-1211: `compute_label_disposition`; `hasDb` tells whether the Unicode database
is set. -/
def computeDisposition (r : Repertoire) (actions : List Action) (hasDb : Bool) (o : Options)
    (label : Seq) : Except Err (List Item) :=
  if !hasDb then .error .apiException
  else if label.length > 63 then .error (.invalidParameter "label")
  else
    match env.genVariants r o.hide label with
    | .error e => .error e
    | .ok gs =>
      match env.listLoop r actions o label [] none gs with
      | .error e => .error e
      | .ok (its, some it) => .ok (its ++ [it])
      | .ok (its, none) =>
        match env.testEligible r actions label with
        | .error e => .error e
        | .ok el => .ok (its ++ [⟨label, el.disp, none, el.idx, [], el.chars.map CharObj.cp⟩])

/-- `lgr/core.py` 1213-1244: `compute_label_disposition_summary`: number of items per disposition
(a `Counter`, as a function). -/
def dispositionSummary (its : List Item) (d : Option String) : Nat :=
  (its.map Item.disp).count d

/-- `vars_excl_reflexive`, `lgr/core.py` 1260-1261. -/
def nonReflexive (c : CharObj) : List Variant := c.getVariants.filter (fun v => decide (v.cp ≠ c.cp))

/-- `lgr/core.py` 1246-1282: `estimate_variant_number`. `other_scripts` is a set: iterate over it
without repetition. (`NotInLGR` in line 1266 is never raised by the constructor of the filter.) -/
def estimate (r : Repertoire) (hide : Bool) (label : Seq) : Except Err Nat :=
  match env.prelim r label with
  | .error e => .error e
  | .ok p =>
    if hide then
      let f := env.mkFilter r label
      .ok ((p.chars.map (fun c =>
          ((nonReflexive c).filter (fun v => env.cpInScripts v.cp f.base)).length + 1)).prod +
        ((f.other.dedup).map (fun s => (p.chars.map (fun c =>
          ((nonReflexive c).filter (fun v => env.cpInScripts v.cp [s])).length)).prod)).sum)
    else .ok ((p.chars.map (fun c => (nonReflexive c).length + 1)).prod)

end FullEnv
end Lgr
