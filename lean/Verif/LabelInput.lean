import Verif.Text
import Verif.Disposition
import Verif.Collisions

/-!
# Labels typed in or read from files, and their annotation

`lgr/tools/utils.py` 30-71, 162-236, 279-322, `lgr/tools/annotate.py`. Strings are lists of characters, labels are
sequences of code points whatever `as_cp` (without it, the tools get the string of these code points).
Parameters: the IDNA decoder applied to the lower-cased string, scripts of code points.
-/

namespace Lgr.LabelInput
open Lgr Text

/-! ## One label -/

/-- `s.lower().startswith('xn--')`, `lgr/tools/utils.py` 210; no character but `X` and `N` lower-cases to `x` or `n`. -/
def isAce : List Char → Bool
  | x :: n :: '-' :: '-' :: _ => (x == 'x' || x == 'X') && (n == 'n' || n == 'N')
  | _ => false

/-- `'U+' in s.upper()`, `lgr/tools/utils.py` 215. -/
def hasUplus : List Char → Bool
  | [] => false
  | c :: s => ((c == 'u' || c == 'U') && s.head? == some '+') || hasUplus s

/-- `lgr/tools/utils.py` 194-236: `_parse_label_input`; `dec` is `idna_decoder(s.lower())`. -/
def parseInput (dec : List Char → Except Err Seq) (keepSpaces : Bool) (s : List Char) : Except Err Seq :=
  if isAce s then dec s
  else if ' ' ∈ s ∨ hasUplus s = true then
    match parseCodepointInput s with
    | .ok cps => .ok cps
    | .error e =>
      if ' ' ∉ s then .error e
      else if keepSpaces then .ok (s.map Char.toNat)
      else .error .valueError
  else .ok (s.map Char.toNat)

/-- `lgr/tools/utils.py` 162-191: `parse_label_input`: label, whether it is valid, exception. -/
def parseLabelInput (dec : List Char → Except Err Seq) (keepSpaces doRaise : Bool) (s : List Char) :
    Except Err (Seq × Bool × Option Err) :=
  match parseInput dec keepSpaces s with
  | .ok l => .ok (l, true, none)
  | .error e => if doRaise then .error e else .ok (s.map Char.toNat, false, some e)

/-! ## Files of labels -/

/-- What `read_labels` yields: `error` is `none` for a kept comment (the empty string), otherwise the
exception or `None`. -/
structure Read where
  orig : List Char
  label : Seq
  valid : Bool
  error : Option (Option Err)
  deriving DecidableEq

/-- `str(error)`, `lgr/tools/utils.py` 70: `str(None)` is `None`. -/
def Read.errorText (str : Err → String) (r : Read) : String :=
  match r.error with
  | none => ""
  | some none => "None"
  | some (some e) => str e

/-- `lgr/tools/utils.py` 42-47: `clean`; the byte order mark is not white space. -/
def clean (l : List Char) : List Char := strip (l.dropWhile (fun c => c.toNat == 0xFEFF))

/-- Body of the loop, `lgr/tools/utils.py` 50-71; `.ok none` is `continue`. -/
def readLine (dec : List Char → Except Err Seq) (doRaise keep : Bool) (l : List Char) : Except Err (Option Read) :=
  let s := clean l
  if s.head? = some '#' then .ok (if keep then some ⟨s, s.map Char.toNat, true, none⟩ else none)
  else
    let s := if '#' ∈ s then strip (s.takeWhile (· != '#')) else s
    if s = [] then .ok none
    else
      match parseLabelInput dec false doRaise s with
      | .error e => .error e
      | .ok (x, v, e) => .ok (some ⟨s, x, v, some e⟩)

/-- `lgr/tools/utils.py` 30-71: `read_labels`: what was yielded, and how it ended. -/
def readLabels (dec : List Char → Except Err Seq) (doRaise keep : Bool) :
    List (List Char) → List Read × Except Err Unit
  | [] => ([], .ok ())
  | l :: ls =>
    match readLine dec doRaise keep l with
    | .error e => ([], .error e)
    | .ok o =>
      let (rs, x) := readLabels dec doRaise keep ls
      (o.toList ++ rs, x)

/-! ## Script of a label -/

/-- `COMMON_SCRIPT`, `INHERITED_SCRIPT`, `lgr/utils.py` 19-20. -/
def common (s : String) : Bool := s == "Zyyy" || s == "Zinh"

/-- The loop of `lgr/tools/utils.py` 303-306, started with the script of the first character. -/
def nextScript (script : Nat → String) : String → Seq → String
  | s, [] => s
  | _, c :: l => if common (script c) then nextScript script (script c) l else script c

/-- `lgr/tools/utils.py` 279-322: `get_rz_label_script`, without the prefix `und-`. -/
def rzScript (script : Nat → String) : Seq → Option String
  | [] => none
  | c :: l =>
    let s := script c
    let s :=
      if s = "Hani" then (if l.any (fun x => script x == "Hira" || script x == "Kana") then "Jpan" else "Hani")
      else if common s then
        let s := nextScript script s l
        if common s && (c :: l).any (fun x => x == 0x3006 || x == 0x30FC) then "Jpan" else s
      else s
    some (if s = "Hira" ∨ s = "Kana" then "Jpan" else if s = "Hang" then "Kore" else s)

/-! ## Annotation -/

/-- What is written for one label: the label, the disposition or error, the action named, the code
points named (with the rules, or without for "not in repertoire"). -/
structure Block where
  label : Seq
  out : String
  action : Option (Int × Action)
  cps : List (Nat × Option (List String))
  deriving DecidableEq

/-- `lgr/tools/annotate.py` 14-23: `_out_valid_label`; `actions` are the actions of the LGR passed,
`effective_actions[i]` raises `IndexError` (what was written of the block before is dropped here). -/
def outLabel (actions : List Action) (label : Seq) (el : FullEnv.Eligible) (out : String) : Except Err Block :=
  if !el.ok && decide (0 < el.idx) then
    match (effectiveActions actions)[el.idx.toNat]? with
    | none => .error .indexError
    | some a => .ok ⟨label, out, some (el.idx, a), el.invalid⟩
  else .ok ⟨label, out, none, el.invalid⟩

/-- Body of the loop, `lgr/tools/annotate.py` 33-42; a missing disposition is written `None`. -/
def annotateOne (env : FullEnv) (r : Repertoire) (actions : List Action) (str : Err → String) (x : Read) :
    Except Err Block :=
  if x.valid then
    match env.testEligible r actions x.label with
    | .error e => .error e
    | .ok el => outLabel actions x.label el (el.disp.getD "None")
  else .ok ⟨x.label, x.errorText str, none, []⟩

/-- `lgr/tools/annotate.py` 26-42: `annotate`, on the labels read: what was yielded, and how it ended. -/
def annotate (env : FullEnv) (r : Repertoire) (actions : List Action) (str : Err → String) :
    List Read → List Block × Except Err Unit
  | [] => ([], .ok ())
  | x :: xs =>
    match annotateOne env r actions str x with
    | .error e => ([], .error e)
    | .ok b =>
      let (bs, y) := annotate env r actions str xs
      (b :: bs, y)

/-- What is appended to the disposition, `lgr/tools/annotate.py` 82-91. -/
def verdictText (disp : String) : Annotate.Verdict → String
  | .none => disp
  | .inSet => disp ++ " - Label is in the LGR set labels"
  | .collides => disp ++ " - Label collides with the LGR set labels"

/-- Body of the second loop of `lgr_set_annotate`, `lgr/tools/annotate.py` 68-94: `env`, `r`, `actions` are
those of the LGR of the script, `actionsM` are the actions of the merged LGR; `verdict` is lines 80-87. -/
def setAnnotateOne (env : FullEnv) (r : Repertoire) (actions actionsM : List Action)
    (verdict : Seq → Except Err Annotate.Verdict) (str : Err → String) (x : Read) : Except Err Block :=
  if x.valid then
    match env.testEligible r actions x.label with
    | .error e => .error e
    | .ok el =>
      match (if el.ok then verdict x.label else .ok .none) with
      | .error e => .error e
      | .ok v => outLabel actionsM x.label el (verdictText (el.disp.getD "None") v)
  else .ok ⟨x.label, x.errorText str, none, []⟩

/-- The second loop of `lgr_set_annotate`, `lgr/tools/annotate.py` 68-94. -/
def setAnnotate (env : FullEnv) (r : Repertoire) (actions actionsM : List Action)
    (verdict : Seq → Except Err Annotate.Verdict) (str : Err → String) : List Read → List Block × Except Err Unit
  | [] => ([], .ok ())
  | x :: xs =>
    match setAnnotateOne env r actions actionsM verdict str x with
    | .error e => ([], .error e)
    | .ok b =>
      let (bs, y) := setAnnotate env r actions actionsM verdict str xs
      (b :: bs, y)

end Lgr.LabelInput
