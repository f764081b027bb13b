import Verif.ReviewSets
import Verif.ReviewGeneral

/-!
# The review of a table as a whole: `lgr/tools/idn_review/review.py`, `header.py`, `summary.py`, `tools/lgr_idn_table_review.py`

The sections of the report are the ones of `Review`, `ReviewSets` and `ReviewGeneral`. Names and glyphs of code points, which are only
shown, are left out, and so are the date and the disclaimer of the header.
-/

namespace Lgr.ReviewTool
open Lgr Review Review.General

/-- What a review reads of an LGR: name, value of the version (`None` if it cannot be read, `header.py` 15-18), languages, what
`Source` has, classes (the set of each, or the exception of `get_pattern`, and whether it is implicit), the texts of rules, the actions
and `test_label_eligible`. -/
structure Table where
  name : String
  version : Option String
  languages : List String
  src : Source
  classes : List (String × Except Err CpSet × Bool)
  rules : List (String × String)
  actions : List Action
  eligible : Seq → Except Err Bool

/-- What the report depends on besides the LGRs: orders of sets, language tags, the Unicode database and the text of a sequence. -/
structure Setting where
  tags : List String → List String
  vars : List Variant → List Variant
  cps : List Seq → List Seq
  info : String → TagInfo
  db : Db
  glyph : Seq → String
  idna : Nat → String

/-- `header.py` 14-41: name and version of the table and of the reference. -/
structure Header where
  idn : String × Option String
  ref : Option (String × Option String)
  deriving DecidableEq, Repr

def header (t : Table) (u : Option Table) : Header :=
  { idn := (t.name, t.version), ref := u.map (fun u => (u.name, u.version)) }

/-- The summary, `summary.py` 38-45. -/
structure Summaries where
  languageTag : Summary
  repertoire : Summary
  variantSets : Summary
  classes : Summary
  wle : Summary
  actions : Summary
  deriving DecidableEq, Repr

/-- The report, `review.py` 22-31. -/
structure Full where
  header : Header
  languageTags : List (Option String × List (String × Result × String))
  repertoire : List RepEntry
  cpInSequences : List (Nat × Seq)
  variantSets : List SetReport
  classes : List ClassEntry
  wle : List WleEntry
  wleAdditional : List Seq
  general : Report
  actions : List ActionEntry
  sequence : Result
  summary : Summaries

/-- `summary.py` 38-45. -/
def summarize (E : Setting) (tags : List (Option String × List (String × Result × String))) (rep : List RepEntry)
    (sets : List SetReport) (cls : List ClassEntry) (wle : List WleEntry) (acts : List ActionEntry) : Summaries :=
  { languageTag := handleReport (tags.flatMap (fun r => r.2.map (fun c => (c.2.1, c.2.2))))
    repertoire := handleReport (rep.map (fun e => (e.result, e.remark)))
    variantSets := handleReport (setsResults E.glyph sets)
    classes := handleReport (cls.map (fun e => (e.result, e.remark)))
    wle := handleReport (wle.map (fun e => (e.result, e.remark)))
    actions := handleReport (acts.map (fun e => (e.result, e.remark))) }

/-- `classes.py` 104-118: the report on classes of two LGRs. -/
def classesOf (t u : Table) : Except Err (List ClassEntry) :=
  match classMembers id (singles t.src.rep) t.classes with
  | .error e => .error e
  | .ok mt =>
    match classMembers id (singles u.src.rep) u.classes with
    | .error e => .error e
    | .ok mu => classesReport mt mu (singles t.src.rep) (singles u.src.rep)

/-- `review.py` 22-31: `review_lgr`. -/
def review (E : Setting) (t u : Table) : Except Err Full :=
  let tags := tagsReport E.info t.languages u.languages
  let rep := repertoireReport E.tags t.src.rep u.src.rep
  match variantSetsReport E.vars E.cps t.src.rep u.src.rep with
  | .error e => .error e
  | .ok sets =>
    match classesOf t u with
    | .error e => .error e
    | .ok cls =>
      let wle := wleReport t.rules u.rules t.src.rep u.src.rep
      match Review.General.general E.db t.src (some u.src) t.eligible with
      | .error e => .error e
      | .ok g =>
        let acts := actionsReport t.actions u.actions
        .ok { header := header t (some u), languageTags := tags, repertoire := rep,
              cpInSequences := cpInRefSeq t.src.rep u.src.rep, variantSets := sets, classes := cls, wle := wle,
              wleAdditional := additionalCps t.src.rep u.src.rep, general := g, actions := acts.1, sequence := acts.2,
              summary := summarize E tags rep sets cls wle acts.1 }

/-! ## Core requirements -/

/-- The report of `review_with_core_requirements`, `review.py` 34-39. -/
structure Core where
  header : Header
  pvalid : Nat
  invalid : Nat
  manyDigitSets : Bool
  general : Report
  deriving DecidableEq, Repr

/-- `repertoire.py` 134-138: `set(' '.join(props).split(' ')) != {'PVALID'}`; the names of properties have no blank. -/
def notPvalid (idna : Nat → String) (c : CharObj) : Bool :=
  !((c.cp.map idna).all (fun p => decide (p = "PVALID")) && decide (c.cp ≠ []))

/-- `variant_sets.py` 527-535: `nbr_digits`. -/
def countDigits (db : Db) (l : List CharObj) : Nat :=
  l.foldl (fun n c => if c.cp.length = 1 then if db.isDigit (c.cp.headD 0) then n + 1 else n else n) 0

/-- `review.py` 34-39, `repertoire.py` 131-143, `variant_sets.py` 527-539. -/
def core (E : Setting) (t : Table) : Except Err Core :=
  let chars := t.src.rep.allChars
  let invalid := (chars.filter (notPvalid E.idna)).length
  match Review.General.general E.db t.src none t.eligible with
  | .error e => .error e
  | .ok g => .ok { header := header t none, pvalid := chars.length - invalid, invalid := invalid,
                   manyDigitSets := decide (countDigits E.db chars > 10), general := g }

/-! ## The tool -/

/-- `lgr_idn_table_review.py` 42-47, 49-55: a file which has no LGR is in the list, as `None`. -/
def readAll (read : String → Except Err (Option Table)) : List String → Except Err (List (Option Table))
  | [] => .ok []
  | f :: fs =>
    match read f with
    | .error e => .error e
    | .ok o =>
      match readAll read fs with
      | .error e => .error e
      | .ok os => .ok (o :: os)

/-- `str` of an LGR (`core.py` 2126-2129) or of `None`. -/
def shown : Option Table → String
  | none => "None"
  | some t => t.name

/-- Line 60: the name of the file of a report. -/
def fileName (p : Option Table × Option Table) : String := shown p.1 ++ "_" ++ shown p.2 ++ ".json"

/-- `review_lgr` of what was read: without table, `None.name` (`header.py` 26), without reference, `None.metadata`
(`language_tag.py` 66-69). -/
def reviewOf (E : Setting) : Option Table × Option Table → Except Err Full
  | (some t, some u) => review E t u
  | _ => .error .attributeError

/-- The files of the output folder; an empty one is `none`. -/
abbrev Files := List (String × Option Full)

/-- Lines 58-61. The file is opened before the review. -/
def writeAll (E : Setting) : Files → List (Option Table × Option Table) → Files × Except Err Unit
  | out, [] => (out, .ok ())
  | out, p :: ps =>
    match reviewOf E p with
    | .error e => (dset out (fileName p) none, .error e)
    | .ok r => writeAll E (dset out (fileName p) (some r)) ps

/-- Lines 40-61; `ord` is the order of iteration over the set of the paths. The output folder is empty at first. -/
def main (E : Setting) (ord : List String → List String) (read : String → Except Err (Option Table)) (tables refs : List String) :
    Files × Except Err Unit :=
  match readAll read (ord refs) with
  | .error e => ([], .error e)
  | .ok us =>
    match readAll read (ord tables) with
    | .error e => ([], .error e)
    | .ok ts => writeAll E [] (ts.flatMap (fun t => us.map (fun u => (t, u))))

end Lgr.ReviewTool
