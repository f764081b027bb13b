import Verif.Review

/-!
# General rules in the review of IDN tables: `lgr/tools/idn_review/whole_label_evaluation_rules.py`

The tables of labels and the conditions under which the general rules apply. The Unicode database and the parsing
of language tags are parameters. (`arabic_no_extended_report`, 440-442, is not called.)
-/

namespace Lgr.Review.General
open Lgr

/-- `SAME_SCRIPTS`, lines 19-58. -/
def sameScripts : List (String × String) :=
  [("Aran", "Arab"), ("Cyrs", "Cyrl"), ("ace", "zh"), ("yue", "zh"), ("wuu", "zh"), ("gan", "zh"), ("och", "zh"),
    ("cjy", "zh"), ("hak", "zh"), ("hsn", "zh"), ("cpx", "zh"), ("czh", "zh"), ("mnp", "zh"), ("nan", "zh"),
    ("cdo", "zh"), ("cmn", "zh"), ("lzh", "zh"), ("zhx", "zh"), ("czo", "zh"), ("ltc", "zh"), ("csl", "zh"),
    ("cpi", "zh"), ("kvk", "ko"), ("oko", "ko"), ("okm", "ko"), ("ka", "Knda"), ("kan", "Knda"), ("he", "Hebr"),
    ("iw", "Hebr"), ("hbo", "Hebr"), ("ojp", "ja"), ("jpx", "ja"), ("jsl", "ja"), ("Jpan", "ja"), ("Kana", "ja"),
    ("Hira", "ja"), ("Latg", "Latn"), ("Latf", "Latn")]

/-- `COMBINING_MARK_LABELS`, lines 60-88. -/
def combiningMarkLabels : List (String × List Seq) :=
  [("Arab", []), ("Armn", []), ("Beng", [[0x09C1, 0x09AE, 0x09AE]]), ("Cyrl", []),
    ("Deva", [[0x0948, 0x092C, 0x092C]]), ("Ethi", []), ("Geor", []), ("Grek", []), ("Gujr", [[0x0ABC, 0x0AAC]]),
    ("Guru", [[0x0A02, 0x0A20]]), ("zh", []), ("Knda", [[0x0C83, 0x0C96]]), ("ko", []), ("Hebr", []), ("ja", []),
    ("Khmr", [[0x17B7, 0x178A]]), ("Laoo", [[0x0EB4, 0x0E9D, 0x0E9D]]), ("Latn", []), ("Mlym", [[0x0D02, 0x0D1C]]),
    ("Mymr", [[0x1032, 0x1005]]), ("Orya", [[0x0B03, 0x0B15]]), ("Sinh", [[0x0D82, 0x0DA8]]),
    ("Taml", [[0x0BBE, 0x0B9A]]), ("Telu", [[0x0C03, 0x0C16]]), ("Thaa", [[0x07A6, 0x0786]]),
    ("Thai", [[0x0E37, 0x0E01]]), ("Tibt", [[0x0F80, 0x0F40]])]

/-- `CONSECUTIVE_HYPHEN_LABELS`, lines 90-145. -/
def consecutiveHyphenLabels : List (String × List Seq) :=
  [("Arab", [[0x002D, 0x062A, 0x062A], [0x062A, 0x062A, 0x002D], [0x062A, 0x062A, 0x002D, 0x002D, 0x062A, 0x062A]]),
    ("Armn", [[0x002D, 0x0561, 0x0561], [0x0561, 0x0561, 0x002D], [0x0561, 0x0561, 0x002D, 0x002D, 0x0561, 0x0561]]),
    ("Beng", [[0x002D, 0x09AE, 0x09AE], [0x09AE, 0x09AE, 0x002D], [0x09AE, 0x09AE, 0x002D, 0x002D, 0x09AE, 0x09AE]]),
    ("Cyrl", [[0x002D, 0x0434, 0x0434], [0x0434, 0x0434, 0x002D], [0x0434, 0x0434, 0x002D, 0x002D, 0x0434, 0x0434]]),
    ("Deva", [[0x002D, 0x092C, 0x092C], [0x092C, 0x092C, 0x002D], [0x092C, 0x092C, 0x002D, 0x002D, 0x092C, 0x092C]]),
    ("Ethi", [[0x002D, 0x1228, 0x1228], [0x1228, 0x1228, 0x002D], [0x1228, 0x1228, 0x002D, 0x002D, 0x1228, 0x1228]]),
    ("Geor", [[0x002D, 0x10D1, 0x10D1], [0x10D1, 0x10D1, 0x002D], [0x10D1, 0x10D1, 0x002D, 0x002D, 0x10D1, 0x10D1]]),
    ("Grek", [[0x002D, 0x03C0, 0x03C0], [0x03C0, 0x03C0, 0x002D], [0x03C0, 0x03C0, 0x002D, 0x002D, 0x03C0, 0x03C0]]),
    ("Gujr", [[0x002D, 0x0AAC, 0x0AAC], [0x0AAC, 0x0AAC, 0x002D], [0x0AAC, 0x0AAC, 0x002D, 0x002D, 0x0AAC, 0x0AAC]]),
    ("Guru", [[0x002D, 0x0A20, 0x0A20], [0x0A20, 0x0A20, 0x002D], [0x0A20, 0x0A20, 0x002D, 0x002D, 0x0A20, 0x0A20]]),
    ("zh", [[0x002D, 0x4E24, 0x4E24], [0x4E24, 0x4E24, 0x002D], [0x4E24, 0x4E24, 0x002D, 0x002D, 0x4E24, 0x4E24]]),
    ("Knda", [[0x002D, 0x0C95, 0x0C95], [0x0C95, 0x0C95, 0x002D], [0x0C95, 0x0C95, 0x002D, 0x002D, 0x0C95, 0x0C95]]),
    ("ko", [[0x002D, 0xAC00, 0xAC00], [0xAC00, 0xAC00, 0x002D], [0xAC00, 0xAC00, 0x002D, 0x002D, 0xAC00, 0xAC00]]),
    ("Hebr", [[0x002D, 0x05D1, 0x05D1], [0x05D1, 0x05D1, 0x002D], [0x05D1, 0x05D1, 0x002D, 0x002D, 0x05D1, 0x05D1]]),
    ("ja", [[0x002D, 0x3064, 0x3064], [0x3064, 0x3064, 0x002D], [0x3064, 0x3064, 0x002D, 0x002D, 0x3064, 0x3064]]),
    ("Khmr", [[0x002D, 0x178A, 0x178A], [0x178A, 0x178A, 0x002D], [0x178A, 0x178A, 0x002D, 0x002D, 0x178A, 0x178A]]),
    ("Laoo", [[0x002D, 0x0E9D, 0x0E9D], [0x0E9D, 0x0E9D, 0x002D], [0x0E9D, 0x0E9D, 0x002D, 0x002D, 0x0E9D]]),
    ("Latn", [[0x002D, 0x006D, 0x006D], [0x006D, 0x006D, 0x002D], [0x006D, 0x006D, 0x002D, 0x002D, 0x006D, 0x006D]]),
    ("Mlym", [[0x002D, 0x0D1C, 0x0D1C], [0x0D1C, 0x0D1C, 0x002D], [0x0D1C, 0x0D1C, 0x002D, 0x002D, 0x0D1C, 0x0D1C]]),
    ("Mymr", [[0x002D, 0x1005, 0x1005], [0x1005, 0x1005, 0x002D], [0x1005, 0x1005, 0x002D, 0x002D, 0x1005, 0x1005]]),
    ("Orya", [[0x002D, 0x0B15, 0x0B15], [0x0B15, 0x0B15, 0x002D], [0x0B15, 0x0B15, 0x002D, 0x002D, 0x0B15, 0x0B15]]),
    ("Sinh", [[0x002D, 0x0DA8, 0x0DA8], [0x0DA8, 0x0DA8, 0x002D], [0x0DA8, 0x0DA8, 0x002D, 0x002D, 0x0DA8, 0x0DA8]]),
    ("Taml", [[0x002D, 0x0B9A, 0x0B9A], [0x0B9A, 0x0B9A, 0x002D], [0x0B9A, 0x0B9A, 0x002D, 0x002D, 0x0B9A, 0x0B9A]]),
    ("Telu", [[0x002D, 0x0C16, 0x0C16], [0x0C16, 0x0C16, 0x002D], [0x0C16, 0x0C16, 0x002D, 0x002D, 0x0C16, 0x0C16]]),
    ("Thaa", [[0x002D, 0x0786, 0x0786], [0x0786, 0x0786, 0x002D], [0x0786, 0x0786, 0x002D, 0x002D, 0x0786, 0x0786]]),
    ("Thai", [[0x002D, 0x0E01, 0x0E01], [0x0E01, 0x0E01, 0x002D], [0x0E01, 0x0E01, 0x002D, 0x002D, 0x0E01, 0x0E01]]),
    ("Tibt", [[0x002D, 0x0F40, 0x0F40], [0x0F40, 0x0F40, 0x002D], [0x0F40, 0x0F40, 0x002D, 0x002D, 0x0F40, 0x0F40]])]

/-- `BEGIN_DIGIT_LABELS`, lines 147-175. -/
def beginDigitLabels : List (String × List Seq) :=
  [("Arab", [[0x0032, 0x062A, 0x062A], [0x0660, 0x062A, 0x062A], [0x06F5, 0x062A, 0x062A]]), ("Armn", []),
    ("Beng", []), ("Cyrl", []), ("Deva", []), ("Ethi", []), ("Geor", []), ("Grek", []), ("Gujr", []), ("Guru", []),
    ("zh", []), ("ko", []), ("Knda", []), ("Hebr", [[0x0033, 0x05D1, 0x05D1]]), ("ja", []), ("Khmr", []),
    ("Laoo", []), ("Latn", []), ("Mlym", []), ("Mymr", []), ("Orya", []), ("Taml", []), ("Telu", []),
    ("Thaa", [[0x0034, 0x0786]]), ("Thai", []), ("Tibt", [])]

/-- `MULTIPLE_DIGIT_SETS_LABELS`, lines 177-206. -/
def multipleDigitSetsLabels : List (String × List Seq) :=
  [("Arab", [[0x062A, 0x062A, 0x0032, 0x0662], [0x062A, 0x062A, 0x0032, 0x06F5], [0x062A, 0x062A, 0x0662, 0x06F5]]),
    ("Armn", []), ("Beng", [[0x09AE, 0x09AE, 0x0032, 0x09E9]]), ("Cyrl", []), ("Deva", [[0x092D, 0x0032, 0x0966]]),
    ("Ethi", []), ("Geor", []), ("Grek", []), ("Gujr", [[0x0AAC, 0x0032, 0x0AEE]]), ("Guru", []), ("zh", []),
    ("ko", []), ("Knda", [[0x0C85, 0x0CE7, 0x0031]]), ("Hebr", []), ("ja", []), ("Khmr", [[0x178A, 0x0032, 0x17E5]]),
    ("Laoo", [[0x0E9D, 0x0ED9, 0x0033]]), ("Latn", []), ("Mlym", []),
    ("Mymr", [[0x1005, 0x1042, 0x0035], [0x1005, 0x0035, 0x1095], [0x1005, 0x1042, 0x1095]]), ("Orya", []),
    ("Sinh", []), ("Taml", []), ("Telu", []), ("Thaa", []), ("Thai", [[0x0E01, 0x0E53, 0x0033]]),
    ("Tibt", [[0x0F40, 0x0033, 0x0F27]])]

/-- `JAPANESE_CONTEXTJ_LABELS`, lines 208-236. -/
def japaneseContextjLabels : List (String × List Seq) :=
  [("Arab", []), ("Armn", []), ("Beng", []), ("Cyrl", []), ("Deva", []), ("Ethi", []), ("Geor", []), ("Grek", []),
    ("Gujr", []), ("Guru", []), ("zh", []), ("ko", []), ("Knda", []), ("Hebr", []),
    ("ja", [[0x0062, 0x30FB, 0x0061]]), ("Khmr", []), ("Laoo", []), ("Latn", []), ("Mlym", []), ("Mymr", []),
    ("Orya", []), ("Sinh", []), ("Taml", []), ("Telu", []), ("Thaa", []), ("Thai", []), ("Tibt", [])]

/-- What is read in the Unicode database. -/
structure Db where
  isDigit : Nat → Bool
  isCombining : Nat → Bool
  isRtl : Nat → Bool
  scriptRtl : String → Bool

/-- What is read of an LGR: the repertoire, the languages of the language tags in sorted order (`none` for a tag
without language) and `metadata.get_scripts(allow_invalid=True)`. -/
structure Source where
  rep : Repertoire
  langs : List (Option String)
  scripts : List String

/-- Lines 335-343: `get_language_tags`. -/
def languageTags (t : Source) : List String := t.langs.filterMap id ++ t.scripts

/-- Lines 322-326: `language_tags`. -/
def tagsOf (idn : Source) (ref : Option Source) : List String :=
  if languageTags idn = [] then
    match ref with
    | none => []
    | some t => languageTags t
  else languageTags idn

/-- `nbr_digits`, `has_digits`, `combining_mark`, `is_rtl`. -/
structure Flags where
  digits : Nat := 0
  hasDigits : Bool := false
  combining : Bool := false
  rtl : Bool := false
  deriving DecidableEq, Repr

/-- One turn of the loop of `get_context_rules`, lines 347-356; `noTags` is `not self.language_tags`. -/
def flagStep (db : Db) (noTags : Bool) (f : Flags) (c : CharObj) : Flags :=
  match c.cp with
  | [x] =>
    let f := if db.isDigit x then { f with digits := f.digits + 1, hasDigits := true } else f
    let f := if db.isCombining x then { f with combining := true } else f
    if noTags && db.isRtl x then { f with rtl := true } else f
  | _ => f

/-- Lines 312-327, 329-333, 345-356: the flags after the constructor. -/
def flags (db : Db) (idn : Source) (ref : Option Source) : Flags :=
  idn.rep.allChars.foldl (flagStep db (decide (tagsOf idn ref = []))) { rtl := idn.scripts.any db.scriptRtl }

/-- The report on the general rules: for each `applicable` and `exists`. -/
structure Report where
  combiningMark : Bool × Option Bool
  consecutiveHyphens : Bool × Option Bool
  rtl : Bool × Option Bool
  digitsSet : Bool × Option Bool
  japaneseContextj : Bool × Option Bool
  deriving DecidableEq, Repr

/-- One report, lines 424-438: `make_report` on the labels of the languages and scripts. -/
def one (db : Db) (idn : Source) (ref : Option Source) (eligible : Seq → Except Err Bool) (cond : Flags → Bool)
    (coll : List (String × List Seq)) : Except Err (Bool × Option Bool) :=
  makeReport idn.rep eligible (cond (flags db idn ref)) (getLabels sameScripts coll (tagsOf idn ref))

/-- Lines 460-470: `generate_additional_general_rules`, with the conditions of 424-438; 0x2D is looked for in the
repertoire in line 318, 0x30FB in line 437, and the number of digits is tested in line 366. -/
def general (db : Db) (idn : Source) (ref : Option Source) (eligible : Seq → Except Err Bool) : Except Err Report :=
  match one db idn ref eligible (fun f => f.combining) combiningMarkLabels with
  | .error e => .error e
  | .ok a =>
    match one db idn ref eligible (fun _ => idn.rep.hasCp [0x2D]) consecutiveHyphenLabels with
    | .error e => .error e
    | .ok b =>
      match one db idn ref eligible (fun f => f.rtl && f.hasDigits) beginDigitLabels with
      | .error e => .error e
      | .ok c =>
        match one db idn ref eligible (fun f => decide (f.digits > 10)) multipleDigitSetsLabels with
        | .error e => .error e
        | .ok d =>
          match one db idn ref eligible (fun _ => idn.rep.hasCp [0x30FB]) japaneseContextjLabels with
          | .error e => .error e
          | .ok x => .ok ⟨a, b, c, d, x⟩

end Lgr.Review.General
