import Verif.Lgr

/-!
# Scripts of an LGR

`lgr/utils.py` 146-172, `lgr/metadata.py` 174-193 and `lgr/core.py` 1952-2053: the scripts of the languages of an LGR, whether
a code point is in one of them, and `_check_convert_cp` with `assert_in_script`. What `language_tags` says of a
language, and the script of a code point in the Unicode database, are given.
-/

namespace Lgr.Scripts
open Lgr

/-- `script_iso15924_to_unicode`, `lgr/utils.py` 146-172. -/
def isoToUnicode (s : String) : List String :=
  if s = "Aran" then ["Arab"]
  else if s = "Geok" then ["Geor"]
  else if s ∈ ["Hans", "Hant"] then ["Hani"]
  else if s = "Hrkt" then ["Hira", "Kana"]
  else if s = "Jpan" then ["Hani", "Hira", "Kana"]
  else if s = "Kore" then ["Hani", "Hang"]
  else if s ∈ ["Latf", "Latg"] then ["Latn"]
  else if s ∈ ["Syre", "Syrj", "Syrn"] then ["Syrc"]
  else [s]

/-- `rfc5646.tag(language)`: whether it is valid, the format of its script subtag, and the `Suppress-Script` of its
language subtag, if any. -/
structure Tag where
  valid : Bool
  script : Option String
  suppress : Option String
  deriving DecidableEq, Repr

/-- `lgr/metadata.py` 184-192: the scripts of a tag. -/
def tagScripts (t : Tag) : List String :=
  match (match t.script with
    | some s => some s
    | none => t.suppress) with
  | some s => if s ≠ "" then isoToUnicode s else []
  | none => []

/-- `get_scripts`, `lgr/metadata.py` 174-193. -/
def getScripts (tag : String → Tag) (allowInvalid : Bool) (languages : List String) : List String :=
  languages.flatMap (fun l => if allowInvalid || (tag l).valid then tagScripts (tag l) else [])

/-- `lgr/core.py` 2043-2045: the script is one of those of the LGR. -/
def scriptOk (scripts : List String) (s : String) : Bool :=
  !(decide (scripts.length > 0) && decide (s ∉ scripts) && decide (s ∉ ["Zyyy", "Zinh"]))

/-- The body of the loop, `lgr/core.py` 2039-2051; `none` is `NotImplementedError`. -/
def scriptStep (scripts : List String) (script : Nat → Option String) (r : Bool × List String) (cp : Nat) :
    Bool × List String :=
  match script cp with
  | none => r
  | some s => (if scriptOk scripts s then r.1 else false, if s ∈ r.2 then r.2 else r.2 ++ [s])

/-- `cp_in_script`, `lgr/core.py` 2024-2053. -/
def cpInScript (scripts : List String) (script : Nat → Option String) (s : Seq) : Bool × List String :=
  s.foldl (scriptStep scripts script) (true, [])

/-- `_check_convert_cp` with `assert_in_script`, `lgr/core.py` 1952-2022. -/
def checkConvertIn (db : UniDb) (raiseInvalid : Bool) (assertIn : Bool) (arg : CpArg) : Except Err Seq :=
  match LGR.checkConvert db raiseInvalid arg with
  | .error e => .error e
  | .ok s => if db.isSome && assertIn then .error (.charNotInScript s) else .ok s

end Lgr.Scripts
