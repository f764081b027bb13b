import Verif.Scripts
import Verif.Metadata

/-!
# The texts by which results are kept between calls: `lgr/memoize.py`

The key of a result (`Metadata.memoCall`) is made of texts: `str` of the attribute and of the arguments. `str` of a list of strings is
the `repr` of its members, which is modelled as CPython defines it; which characters are printable is a parameter.
Not modelled: strings with lone surrogates, and changes made by callers to the list returned (none does so in
`/repo`).
-/

namespace Lgr.Memo
open Lgr Scripts

/-- A hexadecimal digit. -/
def hexDigit (n : Nat) : Char := if n < 10 then Char.ofNat (48 + n) else Char.ofNat (87 + n)

/-- A number with a fixed number of hexadecimal digits. -/
def hexw : Nat → Nat → List Char
  | 0, _ => []
  | w + 1, n => hexw w (n / 16) ++ [hexDigit (n % 16)]

/-- `repr` of one character of a string between quotes `q`. -/
def esc (printable : Char → Bool) (q c : Char) : List Char :=
  if c = q ∨ c = '\\' then ['\\', c]
  else if c = '\t' then ['\\', 't']
  else if c = '\n' then ['\\', 'n']
  else if c = '\r' then ['\\', 'r']
  else if c.toNat < 32 ∨ c.toNat = 127 then '\\' :: 'x' :: hexw 2 c.toNat
  else if c.toNat < 127 ∨ printable c = true then [c]
  else if c.toNat ≤ 0xff then '\\' :: 'x' :: hexw 2 c.toNat
  else if c.toNat ≤ 0xffff then '\\' :: 'u' :: hexw 4 c.toNat
  else '\\' :: 'U' :: hexw 8 c.toNat

/-- The quotes chosen by `repr`. -/
def quote (s : List Char) : Char := if '\'' ∈ s ∧ '"' ∉ s then '"' else '\''

/-- `repr` of a string. -/
def reprStr (printable : Char → Bool) (s : List Char) : List Char :=
  quote s :: s.flatMap (esc printable (quote s)) ++ [quote s]

/-- The members of a list but the first, each after a comma. -/
def reprTail (printable : Char → Bool) : List String → List Char
  | [] => [']']
  | s :: l => ',' :: ' ' :: reprStr printable s.toList ++ reprTail printable l

/-- `str` of a list of strings. -/
def strList (printable : Char → Bool) : List String → List Char
  | [] => ['[', ']']
  | s :: l => '[' :: reprStr printable s.toList ++ reprTail printable l

/-- The ways to call `get_scripts`. -/
inductive Form where
  | plain
  | pos (allowInvalid : Bool)
  | kw (allowInvalid : Bool)
  deriving DecidableEq, Repr

/-- The value of the parameter `allow_invalid`, `lgr/metadata.py` 174. -/
def Form.allow : Form → Bool
  | .plain => false
  | .pos b => b
  | .kw b => b

/-- `str` of a truth value. -/
def strBool : Bool → String
  | true => "True"
  | false => "False"

/-- `str(args[1:]) + str(kwargs.items())`, `lgr/memoize.py` 33. -/
def strArgs : Form → String
  | .plain => "()" ++ "dict_items([])"
  | .pos b => "(" ++ strBool b ++ ",)" ++ "dict_items([])"
  | .kw b => "()" ++ "dict_items([('allow_invalid', " ++ strBool b ++ ")])"

/-- The body of `get_scripts`, `lgr/metadata.py` 174-193, as a function of the attribute and the arguments. -/
def body (tag : String → Tag) (languages : List String) (f : Form) : List String := getScripts tag f.allow languages

/-- `str` of the attribute, `lgr/memoize.py` 33. -/
def strAttr (printable : Char → Bool) (languages : List String) : String := String.ofList (strList printable languages)

/-- `lgr/metadata.py` 173-193: `get_scripts` as decorated (`Metadata.memoCall`). -/
def callScripts (printable : Char → Bool) (tag : String → Tag) (o : Metadata.Memo (List String)) (f : Form) :
    Metadata.Memo (List String) × List String :=
  Metadata.memoCall (strAttr printable) strArgs "get_scripts" (body tag) o f

/-- What happens to an object: its languages are changed, or `get_scripts` is called. -/
def scriptStep (printable : Char → Bool) (tag : String → Tag) (o : Metadata.Memo (List String)) :
    Metadata.MemoOp Form → Metadata.Memo (List String) :=
  Metadata.memoStep (strAttr printable) strArgs "get_scripts" (body tag) o

end Lgr.Memo
