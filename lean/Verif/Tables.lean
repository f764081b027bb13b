import Verif.Text
import Verif.Checks

/-!
# Parsers of tables

`lgr/parser/line_parser.py`, `lgr/parser/rfc4290_parser.py`, `lgr/parser/rfc3743_parser.py` and the choice
of a parser in `lgr/parser/heuristic_parser.py`. Lines are lists of characters. During the parse the LGR
has no Unicode database (`lgr/parser/parser.py` 74). The regular expressions are deterministic on what they
are used for (a greedy repetition is never shortened, since what follows it is optional), so they are
written as functions.

Not modelled: reading, decoding and seeking of files; logging; the metadata set by `Version` lines of RFC
3743 files.
-/

namespace Lgr.Tables
open Lgr Text Checks Validate

/-- `[0-9a-fA-F]`. -/
def isHex (c : Char) : Bool := (hexVal c).isSome

/-- `[0-9a-fA-F]{4,6}` at the start of a text: what it matches and the rest. -/
def hexRun (s : List Char) : Option (List Char × List Char) :=
  if 4 ≤ ((s.takeWhile isHex).take 6).length then
    some ((s.takeWhile isHex).take 6, s.drop ((s.takeWhile isHex).take 6).length)
  else none

/-- `U\+([0-9a-fA-F]{4,6})` at the start of a text: `int(group(1), 16)` and the rest. -/
def cpPrefix : List Char → Option (Nat × List Char)
  | 'U' :: '+' :: s =>
    match hexRun s with
    | none => none
    | some (d, r) =>
      match parseHex d with
      | none => none
      | some x => some (x, r)
  | _ => none

/-- A call of the LGR whose `LGRException`s are logged and forgotten. -/
def quiet (res : LGR × Except Err Unit) : LGR × Except Err Unit :=
  match res with
  | (g, .ok ()) => (g, .ok ())
  | (g, .error e) => if isLgrException e then (g, .ok ()) else (g, .error e)

/-! ### One code point or sequence per line -/

/-- `finditer` of `U\+([0-9a-fA-F]{4,6})`; the first argument is at least the length of the text. -/
def scanCps : Nat → List Char → List Nat
  | 0, _ => []
  | _ + 1, [] => []
  | n + 1, c :: s =>
    match cpPrefix (c :: s) with
    | some (x, r) => x :: scanCps n r
    | none => scanCps n s

/-- The body of the loop of `LineParser._parse_doc`, `lgr/parser/line_parser.py` 36-60. -/
def docLine (g : LGR) (line : List Char) : LGR × Except Err Unit :=
  let l := strip line
  if l = [] then (g, .ok ())
  else if l.head? = some '#' then (g, .ok ())
  else quiet (g.addCp none (.seq (scanCps l.length l)) {})

/-- `LineParser.parse_document`. -/
def parseLines (allowInvalid : Bool) (lines : List (List Char)) : LGR × Except Err Unit :=
  forEach docLine { raiseInvalid := !allowInvalid } lines

/-! ### RFC 4290 -/

/-- `parse_char`, `lgr/parser/rfc4290_parser.py` 88-108; `none` is `ValueError`. -/
def parseChar4290 (s : List Char) : Option Seq :=
  (splitOn '-' s).mapM (fun p => (cpPrefix p).map Prod.fst)

/-- A line of a table: what the base and the variants parse to. -/
structure Row4290 where
  base : Option Seq
  vars : List (Option Seq)
  deriving DecidableEq, Repr

/-- `lgr/parser/rfc4290_parser.py` 45-58, 71-75. -/
def row4290 (line : List Char) : Option Row4290 :=
  let l := strip line
  if l = [] then none
  else if l.head? = some '#' then none
  else if (cpPrefix l).isNone then none
  else
    let cv := splitOn '|' ((splitOn '#' l).headD [])
    some ⟨parseChar4290 (cv.headD []),
      match cv with
      | _ :: v :: _ => (splitOn ':' v).map parseChar4290
      | _ => []⟩

/-- One variant, `lgr/parser/rfc4290_parser.py` 75-86. `cps` is the variable `codepoints`, `none` while it
is not assigned. -/
def var4290 (force : Bool) (cps : Option Seq) (g : LGR) (v : Option Seq) : LGR × Except Err Unit :=
  match v with
  | none => (g, .ok ())
  | some v =>
    match cps with
    | none => (g, .error .nameError)
    | some s => quiet (g.addVariant none (.seq s) (.seq v) none { force := force })

/-- The body of the loop of `RFC4290Parser._parse_doc`, `lgr/parser/rfc4290_parser.py` 42-86; the state is
the LGR and the variable `codepoints`. -/
def doc4290 (force : Bool) (st : LGR × Option Seq) (line : List Char) :
    (LGR × Option Seq) × Except Err Unit :=
  match row4290 line with
  | none => (st, .ok ())
  | some r =>
    let st' := match r.base with
      | none => st
      | some s => ((quiet (st.1.addCp none (.seq s) { force := force })).1, some s)
    match forEach (var4290 force st'.2) st'.1 r.vars with
    | (g, res) => ((g, st'.2), res)

/-- `RFC4290Parser.parse_document`. -/
def parse4290 (force allowInvalid : Bool) (lines : List (List Char)) :
    (LGR × Option Seq) × Except Err Unit :=
  forEach (doc4290 force) ({ raiseInvalid := !allowInvalid }, none) lines

/-! ### RFC 3743 -/

/-- ` ?` at the start of a text: what it matches and the rest. -/
def optSpace : List Char → List Char × List Char
  | ' ' :: r => ([' '], r)
  | r => ([], r)

/-- `(?:U\+)?` at the start of a text: what it matches and the rest. -/
def optU : List Char → List Char × List Char
  | 'U' :: '+' :: t => (['U', '+'], t)
  | t => ([], t)

/-- `(?:U\+)?([0-9a-fA-F]{4,6}) ?` at the start of a text. -/
def seqPart (s : List Char) : Option (List Char × List Char) :=
  match hexRun (optU s).2 with
  | none => none
  | some (d, r) => some ((optU s).1 ++ d ++ (optSpace r).1, (optSpace r).2)

/-- The repetition of it, at most as often as the first argument: what it matches and the rest. -/
def seqParts : Nat → List Char → List Char × List Char
  | 0, s => ([], s)
  | n + 1, s =>
    match seqPart s with
    | none => ([], s)
    | some (d, r) => (d ++ (seqParts n r).1, (seqParts n r).2)

/-- `(,\d)*\)` at the start of a text: the digits and the rest. `digit` is `\d`. -/
def refTail (digit : Char → Bool) : List Char → Option (List Char × List Char)
  | ')' :: s => some ([], s)
  | ',' :: c :: s =>
    if digit c then
      match refTail digit s with
      | none => none
      | some (l, r) => some (c :: l, r)
    else none
  | _ => none

/-- `\((\d(,\d)*)\)` at the start of a text: the list of references and the rest. -/
def refGroup (digit : Char → Bool) : List Char → Option (List Char × List Char)
  | '(' :: c :: s =>
    if digit c then
      match refTail digit s with
      | none => none
      | some (l, r) => some (c :: l, r)
    else none
  | _ => none

/-- `UNICODE_CODEPOINT_RE` at the start of a text, `lgr/parser/rfc3743_parser.py` 22: the group
`sequence`, the references, the rest. -/
def match3743 (digit : Char → Bool) (s : List Char) : Option (List Char × List Char × List Char) :=
  match seqPart s with
  | none => none
  | some _ =>
    let p := seqParts s.length s
    match refGroup digit p.2 with
    | some (l, r) => some (p.1, l, r)
    | none => some (p.1, [], p.2)

/-- `cp.replace('U+', '')`. -/
def dropUPlus : List Char → List Char
  | 'U' :: '+' :: s => dropUPlus s
  | c :: s => c :: dropUPlus s
  | [] => []

/-- `parse_char`, `lgr/parser/rfc3743_parser.py` 145-180; `none` is `ValueError`. The first argument is at
least the length of the text. -/
def parseChar3743 (digit : Char → Bool) : Nat → List Char → Option (List (Seq × List String))
  | 0, _ => some []
  | _ + 1, [] => some []
  | n + 1, c :: s =>
    match match3743 digit (c :: s) with
    | none => parseChar3743 digit n s
    | some (q, refs, r) =>
      match (splitOn ' ' q).mapM (fun p => parseHex (dropUPlus p)) with
      | none => none
      | some cps =>
        match parseChar3743 digit n r with
        | none => none
        | some l => some ((cps, refs.map (fun c => String.ofList [c])) :: l)

/-- A line with a code point: what the base parses to, and the texts of the preferred and of the other
variants. -/
structure Row3743 where
  base : Option (Seq × List String)
  preferred : Option (List Char)
  others : Option (List Char)

/-- The kinds of lines. `refLine` and `verLine` are `REFERENCE_RE.match` (value, identifier, comment) and
`VERSION_RE.match`. -/
inductive Line3743 where
  | skip
  | ref (value : String) (refId : String) (comment : Option String)
  | row (r : Row3743)

/-- What the parser knows of regular expressions not modelled. -/
structure Rex where
  digit : Char → Bool
  refLine : List Char → Option (String × String × Option String)
  verLine : List Char → Bool

/-- The text of a column of variants, `lgr/parser/rfc3743_parser.py` 108-110, 121-123. -/
def column (cv : List (List Char)) (i : Nat) : Option (List Char) :=
  match cv[i]? with
  | none => none
  | some t =>
    let t := strip t
    if t ≠ [] ∧ t.head? ≠ some '#' then some t else none

/-- `lgr/parser/rfc3743_parser.py` 48-110, 121-123. `line.split('#', 1)[0]` is the same as
`line.split('#')[0]`. -/
def line3743 (x : Rex) (line : List Char) : Line3743 :=
  let l := strip line
  if l = [] then .skip
  else if l.head? = some '#' then .skip
  else
    match x.refLine l with
    | some (v, i, k) => .ref v i k
    | none =>
      if x.verLine l then .skip
      else if (match3743 x.digit l).isNone then .skip
      else
        let cv := splitOn ';' (strip ((splitOn '#' l).headD []))
        let char := cv.headD []
        .row ⟨match parseChar3743 x.digit char.length char with
          | some [p] => some p
          | _ => none, column cv 1, column cv 2⟩

/-- One variant, `lgr/parser/rfc3743_parser.py` 132-142. -/
def var3743 (force : Bool) (s : Seq) (type : Option String) (g : LGR) (v : Seq × List String) :
    LGR × Except Err Unit :=
  quiet (g.addVariant none (.seq s) (.seq v.1) type { ref := v.2, force := force })

/-- `insert_variant`, `lgr/parser/rfc3743_parser.py` 125-142, called with a column. -/
def insert3743 (x : Rex) (force : Bool) (type : Option String) (cps : Option Seq) (g : LGR)
    (col : Option (List Char)) : LGR × Except Err Unit :=
  match col with
  | none => (g, .ok ())
  | some t =>
    match cps with
    | none => (g, .error .nameError)
    | some s =>
      match parseChar3743 x.digit t.length t with
      | none => (g, .ok ())
      | some vs => forEach (var3743 force s type) g vs

/-- The body of the loop of `RFC3743Parser._parse_doc`, `lgr/parser/rfc3743_parser.py` 50-123; the state is
the LGR and the variable `codepoints`. `valid` is the test of identifiers of references. -/
def doc3743 (x : Rex) (valid : String → Bool) (force : Bool) (st : LGR × Option Seq) (line : List Char) :
    (LGR × Option Seq) × Except Err Unit :=
  match line3743 x line with
  | .skip => (st, .ok ())
  | .ref v i k => (((st.1.addReference valid v k (some i)).1, st.2), .ok ())
  | .row r =>
    let st' := match r.base with
      | none => st
      | some (s, refs) => ((quiet (st.1.addCp none (.seq s) { ref := refs, force := force })).1, some s)
    match insert3743 x force (some "activated") st'.2 st'.1 r.preferred with
    | (g, .error e) => ((g, st'.2), .error e)
    | (g, .ok ()) =>
      match insert3743 x force none st'.2 g r.others with
      | (g, res) => ((g, st'.2), res)

/-- `RFC3743Parser.parse_document`. -/
def parse3743 (x : Rex) (valid : String → Bool) (force allowInvalid : Bool) (lines : List (List Char)) :
    (LGR × Option Seq) × Except Err Unit :=
  forEach (doc3743 x valid force) ({ raiseInvalid := !allowInvalid }, none) lines

/-! ### Choice of the parser -/

/-- The parsers to choose from. -/
inductive Kind where
  | xml | rfc3743 | rfc4290
  deriving DecidableEq, Repr

/-- The loop of `_check_rfc_format`, `lgr/parser/heuristic_parser.py` 74-98; `seen` is `match`. -/
def checkFormat (digit : Char → Bool) : Bool → List (List Char) → Option Kind
  | seen, [] => if seen then some .rfc4290 else none
  | seen, line :: ls =>
    let l := strip ((splitOn '#' line).headD [])
    if (match3743 digit l).isSome ∧ (cpPrefix l).isNone then some .rfc3743
    else if (cpPrefix l).isSome then
      if ';' ∈ l then some .rfc3743
      else if '|' ∈ l then some .rfc4290
      else checkFormat digit true ls
    else checkFormat digit seen ls

/-- `_find_parser`, `lgr/parser/heuristic_parser.py` 41-62; `isLgr` is `_is_lgr` of the first line. -/
def findParser (digit : Char → Bool) (isLgr : Bool) (lines : List (List Char)) : Kind :=
  if isLgr then .xml
  else (checkFormat digit false lines).getD .xml

end Lgr.Tables
