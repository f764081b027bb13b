import Verif.Repertoire

/-!
# Label processing: context rules, preliminary eligibility, partitions, index labels

`lgr/core.py` 1284-1427, 1514-1590, 1915-1950.
-/

namespace Lgr

/-- Everything label processing takes from outside the repertoire: evaluation of a named
context rule on a label, for the code points `anchor` placed at `index`
(`rules_lookup[name].matches(label, ..., anchor, index)`). Undefined names (`KeyError`) and
invalid rules (`RuleError`) are errors. -/
structure Env where
  ruleMatches : String → Seq → Seq → Nat → Except Err Bool

namespace Env
variable (env : Env)

/-- `lgr/core.py` 1915-1950: `_test_context_rules`; `when` has precedence over `not-when`. -/
def testContext (whenR notWhenR : Option String) (anchor label : Seq) (index : Nat) :
    Except Err Bool :=
  match whenR with
  | some w => env.ruleMatches w label anchor index
  | none =>
    match notWhenR with
    | some n =>
      match env.ruleMatches n label anchor index with
      | .ok b => .ok (!b)
      | .error e => .error e
    | none => .ok true

/-- Context test of a character in a label. -/
def testChar (c : CharObj) (label : Seq) (index : Nat) : Except Err Bool :=
  env.testContext c.attrs.whenR c.attrs.notWhenR c.cp label index

/-- Context test of a variant in a label. -/
def testVar (v : Variant) (label : Seq) (index : Nat) : Except Err Bool :=
  env.testContext v.whenR v.notWhenR v.cp label index

/-- The `for char in char_list` loop of `lgr/core.py` 1558-1574: the first character which (for
sequences) is a prefix of the rest of the label and satisfies its context, and the rules of the
matching characters rejected before it. `char.when or char.not_when` is the rule that failed
(simplified: an empty rule name is not treated as false). -/
def pickChar (label : Seq) (i : Nat) (rest : Seq) :
    List CharObj → Except Err (Option CharObj × List String)
  | [] => .ok (none, [])
  | c :: cs =>
    if c.isSequence && !c.isPrefixOf rest then pickChar label i rest cs
    else
      match env.testChar c label i with
      | .error e => .error e
      | .ok true => .ok (some c, [])
      | .ok false =>
        match pickChar label i rest cs with
        | .error e => .error e
        | .ok (p, pending) => .ok (p, (c.attrs.whenR.or c.attrs.notWhenR).toList ++ pending)

/-- Result of the preliminary eligibility test. -/
structure Prelim where
  ok : Bool := true
  parts : Seq := []
  invalid : List (Nat × Option (List String)) := []
  chars : List CharObj := []
  deriving DecidableEq, Repr, Inhabited

/-- The `while` loop of `lgr/core.py` 1546-1585 from position `i` (`rest` is `label[i:]`).
`fuel` is at least the length of `rest` (each turn consumes at least one code point). -/
def prelimLoop (r : Repertoire) (label : Seq) : Nat → Nat → Seq → Except Err Prelim
  | _, _, [] => .ok {}
  | 0, _, _ :: _ => .ok {}
  | fuel + 1, i, cp :: rest =>
    match r.charsFromPrefix cp with
    | .error _ =>
      match prelimLoop r label fuel (i + 1) rest with
      | .error e => .error e
      | .ok p => .ok { p with ok := false, invalid := (cp, none) :: p.invalid }
    | .ok cs =>
      match env.pickChar label i (cp :: rest) cs with
      | .error e => .error e
      | .ok (some c, _) =>
        match prelimLoop r label fuel (i + c.len) ((cp :: rest).drop c.len) with
        | .error e => .error e
        | .ok p => .ok { p with parts := c.cp ++ p.parts, chars := c :: p.chars }
      | .ok (none, pending) =>
        match prelimLoop r label fuel (i + 1) rest with
        | .error e => .error e
        | .ok p =>
          .ok { p with ok := false
                       invalid := (cp, if pending = [] then none else some pending) :: p.invalid }

/-- `lgr/core.py` 1514-1590: `_test_preliminary_eligibility`. -/
def prelim (r : Repertoire) (label : Seq) : Except Err Prelim :=
  env.prelimLoop r label label.length 0 label

/-- `lgr/core.py` 1387-1427: `_generate_label_partitions(label, prefix)`. `fuel` is at least the
length of `label`. The recursion on the rest of the label is passed as `rec`. -/
def partitionsLoop (label pfx : Seq) (rec : Seq → Seq → Except Err (List (List CharObj))) :
    List CharObj → Except Err (List (List CharObj))
  | [] => .ok []
  | c :: cs =>
    if !c.isPrefixOf label then partitionsLoop label pfx rec cs
    else
      match env.testChar c (pfx ++ label) pfx.length with
      | .error e => .error e
      | .ok false => partitionsLoop label pfx rec cs
      | .ok true =>
        if label.length > c.len then
          match rec (label.drop c.len) (pfx ++ c.cp) with
          | .error e => .error e
          | .ok ps =>
            match partitionsLoop label pfx rec cs with
            | .error e => .error e
            | .ok qs => .ok (ps.map (fun p => c :: p) ++ qs)
        else
          match partitionsLoop label pfx rec cs with
          | .error e => .error e
          | .ok qs => .ok ([c] :: qs)

def partitionsAux (r : Repertoire) : Nat → Seq → Seq → Except Err (List (List CharObj))
  | _, [], _ => .error .indexError
  | 0, _ :: _, _ => .ok []
  | fuel + 1, cp :: rest, pfx =>
    match r.charsFromPrefix cp with
    | .error _ => .ok []
    | .ok cs => env.partitionsLoop (cp :: rest) pfx (fun l p => partitionsAux r fuel l p) cs

/-- `lgr/core.py` 1387-1427 as called on a label. -/
def partitions (r : Repertoire) (label : Seq) : Except Err (List (List CharObj)) :=
  env.partitionsAux r label.length label []

/-- Python `min` of a list of sequences (lexicographic order); `ValueError` when empty. -/
def pyMin : List Seq → Except Err Seq
  | [] => .error .valueError
  | x :: l => .ok (l.foldl min x)

/-- The variants of a character valid in place, `lgr/core.py` 1366-1376. -/
def validVarCps (pre suf : Seq) (idx : Nat) : List Variant → Except Err (List Seq)
  | [] => .ok []
  | v :: vs =>
    match env.testVar v (pre ++ v.cp ++ suf) idx with
    | .error e => .error e
    | .ok b =>
      match validVarCps pre suf idx vs with
      | .error e => .error e
      | .ok l => .ok (if b then v.cp :: l else l)

/-- `lgr/core.py` 1349-1384: `_generate_index_label_on_partition`; `pre` is the prefix already
handled, its length is `idx`. -/
def indexOnPartition : Seq → List CharObj → Except Err Seq
  | _, [] => .ok []
  | pre, c :: cs =>
    match env.validVarCps pre (cs.flatMap CharObj.cp) pre.length c.getVariants with
    | .error e => .error e
    | .ok ids =>
      match pyMin (c.cp :: ids) with
      | .error e => .error e
      | .ok m =>
        match indexOnPartition (pre ++ c.cp) cs with
        | .error e => .error e
        | .ok t => .ok (m ++ t)

/-- A Python loop appending the result of a call for each element. -/
def mapE {α β : Type} (f : α → Except Err β) : List α → Except Err (List β)
  | [] => .ok []
  | a :: l =>
    match f a with
    | .error e => .error e
    | .ok b =>
      match mapE f l with
      | .error e => .error e
      | .ok bs => .ok (b :: bs)

/-- `lgr/core.py` 1284-1347 with `max_recursion=0`. -/
def indexLabel0 (r : Repertoire) (label : Seq) : Except Err Seq :=
  if label = [] then .ok []
  else
    match env.prelim r label with
    | .error e => .error e
    | .ok p =>
      if p.ok = false then
        match p.invalid with
        | [] => .error .indexError
        | (cp, _) :: _ => .error (.notInLGR [cp])
      else
        match env.partitions r label with
        | .error e => .error e
        | .ok ps =>
          match mapE (env.indexOnPartition []) ps with
          | .error e => .error e
          | .ok ids => pyMin ids

/-- `lgr/core.py` 1284-1347: `generate_index_label(label, max_recursion)`. An exception in the
recursive call is swallowed and keeps the index found so far. (`index_label != label` compares a
tuple with the label as passed; when the label is a list the test is always true and the extra
turn recomputes the same index, so the value is the same.) -/
def indexLabel (r : Repertoire) (label : Seq) : Nat → Except Err Seq
  | 0 => env.indexLabel0 r label
  | n + 1 =>
    match env.indexLabel0 r label with
    | .error e => .error e
    | .ok idx =>
      if label ≠ [] ∧ idx ≠ label then
        match indexLabel r idx n with
        | .ok idx' => .ok idx'
        | .error _ => .ok idx
      else .ok idx

end Env
end Lgr
