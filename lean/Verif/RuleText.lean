import Verif.Rule
import Verif.Text
import Verif.Collapse

/-!
# The text of a rule

`str(rule)`, by which the review of tables compares rules (`lgr/tools/idn_review/whole_label_evaluation_rules.py`
280-295): `lgr/rule.py` 239-243, the methods `__str__` of `lgr/matcher.py` and `lgr/classes.py`, and
`format_cp_collapsed`, `lgr/utils.py` 73-109. Simplified: counts are numbers (`Count`), so that the text of a count is
written without leading zeros.
-/

namespace Lgr.RuleText
open Lgr Text

/-- `U+XXXX`. -/
def cpText (n : Nat) : List Char := 'U' :: '+' :: cpToStr n

/-- One range, `lgr/utils.py` 100-107. -/
def pieceText (p : Nat × Nat) : List (List Char) :=
  if p.1 = p.2 then [cpText p.1]
  else if p.2 = p.1 + 1 then [cpText p.1, cpText p.2]
  else [cpText p.1 ++ '-' :: cpText p.2]

/-- `format_cp_collapsed`, `lgr/utils.py` 73-109; the first code point of nothing is an `IndexError`. -/
def formatCollapsed (cps : List Nat) : Except Err (List Char) :=
  match collapseCodepoints cps with
  | .error e => .error e
  | .ok rs => .ok (join ' ' (rs.flatMap pieceText))

/-- `Class.__str__`, `lgr/classes.py` 206-217. -/
def baseText (b : BaseCls) : Except Err (List Char) :=
  match b.byRef with
  | some n => .ok ("[:class-ref-".toList ++ n.toList ++ [':', ']'])
  | none =>
    match b.fromTag with
    | some t => .ok ("[:class tag=".toList ++ t.toList ++ [':', ']'])
    | none =>
      match b.property with
      | some p =>
        match splitOn ':' p.toList with
        | [n, v] => .ok ("[:class property:".toList ++ n ++ '=' :: v ++ [':', ']'])
        | _ => .error .valueError
      | none => formatCollapsed b.codepoints.dedup

/-- `symbol`, `lgr/classes.py` 304, 339, 378, 416. -/
def symbol : Comb → Char
  | .union => '∪'
  | .intersection => '∩'
  | .difference => '\\'
  | _ => '△'

mutual

/-- `CombinatorClass.__str__`, `ComplementClass.__str__`, `lgr/classes.py` 249-253, 290-291. -/
def clsText : Cls → Except Err (List Char)
  | .base b => baseText b
  | .comb _ .complement cs =>
    match clsTexts cs with
    | .error e => .error e
    | .ok [] => .error .indexError
    | .ok (t :: _) => .ok ('^' :: '{' :: t ++ ['}'])
  | .comb _ op cs =>
    match clsTexts cs with
    | .error e => .error e
    | .ok [] => .ok ['Ø']
    | .ok (t :: ts) => .ok ('(' :: join (symbol op) (t :: ts) ++ [')'])

/-- Of each. Simplified: of the classes within a complement, only the first is looked at by the code; there is
never another. -/
def clsTexts : List Cls → Except Err (List (List Char))
  | [] => .ok []
  | c :: cs =>
    match clsText c with
    | .error e => .error e
    | .ok t =>
      match clsTexts cs with
      | .error e => .error e
      | .ok ts => .ok (t :: ts)

end

/-- `CountMatcher.get_pattern(self)`, `lgr/matcher.py` 250-272. -/
def countText : Count → List Char
  | .none => []
  | .exact n => '{' :: decStr n ++ ['}']
  | .range lo hi => '{' :: decStr lo ++ ',' :: decStr hi ++ ['}']
  | .atLeast n => '{' :: decStr n ++ [',', '}']

/-- `'({}){}'.format(text, count)` if there is a count, `lgr/matcher.py` 371-375, 413-417, 468-472. -/
def counted (t : List Char) (c : Count) : List Char :=
  if (countText c).length > 1 then '(' :: t ++ ')' :: countText c else t

mutual

/-- `__str__` of rules and matchers, `lgr/rule.py` 239-243, `lgr/matcher.py` 116-117, 137-138, 163-164, 201-202,
230-231, 303-305, 327-329, 370-375, 412-417, 467-472. -/
def text : Matcher → Except Err (List Char)
  | .start => .ok "(start)".toList
  | .fin => .ok "(end)".toList
  | .anchor => .ok ['⚓']
  | .any c => .ok ("(any)".toList ++ countText c)
  | .char cps c =>
    match formatCollapsed cps with
    | .error e => .error e
    | .ok t => .ok (counted t c)
  | .ahead ms =>
    match texts ms with
    | .error e => .error e
    | .ok ts => .ok ('→' :: '(' :: ts.flatten ++ [')'])
  | .behind ms =>
    match texts ms with
    | .error e => .error e
    | .ok ts => .ok ('(' :: ts.flatten ++ [')', '←'])
  | .choice ms c =>
    match texts ms with
    | .error e => .error e
    | .ok ts => .ok ('(' :: join '|' ts ++ ')' :: countText c)
  | .cls k c =>
    match clsText k with
    | .error e => .error e
    | .ok t => .ok (counted t c)
  | .rule _ _ byRef ms c =>
    match byRef with
    | some n => .ok (counted ("(:rule-ref-".toList ++ n.toList ++ [':', ')']) c)
    | none =>
      match texts ms with
      | .error e => .error e
      | .ok ts => .ok (counted (join ' ' ts) c)

/-- Of each. -/
def texts : List Matcher → Except Err (List (List Char))
  | [] => .ok []
  | m :: ms =>
    match text m with
    | .error e => .error e
    | .ok t =>
      match texts ms with
      | .error e => .error e
      | .ok ts => .ok (t :: ts)

end

end Lgr.RuleText
