import Verif.Classes
import Mathlib.Data.Nat.Find

/-!
# Rules

`lgr/rule.py`, `lgr/matcher.py`. The regular expression built by `get_pattern` is an expression tree
`Re` instead of a string, its meaning (`Re.Match`) is that of the ICU documentation, restricted to what
`get_pattern` can produce: literals, sets, `.`, `^`, `$`, groups, alternatives, bounded and unbounded
repetition, look-ahead and look-behind. Which match is found first does not matter, only where it
starts. Counts are well-formed (`n`, `n+`, `m:n`). Positions are counted in code points.
-/

namespace Lgr

/-- Regular expressions. `empty` is the empty string, `group` is `(?:…)` or `(…)`, `anchor` is the text
`%(anchor)s`. -/
inductive Re where
  | empty
  | lit (cs : Seq)
  | set (s : CpSet)
  | any
  | bol
  | eol
  | anchor
  | ahead (r : Re)
  | behind (r : Re)
  | group (r : Re)
  | alt (r s : Re)
  | seq (r s : Re)
  | rep (r : Re) (lo : Nat) (hi : Option Nat)

namespace Re

/-- `n` steps of a relation on positions. -/
def Iter (R : Nat → Nat → Prop) : Nat → Nat → Nat → Prop
  | 0, i, j => i = j
  | n + 1, i, j => ∃ k, R i k ∧ Iter R n k j

/-- Line terminators of ICU. -/
def newline (c : Nat) : Bool := decide (c ∈ [0xA, 0xB, 0xC, 0xD, 0x85, 0x2028, 0x2029])

/-- The text `%anchors`: what the pattern `%(anchor)s` matches as a regular expression. -/
def anchorText : Seq := [0x25, 0x61, 0x6E, 0x63, 0x68, 0x6F, 0x72, 0x73]

/-- The expression matches the label from position `i` to position `j`. -/
def Match (label : Seq) : Re → Nat → Nat → Prop
  | empty, i, j => i = j
  | lit cs, i, j => cs <+: label.drop i ∧ j = i + cs.length
  | set s, i, j => ∃ c, label[i]? = some c ∧ s c = true ∧ j = i + 1
  | any, i, j => ∃ c, label[i]? = some c ∧ newline c = false ∧ j = i + 1
  | bol, i, j => i = 0 ∧ j = i
  | eol, i, j => (label.drop i = [] ∨ (∃ c, label.drop i = [c] ∧ newline c = true) ∨
      label.drop i = [0xD, 0xA]) ∧ j = i
  | anchor, i, j => anchorText <+: label.drop i ∧ j = i + anchorText.length
  | ahead r, i, j => (∃ k, Match label r i k) ∧ j = i
  | behind r, i, j => (∃ k, Match label r k i) ∧ j = i
  | group r, i, j => Match label r i j
  | alt r s, i, j => Match label r i j ∨ Match label s i j
  | seq r s, i, j => ∃ k, Match label r i k ∧ Match label s k j
  | rep r lo hi, i, j => ∃ n, lo ≤ n ∧ (∀ h, hi = some h → n ≤ h) ∧ Iter (Match label r) n i j

/-- The text of the expression is the empty string. -/
def blank : Re → Bool
  | empty => true
  | lit cs => decide (cs = [])
  | seq r s => r.blank && s.blank
  | _ => false

/-- `'%(anchor)s' in pattern`. -/
def hasAnchor : Re → Bool
  | anchor => true
  | ahead r => r.hasAnchor
  | behind r => r.hasAnchor
  | group r => r.hasAnchor
  | alt r s => r.hasAnchor || s.hasAnchor
  | seq r s => r.hasAnchor || s.hasAnchor
  | rep r _ _ => r.hasAnchor
  | _ => false

/-- `pattern % {'anchor': …}`. Simplified: the text of a set is taken to have no `%`. -/
def subst (a : Seq) : Re → Re
  | anchor => lit a
  | ahead r => ahead (r.subst a)
  | behind r => behind (r.subst a)
  | group r => group (r.subst a)
  | alt r s => alt (r.subst a) (s.subst a)
  | seq r s => seq (r.subst a) (s.subst a)
  | rep r lo hi => rep (r.subst a) lo hi
  | r => r

/-- `compile_regex` accepts the expression: bounds of repetitions are in order. -/
def compiles : Re → Bool
  | ahead r => r.compiles
  | behind r => r.compiles
  | group r => r.compiles
  | alt r s => r.compiles && s.compiles
  | seq r s => r.compiles && s.compiles
  | rep r lo hi => r.compiles && (match hi with | none => true | some h => decide (lo ≤ h))
  | _ => true

/-- `''.join(l)`. -/
def seqs : List Re → Re
  | [] => empty
  | r :: l => seq r (seqs l)

/-- `'(?:' + ')|(?:'.join(l) + ')'`. -/
def alts : List Re → Re
  | [] => group empty
  | [r] => group r
  | r :: s :: l => alt (group r) (alts (s :: l))

end Re

/-- The count attribute, `lgr/matcher.py` 242-272. -/
inductive Count where
  | none
  | exact (n : Nat)
  | range (lo hi : Nat)
  | atLeast (n : Nat)
  deriving DecidableEq, Repr

/-- `PROTOCOL_LABEL_MAX_LENGTH`, `lgr/core.py` 76. -/
def labelMax : Nat := 63

/-- `CountMatcher.get_pattern`, `lgr/matcher.py` 250-272. -/
def Count.bounds (behind : Bool) : Count → Option (Nat × Option Nat)
  | .none => Option.none
  | .exact n => some (n, some n)
  | .range lo hi => some (lo, some hi)
  | .atLeast n => some (n, if behind then some labelMax else Option.none)

/-- The matchers, `lgr/matcher.py`. A `Rule` (`lgr/rule.py` 20-46) is
`rule id name byRef children none`, a `RuleMatcher` of it the same with its count; `id` is the identity of
the `Rule`. -/
inductive Matcher where
  | start
  | fin
  | anchor
  | any (c : Count)
  | char (cps : Seq) (c : Count)
  | ahead (ms : List Matcher)
  | behind (ms : List Matcher)
  | choice (ms : List Matcher) (c : Count)
  | cls (k : Cls) (c : Count)
  | rule (id : Nat) (name : Option String) (byRef : Option String) (ms : List Matcher) (c : Count)

/-- A pattern with its count, `lgr/matcher.py` 303-306, 350-353, 389-392, 447-450. -/
def withCount (behind : Bool) (c : Count) (r : Re) : Re :=
  match c.bounds behind with
  | Option.none => r
  | some (lo, hi) => .rep (.group r) lo hi

/-- The lookups. -/
structure Lookups where
  rules : List (String × Matcher) := []
  classes : List (String × Cls) := []

namespace Matcher
variable (db : String → Except Err CpSet) (lk : Lookups)

/-- The pattern of a class, `set_to_rvalue` (`lgr/classes.py` 21-42) applied to its set. -/
def classPattern (fuel : Nat) (k : Cls) : Except Err Re :=
  match Cls.getSet db lk.classes fuel k with
  | .error e => .error e
  | .ok s => .ok (if s.isEmpty then .empty else .set s)

/-- `get_pattern` of rules and matchers without the cache: `lgr/rule.py` 81-102, `lgr/matcher.py` 112-114,
134-136, 156-164, 193-199, 221-228, 287-301, 320-323, 351-359, 391-399, 445-453. -/
def pattern : Nat → Bool → Matcher → Except Err Re
  | 0, _, _ => .error .recursionError
  | _ + 1, _, .start => .ok .bol
  | _ + 1, _, .fin => .ok .eol
  | _ + 1, _, .anchor => .ok .anchor
  | _ + 1, beh, .any c => .ok (withCount beh c .any)
  | _ + 1, beh, .char cps c => .ok (withCount beh c (.lit cps))
  | fuel + 1, _, .ahead ms =>
    match ms.mapM (pattern fuel false) with
    | .error e => .error e
    | .ok rs => .ok (.ahead (.seqs rs))
  | fuel + 1, _, .behind ms =>
    match ms.mapM (pattern fuel true) with
    | .error e => .error e
    | .ok rs => .ok (.behind (.seqs rs))
  | fuel + 1, beh, .choice ms c =>
    match ms.mapM (pattern fuel beh) with
    | .error e => .error e
    | .ok rs => .ok (withCount beh c (.group (.alts rs)))
  | fuel + 1, beh, .cls k c =>
    match classPattern db lk fuel k with
    | .error e => .error e
    | .ok r => .ok (withCount beh c r)
  | fuel + 1, beh, .rule _ _ byRef ms c =>
    match byRef with
    | some n =>
      match dget lk.rules n with
      | none => .error (.ruleError n)
      | some m =>
        match pattern fuel beh m with
        | .error e => .error e
        | .ok r => .ok (withCount beh c r)
    | none =>
      match ms.mapM (pattern fuel beh) with
      | .error e => .error e
      | .ok rs => .ok (withCount beh c (.seqs rs))

open Classical in
/-- `regex.search(label, index)`: the first position from `index` on where the expression matches. -/
noncomputable def search (label : Seq) (r : Re) (index : Nat) : Option Nat :=
  if h : ∃ i, index ≤ i ∧ i ≤ label.length ∧ ∃ j, r.Match label i j then some (Nat.find h) else none

/-- `Rule.matches` from the pattern on, `lgr/rule.py` 154-195. -/
noncomputable def matchesPattern (label : Seq) (p : Re) (anc : Option Seq) (index : Nat) : Except Err Bool :=
  if p.blank then .ok false
  else
    let param := p.hasAnchor
    let index := if anc.isSome ∧ ¬param then 0 else index
    let anc := if param then anc else none
    let p' := match anc with
      | some a => p.subst a
      | none => p
    if p'.compiles = false then .error (.ruleError "compile")
    else
      match search label p' index with
      | none => .ok false
      | some i => .ok (!(anc.isSome && decide (i > index)))

/-- `Rule.matches`, `lgr/rule.py` 121-195, without the cache. -/
noncomputable def ruleMatches (fuel : Nat) (m : Matcher) (label : Seq) (anc : Option Seq) (index : Nat) :
    Except Err Bool :=
  match pattern db lk fuel false m with
  | .error e => .error e
  | .ok p => matchesPattern label p anc index

mutual

/-- `validate` of rules and matchers, `lgr/rule.py` 197-231, `lgr/matcher.py` 45-54, 81-85, 278-279, 401-404,
455-458. `top` is `len(parents) == 0`. -/
def validate (top : Bool) : Matcher → Except Err Unit
  | .ahead ms => validateAll ms
  | .behind ms => validateAll ms
  | .choice ms _ => validateAll ms
  | .cls k _ => k.validate lk.classes false
  | .rule _ name byRef ms _ =>
    if byRef.isSome ∧ (byRef.bind (dget lk.rules)).isNone then .error (.format "INVALID_BY_REF")
    else if top = name.isNone then .error (.format "INVALID_TOP_LEVEL_NAME")
    else validateAll ms
  | _ => .ok ()

/-- The loops over the children. -/
def validateAll : List Matcher → Except Err Unit
  | [] => .ok ()
  | m :: ms =>
    match validate false m with
    | .error e => .error e
    | .ok () => validateAll ms

end

end Matcher

/-! ## The cache of patterns -/

/-- `_pattern_cache` of all rules, `lgr/rule.py` 42, 77-79, 101: the key is the identity of the rule and
`is_look_behind`. The rest of the key is the same in all calls: the lookups and the Unicode database are
those of one LGR. -/
abbrev Cache := List ((Nat × Bool) × Re)

namespace Matcher
variable (db : String → Except Err CpSet) (lk : Lookups)

/-- A list comprehension over a function with an effect on the cache. -/
def mapC (f : Matcher → Cache → Cache × Except Err Re) : List Matcher → Cache → Cache × Except Err (List Re)
  | [], κ => (κ, .ok [])
  | m :: ms, κ =>
    match f m κ with
    | (κ, .error e) => (κ, .error e)
    | (κ, .ok r) =>
      match mapC f ms κ with
      | (κ, .error e) => (κ, .error e)
      | (κ, .ok rs) => (κ, .ok (r :: rs))

/-- `get_pattern` of rules and matchers as it is, with the cache. -/
def patternC : Nat → Bool → Matcher → Cache → Cache × Except Err Re
  | 0, _, _, κ => (κ, .error .recursionError)
  | _ + 1, _, .start, κ => (κ, .ok .bol)
  | _ + 1, _, .fin, κ => (κ, .ok .eol)
  | _ + 1, _, .anchor, κ => (κ, .ok .anchor)
  | _ + 1, beh, .any c, κ => (κ, .ok (withCount beh c .any))
  | _ + 1, beh, .char cps c, κ => (κ, .ok (withCount beh c (.lit cps)))
  | fuel + 1, _, .ahead ms, κ =>
    match mapC (patternC fuel false) ms κ with
    | (κ, .error e) => (κ, .error e)
    | (κ, .ok rs) => (κ, .ok (.ahead (.seqs rs)))
  | fuel + 1, _, .behind ms, κ =>
    match mapC (patternC fuel true) ms κ with
    | (κ, .error e) => (κ, .error e)
    | (κ, .ok rs) => (κ, .ok (.behind (.seqs rs)))
  | fuel + 1, beh, .choice ms c, κ =>
    match mapC (patternC fuel beh) ms κ with
    | (κ, .error e) => (κ, .error e)
    | (κ, .ok rs) => (κ, .ok (withCount beh c (.group (.alts rs))))
  | fuel + 1, beh, .cls k c, κ =>
    match classPattern db lk fuel k with
    | .error e => (κ, .error e)
    | .ok r => (κ, .ok (withCount beh c r))
  | fuel + 1, beh, .rule id _ byRef ms c, κ =>
    match dget κ (id, beh) with
    | some r => (κ, .ok (withCount beh c r))
    | none =>
      match byRef with
      | some n =>
        match dget lk.rules n with
        | none => (κ, .error (.ruleError n))
        | some m =>
          match patternC fuel beh m κ with
          | (κ, .error e) => (κ, .error e)
          | (κ, .ok r) => (κ, .ok (withCount beh c r))
      | none =>
        match mapC (patternC fuel beh) ms κ with
        | (κ, .error e) => (κ, .error e)
        | (κ, .ok rs) => (dset κ (id, beh) (.seqs rs), .ok (withCount beh c (.seqs rs)))

/-- `precalculate_patterns`, `lgr/rule.py` 104-119. The children of a rule are matchers and never rules:
its second loop does nothing. -/
def precalculate (fuel : Nat) (m : Matcher) (κ : Cache) : Cache × Except Err Unit :=
  match patternC db lk fuel true m κ with
  | (κ, .error e) => (κ, .error e)
  | (κ, .ok _) =>
    match patternC db lk fuel false m κ with
    | (κ, .error e) => (κ, .error e)
    | (κ, .ok _) => (κ, .ok ())

/-- `Rule.matches`, `lgr/rule.py` 121-195. -/
noncomputable def ruleMatchesC (fuel : Nat) (m : Matcher) (label : Seq) (anc : Option Seq) (index : Nat)
    (κ : Cache) : Cache × Except Err Bool :=
  match patternC db lk fuel false m κ with
  | (κ, .error e) => (κ, .error e)
  | (κ, .ok p) => (κ, matchesPattern label p anc index)

end Matcher

/-! ## The rules of an LGR -/

/-- The part of an LGR about rules. -/
structure RuleState where
  lk : Lookups := {}
  cache : Cache := []

namespace RuleState

/-- `LGR.add_rule`, `lgr/core.py` 967-988. (A rule without name, which only `force` can add, is put under
`None`, which is never looked up.) -/
def addRule (s : RuleState) (m : Matcher) (force : Bool) : RuleState × Except Err Unit :=
  match m with
  | .rule _ name _ _ _ =>
    match Matcher.validate s.lk true m, force with
    | .error e, false => (s, .error e)
    | _, _ =>
      match name with
      | none => (s, .ok ())
      | some n => ({ s with lk := { s.lk with rules := dset s.lk.rules n m } }, .ok ())
  | _ => (s, .error .attributeError)

/-- The name of a class. -/
def clsName : Cls → Option String
  | .base b => b.name
  | .comb n _ _ => n

/-- `LGR.add_class`, `lgr/core.py` 1002-1019. -/
def addClass (s : RuleState) (k : Cls) (force : Bool) : RuleState × Except Err Unit :=
  match Cls.validate s.lk.classes true k, force with
  | .error e, false => (s, .error e)
  | _, _ =>
    match clsName k with
    | none => (s, .ok ())
    | some n => ({ s with lk := { s.lk with classes := dset s.lk.classes n k } }, .ok ())

/-- `_add_cp_to_tag_classes` for one tag, `lgr/core.py` 2095-2110. -/
def addTag (s : RuleState) (cp : Seq) (tag : String) : RuleState :=
  let k := Cls.tagPrefix ++ tag
  match dget s.lk.classes k with
  | none =>
    { s with lk := { s.lk with classes := dset s.lk.classes k (.base { name := some tag, codepoints := cp }) } }
  | some (.base b) =>
    { s with lk := { s.lk with classes := dset s.lk.classes k (.base { b with codepoints := b.codepoints ++ cp }) } }
  | some _ => s

/-- `_del_cp_from_tag_classes` for one tag, `lgr/core.py` 2112-2125. -/
def delTag (s : RuleState) (cp : Seq) (tag : String) : RuleState :=
  let k := Cls.tagPrefix ++ tag
  match dget s.lk.classes k with
  | some (.base b) =>
    { s with lk := { s.lk with
        classes := dset s.lk.classes k (.base { b with codepoints := b.codepoints.filter (fun c => decide (c ∉ cp)) }) } }
  | _ => s

/-- `_parse_rule` and `add_rule` for an element of `<rules>` once it has been made a rule,
`lgr/parser/xml_parser.py` 343-345, 370-372. `udb` tells if the parser has a Unicode database. Simplified:
the patterns of the anonymous rules inside are calculated with those of the rule. -/
def parseRule (db : String → Except Err CpSet) (fuel : Nat) (udb : Bool) (s : RuleState) (m : Matcher)
    (force : Bool) : RuleState × Except Err Unit :=
  if udb then
    match Matcher.precalculate db s.lk fuel m s.cache with
    | (κ, .error e) => ({ s with cache := κ }, .error e)
    | (κ, .ok ()) => addRule { s with cache := κ } m force
  else addRule s m force

/-- `self.rules_lookup[name].matches(...)`. -/
noncomputable def matches_ (db : String → Except Err CpSet) (fuel : Nat) (s : RuleState) (name : String)
    (label : Seq) (anc : Option Seq) (index : Nat) : RuleState × Except Err Bool :=
  match dget s.lk.rules name with
  | none => (s, .error (.keyError name))
  | some m =>
    match Matcher.ruleMatchesC db s.lk fuel m label anc index s.cache with
    | (κ, r) => ({ s with cache := κ }, r)

end RuleState

end Lgr
