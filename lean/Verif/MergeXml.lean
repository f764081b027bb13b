import Verif.MergeSet
import Verif.RulesXml
import Verif.Review

/-!
# Merging the LGRs of a set: classes, rules, actions and metadata as text

`lgr/tools/merge_set.py` 43-132, 160-314. Classes, rules and actions are handled as the text of their XML
elements, which is changed by regular expressions. Simplified: the script and the name of a rule stand for
themselves in regular expressions and replacements (226, 230, 234-238, 283-286): they are taken to contain none
of the special characters. The order of `rules_lookup` and `classes_lookup` is that of `rules` and `classes`
(names are not defined twice).
-/

namespace Lgr.MergeXml
open Lgr Compare MergeSet RulesXml Metadata

abbrev Txt := List Char

/-! ## Replacing in a text -/

/-- The expression `(?<!nb)key="([^"]+)"` at the head of the text, `prev` being the text before in reverse: what
is put instead and the length of what is matched. `f` gives the new value, or `none` if the expression has a
further condition that the value does not meet. -/
def matchAt (key nb : Txt) (f : Txt → Option Txt) (prev s : Txt) : Option (Txt × Nat) :=
  let k := key ++ ['=', '"']
  if nb ≠ [] ∧ nb.reverse <+: prev then none
  else if k <+: s then
    let rest := s.drop k.length
    let v := rest.takeWhile (· ≠ '"')
    if v = [] ∨ v.length = rest.length then none
    else
      match f v with
      | none => none
      | some v' => some (k ++ v' ++ ['"'], k.length + v.length + 1)
  else none

/-- `re.sub`: from left to right, without overlap; `skip` characters are part of the last match. -/
def subGo (key nb : Txt) (f : Txt → Option Txt) : Txt → Nat → Txt → Txt
  | _, _, [] => []
  | prev, n + 1, c :: s => subGo key nb f (c :: prev) n s
  | prev, 0, c :: s =>
    match matchAt key nb f prev (c :: s) with
    | some (out, n) => out ++ subGo key nb f (c :: prev) (n - 1) s
    | none => c :: subGo key nb f (c :: prev) 0 s

/-- `re.sub` for the values of an attribute. -/
def sub (key : String) (f : Txt → Option Txt) (s : Txt) : Txt := subGo key.toList [] f [] 0 s

/-- `str.replace` for a text that is not empty. -/
def replaceGo (old new : Txt) : Nat → Txt → Txt
  | _, [] => []
  | n + 1, _ :: s => replaceGo old new n s
  | 0, c :: s =>
    if old <+: c :: s then new ++ replaceGo old new (old.length - 1) s else c :: replaceGo old new 0 s

def replace (old new : String) (s : Txt) : Txt := replaceGo old.toList new.toList 0 s

/-- `(?<!by-)ref="([^"]+)"` by the identifiers, `merge_set.py` 209, 266, 311. -/
def subRefs (refs : List String) (s : Txt) : Txt :=
  subGo "ref".toList "by-".toList (fun _ => some (" ".intercalate refs).toList) [] 0 s

/-- `script-\1` -/
def prefixed (script : String) (v : Txt) : Txt := script.toList ++ '-' :: v

/-- `script-\1` when the value has no colon. -/
def prefixedTag (script : String) (v : Txt) : Option Txt := if ':' ∈ v then none else some (prefixed script v)

/-- `merge_set.py` 33, 234: references that do not start like the rule of the MSR. -/
def prefixedRef (script : String) (v : Txt) : Option Txt :=
  if msrRules.any (fun r => decide (r.toList <+: v)) then none else some (prefixed script v)

/-- `merge_set.py` 236: references to the rule of the MSR. -/
def commonRef (v : Txt) : Option Txt :=
  if msrRules.any (fun r => decide (r.toList = v)) then some (prefixed "Common" v) else none

/-- `name="<old>"` by `name="<new>"`. -/
def named (old new : String) (v : Txt) : Option Txt := if v = old.toList then some new.toList else none

/-! ## Actions -/

/-- `merge_set.py` 160-185: `rename_action`. -/
def renameAction (a : Action) (xml : Txt) (script : String) : Action × Txt :=
  let s1 : Action × Txt :=
    match a.matchR with
    | some m => if m ≠ "" then ({ a with matchR := some (ruleName script m) }, replace m (ruleName script m) xml)
                else (a, xml)
    | none => (a, xml)
  match a.notMatchR with
  | some m => if m ≠ "" then ({ s1.1 with notMatchR := some (ruleName script m) },
                replace m (ruleName script m) s1.2) else s1
  | none => s1

/-- `merge_set.py` 188-212: `merge_actions`; what is appended to `merged_lgr.actions` and
`merged_lgr.actions_xml`. -/
def mergeActions (script : String) (map : List (String × String)) : List (Action × Txt) → List (Action × Txt)
  | [] => []
  | (a, xml) :: l =>
    if Review.hasAction defaultActions a then mergeActions script map l
    else
      let r := renameAction a xml script
      let new := a.refs.map (mapRef map)
      ({ r.1 with refs := new }, subRefs new r.2) :: mergeActions script map l

/-! ## Rules and classes -/

/-- A rule or class of an LGR: name, references and text. -/
structure Item where
  name : String
  refs : List String := []
  xml : Txt
  deriving DecidableEq, Repr

/-- `merge_set.py` 215-240: `rename_rule`. -/
def renameRule (name : String) (xml : Txt) (script : String) : String × Txt :=
  let new := ruleName script name
  let x := if name ∈ msrRules then xml else sub "name" (named name (pre script name)) xml
  let x := sub "name" (named name new) x
  let x := sub "by-ref" (prefixedRef script) x
  let x := sub "by-ref" commonRef x
  (new, sub "from-tag" (prefixedTag script) x)

/-- The loop body, `merge_set.py` 255-269. -/
def mergeRuleStep (script : String) (map : List (String × String)) (specific : Option String)
    (done : List (String × Txt)) (r : Item) : List (String × Txt) :=
  if truthy specific && specific ≠ some r.name then done
  else
    let p := renameRule r.name r.xml script
    if p.1 ∈ done.map Prod.fst then done
    else done ++ [(p.1, subRefs (r.refs.map (mapRef map)) p.2)]

/-- `merge_set.py` 243-269: `merge_rules`; `done` are `merged_lgr.rules` and `merged_lgr.rules_xml`. -/
def mergeRulesX (script : String) (map : List (String × String)) (specific : Option String) (rules : List Item)
    (done : List (String × Txt)) : List (String × Txt) :=
  rules.foldl (mergeRuleStep script map specific) done

/-- `merge_set.py` 272-288: `rename_class`. -/
def renameClass (name : String) (xml : Txt) (script : String) : String × Txt :=
  let x := sub "name" (prefixedTag script) xml
  let x := sub "by-ref" (fun v => some (prefixed script v)) x
  (pre script name, sub "from-tag" (prefixedTag script) x)

/-- `merge_set.py` 291-314: `merge_classes`; what is appended to `merged_lgr.classes` and
`merged_lgr.classes_xml`. -/
def mergeClasses (script : String) (map : List (String × String)) (classes : List Item) : List (String × Txt) :=
  classes.map (fun c =>
    let p := renameClass c.name c.xml script
    (p.1, subRefs (c.refs.map (mapRef map)) p.2))

/-! ## The set -/

/-- What `merge_lgr_set` takes of an LGR for the section of rules: `map` is `ref_mapping[script]`, `asked` are the
script and name of the rules asked for by `merge_chars` (399-411). `ref_mapping` has nothing for these
scripts, unless such a script is that of an LGR (`other`). -/
structure Part where
  script : String
  classes : List Item
  rules : List Item
  actions : List (Action × Txt)
  map : List (String × String) := []
  asked : List (String × String) := []
  other : String → List (String × String) := fun _ => []

/-- The merged section. -/
structure Section where
  classes : List (String × Txt) := []
  rules : List (String × Txt) := []
  actions : List (Action × Txt) := []

/-- The rules asked for by `merge_chars`. -/
def askedRules (p : Part) (done : List (String × Txt)) : List (String × Txt) :=
  p.asked.foldl (fun done q => mergeRulesX q.1 (p.other q.1) (some q.2) p.rules done) done

/-- `merge_set.py` 479-482, for one LGR. -/
def mergePart (s : Section) (p : Part) : Section :=
  { classes := s.classes ++ mergeClasses p.script p.map p.classes
    rules := mergeRulesX p.script p.map none p.rules (askedRules p s.rules)
    actions := s.actions ++ mergeActions p.script p.map p.actions }

/-- `merge_set.py` 474-483. -/
def mergeSection (l : List Part) : Section := l.foldl mergePart {}

/-- `xml_serializer.py` 173-186: the texts in the order they are written. -/
def Section.texts (s : Section) : List Txt :=
  s.classes.map Prod.snd ++ s.rules.map Prod.snd ++ s.actions.map Prod.snd

/-! ## The text of an element -/

/-- Escapes in a value. -/
def escV : Char → Txt
  | '&' => "&amp;".toList
  | '<' => "&lt;".toList
  | '>' => "&gt;".toList
  | '"' => "&quot;".toList
  | '\n' => "&#10;".toList
  | '\t' => "&#9;".toList
  | '\r' => "&#13;".toList
  | c => [c]

/-- Escapes in a text. -/
def escT : Char → Txt
  | '&' => "&amp;".toList
  | '<' => "&lt;".toList
  | '>' => "&gt;".toList
  | '\r' => "&#13;".toList
  | c => [c]

/-- An attribute as it is written. -/
def renderAttr (p : String × String) : Txt :=
  ' ' :: p.1.toList ++ ['=', '"'] ++ p.2.toList.flatMap escV ++ ['"']

mutual

/-- `etree.tostring`; what is between elements is left out. -/
def render : Node → Txt
  | .mk tag attrs text children =>
    '<' :: tag.toList ++ attrs.flatMap renderAttr ++
    (if children.isEmpty ∧ text.isNone then ['/', '>']
     else '>' :: (text.getD "").toList.flatMap escT ++ renders children ++ ['<', '/'] ++ tag.toList ++ ['>'])

def renders : List Node → Txt
  | [] => []
  | n :: ns => render n ++ renders ns

end

/-- A rule or class as `XMLParser` keeps it, `xml_parser.py` 335-347; a combinator has no references
(`lgr/classes.py` 231). -/
def itemOf (n : Node) : Item :=
  { name := (dget n.attrs "name").getD ""
    refs := if (combOf n.tag).isSome then [] else Xml.getList n.attrs "ref"
    xml := render n }

/-! ## Metadata -/

/-- `OrderedDict.fromkeys` and `update`: without duplicates, in the order of the first occurrence. -/
def ordUnion {α : Type} [DecidableEq α] (done : List α) (l : List α) : List α :=
  l.foldl (fun d x => if x ∈ d then d else d ++ [x]) done

/-- `'|'.join` -/
def bars (l : List String) : String := "|".intercalate l

/-- The loop body, `merge_set.py` 52-58. -/
def versionStep (s : List String × List String) (v : Option Version) : List String × List String :=
  match v with
  | none => s
  | some v => (if v.value = "" then s.1 else ordUnion s.1 [v.value],
               match v.comment with
               | some c => if c = "" then s.2 else ordUnion s.2 [c]
               | none => s.2)

/-- `merge_set.py` 43-60: `merge_version`. -/
def mergeVersions (l : List Metadata) : Version :=
  let r := (l.map (·.version)).foldl versionStep ([], [])
  { value := bars r.1, comment := some (bars r.2) }

/-- `text_type(None)`. -/
def showOpt : Option String → String
  | none => "None"
  | some s => s

/-- `merge_set.py` 36-40: `get_script`. -/
def scriptOf (m : Metadata) : String := m.languages.headD ""

/-- The descriptions with their scripts, `merge_set.py` 71-77. -/
def descriptions (l : List Metadata) : List (String × Description) :=
  l.filterMap (fun m => m.description.map (fun d => (scriptOf m, d)))

/-- The template, `merge_set.py` 86-89. -/
def describe (p : String × Description) : String :=
  "\nScript: '" ++ p.1 ++ "' - MIME-type: '" ++ showOpt p.2.type ++ "':\n" ++ p.2.value ++ "\n"

/-- `merge_set.py` 63-94: `merge_description`. -/
def mergeDescriptions (l : List Metadata) : Description :=
  let vs := descriptions l
  if vs.all (fun p => decide (p.2.type = some "text/html")) then
    { value := "".intercalate (vs.map (fun p => p.2.value)), type := some "text/html" }
  else { value := "----\n".intercalate (vs.map describe), type := some "text/plain" }

/-- The loop body, `merge_set.py` 113-125. -/
def metaStep (o m : Metadata) : Metadata :=
  { o with
    scopes := ordUnion o.scopes m.scopes
    languages := ordUnion o.languages m.languages
    validityStart := compareObjects pyMax o.validityStart m.validityStart
    validityEnd := compareObjects pyMin o.validityEnd m.validityEnd
    unicodeVersion := compareObjects pyMax o.unicodeVersion m.unicodeVersion }

/-- `merge_set.py` 97-132: `merge_metadata`. -/
def mergeMetadata (today : Txt) (l : List Metadata) : Metadata :=
  let o := l.foldl metaStep
    ({ version := some (mergeVersions l), description := some (mergeDescriptions l) } : Metadata)
  { o with date := some today }

end Lgr.MergeXml
