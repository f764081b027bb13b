import Verif.PopulateTool
import Verif.Compare
import Verif.Metadata
import Verif.MergeXml

/-!
# The union and the intersection printed by `tools/lgr_compare.py`

Simplified: a class or rule without name counts as one with an empty name. Texts of elements are made by
`MergeXml.render`; how `lxml` reads a text is a parameter.
-/

namespace Lgr.CompareTool
open Lgr Compare MetaXml RulesXml DocXml PopulateTool

/-- What the outcome depends on besides the two documents: the order in which sets are iterated, from which of two sets
the members of an intersection are taken, the date of today, and `etree.fromstring`. -/
structure Env where
  ord : SetOrder
  scopes : List MetaXml.Txt → List MetaXml.Txt
  acts : List Action → List Action
  second : Bool
  today : String
  read : String → Option Node
  scopes_perm : ∀ l, (scopes l).Perm l
  acts_perm : ∀ l, (acts l).Perm l

/-! ## Metadata -/

/-- `union.py` 20-40: `union_version`. -/
def unionVersion : Option MetaXml.Txt → Option MetaXml.Txt → Option MetaXml.Txt
  | none, s => s
  | f, none => f
  | some a, some b => if a = b then some a else some ⟨letUserChoose a.value b.value, letUserChoose a.note b.note⟩

/-- `intersect.py` 21-37: `intersect_version`. -/
def intersectVersion : Option MetaXml.Txt → Option MetaXml.Txt → Option MetaXml.Txt
  | none, s => s
  | f, none => f
  | some a, some b => some ⟨letUserChoose a.value b.value, letUserChoose a.note b.note⟩

/-- `str.format` of a string or `None`. -/
def fmt (o : Option String) : String := o.getD "None"

/-- `union.py` 43-75: `union_description`. -/
def unionDescription : Option MetaXml.Txt → Option MetaXml.Txt → Option MetaXml.Txt
  | none, s => s
  | f, none => f
  | some a, some b =>
    if a = b then some a
    else if a.note = some "text/html" ∧ b.note = some "text/html" then
      some ⟨some (fmt a.value ++ "\n" ++ fmt b.value), some "text/html"⟩
    else some ⟨some ("\nOriginal MIME-type for first description: '" ++ fmt a.note ++ "':\n" ++ fmt a.value ++
      "\n\n----\n\nOriginal MIME-type for second description: '" ++ fmt b.note ++ "'.\n" ++ fmt b.value ++ "\n"),
      some "text/enriched"⟩

/-- `intersect.py` 40-69: `intersect_description`. -/
def intersectDescription : Option MetaXml.Txt → Option MetaXml.Txt → Option MetaXml.Txt
  | none, s => s
  | f, none => f
  | some a, some b =>
    if a.note = b.note then some ⟨letUserChoose a.value b.value, a.note⟩
    else some ⟨some ("\nOriginal MIME-type for first description: '" ++ fmt a.note ++ "'.\n" ++ fmt a.value ++
      "\n\n----\n\nOriginal MIME-type for second description: '" ++ fmt b.note ++ "'.\n" ++ fmt b.value ++ "\n"),
      some "text/enriched"⟩

/-- Python `max` of two strings. -/
def maxStr (a b : String) : String := if a.toList < b.toList then b else a

/-- Python `min` of two strings. -/
def minStr (a b : String) : String := if b.toList < a.toList then b else a

/-- The references of an LGR as the writer sees them; an empty value stands for `None`. -/
def refsMeta (m : RefManager) : List (String × MetaXml.Txt) :=
  m.refs.map (fun p => (p.1, ⟨if p.2.value = "" then none else some p.2.value, p.2.comment⟩))

/-- `union.py` 78-113: `union_metadata`, with the references of the new LGR. -/
def unionMeta (E : Env) (m : RefManager) (m1 m2 : Meta) : Meta :=
  { version := if m1.version.isSome then unionVersion m1.version m2.version else none
    description := if m1.description.isSome then unionDescription m1.description m2.description else none
    scopes := E.scopes (addNew id (toSet id m1.scopes) (toSet id m1.scopes))
    languages := E.ord.strs (addNew id (toSet id m2.languages) (toSet id m1.languages))
    date := some E.today
    validityStart := Metadata.compareObjects maxStr m1.validityStart m2.validityStart
    validityEnd := Metadata.compareObjects minStr m1.validityEnd m2.validityEnd
    unicodeVersion := Metadata.compareObjects maxStr m1.unicodeVersion m2.unicodeVersion
    refs := refsMeta m
    nextId := m.nextId }

/-- `intersect.py` 72-104: `intersect_metadata`, with the references of the new LGR. -/
def intersectMeta (E : Env) (m : RefManager) (m1 m2 : Meta) : Meta :=
  { version := intersectVersion m1.version m2.version
    description := intersectDescription m1.description m2.description
    scopes := E.scopes ((toSet id m1.scopes).filter (fun s => decide (s ∈ m1.scopes)))
    languages := E.ord.strs ((toSet id m1.languages).filter (fun l => decide (l ∈ m2.languages)))
    date := some E.today
    validityStart := Metadata.compareObjects maxStr m1.validityStart m2.validityStart
    validityEnd := Metadata.compareObjects minStr m1.validityEnd m2.validityEnd
    unicodeVersion := Metadata.compareObjects maxStr m1.unicodeVersion m2.unicodeVersion
    refs := refsMeta m
    nextId := m.nextId }

/-! ## Rules -/

/-- `etree.tostring`. -/
def shown (n : Node) : String := String.ofList (MergeXml.render n)

/-- `lgr.rules` or `lgr.classes`. -/
def namesOf (l : List (Option String)) : List String := l.map (fun o => o.getD "")

/-- `str.replace` as `union.py` and `intersect.py` use it. -/
def renamed (old new s : String) : String := String.ofList (MergeXml.replace old new s.toList)

/-- `etree.fromstring` for each text, `xml_serializer.py` 180-185; a text that cannot be read raises
`XMLSyntaxError`. -/
def readAll (read : String → Option Node) : List String → Except Err (List Node)
  | [] => .ok []
  | t :: ts =>
    match read t with
    | none => .error (.format "XMLSyntaxError")
    | some n =>
      match readAll read ts with
      | .error e => .error e
      | .ok ns => .ok (n :: ns)

/-- What is known of the rules of the new LGR once their texts are read by the writer. -/
def readRules (E : Env) (classes rules : List String × List String) (actions : List Action × List String) :
    Except Err Rules :=
  match readAll E.read classes.2 with
  | .error e => .error e
  | .ok cs =>
    match readAll E.read rules.2 with
    | .error e => .error e
    | .ok rs =>
      match readAll E.read actions.2 with
      | .error e => .error e
      | .ok as =>
        .ok { ruleNames := rules.1.map some, rulesXml := rs, clsNames := classes.1.map some, clsXml := cs
              actions := actions.1, actionsXml := as }

/-- `union.py` 284-361: `union_lgrs`, for LGRs read without Unicode database; the part about rules up to the point where the
writer has read their texts. -/
def unionLoaded (E : Env) (g1 g2 : Loaded) : Except Err Loaded :=
  match (unionLgrs E.ord none none g1.lgr g2.lgr).2 with
  | .error e => .error e
  | .ok l =>
    match unionNamed E.ord renamed (namesOf g1.rules.ruleNames) (g1.rules.rulesXml.map shown)
        (namesOf g2.rules.ruleNames) (g2.rules.rulesXml.map shown) with
    | .error e => .error e
    | .ok rules =>
      match unionNamed E.ord renamed (namesOf g1.rules.clsNames) (g1.rules.clsXml.map shown)
          (namesOf g2.rules.clsNames) (g2.rules.clsXml.map shown) with
      | .error e => .error e
      | .ok classes =>
        match readRules E classes rules (unionActions g1.rules.actions (g1.rules.actionsXml.map shown)
            g2.rules.actions (g2.rules.actionsXml.map shown)) with
        | .error e => .error e
        | .ok r => .ok { md := unionMeta E l.refs g1.md g2.md, lgr := l, rules := r }

/-- `intersect.py` 241-289: `intersect_lgrs`, in the same way. -/
def intersectLoaded (E : Env) (g1 g2 : Loaded) : Except Err Loaded :=
  match (intersectLgrs E.ord none none g1.lgr g2.lgr).2 with
  | .error e => .error e
  | .ok l =>
    match intersectActions E.acts E.second g1.rules.actions (g1.rules.actionsXml.map shown) g2.rules.actions with
    | .error e => .error e
    | .ok actions =>
      match intersectNamed E.ord renamed (namesOf g1.rules.ruleNames) (g1.rules.rulesXml.map shown)
          (namesOf g2.rules.ruleNames) (g2.rules.rulesXml.map shown) with
      | .error e => .error e
      | .ok rules =>
        match intersectNamed E.ord renamed (namesOf g1.rules.clsNames) (g1.rules.clsXml.map shown)
            (namesOf g2.rules.clsNames) (g2.rules.clsXml.map shown) with
        | .error e => .error e
        | .ok classes =>
          match readRules E classes rules actions with
          | .error e => .error e
          | .ok r => .ok { md := intersectMeta E l.refs g1.md g2.md, lgr := l, rules := r }

/-! ## The tool -/

/-- `tools/lgr_compare.py` 75-81. -/
def printed (o : Except Err Loaded) : Outcome :=
  match o with
  | .error e => .raised e
  | .ok g =>
    match serializeDoc g with
    | .error e => .raised e
    | .ok d => .printed d

/-- `tools/lgr_compare.py` 62-81 for one first and one second LGR and `UNION` (`union`) or `INTERSECT`. The verdicts of the
schema on both documents are parameters. -/
def main (E : Env) (R : Reader) (union : Bool) (schema1 schema2 : Option Bool) (d1 d2 : Doc) : Outcome :=
  match parseLgr R schema1 d1 with
  | .error e => .raised e
  | .ok o1 =>
    match parseLgr R schema2 d2 with
    | .error e => .raised e
    | .ok o2 =>
      match o1, o2 with
      | some g1, some g2 => printed (if union then unionLoaded E g1 g2 else intersectLoaded E g1 g2)
      | _, _ => .logged

end Lgr.CompareTool
