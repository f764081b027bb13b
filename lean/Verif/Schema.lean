import Verif.DocXml

/-!
# The schema of LGR documents

`resources/lgr.rng`, a RELAX NG schema, with the part of RELAX NG it uses, and `lgr/validate/xml_validity.py` 14-54,
`lgr/parser/xml_parser.py` 122-135 (`validate_document`). The grammar is transcribed definition by definition;
annotations are left out. What matches a pattern is the specification of RELAX NG (OASIS, 2001), sections 4.2, 6.2 and
6.2.9, for elements without comments, processing instructions and text between children, which is what a `Doc` holds.
Data types are those of XML Schema part 2: of `ID`, the values must also be different from each other, which `libxml2`
checks; `IDREF` is only checked for its form. The classes of characters of XML names and of `\d` are parameters.
-/

namespace Lgr.Schema
open Lgr Xml MetaXml RulesXml DocXml

/-! ## Data types -/

/-- Characters: `\d`, which contains the digits of ASCII, and those of XML names without colon (`NCNameStartChar`,
`NCNameChar`). -/
structure Lex where
  digit : Char → Bool
  start : Char → Bool
  name : Char → Bool
  ascii : ∀ c : Char, '0' ≤ c → c ≤ '9' → digit c = true

/-- White space of XML. -/
def blankChar (c : Char) : Bool := c.toNat ∈ [9, 10, 13, 32]

/-- The maximal parts without characters of a kind; `cur` is the current part, reversed. -/
def wordsGo (p : Char → Bool) (cur : List Char) : List Char → List (List Char)
  | [] => if cur = [] then [] else [cur.reverse]
  | c :: s =>
    if p c then (if cur = [] then wordsGo p [] s else cur.reverse :: wordsGo p [] s) else wordsGo p (c :: cur) s

/-- The words of a text, between white space. -/
def words (s : String) : List (List Char) := wordsGo blankChar [] s.toList

/-- `whiteSpace = collapse`: words with one space between them. -/
def collapse (s : String) : List Char := Text.join ' ' (words s)

/-- Only white space, or nothing. -/
def blank (s : String) : Bool := s.toList.all blankChar

/-- Regular expressions. -/
inductive Re where
  | eps
  | cls (l : List (Char × Char))
  | digit
  | space
  | cat (a b : Re)
  | alt (a b : Re)
  | star (a : Re)
  | plus (a : Re)
  | opt (a : Re)
  | rep (a : Re) (lo hi : Nat)

/-- The whole text matches. -/
def Re.Is (x : Lex) : Re → List Char → Prop
  | .eps, s => s = []
  | .cls l, s => ∃ c, s = [c] ∧ ∃ p ∈ l, p.1 ≤ c ∧ c ≤ p.2
  | .digit, s => ∃ c, s = [c] ∧ x.digit c = true
  | .space, s => ∃ c, s = [c] ∧ blankChar c = true
  | .cat a b, s => ∃ u v, s = u ++ v ∧ a.Is x u ∧ b.Is x v
  | .alt a b, s => a.Is x s ∨ b.Is x s
  | .star a, s => ∃ ws : List (List Char), s = ws.flatten ∧ ∀ w ∈ ws, a.Is x w
  | .plus a, s => ∃ ws : List (List Char), ws ≠ [] ∧ s = ws.flatten ∧ ∀ w ∈ ws, a.Is x w
  | .opt a, s => s = [] ∨ a.Is x s
  | .rep a lo hi, s => ∃ ws : List (List Char), lo ≤ ws.length ∧ ws.length ≤ hi ∧ s = ws.flatten ∧ ∀ w ∈ ws, a.Is x w

/-- The data types used. -/
inductive Ty where
  | token | NMTOKEN | NMTOKENS | NCName | ID | IDREF
  deriving DecidableEq

/-- `Nmtoken`. -/
def Nmtoken (x : Lex) (w : List Char) : Prop := w ≠ [] ∧ ∀ c ∈ w, x.name c = true ∨ c = ':'

/-- `NCName`. -/
def NcName (x : Lex) : List Char → Prop
  | [] => False
  | c :: w => x.start c = true ∧ ∀ d ∈ w, x.name d = true

/-- The values of a data type, after white space has been collapsed. -/
def Ty.Has (x : Lex) : Ty → String → Prop
  | .token, _ => True
  | .NMTOKEN, s => Nmtoken x (collapse s)
  | .NMTOKENS, s => words s ≠ [] ∧ ∀ w ∈ words s, Nmtoken x w
  | .NCName, s | .ID, s | .IDREF, s => NcName x (collapse s)

/-! ## Patterns -/

/-- Patterns of RELAX NG: `data` with its parameters `pattern` and `minLength`, `value` of the built-in type `token`. -/
inductive Pat where
  | empty
  | text
  | data (ty : Ty) (re : Option Re) (min : Nat)
  | value (s : String)
  | attr (name : String) (p : Pat)
  | elem (name : String) (p : Pat)
  | group (p q : Pat)
  | inter (p q : Pat)
  | choice (p q : Pat)
  | oneOrMore (p : Pat)
  | ref (name : String)

namespace Pat
def optional (p : Pat) : Pat := choice p empty
def zeroOrMore (p : Pat) : Pat := choice (oneOrMore p) empty
end Pat

/-- What can be inside an element. -/
inductive Item where
  | node (n : Node)
  | txt (s : String)

/-- The content of an element, as it can be matched: white space alone is a text or nothing, and is nothing beside
children. -/
def contents (n : Node) : List (List Item) :=
  let s := n.text.getD ""
  match n.children with
  | [] => if blank s then [[], [.txt s]] else [[.txt s]]
  | cs => if blank s then [cs.map .node] else [.txt s :: cs.map .node]

/-- The elements of two lists in some order which keeps both orders. -/
inductive Shuffle {α : Type} : List α → List α → List α → Prop where
  | nil : Shuffle [] [] []
  | left (x : α) {a b c : List α} : Shuffle a b c → Shuffle (x :: a) b (x :: c)
  | right (x : α) {a b c : List α} : Shuffle a b c → Shuffle a (x :: b) (x :: c)

/-- Attributes and content match a pattern. -/
inductive Matches (x : Lex) (defs : String → Pat) : Pat → XAttrs → List Item → Prop where
  | empty : Matches x defs .empty [] []
  | text {c : List Item} : (∀ i ∈ c, ∃ s, i = .txt s) → Matches x defs .text [] c
  | data {ty : Ty} {re : Option Re} {min : Nat} {s : String} : ty.Has x s → (∀ r, re = some r → r.Is x (collapse s)) →
      min ≤ (collapse s).length → Matches x defs (.data ty re min) [] [.txt s]
  | value {v s : String} : collapse s = collapse v → Matches x defs (.value v) [] [.txt s]
  | attr {n v : String} {p : Pat} : Matches x defs p [] [.txt v] → Matches x defs (.attr n p) [(n, v)] []
  | elem {n : Node} {p : Pat} {c : List Item} : c ∈ contents n → Matches x defs p n.attrs c →
      Matches x defs (.elem n.tag p) [] [.node n]
  | group {p q : Pat} {a b y : XAttrs} {c d : List Item} : Matches x defs p a c → Matches x defs q b d →
      y.Perm (a ++ b) → Matches x defs (.group p q) y (c ++ d)
  | inter {p q : Pat} {a b y : XAttrs} {c d e : List Item} : Matches x defs p a c → Matches x defs q b d →
      y.Perm (a ++ b) → Shuffle c d e → Matches x defs (.inter p q) y e
  | left {p q : Pat} {a : XAttrs} {c : List Item} : Matches x defs p a c → Matches x defs (.choice p q) a c
  | right {p q : Pat} {a : XAttrs} {c : List Item} : Matches x defs q a c → Matches x defs (.choice p q) a c
  | one {p : Pat} {a : XAttrs} {c : List Item} : Matches x defs p a c → Matches x defs (.oneOrMore p) a c
  | more {p : Pat} {a b y : XAttrs} {c d : List Item} : Matches x defs p a c → Matches x defs (.oneOrMore p) b d →
      y.Perm (a ++ b) → Matches x defs (.oneOrMore p) y (c ++ d)
  | ref {n : String} {a : XAttrs} {c : List Item} : Matches x defs (defs n) a c → Matches x defs (.ref n) a c

/-! ## The grammar -/

/-- `resources/lgr.rng` 14-16. -/
def languageTagP : Pat :=
  .data .token none 0

/-- `resources/lgr.rng` 21-25. -/
def scopeValueP : Pat :=
  .data .token none 1

/-- `resources/lgr.rng` 26-31. -/
def codePointP : Pat :=
  .data .token (some (.rep (.cls [('0', '9'), ('A', 'F')]) 4 6)) 0

/-- `resources/lgr.rng` 32-37. -/
def codePointSequenceP : Pat :=
  .data .token (some (.cat (.rep (.cls [('0', '9'), ('A', 'F')]) 4 6) (.plus (.cat (.cls [(' ', ' ')]) (.rep
    (.cls [('0', '9'), ('A', 'F')]) 4 6))))) 0

/-- `resources/lgr.rng` 38-45. -/
def codePointLiteralP : Pat :=
  .choice codePointP (.choice codePointSequenceP (.value ""))

/-- `resources/lgr.rng` 46-52. -/
def nonEmptyCodePointLiteralP : Pat :=
  .choice codePointP codePointSequenceP

/-- `resources/lgr.rng` 53-58. -/
def codePointSetShorthandP : Pat :=
  .data .token (some (.cat (.star .space) (.cat (.alt (.rep (.cls [('0', '9'), ('A', 'F')]) 4 6) (.cat (.rep
    (.cls [('0', '9'), ('A', 'F')]) 4 6) (.cat (.cls [('-', '-')]) (.rep (.cls [('0', '9'), ('A', 'F')]) 4
    6)))) (.cat (.star (.cat (.cls [(' ', ' ')]) (.alt (.rep (.cls [('0', '9'), ('A', 'F')]) 4 6) (.cat (.rep
    (.cls [('0', '9'), ('A', 'F')]) 4 6) (.cat (.cls [('-', '-')]) (.rep (.cls [('0', '9'), ('A', 'F')]) 4
    6)))))) (.star .space))))) 0

/-- `resources/lgr.rng` 59-65. -/
def datePatternP : Pat :=
  .data .token (some (.cat (.rep .digit 4 4) (.cat (.cls [('-', '-')]) (.cat .digit (.cat .digit (.cat (.cls
    [('-', '-')]) (.cat .digit .digit))))))) 0

/-- `resources/lgr.rng` 66-72. -/
def variantTypeP : Pat :=
  .data .NMTOKEN none 0

/-- `resources/lgr.rng` 73-78. -/
def variantTypeListP : Pat :=
  .data .NMTOKENS none 0

/-- `resources/lgr.rng` 79-84. -/
def ruleRefP : Pat :=
  .data .IDREF none 0

/-- `resources/lgr.rng` 85-91. -/
def tagsP : Pat :=
  .data .NMTOKENS none 0

/-- `resources/lgr.rng` 92-99. -/
def tagRefP : Pat :=
  .data .NMTOKEN none 0

/-- `resources/lgr.rng` 100-103. -/
def identifierP : Pat :=
  .data .ID none 0

/-- `resources/lgr.rng` 104-108. -/
def classRefP : Pat :=
  .data .IDREF none 0

/-- `resources/lgr.rng` 109-114. -/
def countPatternP : Pat :=
  .data .token (some (.cat (.plus .digit) (.opt (.alt (.cls [('+', '+')]) (.cat (.cls [(':', ':')]) (.plus
    .digit)))))) 0

/-- `resources/lgr.rng` 115-124. -/
def refPatternP : Pat :=
  .data .token (some (.cat (.plus (.cls [('-', '-'), ('_', '_'), ('.', '.'), (':', ':'), ('0', '9'), ('A',
    'Z')])) (.star (.cat (.cls [(' ', ' ')]) (.plus (.cls [('-', '-'), ('_', '_'), ('.', '.'), (':', ':'),
    ('0', '9'), ('A', 'Z')])))))) 0

/-- `resources/lgr.rng` 199-229. -/
def variantP : Pat :=
  .elem "var" (.group (.attr "cp" codePointLiteralP) (.group (.optional (.attr "type" (.data .NMTOKEN none
    0))) (.group (.optional (.attr "when" ruleRefP)) (.group (.optional (.attr "not-when" ruleRefP)) (.group
    (.optional (.attr "comment" .text)) (.optional (.attr "ref" refPatternP)))))))

/-- `resources/lgr.rng` 130-164. -/
def charP : Pat :=
  .elem "char" (.group (.attr "cp" codePointLiteralP) (.group (.optional (.attr "comment" .text)) (.group
    (.optional (.attr "when" ruleRefP)) (.group (.optional (.attr "not-when" ruleRefP)) (.group (.optional
    (.attr "tag" tagsP)) (.group (.optional (.attr "ref" refPatternP)) (.zeroOrMore variantP)))))))

/-- `resources/lgr.rng` 165-198. -/
def rangeP : Pat :=
  .elem "range" (.group (.attr "first-cp" codePointP) (.group (.attr "last-cp" codePointP) (.group (.optional
    (.attr "comment" .text)) (.group (.optional (.attr "when" ruleRefP)) (.group (.optional (.attr "not-when"
    ruleRefP)) (.group (.optional (.attr "tag" tagsP)) (.optional (.attr "ref" refPatternP))))))))

/-- `resources/lgr.rng` 235-253. -/
def classInvocationP : Pat :=
  .elem "class" (.group (.attr "by-ref" classRefP) (.group (.optional (.attr "count" countPatternP))
    (.optional (.attr "comment" .text))))

/-- `resources/lgr.rng` 254-302. -/
def classDeclarationP : Pat :=
  .elem "class" (.group (.optional (.attr "name" identifierP)) (.group (.optional (.attr "count"
    countPatternP)) (.group (.optional (.attr "comment" .text)) (.group (.optional (.attr "ref" refPatternP))
    (.choice (.attr "property" (.data .NMTOKEN none 0)) (.choice (.attr "from-tag" tagRefP)
    codePointSetShorthandP))))))

/-- `resources/lgr.rng` 487-498. -/
def anyMatcherP : Pat :=
  .elem "any" (.group (.optional (.attr "count" countPatternP)) (.optional (.attr "comment" .text)))

/-- `resources/lgr.rng` 520-545. -/
def charMatcherP : Pat :=
  .elem "char" (.group (.attr "cp" nonEmptyCodePointLiteralP) (.group (.optional (.attr "count"
    countPatternP)) (.group (.optional (.attr "comment" .text)) (.optional (.attr "ref" refPatternP)))))

/-- `resources/lgr.rng` 546-552. -/
def startMatcherP : Pat :=
  .elem "start" (.optional (.attr "comment" .text))

/-- `resources/lgr.rng` 553-559. -/
def endMatcherP : Pat :=
  .elem "end" (.optional (.attr "comment" .text))

/-- `resources/lgr.rng` 560-566. -/
def anchorMatcherP : Pat :=
  .elem "anchor" (.optional (.attr "comment" .text))

/-- `resources/lgr.rng` 689-727. -/
def actionDeclarationP : Pat :=
  .elem "action" (.group (.optional (.attr "comment" .text)) (.group (.optional (.attr "ref" refPatternP))
    (.group (.attr "disp" variantTypeP) (.group (.optional (.choice (.attr "match" ruleRefP) (.attr
    "not-match" ruleRefP))) (.optional (.choice (.attr "any-variant" variantTypeListP) (.choice (.attr
    "all-variants" variantTypeListP) (.attr "only-variants" variantTypeListP))))))))

/-- `resources/lgr.rng` 743-829. -/
def metaSectionP : Pat :=
  .elem "meta" (.inter (.optional (.elem "version" (.group (.optional (.attr "comment" .text)) .text)))
    (.inter (.optional (.elem "date" datePatternP)) (.inter (.zeroOrMore (.elem "language" languageTagP))
    (.inter (.zeroOrMore (.elem "scope" (.group (.attr "type" (.data .NCName none 0)) scopeValueP))) (.inter
    (.optional (.elem "validity-start" datePatternP)) (.inter (.optional (.elem "validity-end" datePatternP))
    (.inter (.optional (.elem "unicode-version" (.data .token (some (.cat (.plus .digit) (.cat (.cls [('.',
    '.')]) (.cat (.plus .digit) (.cat (.cls [('.', '.')]) (.plus .digit)))))) 0))) (.inter (.optional (.elem
    "description" (.group (.optional (.attr "type" .text)) .text))) (.optional (.elem "references"
    (.zeroOrMore (.elem "reference" (.group (.attr "id" (.data .token (some (.star (.cls [('-', '-'), ('_',
    '_'), ('.', '.'), (':', ':'), ('0', '9'), ('A', 'Z')]))) 1)) (.group (.optional (.attr "comment" .text))
    .text))))))))))))))

/-- `resources/lgr.rng` 830-839. -/
def dataSectionP : Pat :=
  .elem "data" (.oneOrMore (.choice charP rangeP))

/-- `resources/lgr.rng` 303-309. -/
def classOrSetOperatorNestedP : Pat :=
  .choice (.ref "set-operator") (.choice classInvocationP classDeclarationP)

/-- `resources/lgr.rng` 325-352. -/
def complementOperatorP : Pat :=
  .elem "complement" (.group (.optional (.attr "name" identifierP)) (.group (.optional (.attr "comment"
    .text)) (.group (.optional (.attr "ref" refPatternP)) (.group (.optional (.attr "count" countPatternP))
    (.ref "class-or-set-operator-nested")))))

/-- `resources/lgr.rng` 353-384. -/
def unionOperatorP : Pat :=
  .elem "union" (.group (.optional (.attr "name" identifierP)) (.group (.optional (.attr "comment" .text))
    (.group (.optional (.attr "ref" refPatternP)) (.group (.optional (.attr "count" countPatternP)) (.group
    (.ref "class-or-set-operator-nested") (.oneOrMore (.ref "class-or-set-operator-nested")))))))

/-- `resources/lgr.rng` 385-413. -/
def intersectionOperatorP : Pat :=
  .elem "intersection" (.group (.optional (.attr "name" identifierP)) (.group (.optional (.attr "comment"
    .text)) (.group (.optional (.attr "ref" refPatternP)) (.group (.optional (.attr "count" countPatternP))
    (.group (.ref "class-or-set-operator-nested") (.ref "class-or-set-operator-nested"))))))

/-- `resources/lgr.rng` 414-442. -/
def differenceOperatorP : Pat :=
  .elem "difference" (.group (.optional (.attr "name" identifierP)) (.group (.optional (.attr "comment"
    .text)) (.group (.optional (.attr "ref" refPatternP)) (.group (.optional (.attr "count" countPatternP))
    (.group (.ref "class-or-set-operator-nested") (.ref "class-or-set-operator-nested"))))))

/-- `resources/lgr.rng` 443-471. -/
def symmetricDifferenceOperatorP : Pat :=
  .elem "symmetric-difference" (.group (.optional (.attr "name" identifierP)) (.group (.optional (.attr
    "comment" .text)) (.group (.optional (.attr "ref" refPatternP)) (.group (.optional (.attr "count"
    countPatternP)) (.group (.ref "class-or-set-operator-nested") (.ref "class-or-set-operator-nested"))))))

/-- `resources/lgr.rng` 472-481. -/
def setOperatorP : Pat :=
  .choice (.ref "complement-operator") (.choice (.ref "union-operator") (.choice (.ref
    "intersection-operator") (.choice (.ref "difference-operator") (.ref "symmetric-difference-operator"))))

/-- `resources/lgr.rng` 499-519. -/
def choiceMatcherP : Pat :=
  .elem "choice" (.group (.optional (.attr "count" countPatternP)) (.group (.optional (.attr "comment" .text))
    (.group (.ref "match-operator-choice") (.oneOrMore (.ref "match-operator-choice")))))

/-- `resources/lgr.rng` 567-574. -/
def lookAheadMatcherP : Pat :=
  .elem "look-ahead" (.group (.optional (.attr "comment" .text)) (.ref "match-operators-non-pos"))

/-- `resources/lgr.rng` 575-582. -/
def lookBehindMatcherP : Pat :=
  .elem "look-behind" (.group (.optional (.attr "comment" .text)) (.ref "match-operators-non-pos"))

/-- `resources/lgr.rng` 583-595. -/
def matchOperatorChoiceP : Pat :=
  .choice anyMatcherP (.choice (.ref "choice-matcher") (.choice startMatcherP (.choice endMatcherP (.choice
    charMatcherP (.choice (.ref "class-or-set-operator-nested") (.ref "rule-matcher"))))))

/-- `resources/lgr.rng` 596-614. -/
def matchOperatorsNonPosP : Pat :=
  .group (.optional startMatcherP) (.group (.zeroOrMore (.choice anyMatcherP (.choice (.ref "choice-matcher")
    (.choice charMatcherP (.choice (.ref "class-or-set-operator-nested") (.ref "rule-matcher")))))) (.optional
    endMatcherP))

/-- `resources/lgr.rng` 615-626. -/
def matchOperatorsPosP : Pat :=
  .group (.optional (.ref "look-behind-matcher")) (.group anchorMatcherP (.optional (.ref
    "look-ahead-matcher")))

/-- `resources/lgr.rng` 627-632. -/
def matchOperatorsP : Pat :=
  .choice (.ref "match-operators-non-pos") (.ref "match-operators-pos")

/-- `resources/lgr.rng` 655-683. -/
def ruleMatcherP : Pat :=
  .elem "rule" (.group (.optional (.attr "count" countPatternP)) (.group (.optional (.attr "comment" .text))
    (.group (.optional (.attr "ref" refPatternP)) (.choice (.attr "by-ref" ruleRefP) (.ref
    "match-operators")))))

/-- `resources/lgr.rng` 310-319. -/
def classOrSetOperatorDeclarationP : Pat :=
  .choice classDeclarationP (.ref "set-operator")

/-- `resources/lgr.rng` 639-654. -/
def ruleDeclarationTopP : Pat :=
  .elem "rule" (.group (.attr "name" identifierP) (.group (.optional (.attr "comment" .text)) (.group
    (.optional (.attr "ref" refPatternP)) (.ref "match-operators"))))

/-- `resources/lgr.rng` 840-854. -/
def rulesSectionP : Pat :=
  .elem "rules" (.zeroOrMore (.choice classOrSetOperatorDeclarationP (.choice ruleDeclarationTopP
    actionDeclarationP)))

/-- `resources/lgr.rng` 732-742. -/
def lgrP : Pat :=
  .elem "lgr" (.group (.optional metaSectionP) (.group dataSectionP (.optional rulesSectionP)))

/-- The definitions which are used in themselves. -/
def defs : String → Pat
  | "class-or-set-operator-nested" => classOrSetOperatorNestedP
  | "complement-operator" => complementOperatorP
  | "union-operator" => unionOperatorP
  | "intersection-operator" => intersectionOperatorP
  | "difference-operator" => differenceOperatorP
  | "symmetric-difference-operator" => symmetricDifferenceOperatorP
  | "set-operator" => setOperatorP
  | "choice-matcher" => choiceMatcherP
  | "look-ahead-matcher" => lookAheadMatcherP
  | "look-behind-matcher" => lookBehindMatcherP
  | "match-operator-choice" => matchOperatorChoiceP
  | "match-operators-non-pos" => matchOperatorsNonPosP
  | "match-operators-pos" => matchOperatorsPosP
  | "match-operators" => matchOperatorsP
  | "rule-matcher" => ruleMatcherP
  | _ => .empty

/-! ## Documents -/

/-- An element of `<data>`. -/
def elemNode (e : Elem) : Node := .mk e.tag e.attrs none (e.vars.map (fun a => .mk "var" a none []))

/-- A reference. -/
def refNode (m : MetaXml.Ctx) (r : XAttrs × XText) : Node := .mk "reference" r.1 (readText m r.2) []

/-- An element of `<meta>`. -/
def metaNode (m : MetaXml.Ctx) (e : MElem) : Node := .mk e.tag e.attrs (readText m e.text) (e.refs.map (refNode m))

/-- The sections of a document. -/
def sections (m : MetaXml.Ctx) (d : Doc) : List Node :=
  (match d.metaE with
    | some es => [.mk "meta" [] none (es.map (metaNode m))]
    | none => []) ++
  .mk "data" [] none (d.data.map elemNode) ::
  (match d.rules with
    | some ns => [.mk "rules" [] none ns]
    | none => [])

/-- A document. -/
def docNode (m : MetaXml.Ctx) (d : Doc) : Node := .mk "lgr" [] none (sections m d)

mutual
/-- The values of the attributes of type `ID`: all attributes `name` are. -/
def ids : Node → List (List Char)
  | .mk _ attrs _ children => (dget attrs "name").toList.map collapse ++ idsAll children

def idsAll : List Node → List (List Char)
  | [] => []
  | n :: ns => ids n ++ idsAll ns
end

/-- The document is valid. -/
structure Valid (x : Lex) (m : MetaXml.Ctx) (d : Doc) : Prop where
  shape : Matches x defs lgrP [] [.node (docNode m d)]
  unique : (ids (docNode m d)).Nodup

/-- `lgr/validate/xml_validity.py` 14-54: `check_xml_validity` without schema (`none`), or with `resources/lgr.rng`:
`rng_result`. That what is written and read again is what has been written is assumed of `lxml`. -/
noncomputable def checkXmlValidity (x : Lex) (m : MetaXml.Ctx) (rng : Bool) (g : Loaded) : Except Err (Option Bool) :=
  if rng = false then .ok none
  else
    match serializeDoc g with
    | .error e => .error e
    | .ok d => open Classical in .ok (some (decide (Valid x m d)))

end Lgr.Schema
