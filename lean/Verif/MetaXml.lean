import Verif.Xml
import Verif.Metadata

/-!
# The `<meta>` section of an LGR document

`lgr/parser/xml_serializer.py` 60-122, `lgr/parser/xml_parser.py` 173-229, the setters of
`lgr/metadata.py` 260-334. An element is its tag, its attributes, its text and the `reference` elements
inside. That writing elements to text and reading them gives back tag, attributes and children is assumed
of `lxml`; what becomes of the text is `readText`.
-/

namespace Lgr.MetaXml
open Lgr Text Xml

/-! ## Metadata and references -/

/-- A value with something about it: version and comment, scope and type, description and type, reference
and comment. -/
structure Txt where
  value : Option String
  note : Option String := none
  deriving DecidableEq, Repr

/-- `Metadata` (`lgr/metadata.py` 152-171) and `ReferenceManager` (337-358). Here, the values are those
which an attribute can have, `None` included. -/
structure Meta where
  version : Option Txt := none
  date : Option String := none
  languages : List String := []
  scopes : List Txt := []
  validityStart : Option String := none
  validityEnd : Option String := none
  unicodeVersion : Option String := some "6.3.0"
  description : Option Txt := none
  refs : List (String × Txt) := []
  nextId : Int := 0
  deriving DecidableEq, Repr

/-- What is not modelled: `int(s)`, `rfc5646.check`, the digits `\d` matches, and what `lxml` reads from a
CDATA section (`cdata` of its text) and from an empty one. -/
structure Ctx where
  pyInt : List Char → Option Int
  check : Metadata.Check
  digit : Char → Bool
  cdata : String → String
  emptyCdata : Option String

/-! ## Setters -/

/-- `re.match(r'\d{1,}\.\d{1,}\.\d{1,}', s)`: digits, a dot, digits, a dot and a digit at the start. -/
def versionMatch (digit : Char → Bool) (s : List Char) : Bool :=
  match s.takeWhile digit, s.dropWhile digit with
  | _ :: _, '.' :: s1 =>
    match s1.takeWhile digit, s1.dropWhile digit with
    | _ :: _, '.' :: s2 => match s2 with
      | c :: _ => digit c
      | [] => false
    | _, _ => false
  | _, _ => false

/-- `lgr/metadata.py` 306-334: `set_unicode_version`; also whether the check failed. -/
def setUnicodeVersion (x : Ctx) (m : Meta) (s : String) (force : Bool) : Meta × Bool × Except Err Unit :=
  if versionMatch x.digit s.toList = false then
    if force = false then (m, true, .error (.format "INVALID_UNICODE_VERSION_TAG"))
    else ({ m with unicodeVersion := some s }, true, .ok ())
  else ({ m with unicodeVersion := some s }, false, .ok ())

/-- `_validate_date` on a string. -/
def date (x : Ctx) (s : String) (force : Bool) : Except Err String :=
  match Metadata.validateDate x.pyInt s.toList force with
  | .error e => .error e
  | .ok t => .ok (String.ofList t)

/-- `lgr/metadata.py` 260-304: `set_date`, `set_validity_start`, `set_validity_end`, by the field. -/
def setDate (x : Ctx) (field : String) (m : Meta) (s : String) (force : Bool) : Meta × Except Err Unit :=
  match date x s force with
  | .error e => (m, .error e)
  | .ok d =>
    if field = "date" then ({ m with date := some d }, .ok ())
    else if field = "validity-start" then ({ m with validityStart := some d }, .ok ())
    else ({ m with validityEnd := some d }, .ok ())

/-- `re.match('^[\-_.:0-9A-Z]*$', s)`: `$` also matches before a line feed at the end. -/
def refIdOk (s : List Char) : Bool :=
  let ok := fun t : List Char => t.all (fun c =>
    decide (c ∈ ['-', '_', '.', ':'] ∨ ('0' ≤ c ∧ c ≤ '9') ∨ ('A' ≤ c ∧ c ≤ 'Z')))
  ok s || (decide (s.getLast? = some '\n') && ok s.dropLast)

/-- `lgr/metadata.py` 372-424: `add_reference`. -/
def addReference (m : Meta) (value comment : Option String) (refId : Option String) :
    Meta × Except Err Unit :=
  match refId with
  | some i =>
    if (dget m.refs i).isSome then (m, .error (.referenceAlreadyExists i))
    else if refIdOk i.toList = false then (m, .error (.referenceInvalidId i))
    else ({ m with refs := dset m.refs i ⟨value, comment⟩ }, .ok ())
  | none =>
    let n := RefManager.nextFree (m.refs.map Prod.fst) (m.refs.length + 1) m.nextId
    ({ m with refs := dset m.refs (RefManager.idStr n) ⟨value, comment⟩, nextId := n }, .ok ())

/-! ## Writing -/

/-- The text given to an element. -/
inductive XText where
  | none
  | plain (s : String)
  | cdata (s : String)
  deriving DecidableEq, Repr

/-- A child of `<meta>`; `refs` are the `reference` elements in `<references>`. -/
structure MElem where
  tag : String
  attrs : XAttrs := []
  text : XText := .none
  refs : List (XAttrs × XText) := []
  deriving DecidableEq, Repr

/-- `node.text = value`. -/
def plainText : Option String → XText
  | none => .none
  | some s => .plain s

/-- `if value is not None:` an element with this text, `xml_serializer.py` 78-83. -/
def optElem (tag : String) : Option String → List MElem
  | none => []
  | some s => [{ tag := tag, text := .plain s }]

/-- `xml_serializer.py` 68-76: the version. -/
def versionElems : Option Txt → List MElem
  | none => []
  | some v => [{ tag := "version", attrs := optAttr "comment" v.note, text := plainText v.value }]

/-- `xml_serializer.py` 68-93: the elements before the description. -/
def headElems (m : Meta) : List MElem :=
  versionElems m.version ++
  optElem "date" m.date ++ optElem "validity-start" m.validityStart ++
  optElem "validity-end" m.validityEnd ++ optElem "unicode-version" m.unicodeVersion ++
  m.languages.map (fun l => { tag := "language", text := .plain l }) ++
  m.scopes.map (fun s => { tag := "scope", attrs := optAttr "type" s.note, text := plainText s.value })

/-- `xml_serializer.py` 95-104: the description. `etree.CDATA(None)` is a `TypeError`. -/
def descElems (m : Meta) : Except Err (List MElem) :=
  match m.description with
  | none => .ok []
  | some d =>
    if d.note = none ∨ d.note = some "text/plain" then
      .ok [{ tag := "description", attrs := optAttr "type" d.note, text := plainText d.value }]
    else
      match d.value with
      | none => .error .typeError
      | some v => .ok [{ tag := "description", attrs := optAttr "type" d.note, text := .cdata v }]

/-- `xml_serializer.py` 111-122: one reference; the comment is left out when empty. -/
def refElem (p : String × Txt) : XAttrs × XText :=
  (("id", p.1) :: (match p.2.note with
    | some c => if c ≠ "" then [("comment", c)] else []
    | none => []), plainText p.2.value)

/-- `xml_serializer.py` 106-122: the references. -/
def refElems (m : Meta) : List MElem :=
  if m.refs.length > 0 then [{ tag := "references", refs := m.refs.map refElem }] else []

/-- A text which `lxml` accepts: `CDATA` raises `ValueError` when the end of the section is in it. -/
def XText.ok : XText → Bool
  | .none => true
  | .plain s => xmlOk s
  | .cdata s => xmlOk s && !decide ([']', ']', '>'] <:+: s.toList)

/-- All strings of an element are accepted by `lxml`. -/
def MElem.ok (e : MElem) : Bool :=
  e.attrs.all (fun p => xmlOk p.2) && e.text.ok &&
    e.refs.all (fun r => r.1.all (fun p => xmlOk p.2) && r.2.ok)

/-- `xml_serializer.py` 60-122: `_serialize_meta`. -/
def serializeMeta (m : Meta) : Except Err (List MElem) :=
  if (headElems m).all MElem.ok = false then .error .valueError
  else
    match descElems m with
    | .error e => .error e
    | .ok d =>
      if d.all MElem.ok && (refElems m).all MElem.ok then .ok (headElems m ++ d ++ refElems m)
      else .error .valueError

/-! ## Reading -/

/-- `child.text` once the document has been read: `None` for an empty text. Plain text comes back as it
is: `lxml` writes a carriage return as a character reference. -/
def readText (x : Ctx) : XText → Option String
  | .none => none
  | .plain s => if s = "" then none else some s
  | .cdata s => if s = "" then x.emptyCdata else some (x.cdata s)

/-- `s.replace('\r\n', '\n')`. -/
def crlf : List Char → List Char
  | [] => []
  | [c] => [c]
  | c :: d :: s => if c = '\r' ∧ d = '\n' then '\n' :: crlf s else c :: crlf (d :: s)

/-- The state of `_process_meta`. -/
structure MState where
  md : Meta := {}
  checks : Rfc7940.Results := []
  found : Bool := false

/-- `self.rfc7940_checks.add_test_result(label, success)`. -/
def MState.note (s : MState) (label : String) (success : Bool) : MState :=
  { s with checks := Rfc7940.addTestResult s.checks label success }

/-- `metadata.add_language`, `lgr/metadata.py` 199-230, with the conformance results. -/
def parseLanguage (x : Ctx) (force : Bool) (s : MState) (l : String) : MState × Except Err Unit :=
  let s1 := match x.check l with
    | some true => s.note "metadata_language" true
    | some false => if force then (s.note "metadata_language" false).note "metadata_language" true
      else s.note "metadata_language" false
    | none => s.note "metadata_language" false
  match Metadata.addLanguage x.check s.md.languages l force with
  | (ls, .ok ()) => ({ s1 with md := { s1.md with languages := ls } }, .ok ())
  | (_, .error e) => (s1, .error e)

/-- One reference, `xml_parser.py` 205-212. -/
def parseRef (x : Ctx) (s : MState) (r : XAttrs × XText) : MState × Except Err Unit :=
  match addReference s.md (readText x r.2) (dget r.1 "comment") (dget r.1 "id") with
  | (m, o) => ({ s with md := m }, o)

/-- A date element, `xml_parser.py` 180-182, 189-190: `None.split` is an `AttributeError`. -/
def parseDate (x : Ctx) (force : Bool) (s : MState) (tag : String) (text : Option String) :
    MState × Except Err Unit :=
  match text with
  | none => (s, .error .attributeError)
  | some t =>
    match setDate x tag s.md t force with
    | (m, o) => ({ s with md := m }, o)

/-- One child of `<meta>`, `xml_parser.py` 186-218. Simplified: that `rfc5646.check(None)` raises, for an
empty `language`, is taken to be an `AttributeError`. -/
def parseMetaElem (x : Ctx) (force : Bool) (s : MState) (e : MElem) : MState × Except Err Unit :=
  let text := readText x e.text
  if e.tag = "date" ∨ e.tag = "validity-start" ∨ e.tag = "validity-end" then
    parseDate x force s e.tag text
  else if e.tag = "unicode-version" then
    match text with
    | none => (s, .error .typeError)
    | some t =>
      match setUnicodeVersion x s.md t force with
      | (m, failed, o) =>
        let s1 := { s with md := m }
        let s2 := if failed then s1.note "valid_unicode_version" false else s1
        match o with
        | .error er => (s2, .error er)
        | .ok () => ({ s2 with found := true }, .ok ())
  else if e.tag = "version" then
    ({ s with md := { s.md with version := some ⟨text, dget e.attrs "comment"⟩ } }, .ok ())
  else if e.tag = "language" then
    match text with
    | none => (s, .error .attributeError)
    | some l => parseLanguage x force s l
  else if e.tag = "scope" then
    ({ s with md := { s.md with scopes := s.md.scopes ++ [⟨text, dget e.attrs "type"⟩] } }, .ok ())
  else if e.tag = "description" then
    match text with
    | none => (s, .error .attributeError)
    | some t =>
      ({ s with md := { s.md with
          description := some ⟨some (String.ofList (crlf t.toList)), dget e.attrs "type"⟩ } }, .ok ())
  else if e.tag = "references" then forEach (parseRef x) s e.refs
  else (s.note "parse_xml" false, .ok ())

/-- `xml_parser.py` 173-229: `_process_meta`, up to the creation of the LGR. -/
def parseMeta (x : Ctx) (force : Bool) (checks : Rfc7940.Results) (es : List MElem) :
    MState × Except Err Unit :=
  match forEach (parseMetaElem x force) { checks := checks } es with
  | (s, .error e) => (s, .error e)
  | (s, .ok ()) => (s.note "explicit_unicode_version" s.found, .ok ())

end Lgr.MetaXml
