import Verif.CompareTool

/-!
# Merging a set of documents: `tools/lgr_merge_set.py`

The tool, `merge_lgrs` (`lgr/tools/utils.py` 239-276) and `merge_lgr_set` (`lgr/tools/merge_set.py` 452-492) on whole
documents: metadata and rules (`MergeXml`), references and code points (`MergeSet`), then the merged LGR is written, read
again and printed. Simplified as in these files; a class or rule without name counts as one with an empty name; how `lxml`
reads the text of an element is a parameter (`read`). The verdict of the RelaxNG schema is only logged (`utils.py` 256-260).
-/

namespace Lgr.MergeTool
open Lgr Compare MetaXml RulesXml DocXml PopulateTool MergeSet CompareTool

/-- What the outcome depends on besides the documents: as for the comparison, and the script extensions of the Unicode
database. -/
structure Env extends CompareTool.Env where
  scx : Nat → List String

/-! ## Metadata -/

/-- The metadata as `merge_metadata` sees them. That `None` is not the empty text makes no difference for versions
(`merge_set.py` 55-58) and when scopes are written (`xml_serializer.py` 90-93). -/
def plainMeta (m : Meta) : Metadata.Metadata :=
  { version := m.version.map (fun v => ⟨v.value.getD "", v.note⟩)
    date := m.date.map String.toList
    languages := m.languages
    scopes := m.scopes.map (fun s => ⟨s.value.getD "", s.note⟩)
    validityStart := m.validityStart.map String.toList
    validityEnd := m.validityEnd.map String.toList
    unicodeVersion := m.unicodeVersion.map String.toList
    description := m.description.map (fun d => ⟨fmt d.value, d.note⟩) }

/-- The metadata as the writer sees them, with the references of the merged LGR. -/
def metaOf (m : Metadata.Metadata) (r : RefManager) : Meta :=
  { version := m.version.map (fun v => ⟨some v.value, v.comment⟩)
    date := m.date.map String.ofList
    languages := m.languages
    scopes := m.scopes.map (fun s => ⟨if s.value = "" then none else some s.value, s.type⟩)
    validityStart := m.validityStart.map String.ofList
    validityEnd := m.validityEnd.map String.ofList
    unicodeVersion := m.unicodeVersion.map String.ofList
    description := m.description.map (fun d => ⟨some d.value, d.type⟩)
    refs := refsMeta r
    nextId := r.nextId }

/-- `merge_set.py` 97-132, on what was read. -/
def mergeMeta (today : String) (gs : List Loaded) (r : RefManager) : Meta :=
  metaOf (MergeXml.mergeMetadata today.toList (gs.map (fun g => plainMeta g.md))) r

/-! ## The set -/

/-- An LGR of the set as `merge_references` and `merge_chars` see it. -/
def inputOf (E : Env) (R : Reader) (g : Loaded) : Input :=
  { languages := g.md.languages, lgr := g.lgr, db := R.db, scx := E.scx, rules := namesOf g.rules.ruleNames }

/-- `lgr/metadata.py` 401: the identifiers of references which are accepted. -/
def validId (i : String) : Bool := refIdOk i.toList

/-- `get_script` and the key of `merge_set.py` 463. -/
def scriptKey (g : Loaded) : List Nat := (replaceUnd (g.md.languages.headD "").toList).map Char.toNat

/-- `merge_set.py` 462-463: the order of the LGRs. -/
def sorted (gs : List Loaded) : List Loaded := sortAsc scriptKey gs

/-- The rules asked for when a code point of the LGR is merged, `merge_set.py` 393-413: script and name. -/
def askedAt (i : Input) (prev : List String) (snap : List Seq) (s : CState) (c : CharObj) : List (String × String) :=
  if c.cp ∈ snap then
    match s.1.lgr.rep.lookup c.cp with
    | none => []
    | some e =>
      match mergeRule i.script prev e.attrs.whenR c.attrs.whenR with
      | none => []
      | some (_, r1) =>
        match mergeRule i.script prev e.attrs.notWhenR c.attrs.notWhenR with
        | none => r1.toList
        | some (_, r2) => r1.toList ++ r2.toList
  else []

/-- The same along the loop of `merge_chars`. -/
def askedLoop (ord : SetOrder) (i : Input) (map : List (String × String)) (prev : List String) (snap : List Seq) :
    CState → List CharObj → List (String × String)
  | _, [] => []
  | s, c :: cs => askedAt i prev snap s c ++ askedLoop ord i map prev snap (mergeChar ord i map prev snap s c).1 cs

/-- What is taken of an LGR for the section of rules; `s` is the state of the loop over the set before this LGR. -/
def partOf (ord : SetOrder) (i : Input) (s : SState) (g : Loaded) : MergeXml.Part :=
  let l := (i.lgr.expandRanges i.db).1
  let rm := (mergeReferences validId l.refs s.m.lgr.refs ((dget s.maps i.script).getD [])).1
  let maps := dset s.maps i.script rm.2
  let m : Merged := { s.m with lgr := { s.m.lgr with refs := rm.1 } }
  { script := i.script
    classes := g.rules.clsXml.map MergeXml.itemOf
    rules := g.rules.rulesXml.map MergeXml.itemOf
    actions := g.rules.actions.zip (g.rules.actionsXml.map MergeXml.render)
    map := rm.2
    asked := askedLoop ord i rm.2 s.prev (cps m.lgr) (m, []) l.rep.iter
    other := fun x => (dget maps x).getD [] }

/-- The same for all LGRs, in the order of the loop. -/
def partsOf (E : Env) (R : Reader) : SState → List Loaded → List MergeXml.Part
  | _, [] => []
  | s, g :: gs => partOf E.ord (inputOf E R g) s g :: partsOf E R (mergeOne E.ord validId s (inputOf E R g)).1 gs

/-- The texts of the section of rules are read by the writer, `xml_serializer.py` 173-186. -/
def readSection (E : Env) (s : MergeXml.Section) : Except Err Rules :=
  readRules E.toEnv (s.classes.map Prod.fst, s.classes.map (fun p => String.ofList p.2))
    (s.rules.map Prod.fst, s.rules.map (fun p => String.ofList p.2))
    (s.actions.map Prod.fst, s.actions.map (fun p => String.ofList p.2))

/-- `merge_set.py` 452-483: the merged LGR, its part about rules up to the point where the writer has read their texts. -/
def mergeLoaded (E : Env) (R : Reader) (gs : List Loaded) : Except Err Loaded :=
  match mergeAll E.ord validId (gs.map (inputOf E R)) with
  | (_, .error e) => .error e
  | (s, .ok ()) =>
    match readSection E (MergeXml.mergeSection (partsOf E R {} (sorted gs))) with
    | .error e => .error e
    | .ok r => .ok { md := mergeMeta E.today (sorted gs) s.m.lgr.refs, lgr := s.m.lgr, rules := r }

/-- `XMLParser(source=...)`, `merge_set.py` 490: without Unicode database. -/
def again (R : Reader) : Reader := { reader R with db := none }

/-- `merge_set.py` 485-492: the merged LGR is written and read. -/
def rereadDoc (R : Reader) (g : Loaded) : Except Err (Option Loaded) :=
  match serializeDoc g with
  | .error e => .error e
  | .ok d => (parseDoc (again R) [] d).2

/-! ## The tool -/

/-- `utils.py` 250-268: the documents are read one after the other; `none` when one of them has no LGR. -/
def readDocs (R : Reader) : List Doc → Except Err (Option (List Loaded))
  | [] => .ok (some [])
  | d :: ds =>
    match (parseDoc (reader R) [] d).2 with
    | .error e => .error e
    | .ok none => .ok none
    | .ok (some g) =>
      match readDocs R ds with
      | .error e => .error e
      | .ok none => .ok none
      | .ok (some gs) => .ok (some (g :: gs))

/-- `tools/lgr_merge_set.py` 29-39. `merge_lgrs` returns `None` when a document has no LGR (`utils.py` 266), and `None` cannot
be unpacked (37). -/
def main (E : Env) (R : Reader) (ds : List Doc) : Outcome :=
  if ds.length = 1 then .logged
  else
    match readDocs R ds with
    | .error e => .raised e
    | .ok none => .raised .typeError
    | .ok (some gs) =>
      match mergeLoaded E R gs with
      | .error e => .raised e
      | .ok g =>
        match rereadDoc R g with
        | .error e => .raised e
        | .ok none => .logged
        | .ok (some m) => printed (.ok m)

end Lgr.MergeTool
