import Verif.DocXml
import Verif.Checks

/-!
# `tools/rfc7940_validate.py`

From a document to what the tool writes, with `lgr/rfc7940.py` 16-37, 78-139 (the log with the result of each test),
`lgr/validate/__init__.py` (the checks in turn), `lgr/core.py` 1438-1492 and `lgr/tools/utils.py` 352-364, 418-432.
Messages to the logger are left out. Reading the document as XML and the validation against a RelaxNG schema are
`lxml`'s; the latter is a parameter. That the document of `check_xml_validity` is valid or not has no effect on what
is written (`lgr/validate/xml_validity.py`: its parser has its own conformance results).
-/

namespace Lgr.Rfc7940Tool
open Lgr Rfc7940 Validate Checks DocXml

/-! ## The log -/

/-- `test_desciption`, `lgr/rfc7940.py` 16-37. -/
def descriptions : List (String × String) :=
  [("parse_xml", "The LGR table can be parsed successfully"),
   ("validity_end_expiry", "The \"validity-end\" element (if present) in the metadata section is in future time"),
   ("validity_start_end", "The \"validity-start\" element in the metadata section is earlier in time than the \"validity-end\" element (if both are present)"),
   ("validity_started", "The \"validity-start\" element (if present) in the metadata section is in past time"),
   ("metadata_description_type", "The \"type\" attribute of the description element (if present) in the metadata section is a valid media type"),
   ("metadata_scope_type", "The \"type\" attribute of the scope element (if present) in the metadata section has a valid value"),
   ("metadata_language", "The value of each \"language\" element is a valid language tag as described in RFC5646"),
   ("metadata_version_integer", "The value of the \"version\" element (if present) in the metadata section is the decimal representation of a positive integer"),
   ("data_variant_type", "The value of the \"type\" attribute (if present) of each \"variant\" element is a non-empty value not starting with an underscore and not containing spaces"),
   ("explicit_unicode_version", "The Unicode version is set in the \"version\" element in the metadata section"),
   ("valid_unicode_version", "The Unicode version is a valid Unicode version 5.2.0 or higher"),
   ("codepoint_valid", "All code points in the LGR are included in the given Unicode version"),
   ("char_ascending_order", "All \"char\" elements are listed in ascending order of the \"cp\" attribute"),
   ("char_strict_ascending_order", "All \"char\" elements are listed in strictly ascending order of the \"cp\" attribute"),
   ("ref_attribute_ascending", "Reference identifiers given in the \"ref\" attribute are listed in ascending order (if all are integers)"),
   ("standard_dispositions", "All dispositions are registered Standard Dispositions"),
   ("basic_symmetry", "All variant relations are symmetric"),
   ("strict_symmetry", "All variant relations are symmetric and agree in their \"when\" or \"not-when\" attributes"),
   ("basic_transitivity", "All variant relations are transitive"),
   ("strict_transitivity", "All variant relations are transitivity and agree in their \"when\" or \"not-when\" attributes")]

/-- The variables of the loop: `info`, `got_error`, `got_warning`. -/
structure Log where
  info : String := ""
  err : Bool := false
  warn : Bool := false
  deriving DecidableEq, Repr

/-- `if verbose: info += s`. -/
def Log.add (g : Log) (verbose : Bool) (s : String) : Log := if verbose then { g with info := g.info ++ s } else g

/-- `lgr/rfc7940.py` 108-129: one test of the policy. -/
def logStep (r : Results) (verbose : Bool) (g : Log) (q : String × String) : Log :=
  let desc := (dget descriptions q.1).getD q.1
  match dget r q.1 with
  | none => { g with err := true }.add verbose ("ERROR: " ++ desc ++ " - NOT EXECUTED\n")
  | some false =>
    if q.2 = "IGNORE" then g.add verbose ("IGNORE: " ++ desc ++ " - NOK\n")
    else if q.2 = "WARNING" then { g with warn := true }.add verbose ("WARNING: " ++ desc ++ " - NOK\n")
    else { g with err := true }.add verbose ("ERROR: " ++ desc ++ " - NOK\n")
  | some true => g.add verbose ("PASS: " ++ desc ++ " - OK\n")

/-- `lgr/rfc7940.py` 78-139: `get_final_result` with a policy, a dictionary. -/
def finalText (r : Results) (pol : List (String × String)) (verbose : Bool) : String :=
  let g := (pol.foldl (logStep r verbose) {}).add verbose "Validation result: "
  if g.err then g.info ++ "FAIL" else if g.warn then g.info ++ "WARN" else g.info ++ "PASS"

/-! ## The checks -/

/-- The policy of the tool, lines 47-66. -/
def policy : List (String × String) :=
  [("validity_end_expiry", "ERROR"), ("validity_start_end", "ERROR"), ("validity_started", "ERROR"),
   ("metadata_description_type", "ERROR"), ("metadata_scope_type", "ERROR"), ("metadata_language", "ERROR"),
   ("metadata_version_integer", "WARNING"), ("data_variant_type", "ERROR"), ("codepoint_valid", "ERROR"),
   ("char_ascending_order", "WARNING"), ("char_strict_ascending_order", "IGNORE"),
   ("ref_attribute_ascending", "WARNING"), ("standard_dispositions", "ERROR"), ("basic_symmetry", "WARNING"),
   ("strict_symmetry", "WARNING"), ("basic_transitivity", "WARNING"), ("parse_xml", "ERROR"), ("schema", "ERROR")]

/-- The arguments of the tool and its surroundings: `-l` (`db`: the Unicode database, `None` for an empty argument),
`-r` (`rng`: the outcome of validating a document), `-t`, `-q`; languages and `lxml` (`x`), Unicode properties, depth of
recursion for patterns, today's date and media types, and the scripts of the LGR (`rebuild_lgr`). -/
structure Setup where
  x : MetaXml.Ctx
  db : Option Db
  props : String → Except Err CpSet
  fuel : Nat
  world : World
  script : Option (Nat → Bool)
  rng : Option (Doc → Bool)
  test : Bool
  quiet : Bool

/-- `XMLParser(xml)`: `force=True`, `allow_invalid_property=False` (`lgr/parser/parser.py` 20). -/
def Setup.reader (S : Setup) : Reader :=
  { x := S.x, db := S.db.map Db.valid, props := S.props, fuel := S.fuel, strict := true, force := true }

/-- The metadata, for `check_metadata`; the value of the version is dealt with by `metadataCheck`. -/
def metadataOf (m : MetaXml.Meta) : Metadata.Metadata :=
  { version := m.version.map (fun v => ⟨v.value.getD "", v.note⟩), date := m.date.map String.toList,
    languages := m.languages, scopes := m.scopes.map (fun s => ⟨s.value.getD "", s.note⟩),
    validityStart := m.validityStart.map String.toList, validityEnd := m.validityEnd.map String.toList,
    unicodeVersion := m.unicodeVersion.map String.toList,
    description := m.description.map (fun d => ⟨d.value.getD "", d.note⟩) }

/-- `<version/>`: the value is `None`. -/
def emptyVersion (m : MetaXml.Meta) : Bool :=
  match m.version with
  | some v => decide (v.value = none)
  | none => false

/-- `check_metadata`: `re.match` of `None` is a `TypeError`, before the last notification
(`lgr/validate/metadata.py` 77-80). -/
def metadataCheck (w : World) (m : MetaXml.Meta) : List Note × Except Err Unit :=
  if emptyVersion m then ((checkMetadata w { metadataOf m with version := none }).1.dropLast, .error .typeError)
  else ((checkMetadata w (metadataOf m)).1, .ok ())

/-- The notifications of a check applied to the conformance results. -/
def noted {α : Type} (r : Results) (c : List Note × Except Err α) : Results × Except Err Unit :=
  (c.1.foldl Note.apply r, c.2.map (fun _ => ()))

/-- The checks, as `lgr.validate(options)` calls them; `options` has no `ignore_rules` and no validating repertoire.
`rebuild_lgr` works on a copy of the metadata, so its notifications are lost. -/
def body (S : Setup) (g : Loaded) : Check → Results → Results × Except Err Unit
  | .xmlValidity, r =>
    match S.rng with
    | none => (r, .ok ())
    | some _ => (r, (serializeDoc g).map (fun _ => ()))
  | .symmetry, r => noted r (checkSymmetry (S.db.map Db.valid) g.lgr false)
  | .transitivity, r => noted r (checkTransitivity (S.db.map Db.valid) g.lgr)
  | .conditionalVariants, r => (r, .ok ())
  | .rebuild, r => (r, (rebuildLgr (S.db.map Db.valid) none S.script g.lgr).2)
  | .stats, r => (r, .ok ())
  | .metadata, r => noted r (metadataCheck S.world g.md)
  | .miscellaneous, r =>
    noted r (checkMisc S.world.digit S.x.pyInt S.db (g.md.unicodeVersion.map String.toList) g.rules.actions g.lgr.rep)

/-- `lgr.validate(options)` in a new process (`lgr/core.py` 959-967). -/
def validate (S : Setup) (g : Loaded) (r : Results) : Results × Except Err Unit :=
  match validateLgr (body S g) baseChecks true r with
  | (_, r', .ok _) => (r', .ok ())
  | (_, r', .error e) => (r', .error e)

/-- Lines 42-44. -/
def checked (S : Setup) (g : Loaded) (r : Results) : Results × Except Err Unit :=
  if S.test then (r, .ok ()) else validate S g r

/-- `parse_lgr`, `lgr/tools/utils.py` 352-364: `none` for `None`. -/
def parseLgr (S : Setup) (d : Doc) : Results × Except Err (Option Loaded) :=
  match S.rng with
  | none => parseDoc S.reader [] d
  | some valid =>
    if valid d then parseDoc S.reader (addTestResult [] "schema" true) d
    else (addTestResult (addTestResult [] "schema" false) "schema" true, .ok none)

/-- `main`, lines 16-73: what is written to the standard output. -/
def main (S : Setup) (d : Doc) : Except Err String :=
  match parseLgr S d with
  | (_, .error e) => .error e
  | (_, .ok none) => .ok "FAIL\n"
  | (r, .ok (some g)) =>
    match checked S g r with
    | (_, .error e) => .error e
    | (r', .ok ()) => .ok (finalText r' policy (!S.quiet) ++ "\n")

end Lgr.Rfc7940Tool
