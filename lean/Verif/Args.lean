import Verif.Basic

/-!
# Command lines of the tools: `lgr/tools/utils.py` 364-522, `tools/*`

The options which the tools declare, and what their `main` functions read of the command line, up to the point where the work
begins. `argparse` is a parameter: a function from the declared options and the words of the command line to the attributes
(`Namespace`), or an end of the program. Simplified: of the declared options, `help`, `metavar` and `choices` are left out; the
attributes are read as on a run in which all files are there and have an LGR.
-/

namespace Lgr.Args
open Lgr

/-- The value of an attribute. -/
inductive Val where
  | none
  | bool (b : Bool)
  | str (s : String)
  | list (l : List String)
  deriving DecidableEq, Repr

/-- Python's truth of a value. -/
def Val.truth : Val → Bool
  | .none => false
  | .bool b => b
  | .str s => decide (s ≠ "")
  | .list l => decide (l ≠ [])

/-- The kinds of options: `store_true`, one value, `action='append'`, `nargs='+'`, and positional arguments, required or
`nargs='?'`. -/
inductive Kind where
  | flag
  | value
  | append
  | many
  | positional
  | maybe
  deriving DecidableEq, Repr

/-- An option, with its option strings (a positional argument has none). -/
structure Opt where
  strings : List String
  dest : String
  kind : Kind
  required : Bool := false
  default_ : Val := .none
  deriving DecidableEq, Repr

/-- How a program ends early: `argparse.ArgumentError` when options are declared, the end of the program by `argparse` (usage
or help), an exception. -/
inductive Stop where
  | argumentError
  | exit
  | raised (e : Err)
  deriving DecidableEq, Repr

/-- The attributes set by `parse_args`. -/
abbrev Ns := List (String × Val)

/-- The attribute for an option: the first long option string without its hyphens, with underscores for hyphens
(`argparse`, `_get_optional_kwargs`). -/
def destOf (strings : List String) : String :=
  match strings.find? (fun s => decide (s.toList.take 2 = ['-', '-'])) with
  | some s => String.ofList ((s.toList.drop 2).map (fun c => if c = '-' then '_' else c))
  | none => String.ofList ((strings.headD "").toList.drop 1)

/-- `add_argument` of an option: a conflict of option strings raises. -/
def add (os : List Opt) (o : Opt) : Except Stop (List Opt) :=
  if o.strings.any (fun s => decide (s ∈ os.flatMap Opt.strings)) then .error .argumentError else .ok (os ++ [o])

/-- `add_argument` for the options of a list, one after the other. -/
def addAll : List Opt → List Opt → Except Stop (List Opt)
  | os, [] => .ok os
  | os, o :: rest =>
    match add os o with
    | .error e => .error e
    | .ok os' => addAll os' rest

/-- An option with a value. -/
def value (strings : List String) (required : Bool := false) (default_ : Val := .none) : Opt :=
  { strings := strings, dest := destOf strings, kind := .value, required := required, default_ := default_ }

/-- An option without value, `action='store_true'`. -/
def flag (strings : List String) : Opt := { strings := strings, dest := destOf strings, kind := .flag, default_ := .bool false }

/-- An option that can be used many times, `action='append'`. -/
def append (strings : List String) : Opt := { strings := strings, dest := destOf strings, kind := .append, required := true }

/-- An option with many values, `nargs='+'`. -/
def many (strings : List String) : Opt := { strings := strings, dest := destOf strings, kind := .many, required := true }

/-- A positional argument. -/
def positional (name : String) : Opt := { strings := [], dest := name, kind := .positional, required := true }

/-- A positional argument with `nargs='?'`. -/
def maybe (name : String) : Opt := { strings := [], dest := name, kind := .maybe }

/-- What `argparse` declares itself. -/
def help : Opt := { strings := ["-h", "--help"], dest := "help", kind := .flag }

/-! ## `LgrToolArgParser` -/

/-- `add_logging_args`, `utils.py` 378-382. -/
def loggingArgs : List Opt := [flag ["-v", "--verbose"], flag ["-q", "--quiet"]]

/-- `add_libs_arg`, 384-386. -/
def libsArg (required : Bool) : Opt := value ["-l", "--libs"] required

/-- `add_rng_arg`, 392-394. -/
def rngArg : Opt := value ["-r", "--rng"]

/-- `add_common_args`, 373-376. -/
def commonArgs : List Opt := loggingArgs ++ [libsArg true, rngArg]

/-- `add_xml_meta`, 396-397. -/
def xmlMeta : Opt := positional "xml"

/-- `add_xml_set_args`, 441-448. -/
def xmlSetArgs : List Opt :=
  [append ["-x", "--lgr-xml"], value ["-s", "--lgr-script"], value ["-f", "--set-labels"]]

/-- `self.args.name`. -/
def attr (ns : Ns) (a : String) : Except Stop Val :=
  match dget ns a with
  | none => .error (.raised .attributeError)
  | some v => .ok v

/-- The attributes of a list are read. -/
def needs (ns : Ns) : List String → Except Stop Unit
  | [] => .ok ()
  | a :: rest =>
    match attr ns a with
    | .error e => .error e
    | .ok _ => needs ns rest

/-- The level of the logger. -/
inductive Level where
  | debug
  | info
  | error
  | critical
  deriving DecidableEq, Repr

/-- `hasattr(self.args, 'test') and self.args.test`, 410. -/
def testMode (ns : Ns) : Bool :=
  match dget ns "test" with
  | none => false
  | some v => v.truth

/-- `setup_logger`, 405-415. -/
def setupLogger (ns : Ns) : Except Stop Level :=
  match attr ns "verbose" with
  | .error e => .error e
  | .ok v =>
    let level := if v.truth then Level.debug else .info
    let level' := if testMode ns && !v.truth then Level.error else level
    match attr ns "quiet" with
    | .error e => .error e
    | .ok q => .ok (if q.truth then Level.critical else level')

/-- `str.split('#')`. -/
def splitHash : List Char → List (List Char)
  | [] => [[]]
  | c :: s =>
    if c = '#' then [] :: splitHash s
    else
      match splitHash s with
      | [] => [[c]]
      | w :: ws => (c :: w) :: ws

/-- The paths of the ICU libraries and their version. -/
structure Libs where
  path : String
  i18n : String
  version : String
  deriving DecidableEq, Repr

/-- `libpath, i18n_libpath, libver = self.args.libs.split('#')`, 427. -/
def unpackLibs (s : String) : Except Stop Libs :=
  match splitHash s.toList with
  | [a, b, c] => .ok ⟨String.ofList a, String.ofList b, String.ofList c⟩
  | _ => .error (.raised .valueError)

/-- `get_unidb`, 423-430. Simplified: the libraries can be registered. -/
def getUnidb (ns : Ns) : Except Stop (Option Libs) :=
  match attr ns "libs" with
  | .error e => .error e
  | .ok v =>
    if v.truth then
      match v with
      | .str s =>
        match unpackLibs s with
        | .error e => .error e
        | .ok l => .ok (some l)
      | _ => .error (.raised .attributeError)
    else .ok none

/-- What the work of a tool starts with. -/
structure Started where
  level : Level
  libs : Option Libs := none
  xml : List String := []
  deriving DecidableEq, Repr

/-- The path of a document, as it is given to the parser. -/
def paths : Val → List String
  | .str s => [s]
  | .list l => l
  | _ => []

/-- `self.args.xml or self.args.lgr_xml`, 421. -/
def xmlOrLgrXml (ns : Ns) : Except Stop Val :=
  match attr ns "xml" with
  | .error e => .error e
  | .ok v => if v.truth then .ok v else attr ns "lgr_xml"

/-- `parse_lgr`, 417-421, up to the reading of the document. -/
def parseLgr (ns : Ns) (level : Level) : Except Stop Started :=
  match xmlOrLgrXml ns with
  | .error e => .error e
  | .ok x =>
    match attr ns "rng" with
    | .error e => .error e
    | .ok _ =>
      match getUnidb ns with
      | .error e => .error e
      | .ok l => .ok { level := level, libs := l, xml := paths x }

/-! ## The tools -/

/-- A tool: the options it declares, in order, and the beginning of its work. -/
structure Tool where
  name : String
  opts : List Opt
  head : Ns → Except Stop Started

/-- A tool that calls `parser.parse_lgr()` and reads other attributes besides. -/
def oneXml (rest : List String) (ns : Ns) : Except Stop Started :=
  match setupLogger ns with
  | .error e => .error e
  | .ok level =>
    match parseLgr ns level with
    | .error e => .error e
    | .ok s =>
      match needs ns rest with
      | .error e => .error e
      | .ok () => .ok s

/-- A tool that reads the paths of its documents from the attributes `files`, and the Unicode database. -/
def withDb (files rest : List String) (ns : Ns) : Except Stop Started :=
  match setupLogger ns with
  | .error e => .error e
  | .ok level =>
    match getUnidb ns with
    | .error e => .error e
    | .ok l =>
      match needs ns (files ++ rest) with
      | .error e => .error e
      | .ok () => .ok { level := level, libs := l, xml := files.flatMap (fun a => ((dget ns a).map paths).getD []) }

/-- The same without Unicode database. -/
def withoutDb (files rest : List String) (ns : Ns) : Except Stop Started :=
  match setupLogger ns with
  | .error e => .error e
  | .ok level =>
    match needs ns (files ++ rest) with
    | .error e => .error e
    | .ok () => .ok { level := level, xml := files.flatMap (fun a => ((dget ns a).map paths).getD []) }

/-- `tools/lgr_annotate.py` 20-43, with `process_set` (`utils.py` 450-493). -/
def annotate : Tool :=
  { name := "lgr_annotate"
    opts := commonArgs ++ [value ["-o", "--output"] true] ++ xmlSetArgs ++ [positional "labels"]
    head := withDb ["lgr_xml"] ["lgr_script", "set_labels", "rng", "labels", "output"] }

/-- `tools/lgr_cli.py` 77-126. -/
def cli : Tool :=
  { name := "lgr_cli"
    opts := commonArgs ++ [value ["-m", "--msr"], value ["-u", "--unicode"] false (.str "6.3.0"), flag ["-t", "--test"],
      flag ["-c", "--check"], flag ["-i", "--invalid"], xmlMeta, maybe "label"]
    head := oneXml ["msr", "unicode", "test", "check", "label", "invalid"] }

/-- `tools/lgr_collision.py` 34-82. -/
def collision : Tool :=
  { name := "lgr_collision"
    opts := commonArgs ++ [flag ["-g", "--generate"], value ["-l", "--libs"] true, value ["-s", "--set"] true, xmlMeta]
    head := oneXml ["set", "generate"] }

/-- `tools/lgr_compare.py` 20-80. -/
def compare : Tool :=
  { name := "lgr_compare"
    opts := loggingArgs ++ [rngArg, append ["-1", "--first"], append ["-2", "--second"], positional "action",
      flag ["-g", "--generate"], value ["-n1", "--name-first"], value ["-n2", "--name-second"]]
    head := withoutDb ["first", "second"] ["action", "name_first", "name_second", "rng", "generate"] }

/-- `tools/lgr_diff_collisions.py` 20-67. -/
def diffCollisions : Tool :=
  { name := "lgr_diff_collisions"
    opts := commonArgs ++ [value ["-1", "--first"] true, value ["-2", "--second"], value ["-s", "--set"] true,
      flag ["-g", "--generate"], flag ["-n", "--no-rules"]]
    head := withDb ["first", "second"] ["rng", "set", "generate", "no_rules"] }

/-- `tools/lgr_harmonize` 20-56. -/
def harmonize : Tool :=
  { name := "lgr_harmonize"
    opts := commonArgs ++ [value ["-1", "--first"] true, value ["-2", "--second"] true, value ["-z", "--root-zone"],
      positional "output"]
    head := withDb ["first", "second", "root_zone"] ["rng", "output"] }

/-- `tools/lgr_merge_set.py` 17-39. -/
def mergeSet : Tool :=
  { name := "lgr_merge_set"
    opts := loggingArgs ++ [libsArg false, rngArg, value ["-n", "--name"], append ["-s", "--lgr-set"]]
    head := withDb ["lgr_set"] ["name", "rng"] }

/-- `tools/lgr_populate_variants.py` 17-32. -/
def populate : Tool :=
  { name := "lgr_populate_variants"
    opts := commonArgs ++ [value ["-x", "--lgr-xml"] true]
    head := withDb ["lgr_xml"] ["rng"] }

/-- `tools/lgr_validate.py` 100-131, with `process_set`. -/
def validate : Tool :=
  { name := "lgr_validate"
    opts := commonArgs ++ [flag ["-g", "--variants"]] ++ xmlSetArgs
    head := withDb ["lgr_xml"] ["lgr_script", "set_labels", "rng", "variants"] }

/-- `LgrDumpTool.run`, `utils.py` 502-522: `one_per_line_dump.py`, `rfc3743_dump.py` and `rfc4290_dump.py`. -/
def dump (name : String) : Tool :=
  { name := name
    opts := loggingArgs ++ [value ["-o", "--output"], positional "file"]
    head := withoutDb ["file"] ["output"] }

/-- `tools/rfc7940_validate.py` 17-70. -/
def rfc7940Validate : Tool :=
  { name := "rfc7940_validate"
    opts := commonArgs ++ [value ["-u", "--unicode"] false (.str "6.3.0"), flag ["-t", "--test"], xmlMeta]
    head := oneXml ["unicode", "rng", "test", "quiet"] }

/-- `tools/xml_dump.py` 16-39. -/
def xmlDump : Tool :=
  { name := "xml_dump"
    opts := loggingArgs ++ [rngArg, value ["-o", "--output"], xmlMeta]
    head := oneXml ["verbose", "output"] }

/-- The tools which use `LgrToolArgParser` and its logger. `lgr_idn_table_review.py` sets up the logger itself and
`make_idna_repertoire.py` uses `argparse` as it is. -/
def tools : List Tool :=
  [annotate, cli, collision, compare, diffCollisions, harmonize, mergeSet, populate, validate, dump "one_per_line_dump",
   dump "rfc3743_dump", dump "rfc4290_dump", rfc7940Validate, xmlDump]

/-- `parse_args` of `argparse`. -/
abbrev Argparse := List Opt → List String → Except Stop Ns

/-- The beginning of a tool, from its command line. -/
def run (P : Argparse) (t : Tool) (argv : List String) : Except Stop Started :=
  match addAll [help] t.opts with
  | .error e => .error e
  | .ok os =>
    match P os argv with
    | .error e => .error e
    | .ok ns => t.head ns

end Lgr.Args
