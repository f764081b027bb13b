# Formal model of icann/lgr-core: design

The code in `/repo` is Python. It is not run here. The model in `lean/Verif` is a
shallow functional transcription of the functions named below; the theorems are
about that transcription.

## Trusted base

* The Lean 4.33.0 kernel and the definitions of Lean core and Mathlib.
* Axioms: every theorem listed in `MANIFEST.json` depends on at most `propext`,
  `Classical.choice` and `Quot.sound`. No axiom is added; no `sorry`, `native_decide`
  or `bv_decide`. Witnesses are evaluated by the kernel (`decide`, `decide +kernel`, `rfl`).
* The reading of the Python source: each definition cites file and lines. Nothing checks
  mechanically that the transcription is faithful; `seeded/LOG.jsonl` records how the theorems
  react to realistic wrong edits of the model.
* Behaviour of what the code calls and the model takes as parameter (see "Parameters").

## Modelling conventions

* A code point is a `Nat`, a code point sequence / label a `List Nat` (`Seq`), a Python
  string used as a name (rule, tag, type, reference id) a `String`; text that is parsed or
  written is a `List Char`.
* A Python dictionary is an association list in insertion order (`dget`, `dset`, `ddel`);
  Python `sorted` is a stable insertion sort. Python `set` iteration order is unspecified:
  where a result depends on it, the order is a universally quantified parameter, otherwise a
  set is a list (or a predicate) of which only membership counts.
* A Python exception is a value of type `Err`. A call that may both mutate and raise
  returns the state *after* the call together with the outcome, so partial mutation on
  failure is visible (`lgr.add_range` stopping half-way, for instance). `forEach` is a loop
  whose body may raise. Generators are lists.
* Unbounded recursion or looping takes a `fuel` argument; theorems say which amount
  is enough, or that running out of it is Python's `RecursionError` (`Classes`, `Rule`).
* Objects are values. Where aliasing of a mutable object matters for a property (the class-level
  list `CHECKS`, memoised methods, cached patterns) it is modelled as state; otherwise it is not
  represented (lists of references or tags shared by the characters of a range).

## Parameters (universally quantified, or assumed where said)

* `Env.ruleMatches`, `FullEnv.labelMatches`: evaluation of a named rule, which may raise. Theorems
  on eligibility, variants and dispositions hold for every such function. `Verif.Rule` models rules
  themselves, for C63-C67.
* ICU regular expressions (`Verif.Rule`): the meaning of the constructs that `get_pattern` can
  produce is assumed to be that of the ICU documentation (`Re.Match`), positions counted in code
  points; look-behind is limited to bounded patterns, as in ICU.
* The Unicode database: IDNA validity, scripts, ages, digits, sets of a property.
* `int(s)`, `\d`, `str.isspace`-like character classes, `rfc5646.check`, the clock (`today`).
* `repr` of strings is modelled after CPython; which characters are printable is a parameter (C60).

## Not modelled

Logging and messages; XML and JSON library internals, the algorithm of
XML schema validation (what is valid for `resources/lgr.rng` is modelled, C147); file input and output; encodings and IDNA conversion (A-labels);
hash collisions; the interpreter's memory and (except as said) recursion limits; the
command line tools other than those listed below, and the HTML output; `munidata` itself.

## Modules

| module | source | content |
|---|---|---|
| `Verif/Basic.lean` | | code points, exceptions, dictionaries, `sorted` |
| `Verif/Char.lean` | `lgr/char.py` 45-335 | variants and characters |
| `Verif/Repertoire.lean`, `RepLemmas.lean` | `lgr/char.py` 337-932 | repertoire, ranges |
| `Verif/VariantSets.lean` | `lgr/char.py` 773-812 | variant sets |
| `Verif/Collapse.lean` | `lgr/utils.py` 112-143 | `collapse_codepoints` |
| `Verif/Lgr.lean`, `LgrOps.lean` | `lgr/core.py` 200-960, 1952-2130 | LGR edit operations, histories |
| `Verif/Label.lean`, `LabelLemmas.lean` | `lgr/core.py` 1284-1427, 1514-1590, 1915-1950 | eligibility, partitions, index labels |
| `Verif/Action.lean` | `lgr/action.py`, `lgr/core.py` 53-63, 1877-1913 | actions |
| `Verif/Variants.lean`, `Disposition.lean` | `lgr/core.py` 1023-1282, 1592-1875, `mixed_scripts_variant_filter.py` | variants and dispositions |
| `Verif/References.lean` | `lgr/metadata.py` 337-477 | reference manager |
| `Verif/Metadata.lean` | `lgr/metadata.py`, `lgr/memoize.py`, parts of `tools/compare` | dates, languages, merged metadata |
| `Verif/Rfc7940.lean` | `lgr/rfc7940.py` | conformance verdict |
| `Verif/Validate.lean`, `Checks.lean` | `lgr/validate` | symmetry, transitivity; the other checks |
| `Verif/Populate.lean` | `lgr/populate` | populate |
| `Verif/Compare.lean`, `Collisions.lean` | `lgr/tools/compare`, `lgr/tools/diff_collisions.py` | union, intersection, collisions, annotation |
| `Verif/Classes.lean`, `Rule.lean` | `lgr/classes.py`, `lgr/rule.py`, `lgr/matcher.py` | class expressions, rules |
| `Verif/Text.lean`, `Tables.lean` | `lgr/utils.py`, `lgr/tools/utils.py`, `lgr/parser` | notations, table files |
| `Verif/Review.lean`, `ReviewSets.lean` | `lgr/tools/idn_review` | review of a table against a reference LGR |
| `Verif/Harmonize.lean` | `lgr/tools/harmonize.py` | harmonising two LGRs, with or without a root zone LGR |
| `Verif/Xml.lean` | `lgr/parser/xml_serializer.py`, `xml_parser.py` | writing and reading the `<data>` section, as trees of elements (the text form is left to `lxml`) |
| `Verif/MergeSet.lean` | `lgr/tools/merge_set.py` | merging a set of LGRs: references, code points, variants, names of rules (not metadata, actions, classes, contents of rules) |
| `Verif/MetaXml.lean` | `lgr/parser/xml_serializer.py` 60-122, `xml_parser.py` 173-229, setters of `lgr/metadata.py` | writing and reading the `<meta>` section. Assumed of `lxml`: trees come back, plain text comes back as it is, an empty text as `None`, `CDATA` raises `ValueError` on `]]>`; parameters: `int`, `\d`, `rfc5646.check`, what is read from a CDATA section. `rfc5646.check(None)` is taken to raise `AttributeError` |
| `Verif/RulesXml.lean` | `lgr/parser/xml_parser.py` 330-543, `xml_serializer.py` 19-37, 173-186 | reading and writing the `<rules>` section: trees of classes, rules, actions. Simplified: a malformed `count` is rejected when the rule is parsed, a missing `disp` is an empty one. Assumed of `lxml`: trees come back, the default name space is added when writing |
| `DocXml` | `xml_parser.py` 137-171, 491-516 (`parse_document`, `unicode_version`, `_fast_iter`), `xml_serializer.py` 19-37: the three sections in sequence; the document is the list of its sections, a document without `<meta>` is included. Simplified: elements outside the three sections, repeated sections and sections in another order are left out |
| `Verif/LabelInput.lean` | `read_labels`, `parse_label_input`, `_parse_label_input`, `get_rz_label_script` (`lgr/tools/utils.py` 30-71, 162-236, 279-322); `annotate`, `_out_valid_label`, second loop of `lgr_set_annotate` (`lgr/tools/annotate.py`). Strings are lists of characters; labels are sequences of code points (with or without `as_cp`); the IDNA decoder, `str(exception)` and scripts are parameters; lower and upper case only matter for `xn--` and `U+`. When `effective_actions[i]` raises, the first line of the block has already been written by the code; the model drops it |
| `Verif/CollisionReports.lean` | `_compare`, `_compare_labels`, `_get_new_variants`, `_write_complete_output`, `_write_simple_output`, `_full_dump`, `diff`, `collision`, `basic_collision` (`lgr/tools/diff_collisions.py` 147-582), and the calls of `generate_index_label` and `compute_label_disposition`. What the generators yield is kept as structured lines instead of text; `with_annotations` is left out; `str.lower` and the log are parameters |
| `Verif/Diff.lean` | `lgr/tools/compare/diff.py`: textual comparison of two LGRs and of two sets of LGRs. The text is a list of structured lines; sets are enumerated in an order given as parameter; LGRs in sets are objects which comparisons change |
| `Verif/Props/Diff.lean`, `Verif/Props/DiffSets.lean` | C115, C116 |
| `Verif/MergeXml.lean` | `merge_version`, `merge_description`, `merge_metadata`, `rename_action`, `merge_actions`, `rename_rule`, `merge_rules`, `rename_class`, `merge_classes` (`lgr/tools/merge_set.py` 43-132, 160-314) on the XML text of actions, rules and classes. The texts are those lxml writes for elements (`render`: no namespace declarations, no insignificant white space); regular expressions are the scans `sub`, `subRefs`, `replace`; `script` is taken literally, though the code puts it in the replacement string of `re.sub` |
| `Verif/Props/MergeText.lean`, `MergeNames.lean`, `MergeMeaning.lean`, `MergeActions.lean`, `MergeSection.lean`, `MergeMatch.lean`, `MergeCases.lean` | C117 |
| `Verif/Props/MergeDisp.lean`, `Verif/Props/MergeWrong.lean` | C118, violations of C117 and C118 |
| `Verif/Props/MergeMeta.lean` | C119 |
| `Verif/Cli.lean` | `tools/lgr_cli.py`, `tools/lgr_validate.py`, `tools/lgr_collision.py`: lines written by the tools testing labels; logging and decoding of the lines of the input are left out |
| `Verif/Props/Cli.lean`, `Verif/Props/CliSet.lean` | C120, C121, C122 |
| `Verif/Idna2008.lean`, `Verif/Props/Idna2008.lean` | `is_idna_valid_cp_or_sequence`, `tools/idna2008_compliance.py`; C123 |
| `Verif/ReviewGeneral.lean`, `Verif/Props/ReviewGeneral.lean` | general rules of `idn_review/whole_label_evaluation_rules.py` with its tables of labels; C124 |
| `Verif/Rfc7940Tool.lean`, `Verif/Props/Rfc7940Tool.lean`, `Verif/Props/Rfc7940Verdict.lean` | `tools/rfc7940_validate.py`, the text of `rfc7940.get_final_result`; C125 |
| `Verif/IdnaTable.lean`, `Verif/Props/IdnaTable.lean` | `tools/make_idna_repertoire.py`; C126 |
| `Verif/Props/ReviewTags.lean` | C127 (model in `Verif/Review.lean`) |
| `Verif/Scripts.lean`, `Verif/Props/Scripts.lean` | `utils.script_iso15924_to_unicode`, `Metadata.get_scripts`, `LGR.cp_in_script`; C128 |
| `Verif/RuleText.lean`, `Verif/Props/RuleText.lean` | `str(rule)`, `utils.format_cp_collapsed`; C129 |
| `Verif/PopulateTool.lean`, `Verif/Props/PopulateXml.lean`, `Verif/Props/PopulateTool.lean` | `lgr_populate_variants`; C130, C131 |
| `Verif/Memo.lean`, `Verif/Props/Memo.lean` | `lgr/memoize.py`; C60 |
| `Verif/Props/CompareLabels.lean` | labels of a union and of an intersection; C132 |
| `Verif/Props/PopulateLabels.lean` | labels before and after populating; C133 |
| `Verif/Props/PopulateIndex.lean` | collisions after populating; C134 |
| `Verif/Props/HarmonizeLabels.lean` | labels before and after harmonising; C135 |
| `Verif/Props/HarmonizeIndex.lean` | index labels after harmonising; C136 |
| `Verif/Props/MergeLabels.lean` | labels of a merged set; C137 |
| `Verif/AnnotateSet.lean`, `Verif/Props/AnnotateSet.lean` | `lgr_set_annotate`, `lgr/tools/annotate.py` 45-94; C138 |
| `Verif/Props/MergeIndex.lean` | index labels in a merged set; C139 |
| `Verif/CompareTool.lean` | `lgr_compare.py` UNION and INTERSECT from documents to the printed document: metadata, rules section, entries |
| `Verif/Props/RulesAny.lean`, `Verif/Props/CompareGood.lean`, `Verif/Props/CompareMeta.lean`, `Verif/Props/CompareSections.lean`, `Verif/Props/CompareTool.lean`, `Verif/Props/CompareToolWrong.lean` | what is read of a rules section without database; the result of a comparison can be written; the tool; C140 |
| `Verif/HarmonizeTool.lean` | `tools/lgr_harmonize` from documents to the files written and the code points listed |
| `Verif/Props/HarmonizeXml.lean`, `Verif/Props/HarmonizeTool.lean` | the result of harmonisation can be written; the tool; C141 |
| `Verif/DumpTool.lean` | `LgrDumpTool`: the regular expressions of reference and version lines, metadata of tables, from lines to the document printed |
| `Verif/Props/DumpTool.lean` | the dump tools; C142 |
| `Verif/MergeTool.lean` | `lgr_merge_set.py`, `merge_lgrs`, `merge_lgr_set`: from documents to the document printed |
| `Verif/Props/MergeToolMeta.lean`, `Verif/Props/MergeTool.lean`, `Verif/Props/MergeToolEx.lean` | the tool; C143 |
| `Verif/Args.lean` | the options of the command line tools, `LgrToolArgParser` |
| `Verif/Props/Args.lean` | C144 |
| `Verif/ReviewTool.lean` | `idn_review/review.py`, `header.py`, `summary.py`, the core reports, `tools/lgr_idn_table_review.py` |
| `Verif/Props/ReviewTool.lean` | C145 |
| `Verif/AllTags.lean` | `LGR.all_tags`, `LGR.get_tag_classes` |
| `Verif/Props/AllTags.lean` | C146 |
| `Verif/Schema.lean` | `resources/lgr.rng` with the part of RELAX NG it uses, `check_xml_validity` |
| `Verif/Props/Schema.lean`, `SchemaText.lean`, `SchemaData.lean`, `SchemaMeta.lean`, `SchemaDoc.lean` | C147 |
| `Verif/Props/MetaMeaning.lean` | C148 |
| `Verif/Props/RulesRead.lean` | C149: elements as the schema has them (`ItemShape`), and when a section of them is read |
| `Verif/Props/RulesSchema.lean` | C149: valid documents have such elements; documents which are read |
| `Verif/Props/RulesDb.lean` | C150: reading with a Unicode database: all that is declared can be evaluated |
| `Verif/Sections.lean` | `lgr/parser/xml_parser.py` 155-171, 491-516 | the loop over the sections of a document, in any order and number |
| `Verif/Props/Sections.lean` | C151: order and number of sections |
| `Verif/Props/LongestMatch.lean` | C152: the labels which pass the preliminary test, by longest match |
| `Verif/Props/DocVariantsAll.lean` | C153: the variants under a document with overlapping sequences |
| `Verif/Props/DocIndex.lean` | C154: the index label under a document |
| `Verif/Props/DocChecks.lean` | C155: the checks of variants, in terms of the document |
| `Verif/Props/DocCollisions.lean` | C156: collisions under a document which passes the checks |
| `Verif/Props/DocReport.lean` | C157: the report on collisions under a document |
| `Verif/Props/Spaces3743.lean` | C158: spaces in tables in the notation of RFC 3743 |
| `Verif/Props/AnyTable.lean` | C159: every file, as a table in the notation of RFC 4290 |
| `Verif/Props/DocStats.lean` | C160: the statistics of an LGR, in terms of the document |
| `Verif/Props/AnyTable3743.lean` | C161: every file, as a table in the notation of RFC 3743 |
| `Verif/Props/DocReportFull.lean` | C162: the full report on collisions with its dump, in terms of a document which passes the checks |
| `Verif/Props/RefLines.lean` | C163: reference lines of RFC 3743 tables |
| `Verif/Props/DumpAny.lean` | C142 for every file, whether its lines have a meaning or not |
| `Verif/Props/AnnotateDoc.lean` | C110 for documents with any sequences |
| `Verif/Props/TableLabels.lean` | C164: the labels accepted under a table, and their dispositions |
| `Verif/Props/TableVariants.lean` | C165: the variants listed for a label under a table |
| `Verif/Props/TableEstimate.lean` | C166: the estimated number of variants under a table |
| `Verif/Props/TableChecks.lean` | C167: the symmetry and transitivity checks on a table |

Property theorems live in `Verif/Props/*.lean` (namespaces `C01`, `C02`, ...), apart from helper
lemmas. A theorem whose name ends in `_partial` proves part of a property; what is missing is in its
comment and in the note below.

## How the properties are stated and proved

* Repertoire, LGR edits (C01-C11, C40, C43, C50, C51): invariants over every history of calls, and
  refinement to a finite map; acceptance conditions as `iff`, effects point-wise.
* Labels (C13-C19): independent inductive notion of segmentation; exactness by induction on the label.
* Dispositions and variants (C20-C25, C41, C47-C49): the generated set equals an independent
  description (`RFC 7940` section 8).
* Checks and populate (C12, C26-C29, C37, C52, C53, C68-C72): results as `iff`; termination by a
  measure on pairs of code points.
* Comparison, collisions (C30-C33, C44, C54-C59).
* Classes and rules (C42, C63-C67): set semantics; language semantics of rules.
* Text and tables (C35, C36, C73-C76): inductive syntax, meaning of a file as a list of items.
* IDN review (C38, C39, C77-C91): each section of the report is compared with a relation between the two LGRs;
  iteration orders on sets are quantified.
* Harmonisation (C46): the loops are described by an invariant (`Stage`), `populate_lgr` by C29; the result is an
  operation on graphs (code points, variant pairs), about which agreement is proved.
* Normal return (C28 `populate_returns`, C46 `harmonize_returns`): theorems that say "if the call returns" are
  complemented by conditions on the input under which no exception is raised.
* Round trip of the `<data>` section (C34, C93): every entry is compared with what is read, by an invariant on the
  elements already read; a stable-sort argument shows that writing again gives the same document.
* Merging a set (C45, C94-C98): an invariant relates the merged LGR to the LGRs already taken, whatever their order;
  it is carried through writing and reading the merged LGR.
* Round trip of the `<meta>` section (C99): each element is read by a lemma, the whole by composition; every history
  of calls with proper texts is shown to give metadata for which this holds.
* Round trip of the `<rules>` section (C101): classes do not depend on rules and actions, so that reading all classes
  first gives lookups which extend those a rule had when it was read first; validation and patterns are shown not to
  change under such an extension (`validate_ext`, `patternC_ext`).
* Class elements (C102): words and hexadecimal numbers are specified by relations, not by the functions of the model.
* Rules of a document (C103): a meaning of the elements is defined on the elements (`NSet`, `NHolds`, `Meaning`); the
  section is described as a run of unforced definitions (`Run`), along which the invariants of C65 and C66 are carried
  and each name is traced to its element; C63 and C64 then give the answers of the LGR.
* Data section (C105): what the elements say is specified by relations on the attributes (`Says`, `Means`), when they
  may stand together by `Fine` and `Apart`; adding is then described entry by entry from C04 and C50.
* Labels and dispositions of a document (C106, C107): C103 and C105 are put together; `Sense`, `Made`, `Fires`, `First`
  speak of items and elements only. An evaluation of rules is `Faithful` when it gives the answers of the LGR, whatever
  was asked before; existence of a faithful one is proved, and that all of them agree.
* Variants of a document (C111): C106 and C107 are put together with the completeness of the enumeration (C12, C13): a
  derivation step of the enumeration corresponds to a part of the label kept or replaced (`Use`), its context test to
  the element of the rule evaluated on the label replaced so far.
* Reports on collisions (C112, C113): the groups of `_generate_indexes` (C32) are described by `Groups` and `group_info`;
  what the reports list is stated by membership of lines (`Reported`, `Dumped`), for any index function and dispositions.
  `tame` restricts dispositions to the labels they are computed for. The hypotheses are then proved for
  `indexOf`/`dispoOf`, the index and dispositions of an LGR, with C17, C18, C25.
* Comparison on labels (C114): `Compared` says by membership which lines are written for each label; one label is treated with
  the groups described by `Grp`, then the labels are put together (`Compared.union`). Every failure is shown to be
  `InvalidSymmetry` (`Sym`) and to happen exactly when labels of the same index have different variants.
* Merged rules (C117, C118): the text of an element after the substitutions is the text of the element with attributes changed
  (`mapNode`), by induction on the element; escaped texts contain no quote, so a substitution sees whole values. The section
  written is the list of elements `mNodes`. Reading it is `parseRules` (C101-C107); the meaning of a renamed element in the
  merged document is that of the element in its own document with the world `worldIn` (`merged_meaning`), and matching is
  meaning on both sides (C103).
* Merged metadata (C119): `FirstOnce` describes lists without duplicates in order of first occurrence; dates by C59 and C61.
* C120–C122: the lines written are described by relations (`Block`) from the specifications of eligibility, variants and collisions; a tool which raises has written the lines before.
* C123, C124: IDNA properties, digits, marks, directions of code points and scripts are parameters; the languages and scripts of the tags are given. That the labels of the tables break the rules is checked on the whole of the tables, with code points of digits and marks as in Unicode.
* C125: from the document (as elements) to what is written; the validation against a schema by `lxml` is a parameter. The requirements are stated on the document (language, order, elements) and on the LGR read from it (dates, types, dispositions, variants). `Dated`, `ElemOk` and no reference with an empty identifier are assumed of the document; `main` is assumed to return (the rebuilding of the LGR may raise).
* C126: the registry is given as its `registry` and `record` elements (fetching and XML are left out); `int(s, 16)` is on hexadecimal digits only, so a text such as `-41` (a negative number for Python) is a `ValueError` here. `Spans` is what the records name, `Proper` that no code point is there twice.
* C127: what `language_tags` says of a tag is given (`TagInfo`).
* C128: what `language_tags` says of a tag and the script of a code point are given; `composite` is the list of codes of ISO 15924 for several scripts or parts of one.
* C129: the texts are read back by a small reader (`read`), which is not part of the code; what is read has a meaning (`ItemsHold`), which is that of the rule (`C63.Holds`). `Plain` rules: literals of one code point; classes given by reference, tag, property, as one interval, or made of such by combinators (with the numbers of children of RFC 7940); any nesting of rules, choices, look-arounds and counts.
* C130, C131: every step of populating keeps what the writer needs (`Steady`); `fit_reread` (C104) then gives the round trip. A complete LGR whose rules are answered in kind (`Answered`) is a fixed point of `populate`. The verdict of the RelaxNG schema is a parameter; pretty printing is not modelled.
* C60: the key of a kept result is a text; `strList_inj` shows that `str` of a list of strings (CPython's `repr` with its quotes and escapes, the set of printable characters a parameter) determines the list. Lone surrogates and changes of the returned list by callers are not modelled.
* C132: a segmentation of a label carries over to an LGR which has the same entries in contexts at most as strict (`seg_transfer`); sequences none of which begins another one write a label in one way (`made_unique`). Composed with C13, C14, C30 and C31.
* C133: two repertoires with the same entries (as far as they occur in the label), attributes and reflexive variants give the same pieces (`items_same`), hence the same answer; populating keeps these (`Grow.own`). C134: populating adds no rule (`Grow.used`), and its pairs are those of the connected components (C29), so that the classes of `index_classes` are the variant sets.
* C135: as C133, from what harmonising keeps of an LGR (`Keeps`, with its reflexive variants `Keeps.own`, `Keeps.new`). C136: no rule is new (`Keeps.used`), common code points have the same variants (C46), so that the classes of `index_classes` are the same.
* C137: the context of a code point in the merge is that of the LGR after renaming (`merge_contexts`), so that segmentations of a label go over (`seg_transfer`).
* C138: the filter is described by an inductive relation (`filter_sorted`); the notes follow from C44, the end of `get_collisions` from `get_collisions_returns` applied to dispositions restricted to labels which fit (`tame`).
* C139: the classes of the merge are those generated by the mappings of all LGRs (`merge_variant_sets`, C97) when it is transitive, and index labels are compared class by class (`index_iff`).
* C140: the LGR made of two LGRs that were read satisfies what the round trip (C104) asks for (`mgood_union`, `mgood_intersect`, `CompareGood`), the sections of rules are those of C57 read back text by text (`named_read`, `acts_read`), and the entries are those of C30 and C31.
* C141: each step of the harmonisation keeps what the round trip (C104) asks for (`harmonize_more`, `fit_harmonised`); the graphs are those of C46.
* C142: the fold of the items of C73, C74 and C75 is an LGR that the round trip (C104) applies to (`table_fit`, `table_mgood`); the regular expressions are characterised as `RefLine` and `VerLine`, over any `\d` that matches no white space, hyphen or number sign.
* C143: the merged metadata is good to be written and read (`mgood_merged`), the merged entries and sections are those of C45, C94, C95, C97, C117 and C119 for LGRs which have been read, and the round trip (C104) applies to the document which is read again inside the tool, hence to the printed one.
* C144: `argparse` is any function that fills in the declared options or ends the program (`Conforming`; `simple_conforming` shows that there is one). The declared options of the fourteen tools are checked by computation, what follows from them is proved for all command lines.
* C145: the review is the composition of the models of its sections, so that what C78 and C124 prove of sections is lifted to the summary of the whole report. The output folder is a dictionary of files; a file is opened before its review is made.
* C146: how each call changes the names of tag classes (`keeps_step`), lifted to histories by induction; the content of the classes is the invariant of C07.
* C147: the schema is an inductive relation between patterns and content. What a valid document says about each string (`attrs_inv`, `nodes_inv`, by induction on the derivation) is an invariant of what the parser stores, for metadata (`MetaOk`) and for the repertoire (`CharOk`, from the effects of C02, C04, C50); from the invariant, derivations for the written elements are put together. The nodes of rules are written as read, in another order, which the schema allows; the identifiers stay different because they are a part of those read.
* C148: each element takes the metadata to `step`, or fails exactly when it is not `Fine` or repeats an identifier (`one`, `many`, by induction with the identifiers so far); the fields of the fold are the last or all elements of a kind.
* C149: by induction over classes and parts of rules as the schema has them, each is read and validated exactly when it and all elements inside are `Good` for the names declared so far (`class_iff`, `match_iff`), and an element declares its name (`item_iff`, `section_iff`); a match of the schema has this shape (`class_shape`, `match_shape`, `item_shape`, by induction on the size); with C148 and C105 for the other sections.
* C150: reading with a database implies reading without (`section_down`); conversely every class and rule declared so far can be evaluated (`Total`), which each new element maintains as it passed validation and its name is new (`class_set`, `pattern_ok`, `item_up`); what is in the cache does not matter for success (`patternC_ok`).
* C151: what the parser does to the LGR does not depend on the conformance results (`sect_part`), so it composes (`effect_append`). Reading rules with two sets of classes which agree but for those of tags gives the same (`rules_agree`), as validation never looks at tags, and so do patterns if no class is made of a tag (`pattern_agree`); by induction on the sections (`run_any`) any order is compared with the one where all data are read first. `same_matches`: patterns depend on lookups only.
* C152: `prelim_describes` (C13) gives pieces which are right at their offsets; right pieces without rejected ones are a cut (`cut_of_right`), and conversely a cut determines the pieces one by one (`pieces_of_cut`), as two entries of the same length at the same offset are equal (`stands_same`). For documents, entries which stand are carried to items and back by `context_iff` (C106).
* C153: as C111, with the sequences tried (`Tries`, from C22) carried from entries to items (`tried_iff`, `tries_iff`) and acceptance by longest match (C152) in place of concatenation.
* C154: entries and items are paired (`Pair`); segmentations (`made_iff`) and the least choices (`lowest_iff`) are carried over, so that the index labels of C17 are those the document describes (`indexes_eq`).
* C155: the variants and entries of the LGR read are those of the document's elements, all IDNA-valid if the reader is strict (`facts`); C26, C27 and C68 are carried over.
* C156: success of the two checks makes the repertoire symmetric and transitive (`orderly`); the classes of C18 are then the variants of the document, place by place.
* C157: C112 for the index function of the LGR read from a document, with C154 and C156 for what having the same index means (`reports_of`).
* C158: a relation of what is read of a line given the last base read (`Reads`), the lists with a space in the wrong place being unreadable (`parse_spacedList`); then as C74.
* C159: as C73, with the last base read as the state of a relation on lines (`Reads`); every line is read or loose (`reads_or`).
* C160: ranges stay complete while the elements are read (`whole_elems`); the entries the repertoire lists are, in some order, those of the first sequences of the elements (`iter_items`), so every sum over the entries is one over the elements. The average, a rounded float, is left out.
* C161: a relation for the search in a text (`Finds`), functional and total (`finds_iff`); words between spaces are digits and `U+` (`clean_pieces`), so only a space at the end is unreadable; then as C159.
* C162: C113 with the repertoire of a document which passes the checks (C156); the variants of a label are the labels alike to it, whether these pass or not (`variants_alike`), and their dispositions are those of C153.
* C163: lines as one would write them (`Written`) are compared with those the regular expression accepts (C142); the references of any file follow from what the parser does with any file (C161), of which the items of references are exactly the matches, line by line (`readsAll_refs`).
* C142, every file: the proof uses of a table only that it is read item by item, that references come from lines of references and what types variants have (`Source`); both the tables of C73-C75 and all files, by C159 and C161, are such (`dump_any_partial`).
* C110, documents with any sequences: which labels pass is C152, their disposition is C107 (`document_any_partial`).
* C164: the entries of the LGR are those of the items of the file (C73–C75, C159, C161) and have no rules, so that standing in a label is being a base which is a prefix of the rest. C152 gives acceptance, C49 the types of the reflexive variants, and the default actions are evaluated on them.
* C165: the rewritings of C22 are, for an LGR without rules whose entries are those of the items, the ways of replacing bases by the variants of the rows (`writes_of`, `rewrites_of`). C48 gives the listing and the dispositions, C23 completeness, C164 acceptance.
* C166: the characters of an accepted label are the entries of the bases it is cut into (C152, C164), and the variants of an entry are those of the rows, without repetition as there are no rules. C24 gives the bound and the equality.
* C167: the variants of the entries are those of the rows (C165) and have no rules; C26 and C27 say what the checks find.

When a property is false for the code as it is, its negation is proved with a concrete witness (the
input is given in the theorem), and a `_partial` theorem proves it under explicit hypotheses.

## State of the properties

| id | title | status | note |
|---|---|---|---|
| C01 | Repertoire is a finite map under any edit history | proved | Refinement to a finite map for every history, from the empty repertoire. |
| C02 | A rejected code point or variant edit leaves the LGR unchanged | proved | all four calls, every option; types/tag classes/references included in the state |
| C03 | Iteration lists the repertoire once, in ascending order | proved | Order, soundness, completeness for non-range entries, one entry per range, and exactly the first code point of each range when ranges are intact; intactness is preserved by successful calls other than deleting a code point inside a range. |
| C04 | Adding a range is all-or-nothing and adds exactly the range | partial | Success adds exactly the range and the success condition is exact, for Repertoire.add_range and LGR.add_range. All-or-nothing is false in the code (witnesses *_not_atomic); add_range_atomic_strict holds when the IDNA check cannot fail midway and no filtering by validating repertoire happens. |
| C05 | collapse_codepoints is an exact, maximal, sorted range cover | proved | collapse_codepoints computes the unique sorted, non-adjacent, disjoint interval cover of its input set, independent of input order; the empty list raises. |
| C06 | Expanding ranges preserves the LGR's meaning | proved | Ranges intact as defined by Lgr.Props.Intact; expand_not_intact shows the hypothesis is needed. |
| C07 | Tag classes mirror the tags of the repertoire | partial | Holds along every history without del_range, without forced tags, with intact ranges when expanding, and with add_range/add_codepoints not failing part-way. False otherwise: del_range_stale, expand_missing, forced_sequence_missing. |
| C08 | Variants of a character form a set keyed by (code point, when, not-when) | proved |  |
| C09 | Variant sets are exactly the reachability classes | proved | get_variant_sets returns exactly the reachability classes described, sorted, without duplicates; on symmetric repertoires they partition. |
| C10 | Deleting a reference or a tag removes every mention | partial | Over every history of edit calls without forced duplicate references or tags. False otherwise: list.remove deletes one copy (forced_duplicates_survive). |
| C11 | Reference identifiers are unique and never silently reused | proved | Reference manager: fresh ids, duplicate ids raise, deletion and update exact, ids stay unique along any history. |
| C12 | RFC 7940 conformance verdict: failures are sticky and order does not matter | proved | Verdict of the RFC 7940 collector as a function of the recorded checks and policy, independent of recording order. |
| C13 | Accepted labels are composed of repertoire entries in valid context | proved | For every rule semantics, well-formed (hence every reachable) repertoire and label. |
| C14 | Every label that can be segmented is accepted | partial | Full property refuted by a witness (segmentable_label_rejected); completeness proved for prefix-free repertoires and for labels made of unconditional single code points. C152 has the exact result for all repertoires. |
| C15 | Eligibility failure report is accurate | proved | Report equals a decomposition of the label into right pieces. |
| C16 | Label partitions are exactly the valid segmentations | proved | Partitions are exactly the segmentations, without duplicates. |
| C17 | Every accepted label has an index label | proved | Index label defined exactly on accepted labels and least over all segmentations. |
| C18 | Index labels detect collisions exactly | partial | Exact for prefix free, symmetric, transitive repertoires with unconditional variants; both halves of the full statement are refuted by witnesses with overlapping sequences. |
| C19 | The index label is a canonical representative | partial | Proved for prefix free, symmetric, transitive repertoires with unconditional variants; idempotence and 'not greater' are refuted in general. |
| C20 | First triggered action decides, and some action always triggers | proved | first triggered action, in order, decides; error cases characterised |
| C21 | Default actions implement the RFC 7940 table | proved |  |
| C22 | Generated variants are real variants | proved | with and without hiding; generated_exact characterises the generated items exactly |
| C23 | No variant is missed | partial | false in general (variant_missed: concrete accepted label whose variant is not generated); proved when every sequence extending a character with variants has variants and no context rule |
| C24 | Estimated number of variants is an upper bound | partial | upper bound false for repertoires with sequences (estimate_too_low) and with hiding (hidden_estimate_too_low), equality false with sequence variants (sequence_variants_coincide); bound proved for prefix-free repertoires, equality for single code point variants |
| C25 | Disposition listing: original last, once, no duplicates, invalid hidden | proved |  |
| C26 | Symmetry check is exact | proved | Exact outcome with and without rules, exact report, exact condition for raising. |
| C27 | Transitivity check is exact | proved | Exact outcome, exact report, exact condition for raising. |
| C28 | Populating variants terminates in a symmetric and transitive LGR | proved | Termination for every LGR with the class invariant (kept by every API call), every Unicode database; symmetry (ignoring rules) and transitivity checks pass on normal return; normal return for LGRs with known, unrepeated references, at most one non-empty rule per variant and no variant that is a range member. |
| C29 | Populating variants never loses anything | partial | Proved on normal return: entries and pairs exactly, attributes/ranges/references/tags and types kept, variants kept up to an added context rule. Violated when the call raises: a variant with a repeated reference is deleted and not re-added (populate_raise_loses). |
| C30 | Union of LGRs contains exactly both inputs | partial | Exact content of a union: code points of both, tags, variants; context rules and references of common code points are dropped, and of two variants equal but for type or comment one may be lost (union_loses_variants refutes the full statement). |
| C31 | Intersection of LGRs contains exactly the common part | proved | Exact content of an intersection. |
| C32 | Collision groups are exactly the labels sharing an index | proved | Index and disposition computations are parameters (every index function). Sets of labels in any order, TLDs, variants and keep/quiet options included; with cached indexes overlapping the labels the claim fails (cached_label_collides_with_itself, cached_label_assertion). |
| C33 | Collision dump lists each colliding pair once | partial | Violated: with three or more colliding labels, a pair not involving the first is listed twice (dump_lists_twice). The exact number of times is proved. |
| C34 | Serialised LGR data parses back to the same repertoire | partial | Reading what was written gives back every entry (range, attributes, variants in order), the ranges, tag classes and types, and the same document when written again, for LGRs with intact ranges and entries whose names can be written; violated by a member of a range deleted alone (comes back), tags with spaces or empty (split, lost), control characters (ValueError). |
| C35 | Textual code point notation round-trips | proved | Code point notation round trips for every code point and sequence; a text is read as a number iff it spells it in hexadecimal. |
| C36 | A bad line in a table file never affects another code point | partial | Violated: a row with variants whose base cannot be read adds its variants to the previous code point, or raises UnboundLocalError. Proved for rows without variants; what is done with every file is C159 and C161. |
| C37 | Validation results do not depend on previous validations | partial | Holds for a set of checks without state; the list CHECKS is a class-level list that grows with each object, so the checks run depend on history (history_dependence). Exceptions other than LGRException escape. |
| C38 | IDN table review: overall status is the worst result | proved | Worst result, counts of every line, sum of the counts, for every list of reports. |
| C39 | IDN table review decisions are total | proved | No assertion, no missing result, for classes (any sets), repertoire (any characters), variants (any variant data, any iteration order). |
| C40 | check_range classifies code points and has no side effect | proved | the check_cp of the validating repertoire is a parameter that may raise |
| C41 | Hiding mixed-script variants only removes variants | partial | first half (hiding only removes) proved in full; second half false for a variant sequence mixing scripts (mixed_variant_not_hidden), proved for variants each in one script |
| C42 | Class expressions denote the set algebra they spell | partial | Evaluation is exact for all class expressions and total after any history that defines no name twice; redefining a name can make definitions circular (redefinition_breaks). |
| C43 | Deleting a range deletes exactly that range | partial | Success deletes exactly the range and it can be re-added; raising without change is false in the code when a code point of the range was deleted individually (del_range_not_atomic). |
| C44 | Set annotation reports collisions of the label itself | partial | Violated: two colliding labels inside the set make every label be reported (annotate_reports_unrelated). Exact characterisation proved, and the claim for a set without internal collision. |
| C45 | Merging LGRs of a set keeps every code point and variant | partial | Whenever merge_lgr_set returns: the code points are exactly the union, every variant of every LGR is there (blocked, contexts prefixed, if no rule name begins with the prefix of a script of the set), nothing else but variants within one variant set. Violated otherwise: it raises on variant sets sharing two members and differing in others (merge_raises_wrong) and can lose a context (merge_context_wrong). |
| C46 | Harmonisation makes the common variant sets equal | partial | Exact code points and variant pairs of both results (graph operation), with and without root zone LGR; nothing lost; common variants present in both; both results symmetric and transitive; termination; normal return for LGRs not checked against IDNA with well formed variants. Equality of the variants of common code points proved for symmetric and transitive inputs or with a root zone LGR, and refuted in general (agree_wrong). |
| C47 | Hiding mixed-script variants keeps the label's own script | partial | false: Common/Inherited code points after the first character hide all variants (digits_hide_all_variants); proved for the other scripts |
| C48 | Listed dispositions are those of RFC 7940 section 8.3 | proved |  |
| C49 | The label's own disposition comes from its reflexive mappings | partial | false with sequences: entries occurring inside a sequence count (inner_character_counts); exact outcome proved for every repertoire (reflexive_disposition), the property for single code point entries |
| C50 | A code point or variant is accepted exactly when the documented checks pass | proved | acceptance conditions as iff, and effects |
| C51 | References mentioned in the LGR are defined | partial | Over every history without forced duplicates. False with force: duplicate references leave a dangling mention after del_reference (dangling). |
| C52 | Conformance record agrees with the checks | partial | Symmetry part proved. Transitivity part is violated by the code (a variant outside the repertoire fails the check but is recorded as passed): negation proved, and the exact record proved. |
| C53 | Populating variants makes context rules symmetric in kind | proved | For every LGR with the class invariant; the empty string is no rule (as for the code). |
| C54 | Combining an LGR with itself gives back the LGR | partial | Entries, comments, tags and variants kept by self-union; violated for context rules (union_self_loses_rules) and for types in the self-intersection (intersect_self_loses_types). |
| C55 | The actions of a union dispose of every label as both lists in order would | partial | Actions proved exact and disposition preserving; violated for the XML list (union_actions_out_of_step). |
| C56 | The actions of an intersection are the common ones, in order | partial | Actions and XML exact as sets; order is lost, changing dispositions (intersect_actions_reorders). |
| C57 | Union and intersection keep rule and class names unambiguous and resolvable | partial | Exact names and XML; violated: dangling names and collisions. |
| C58 | References of a union are those of both LGRs, of an intersection the common ones | proved |  |
| C59 | Metadata of union and intersection | partial | Languages and validity period exact; violated for scopes, version and Unicode version (metadata_violations). |
| C60 | Memoised methods are never stale | proved | memo_fresh: for every memoised method whose texts of attribute and arguments are injective; scripts_fresh: get_scripts, the only one, with the texts CPython gives (strings without lone surrogates). |
| C61 | Dates are accepted iff they are ISO 8601 calendar dates | partial | Exact without force; with force an OverflowError is possible (date_overflow). |
| C62 | Without force only valid language tags are stored | partial | add_language exact; set_languages exact for ASCII tags, violated otherwise. |
| C63 | A whole-label rule matches exactly the labels RFC 7940 says it matches | partial | Exact for labels of at most 63 code points and rules without empty classes; a class without code points is dropped from the pattern (empty_class_matches). |
| C64 | A context rule matches exactly at the anchor | partial | Exact for labels of at most 63 code points and rules without empty classes; violated otherwise: a look-ahead for an empty class holds everywhere (empty_class_wrong), and a look-behind does not see more than 63 repetitions (long_label_wrong). |
| C65 | Cached patterns never change the answer of a rule | partial | Holds as long as no name is defined again and tags do not change; violated when a code point is tagged after a match (cache_stale). |
| C66 | Rules which were accepted can be evaluated | partial | Holds if no name is defined twice and counts are in order; violated for counts such as 2:1, 64+ in a look-behind, and circular redefinitions. |
| C67 | A forced parse keeps every rule | partial | Holds without a Unicode database, and with one for rules whose patterns can be calculated; violated otherwise. |
| C68 | Conditional variants check is exact | proved | For every LGR reached by a history in which ranges stay intact. |
| C69 | Statistics count the LGR | partial | Counts are exact when ranges are intact and no tag is forced twice; otherwise violated (deleted_member_counted, forced_tag_counted_twice). |
| C70 | Miscellaneous check is exact and total | partial | Verdict and reported errors are exact with a Unicode database; violated without one (AttributeError), and a non-standard disposition keeps the data from being tested. |
| C71 | Metadata check is exact | partial | Exact, except that the test of the version also accepts a final newline (version_newline) and whatever \d matches. |
| C72 | Rebuild check is exact and total | partial | Exact for LGRs with intact ranges and a database; violated without a database (AttributeError) and when a member of a range was deleted and added again (CharAlreadyExists). |
| C73 | An RFC 4290 table is read exactly | partial | Files in which no row has variants and an unreadable base (see C36); what is done with every file, those included, is C159. |
| C74 | An RFC 3743 table is read exactly | partial | Rows written as sequences with references and comma-separated columns, white space allowed after commas and around columns. Rows with a space before a comma, semicolon or parenthesis are not read as written (C158); what is done with every file is C161. |
| C75 | A file of lines is read exactly | proved |  |
| C76 | The parser is chosen by the first line only one notation allows | proved | Regular expressions, not the reading and rewinding of the file. |
| C77 | A line of the review summary speaks for all reports it counts | proved | Each remark goes with one result in every section of the report; then the lines of the summary speak for all they count. |
| C79 | Review of classes is exact | proved | Entries and results, for any members and repertoires. |
| C80 | Review of the repertoire is exact | proved | Entries and results, for any well-formed repertoires and any iteration order on tags; membership in sequences. |
| C81 | Review of actions is exact | proved | Comparison and order, for any lists of actions. |
| C82 | Review of rules is exact | partial | Violated: rules used on ranges are reported as mismatched or as of no concern. Proved for LGRs without ranges and with at most one context rule per code point. |
| C83 | The report on general rules is computed for every reference | partial | Violated: IndexError if a label ends with a sequence of the repertoire. Proved for labels that do not (check_exact says exactly when it raises). |
| C78 | An LGR reviewed against itself matches | partial | Repertoire, classes, variant sets: proved for every LGR. Actions: sequence needs an action. Rules: without ranges. Tags: one tag. Violations: no actions, two languages, a context rule used in a range. |
| C84 | The report on variant sets is always made | partial | Violated: NotInLGR and KeyError witnesses. Proved for every table and symmetric reference. |
| C85 | Additional code points are those outside the variant sets | partial | Violated: members of variant sets are listed; ranges count by their first code point. Proved without ranges and with variant sets inside the reference; otherwise what is listed is characterised. |
| C86 | The comparison of the variants of a mapping is right | partial | Violated for several variants of one kind per mapping, for mappings without reverse, and for remarks. Proved for one variant on each side, and for at most one variant of each kind (when, not-when, always) on each side: what each result means, and that result and remark do not depend on the order of iteration. |
| C87 | Variant sets which include one another are compared | partial | Violated: with several sets in one set only some are compared. Proved for symmetric LGRs: all sets appear, equal identifiers are compared, sets with a unique counterpart are compared. |
| C88 | Symmetry and transitivity of a set are checked exactly | proved |  |
| C89 | The report on a set has exactly its mappings | proved |  |
| C90 | The result on a mapping is about the variants of both LGRs | partial | Violated for an asymmetric table and for reflexive mappings with several variants. Proved for symmetric LGRs and mappings between different code points, with one variant per mapping where both LGRs have it. |
| C91 | Relevant repertoire, destination and symmetry of the reported mappings | partial | Relevant repertoire: proved. dest_in_idn is violated for mappings of the reference only; proved what it means for symmetric LGRs. Symmetry: one variant per direction. |
| C92 | Harmonised LGRs are marked in the version comment | partial | Violated: operator precedence keeps a non-empty comment unchanged. |
| C93 | A written document passes the parser's order checks | partial | Exact condition for the check of ascending order; the strict one never fails; holds without sequences, violated with sequences sharing the first code point (iteration sorts by length only). |
| C94 | Merging a set of LGRs keeps what references say | partial | Proved for variants and for code points of a single LGR; violated for code points of several LGRs, whose references are not renamed (merge_references_wrong). |
| C95 | Tags of a merged set of LGRs | proved | Tags must contain no space and not be empty, as in every document. |
| C96 | The contexts of a merged set of LGRs are defined | partial | Proved when no context is leading-combining-mark; violated for that rule (merge_contexts_wrong). |
| C97 | Variant sets of a merged set of LGRs | partial | Variant sets and symmetry proved; transitivity violated (merge_transitive_wrong). |
| C98 | The context of a code point of several LGRs of a set | proved |  |
| C99 | Metadata and references of a document are read back | partial | For every history of calls without force whose texts are not empty, allowed in XML and without carriage return, the section is written, read without failed check, and equal. False for other texts: an empty description makes the document unreadable, empty texts become None, duplicate languages are read once, line ends change, ']]>' cannot be written (negations proved). |
| C100 | A Unicode version is accepted iff it has the form x.y.z | partial | Accepted iff the text begins with a version x.y.z; what follows is not looked at, so the property is false (negation proved). |
| C101 | Rules, classes and actions of a document are read back | partial | Proved for every section that is parsed without exception: what is written, that it is read without exception, and that classes, rules, patterns and actions are the same. With a Unicode database, classes must not be redefined (negation proved: redefined_class_wrong). Rules added by the API are not written (negation proved: added_rule_wrong). |
| C102 | A class element lists exactly the code points it spells | proved | Words and hexadecimal numbers specified by relations (Words, Hex, Lists). |
| C103 | The rules of a document match what RFC 7940 says their elements mean | proved | End to end from the elements of a document to the answers of the LGR. The meaning is defined on the elements alone. The conditions on empty elements are those of C63 (an empty class is not compiled to an empty set); counts above 63 are excluded as in C66. |
| C104 | A whole document is read, written and read back | partial | Proved from a successful first reading alone: every invariant the three section round trips need is shown to follow from it. Restricted to documents with <meta>, whose strings are XML characters, whose descriptions survive CDATA, whose reference comments are not empty; and to readers which are not both forced and lenient about IDNA-invalid code points. Violated otherwise: a document without <meta> raises AttributeError or gives None (no_meta_wrong, no_meta_no_lgr; no_meta_iff says exactly which); half a clashing range is kept and then completed (half_range_wrong). |
| C105 | The entries of an LGR are exactly the elements of the data section | partial | data_means_partial: success iff the elements have a reading that is Fine and Apart, and the repertoire, tags and types are exactly those of the elements; document_data_partial the same of a whole document. Missing: white space is significant in ref and tag lists (two_spaces_wrong, empty_tag_wrong), so elements are Tidy in the partial theorems. |
| C106 | The labels accepted under an LGR are those its document describes | partial | Documents without a name defined twice, lists separated by single spaces, context rules which are an anchor between look-arounds or have no anchor. Sound for all; complete if no sequence is the beginning of another, otherwise violated (beginning_wrong). |
| C107 | The disposition of a label is the one its document asks for | partial | Exact for items of one code point. In general, mappings of whatever stands in the label count (document_disposition_partial), which violates the property (inner_wrong). Same restrictions on documents as C106. |
| C108 | Files of labels are read as they are written | partial | Reading is exact for all files (labels_read_partial with says_iff and says_unique; written_read, u_labels_read, code_points_read, raise_first). Violated: white space other than the space is accepted within labels (tab_wrong), and labels are not always read again as themselves (reread_wrong); no_space_partial and reread are what holds. |
| C109 | The script of a root zone label | partial | given_iff describes the result exactly for all labels; labels of one script are right in any order. Violated: Japanese labels that start with Common characters and an ideograph (japanese_wrong), mixed labels depend on order (order_wrong). |
| C110 | Annotated files tell the disposition of each label | partial | Violated: the first action is never named (first_action_wrong), and lgr_set_annotate names the action of the merged LGR with the same index (set_action_wrong). Everything else is proved; document_file_partial covers documents whose items are single code points, document_any_partial all others, with the longest match of C152 and the mappings that count in C107. |
| C111 | The variants of a label are those its document describes | partial | proved for documents in which no element is the beginning of another, without script hiding, when variants leave the label within 63 code points; false with overlapping sequences (C153.missed_wrong; C153 has the exact result for these); composes the reading of documents (C101-C107) with C22, C23, C48 |
| C112 | The short report lists exactly the collisions | partial | Proved with a list of TLDs (basic_collision_partial). Violated without one: TypeError is raised (no_tlds_wrong). |
| C113 | The full report lists exactly the collisions and the variants | partial | Without a dump the pairs are proved exact for every LGR whose rules are defined and labels of at most 63 code points; with a dump, pairs and dump are proved exact for symmetric, transitive, prefix-free LGRs without conditional variants when all labels are in the LGR (collision_lgr_partial), and for any index and dispositions under the condition that labels of the same index have the same variants, InvalidSymmetry being raised otherwise (collision_partial). Violated in general: with a dump a label that is not in the LGR is reported as colliding (dump_wrong). That pairs are reported once fails too (C33.dump_lists_twice). |
| C114 | Comparing two LGRs lists exactly the differences for the labels | partial | Proved for index functions and dispositions under which labels of the same index have the same variants, in particular for symmetric, transitive LGRs without conditional variants and without entries that are prefixes of others; otherwise InvalidSymmetry is raised, even for an LGR compared with itself (self_wrong). |
| C115 | The textual comparison of two LGRs reports exactly the differences | partial | Violated: contexts of code points are not compared, actions are compared by disposition, rules and classes by name only. The rest is proved. |
| C116 | The textual comparison of two sets of LGRs compares the LGRs of the same script | partial | Violated for LGRs without language, which do not appear. The rest is proved. |
| C117 | The rules and classes of a merged set of LGRs mean what they meant | partial | rule_text, class_text, section_text: the texts written are the renamed elements; merged_rule_matches, merged_context_matches: a rule matches as its renamed counterpart. Hypotheses: names are such that renaming is unambiguous (Writable, Fit). Violated otherwise: a rule asked for because two LGRs share a context refers to classes that do not exist, so the merged LGR cannot be read (combined_rule_wrong); names that begin with leading-combining-mark (like_msr_wrong) or classes with a colon (colon_wrong) likewise; of different leading-combining-mark rules only the first is kept (common_wrong), and as a context it is not found (context_name_wrong). text_back, value_back: what is written for a text or value stands for it in XML. |
| C118 | Labels keep their disposition in a merged set of LGRs | partial | act_text, merged_actions: the actions written; merged_objects: the actions as objects; merged_disposition: the disposition is kept, if default actions stand only at the end of the LGR's actions and no action of another LGR applies. Violated otherwise: a default action before others is dropped (default_dropped_wrong), and a rule's name that occurs elsewhere in the action's text is replaced there too (replace_wrong). |
| C119 | Metadata of a merged set of LGRs | partial | Proved but for the version of Unicode, compared as text starting from 6.3.0 (merged_unicode_partial, unicode_wrong), and for LGRs without version and description (empty_wrong). |
| C120 | What lgr_cli writes about labels | partial | Violated for invalid variants with -i (first_default_wrong) and empty lines (empty_line). Proved: block_partial with the action named right except the first default action, all without -i. |
| C121 | What lgr_validate writes about labels and a set of labels | partial | Violated with -g (variants_wrong) and for sets with a label outside the LGR of the script (set_label_wrong); proved otherwise. |
| C122 | What lgr_collision writes about labels and reference labels | partial | Violated for labels outside the LGR, which end the tool (unknown_wrong); proved for lists of labels of the LGR. |
| C123 | Compliance of a table with IDNA 2008 | partial | Number of compliant entries violated (number_wrong: out-of-repertoire entries are counted); all else proved. |
| C124 | General rules in the review of a table | partial | Violated in several ways (rtl_wrong, digits_wrong, georgian_wrong, arabic_wrong, han_wrong, present_wrong). Proved: exact conditions and, when a rule is reported missing or existing, a label that breaks it and is eligible or not. |
| C125 | Verdict of rfc7940_validate | partial | Full statement: verdict_exact gives the verdict of the tool with the tests it leaves out; verdict_partial is the claim where none is left out. Missing: documents without language, with no entry outside ranges or of another Unicode version always fail (left_out_wrong); runs without -r or with -t always fail (schema_wrong, skip_wrong); an empty version raises (version_wrong); reading is lenient (lenient_wrong). |
| C126 | Repertoire made from the IDNA registry | partial | The code points and everything else are as stated; the Unicode version is not (states_wrong): it is always 6.3.0. |
| C127 | Report on language tags | proved |  |
| C128 | Scripts of an LGR | partial | cp_in_script and the scripts are as stated, but for the codes Hanb and Jamo (iso_wrong); with assert_in_script everything is refused (assert_wrong). |
| C129 | Rules reported to be the same match the same | partial | Proved for plain rules (same_text_partial; reported_partial for whole-label rules as evaluated by the code): literals of one code point, classes by reference, tag, property or as one interval and combinations of them, any nesting and counts. Violated otherwise: order of literals (order_wrong, order_reported_wrong), classes of several code points (class_wrong), classes without code points (empty_wrong). |
| C130 | The tool which populates variants prints the completed LGR | partial | For documents whose texts survive writing and reading (DocOk, as in C104). That the tool prints needs variants that are no range members, with at most one rule and references without repetition; range_member_wrong shows the exception otherwise. Pretty printing not modelled. |
| C131 | Populating variants is idempotent | proved | For every LGR with the class invariant. |
| C132 | Labels of a union and of an intersection | partial | Exact effect on labels proved; completeness of both for LGRs in which no entry begins another; soundness of the intersection further requires common entries without rules. False in general (accepts_rejected_wrong, inter_overlap_wrong, union_overlap_wrong). |
| C133 | Populating variants does not change the answer for a label | partial | Proved for every label in which no missing variant occurs, and for every LGR without missing variants. False otherwise: populate_lgr adds missing variants as plain entries (universal statement for single code points, and two concrete LGRs). |
| C134 | Populating makes index labels find the collisions | partial | Proved for LGRs without conditional variants in which no entry or variant begins another one. False for overlapping entries (concrete LGR). |
| C135 | Harmonising does not change the answer for a label | partial | Proved for every label in which no added code point occurs. False otherwise: added code points have type out-of-repertoire or none and are valid labels (universal statement for single code points, and two concrete pairs of LGRs). |
| C136 | Harmonised LGRs give the same index labels | partial | Proved without conditional variants when no entry of the results begins another one. False for overlapping entries (concrete LGRs). |
| C137 | The merge of a set accepts the labels of its LGRs | partial | Completeness for labels whose conditioned code points are conditioned by the LGR, with entries none of which begins another; false otherwise. Soundness for LGRs with such entries and without opposite conditions; with opposite conditions it is false (opposite_contexts_wrong). |
| C138 | Annotation of labels with a set of LGRs | partial | annotate_set_partial: missing are sets with labels that collide with each other, where unrelated labels are reported (unrelated_wrong), and labels which are not read again as themselves. annotate_returns_partial: missing is an LGR of the script with more actions than the merged LGR (more_actions_wrong). |
| C139 | The merge of a set finds the collisions of its LGRs | partial | Proved when the merge is transitive (merge_transitive_of: for instance if the mappings of all LGRs together are), without conditional variants and without entries that begin others. Violated otherwise: missed_wrong, annotate_misses (concrete set on which a collision within one LGR is missed). |
| C140 | lgr_compare prints a document of the union or the intersection | partial | Read without Unicode database (as the tool does), for documents whose rules are read back from their texts, where a name stands for one class and one rule in both, no tag is empty and descriptions do not end a CDATA section; tool_prints_partial also asks that no entry has both kinds of rule. replace_wrong, order_wrong, both_rules_wrong show what fails otherwise. |
| C141 | lgr_harmonize writes documents of the harmonised LGRs | partial | Documents for which the writer or the parser fail are excluded (DocOk, C104). Violated for two files of the same name (same_name_wrong) and for a rejected root zone LGR (root_ignored). |
| C142 | The dump tools print documents which mean what the tables mean | partial | Every file is covered (dump_any_partial): either its lines are read as items, or UnboundLocalError is raised, as in C159 and C161. Missing: tables with characters that XML does not allow, with empty comments of references, and, for a reader without force, with version lines or repeated references; for these it is false (version_line_wrong, references_twice_wrong, control_character_wrong). |
| C143 | lgr_merge_set prints a document of the merged set | partial | Under: texts lxml can write; at least one version and one description in the set, no ']' in HTML descriptions, no carriage return in scripts and types. Violations: a document without an LGR is a TypeError; LGRs without descriptions cannot be merged. |
| C144 | The command line tools start as their command line tells | partial | Violations: lgr_collision declares an option twice and never starts; xml_dump reads an option it does not declare and never reads a document; an empty path is an AttributeError. All other tools start. argparse itself is a parameter. |
| C145 | The review of IDN tables: one report per pair, and a table matches itself | partial | self_partial: the review of an LGR without ranges, with at most one context rule per code point and with one language tag against itself is made and all six summaries are MATCH. match_means: of any two LGRs, what the overall results MATCH mean for languages, repertoire and actions, and that the other sections are the ones of the two. tool_partial: when all files are read and the names of reports differ, the output folder has exactly one report per pair, the review of the two. core_numbers, core_digits: counts are exact, and several sets are only told when there are. Violated: order_wrong (order of actions not in the summary), skip_wrong (unreadable file raises), same_name_wrong and underscore_wrong (reports overwritten), core_digits_wrong (two sets not told). |
| C146 | The tags that an LGR lists are the tags of its code points | partial | all_tags_partial: after histories as in C07 (no del_range, no forced tags, ranges intact when expanded), with named classes that do not have the internal prefix, every tag of a code point is listed, once, and its class has exactly the code points with the tag. listed_given: whatever the history, a listed tag was given by a call. Violated: kept_wrong, stale_wrong (tags stay when no code point has them), name_wrong. |
| C147 | What is written for an LGR read from a schema-valid document is schema-valid | partial | Proved without force, and with force when a code point is left; otherwise violated (forced_invalid_wrong). New LGRs are written as invalid documents (new_invalid_wrong). |
| C148 | The metadata of a document are read exactly | proved | valid_meta_means is for schema-valid documents, document_meta for the LGR read; empty_description_error shows what happens with an empty description |
| C149 | Which schema-valid documents are read | proved | Exactly the sound documents are read; the section of rules alone; a valid document which is refused. With a Unicode database, patterns are made when a rule is read, and this is not part of the claim; counts which the schema admits only because of white space around them, or with digits other than those of ASCII, are excluded. |
| C150 | Which schema-valid documents are read with a Unicode database | proved | With a Unicode database, documents valid for the schema whose properties are known are read exactly when sound; the hypothesis on properties is needed (unknown_property). |
| C151 | The order and number of the sections of a document | partial | regular order as C104; independence of order and number without Unicode database or without from-tag; neighbouring sections; no meta. Violated: last_meta/lost_wrong (second meta drops all), rules_first_wrong (with a Unicode database, rules read before data) |
| C152 | The labels which pass the preliminary test, exactly | proved | Lgr.Props.C152: any repertoire and rule semantics; documents under the hypotheses of C106 but for the one on overlapping sequences |
| C153 | The variants listed under a document, overlapping sequences included | proved | Lgr.Props.C153; restrictions on documents as in C107 (C105, C106), without the one on overlapping sequences of C111 |
| C154 | The index label under a document | proved | max_recursion is 0, as in all callers. |
| C155 | The checks of variants, in terms of the document | proved | Stated on the elements of the document; without force, lists separated by single spaces |
| C156 | Collisions under a document which passes the checks | proved | Success of the checks gives exact collisions, for documents without conditions on variants and without overlapping sequences |
| C157 | The report on collisions under a document | proved | With a list of TLDs; without one see C112 |
| C158 | Spaces in an RFC 3743 table change nothing | partial | Violated (space_wrong). Proved instead, for all such tables, what they are read as (spaced_exact): a column with such a space gives no variants, a row with such a space in its base gives none and its variants go to the base read before; and that UnboundLocalError is raised if there is none (spaced_first). |
| C159 | Every file is read as some RFC 4290 table, or refused for one reason | proved | For every file; C73 has the tables without loose rows, C36 why giving variants to the row before is a fault. |
| C160 | The statistics are those of the document | proved | Under ElemTidy (as C105) and force=false. The rounded average is not modelled. |
| C161 | Every file is read as some RFC 3743 table, or refused for one reason | proved | For every file, with any regular expressions for reference and version lines that match only lines starting with R and V. |
| C162 | The full collision report under a document which passes the checks | proved | For the dispositions, variants leave the label at most 63 code points (Room), as in C153. Other documents: C113 and C157. A label which does not pass, with a dump: C113 dump_wrong. |
| C163 | Reference lines of RFC 3743 tables define the references they name | partial | Violated: numbers of two digits are not read (number_wrong), white space before a comment is part of the value (comment_wrong). Proved: lines with one digit and no such white space (written_partial), what every such line is read as (written_exact), the references of every file that is read (table_references). |
| C164 | The labels accepted under a table are those made of its rows | proved | Every file which is read, in the three formats; the order of rows counts only for a variant given twice. printed_labels: the same under the document which the dump tool prints, under the conditions of C142. |
| C165 | The variants listed under a table are those its rows give | proved | Every file which is read; completeness under the condition in the statement, which is needed (missed_wrong). printed_variants: the same under the document which the dump tool prints, under the conditions of C142. |
| C166 | The estimated number of variants under a table counts its rows | proved | Every file which is read. Where a base continues another one the bound is false (C24, estimate_too_low). printed_estimate: the same under the document which the dump tool prints, under the conditions of C142. |
| C167 | The symmetry and transitivity checks on a table judge its rows | proved | Every file which is read; the reports are exact. printed_checks: the same under the document which the dump tool prints, under the conditions of C142. |

## Facts about the code found on the way

Each of these is a theorem (a witness) unless marked "observed".

* `LGR.add_range` and `Repertoire.add_range` can stop half-way (C04); `del_range` too (C43).
* `del_range` and `expand_ranges` leave tag classes stale (C07).
* The greedy eligibility scan rejects labels that can be segmented otherwise (C14).
* Sequences overlapping other entries break index labels as canonical form (C18, C19), make
  variants be missed (C23) and the estimate too low (C24).
* Union drops context rules of common code points (C30, C54), intersection reorders actions (C56).
* A colliding pair may be dumped twice (C33); annotation reports unrelated labels (C44).
* RFC 4290/3743 parsers: `codepoints` keeps the previous value (or is unbound) after an unreadable
  base; a space before `;` makes an RFC 3743 base unreadable (C36).
* `CHECKS` grows at class level (C37); a non-`LGRException` in a check escapes.
* An empty class is dropped from the pattern of a rule and `n+` in a look-behind is bounded (C63, C66);
  a cached pattern is not invalidated by a tag (C65).
* Observed: `precalculate_patterns` has a dead second loop; text containing `%` in a set is ignored;
  an anchor in a rule evaluated without anchor is matched as the literal text.
* IDN review: rules used in a range are reported as mismatched, or as of no concern (C82); the report on
  general rules raises `IndexError` for a label that ends with a sequence (C83).
* IDN review, variant sets: `NotInLGR` for a reference with a sequence outside its repertoire as variant, `KeyError`
  for overlapping sets of an asymmetric reference (C84); `get_additional_codepoints` compares code points with tuples
  of members of all sets, so members of variant sets are listed as additional (C85); with several variants per
  mapping a match is reported for different variants, depending on set order, equal types count as "more
  conservative", a table with another rule is said to have none,
  and a missing reverse mapping is reported as a match (C86); of several sets with the same
  superset only some are compared (C87); for an asymmetric table a mapping is reported as missing in the reference
  which has it, and of several reflexive variants only the first is compared (C90).
* IDN review of an LGR against itself: no match for an LGR without actions, with two languages, or with a context
  rule used in a range (C78).
* IDN review: `dest_in_idn` is false for a destination which is in the table if the mapping is only in the
  reference (C91).
* `harmonize`: a variant that one of the LGRs gets by transitivity after the comparison is not in the other, so that
  the variants of a common code point differ, unless both LGRs were transitive (C46). An existing version comment is
  not marked as harmonised, by operator precedence (C92).
* Writing an LGR and reading it: a member of a range deleted alone is back (the range is written whole); a tag with
  a space becomes two tags, an empty tag is lost; a control character in a comment makes writing fail (C34). The
  parser's own check of ascending order fails for LGRs with some sequences, listed by length only (C93).
* Merging a set of LGRs raises `VariantAlreadyExists` if two of them have variant sets with two members in common and
  a further one of each; a rule named like a prefixed rule of another LGR is confused with it (C45). A code point
  of several LGRs keeps the identifiers of its references, which may denote other references in the merge (C94). A
  context `leading-combining-mark` is renamed unlike the rule (C96). The merge of symmetric and transitive LGRs is
  symmetric but need not be transitive (C97). Seen in the source, not modelled: a merged rule `s2-s1-r` refers to
  classes `s2-s1-c` which do not exist.
* An empty description makes a document which cannot be parsed; `]]>` in an HTML description cannot be written;
  empty versions, scopes and references become `None`; duplicate languages are merged; `\r\n` in a description becomes
  `\n` (C99). `set_unicode_version` accepts `6.3.0 or so` (C100).
* A class defined again after a rule which uses it: the rule read from the written document uses the second
  definition. Rules, classes and actions added by `add_rule`, `add_class`, `add_action` are not written (C101).
- C104: a document without `<meta>` (optional in RFC 7940) is not read: `_fast_iter` compares an element with a string (line 497), so the LGR is never created; the first character raises `AttributeError`. A forced reader which accepts IDNA-invalid code points keeps the first part of a range clashing with an invalid character; written and read again, the rest appears.
- C105: `string_to_list` (xml_parser.py 546-567) splits at single spaces only: `ref="0  1"` is refused although both references are defined (`two_spaces_wrong`), `tag="t "` gives a second, empty tag (`empty_tag_wrong`).
- C106: with the elements `a`, `ab`, `bc` the label `abc` is refused (`beginning_wrong`). C107: with the elements `ab` and `b`, a mapping of `b` to itself of type invalid makes the label `ab` invalid, though it is made of the sequence `ab` (`inner_wrong`).
- `parse_label_input` looks for the space character only: `0061<TAB>0062` is accepted as a U-label that contains a tabulation (`C108.tab_wrong`).
- A label read from `U+0023` is `#`; `lgr_set_annotate` gives it to `get_collisions` as a string, where it is a comment (`C108.reread_wrong`). Labels without white space, `#`, `U+`, `xn--` and byte order mark are read again as they are (`C108.reread`), which is what `Verif/Collisions.lean` assumes.
- The error yielded by `read_labels` for valid labels is the text `None`, not the empty string.
- `get_rz_label_script` gives `Hani` to a label that starts with a digit followed by an ideograph and Kana (`C109.japanese_wrong`); ideographs and Hangul are `Hani` or `Kore` depending on which comes first (`C109.order_wrong`).
- `annotate` does not name the action with index 0 (`action_idx > 0`) (`C110.first_action_wrong`).
- `lgr_set_annotate` looks the action that rejects a label up in the merged LGR, with the index it has in the LGR of the script (`C110.set_action_wrong`).
- `basic_collision` without TLDs raises `TypeError`: `_read_tlds(None)` iterates over `None` (`C112.no_tlds_wrong`).
- `collision` with `show_dump` reports a label that is not in the LGR as colliding when it is a variant of another label; without it the same label does not collide (`C113.dump_wrong`).
- `diff` raises `InvalidSymmetry` for a symmetric and transitive LGR compared with itself when labels of the same index have different variants because of context rules (`C114.self_wrong`).
- `diff_char` does not compare the context rules of code points: `a` allowed everywhere and `a` allowed in a context are identical (`C115.context_wrong`). `diff_actions` compares dispositions only, `diff_rules` and `diff_classes` names only (`C115.actions_wrong`, `C115.rules_wrong`).
- `diff_lgr_sets` leaves out LGRs without language without a word (`C116.left_out_wrong`), and does not pass `show_same` to `diff_metadata`; `diff_lgrs` does not pass it to `diff_actions`, `diff_rules` and `diff_classes`.
- `merge_lgr_set` may write an LGR that cannot be read: when a code point has context rules of the same name in LGRs `A` and `B`, the rule `B-A-…` asked for refers to classes `B-A-…`, which there are not (`C117.combined_rule_wrong`); classes whose names begin with `leading-combining-mark` or contain a colon are renamed where they are defined but not where they are referred to, or the reverse (`C117.like_msr_wrong`, `C117.colon_wrong`).
- Of different `leading-combining-mark` rules in a set the first is used for all LGRs (`C117.common_wrong`); as context rule of a code point it gets the prefix of the script, which is the name of no rule (`C117.context_name_wrong`).
- `rename_action` replaces the name of the rule everywhere in the text of the action: a rule `act` makes `<action …>` `<Latn-action …>` (`C118.replace_wrong`). Actions equal to default actions are dropped even when others follow them, which changes dispositions (`C118.default_dropped_wrong`).
- `merge_metadata` compares versions of Unicode as text starting from 6.3.0: LGRs of 10.0.0 and 11.0.0 give 6.3.0 (`C119.unicode_wrong`); without any version or description the merged LGR has empty ones (`C119.empty_wrong`).
- C120 `first_default_wrong`: with `-i` an invalid variant, which gets the first default action, is shown as given by `Action[n]`, `n` being the number of actions of the LGR, which is none of them (`tools/lgr_cli.py` 28, 57: `>` instead of `>=`). `empty_line`: an empty line ends the tool.
- C121 `variants_wrong`: `lgr_validate -g` raises `ValueError` for every eligible label (items of 6 values are unpacked into 5 names). `set_label_wrong`: a label of the set which is not in the LGR of the script ends the tool with `TypeError` before any label is tested (`"%s: Not in LGR %s" % label, lgr`).
- C122 `unknown_wrong`: a label which is not in the LGR ends the tool `lgr_collision`.
- C123 `number_wrong`: entries marked as out of the repertoire are counted as compliant whatever their code points.
- C124 `rtl_wrong`: right-to-left code points are ignored as soon as there is a language tag, even one without script (e.g. `ckb`); `digits_wrong`: digits of two sets are not noticed unless there are more than ten; `georgian_wrong`: `ka` is mapped to the Kannada script, so nothing is ever known on hyphens in Georgian tables; `arabic_wrong`: Arabic tables without the ASCII digit 2 get no answer on digits; `han_wrong`: tables tagged with Hani or Hang only have no labels; `present_wrong`: a rule is said to exist if the labels tried are ineligible for any other reason.
- C125: `schema_wrong`: without `-r` every document fails, a test `schema` being in the policy and never executed; `skip_wrong`: with `-t` every document fails; `left_out_wrong`: a document without `language`, with no entry outside ranges, or of another Unicode version than the database fails (RFC 7940 makes all of these possible); `version_wrong`: `<version/>` gives no verdict (`TypeError`); `lenient_wrong`: the tool reads with `force`, so a date that is none, a reference to nothing, and `when` together with `not-when` pass.
- C126: `states_wrong`: whatever the version asked for, the document printed says `6.3.0` (the value in a new `Metadata`), so a validator with the database of the registry's version reports another Unicode version.
- C128: `assert_wrong`: `_check_convert_cp(cp, assert_in_script=True)` raises `CharNotInScript` whenever there is a Unicode database (no caller in the repository passes it); `iso_wrong`: `Hanb` and `Jamo` are not converted, so in an LGR for `zh-Hanb` every Han code point is reported as not in script.
- C129: `order_wrong`, `order_reported_wrong`: `format_cp_collapsed` sorts, so the rules for the literal sequences `ab` and `ba` are reported as an exact match; `class_wrong`: so are a class of two code points and the sequence of both; `empty_wrong`: a class without code points in a rule makes the review raise `IndexError`.
- C130: `range_member_wrong`: `lgr_populate_variants` raises for a document in which a member of a range is a variant of another character.
- C132: `accepts_rejected_wrong`: union and intersection drop the context rules of entries that both LGRs have, so both accept labels that both LGRs reject. `inter_overlap_wrong`, `union_overlap_wrong`: because the longest match is taken, an intersection may accept a label that one LGR rejects, and a union may reject a label that one LGR accepts, even without rules.
- C133: `missing_becomes_eligible_wrong`, `new_label_wrong`: `populate_lgr` adds missing variants with a plain `add_cp`, without the reflexive `out-of-repertoire-var` variant, so that labels with code points outside the repertoire become valid. `label_lost_wrong`: an added sequence changes the longest match and may make an accepted label invalid. C134: `collision_missed_wrong`: when an entry begins another one, labels of the same variant sets may have different index labels, also after populating.
- C135: `added_becomes_eligible_wrong`, `new_label_wrong`: code points added from the other LGR get an identity mapping of type `out-of-repertoire`, or none at all when they come from populating, while the action of RFC 7940 is about `out-of-repertoire-var`; labels with them become valid. `label_lost_wrong`: an added sequence may make an accepted label invalid. C136: `index_differs_wrong`: a sequence of one LGR made of common code points gives a label different index labels.
- C137: `other_context_wrong`: a code point without a condition in one LGR and conditioned in another one is conditioned in the merge, which rejects labels of the first LGR. `overlap_wrong`: an entry of another LGR changes the longest match. `opposite_contexts`: where one LGR has `when` and another one `not-when` for a code point, the merge, which is read with force, has both, of which only `when` is heeded; it accepts labels that the second LGR rejects (`opposite_contexts_wrong`). `mixed_accepted`: the merge accepts labels that none of the LGRs accepts.
- C138: `unrelated_wrong`: when two labels of the set collide with each other, every eligible label is said to collide with the set. `more_actions_wrong`: the index of the action which rejects a label in the LGR of the script is looked up in the merged LGR and may be out of range (IndexError).
- C139: `missed_wrong`: merging two symmetric and transitive LGRs (8~9; 9~1, 8~2) gives mappings that are not transitive: 8 has index 1 and 2 has index 2, though 8 and 2 collide in the second LGR. `annotate_misses`: the annotation tool then says nothing of label 2 although the set has label 8.
- C140: a class or rule is copied as a text in which a name clash is resolved by replacing the name everywhere: with two different classes `a` the union has elements `cla_1ss` and `cla_2ss` and no class is read (`replace_wrong`). Names are kept in a set: the union of an LGR with itself may put a rule before the rule it refers to, so that a parser with a Unicode database does not read it (`order_wrong`). An entry with both `when` and `not-when`, which the parser accepts, makes the tool raise (`both_rules_wrong`). How `lxml` reads a text is a parameter of the model.
- C141: if both files have the same name (in different directories) the second result replaces the first (`same_name_wrong`), and a root zone LGR which the schema rejects is left out without notice (`root_ignored`); a rejected first or second LGR ends the tool with an `AttributeError`.
- C142: the date of a version line of an RFC 3743 table is stored as it is, eight digits; the document printed is rejected with `INVALID_DATE_TAG` unless it is read with `force` (`version_line_wrong`, for all tables with such a line). References that are given twice in a list are rejected likewise (`references_twice_wrong`), and a control character in the text of a reference is an exception when the document is written (`control_character_wrong`).
- C64: a look-ahead for a class without code points holds everywhere, so a context rule "before a digit" of an LGR without digits always matches (`empty_class_wrong`); open counts in look-behinds end at 63 (`long_label_wrong`).
- C143: a document without an LGR in it makes the tool end with a `TypeError`, for all sets (`no_lgr_wrong`): `merge_lgrs` returns `None`, which the caller unpacks. LGRs without a description cannot be merged where `lxml` reads no text from an empty CDATA section (`untold_wrong`).
- C144: `lgr_collision.py` declares the option for the libraries twice and ends with `ArgumentError` for every command line (`collision_wrong`). `xml_dump.py` reads the libraries but does not declare the option, and never comes to its document (`xml_dump_wrong`). An empty path for the document is an `AttributeError` in `lgr_cli.py` and `rfc7940_validate.py` (third case of `tools_start_partial`, with an example).
- C145: a file without LGR is appended to the list as `None` although the log says that it is skipped, and the review raises `AttributeError` after an empty report has been created (`skip_wrong`). Reports are named after the base names of the two files: tables with the same name in two folders share a report (`same_name_wrong`), and so do pairs of different names with underscores (`underscore_wrong`). The result on the order of actions is not part of the summary, which is a match although labels get other dispositions (`order_wrong`). Two sets of digits are only told when there are more than ten digits (`core_digits_wrong`).
- C146: a tag stays listed when the last code point with it is deleted (`stale_wrong`, `kept_wrong`: until `del_tag`); a class with a name that has the internal prefix is listed as a tag (`name_wrong`).
- C147: with `force`, an LGR may lose its only code points, and what is written is not valid (`forced_invalid_wrong`); what is written for a new LGR is not valid (`new_invalid_wrong`); the schema admits an empty variant, which the parser refuses or drops (`empty_variant_wrong`).
- C148: an empty `<description/>`, which the schema admits, raises `AttributeError` in both modes (`empty_description_error`); an identifier may end with a line feed and a Unicode version may go on after `x.y.z`, because the regular expressions are not anchored.
- C149: a reference to a class declared later is valid for the schema, but refused (`forward_reference`); a nested class with a name, and a `by-ref` with white space as text (`<class by-ref="c"> </class>`), are valid and refused, too.
- C150: a property that the Unicode database does not know makes a valid document unreadable if a rule uses it, though the document is read without a database (`unknown_property`).
- C151: a second `<meta>` starts a new LGR and drops what was read before (`last_meta`, `lost_wrong`); with a Unicode database, `<rules>` before `<data>` gives rules on tags which never match, as the pattern of the empty class is kept (`rules_first_wrong`). `_fast_iter` means to make an LGR without `<meta>` at `<data>`, but compares an element with a string (line 497), which never holds: nothing is read (`no_meta`).
- C153: with `a` (variant `e`), `ab` and `c` (variant `f`), the label `abc` is accepted as `ab`, `c`, but its variant `abf` is not listed: as `a` has a variant, `ab` is not tried, and nothing begins with `b` (`missed_wrong`).
- C154: with `c` (variant `b`), `cd` (variant `e`) and `d`, the label `cd` is read as one sequence, but its index label is `bd`, that of `c` and `d` (an example; this is intended by the source).
- C155: since a strict reader has checked all code points of variants, the exceptions which `check_symmetry` and `check_transitivity` may raise on an edited LGR (C26, C27) cannot occur after reading with the same database.
- C156: with overlapping sequences or conditions on variants this fails although the checks succeed: see the witnesses of C18 (`same_index_not_variant`, `variant_other_index`).
- C157: without a list of TLDs the report raises `TypeError` for every document (C112, `no_tlds_wrong`).
- C158: a space before a comma, semicolon or parenthesis in an RFC 3743 table loses the whole column or the base, the variants of a lost base go to the base before, or `UnboundLocalError` is raised (`space_wrong`, `spaced_exact`, `spaced_first`).
* RFC 3743 parser: a run of code points without spaces is one code point, e.g. `1234567890` is 0x1234567890 (example in C161).
- C163: references with a number of more than one digit are ignored, and the value of a reference with a comment ends in the white space before the comment (`number_wrong`, `comment_wrong`, `written_exact`).
- C165: a variant label all of whose mappings come from rows without a type (RFC 4290 variants, the third column of RFC 3743) is listed as `valid`, as the types are empty and no default action but the last is triggered.
- C165: without the condition on bases, variants are missed under tables (`missed_wrong`): with the rows `U+0061|U+0078`, `U+0061-U+0062` and `U+0063|U+0079`, the variant `aby` of the accepted label `abc` is not listed.

