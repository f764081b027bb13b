{"id": "C01", "title": "Repertoire is a finite map under any edit history", "statement": "After any history of successful or failed add/delete calls on a repertoire (code points, sequences, ranges, variants), the answers of `in`, get_char, len and get_chars_from_prefix are exactly those of a finite map from code point sequences to entries: an added sequence is found, a deleted one is not, no other sequence is affected, len is the number of distinct sequences, and no sequence is ever stored twice.", "quantifier": "every finite history of repertoire calls with arbitrary arguments, starting from the empty repertoire", "why_tests_cant": "the number of interleavings of add/delete on overlapping prefixes and ranges is unbounded; tests only sample short histories", "anchors": ["lgr/char.py:Repertoire.add_char", "lgr/char.py:Repertoire.del_char", "lgr/char.py:Repertoire.add_range", "lgr/char.py:Repertoire.del_range", "lgr/char.py:Repertoire.__contains__", "lgr/char.py:Repertoire.get_char", "lgr/char.py:Repertoire.__len__"]}
{"id": "C02", "title": "A rejected code point or variant edit leaves the LGR unchanged", "statement": "If LGR.add_cp, LGR.del_cp, LGR.add_variant or LGR.del_variant raises, then the LGR (repertoire, tag classes, variant types, references) is exactly what it was before the call.", "quantifier": "every LGR state, every argument combination including force and validating repertoire", "why_tests_cant": "each exception can be raised at several points of the check sequence and from any state", "anchors": ["lgr/core.py:LGR.add_cp", "lgr/core.py:LGR.del_cp", "lgr/core.py:LGR.add_variant", "lgr/core.py:LGR.del_variant"]}
{"id": "C03", "title": "Iteration lists the repertoire once, in ascending order", "statement": "Iterating over a repertoire yields entries sorted by first code point then by length; every non-range entry is yielded exactly once, and of the range entries at most one per range block, and when ranges are intact exactly the first code point of each range.", "quantifier": "every repertoire reachable by any history of edits", "why_tests_cant": "order and uniqueness must hold for every set of overlapping prefixes and ranges", "anchors": ["lgr/char.py:Repertoire.__iter__"]}
{"id": "C04", "title": "Adding a range is all-or-nothing and adds exactly the range", "statement": "LGR.add_range either raises and leaves the LGR unchanged, or adds exactly the code points first..last that were absent, all with the given attributes, and changes no other entry. Repertoire.add_range likewise.", "quantifier": "every LGR state, every pair first/last, every option combination", "why_tests_cant": "failure can happen at any code point inside the range; only universally quantified reasoning covers every crash point", "anchors": ["lgr/core.py:LGR.add_range", "lgr/core.py:LGR._insert_list", "lgr/char.py:Repertoire.add_range", "lgr/char.py:Repertoire._check_range_overlap"]}
{"id": "C05", "title": "collapse_codepoints is an exact, maximal, sorted range cover", "statement": "For a non-empty list of distinct code points, collapse_codepoints returns ranges in ascending order, pairwise disjoint and non-adjacent, each with first <= last, and a code point belongs to one of the ranges iff it was in the input. The result does not depend on the order of the input. The empty list raises.", "quantifier": "every list of code points", "why_tests_cant": "arbitrary length and arbitrary gaps", "anchors": ["lgr/utils.py:collapse_codepoints"]}
{"id": "C06", "title": "Expanding ranges preserves the LGR's meaning", "statement": "LGR.expand_range / expand_ranges on an LGR whose ranges are intact, when the call returns, leaves membership, context rules, tags, comments and references of each code point unchanged, removes the range (all ranges), and does not change the outcome of label eligibility, segmentation, index label, variant generation, dispositions or variant estimate for any label. expand_ranges returns exactly when the first code point of each range passes the IDNA check, and ranges are intact in every LGR built through the API without deleting a single range member and without an add_range that raises part-way.", "quantifier": "every LGR with intact ranges, every label", "why_tests_cant": "equivalence of behaviour on all labels", "anchors": ["lgr/core.py:LGR.expand_range", "lgr/core.py:LGR.expand_ranges"]}
{"id": "C07", "title": "Tag classes mirror the tags of the repertoire", "statement": "At any time the class implicitly defined by a tag contains exactly the code points of the repertoire carrying that tag.", "quantifier": "every history of add_cp, del_cp, add_range, del_range, expand_ranges, del_tag", "why_tests_cant": "a divergence appears only after specific histories", "anchors": ["lgr/core.py:LGR._add_cp_to_tag_classes", "lgr/core.py:LGR._del_cp_from_tag_classes", "lgr/core.py:LGR.del_range", "lgr/core.py:LGR.del_tag"]}
{"id": "C08", "title": "Variants of a character form a set keyed by (code point, when, not-when)", "statement": "After any history of add_variant/del_variant on a character, get_variants yields each (cp, when, not-when) combination at most once and in ascending order of cp; a combination is present iff its last effective operation was an add; adding an existing one raises VariantAlreadyExists; delete after add restores the previous variants; deleting returns True iff it was present.", "quantifier": "every history of variant edits on one character", "why_tests_cant": "unbounded histories", "anchors": ["lgr/char.py:CharBase.add_variant", "lgr/char.py:CharBase.del_variant", "lgr/char.py:CharBase.get_variants"]}
{"id": "C09", "title": "Variant sets are exactly the reachability classes", "statement": "Repertoire.get_variant_sets returns, sorted and without duplicates, exactly the sets with at least two members of the form {code points reachable from c through variant mappings inside the repertoire} for c in the repertoire; for a symmetric repertoire these sets are pairwise disjoint.", "quantifier": "every repertoire, both values of force", "why_tests_cant": "graph reachability on arbitrary graphs", "anchors": ["lgr/char.py:Repertoire.get_variant_sets"]}
{"id": "C10", "title": "Deleting a reference or a tag removes every mention", "statement": "After LGR.del_reference(id) no character and no variant lists id and the id is no longer defined; after LGR.del_tag(t) no character lists t.", "quantifier": "every LGR built through the API", "why_tests_cant": "all characters and variants of any LGR", "anchors": ["lgr/core.py:LGR.del_reference", "lgr/core.py:LGR.del_tag", "lgr/char.py:Repertoire.del_reference", "lgr/char.py:Repertoire.del_tag", "lgr/metadata.py:ReferenceManager"]}
{"id": "C11", "title": "Reference identifiers are unique and never silently reused", "statement": "Under any history of add/update/delete on the reference manager, add without id always succeeds with an id that was not defined, never overwrites another reference, and the new reference can be read back; add with an existing id raises and changes nothing; deleting an undefined id raises and changes nothing.", "quantifier": "every history of reference manager calls", "why_tests_cant": "id allocation depends on the complete history through the next-id counter", "anchors": ["lgr/metadata.py:ReferenceManager.add_reference", "lgr/metadata.py:ReferenceManager.del_reference"]}
{"id": "C12", "title": "RFC 7940 conformance verdict: failures are sticky and order does not matter", "statement": "The final verdict depends only on which test cases were ever reported failed and which were ever reported run, not on order or repetition; without policy it is FAIL iff some failure was reported; with a policy it is FAIL iff a listed test was never run or a failed test is neither IGNORE nor WARNING, WARN iff not FAIL and some failed test has WARNING, PASS otherwise.", "quantifier": "every history of tested/error notifications, every policy", "why_tests_cant": "arbitrary interleavings of notifications", "anchors": ["lgr/rfc7940.py:LGRFormatTestResults.add_test_result", "lgr/rfc7940.py:LGRFormatTestResults.get_final_result"]}
{"id": "C13", "title": "Accepted labels are composed of repertoire entries in valid context", "statement": "If the preliminary eligibility test accepts a label, the label is exactly the concatenation of the returned characters, each of which is in the repertoire and satisfies its when/not-when rule at its offset, and the returned label parts equal the label; at each position the chosen character is a longest one that matches and satisfies its context.", "quantifier": "every repertoire, every rule semantics, every label", "why_tests_cant": "labels and repertoires are unbounded", "anchors": ["lgr/core.py:LGR._test_preliminary_eligibility", "lgr/core.py:LGR.test_label_eligible"]}
{"id": "C14", "title": "Every label that can be segmented is accepted", "statement": "If a label can be written as a concatenation of repertoire characters each satisfying its context rule at its offset, then the preliminary eligibility test accepts it.", "quantifier": "every repertoire, every label", "why_tests_cant": "requires reasoning about all segmentations", "anchors": ["lgr/core.py:LGR._test_preliminary_eligibility"]}
{"id": "C15", "title": "Eligibility failure report is accurate", "statement": "The preliminary test accepts iff the list of invalid parts is empty; when it rejects, each reported code point occurs in the label, code points reported without rule either start no repertoire entry or no entry starting with them matches there, and valid parts plus invalid parts account for every position of the label.", "quantifier": "every repertoire, every label", "why_tests_cant": "all labels", "anchors": ["lgr/core.py:LGR._test_preliminary_eligibility"]}
{"id": "C16", "title": "Label partitions are exactly the valid segmentations", "statement": "The set of partitions enumerated for a label is exactly the set of ways to write it as a concatenation of repertoire characters whose context rules hold at their offset, each listed once.", "quantifier": "every repertoire, every non-empty label", "why_tests_cant": "number of segmentations is exponential and unbounded", "anchors": ["lgr/core.py:LGR._generate_label_partitions"]}
{"id": "C17", "title": "Every accepted label has an index label", "statement": "generate_index_label never fails with an internal error: for a non-empty label it raises NotInLGR iff the label fails preliminary eligibility and otherwise returns the least, over all valid segmentations, of the concatenation of the least of each segment and its contextually valid variants.", "quantifier": "every repertoire, every label", "why_tests_cant": "min over all segmentations; absence of the internal error depends on the relation between two different algorithms", "anchors": ["lgr/core.py:LGR.generate_index_label", "lgr/core.py:LGR._generate_index_label_on_partition"]}
{"id": "C18", "title": "Index labels detect collisions exactly", "statement": "For a symmetric and transitive LGR, two accepted labels have the same index label iff one is a variant label of the other.", "quantifier": "every symmetric and transitive LGR, every pair of labels", "why_tests_cant": "a statement about all pairs of labels of all lengths", "anchors": ["lgr/core.py:LGR.generate_index_label"]}
{"id": "C19", "title": "The index label is a canonical representative", "statement": "For a symmetric and transitive LGR the index label of a label's index label is itself, is not greater than the label, and is itself a variant of (or equal to) the label.", "quantifier": "every symmetric and transitive LGR, every label", "why_tests_cant": "all labels", "anchors": ["lgr/core.py:LGR.generate_index_label"]}
{"id": "C20", "title": "First triggered action decides, and some action always triggers", "statement": "The disposition of a label is that of the first action in document order, followed by the default actions, whose conditions are met; a disposition is always produced and the returned action index identifies that action.", "quantifier": "every action list, label, disposition set", "why_tests_cant": "arbitrary action lists and rule semantics", "anchors": ["lgr/core.py:LGR._apply_actions", "lgr/action.py:Action.apply", "lgr/core.py:DEFAULT_ACTIONS"]}
{"id": "C21", "title": "Default actions implement the RFC 7940 table", "statement": "With no explicit action, a label with disposition types D is invalid if D contains invalid, else blocked if D contains blocked, else allocatable if D contains allocatable, else activated if D is non-empty and only contains activated, else valid.", "quantifier": "every set of variant types", "why_tests_cant": "all sets of arbitrary type names", "anchors": ["lgr/core.py:DEFAULT_ACTIONS", "lgr/core.py:LGR._apply_actions"]}
{"id": "C22", "title": "Generated variants are real variants", "statement": "Each variant label produced for a label results from a segmentation of the label into repertoire characters in which each segment is kept or replaced by one of its variants whose context rule holds at that place; the reported type set is exactly the set of types of the mappings used and only-variants is true iff every segment used a mapping.", "quantifier": "every LGR, every label, every generated variant", "why_tests_cant": "recursion over all segmentations and permutations", "anchors": ["lgr/core.py:LGR._generate_label_variants", "lgr/core.py:LGR._get_prefix_list"]}
{"id": "C23", "title": "No variant is missed", "statement": "For every segmentation of an accepted label into repertoire characters and every choice of contextually valid variants for at least one segment, the resulting label is produced by variant generation.", "quantifier": "every LGR, every label, every permutation", "why_tests_cant": "exponentially many permutations", "anchors": ["lgr/core.py:LGR._generate_label_variants"]}
{"id": "C24", "title": "Estimated number of variants is an upper bound", "statement": "estimate_variant_number is at least the number of distinct labels returned by compute_label_disposition, and equals it (invalid included) when all variants are unconditional and all entries are single code points.", "quantifier": "every LGR, every eligible label", "why_tests_cant": "counting argument over all labels", "anchors": ["lgr/core.py:LGR.estimate_variant_number", "lgr/core.py:LGR.compute_label_disposition"]}
{"id": "C25", "title": "Disposition listing: original last, once, no duplicates, invalid hidden", "statement": "compute_label_disposition on a label within the length limit yields the original label exactly once and last, yields no label twice (unless the list of characters is requested, in which case each way of obtaining a label is yielded), and unless invalid variants are requested yields no label with disposition invalid other than possibly the original one.", "quantifier": "every LGR, every label, every option", "why_tests_cant": "all generated lists", "anchors": ["lgr/core.py:LGR.compute_label_disposition"]}
{"id": "C26", "title": "Symmetry check is exact", "statement": "check_symmetry (ignoring rules) succeeds iff for every variant mapping a->b of a listed character b is in the repertoire and has a variant a; with rules it moreover requires, for each context rule of a->b, a reverse mapping with that rule; the report has an entry for exactly the faulty mappings.", "quantifier": "every LGR", "why_tests_cant": "all variant graphs", "anchors": ["lgr/validate/symmetry.py:check_symmetry"]}
{"id": "C27", "title": "Transitivity check is exact", "statement": "check_transitivity succeeds iff every variant b of an entry a is itself an entry and every variant c of b with c different from a is a variant of a; its report lists exactly the missing mappings a -> c.", "quantifier": "every LGR", "why_tests_cant": "all variant graphs", "anchors": ["lgr/validate/transitivity.py:check_transitivity"]}
{"id": "C28", "title": "Populating variants terminates in a symmetric and transitive LGR", "statement": "populate_lgr terminates on every LGR; on normal return the LGR passes the symmetry (ignoring rules) and transitivity checks.", "quantifier": "every LGR", "why_tests_cant": "termination of a fix-point loop on arbitrary graphs", "anchors": ["lgr/populate/__init__.py:populate_lgr"]}
{"id": "C29", "title": "Populating variants never loses anything", "statement": "populate_lgr keeps every code point, and every pair (code point, variant code point) present before; every added code point was a variant before, and every added pair is between members of the same variant set.", "quantifier": "every LGR", "why_tests_cant": "all graphs, all iteration orders", "anchors": ["lgr/populate/__init__.py:populate_lgr", "lgr/populate/__init__.py:_add_symmetry", "lgr/populate/__init__.py:_add_transitivity"]}
{"id": "C30", "title": "Union of LGRs contains exactly both inputs", "statement": "The union of two LGRs contains a code point iff one of the inputs does, and for each code point a variant iff one of the inputs has it for that code point.", "quantifier": "every pair of LGRs", "why_tests_cant": "all pairs of repertoires, any set iteration order", "anchors": ["lgr/tools/compare/union.py:union_lgrs", "lgr/tools/compare/union.py:union_char"]}
{"id": "C31", "title": "Intersection of LGRs contains exactly the common part", "statement": "The intersection contains a code point iff both inputs do and for each a variant iff both inputs have it.", "quantifier": "every pair of LGRs", "why_tests_cant": "all pairs of repertoires, any set iteration order", "anchors": ["lgr/tools/compare/intersect.py:intersect_lgrs", "lgr/tools/compare/intersect.py:intersect_char"]}
{"id": "C32", "title": "Collision groups are exactly the labels sharing an index", "statement": "For a list of labels all in the LGR, two different labels are listed in the same collision group iff they have the same index label, and a group is reported iff at least two labels share it.", "quantifier": "every list of labels, every index function", "why_tests_cant": "arbitrary lists in arbitrary order", "anchors": ["lgr/tools/diff_collisions.py:_generate_indexes", "lgr/tools/diff_collisions.py:get_collisions"]}
{"id": "C33", "title": "Collision dump lists each colliding pair once", "statement": "The collision dump lists each unordered pair of distinct colliding labels exactly once.", "quantifier": "every collision group", "why_tests_cant": "group sizes are unbounded", "anchors": ["lgr/tools/diff_collisions.py:dump_collisions"]}
{"id": "C34", "title": "Serialised LGR data parses back to the same repertoire", "statement": "Parsing the serialised data section of an LGR gives back the same code points, sequences, ranges, attributes and variants.", "quantifier": "every LGR built through the API", "why_tests_cant": "round trip on all repertoires", "anchors": ["lgr/parser/xml_serializer.py:_serialize_data", "lgr/parser/xml_parser.py:XMLParser._process_data"]}
{"id": "C35", "title": "Textual code point notation round-trips", "statement": "Formatting a code point or sequence as hexadecimal and parsing it back gives the same value.", "quantifier": "every code point and sequence", "why_tests_cant": "infinite domain", "anchors": ["lgr/utils.py:cp_to_str", "lgr/utils.py:format_cp", "lgr/parser/xml_serializer.py:_serialize_data", "lgr/parser/xml_parser.py:XMLParser._process_data"]}
{"id": "C36", "title": "A bad line in a table file never affects another code point", "statement": "When parsing an RFC 3743 or RFC 4290 table, a line whose base character is invalid contributes nothing: the resulting LGR is the one obtained by removing that line.", "quantifier": "every file content", "why_tests_cant": "stale state between lines shows only for particular line sequences", "anchors": ["lgr/parser/rfc3743_parser.py:RFC3743Parser._parse_doc", "lgr/parser/rfc4290_parser.py:RFC4290Parser._parse_doc"]}
{"id": "C37", "title": "Validation results do not depend on previous validations", "statement": "validate_lgr(lgr, options) runs the same checks whatever validations were run before in the process.", "quantifier": "every history of validate calls", "why_tests_cant": "history dependence", "anchors": ["lgr/validate/__init__.py:validate_lgr"]}
{"id": "C38", "title": "IDN table review: overall status is the worst result", "statement": "In the IDN review summary, the overall result is the most severe of the individual results and the counters add up to the number of results.", "quantifier": "every list of results", "why_tests_cant": "arbitrary lists", "anchors": ["lgr/tools/idn_review/summary.py:handle_report"]}
{"id": "C39", "title": "IDN table review decisions are total", "statement": "The class, repertoire and variant comparison of the IDN review always produce a result and remark: no comparison ends in an internal assertion failure or without result.", "quantifier": "every combination of compared attributes", "why_tests_cant": "combinations of optional attributes and arbitrary values", "anchors": ["lgr/tools/idn_review/classes.py", "lgr/tools/idn_review/variant_sets.py", "lgr/tools/idn_review/repertoire.py"]}
{"id": "C40", "title": "check_range classifies code points and has no side effect", "statement": "check_range returns one status per code point of the range in order; the status is None iff the code point is valid, in the validating repertoire and absent from the LGR; the LGR, including the IDNA strictness flag, is unchanged on every exit path.", "quantifier": "every LGR, every range", "why_tests_cant": "each exit path must restore the flag", "anchors": ["lgr/core.py:LGR.check_range"]}
{"id": "C41", "title": "Hiding mixed-script variants only removes variants", "statement": "With mixed-script hiding, every label produced is also produced without hiding, and each code point substituted stays in the permitted scripts of the label or of one single other script.", "quantifier": "every LGR, label and script assignment", "why_tests_cant": "recursion with changing filters", "anchors": ["lgr/core.py:LGR._generate_label_variants", "lgr/mixed_scripts_variant_filter.py"]}
{"id": "C42", "title": "Class expressions denote the set algebra they spell", "statement": "The code point set of a class built from union, intersection, difference, symmetric difference, complement, references and tags is the corresponding set expression; references to undefined classes raise.", "quantifier": "every class expression, every code point", "why_tests_cant": "arbitrary nesting", "anchors": ["lgr/classes.py"]}
{"id": "C43", "title": "Deleting a range deletes exactly that range", "statement": "Repertoire.del_range either raises and changes nothing or deletes exactly the code points of a range added before; afterwards the same range can be added again.", "quantifier": "every history of repertoire edits", "why_tests_cant": "unbounded histories", "anchors": ["lgr/char.py:Repertoire.del_range"]}
{"id": "C44", "title": "Set annotation reports collisions of the label itself", "statement": "Annotating a label against a set reports a collision iff the label has the same index as some label of the set.", "quantifier": "every set of labels and every label", "why_tests_cant": "arbitrary sets", "anchors": ["lgr/tools/annotate.py:lgr_set_annotate"]}
{"id": "C45", "title": "Merging LGRs of a set keeps every code point and variant", "statement": "merge_lgr_set yields an LGR whose repertoire is the union of the inputs' repertoires and which has every variant mapping of every input.", "quantifier": "every list of LGRs", "why_tests_cant": "arbitrary lists", "anchors": ["lgr/tools/merge_set.py:merge_lgr_set", "lgr/tools/merge_set.py:merge_chars"]}
{"id": "C46", "title": "Harmonisation makes the common variant sets equal", "statement": "After harmonize, each variant mapping of either LGR whose two code points are in both repertoires' scope is present in both results, and nothing is lost from either.", "quantifier": "every pair of LGRs", "why_tests_cant": "arbitrary pairs", "anchors": ["lgr/tools/harmonize.py:harmonize"]}
{"id": "C47", "title": "Hiding mixed-script variants keeps the label's own script", "statement": "A variant label whose code points are all of script Common, Inherited or a script allowed together with the scripts of the original label is produced with mixed-script hiding whenever it is produced without.", "quantifier": "every LGR, label and script assignment", "why_tests_cant": "all labels and script assignments", "anchors": ["lgr/core.py:LGR._generate_label_variants", "lgr/mixed_scripts_variant_filter.py"]}
{"id": "C48", "title": "Listed dispositions are those of RFC 7940 section 8.3", "statement": "Each variant label listed by compute_label_disposition has disposition invalid if it does not pass the preliminary test or is itself invalid, and otherwise the disposition of the first action triggered by exactly the types of the mappings used; every generated variant label is listed unless it is invalid and invalid ones are not requested.", "quantifier": "every LGR, label and option", "why_tests_cant": "all labels, all sets of variants and actions", "anchors": ["lgr/core.py:LGR.compute_label_disposition", "lgr/core.py:LGR._apply_actions"]}
{"id": "C49", "title": "The label's own disposition comes from its reflexive mappings", "statement": "test_label_eligible on a label passing the preliminary test gives the disposition decided by the types of the contextually valid reflexive variants of the characters the label is made of.", "quantifier": "every LGR, every label", "why_tests_cant": "all labels and repertoires", "anchors": ["lgr/core.py:LGR._test_label_disposition", "lgr/core.py:LGR.test_label_eligible"]}
{"id": "C50", "title": "A code point or variant is accepted exactly when the documented checks pass", "statement": "LGR.add_cp succeeds exactly when the argument is an int or non-empty sequence that is absent from the LGR, is IDNA-valid (unless that check is off or there is no Unicode database), lies in the validating repertoire (unless override or force), and, unless forced, has at most one context rule, defined and distinct references, distinct tags, and no tags if it is a sequence; LGR.add_variant succeeds exactly under the corresponding conditions plus: the character is in the LGR and not in a range, and has no variant with the same code points and context rules. On success the new entry carries the given attributes, the tag classes gain the code points, nothing else changes; del_cp undoes it.", "quantifier": "every LGR state, every argument and option combination", "why_tests_cant": "the options interact: 2^k combinations over arbitrary states", "anchors": ["lgr/core.py:LGR.add_cp", "lgr/core.py:LGR.add_variant", "lgr/core.py:LGR.del_cp", "lgr/core.py:LGR._check_convert_cp"]}
{"id": "C51", "title": "References mentioned in the LGR are defined", "statement": "In any LGR built through the editing API every reference id listed by a character or a variant is defined in the reference manager, and LGR.del_reference that raises leaves the LGR unchanged.", "quantifier": "every history of edit calls, every reference id", "why_tests_cant": "arbitrary histories; the forced path behaves differently only for particular option combinations", "anchors": ["lgr/core.py:LGR.del_reference", "lgr/core.py:LGR.add_cp", "lgr/core.py:LGR.add_variant", "lgr/char.py:Repertoire.del_reference", "lgr/metadata.py:ReferenceManager"]}
{"id": "C52", "title": "Conformance record agrees with the checks", "statement": "After check_symmetry the RFC 7940 tests basic_symmetry and strict_symmetry stand as failed exactly when they did before or the check found a problem of that kind, and otherwise as passed; after check_transitivity the test basic_transitivity stands as failed whenever the check returned failure.", "quantifier": "every LGR, every earlier conformance record", "why_tests_cant": "all variant graphs and all earlier records", "anchors": ["lgr/validate/symmetry.py:check_symmetry", "lgr/validate/transitivity.py:check_transitivity", "lgr/rfc7940.py:LGRFormatTestResults"]}
{"id": "C53", "title": "Populating variants makes context rules symmetric in kind", "statement": "When populate_lgr returns normally, for every variant mapping a->b with a when (resp. not-when) rule, some mapping b->a has a when (resp. not-when) rule.", "quantifier": "every LGR, every Unicode database", "why_tests_cant": "The rule fix-up happens during a single final sweep which itself modifies the variants being traversed; tests use a few small repertoires, while the claim is about every order of traversal and combination of rules.", "anchors": ["lgr/populate/__init__.py:populate_lgr", "lgr/populate/__init__.py:_add_symmetry"]}
{"id": "C54", "title": "Combining an LGR with itself gives back the LGR", "statement": "union_lgrs(l, l) and intersect_lgrs(l, l), when they return, have the same entries as l, with the same comment, tags, context rules and variants (with types and rules).", "quantifier": "every LGR reachable through the API, every set iteration order", "why_tests_cant": "Idempotence of a set operation is a statement about every repertoire and every attribute at once; the tests compare a handful of hand-picked fields.", "anchors": ["lgr/tools/compare/union.py:union_lgrs", "lgr/tools/compare/intersect.py:intersect_lgrs"]}
{"id": "C55", "title": "The actions of a union dispose of every label as both lists in order would", "statement": "The actions of union_lgrs(l1, l2) are those of l1 and l2 without duplicates; applied to any label they give the disposition (or error) of l1.actions followed by l2.actions; and actions_xml stays in step with actions.", "quantifier": "every two action lists, every label, rule matcher and set of variant types", "why_tests_cant": "Removing duplicates from an order-sensitive first-match list is only safe for all labels and rule matchers at once.", "anchors": ["lgr/tools/compare/union.py:union_actions", "lgr/action.py:Action.__eq__", "lgr/core.py:LGR._apply_actions"]}
{"id": "C56", "title": "The actions of an intersection are the common ones, in order", "statement": "The actions of intersect_lgrs(l1, l2) are exactly those occurring in both, in the order they have in l1, each with its XML.", "quantifier": "every two action lists, every set iteration order", "why_tests_cant": "Set iteration order depends on hash seeds; a test sees one order.", "anchors": ["lgr/tools/compare/intersect.py:intersect_actions"]}
{"id": "C57", "title": "Union and intersection keep rule and class names unambiguous and resolvable", "statement": "The rules (classes) of a union are those of both inputs, those of the intersection the common ones; a name with different definitions is kept as name_1 and name_2; names stay unique, and every name used by an input still names a rule.", "quantifier": "every two lists of named rules or classes, every set iteration order", "why_tests_cant": "Name capture only appears for particular combinations of names across both inputs.", "anchors": ["lgr/tools/compare/union.py:union_rules", "lgr/tools/compare/union.py:union_classes", "lgr/tools/compare/intersect.py:intersect_rules", "lgr/tools/compare/intersect.py:intersect_classes"]}
{"id": "C58", "title": "References of a union are those of both LGRs, of an intersection the common ones", "statement": "By value, the references of union_lgrs(l1, l2) are exactly those of l1 and l2, those of intersect_lgrs exactly the common ones; each value once and identifiers distinct.", "quantifier": "every two LGRs reachable through the API, every set iteration order", "why_tests_cant": "Identifiers are re-assigned by searching free numbers; uniqueness is a claim about every list of references.", "anchors": ["lgr/tools/compare/union.py:union_reference_manager", "lgr/tools/compare/intersect.py:intersect_reference_manager", "lgr/metadata.py:ReferenceManager.add_reference"]}
{"id": "C59", "title": "Metadata of union and intersection", "statement": "The union has the languages and scopes of both inputs, the intersection the common ones; either is valid on exactly the days both inputs are, and has the newer Unicode version.", "quantifier": "every two metadata objects with valid dates, every day", "why_tests_cant": "Dates and versions are compared as strings; whether that is the right order is a statement about all pairs.", "anchors": ["lgr/tools/compare/union.py:union_metadata", "lgr/tools/compare/intersect.py:intersect_metadata", "lgr/tools/compare/utils.py:compare_objects"]}
{"id": "C60", "title": "Memoised methods are never stale", "statement": "After any sequence of changes of the attribute and calls, a method memoised by attribute returns what the undecorated method returns.", "quantifier": "every history of attribute changes and calls", "why_tests_cant": "Staleness depends on history.", "anchors": ["lgr/memoize.py:MethodAttributeMemoizer", "lgr/metadata.py:Metadata.get_scripts"]}
{"id": "C61", "title": "Dates are accepted iff they are ISO 8601 calendar dates", "statement": "_validate_date(s, force=False) returns s iff s is YYYY-MM-DD for a day of the calendar and else raises LGRFormatException; with force=True it always returns s.", "quantifier": "every string", "why_tests_cant": "infinitely many strings", "anchors": ["lgr/metadata.py:_validate_date"]}
{"id": "C62", "title": "Without force only valid language tags are stored", "statement": "add_language and set_languages without force either raise, leaving the languages unchanged, or store only valid tags: exactly those given.", "quantifier": "every list of tags, every validity check", "why_tests_cant": "set_languages modifies the list it iterates over; which tags are skipped depends on their arrangement.", "anchors": ["lgr/metadata.py:Metadata.add_language", "lgr/metadata.py:Metadata.set_languages"]}
{"id": "C63", "title": "A whole-label rule matches exactly the labels RFC 7940 says it matches", "statement": "Rule.matches of a rule without anchors returns True iff the sequence of its matchers (characters, classes, any, choices, look-arounds, start, end, nested and referenced rules, counts) holds somewhere in the label.", "quantifier": "every rule, every set of rule and class definitions, every label", "why_tests_cant": "rules are nested expressions over all labels; the regular expression is built from strings and its meaning depends on all sub-expressions", "anchors": ["lgr/rule.py:Rule.get_pattern", "lgr/rule.py:Rule.matches", "lgr/matcher.py"]}
{"id": "C64", "title": "A context rule matches exactly at the anchor", "statement": "Rule.matches with an anchor, of a rule that is an anchor with look-arounds before and after it, returns True iff the anchor's code points are at the index given, what precedes the anchor holds at their start and what follows holds at their end.", "quantifier": "every context rule, every label, every code point sequence and position", "why_tests_cant": "search may find a match elsewhere; all positions and labels matter", "anchors": ["lgr/rule.py:Rule.matches", "lgr/matcher.py:AnchorMatcher", "lgr/matcher.py:LookAheadMatcher", "lgr/matcher.py:LookBehindMatcher"]}
{"id": "C65", "title": "Cached patterns never change the answer of a rule", "statement": "Whatever was added, tagged, parsed or matched before, Rule.matches answers by the definitions the LGR has now.", "quantifier": "every history of calls, every rule, every label", "why_tests_cant": "staleness shows only for histories which mix matching and changes", "anchors": ["lgr/rule.py:Rule.get_pattern", "lgr/rule.py:Rule.precalculate_patterns", "lgr/core.py:LGR.add_rule", "lgr/core.py:LGR.add_class", "lgr/core.py:LGR._add_cp_to_tag_classes"]}
{"id": "C66", "title": "Rules which were accepted can be evaluated", "statement": "A rule accepted by add_rule without force can be matched against every label without raising.", "quantifier": "every history of definitions, every label", "why_tests_cant": "depends on all definitions the rule refers to, also later ones", "anchors": ["lgr/rule.py:Rule.validate", "lgr/rule.py:Rule.matches", "lgr/core.py:LGR.add_rule"]}
{"id": "C67", "title": "A forced parse keeps every rule", "statement": "With force the XML parser adds every named rule to the LGR, also if it refers to undefined rules or classes, with or without a Unicode database.", "quantifier": "every rule, every state of the LGR", "why_tests_cant": "all rules and definitions seen so far", "anchors": ["lgr/parser/xml_parser.py:XMLParser._parse_rule", "lgr/rule.py:Rule.precalculate_patterns"]}
{"id": "C68", "title": "Conditional variants check is exact", "statement": "check_conditional_variants succeeds iff every when/not-when rule named by a variant of the LGR exists in the LGR, and lists exactly the variants naming a missing rule, with the code point and the rule.", "quantifier": "every LGR, every set of rule names", "why_tests_cant": "all repertoires and variants", "anchors": ["lgr/validate/conditional_variants.py:check_conditional_variants"]}
{"id": "C69", "title": "Statistics count the LGR", "statement": "generate_stats reports the number of code points and sequences, of ranges, sequences, variants by type, and of code points for each tag, as can be counted through the API, and the sizes of the largest range, sequence and variant set.", "quantifier": "every LGR reached by a history of edits", "why_tests_cant": "all repertoires, all histories", "anchors": ["lgr/validate/lgr_stats.py:generate_stats"]}
{"id": "C70", "title": "Miscellaneous check is exact and total", "statement": "check_miscellaneous does not raise; it reports exactly: a disposition which is not standard, a variant type which is empty, contains a space or starts with an underscore, a code point (also of a variant) which is not valid in the Unicode version of the LGR, a list of references with two adjacent numbers not ascending; it succeeds iff nothing is reported; each of its tests is notified as run.", "quantifier": "every LGR, with and without Unicode database", "why_tests_cant": "all repertoires, actions and references", "anchors": ["lgr/validate/miscellaneous.py:check_miscellaneous", "lgr/validate/miscellaneous.py:check_lgr_data", "lgr/validate/miscellaneous.py:check_ref_ascending"]}
{"id": "C71", "title": "Metadata check is exact", "statement": "check_metadata reports exactly: validity end before today, end before start, start after today, a description whose type is not a MIME type, a scope of a type other than domain, a version which is not a positive integer; dates are compared as dates; it succeeds iff nothing is reported and notifies all of its six tests as run.", "quantifier": "all metadata with valid dates, every date of today", "why_tests_cant": "all dates and values", "anchors": ["lgr/validate/metadata.py:check_metadata"]}
{"id": "C72", "title": "Rebuild check is exact and total", "statement": "rebuild_lgr does not raise; it reports an error for exactly the code points, sequences and ranges that are not IDNA-valid, not in the validating repertoire, have both when and not-when, undefined or repeated references, or tags that are not allowed; a warning for exactly the code points out of the script of the LGR; and an error for exactly the variants that are not IDNA-valid or have such rules or references.", "quantifier": "every LGR reached by a history of edits, every database, validating repertoire and script", "why_tests_cant": "all repertoires and environments; insertion is stateful", "anchors": ["lgr/validate/rebuild_lgr.py:rebuild_lgr"]}
{"id": "C73", "title": "An RFC 4290 table is read exactly", "statement": "For a file in the notation of RFC 4290, parse_document raises nothing and the LGR has exactly the bases of the rows as code points or sequences, each with exactly the variants of the rows with that base, without attributes; comments, blank and other lines contribute nothing.", "quantifier": "every file in which no row has variants and a base that is not a sequence of code points", "why_tests_cant": "the grammar (4 to 6 digits, separators, comments) and repetition of rows give unbounded combinations", "anchors": ["lgr/parser/rfc4290_parser.py:RFC4290Parser._parse_doc", "lgr/parser/rfc4290_parser.py:parse_char"]}
{"id": "C74", "title": "An RFC 3743 table is read exactly", "statement": "For a file in the notation of RFC 3743, parse_document raises nothing and the LGR has exactly the references, bases and variants the lines give: first definition of a reference wins, first acceptable row of a base decides its references, variants of the second column have type activated, first occurrence of a variant wins, undefined references are dropped if forced and else reject the item.", "quantifier": "every file whose rows are code points and sequences with optional references and two optional columns of comma-separated variants", "why_tests_cant": "order of rows and references matters; arbitrary length", "anchors": ["lgr/parser/rfc3743_parser.py:RFC3743Parser._parse_doc", "lgr/parser/rfc3743_parser.py:parse_char"]}
{"id": "C75", "title": "A file of lines is read exactly", "statement": "For any file, the line parser raises nothing and the LGR has exactly the sequences of the U+ code points of the lines that are neither blank nor comments nor without code points, without attributes and variants.", "quantifier": "every file", "why_tests_cant": "arbitrary text between code points", "anchors": ["lgr/parser/line_parser.py:LineParser._parse_doc"]}
{"id": "C76", "title": "The parser is chosen by the first line only one notation allows", "statement": "For a file that does not look like XML the heuristic parser chooses RFC 3743 or RFC 4290 according to the first line that only this notation allows; without such a line RFC 4290 if a line starts with U+ and a code point; else XML.", "quantifier": "every file", "why_tests_cant": "the deciding line may be preceded by arbitrarily many others", "anchors": ["lgr/parser/heuristic_parser.py:HeuristicParser._check_rfc_format"]}
{"id": "C77", "title": "A line of the review summary speaks for all reports it counts", "statement": "In the summary of each section of an IDN review every line gives the result of all the reports with its remark: no remark is used with two results, so that the number of reports with a result is the sum of the counts of its lines.", "quantifier": "every pair of table and reference LGR, every section", "why_tests_cant": "the property is about every combination of reports in one section", "anchors": ["lgr/tools/idn_review/summary.py:handle_report", "lgr/tools/idn_review/variant_sets.py", "lgr/tools/idn_review/classes.py", "lgr/tools/idn_review/repertoire.py", "lgr/tools/idn_review/actions.py", "lgr/tools/idn_review/language_tag.py", "lgr/tools/idn_review/whole_label_evaluation_rules.py"]}
{"id": "C79", "title": "Review of classes is exact", "statement": "The review of classes has one entry for each class of the table or the reference, except those without members in the table and whose reference members are outside the repertoire of the table; MATCH exactly if both have the same members, and the other results exactly for the stated relations between members and repertoires.", "quantifier": "all classes and repertoires", "why_tests_cant": "arbitrary sets of code points", "anchors": ["lgr/tools/idn_review/classes.py:ClassReport", "lgr/tools/idn_review/classes.py:generate_classes_report"]}
{"id": "C80", "title": "Review of the repertoire is exact", "statement": "The review of the repertoire has one entry for every code point or sequence of the table or the reference, with result MATCH exactly if both contain it with the same contextual rule and tags, and the stated results otherwise, whatever the order of iteration on tags.", "quantifier": "every pair of repertoires", "why_tests_cant": "arbitrary repertoires; order of iteration on sets", "anchors": ["lgr/tools/idn_review/repertoire.py:generate_repertoire_report"]}
{"id": "C81", "title": "Review of actions is exact", "statement": "Actions are reported as present in both LGRs exactly if the other LGR has an action with the same disposition, rule and sets of variant types, in the order of the actions; the sequence of actions is reported as matching exactly if the table has actions and the actions common to both come in the same order.", "quantifier": "all lists of actions", "why_tests_cant": "arbitrary lists", "anchors": ["lgr/tools/idn_review/actions.py:generate_actions_report"]}
{"id": "C82", "title": "Review of rules is exact", "statement": "A rule is reported exactly as: matching if both LGRs define it alike and it is used in the context of the same code points; otherwise according to where it is defined and on which code points it is used.", "quantifier": "all LGRs", "why_tests_cant": "arbitrary repertoires, with ranges", "anchors": ["lgr/tools/idn_review/whole_label_evaluation_rules.py"]}
{"id": "C83", "title": "The report on general rules is computed for every reference", "statement": "For every list of labels which a general rule must exclude, the report on the rule is computed without exception; it says that the rule exists exactly if all labels are made of code points and sequences of the table and none is eligible, and that it does not exist if the first label of another kind is eligible.", "quantifier": "every repertoire and list of labels", "why_tests_cant": "arbitrary overlapping sequences", "anchors": ["lgr/tools/idn_review/whole_label_evaluation_rules.py"]}
{"id": "C78", "title": "An LGR reviewed against itself matches", "statement": "The review of an LGR against itself reports only matches: for each code point, class, action, rule, language tag and variant mapping, and for the sequence of actions.", "quantifier": "every LGR, with any variants, symmetric or not", "why_tests_cant": "the two sides of each comparison share all structure; set orders are arbitrary", "anchors": ["lgr/tools/idn_review/variant_sets.py", "lgr/tools/idn_review/actions.py", "lgr/tools/idn_review/classes.py", "lgr/tools/idn_review/repertoire.py", "lgr/tools/idn_review/language_tag.py", "lgr/tools/idn_review/whole_label_evaluation_rules.py"]}
{"id": "C84", "title": "The report on variant sets is always made", "statement": "For any two LGRs the report on variant sets is computed without exception.", "quantifier": "all pairs of LGRs", "why_tests_cant": "depends on how variant sets overlap and on sequences outside the repertoire", "anchors": ["lgr/tools/idn_review/variant_sets.py"]}
{"id": "C85", "title": "Additional code points are those outside the variant sets", "statement": "The additional code points listed with the report on variant sets are exactly the code points of the table which are neither in the reference LGR nor in a variant set of the table.", "quantifier": "all pairs of LGRs", "why_tests_cant": "arbitrary repertoires, with ranges", "anchors": ["lgr/tools/idn_review/variant_sets.py"]}
{"id": "C86", "title": "The comparison of the variants of a mapping is right", "statement": "A mapping is reported as a match exactly if table and reference have the same variants (conditions and types) for it; otherwise the result and remark say which side is stricter. The result does not depend on the order of iteration on sets.", "quantifier": "all sets of variants on both sides, all iteration orders", "why_tests_cant": "iteration order of sets depends on hashing", "anchors": ["lgr/tools/idn_review/variant_sets.py"]}
{"id": "C87", "title": "Variant sets which include one another are compared", "statement": "Every variant set of the table is in the report, and every set of the reference with a member in the table; sets with the same smallest member, or one of which includes the other, are compared in one entry.", "quantifier": "all pairs of LGRs", "why_tests_cant": "arbitrarily many overlapping sets", "anchors": ["lgr/tools/idn_review/variant_sets.py"]}
{"id": "C88", "title": "Symmetry and transitivity of a set are checked exactly", "statement": "For each variant set of the table, the check says that it is symmetric (transitive) exactly if all members are in the table and the mappings of the members are symmetric (transitive) and lead to members.", "quantifier": "every repertoire and set", "why_tests_cant": "arbitrary variant graphs", "anchors": ["lgr/tools/idn_review/variant_sets.py"]}
{"id": "C89", "title": "The report on a set has exactly its mappings", "statement": "For each compared set the report has every variant mapping, in the table or in the reference, from a member of the set, in one direction or the other; nothing else; no mapping twice; and both directions of a mapping in one entry if both LGRs are symmetric.", "quantifier": "all pairs of LGRs, all iteration orders", "why_tests_cant": "arbitrary variant graphs on both sides", "anchors": ["lgr/tools/idn_review/variant_sets.py"]}
{"id": "C90", "title": "The result on a mapping is about the variants of both LGRs", "statement": "The result on a mapping says, for both directions, whether it is in the table only, in the reference only, or how the variants of the table and the reference compare.", "quantifier": "all pairs of LGRs, all iteration orders", "why_tests_cant": "which direction is reported depends on what was visited before", "anchors": ["lgr/tools/idn_review/variant_sets.py"]}
{"id": "C91", "title": "Relevant repertoire, destination and symmetry of the reported mappings", "statement": "The relevant repertoire of a reported variant set is, sorted, the compared code points that are in the table (and for a set of the reference alone only code points of the table). `dest_in_idn` and `dest_in_ref` say whether the destination of a mapping is in the table or the reference; `symmetric` whether both directions have the same types.", "quantifier": "all pairs of LGRs, all iteration orders", "why_tests_cant": "arbitrary variant graphs on both sides", "anchors": ["lgr/tools/idn_review/variant_sets.py"]}
{"id": "C92", "title": "Harmonised LGRs are marked in the version comment", "statement": "After harmonize, the version comment of each resulting LGR ends with ' - Harmonized'.", "quantifier": "every LGR with a version, whatever its comment", "why_tests_cant": "arbitrary comments; tests only check the variants", "anchors": ["lgr/tools/harmonize.py:harmonize"]}
{"id": "C93", "title": "A written document passes the parser's order checks", "statement": "Parsing the serialised data section of an LGR reports no failure of the checks char_ascending_order and char_strict_ascending_order.", "quantifier": "every LGR built through the API", "why_tests_cant": "arbitrary sets of sequences, added in any order", "anchors": ["lgr/parser/xml_serializer.py:_serialize_data", "lgr/parser/xml_parser.py:XMLParser._process_data", "lgr/char.py:Repertoire.__iter__"]}
{"id": "C94", "title": "Merging a set of LGRs keeps what references say", "statement": "A code point or variant of the merged LGR cites references with the texts of those it cites in the LGR it comes from, though identifiers may be given anew.", "quantifier": "every list of LGRs with distinct scripts, every reference identifier and text", "why_tests_cant": "arbitrary collisions between identifiers and texts of several LGRs", "anchors": ["lgr/tools/merge_set.py:merge_references", "lgr/tools/merge_set.py:merge_chars"]}
{"id": "C95", "title": "Tags of a merged set of LGRs", "statement": "A code point of the merged LGR has, each once, its tags in the LGRs prefixed by the script unless they contain a colon, and its script extensions; nothing else.", "quantifier": "every list of LGRs", "why_tests_cant": "arbitrary overlaps and set orders", "anchors": ["lgr/tools/merge_set.py:merge_chars"]}
{"id": "C96", "title": "The contexts of a merged set of LGRs are defined", "statement": "If the contexts of each LGR are rules of it, every context of the merged LGR is a rule of the merged LGR.", "quantifier": "every list of LGRs", "why_tests_cant": "names are assembled and taken apart again across an arbitrary number of LGRs", "anchors": ["lgr/tools/merge_set.py:merge_chars", "lgr/tools/merge_set.py:merge_rules", "lgr/tools/merge_set.py:rename_rule"]}
{"id": "C97", "title": "Variant sets of a merged set of LGRs", "statement": "The merged LGR's variant sets are those generated by the variants of all the LGRs, and its variants are symmetric and transitive if theirs are.", "quantifier": "every list of LGRs", "why_tests_cant": "arbitrary graphs of variants", "anchors": ["lgr/tools/merge_set.py:merge_chars"]}
{"id": "C98", "title": "The context of a code point of several LGRs of a set", "statement": "If merge_lgr_set returns, the LGRs that give a code point a when (or not-when) rule agree on its name r, and the merged LGR gives it the rule named r after the scripts of those LGRs, the last one first.", "quantifier": "every list of LGRs whose scripts and rule names do not begin with another script and a hyphen", "why_tests_cant": "names are assembled and taken apart again across an arbitrary number of LGRs", "anchors": ["lgr/tools/merge_set.py:merge_chars"]}
{"id": "C99", "title": "Metadata and references of a document are read back", "statement": "Whatever calls were made to set the metadata and the references of an LGR, serialize_lgr_xml writes its <meta> section, XMLParser reads the section without exception and without failed conformance check, and the metadata and references read (version, dates, languages, scopes, Unicode version, description, references with their ids in order, comments and types) are those written.", "quantifier": "every history of calls of the API of Metadata and ReferenceManager, every text, with and without force", "why_tests_cant": "the texts and the histories are unbounded, and the losses are in corner cases (empty texts, CDATA, line ends, duplicates)", "anchors": ["lgr/parser/xml_serializer.py:_serialize_meta", "lgr/parser/xml_parser.py:_process_meta", "lgr/metadata.py:Metadata", "lgr/metadata.py:ReferenceManager"]}
{"id": "C100", "title": "A Unicode version is accepted iff it has the form x.y.z", "statement": "set_unicode_version without force stores the text and returns iff the text consists of three numbers separated by dots; otherwise it raises, changes nothing and the failed check is recorded. With force, every text is stored and one of another form is recorded.", "quantifier": "every string", "why_tests_cant": "the set of strings is infinite; the regular expression is not anchored at the end", "anchors": ["lgr/metadata.py:Metadata.set_unicode_version"]}
{"id": "C101", "title": "Rules, classes and actions of a document are read back", "statement": "If the <rules> section of a document is parsed without exception, serialize_lgr_xml writes the classes, then the rules, then the actions, each kind complete and in its order; parsing this section raises nothing, and gives the same classes, rules, patterns of rules and actions, and a section written after that is the same again. The same holds for rules, classes and actions added by add_rule, add_class and add_action.", "quantifier": "every list of elements in a <rules> section in any order, every parser with and without force and Unicode database", "why_tests_cant": "sections are unbounded trees; the loss is in the interplay of definition order, redefinition and reordering", "anchors": ["lgr/parser/xml_serializer.py:_serialize_rules", "lgr/parser/xml_parser.py:XMLParser._process_rules", "lgr/parser/xml_parser.py:XMLParser._parse_rule", "lgr/parser/xml_parser.py:XMLParser._parse_class", "lgr/parser/xml_parser.py:XMLParser._parse_action"]}
{"id": "C102", "title": "A class element lists exactly the code points it spells", "statement": "For a <class> element with text, the class parsed has exactly the code points spelled by the white-space separated words of the text, a word being a hexadecimal code point or an inclusive range; if a word is neither, ValueError is raised. For one with <char> and <range> elements, it has exactly the code points these list. A class by reference which lists code points or has a name is rejected.", "quantifier": "every text, every list of <char> and <range> elements, every attributes", "why_tests_cant": "the texts are unbounded", "anchors": ["lgr/parser/xml_parser.py:cp_or_sequence_from_class", "lgr/parser/xml_parser.py:XMLParser._parse_class", "lgr/classes.py:Class.add_codepoint"]}
{"id": "C103", "title": "The rules of a document match what RFC 7940 says their elements mean", "statement": "Give the elements of a <rules> section the meaning RFC 7940 gives them: class elements denote sets, elements of rules relate the positions of a label, counts repeat, references stand for what they refer to. When a section is read (without force, no element left out, no class or rule defined twice, properties known, counts in order), its definitions have such a meaning for every label; and asking the LGR whether a rule without anchors matches a label of at most 63 code points answers, without exception, true iff the rule holds somewhere in the label. For a rule that is an anchor between look-arounds, asking for code points at a position answers true iff the code points are there, the look-arounds before hold at the beginning and those after at the end. The answers do not depend on what was asked before. Literals, choices and rules may not be empty and classes must have code points.", "quantifier": "every rules section, every tags of the data section, every label of at most 63 code points without line separators, every sequence of questions asked before, every code points and position", "why_tests_cant": "sections nest without bound, and labels, counts and classes are unbounded in combination", "anchors": ["lgr/parser/xml_parser.py:XMLParser._process_rules", "lgr/parser/xml_parser.py:XMLParser._parse_rule", "lgr/parser/xml_parser.py:XMLParser._parse_rule_helper", "lgr/parser/xml_parser.py:XMLParser._parse_class", "lgr/rule.py:Rule.matches", "lgr/matcher.py", "lgr/classes.py:Class.get_pattern"]}
{"id": "C104", "title": "A whole document is read, written and read back", "statement": "If a document is read without exception, writing the LGR raises nothing; reading the written document raises nothing and gives the same metadata, the same code points, ranges, variants, contexts, tags, references and comments, the same classes, rules and actions; writing that again gives the same document. If nothing failed when the document was read without force, the conformance results of the second reading have no failure except those of the order of elements. The version of Unicode looked up beforehand is the one of the LGR read, and is the one the document states last. A document without <meta> is read, too.", "quantifier": "every document, every Unicode database, every reader with and without force, every conformance results before", "why_tests_cant": "documents are unbounded, and the three sections depend on each other (tag classes, references, contexts by rule name)", "anchors": ["lgr/parser/xml_parser.py:XMLParser.parse_document", "lgr/parser/xml_parser.py:XMLParser.unicode_version", "lgr/parser/xml_parser.py:XMLParser._fast_iter", "lgr/parser/xml_serializer.py:serialize_lgr"]}
{"id": "C105", "title": "The entries of an LGR are exactly the elements of the data section", "statement": "Reading a document without force succeeds on the data section exactly when every char, range and var element spells its code points, states valid, defined and mutually consistent attributes, and no two elements give the same entry. The LGR then has exactly the characters, sequences and ranges of the elements, each with exactly the variants, contexts, comments, tags and references of its element; the code points of a tag and the types of variants are exactly those the elements state. White space between the words of a list is not significant.", "quantifier": "every data section, every Unicode database, every set of defined references", "why_tests_cant": "documents are unbounded; the elements interact through clashes of code points, tags and references", "anchors": ["lgr/parser/xml_parser.py:XMLParser._process_data", "lgr/parser/xml_parser.py:string_to_list", "lgr/core.py:LGR.add_cp", "lgr/core.py:LGR.add_range", "lgr/core.py:LGR.add_variant"]}
{"id": "C106", "title": "The labels accepted under an LGR are those its document describes", "statement": "A label passes the preliminary test under the LGR read from a document exactly when it is a concatenation of sequences of char and range elements of the data section, each of which stands in the context its when or not-when rule asks for, the rule being understood as its elements in the rules section say. The test raises nothing.", "quantifier": "every document, every label of at most 63 code points without line feed, every order of questions asked before", "why_tests_cant": "documents and labels are unbounded; the elements of the data and of the rules section interact through names, tags and contexts", "anchors": ["lgr/core.py:LGR._test_preliminary_eligibility", "lgr/parser/xml_parser.py:XMLParser.parse_document", "lgr/rule.py:Rule.matches", "lgr/char.py:Repertoire.get_chars_from_prefix"]}
{"id": "C107", "title": "The disposition of a label is the one its document asks for", "statement": "Under the LGR read from a document, a label made of the items of the data section has the disposition, and the index, of the first action element in document order, followed by the default actions of RFC 7940, whose match or not-match rule and whose any-variant, all-variants or only-variants condition is met by the label and by the types of the mappings to themselves of the items it is made of. Every other label is invalid. Nothing is raised.", "quantifier": "every document, every label of at most 63 code points without line feed, every order of questions asked before", "why_tests_cant": "documents, labels and lists of actions are unbounded", "anchors": ["lgr/core.py:LGR.test_label_eligible", "lgr/core.py:LGR._test_label_disposition", "lgr/core.py:LGR._apply_actions", "lgr/action.py:Action.apply", "lgr/parser/xml_parser.py:XMLParser._parse_action"]}
{"id": "C108", "title": "Files of labels are read as they are written", "statement": "Without do_raise, read_labels raises nothing and yields, line by line and in order, what each line says: nothing for blank lines and comments (the comment itself with keep_commented), otherwise the text before the first '#', without byte order mark and surrounding white space, as the label it denotes (an A-label, code points in hexadecimal or single characters separated by white space, or itself), or as an invalid label with its text when it denotes none. With do_raise it yields the same until the first such line, and raises. Labels of any code points written one per line as U+XXXX, and labels written as themselves, with any white space and comments around, are read back exactly. A label accepted as written contains no white space. A valid label is read again as the same label.", "quantifier": "every list of lines, every IDNA decoder", "why_tests_cant": "lines and files are unbounded strings", "anchors": ["lgr/tools/utils.py:read_labels", "lgr/tools/utils.py:parse_label_input", "lgr/tools/utils.py:_parse_label_input", "lgr/tools/utils.py:parse_codepoint_input"]}
{"id": "C109", "title": "The script of a root zone label", "statement": "get_rz_label_script returns None exactly for the empty label. A label whose characters have one script, apart from those of the Common and Inherited scripts, gets this script (Jpan for Hiragana and Katakana, Kore for Hangul). Labels of ideographs and Kana get Jpan. Labels of Common and Inherited characters only get Jpan when they contain U+3006 or U+30FC, the script of the last character otherwise. The result does not depend on the order of the characters.", "quantifier": "every label, every assignment of scripts to code points", "why_tests_cant": "labels are unbounded, and the outcome depends on the order of their characters", "anchors": ["lgr/tools/utils.py:get_rz_label_script"]}
{"id": "C110", "title": "Annotated files tell the disposition of each label", "statement": "annotate writes, for each label read and in order, the label with its error if it could not be read, otherwise its disposition under the LGR, with the refused code points if it has any, and with the index and the action that rejected it if an action did. It stops only where testing a label raises. With the LGR read from a document, the dispositions are those the document asks for, and nothing is raised. lgr_set_annotate writes the disposition under the LGR of the script, names the action of this LGR that rejected the label, and adds for accepted labels whether they are in the set or collide with it.", "quantifier": "every file of labels, every LGR and document, every IDNA decoder", "why_tests_cant": "files, labels and documents are unbounded", "anchors": ["lgr/tools/annotate.py:annotate", "lgr/tools/annotate.py:_out_valid_label", "lgr/tools/annotate.py:lgr_set_annotate"]}
{"id": "C111", "title": "The variants of a label are those its document describes", "statement": "Under the LGR read from a document, compute_label_disposition raises nothing and lists exactly the labels obtained by replacing parts of the label by variants of the document's elements in the context these ask for, with the types of the variants used and the disposition of the first action of the document that fires (invalid if the variant is not made of elements or invalid by itself), the label itself last.", "quantifier": "every document, label, option and evaluation order of rules", "why_tests_cant": "all documents, all labels, all combinations of variants", "anchors": ["lgr/core.py:LGR.compute_label_disposition", "lgr/core.py:LGR._generate_label_variants", "lgr/core.py:LGR.test_label_eligible", "lgr/parser/xml_parser.py:XMLParser.parse_document"]}
{"id": "C112", "title": "The short report lists exactly the collisions", "statement": "basic_collision, with or without a list of TLDs, returns whenever computing the indexes of the labels and TLDs raises nothing but NotInLGR, and reports exactly the pairs of different labels with the same index, the pairs of a label and a different TLD with the same index, the labels which are TLDs, the labels and TLDs that cannot be read, and the labels which are not in the LGR. It says that there is no collision exactly when it reports none.", "quantifier": "every file of labels and TLDs, every index function, every order in which sets are enumerated", "why_tests_cant": "files are unbounded and sets are enumerated in arbitrary order", "anchors": ["lgr/tools/diff_collisions.py:basic_collision", "lgr/tools/diff_collisions.py:_write_simple_output", "lgr/tools/diff_collisions.py:_read_tlds"]}
{"id": "C113", "title": "The full report lists exactly the collisions and the variants", "statement": "collision reports exactly the pairs of a label and another label or TLD with the same index, whether or not a dump is asked for, once each, and says that there is no collision in the list exactly when no two labels have the same index. The dump lists for each label of the LGR exactly its variants with their dispositions, whether they are labels, TLDs or neither, and the number of variants of each disposition.", "quantifier": "every file of labels and TLDs, every LGR, every order in which sets are enumerated", "why_tests_cant": "files and LGRs are unbounded, sets are enumerated in arbitrary order", "anchors": ["lgr/tools/diff_collisions.py:collision", "lgr/tools/diff_collisions.py:_write_complete_output", "lgr/tools/diff_collisions.py:_full_dump"]}
{"id": "C114", "title": "Comparing two LGRs lists exactly the differences for the labels", "statement": "diff reports the labels that cannot be read and those which are not in one of the LGRs; for each label in both LGRs it lists exactly the variants whose disposition is different, the variants of the second LGR only and the variants of the first LGR only, and says that there is no change, or that the variants are the same, exactly when this is so. With symmetric and transitive LGRs it always returns; an LGR compared with itself has no differences. The collisions and dumps written on demand are those of the two LGRs.", "quantifier": "every file of labels, every pair of LGRs, every order in which sets are enumerated", "why_tests_cant": "files and LGRs are unbounded, sets are enumerated in arbitrary order", "anchors": ["lgr/tools/diff_collisions.py:diff", "lgr/tools/diff_collisions.py:_compare", "lgr/tools/diff_collisions.py:_compare_labels"]}
{"id": "C115", "title": "The textual comparison of two LGRs reports exactly the differences", "statement": "diff_lgrs returns for all LGRs with well formed repertoires and reports, with both values or with the elements of one only, exactly the differences: metadata, references, set of code points, comment, tags, context and variants of each common code point, actions, rules and classes. The number of identical code points is the number of those without difference; with show_same what is the same is given too. Ranges are expanded in the LGRs, nothing else changes.", "quantifier": "every pair of LGRs, every order in which sets are enumerated", "why_tests_cant": "LGRs are unbounded and sets are enumerated in arbitrary order", "anchors": ["lgr/tools/compare/diff.py:diff_lgrs", "lgr/tools/compare/diff.py:diff_char", "lgr/tools/compare/diff.py:diff_metadata", "lgr/tools/compare/diff.py:compare_things", "lgr/tools/compare/diff.py:compare_sets"]}
{"id": "C116", "title": "The textual comparison of two sets of LGRs compares the LGRs of the same script", "statement": "diff_lgr_sets returns; for each script it compares each LGR of the first set with each LGR of the second set, in order, giving the same text as for the LGRs before any comparison; it lists the scripts of one set only with their LGRs and warns once for each further LGR of a script. Every LGR of the sets appears in the text. The metadata compared are those of the merged LGRs.", "quantifier": "every pair of sets of LGRs, which may have LGRs in common, every order in which sets are enumerated", "why_tests_cant": "sets of LGRs are unbounded and LGRs are changed by each comparison", "anchors": ["lgr/tools/compare/diff.py:diff_lgr_sets"]}
{"id": "C117", "title": "The rules and classes of a merged set of LGRs mean what they meant", "statement": "The <rules> section written for the merged LGR is the sections of the LGRs with names, by-ref and from-tag attributes prefixed by the script (the MSR's rule by Common), references renumbered, nothing else changed and each name once. If the merged LGR is read back, a rule of an LGR matches a label, or an anchor in a label, exactly as its renamed counterpart does.", "quantifier": "every list of LGRs with any rules, classes and references; every label, anchor and history of matching", "why_tests_cant": "rules are unbounded trees rewritten by regular expressions on XML text", "anchors": ["lgr/tools/merge_set.py:rename_rule", "lgr/tools/merge_set.py:merge_rules", "lgr/tools/merge_set.py:rename_class", "lgr/tools/merge_set.py:merge_classes"]}
{"id": "C118", "title": "Labels keep their disposition in a merged set of LGRs", "statement": "The actions of the merged LGR are the actions of the LGRs, in order, with renamed rules, without the default actions; a label has under the actions of the merged LGR the disposition that it has under those of its own LGR, unless an action of another LGR applies to it.", "quantifier": "every list of LGRs, every label and set of variant dispositions", "why_tests_cant": "actions, rules and labels are unbounded", "anchors": ["lgr/tools/merge_set.py:rename_action", "lgr/tools/merge_set.py:merge_actions"]}
{"id": "C119", "title": "Metadata of a merged set of LGRs", "statement": "The merged LGR has the languages and scopes of the LGRs, each once, in order of first occurrence; it is valid on exactly the days on which all of them are; its version lists theirs, each once; its description contains all of theirs and is HTML iff they all are; its version of Unicode is the highest of theirs; it has no version or description if none of them has.", "quantifier": "every list of LGRs' metadata", "why_tests_cant": "lists and dates are unbounded, and dates and versions are compared as text", "anchors": ["lgr/tools/merge_set.py:merge_metadata", "lgr/tools/merge_set.py:merge_version", "lgr/tools/merge_set.py:merge_description"]}
{"id": "C120", "title": "What lgr_cli writes about labels", "statement": "With -c the tool writes for each line of its input whether the label is valid and, if so, its disposition and the action giving it, then each variant once with its types, disposition and action; the action is named by its place among the LGR's actions, or among the default actions if it is one of those. A label that is not valid gives a single line.", "quantifier": "every LGR, every list of labels, every order of iteration of sets, with and without -i", "why_tests_cant": "labels, LGRs and orders of sets are unbounded; the naming is wrong for a single index", "anchors": ["tools/lgr_cli.py:check_label", "tools/lgr_cli.py:main", "lgr/core.py:compute_label_disposition"]}
{"id": "C121", "title": "What lgr_validate writes about labels and a set of labels", "statement": "For each label the tool writes its eligibility and disposition, for an eligible one whether it is in the set of labels or collides with one of them or with none, with -g its variants, and for an ineligible one its valid and invalid parts. The set of labels is what is valid and in the LGR of the script; other labels of the set are listed as such and left out.", "quantifier": "every LGR or set of LGRs, every set of labels and list of labels", "why_tests_cant": "unbounded labels and sets; collisions depend on indexes of all labels", "anchors": ["tools/lgr_validate.py:check_label", "tools/lgr_validate.py:main", "tools/lgr_validate.py:get_script"]}
{"id": "C122", "title": "What lgr_collision writes about labels and reference labels", "statement": "For each label the tool says whether it collides with a reference label, naming one of those having its index, and with -g lists the variants of the label that are variants of that reference label; labels and reference labels which are not in the LGR collide with nothing.", "quantifier": "every LGR, every list of reference labels and of labels", "why_tests_cant": "unbounded labels; later reference labels replace earlier ones of the same index", "anchors": ["tools/lgr_collision.py:main", "tools/lgr_collision.py:find_variants_to_block"]}
{"id": "C123", "title": "Compliance of a table with IDNA 2008", "statement": "A sequence is IDNA-valid iff the property of each of its code points is PVALID, CONTEXTJ or CONTEXTO, and the invalid ones are returned (all with check_all, else the first). The compliance report lists each entry with an invalid code point once, except those marked as out of the repertoire, says for each whether IDNA 2003 allows it, and gives the number of entries whose code points are all valid.", "quantifier": "every repertoire, every sequence, every Unicode database", "why_tests_cant": "repertoires and databases are unbounded; entries out of the repertoire are rare", "anchors": ["lgr/utils.py:is_idna_valid_cp_or_sequence", "lgr/tools/idna2008_compliance.py:check_idna2008_compliance", "lgr/tools/idna2008_compliance.py:is_out_of_repertoire"]}
{"id": "C124", "title": "General rules in the review of a table", "statement": "Each of the five general rules is reported as applicable iff the table has what it is about: combining marks, the hyphen, right-to-left script with digits, digits of several sets, the katakana middle dot. An applicable rule is reported as missing iff a label made of entries of the table that breaks it is eligible, and as existing iff such labels are there and none is eligible.", "quantifier": "every table, reference LGR, language tags, Unicode database and eligibility of labels", "why_tests_cant": "tables, tags and databases are unbounded; the labels tried depend on the script", "anchors": ["lgr/tools/idn_review/whole_label_evaluation_rules.py:WholeLabelEvaluationRulesCheck", "lgr/tools/idn_review/whole_label_evaluation_rules.py:generate_additional_general_rules"]}
{"id": "C125", "title": "Verdict of rfc7940_validate", "statement": "On a document that the schema accepts and that can be read, rfc7940_validate writes FAIL iff a requirement listed with policy ERROR is not met (dates of validity, media and scope types, language tags, variant types, code points of the Unicode version, dispositions, elements known), else WARN iff one listed with policy WARNING is not met (version, order of char elements and references, symmetry and transitivity of variants), else PASS; without --quiet it first writes one line for each test of the policy, in its order.", "quantifier": "every document, Unicode database, date and policy of the tool", "why_tests_cant": "documents and databases are unbounded; a test that is not executed counts as an error", "anchors": ["tools/rfc7940_validate.py:main", "lgr/rfc7940.py:get_final_result", "lgr/validate/__init__.py:validate_lgr", "lgr/parser/xml_parser.py"]}
{"id": "C126", "title": "Repertoire made from the IDNA registry", "statement": "make_idna_repertoire prints a document iff the version is made of numbers, every record of that version's registry has a code point and a property, and the texts of the records with property PVALID, CONTEXTJ or CONTEXTO name code points or ranges of which no code point is there twice; the document, read by any parser that allows these code points, is an LGR with exactly these code points, declared as ranges where the registry has ranges, with nothing attached to them, no classes, rules or actions, and the Unicode version of the registry.", "quantifier": "every version, registry and parser", "why_tests_cant": "registries are unbounded and fetched from the network; no test runs the tool", "anchors": ["tools/make_idna_repertoire.py:make_idna_repertoire", "lgr/core.py:add_range", "lgr/core.py:add_cp", "lgr/parser/xml_serializer.py", "lgr/metadata.py:Metadata.__init__"]}
{"id": "C127", "title": "Report on language tags", "statement": "The report compares every tag of the IDN table (or none) with every tag of the reference LGR, in alphabetical order; two tags match iff they have the same language and script, or the table's tag is known and has the language of the reference, or its language is usually written in the script of the reference; a table without tag, or an unknown tag that is not the same, is to be checked by hand; all others are to be reviewed.", "quantifier": "every pair of LGRs and every registry of languages", "why_tests_cant": "tags are arbitrary; the remark depends on four independent conditions in a fixed order", "anchors": ["lgr/tools/idn_review/language_tag.py:LanguageTagReport.compare_with_tag", "lgr/tools/idn_review/language_tag.py:generate_language_tag_report"]}
{"id": "C128", "title": "Scripts of an LGR", "statement": "cp_in_script returns True iff the LGR has no script or each code point has the script of one of its valid languages (the Unicode scripts for which its ISO 15924 code stands), Common or Inherited, together with the scripts of the code points; _check_convert_cp with assert_in_script raises CharNotInScript iff it does not.", "quantifier": "every list of languages, code points and Unicode database", "why_tests_cant": "all combinations of languages and code points", "anchors": ["lgr/core.py:cp_in_script", "lgr/core.py:_check_convert_cp", "lgr/metadata.py:get_scripts", "lgr/utils.py:script_iso15924_to_unicode"]}
{"id": "C129", "title": "Rules reported to be the same match the same", "statement": "If the review of an IDN table reports a rule as an exact match with the rule of the reference LGR of the same name, both rules match the same labels whenever the classes, tags and rules they refer to are the same in both LGRs. Every rule that can be read can be compared.", "quantifier": "every two rules, every label, every two LGRs", "why_tests_cant": "rules are unbounded trees; that a text determines its rule needs a proof about all pairs of trees", "anchors": ["lgr/tools/idn_review/whole_label_evaluation_rules.py:WholeLabelEvaluationRuleReport.compare_wle", "lgr/rule.py:Rule.__str__", "lgr/matcher.py:__str__", "lgr/classes.py:__str__", "lgr/utils.py:format_cp_collapsed"]}
{"id": "C130", "title": "The tool which populates variants prints the completed LGR", "statement": "lgr_populate_variants prints a document which is read, by the same parser, as the LGR of its input with variant sets completed and nothing else changed; the LGR read passes the checks of symmetry and transitivity, and is written as the same document. The tool ends on every input, prints for every LGR it can read, and prints its own output unchanged.", "quantifier": "every LGR document, every Unicode database, every schema verdict", "why_tests_cant": "The claim composes parser, populate and serializer over all documents; tests compare a few files, and an attribute lost by one of the three for a combination of rules, references and types goes unnoticed.", "anchors": ["tools/lgr_populate_variants.py:main", "lgr/core.py:LGR.populate_variants", "lgr/tools/utils.py:parse_lgr", "lgr/parser/xml_parser.py:XMLParser.parse_document", "lgr/parser/xml_serializer.py:serialize_lgr_xml"]}
{"id": "C131", "title": "Populating variants is idempotent", "statement": "If populate_variants returns normally, calling it again returns normally without a further iteration and leaves the LGR exactly as it is, including types, rules, comments and the order of variants.", "quantifier": "every LGR, every Unicode database", "why_tests_cant": "The last sweep rewrites rules after the loop has ended, so whether a second call finds something to do depends on all combinations of rules in both directions; tests populate once.", "anchors": ["lgr/populate/__init__.py:populate_lgr", "lgr/populate/__init__.py:_add_symmetry", "lgr/core.py:LGR.populate_variants"]}
{"id": "C132", "title": "Labels of a union and of an intersection", "statement": "The union of two LGRs accepts every label that one of them accepts, and accepts only labels made of entries of the two. The intersection accepts every label that both accept, accepts no label that one of them rejects, and testing a label against it does not raise.", "quantifier": "every two LGRs, every label, every meaning of the context rules, every iteration order of sets", "why_tests_cant": "The comparison tests look at the entries of the result; which labels are accepted depends on context rules that are dropped and on longest matches between entries of the two LGRs, over all labels.", "anchors": ["lgr/tools/compare/union.py:union_char", "lgr/tools/compare/union.py:union_lgrs", "lgr/tools/compare/intersect.py:intersect_char", "lgr/tools/compare/intersect.py:intersect_lgrs", "lgr/core.py:LGR._test_preliminary_eligibility"]}
{"id": "C133", "title": "Populating variants does not change the answer for a label", "statement": "After populate_lgr returns, testing a label gives the same answer as before: eligible or not, the same disposition, the same deciding action and the same rejected code points.", "quantifier": "every LGR, every label, every list of actions, every meaning of the rules", "why_tests_cant": "The tests look at the variants of a few populated LGRs; whether labels are still judged alike depends on the longest match against every added entry and on the reflexive variants kept, over all labels.", "anchors": ["lgr/tools/populate.py:populate_lgr", "lgr/core.py:LGR.test_label_eligible"]}
{"id": "C134", "title": "Populating makes index labels find the collisions", "statement": "After populate_lgr returns, two accepted labels have the same index label just if they are written, position by position, with code points of the same variant set, that is connected by the variant mappings of the LGR before populating, in either direction.", "quantifier": "every LGR, every two labels", "why_tests_cant": "The claim composes the fixed point of populate with the least elements computed by generate_index_label, for chains of mappings of any length and all pairs of labels.", "anchors": ["lgr/tools/populate.py:populate_lgr", "lgr/core.py:LGR.generate_index_label"]}
{"id": "C135", "title": "Harmonising does not change the answer for a label", "statement": "After harmonize returns, testing a label with a harmonised LGR gives the same answer as with the LGR before: eligible or not, the same disposition, deciding action and rejected code points. In particular code points added from the other LGR are out of repertoire, and no label with them is valid.", "quantifier": "every two LGRs, with or without root zone LGR, every label, every list of actions, every iteration order of sets", "why_tests_cant": "The tests compare the variants of a few harmonised LGRs; that labels are judged alike depends on the types given to added code points and on longest matches, over all labels.", "anchors": ["lgr/tools/harmonize.py:harmonize", "lgr/core.py:LGR.test_label_eligible"]}
{"id": "C136", "title": "Harmonised LGRs give the same index labels", "statement": "After harmonize returns, a label which both harmonised LGRs accept has the same index label in both, so that both find the same collisions among such labels.", "quantifier": "every two symmetric and transitive LGRs, or any two with a root zone LGR, every label", "why_tests_cant": "The claim composes the graph computed by harmonising (fixed points of populate) with the least elements of generate_index_label, for all labels.", "anchors": ["lgr/tools/harmonize.py:harmonize", "lgr/core.py:LGR.generate_index_label"]}
{"id": "C137", "title": "The merge of a set accepts the labels of its LGRs", "statement": "A label accepted by one of the LGRs of a set is accepted by the LGR merge_lgr_set returns, whose context rules are the renamed ones; a label of code points of one LGR that the merge accepts is accepted by that LGR; every label that the merge accepts is made of code points of the set. Where one LGR has a code point under a when rule and another one under a not-when rule, both conditions hold for it in the merge.", "quantifier": "every set of LGRs with distinct names, every label, every meaning of rules", "why_tests_cant": "Whether a label passes depends on the combined context rules and on longest matches over the union of the entries, for all sets and labels; the tests merge a few sets and look at code points.", "anchors": ["lgr/tools/merge_set.py:merge_lgr_set", "lgr/tools/merge_set.py:merge_chars", "lgr/core.py:LGR._test_preliminary_eligibility"]}
{"id": "C138", "title": "Annotation of labels with a set of LGRs", "statement": "lgr_set_annotate writes first, in order, the labels of the set which cannot be read or which the merged LGR does not accept, with the reason; then, in order, every label with its error or its disposition under the LGR of the script, followed, for eligible labels, by a note that it collides with the set exactly when a different accepted label of the set has the same index in the merged LGR, and otherwise by a note that it is in the set exactly when it is one of its accepted labels. It ends normally when rules are defined, labels have at most 63 code points and the merged LGR has at least as many actions as that of the script.", "quantifier": "every pair of LGRs, every file of labels and of set labels, every order of sets", "why_tests_cant": "The note depends on all the labels of the set at once and on the order in which a set is enumerated; the tests annotate one file.", "anchors": ["lgr/tools/annotate.py:lgr_set_annotate", "lgr/tools/annotate.py:_out_valid_label", "lgr/tools/diff_collisions.py:get_collisions"]}
{"id": "C139", "title": "The merge of a set finds the collisions of its LGRs", "statement": "Two labels accepted by the LGR merge_lgr_set returns have the same index label exactly when they are position by position joined by chains of variant mappings of LGRs of the set; in particular labels that collide in an LGR of the set collide in the merge, so that lgr_set_annotate reports them.", "quantifier": "every set of LGRs, every pair of labels, every meaning of rules", "why_tests_cant": "Index labels depend on the mappings the merge adds to keep transitivity, for all overlaps of variant sets of several LGRs; the tests look at the mappings of a few sets.", "anchors": ["lgr/tools/merge_set.py:merge_lgr_set", "lgr/core.py:LGR.generate_index_label", "lgr/tools/annotate.py:lgr_set_annotate"]}
{"id": "C140", "title": "lgr_compare prints a document of the union or the intersection", "statement": "lgr_compare.py UNION (INTERSECT) prints a document from which is read an LGR with the union (intersection) of the entries, references, classes, rules, actions, languages and scopes of the two LGRs given and with metadata made of theirs, and which is printed again as it is; it prints one for all pairs of LGRs it reads, and none if the schema rejects a file or a file cannot be read.", "quantifier": "every pair of LGR documents, every order in which sets are iterated", "why_tests_cant": "Documents, the names and texts of their rules, their metadata and the orders of sets are unboundedly many; the tests compare LGRs in memory and never read the printed document.", "anchors": ["tools/lgr_compare.py:main", "lgr/tools/compare/union.py:union_lgrs", "lgr/tools/compare/intersect.py:intersect_lgrs", "lgr/parser/xml_serializer.py:serialize_lgr_xml", "lgr/parser/xml_parser.py:XMLParser.parse_document"]}
{"id": "C141", "title": "lgr_harmonize writes documents of the harmonised LGRs", "statement": "lgr_harmonize ends for all files; unless it raises, which it does only for files that cannot be read, are rejected by the schema or have variants with an empty rule name, two rules or repeated references, it writes two files named after the LGRs, from which are read the first LGR harmonised with the second and the second with the first (both harmonised with the root zone LGR before, if one is given), with nothing else changed but the comment of the version, both passing the checks of symmetry and transitivity; and it lists the code points that only one of the LGRs has.", "quantifier": "every pair of LGR documents, with or without a root zone document, every order in which sets are iterated", "why_tests_cant": "Documents and orders of sets are unboundedly many; the tests harmonise LGRs in memory and never run the tool, nor read what it writes.", "anchors": ["tools/lgr_harmonize:main", "lgr/tools/harmonize.py:harmonize", "lgr/parser/xml_serializer.py:serialize_lgr_xml", "lgr/parser/xml_parser.py:XMLParser.parse_document"]}
{"id": "C142", "title": "The dump tools print documents which mean what the tables mean", "statement": "one_per_line_dump, rfc4290_dump and rfc3743_dump print, for a table whose lines all have a meaning, a document which the XML parser reads; the LGR read from it has the references, code points, variants and types of the lines, each as it was given first, the version and the date of the last version line, and no rules or actions; and it is written as the same document. A version line and a reference line are recognised exactly by their syntax.", "quantifier": "every table of the three formats, of any number of lines; every reader", "why_tests_cant": "Tables are unboundedly many; the tests parse one or two tables and never read what the tools print.", "anchors": ["lgr/tools/utils.py:LgrDumpTool.run", "lgr/parser/rfc3743_parser.py:RFC3743Parser._parse_doc", "lgr/parser/rfc4290_parser.py:RFC4290Parser._parse_doc", "lgr/parser/line_parser.py:LineParser._parse_doc", "lgr/parser/xml_serializer.py:serialize_lgr_xml", "lgr/parser/xml_parser.py:XMLParser.parse_document"]}
{"id": "C143", "title": "lgr_merge_set prints a document of the merged set", "statement": "When lgr_merge_set.py prints a document, the number of files given is not one and all of them were read. From the document is read an LGR that has the code points of all the LGRs and their variants, all of type blocked, with the names of their context rules prefixed with the script of the LGR, and besides them only variants that transitivity asks for. Its metadata is made of theirs: the languages, scopes, versions and descriptions of all, the date of today, the latest start of validity, the earliest end, the latest Unicode version. Its classes, rules and actions are those of the merged section of all the LGRs, and it is printed again as the same document.", "quantifier": "every list of LGR documents, of any length; every reader", "why_tests_cant": "Documents and sets of them are unboundedly many; the tests merge sets of two or three LGRs in memory and never read the printed document.", "anchors": ["tools/lgr_merge_set.py:main", "lgr/tools/utils.py:merge_lgrs", "lgr/tools/merge_set.py:merge_lgr_set", "lgr/parser/xml_serializer.py:serialize_lgr_xml", "lgr/parser/xml_parser.py:XMLParser.parse_document"]}
{"id": "C144", "title": "The command line tools start as their command line tells", "statement": "Every command line tool that is given a command line which argparse accepts comes to its work: it reads only options that it has declared, the level of the log is the one asked for (quiet before verbose, verbose before test mode), the Unicode database is the one made of the three parts of the libs option, or none if the option is not given or empty, and the documents are the ones given. A ValueError is raised exactly when the libs option has not three parts.", "quantifier": "every tool, every command line, every version of argparse that fills in the declared options", "why_tests_cant": "Command lines are unboundedly many; the tests never run the tools.", "anchors": ["lgr/tools/utils.py:LgrToolArgParser", "lgr/tools/utils.py:LgrSetToolArgParser", "lgr/tools/utils.py:LgrDumpTool.run", "tools/xml_dump.py:main", "tools/lgr_collision.py:main", "tools/lgr_cli.py:main"]}
{"id": "C145", "title": "The review of IDN tables: one report per pair, and a table matches itself", "statement": "lgr_idn_table_review writes, for every IDN table and every reference LGR given, one report file, which holds the review of the two, and skips the files it cannot read. The review of an LGR against itself has MATCH as overall result in all six parts of its summary, and a review has MATCH everywhere only if nothing is left to check. The review of core requirements gives the number of entries with PVALID code points only and the number of the others, and says that there are several sets of digits exactly when there are.", "quantifier": "every table, every reference LGR, every list of files, every order of iteration over sets, every Unicode database", "why_tests_cant": "Tables, references and combinations of file names are unboundedly many; the tests review a few tables and do not run the tool.", "anchors": ["lgr/tools/idn_review/review.py:review_lgr", "lgr/tools/idn_review/review.py:review_with_core_requirements", "lgr/tools/idn_review/summary.py:generate_summary", "lgr/tools/idn_review/header.py:generate_header", "lgr/tools/idn_review/repertoire.py:generate_repertoire_core_report", "lgr/tools/idn_review/variant_sets.py:generate_variant_sets_core_report", "tools/lgr_idn_table_review.py:main"]}
{"id": "C146", "title": "The tags that an LGR lists are the tags of its code points", "statement": "LGR.all_tags lists every tag which a code point of the LGR has, and no other, each once; LGR.get_tag_classes maps each of them to the class with exactly the code points that have the tag.", "quantifier": "every history of calls that change code points, ranges, variants, tags and references, and every set of named classes", "why_tests_cant": "Histories and names are unboundedly many; no test calls the two methods.", "anchors": ["lgr/core.py:LGR.all_tags", "lgr/core.py:LGR.get_tag_classes", "lgr/core.py:LGR._add_cp_to_tag_classes", "lgr/core.py:LGR._del_cp_from_tag_classes", "lgr/core.py:LGR.del_tag"]}
{"id": "C147", "title": "What is written for an LGR read from a schema-valid document is schema-valid", "statement": "When a document is valid for the RELAX NG schema shipped in resources/lgr.rng and the XML parser reads an LGR from it, then the document which the serializer writes for this LGR is valid for the same schema, so that check_xml_validity reports no error; this holds without force, and with force whenever a code point is left.", "quantifier": "every document valid for the schema, every parser configuration, every Unicode database and every classification of name characters and digits", "why_tests_cant": "Valid documents are unboundedly many, and rules nest to any depth; no test validates what the serializer writes.", "anchors": ["resources/lgr.rng", "lgr/validate/xml_validity.py:check_xml_validity", "lgr/parser/xml_serializer.py:serialize_lgr_xml", "lgr/parser/xml_parser.py:XMLParser.parse_document", "lgr/parser/xml_parser.py:XMLParser.validate_document"]}
{"id": "C148", "title": "The metadata of a document are read exactly", "statement": "In strict mode the <meta> section of a document which is valid for the schema is read exactly when every date is a date of the calendar written YYYY-MM-DD, the Unicode version begins with x.y.z, every language tag is accepted by the language library, no description is empty, and the identifiers of the references are of the required form and all different. The metadata of the LGR are then what the section says: the last version, date, validity dates, Unicode version and description (with CRLF turned into LF), all scopes in order, every language once, and all references in order with identifier, text and comment.", "quantifier": "every list of metadata elements whose references have an identifier, in any order and number, every language library, every state of the checks", "why_tests_cant": "Sections of any length with any texts; tests read a handful of files.", "anchors": ["lgr/parser/xml_parser.py:XMLParser._process_meta", "lgr/parser/xml_parser.py:XMLParser.parse_document", "lgr/metadata.py:Metadata", "lgr/metadata.py:ReferenceManager.add_reference"]}
{"id": "C149", "title": "Which schema-valid documents are read", "statement": "Of the documents which are valid for the schema, a strict parser without Unicode database reads exactly those where: the metadata are as in C148; the code points, ranges and variants are as in C105 (references defined and distinct, no code point twice, and so on); in <rules>, every class, combination of classes and rule at the top has a name, every element inside another one has no name, every by-ref of a class refers to a class or combination declared earlier in the section and has no text, and every by-ref of a rule refers to a rule declared earlier. Classes of tags are never referred to. In particular a reference to a later declaration, which the schema admits, is refused.", "quantifier": "every document which is valid for the schema, whose lists of words are separated by single spaces and whose counts are written without white space, with any number of elements nested to any depth; every parser without Unicode database and force, every state of the checks", "why_tests_cant": "Documents with rules nested to any depth and any order of declarations; tests read some files.", "anchors": ["lgr/parser/xml_parser.py:XMLParser.parse_document", "lgr/parser/xml_parser.py:XMLParser._process_rules", "lgr/parser/xml_parser.py:XMLParser._parse_class", "lgr/parser/xml_parser.py:XMLParser._parse_rule", "lgr/core.py:LGR.add_class", "lgr/core.py:LGR.add_rule"]}
{"id": "C150", "title": "Which schema-valid documents are read with a Unicode database", "statement": "A parser with a Unicode database calculates the patterns of each rule while reading. For a document which is valid for the schema and whose class properties the database knows, this never makes a difference: the document is read (with enough depth of recursion) exactly when it satisfies the conditions of C149 on metadata, data and the order of declarations and, if the parser is strict, all its code points are valid for the database. What is read in <rules> is the same as without database, except for the patterns kept. A property that the database does not know, used by a rule, makes the document unreadable with a database though it is read without.", "quantifier": "every document which is valid for the schema (tidy as in C149), with any number of classes and rules nested and referring to one another to any depth; every parser without force, with any Unicode database or none; every depth of recursion from some bound on, and for the converse every depth", "why_tests_cant": "Chains of references between classes and rules of any length, each evaluated when read; tests read some files with one database.", "anchors": ["lgr/parser/xml_parser.py:XMLParser._parse_rule", "lgr/parser/xml_parser.py:XMLParser.parse_document", "lgr/rule.py:Rule.precalculate_patterns", "lgr/rule.py:Rule.get_pattern", "lgr/classes.py:Class.get_pattern", "lgr/core.py:LGR.add_rule"]}
{"id": "C151", "title": "The order and number of the sections of a document", "statement": "The parser takes the sections <meta>, <data> and <rules> as they come, in any order and number. A document in the order of RFC 7940 is read as C104 says. Without a Unicode database, or when no class is made of a tag, after <meta> the order and number of <data> and <rules> sections do not matter: the document is read exactly when the one with all their elements in one section of each kind is, and the LGR has the same metadata, code points, classes, rules and actions, so each rule gives the same answer on each label. Two neighbouring sections of the same kind are always the same as one with the elements of both. Without <meta> nothing is read: the parser returns no LGR, or raises if there is a code point, range, class, rule or action. Violated: a second <meta> drops all that was read before; with a Unicode database, a rule with a class of a tag which is read before the code points of this tag never matches any label.", "quantifier": "every list of sections of any length in any order, with any contents; every parser, strict or not, forced or not, with any Unicode database (the independence of the order: without one or without from-tag, and no class or rule named like the internal classes of tags); every rule, label, anchor and position", "why_tests_cant": "Infinitely many arrangements of sections; the test files all have one section of each kind in the usual order.", "anchors": ["lgr/parser/xml_parser.py:XMLParser.parse_document", "lgr/parser/xml_parser.py:XMLParser._fast_iter", "lgr/parser/xml_parser.py:XMLParser._process_data", "lgr/parser/xml_parser.py:XMLParser._process_rules", "lgr/core.py:LGR._add_cp_to_tag_classes", "lgr/rule.py:Rule.get_pattern"]}
{"id": "C152", "title": "The labels which pass the preliminary test, exactly", "statement": "A label passes the preliminary eligibility test exactly when it can be cut, from its beginning to its end, into entries of the repertoire each of which is the longest among those which stand at its offset with their when or not-when rule satisfied; there is one such cut at most, and the characters returned are its entries. If the test rejects a label, the first code point reported is the one where this cutting stops as no entry stands there in valid context. Under the LGR read from a document, the same holds with the sequences of char and range elements of the data section and their rules as the document says, and the test raises nothing. Overlapping sequences are allowed, other than in C14 and C106.", "quantifier": "every repertoire, every rule semantics, every label; every document read without fault, every label of at most 63 code points without line feed", "why_tests_cant": "Labels and repertoires are unbounded, and entries may overlap in any way; a test compares single labels only.", "anchors": ["lgr/core.py:LGR._test_preliminary_eligibility", "lgr/char.py:Repertoire.get_chars_from_prefix", "lgr/core.py:LGR._test_context_rules", "lgr/parser/xml_parser.py:XMLParser.parse_document"]}
{"id": "C153", "title": "The variants listed under a document, overlapping sequences included", "statement": "Under the LGR read from a document, compute_label_disposition (without hiding mixed-script variants) raises nothing, and the variant labels it lists are exactly those which result from writing the label as sequences of char and range elements and replacing some by variants of these elements in the context they ask for, where each sequence is one that is tried at its place: it has variants and stands in its context, or is shorter than such a one, or no such one stands there. The types are those of the variants used. The disposition is invalid for a label which the longest-match test of C152 rejects or which is invalid by itself, and otherwise that of the first action which fires. The label itself is last, with its own disposition or that of the mappings to itself. So a variant is missed exactly when all ways to obtain it use a sequence that is not tried: an accepted label with none of its variants listed is given.", "quantifier": "every document read without fault with the hypotheses of C107, every label of at most 63 code points without line feed whose variants leave it so, every option but hiding", "why_tests_cant": "Documents, labels and the ways in which sequences overlap are unbounded.", "anchors": ["lgr/core.py:LGR.compute_label_disposition", "lgr/core.py:LGR._generate_label_variants", "lgr/core.py:LGR._get_prefix_list", "lgr/core.py:LGR._test_preliminary_eligibility", "lgr/parser/xml_parser.py:XMLParser.parse_document"]}
{"id": "C154", "title": "The index label under a document", "statement": "Under the LGR read from a document, generate_index_label returns a label exactly for the labels which pass the longest-match test of C152, and raises NotInLGR with a code point of the label otherwise. The index label is the least, over all ways to write the label as sequences of char and range elements in the context these ask for, of the label in which each sequence is replaced by the least of itself and the variants of its element which stand in the context they ask for. So two labels are found to collide exactly if both pass and these least labels are the same.", "quantifier": "every document read without fault with the hypotheses of C106, every non-empty label of at most 63 code points without line feed whose variants leave it so; overlapping sequences included", "why_tests_cant": "Documents, labels and the ways in which sequences overlap are unbounded.", "anchors": ["lgr/core.py:LGR.generate_index_label", "lgr/core.py:LGR._generate_label_partitions", "lgr/core.py:LGR._generate_index_label_on_partition", "lgr/core.py:LGR._test_preliminary_eligibility", "lgr/parser/xml_parser.py:XMLParser.parse_document"]}
{"id": "C155", "title": "The checks of variants, in terms of the document", "statement": "For the LGR read from a document without force, check_symmetry and check_transitivity raise no exception, whatever the Unicode database. Symmetry holds according to the check exactly if every var of a char element is a char (or in a range) which has this char among its own vars, with the conditions compared unless they are ignored; transitivity exactly if every var is listed and its vars other than the char are vars of the char. The reports list exactly the var elements for which this fails, with the reason. check_conditional_variants reports exactly the when and not-when attributes of var elements which name no rule element of the document.", "quantifier": "every document read without force whose lists of words are separated by single spaces; every Unicode database", "why_tests_cant": "Documents and the variant relations in them are unbounded.", "anchors": ["lgr/validate/symmetry.py:check_symmetry", "lgr/validate/transitivity.py:check_transitivity", "lgr/validate/conditional_variants.py:check_conditional_variants", "lgr/parser/xml_parser.py:XMLParser.parse_document"]}
{"id": "C156", "title": "Collisions under a document which passes the checks", "statement": "If check_symmetry (with or without conditions) and check_transitivity succeed for the LGR read from a document, whose var elements have no conditions and none of whose sequences is the beginning of another one, then two labels which pass the longest-match test have the same index label exactly if they are written with sequences of elements which are equal or variants of each other, place by place. The index label is the least of the labels written so. These labels, as far as they pass, are the label itself and the labels listed as its variants.", "quantifier": "every document read without fault with the hypotheses of C106, without conditions on variants, prefix-free; every two non-empty labels of at most 63 code points without line feed", "why_tests_cant": "Documents and labels are unbounded; the statement links two validation checks, the parser, the index computation and the variant generation.", "anchors": ["lgr/validate/symmetry.py:check_symmetry", "lgr/validate/transitivity.py:check_transitivity", "lgr/core.py:LGR.generate_index_label", "lgr/core.py:LGR._generate_label_variants", "lgr/parser/xml_parser.py:XMLParser.parse_document"]}
{"id": "C157", "title": "The report on collisions under a document", "statement": "With the LGR read from a document and a list of TLDs, basic_collision returns. It reports exactly the pairs of different labels, and of a label and a different TLD, which pass the longest-match test and have the same least label (C154); for a document which passes the checks, without conditions on variants and overlapping sequences, these are the pairs of labels written with equal or variant sequences place by place. It reports exactly the labels which are TLDs, which do not pass, or which cannot be read, and says that there is no collision exactly if there is none.", "quantifier": "every document read without fault with the hypotheses of C106; all lists of non-empty labels and TLDs of at most 63 code points without line feed; every order of iteration on sets", "why_tests_cant": "Documents, labels and iteration orders are unbounded.", "anchors": ["lgr/tools/diff_collisions.py:basic_collision", "lgr/tools/diff_collisions.py:get_collisions", "lgr/core.py:LGR.generate_index_label", "lgr/parser/xml_parser.py:XMLParser.parse_document"]}
{"id": "C158", "title": "Spaces in an RFC 3743 table change nothing", "statement": "An RFC 3743 table with spaces before commas, semicolons or references is read as the same table without them.", "quantifier": "every file whose rows are code points and sequences with optional references and two optional columns of comma-separated variants, with a space after any of the sequences", "why_tests_cant": "What a row gives depends on the rows before it; lists and files have any length.", "anchors": ["lgr/parser/rfc3743_parser.py:RFC3743Parser._parse_doc", "lgr/parser/rfc3743_parser.py:RFC3743Parser.insert_variant", "lgr/parser/rfc3743_parser.py:parse_char"]}
{"id": "C159", "title": "Every file is read as some RFC 4290 table, or refused for one reason", "statement": "Whatever the content of the file and the options, the RFC 4290 parser either returns an LGR with exactly what the lines give - the variants of a row whose base cannot be read going to the base of the last row with one - or raises UnboundLocalError, and this exactly if a row with a readable variant but no readable base comes before all rows with a base.", "quantifier": "every file content, forced or not, with or without invalid code points allowed", "why_tests_cant": "All files; which exception escapes depends on the order of unboundedly many lines.", "anchors": ["lgr/parser/rfc4290_parser.py:RFC4290Parser._parse_doc", "lgr/parser/rfc4290_parser.py:parse_char"]}
{"id": "C160", "title": "The statistics are those of the document", "statement": "For an LGR loaded from a document, generate_stats counts what the elements of the document say: code points, ranges, sequences, rule elements, elements with variants, variant mappings, variants of each type, code points with each tag; the largest range, the longest sequence and the largest variant set are those of some element and no element has a larger one.", "quantifier": "every document that is read (not forced, values without stray spaces), every Unicode database", "why_tests_cant": "All documents; the repertoire stores a range as many entries and lists it as one, and numbers are sums over unboundedly many elements.", "anchors": ["lgr/validate/lgr_stats.py:generate_stats", "lgr/parser/xml_parser.py:XMLParser._parse_doc", "lgr/char.py:Repertoire.__iter__"]}
{"id": "C161", "title": "Every file is read as some RFC 3743 table, or refused for one reason", "statement": "Whatever the content of the file and the options, the RFC 3743 parser either returns an LGR with exactly what the lines give - a column gives the sequences found in it from left to right, or none if one of them ends in a space; the variants of a row whose base is not exactly one readable sequence go to the base of the last row with one - or raises UnboundLocalError, and this exactly if a row with a column of variants but no such base comes before all rows with a base.", "quantifier": "every file content, forced or not, with or without invalid code points allowed", "why_tests_cant": "All files; which exception escapes depends on the order of unboundedly many lines, and the search in a column skips arbitrary text.", "anchors": ["lgr/parser/rfc3743_parser.py:RFC3743Parser._parse_doc", "lgr/parser/rfc3743_parser.py:RFC3743Parser.insert_variant", "lgr/parser/rfc3743_parser.py:parse_char"]}
{"id": "C162", "title": "The full collision report under a document which passes the checks", "statement": "For an LGR loaded from a document which passes the symmetry and transitivity checks, has no conditions on variants and no overlapping sequences, collision reports as collisions exactly the pairs of a label and another label or TLD which pass and are alike (element by element the same or variants), under the least label alike to them; labels which do not pass or cannot be read are reported as such. With a dump, if all labels pass, the same pairs are reported, and under each label stand exactly the labels alike to it, each once with the disposition RFC 7940 gives it, and the counts are those of these dispositions.", "quantifier": "every such document, every Unicode database, every list of labels and TLDs of 1 to 63 code points, every set iteration order", "why_tests_cant": "All documents and all lists of labels; the number of labels alike to a label is exponential in its length, and the dump is built from an index which depends on all labels.", "anchors": ["lgr/tools/diff_collisions.py:collision", "lgr/tools/diff_collisions.py:_generate_indexes", "lgr/tools/diff_collisions.py:_full_dump", "lgr/core.py:LGR.compute_label_disposition"]}
{"id": "C163", "title": "Reference lines of RFC 3743 tables define the references they name", "statement": "A line `Reference number value` of an RFC 3743 table, with or without a comment, defines the reference with this number, value and comment; of several lines with the same number the first one counts.", "quantifier": "every line, every file, every set of digits", "why_tests_cant": "Numbers, values, comments and the white space between them have any length.", "anchors": ["lgr/parser/rfc3743_parser.py:REFERENCE_RE", "lgr/parser/rfc3743_parser.py:RFC3743Parser._parse_doc", "lgr/metadata.py:ReferenceManager.add_reference"]}
{"id": "C164", "title": "The labels accepted under a table are those made of its rows", "statement": "Under the LGR read from a plain list, an RFC 4290 or an RFC 3743 table, test_label_eligible accepts a label exactly when taking the longest base of a row which stands there, again and again, reaches its end. A label which is not accepted is invalid. One which is accepted is activated if some base occurring in it is a variant of itself and all such variants have the type activated, and valid otherwise. No label but the empty one raises.", "quantifier": "every file of the three formats which is read, every label but the empty one, every rule environment, every set of digits", "why_tests_cant": "The rows and the label are unbounded, and a base can be the beginning of another one.", "anchors": ["lgr/parser/line_parser.py:LineParser._parse_doc", "lgr/parser/rfc4290_parser.py:RFC4290Parser._parse_doc", "lgr/parser/rfc3743_parser.py:RFC3743Parser._parse_doc", "lgr/core.py:LGR.test_label_eligible", "lgr/core.py:LGR._test_preliminary_eligibility", "lgr/core.py:LGR._test_label_disposition", "lgr/core.py:DEFAULT_ACTIONS"]}
{"id": "C165", "title": "The variants listed under a table are those its rows give", "statement": "Under the LGR read from a plain list, an RFC 4290 or an RFC 3743 table, compute_label_disposition raises nothing for labels of 1 to 63 code points. It lists the label. Every other label listed results from writing the label as bases of rows and replacing some by variants of these rows, and its types are those of the variants used. It is invalid if it cannot be cut into the longest bases, otherwise activated if a variant used has this type, else valid. If every base which continues a base with variants has variants itself, and nothing is hidden or filtered, every label which results in this way is listed, apart from invalid ones if these are not asked for.", "quantifier": "every file of the three formats which is read, every label of 1 to 63 code points, every rule environment, all options, every set of digits", "why_tests_cant": "Rows, variants and labels are unbounded; the number of variants is exponential in the length of the label.", "anchors": ["lgr/core.py:LGR.compute_label_disposition", "lgr/core.py:LGR._generate_label_variants", "lgr/core.py:LGR._apply_actions", "lgr/parser/line_parser.py:LineParser._parse_doc", "lgr/parser/rfc4290_parser.py:RFC4290Parser._parse_doc", "lgr/parser/rfc3743_parser.py:RFC3743Parser._parse_doc"]}
{"id": "C166", "title": "The estimated number of variants under a table counts its rows", "statement": "Under the LGR read from a plain list, an RFC 4290 or an RFC 3743 table, estimate_variant_number (without hiding mixed-script variants) is, for a label which is accepted, the product over the bases it is cut into of the number of variants of the base, itself counted once. If no base continues another one, compute_label_disposition never lists more labels. If all bases and variants are single code points, it lists exactly as many, invalid ones included.", "quantifier": "every file of the three formats which is read, every accepted label, every rule environment, all options, every set of digits", "why_tests_cant": "Counting argument over all tables and labels; the number of variants is exponential in the length of the label.", "anchors": ["lgr/core.py:LGR.estimate_variant_number", "lgr/core.py:LGR.compute_label_disposition", "lgr/parser/line_parser.py:LineParser._parse_doc", "lgr/parser/rfc4290_parser.py:RFC4290Parser._parse_doc", "lgr/parser/rfc3743_parser.py:RFC3743Parser._parse_doc"]}
{"id": "C167", "title": "The symmetry and transitivity checks on a table judge its rows", "statement": "Under the LGR read from a plain list, an RFC 4290 or an RFC 3743 table, check_symmetry (with and without context rules) succeeds exactly when every variant in the rows is itself a base which has the first base as a variant; check_transitivity succeeds exactly when every variant is a base, the variants of which are the first base or variants of it. The reports name exactly the variants which are not bases, those lacking the reverse variant, and the missing third variants. Without a Unicode database neither check raises.", "quantifier": "every file of the three formats which is read, with and without context rules, every Unicode database, every set of digits", "why_tests_cant": "Equivalence between a check over the parsed repertoire and a property of the rows of an arbitrary file.", "anchors": ["lgr/validate/symmetry.py:check_symmetry", "lgr/validate/transitivity.py:check_transitivity", "lgr/parser/line_parser.py:LineParser._parse_doc", "lgr/parser/rfc4290_parser.py:RFC4290Parser._parse_doc", "lgr/parser/rfc3743_parser.py:RFC3743Parser._parse_doc"]}
