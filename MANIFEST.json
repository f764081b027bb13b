{
 "claims": [
  {
   "property": "C01",
   "status": "proved",
   "theorems": [
    "Lgr.Props.C01.repertoire_refines_map",
    "Lgr.Props.C01.membership_agrees",
    "Lgr.Props.C01.get_char_own_cp",
    "Lgr.Props.C01.len_counts_entries",
    "Lgr.Props.C01.prefix_lookup_exact"
   ],
   "note": "Refinement to a finite map for every history, from the empty repertoire."
  },
  {
   "property": "C02",
   "status": "proved",
   "theorems": [
    "Lgr.Props.C02.add_cp_atomic",
    "Lgr.Props.C02.del_cp_atomic",
    "Lgr.Props.C02.add_variant_atomic",
    "Lgr.Props.C02.del_variant_atomic"
   ],
   "note": "all four calls, every option; types/tag classes/references included in the state"
  },
  {
   "property": "C03",
   "status": "proved",
   "theorems": [
    "Lgr.Props.C03.iter_ascending",
    "Lgr.Props.C03.iter_sound",
    "Lgr.Props.C03.iter_complete_nonrange",
    "Lgr.Props.C03.iter_range_at_most_once",
    "Lgr.Props.C03.iter_intact_range",
    "Lgr.Props.C03.intact_step"
   ],
   "note": "Order, soundness, completeness for non-range entries, one entry per range, and exactly the first code point of each range when ranges are intact; intactness is preserved by successful calls other than deleting a code point inside a range."
  },
  {
   "property": "C04",
   "status": "partial",
   "theorems": [
    "Lgr.Props.C04.rep_add_range_exact",
    "Lgr.Props.C04.rep_add_range_ok_iff",
    "Lgr.Props.C04.rep_add_range_atomic_partial",
    "Lgr.Props.C04.rep_add_range_not_atomic",
    "Lgr.Props.C04.add_range_exact",
    "Lgr.Props.C04.add_range_atomic_partial",
    "Lgr.Props.C04.add_range_atomic_strict",
    "Lgr.Props.C04.add_range_ok_iff",
    "Lgr.Props.C04.add_range_not_atomic"
   ],
   "note": "Success adds exactly the range and the success condition is exact, for Repertoire.add_range and LGR.add_range. All-or-nothing is false in the code (witnesses *_not_atomic); add_range_atomic_strict holds when the IDNA check cannot fail midway and no filtering by validating repertoire happens."
  },
  {
   "property": "C05",
   "status": "proved",
   "theorems": [
    "Lgr.Props.C05.collapse_exact",
    "Lgr.Props.C05.cover_unique",
    "Lgr.Props.C05.collapse_order_independent",
    "Lgr.Props.C05.collapse_empty"
   ],
   "note": "collapse_codepoints computes the unique sorted, non-adjacent, disjoint interval cover of its input set, independent of input order; the empty list raises."
  },
  {
   "property": "C06",
   "status": "proved",
   "theorems": [
    "Lgr.Props.C06.expand_ranges_meaning",
    "Lgr.Props.C06.expand_range_meaning",
    "Lgr.Props.C06.expand_ranges_ok_iff",
    "Lgr.Props.C06.intact_history",
    "Lgr.Props.C06.expand_not_intact"
   ],
   "note": "Ranges intact as defined by Lgr.Props.Intact; expand_not_intact shows the hypothesis is needed."
  },
  {
   "property": "C07",
   "status": "partial",
   "theorems": [
    "Lgr.Props.C07.tag_classes_mirror_partial",
    "Lgr.Props.C07.del_range_stale",
    "Lgr.Props.C07.expand_missing",
    "Lgr.Props.C07.forced_sequence_missing"
   ],
   "note": "Holds along every history without del_range, without forced tags, with intact ranges when expanding, and with add_range/add_codepoints not failing part-way. False otherwise: del_range_stale, expand_missing, forced_sequence_missing."
  },
  {
   "property": "C08",
   "status": "proved",
   "theorems": [
    "Lgr.Props.C08.variants_refine_store",
    "Lgr.Props.C08.variants_unique_sorted",
    "Lgr.Props.C08.del_after_add",
    "Lgr.Props.C08.range_rejects_variants"
   ],
   "note": ""
  },
  {
   "property": "C09",
   "status": "proved",
   "theorems": [
    "Lgr.Props.C09.variant_sets_exact",
    "Lgr.Props.C09.variant_sets_disjoint"
   ],
   "note": "get_variant_sets returns exactly the reachability classes described, sorted, without duplicates; on symmetric repertoires they partition."
  },
  {
   "property": "C10",
   "status": "partial",
   "theorems": [
    "Lgr.Props.C10.del_reference_removes_partial",
    "Lgr.Props.C10.del_reference_only",
    "Lgr.Props.C10.del_tag_removes_partial",
    "Lgr.Props.C10.forced_duplicates_survive"
   ],
   "note": "Over every history of edit calls without forced duplicate references or tags. False otherwise: list.remove deletes one copy (forced_duplicates_survive)."
  },
  {
   "property": "C100",
   "status": "partial",
   "theorems": [
    "Lgr.Props.C100.unicode_version_partial",
    "Lgr.Props.C100.version_suffix_wrong"
   ],
   "note": "Accepted iff the text begins with a version x.y.z; what follows is not looked at, so the property is false (negation proved)."
  },
  {
   "property": "C101",
   "status": "partial",
   "theorems": [
    "Lgr.Props.C101.rules_round_trip_partial",
    "Lgr.Props.C101.rules_reread",
    "Lgr.Props.C101.redefined_class_wrong",
    "Lgr.Props.C101.added_rule_wrong"
   ],
   "note": "Proved for every section that is parsed without exception: what is written, that it is read without exception, and that classes, rules, patterns and actions are the same. With a Unicode database, classes must not be redefined (negation proved: redefined_class_wrong). Rules added by the API are not written (negation proved: added_rule_wrong)."
  },
  {
   "property": "C102",
   "status": "proved",
   "theorems": [
    "Lgr.Props.C102.class_text",
    "Lgr.Props.C102.class_children",
    "Lgr.Props.C102.class_reference",
    "Lgr.Props.C102.words_exist"
   ],
   "note": "Words and hexadecimal numbers specified by relations (Words, Hex, Lists)."
  },
  {
   "property": "C103",
   "status": "proved",
   "theorems": [
    "Lgr.Props.C103.class_meaning",
    "Lgr.Props.C103.helper_meaning",
    "Lgr.Props.C103.document_has_meaning",
    "Lgr.Props.C103.document_rule_exact",
    "Lgr.Props.C103.document_context_exact"
   ],
   "note": "End to end from the elements of a document to the answers of the LGR. The meaning is defined on the elements alone. The conditions on empty elements are those of C63 (an empty class is not compiled to an empty set); counts above 63 are excluded as in C66."
  },
  {
   "property": "C104",
   "status": "partial",
   "theorems": [
    "Lgr.Props.C104.document_round_trip_partial",
    "Lgr.Props.C104.unicode_version_agrees",
    "Lgr.Props.C104.no_meta_wrong",
    "Lgr.Props.C104.no_meta_no_lgr",
    "Lgr.Props.C104.no_meta_iff",
    "Lgr.Props.C104.half_range_wrong"
   ],
   "note": "Proved from a successful first reading alone: every invariant the three section round trips need is shown to follow from it. Restricted to documents with <meta>, whose strings are XML characters, whose descriptions survive CDATA, whose reference comments are not empty; and to readers which are not both forced and lenient about IDNA-invalid code points. Violated otherwise: a document without <meta> raises AttributeError or gives None (no_meta_wrong, no_meta_no_lgr; no_meta_iff says exactly which); half a clashing range is kept and then completed (half_range_wrong)."
  },
  {
   "property": "C105",
   "status": "partial",
   "theorems": [
    "Lgr.Props.C105.data_means_partial",
    "Lgr.Props.C105.document_data_partial",
    "Lgr.Props.C105.two_spaces_wrong",
    "Lgr.Props.C105.empty_tag_wrong"
   ],
   "note": "data_means_partial: success iff the elements have a reading that is Fine and Apart, and the repertoire, tags and types are exactly those of the elements; document_data_partial the same of a whole document. Missing: white space is significant in ref and tag lists (two_spaces_wrong, empty_tag_wrong), so elements are Tidy in the partial theorems."
  },
  {
   "property": "C106",
   "status": "partial",
   "theorems": [
    "Lgr.Props.C106.document_labels_partial",
    "Lgr.Props.C106.faithful_exists",
    "Lgr.Props.C106.applies_any",
    "Lgr.Props.C106.beginning_wrong"
   ],
   "note": "Documents without a name defined twice, lists separated by single spaces, context rules which are an anchor between look-arounds or have no anchor. Sound for all; complete if no sequence is the beginning of another, otherwise violated (beginning_wrong)."
  },
  {
   "property": "C107",
   "status": "partial",
   "theorems": [
    "Lgr.Props.C107.document_disposition_partial",
    "Lgr.Props.C107.single_disposition_partial",
    "Lgr.Props.C107.doc_actions",
    "Lgr.Props.C107.full_faithful_exists",
    "Lgr.Props.C107.inner_wrong"
   ],
   "note": "Exact for items of one code point. In general, mappings of whatever stands in the label count (document_disposition_partial), which violates the property (inner_wrong). Same restrictions on documents as C106."
  },
  {
   "property": "C108",
   "status": "partial",
   "theorems": [
    "Lgr.Props.C108.labels_read_partial",
    "Lgr.Props.C108.says_iff",
    "Lgr.Props.C108.says_unique",
    "Lgr.Props.C108.denotes_iff",
    "Lgr.Props.C108.raise_first",
    "Lgr.Props.C108.written_read",
    "Lgr.Props.C108.u_labels_read",
    "Lgr.Props.C108.code_points_read",
    "Lgr.Props.C108.no_space_partial",
    "Lgr.Props.C108.tab_wrong",
    "Lgr.Props.C108.reread",
    "Lgr.Props.C108.reread_wrong"
   ],
   "note": "Reading is exact for all files (labels_read_partial with says_iff and says_unique; written_read, u_labels_read, code_points_read, raise_first). Violated: white space other than the space is accepted within labels (tab_wrong), and labels are not always read again as themselves (reread_wrong); no_space_partial and reread are what holds."
  },
  {
   "property": "C109",
   "status": "partial",
   "theorems": [
    "Lgr.Props.C109.none_iff",
    "Lgr.Props.C109.given_iff",
    "Lgr.Props.C109.given_exists",
    "Lgr.Props.C109.single_script",
    "Lgr.Props.C109.japanese_partial",
    "Lgr.Props.C109.japanese_wrong",
    "Lgr.Props.C109.order_free_partial",
    "Lgr.Props.C109.order_wrong"
   ],
   "note": "given_iff describes the result exactly for all labels; labels of one script are right in any order. Violated: Japanese labels that start with Common characters and an ideograph (japanese_wrong), mixed labels depend on order (order_wrong)."
  },
  {
   "property": "C11",
   "status": "proved",
   "theorems": [
    "Lgr.Props.C11.add_fresh_id",
    "Lgr.Props.C11.add_existing_raises",
    "Lgr.Props.C11.add_new_id",
    "Lgr.Props.C11.del_exact",
    "Lgr.Props.C11.update_exact",
    "Lgr.Props.C11.ids_unique"
   ],
   "note": "Reference manager: fresh ids, duplicate ids raise, deletion and update exact, ids stay unique along any history."
  },
  {
   "property": "C110",
   "status": "partial",
   "theorems": [
    "Lgr.Props.C110.tells_partial",
    "Lgr.Props.C110.one_error",
    "Lgr.Props.C110.annotate_file_partial",
    "Lgr.Props.C110.document_file_partial",
    "Lgr.Props.C110.document_any_partial",
    "Lgr.Props.C110.set_out",
    "Lgr.Props.C110.set_action_partial",
    "Lgr.Props.C110.first_action_wrong",
    "Lgr.Props.C110.set_action_wrong"
   ],
   "note": "Violated: the first action is never named (first_action_wrong), and lgr_set_annotate names the action of the merged LGR with the same index (set_action_wrong). Everything else is proved; document_file_partial covers documents whose items are single code points, document_any_partial all others, with the longest match of C152 and the mappings that count in C107."
  },
  {
   "property": "C111",
   "status": "partial",
   "theorems": [
    "Lgr.Props.C111.document_variants_partial",
    "Lgr.Props.C111.listed_labels_partial",
    "Lgr.Props.C111.room_of_short",
    "Lgr.Props.C153.missed_wrong"
   ],
   "note": "proved for documents in which no element is the beginning of another, without script hiding, when variants leave the label within 63 code points; false with overlapping sequences (C153.missed_wrong; C153 has the exact result for these); composes the reading of documents (C101-C107) with C22, C23, C48"
  },
  {
   "property": "C112",
   "status": "partial",
   "theorems": [
    "Lgr.Props.C112.basic_collision_partial",
    "Lgr.Props.C112.no_tlds_wrong"
   ],
   "note": "Proved with a list of TLDs (basic_collision_partial). Violated without one: TypeError is raised (no_tlds_wrong)."
  },
  {
   "property": "C113",
   "status": "partial",
   "theorems": [
    "Lgr.Props.C113.collision_partial",
    "Lgr.Props.C113.collision_lgr_partial",
    "Lgr.Props.C113.dump_wrong"
   ],
   "note": "Without a dump the pairs are proved exact for every LGR whose rules are defined and labels of at most 63 code points; with a dump, pairs and dump are proved exact for symmetric, transitive, prefix-free LGRs without conditional variants when all labels are in the LGR (collision_lgr_partial), and for any index and dispositions under the condition that labels of the same index have the same variants, InvalidSymmetry being raised otherwise (collision_partial). Violated in general: with a dump a label that is not in the LGR is reported as colliding (dump_wrong). That pairs are reported once fails too (C33.dump_lists_twice)."
  },
  {
   "property": "C114",
   "status": "partial",
   "theorems": [
    "Lgr.Props.C114.diff_partial",
    "Lgr.Props.C114.diff_lgr_partial",
    "Lgr.Props.C114.self_partial",
    "Lgr.Props.C114.self_wrong"
   ],
   "note": "Proved for index functions and dispositions under which labels of the same index have the same variants, in particular for symmetric, transitive LGRs without conditional variants and without entries that are prefixes of others; otherwise InvalidSymmetry is raised, even for an LGR compared with itself (self_wrong)."
  },
  {
   "property": "C115",
   "status": "partial",
   "theorems": [
    "Lgr.Props.C115.diff_lgrs_partial",
    "Lgr.Props.C115.context_wrong",
    "Lgr.Props.C115.actions_wrong",
    "Lgr.Props.C115.rules_wrong"
   ],
   "note": "Violated: contexts of code points are not compared, actions are compared by disposition, rules and classes by name only. The rest is proved."
  },
  {
   "property": "C116",
   "status": "partial",
   "theorems": [
    "Lgr.Props.C116.diff_sets_partial",
    "Lgr.Props.C116.expand_twice",
    "Lgr.Props.C116.left_out_wrong"
   ],
   "note": "Violated for LGRs without language, which do not appear. The rest is proved."
  },
  {
   "property": "C117",
   "status": "partial",
   "theorems": [
    "Lgr.Props.C117.rule_text",
    "Lgr.Props.C117.class_text",
    "Lgr.Props.C117.section_text",
    "Lgr.Props.C117.merged_meaning",
    "Lgr.Props.C117.merged_rule_matches",
    "Lgr.Props.C117.merged_context_matches",
    "Lgr.Props.C117.names_agree",
    "Lgr.Props.C117.unique_of",
    "Lgr.Props.C117.combined_rule_wrong",
    "Lgr.Props.C117.like_msr_wrong",
    "Lgr.Props.C117.colon_wrong",
    "Lgr.Props.C117.common_wrong",
    "Lgr.Props.C117.context_name_wrong",
    "Lgr.Props.XmlEscape.text_back",
    "Lgr.Props.XmlEscape.value_back"
   ],
   "note": "rule_text, class_text, section_text: the texts written are the renamed elements; merged_rule_matches, merged_context_matches: a rule matches as its renamed counterpart. Hypotheses: names are such that renaming is unambiguous (Writable, Fit). Violated otherwise: a rule asked for because two LGRs share a context refers to classes that do not exist, so the merged LGR cannot be read (combined_rule_wrong); names that begin with leading-combining-mark (like_msr_wrong) or classes with a colon (colon_wrong) likewise; of different leading-combining-mark rules only the first is kept (common_wrong), and as a context it is not found (context_name_wrong). text_back, value_back: what is written for a text or value stands for it in XML."
  },
  {
   "property": "C118",
   "status": "partial",
   "theorems": [
    "Lgr.Props.C117.act_text",
    "Lgr.Props.C118.merged_objects",
    "Lgr.Props.C118.merged_actions",
    "Lgr.Props.C118.merged_disposition",
    "Lgr.Props.C118.evaluates_exists",
    "Lgr.Props.C118.default_dropped_wrong",
    "Lgr.Props.C118.replace_wrong"
   ],
   "note": "act_text, merged_actions: the actions written; merged_objects: the actions as objects; merged_disposition: the disposition is kept, if default actions stand only at the end of the LGR's actions and no action of another LGR applies. Violated otherwise: a default action before others is dropped (default_dropped_wrong), and a rule's name that occurs elsewhere in the action's text is replaced there too (replace_wrong)."
  },
  {
   "property": "C119",
   "status": "partial",
   "theorems": [
    "Lgr.Props.C119.merged_lists",
    "Lgr.Props.C119.merged_period",
    "Lgr.Props.C119.merged_version",
    "Lgr.Props.C119.merged_description",
    "Lgr.Props.C119.merged_unicode_partial",
    "Lgr.Props.C119.unicode_wrong",
    "Lgr.Props.C119.empty_wrong"
   ],
   "note": "Proved but for the version of Unicode, compared as text starting from 6.3.0 (merged_unicode_partial, unicode_wrong), and for LGRs without version and description (empty_wrong)."
  },
  {
   "property": "C12",
   "status": "proved",
   "theorems": [
    "Lgr.Props.C12.verdict_no_policy",
    "Lgr.Props.C12.verdict_policy",
    "Lgr.Props.C12.verdict_order_independent"
   ],
   "note": "Verdict of the RFC 7940 collector as a function of the recorded checks and policy, independent of recording order."
  },
  {
   "property": "C120",
   "status": "partial",
   "theorems": [
    "Lgr.Props.C120.block_partial",
    "Lgr.Props.C120.block_without_invalid",
    "Lgr.Props.C120.block_total",
    "Lgr.Props.C120.validation_exact",
    "Lgr.Props.C120.run_partial",
    "Lgr.Props.C120.listed_typed",
    "Lgr.Props.C120.first_default_wrong",
    "Lgr.Props.C120.empty_line"
   ],
   "note": "Violated for invalid variants with -i (first_default_wrong) and empty lines (empty_line). Proved: block_partial with the action named right except the first default action, all without -i."
  },
  {
   "property": "C121",
   "status": "partial",
   "theorems": [
    "Lgr.Props.C121.main_partial",
    "Lgr.Props.C121.main_single_partial",
    "Lgr.Props.C121.block_partial",
    "Lgr.Props.C121.collisions_exact",
    "Lgr.Props.C121.filter_partial",
    "Lgr.Props.C121.filter_raises",
    "Lgr.Props.C121.variants_wrong",
    "Lgr.Props.C121.set_label_wrong",
    "Lgr.Props.C121.script_last"
   ],
   "note": "Violated with -g (variants_wrong) and for sets with a label outside the LGR of the script (set_label_wrong); proved otherwise."
  },
  {
   "property": "C122",
   "status": "partial",
   "theorems": [
    "Lgr.Props.C122.main_partial",
    "Lgr.Props.C122.collision_iff_variant_partial",
    "Lgr.Props.C122.refs_returns",
    "Lgr.Props.C122.unknown_wrong"
   ],
   "note": "Violated for labels outside the LGR, which end the tool (unknown_wrong); proved for lists of labels of the LGR."
  },
  {
   "property": "C123",
   "status": "partial",
   "theorems": [
    "Lgr.Props.C123.valid_exact",
    "Lgr.Props.C123.report_partial",
    "Lgr.Props.C123.rows_exact",
    "Lgr.Props.C123.number_partial",
    "Lgr.Props.C123.number_wrong"
   ],
   "note": "Number of compliant entries violated (number_wrong: out-of-repertoire entries are counted); all else proved."
  },
  {
   "property": "C124",
   "status": "partial",
   "theorems": [
    "Lgr.Props.C124.flags_exact",
    "Lgr.Props.C124.tags_exact",
    "Lgr.Props.C124.labels_exact",
    "Lgr.Props.C124.report_partial",
    "Lgr.Props.C124.digits_sound",
    "Lgr.Props.C124.labels_break",
    "Lgr.Props.C124.rtl_wrong",
    "Lgr.Props.C124.digits_wrong",
    "Lgr.Props.C124.georgian_wrong",
    "Lgr.Props.C124.arabic_wrong",
    "Lgr.Props.C124.han_wrong",
    "Lgr.Props.C124.present_wrong"
   ],
   "note": "Violated in several ways (rtl_wrong, digits_wrong, georgian_wrong, arabic_wrong, han_wrong, present_wrong). Proved: exact conditions and, when a rule is reported missing or existing, a label that breaks it and is eligible or not."
  },
  {
   "property": "C125",
   "status": "partial",
   "theorems": [
    "Lgr.Props.C125.text_exact",
    "Lgr.Props.C125.verdict_exact",
    "Lgr.Props.C125.verdict_partial",
    "Lgr.Props.C125.left_out_wrong",
    "Lgr.Props.C125.schema_wrong",
    "Lgr.Props.C125.skip_wrong",
    "Lgr.Props.C125.version_wrong",
    "Lgr.Props.C125.lenient_wrong"
   ],
   "note": "Full statement: verdict_exact gives the verdict of the tool with the tests it leaves out; verdict_partial is the claim where none is left out. Missing: documents without language, with no entry outside ranges or of another Unicode version always fail (left_out_wrong); runs without -r or with -t always fail (schema_wrong, skip_wrong); an empty version raises (version_wrong); reading is lenient (lenient_wrong)."
  },
  {
   "property": "C126",
   "status": "partial",
   "theorems": [
    "Lgr.Props.C126.make_ok_iff",
    "Lgr.Props.C126.make_reads",
    "Lgr.Props.C126.states_wrong",
    "Lgr.Props.C126.states_violated"
   ],
   "note": "The code points and everything else are as stated; the Unicode version is not (states_wrong): it is always 6.3.0."
  },
  {
   "property": "C127",
   "status": "proved",
   "theorems": [
    "Lgr.Props.C127.tags_exact",
    "Lgr.Props.C127.verdict"
   ],
   "note": ""
  },
  {
   "property": "C128",
   "status": "partial",
   "theorems": [
    "Lgr.Props.C128.scripts_iff",
    "Lgr.Props.C128.iso_partial",
    "Lgr.Props.C128.iso_wrong",
    "Lgr.Props.C128.in_script_exact",
    "Lgr.Props.C128.in_checks",
    "Lgr.Props.C128.assert_wrong",
    "Lgr.Props.C128.assert_partial"
   ],
   "note": "cp_in_script and the scripts are as stated, but for the codes Hanb and Jamo (iso_wrong); with assert_in_script everything is refused (assert_wrong)."
  },
  {
   "property": "C129",
   "status": "partial",
   "theorems": [
    "Lgr.Props.C129.same_text_partial",
    "Lgr.Props.C129.reported_partial",
    "Lgr.Props.C129.same_content",
    "Lgr.Props.C129.collapsed_exact",
    "Lgr.Props.C129.order_wrong",
    "Lgr.Props.C129.order_reported_wrong",
    "Lgr.Props.C129.class_wrong",
    "Lgr.Props.C129.empty_wrong"
   ],
   "note": "Proved for plain rules (same_text_partial; reported_partial for whole-label rules as evaluated by the code): literals of one code point, classes by reference, tag, property or as one interval and combinations of them, any nesting and counts. Violated otherwise: order of literals (order_wrong, order_reported_wrong), classes of several code points (class_wrong), classes without code points (empty_wrong)."
  },
  {
   "property": "C13",
   "status": "proved",
   "theorems": [
    "Lgr.Props.C13.accepted_is_segmentation"
   ],
   "note": "For every rule semantics, well-formed (hence every reachable) repertoire and label."
  },
  {
   "property": "C130",
   "status": "partial",
   "theorems": [
    "Lgr.Props.C130.tool_prints_completed_partial",
    "Lgr.Props.C130.tool_prints_partial",
    "Lgr.Props.C130.tool_ends",
    "Lgr.Props.C130.tool_rejects",
    "Lgr.Props.C130.tool_twice_partial",
    "Lgr.Props.C130.range_member_wrong"
   ],
   "note": "For documents whose texts survive writing and reading (DocOk, as in C104). That the tool prints needs variants that are no range members, with at most one rule and references without repetition; range_member_wrong shows the exception otherwise. Pretty printing not modelled."
  },
  {
   "property": "C131",
   "status": "proved",
   "theorems": [
    "Lgr.Props.C131.populate_twice"
   ],
   "note": "For every LGR with the class invariant."
  },
  {
   "property": "C132",
   "status": "partial",
   "theorems": [
    "Lgr.Props.C132.inter_made",
    "Lgr.Props.C132.inter_ignores_rules",
    "Lgr.Props.C132.inter_sound_partial",
    "Lgr.Props.C132.inter_complete_partial",
    "Lgr.Props.C132.union_rules",
    "Lgr.Props.C132.union_made",
    "Lgr.Props.C132.union_ignores_rules",
    "Lgr.Props.C132.union_complete_partial",
    "Lgr.Props.C132.accepts_rejected_wrong",
    "Lgr.Props.C132.inter_overlap_wrong",
    "Lgr.Props.C132.union_overlap_wrong"
   ],
   "note": "Exact effect on labels proved; completeness of both for LGRs in which no entry begins another; soundness of the intersection further requires common entries without rules. False in general (accepts_rejected_wrong, inter_overlap_wrong, union_overlap_wrong)."
  },
  {
   "property": "C133",
   "status": "partial",
   "theorems": [
    "Lgr.Props.C133.populate_labels_partial",
    "Lgr.Props.C133.populate_closed",
    "Lgr.Props.C133.missing_becomes_eligible_wrong",
    "Lgr.Props.C133.new_label_wrong",
    "Lgr.Props.C133.label_lost_wrong"
   ],
   "note": "Proved for every label in which no missing variant occurs, and for every LGR without missing variants. False otherwise: populate_lgr adds missing variants as plain entries (universal statement for single code points, and two concrete LGRs)."
  },
  {
   "property": "C134",
   "status": "partial",
   "theorems": [
    "Lgr.Props.C134.populate_collisions_partial",
    "Lgr.Props.C134.collision_missed_wrong"
   ],
   "note": "Proved for LGRs without conditional variants in which no entry or variant begins another one. False for overlapping entries (concrete LGR)."
  },
  {
   "property": "C135",
   "status": "partial",
   "theorems": [
    "Lgr.Props.C135.harmonize_labels_partial",
    "Lgr.Props.C135.added_iff",
    "Lgr.Props.C135.added_becomes_eligible_wrong",
    "Lgr.Props.C135.new_label_wrong",
    "Lgr.Props.C135.label_lost_wrong"
   ],
   "note": "Proved for every label in which no added code point occurs. False otherwise: added code points have type out-of-repertoire or none and are valid labels (universal statement for single code points, and two concrete pairs of LGRs)."
  },
  {
   "property": "C136",
   "status": "partial",
   "theorems": [
    "Lgr.Props.C136.harmonize_index_partial",
    "Lgr.Props.C136.index_differs_wrong"
   ],
   "note": "Proved without conditional variants when no entry of the results begins another one. False for overlapping entries (concrete LGRs)."
  },
  {
   "property": "C137",
   "status": "partial",
   "theorems": [
    "Lgr.Props.C137.merge_complete_partial",
    "Lgr.Props.C137.merge_sound_partial",
    "Lgr.Props.C137.merge_made",
    "Lgr.Props.C137.opposite_contexts",
    "Lgr.Props.C137.opposite_contexts_wrong",
    "Lgr.Props.C137.other_context_wrong",
    "Lgr.Props.C137.overlap_wrong",
    "Lgr.Props.C137.mixed_accepted"
   ],
   "note": "Completeness for labels whose conditioned code points are conditioned by the LGR, with entries none of which begins another; false otherwise. Soundness for LGRs with such entries and without opposite conditions; with opposite conditions it is false (opposite_contexts_wrong)."
  },
  {
   "property": "C138",
   "status": "partial",
   "theorems": [
    "Lgr.Props.C138.filter_sorted",
    "Lgr.Props.C138.annotate_set_partial",
    "Lgr.Props.C138.annotate_returns_partial",
    "Lgr.Props.C138.collides_iff_variant_partial",
    "Lgr.Props.C138.unrelated_wrong",
    "Lgr.Props.C138.more_actions_wrong"
   ],
   "note": "annotate_set_partial: missing are sets with labels that collide with each other, where unrelated labels are reported (unrelated_wrong), and labels which are not read again as themselves. annotate_returns_partial: missing is an LGR of the script with more actions than the merged LGR (more_actions_wrong)."
  },
  {
   "property": "C139",
   "status": "partial",
   "theorems": [
    "Lgr.Props.C139.merge_collisions_partial",
    "Lgr.Props.C139.merge_keeps_collisions_partial",
    "Lgr.Props.C139.annotate_finds_partial",
    "Lgr.Props.C139.merge_transitive_of",
    "Lgr.Props.C139.missed_wrong",
    "Lgr.Props.C139.annotate_misses"
   ],
   "note": "Proved when the merge is transitive (merge_transitive_of: for instance if the mappings of all LGRs together are), without conditional variants and without entries that begin others. Violated otherwise: missed_wrong, annotate_misses (concrete set on which a collision within one LGR is missed)."
  },
  {
   "property": "C14",
   "status": "partial",
   "theorems": [
    "Lgr.Props.C14.segmentable_label_rejected",
    "Lgr.Props.C14.accepts_iff_segmentable_partial",
    "Lgr.Props.C14.prefixFree_of_single",
    "Lgr.Props.C14.accepts_plain_labels_partial"
   ],
   "note": "Full property refuted by a witness (segmentable_label_rejected); completeness proved for prefix-free repertoires and for labels made of unconditional single code points. C152 has the exact result for all repertoires."
  },
  {
   "property": "C140",
   "status": "partial",
   "theorems": [
    "Lgr.Props.C140.union_printed_partial",
    "Lgr.Props.C140.intersect_printed_partial",
    "Lgr.Props.C140.tool_prints_partial",
    "Lgr.Props.C140.tool_rejects",
    "Lgr.Props.C140.replace_wrong",
    "Lgr.Props.C140.order_wrong",
    "Lgr.Props.C140.both_rules_wrong"
   ],
   "note": "Read without Unicode database (as the tool does), for documents whose rules are read back from their texts, where a name stands for one class and one rule in both, no tag is empty and descriptions do not end a CDATA section; tool_prints_partial also asks that no entry has both kinds of rule. replace_wrong, order_wrong, both_rules_wrong show what fails otherwise."
  },
  {
   "property": "C141",
   "status": "partial",
   "theorems": [
    "Lgr.Props.C141.tool_writes_harmonised_partial",
    "Lgr.Props.C141.tool_returns_partial",
    "Lgr.Props.C141.tool_ends",
    "Lgr.Props.C141.tool_rejects",
    "Lgr.Props.C141.same_name_wrong",
    "Lgr.Props.C141.root_ignored",
    "Lgr.Props.C141.file_names"
   ],
   "note": "Documents for which the writer or the parser fail are excluded (DocOk, C104). Violated for two files of the same name (same_name_wrong) and for a rejected root zone LGR (root_ignored)."
  },
  {
   "property": "C142",
   "status": "partial",
   "theorems": [
    "Lgr.Props.C142.dump_any_partial",
    "Lgr.Props.C142.dump_exclusive",
    "Lgr.Props.C142.dump_reads_back_partial",
    "Lgr.Props.C142.version_line",
    "Lgr.Props.C142.reference_line",
    "Lgr.Props.C142.version_read",
    "Lgr.Props.C142.version_line_wrong",
    "Lgr.Props.C142.references_twice_wrong",
    "Lgr.Props.C142.control_character_wrong"
   ],
   "note": "Every file is covered (dump_any_partial): either its lines are read as items, or UnboundLocalError is raised, as in C159 and C161. Missing: tables with characters that XML does not allow, with empty comments of references, and, for a reader without force, with version lines or repeated references; for these it is false (version_line_wrong, references_twice_wrong, control_character_wrong)."
  },
  {
   "property": "C143",
   "status": "partial",
   "theorems": [
    "Lgr.Props.C143.merge_prints_partial",
    "Lgr.Props.C143.no_lgr_wrong",
    "Lgr.Props.C143.untold_wrong"
   ],
   "note": "Under: texts lxml can write; at least one version and one description in the set, no ']' in HTML descriptions, no carriage return in scripts and types. Violations: a document without an LGR is a TypeError; LGRs without descriptions cannot be merged."
  },
  {
   "property": "C144",
   "status": "partial",
   "theorems": [
    "Lgr.Props.C144.tools_start_partial",
    "Lgr.Props.C144.collision_wrong",
    "Lgr.Props.C144.xml_dump_wrong",
    "Lgr.Props.C144.simple_conforming"
   ],
   "note": "Violations: lgr_collision declares an option twice and never starts; xml_dump reads an option it does not declare and never reads a document; an empty path is an AttributeError. All other tools start. argparse itself is a parameter."
  },
  {
   "property": "C145",
   "status": "partial",
   "theorems": [
    "Lgr.Props.C145.self_partial",
    "Lgr.Props.C145.match_means",
    "Lgr.Props.C145.tool_partial",
    "Lgr.Props.C145.core_numbers",
    "Lgr.Props.C145.core_digits",
    "Lgr.Props.C145.order_wrong",
    "Lgr.Props.C145.skip_wrong",
    "Lgr.Props.C145.same_name_wrong",
    "Lgr.Props.C145.underscore_wrong",
    "Lgr.Props.C145.core_digits_wrong"
   ],
   "note": "self_partial: the review of an LGR without ranges, with at most one context rule per code point and with one language tag against itself is made and all six summaries are MATCH. match_means: of any two LGRs, what the overall results MATCH mean for languages, repertoire and actions, and that the other sections are the ones of the two. tool_partial: when all files are read and the names of reports differ, the output folder has exactly one report per pair, the review of the two. core_numbers, core_digits: counts are exact, and several sets are only told when there are. Violated: order_wrong (order of actions not in the summary), skip_wrong (unreadable file raises), same_name_wrong and underscore_wrong (reports overwritten), core_digits_wrong (two sets not told)."
  },
  {
   "property": "C146",
   "status": "partial",
   "theorems": [
    "Lgr.Props.C146.all_tags_partial",
    "Lgr.Props.C146.listed_given",
    "Lgr.Props.C146.kept_wrong",
    "Lgr.Props.C146.stale_wrong",
    "Lgr.Props.C146.name_wrong"
   ],
   "note": "all_tags_partial: after histories as in C07 (no del_range, no forced tags, ranges intact when expanded), with named classes that do not have the internal prefix, every tag of a code point is listed, once, and its class has exactly the code points with the tag. listed_given: whatever the history, a listed tag was given by a call. Violated: kept_wrong, stale_wrong (tags stay when no code point has them), name_wrong."
  },
  {
   "property": "C147",
   "status": "partial",
   "theorems": [
    "Lgr.Props.C147.written_valid_partial",
    "Lgr.Props.C147.checked_valid_partial",
    "Lgr.Props.C147.forced_invalid_wrong",
    "Lgr.Props.C147.new_invalid_wrong",
    "Lgr.Props.C147.empty_variant_wrong"
   ],
   "note": "Proved without force, and with force when a code point is left; otherwise violated (forced_invalid_wrong). New LGRs are written as invalid documents (new_invalid_wrong)."
  },
  {
   "property": "C148",
   "status": "proved",
   "theorems": [
    "Lgr.Props.C148.meta_means",
    "Lgr.Props.C148.valid_meta_means",
    "Lgr.Props.C148.document_meta",
    "Lgr.Props.C148.empty_description_error"
   ],
   "note": "valid_meta_means is for schema-valid documents, document_meta for the LGR read; empty_description_error shows what happens with an empty description"
  },
  {
   "property": "C149",
   "status": "proved",
   "theorems": [
    "Lgr.Props.C149.section_iff",
    "Lgr.Props.C149.item_shape",
    "Lgr.Props.C149.rules_read",
    "Lgr.Props.C149.document_read",
    "Lgr.Props.C149.forward_reference"
   ],
   "note": "Exactly the sound documents are read; the section of rules alone; a valid document which is refused. With a Unicode database, patterns are made when a rule is read, and this is not part of the claim; counts which the schema admits only because of white space around them, or with digits other than those of ASCII, are excluded."
  },
  {
   "property": "C15",
   "status": "proved",
   "theorems": [
    "Lgr.Props.C15.report_accurate",
    "Lgr.Props.C15.report_covers"
   ],
   "note": "Report equals a decomposition of the label into right pieces."
  },
  {
   "property": "C150",
   "status": "proved",
   "theorems": [
    "Lgr.Props.C150.same_rules",
    "Lgr.Props.C150.rules_read_db",
    "Lgr.Props.C150.document_read_db",
    "Lgr.Props.C150.unknown_property",
    "Lgr.Props.C150.invalid_code_point"
   ],
   "note": "With a Unicode database, documents valid for the schema whose properties are known are read exactly when sound; the hypothesis on properties is needed (unknown_property)."
  },
  {
   "property": "C151",
   "status": "partial",
   "theorems": [
    "Lgr.Props.C151.regular_read",
    "Lgr.Props.C151.any_order_partial",
    "Lgr.Props.C151.same_matches",
    "Lgr.Props.C151.two_data",
    "Lgr.Props.C151.two_rules",
    "Lgr.Props.C151.no_meta",
    "Lgr.Props.C151.last_meta",
    "Lgr.Props.C151.lost_wrong",
    "Lgr.Props.C151.rules_first_wrong",
    "Lgr.Props.C151.rules_first"
   ],
   "note": "regular order as C104; independence of order and number without Unicode database or without from-tag; neighbouring sections; no meta. Violated: last_meta/lost_wrong (second meta drops all), rules_first_wrong (with a Unicode database, rules read before data)"
  },
  {
   "property": "C152",
   "status": "proved",
   "theorems": [
    "Lgr.Props.C152.accepts_iff",
    "Lgr.Props.C152.rejects_iff",
    "Lgr.Props.C152.cut_unique",
    "Lgr.Props.C152.cut_text",
    "Lgr.Props.C152.document_accepts_iff"
   ],
   "note": "Lgr.Props.C152: any repertoire and rule semantics; documents under the hypotheses of C106 but for the one on overlapping sequences"
  },
  {
   "property": "C153",
   "status": "proved",
   "theorems": [
    "Lgr.Props.C153.document_variants_exact",
    "Lgr.Props.C153.listed_labels_exact",
    "Lgr.Props.C153.missed_wrong"
   ],
   "note": "Lgr.Props.C153; restrictions on documents as in C107 (C105, C106), without the one on overlapping sequences of C111"
  },
  {
   "property": "C154",
   "status": "proved",
   "theorems": [
    "Lgr.Props.C154.document_index",
    "Lgr.Props.C154.document_collides_iff",
    "Lgr.Props.C154.indexes_eq"
   ],
   "note": "max_recursion is 0, as in all callers."
  },
  {
   "property": "C155",
   "status": "proved",
   "theorems": [
    "Lgr.Props.C155.document_symmetry",
    "Lgr.Props.C155.document_transitivity",
    "Lgr.Props.C155.document_conditions"
   ],
   "note": "Stated on the elements of the document; without force, lists separated by single spaces"
  },
  {
   "property": "C156",
   "status": "proved",
   "theorems": [
    "Lgr.Props.C156.checked_collisions",
    "Lgr.Props.C156.checked_index",
    "Lgr.Props.C156.checked_variants"
   ],
   "note": "Success of the checks gives exact collisions, for documents without conditions on variants and without overlapping sequences"
  },
  {
   "property": "C157",
   "status": "proved",
   "theorems": [
    "Lgr.Props.C157.document_report",
    "Lgr.Props.C157.checked_report"
   ],
   "note": "With a list of TLDs; without one see C112"
  },
  {
   "property": "C158",
   "status": "partial",
   "theorems": [
    "Lgr.Props.C158.space_wrong",
    "Lgr.Props.C158.spaced_exact",
    "Lgr.Props.C158.spaced_first",
    "Lgr.Props.C158.parse_spacedList"
   ],
   "note": "Violated (space_wrong). Proved instead, for all such tables, what they are read as (spaced_exact): a column with such a space gives no variants, a row with such a space in its base gives none and its variants go to the base read before; and that UnboundLocalError is raised if there is none (spaced_first)."
  },
  {
   "property": "C159",
   "status": "proved",
   "theorems": [
    "Lgr.Props.C159.any_table",
    "Lgr.Props.C159.returns_iff",
    "Lgr.Props.C159.exclusive"
   ],
   "note": "For every file; C73 has the tables without loose rows, C36 why giving variants to the row before is a fault."
  },
  {
   "property": "C16",
   "status": "proved",
   "theorems": [
    "Lgr.Props.C16.partitions_exact"
   ],
   "note": "Partitions are exactly the segmentations, without duplicates."
  },
  {
   "property": "C160",
   "status": "proved",
   "theorems": [
    "Lgr.Props.C160.document_stats"
   ],
   "note": "Under ElemTidy (as C105) and force=false. The rounded average is not modelled."
  },
  {
   "property": "C161",
   "status": "proved",
   "theorems": [
    "Lgr.Props.C161.any_table",
    "Lgr.Props.C161.exclusive",
    "Lgr.Props.C161.returns_iff",
    "Lgr.Props.C161.parse_char_exact"
   ],
   "note": "For every file, with any regular expressions for reference and version lines that match only lines starting with R and V."
  },
  {
   "property": "C162",
   "status": "proved",
   "theorems": [
    "Lgr.Props.C162.checked_full",
    "Lgr.Props.C162.variants_alike",
    "Lgr.Props.C162.told_of"
   ],
   "note": "For the dispositions, variants leave the label at most 63 code points (Room), as in C153. Other documents: C113 and C157. A label which does not pass, with a dump: C113 dump_wrong."
  },
  {
   "property": "C163",
   "status": "partial",
   "theorems": [
    "Lgr.Props.C163.written_partial",
    "Lgr.Props.C163.number_wrong",
    "Lgr.Props.C163.comment_wrong",
    "Lgr.Props.C163.written_exact",
    "Lgr.Props.C163.table_references"
   ],
   "note": "Violated: numbers of two digits are not read (number_wrong), white space before a comment is part of the value (comment_wrong). Proved: lines with one digit and no such white space (written_partial), what every such line is read as (written_exact), the references of every file that is read (table_references)."
  },
  {
   "property": "C164",
   "status": "proved",
   "theorems": [
    "Lgr.Props.C164.table_labels",
    "Lgr.Props.C164.printed_labels"
   ],
   "note": "Every file which is read, in the three formats; the order of rows counts only for a variant given twice. printed_labels: the same under the document which the dump tool prints, under the conditions of C142."
  },
  {
   "property": "C165",
   "status": "proved",
   "theorems": [
    "Lgr.Props.C165.table_variants",
    "Lgr.Props.C165.printed_variants",
    "Lgr.Props.C165.missed_wrong"
   ],
   "note": "Every file which is read; completeness under the condition in the statement, which is needed (missed_wrong). printed_variants: the same under the document which the dump tool prints, under the conditions of C142."
  },
  {
   "property": "C166",
   "status": "proved",
   "theorems": [
    "Lgr.Props.C166.table_estimate",
    "Lgr.Props.C166.printed_estimate"
   ],
   "note": "Every file which is read. Where a base continues another one the bound is false (C24, estimate_too_low). printed_estimate: the same under the document which the dump tool prints, under the conditions of C142."
  },
  {
   "property": "C167",
   "status": "proved",
   "theorems": [
    "Lgr.Props.C167.table_checks",
    "Lgr.Props.C167.printed_checks"
   ],
   "note": "Every file which is read; the reports are exact. printed_checks: the same under the document which the dump tool prints, under the conditions of C142."
  },
  {
   "property": "C17",
   "status": "proved",
   "theorems": [
    "Lgr.Props.C17.index_of_accepted",
    "Lgr.Props.C17.index_of_rejected",
    "Lgr.Props.C17.index_total",
    "Lgr.Props.C17.index_empty"
   ],
   "note": "Index label defined exactly on accepted labels and least over all segmentations."
  },
  {
   "property": "C18",
   "status": "partial",
   "theorems": [
    "Lgr.Props.C18.same_index_iff_variant_partial",
    "Lgr.Props.C18.same_index_not_variant",
    "Lgr.Props.C18.variant_other_index"
   ],
   "note": "Exact for prefix free, symmetric, transitive repertoires with unconditional variants; both halves of the full statement are refuted by witnesses with overlapping sequences."
  },
  {
   "property": "C19",
   "status": "partial",
   "theorems": [
    "Lgr.Props.C19.canonical_partial",
    "Lgr.Props.C19.index_idempotent_partial",
    "Lgr.Props.C19.index_not_idempotent",
    "Lgr.Props.C19.index_greater"
   ],
   "note": "Proved for prefix free, symmetric, transitive repertoires with unconditional variants; idempotence and 'not greater' are refuted in general."
  },
  {
   "property": "C20",
   "status": "proved",
   "theorems": [
    "Lgr.Props.C20.first_triggered",
    "Lgr.Props.C20.always_disposition",
    "Lgr.Props.C20.never_none",
    "Lgr.Props.C20.error_source",
    "Lgr.Props.C20.constructor_excludes_both"
   ],
   "note": "first triggered action, in order, decides; error cases characterised"
  },
  {
   "property": "C21",
   "status": "proved",
   "theorems": [
    "Lgr.Props.C21.default_table",
    "Lgr.Props.C21.default_table_after"
   ],
   "note": ""
  },
  {
   "property": "C22",
   "status": "proved",
   "theorems": [
    "Lgr.Props.C22.generated_sound",
    "Lgr.Props.C22.generated_exact",
    "Lgr.Props.genVariants_defined"
   ],
   "note": "with and without hiding; generated_exact characterises the generated items exactly"
  },
  {
   "property": "C23",
   "status": "partial",
   "theorems": [
    "Lgr.Props.C23.no_variant_missed_partial",
    "Lgr.Props.C23.extend_of_prefixFree",
    "Lgr.Props.C23.produces_tried",
    "Lgr.Props.C23.variant_missed"
   ],
   "note": "false in general (variant_missed: concrete accepted label whose variant is not generated); proved when every sequence extending a character with variants has variants and no context rule"
  },
  {
   "property": "C24",
   "status": "partial",
   "theorems": [
    "Lgr.Props.C24.upper_bound_partial",
    "Lgr.Props.C24.exact_estimate_partial",
    "Lgr.Props.C24.estimate_too_low",
    "Lgr.Props.C24.hidden_estimate_too_low",
    "Lgr.Props.C24.sequence_variants_coincide"
   ],
   "note": "upper bound false for repertoires with sequences (estimate_too_low) and with hiding (hidden_estimate_too_low), equality false with sequence variants (sequence_variants_coincide); bound proved for prefix-free repertoires, equality for single code point variants"
  },
  {
   "property": "C25",
   "status": "proved",
   "theorems": [
    "Lgr.Props.C25.listing",
    "Lgr.Props.C25.preconditions",
    "Lgr.Props.C25.listing_total"
   ],
   "note": ""
  },
  {
   "property": "C26",
   "status": "proved",
   "theorems": [
    "Lgr.Props.C26.check_symmetry_exact",
    "Lgr.Props.C26.check_symmetry_rules_exact",
    "Lgr.Props.C26.check_symmetry_report",
    "Lgr.Props.C26.check_symmetry_returns_iff"
   ],
   "note": "Exact outcome with and without rules, exact report, exact condition for raising."
  },
  {
   "property": "C27",
   "status": "proved",
   "theorems": [
    "Lgr.Props.C27.check_transitivity_exact",
    "Lgr.Props.C27.check_transitivity_report",
    "Lgr.Props.C27.check_transitivity_returns_iff"
   ],
   "note": "Exact outcome, exact report, exact condition for raising."
  },
  {
   "property": "C28",
   "status": "proved",
   "theorems": [
    "Lgr.Props.C28.populate_terminates",
    "Lgr.Props.C28.populate_symmetric_transitive",
    "Lgr.Props.C28.populate_returns"
   ],
   "note": "Termination for every LGR with the class invariant (kept by every API call), every Unicode database; symmetry (ignoring rules) and transitivity checks pass on normal return; normal return for LGRs with known, unrepeated references, at most one non-empty rule per variant and no variant that is a range member."
  },
  {
   "property": "C29",
   "status": "partial",
   "theorems": [
    "Lgr.Props.C29.populate_exact_partial",
    "Lgr.Props.C29.populate_keeps_entries",
    "Lgr.Props.C29.populate_keeps_variants",
    "Lgr.Props.C29.populate_raise_loses"
   ],
   "note": "Proved on normal return: entries and pairs exactly, attributes/ranges/references/tags and types kept, variants kept up to an added context rule. Violated when the call raises: a variant with a repeated reference is deleted and not re-added (populate_raise_loses)."
  },
  {
   "property": "C30",
   "status": "partial",
   "theorems": [
    "Lgr.Props.C30.union_exact_partial",
    "Lgr.Props.C30.union_codepoints",
    "Lgr.Props.C30.union_variants_partial",
    "Lgr.Props.C30.union_returns",
    "Lgr.Props.C30.union_loses_variants"
   ],
   "note": "Exact content of a union: code points of both, tags, variants; context rules and references of common code points are dropped, and of two variants equal but for type or comment one may be lost (union_loses_variants refutes the full statement)."
  },
  {
   "property": "C31",
   "status": "proved",
   "theorems": [
    "Lgr.Props.C31.intersect_exact",
    "Lgr.Props.C31.intersect_members",
    "Lgr.Props.C31.intersect_returns"
   ],
   "note": "Exact content of an intersection."
  },
  {
   "property": "C32",
   "status": "proved",
   "theorems": [
    "Lgr.Props.C32.collide_iff",
    "Lgr.Props.C32.group_reported_iff",
    "Lgr.Props.C32.generate_indexes_exact",
    "Lgr.Props.C32.generate_indexes_variants",
    "Lgr.Props.C32.not_in_lgr_exact",
    "Lgr.Props.C32.get_collisions_returns",
    "Lgr.Props.C32.cached_label_collides_with_itself",
    "Lgr.Props.C32.cached_label_assertion"
   ],
   "note": "Index and disposition computations are parameters (every index function). Sets of labels in any order, TLDs, variants and keep/quiet options included; with cached indexes overlapping the labels the claim fails (cached_label_collides_with_itself, cached_label_assertion)."
  },
  {
   "property": "C33",
   "status": "partial",
   "theorems": [
    "Lgr.Props.C33.dump_collisions_partial",
    "Lgr.Props.C33.dump_lists_twice",
    "Lgr.Props.C33.dump_tlds"
   ],
   "note": "Violated: with three or more colliding labels, a pair not involving the first is listed twice (dump_lists_twice). The exact number of times is proved."
  },
  {
   "property": "C34",
   "status": "partial",
   "theorems": [
    "Lgr.Props.C34.data_round_trip_partial",
    "Lgr.Props.C34.history_round_trip_partial",
    "Lgr.Props.C34.deleted_member_returns",
    "Lgr.Props.C34.tags_change",
    "Lgr.Props.C34.control_character"
   ],
   "note": "Reading what was written gives back every entry (range, attributes, variants in order), the ranges, tag classes and types, and the same document when written again, for LGRs with intact ranges and entries whose names can be written; violated by a member of a range deleted alone (comes back), tags with spaces or empty (split, lost), control characters (ValueError)."
  },
  {
   "property": "C35",
   "status": "proved",
   "theorems": [
    "Lgr.Props.C35.hex_round_trip",
    "Lgr.Props.C35.hex_injective",
    "Lgr.Props.C35.parse_hex_iff",
    "Lgr.Props.C35.cp_attribute_round_trip",
    "Lgr.Props.C35.format_cp_round_trip",
    "Lgr.Props.C35.plain_round_trip",
    "Lgr.Props.C35.out_of_range_rejected",
    "Lgr.Props.C35.string_list_round_trip"
   ],
   "note": "Code point notation round trips for every code point and sequence; a text is read as a number iff it spells it in hexadecimal."
  },
  {
   "property": "C36",
   "status": "partial",
   "theorems": [
    "Lgr.Props.C36.bad_base_4290_partial",
    "Lgr.Props.C36.bad_base_3743_partial",
    "Lgr.Props.C36.stale_base",
    "Lgr.Props.C36.unbound_base",
    "Lgr.Props.C36.stale_base_3743",
    "Lgr.Props.C36.unbound_base_3743"
   ],
   "note": "Violated: a row with variants whose base cannot be read adds its variants to the previous code point, or raises UnboundLocalError. Proved for rows without variants; what is done with every file is C159 and C161."
  },
  {
   "property": "C37",
   "status": "partial",
   "theorems": [
    "Lgr.Props.C37.report_complete",
    "Lgr.Props.C37.raises_only_others",
    "Lgr.Props.C37.checks_after",
    "Lgr.Props.C37.same_checks_partial",
    "Lgr.Props.C37.history_dependence"
   ],
   "note": "Holds for a set of checks without state; the list CHECKS is a class-level list that grows with each object, so the checks run depend on history (history_dependence). Exceptions other than LGRException escape."
  },
  {
   "property": "C38",
   "status": "proved",
   "theorems": [
    "Lgr.Props.C38.overall_worst",
    "Lgr.Props.C38.line_exact",
    "Lgr.Props.C38.counts_add_up"
   ],
   "note": "Worst result, counts of every line, sum of the counts, for every list of reports."
  },
  {
   "property": "C39",
   "status": "proved",
   "theorems": [
    "Lgr.Props.C39.class_total",
    "Lgr.Props.C39.variant_total",
    "Lgr.Props.C39.checks_total",
    "Lgr.Props.C39.repertoire_total"
   ],
   "note": "No assertion, no missing result, for classes (any sets), repertoire (any characters), variants (any variant data, any iteration order)."
  },
  {
   "property": "C40",
   "status": "proved",
   "theorems": [
    "Lgr.Props.C40.check_range_no_effect",
    "Lgr.Props.C40.check_range_classifies",
    "Lgr.Props.C40.check_range_raises"
   ],
   "note": "the check_cp of the validating repertoire is a parameter that may raise"
  },
  {
   "property": "C41",
   "status": "partial",
   "theorems": [
    "Lgr.Props.C41.hiding_only_removes",
    "Lgr.Props.C41.hidden_scripts",
    "Lgr.Props.C41.one_script_partial",
    "Lgr.Props.C41.mixed_variant_not_hidden"
   ],
   "note": "first half (hiding only removes) proved in full; second half false for a variant sequence mixing scripts (mixed_variant_not_hidden), proved for variants each in one script"
  },
  {
   "property": "C42",
   "status": "partial",
   "theorems": [
    "Lgr.C42.validate_exact",
    "Lgr.C42.class_set_exact",
    "Lgr.C42.class_total",
    "Lgr.C42.classes_denote",
    "Lgr.C42.sets_unique",
    "Lgr.C42.undefined_reference_raises",
    "Lgr.C42.undefined_tag_empty",
    "Lgr.C42.history_denotes",
    "Lgr.C42.redefinition_breaks",
    "Lgr.C42.history_tags_exact"
   ],
   "note": "Evaluation is exact for all class expressions and total after any history that defines no name twice; redefining a name can make definitions circular (redefinition_breaks)."
  },
  {
   "property": "C43",
   "status": "partial",
   "theorems": [
    "Lgr.Props.C43.del_range_exact",
    "Lgr.Props.C43.del_range_partial",
    "Lgr.Props.C43.add_after_del",
    "Lgr.Props.C43.del_range_not_atomic"
   ],
   "note": "Success deletes exactly the range and it can be re-added; raising without change is false in the code when a code point of the range was deleted individually (del_range_not_atomic)."
  },
  {
   "property": "C44",
   "status": "partial",
   "theorems": [
    "Lgr.Props.C44.annotate_reports_partial",
    "Lgr.Props.C44.annotate_exact_of_checked_set",
    "Lgr.Props.C44.annotate_reports_unrelated"
   ],
   "note": "Violated: two colliding labels inside the set make every label be reported (annotate_reports_unrelated). Exact characterisation proved, and the claim for a set without internal collision."
  },
  {
   "property": "C45",
   "status": "partial",
   "theorems": [
    "Lgr.Props.C45.merge_code_points",
    "Lgr.Props.C45.merge_variants_partial",
    "Lgr.Props.C45.merge_variants",
    "Lgr.Props.C45.merge_no_other_variants",
    "Lgr.Props.C45.merge_raises_wrong",
    "Lgr.Props.C45.merge_context_wrong"
   ],
   "note": "Whenever merge_lgr_set returns: the code points are exactly the union, every variant of every LGR is there (blocked, contexts prefixed, if no rule name begins with the prefix of a script of the set), nothing else but variants within one variant set. Violated otherwise: it raises on variant sets sharing two members and differing in others (merge_raises_wrong) and can lose a context (merge_context_wrong)."
  },
  {
   "property": "C46",
   "status": "partial",
   "theorems": [
    "Lgr.Props.C46.harmonize_exact",
    "Lgr.Props.C46.harmonize_exact_root",
    "Lgr.Props.C46.harmonize_keeps",
    "Lgr.Props.C46.harmonize_common",
    "Lgr.Props.C46.harmonize_agree_partial",
    "Lgr.Props.C46.harmonize_closed",
    "Lgr.Props.C46.harmonize_terminates",
    "Lgr.Props.C46.agree_wrong",
    "Lgr.Props.C46.harmonize_returns"
   ],
   "note": "Exact code points and variant pairs of both results (graph operation), with and without root zone LGR; nothing lost; common variants present in both; both results symmetric and transitive; termination; normal return for LGRs not checked against IDNA with well formed variants. Equality of the variants of common code points proved for symmetric and transitive inputs or with a root zone LGR, and refuted in general (agree_wrong)."
  },
  {
   "property": "C47",
   "status": "partial",
   "theorems": [
    "Lgr.Props.C47.keeps_own_script_partial",
    "Lgr.Props.C47.digits_hide_all_variants"
   ],
   "note": "false: Common/Inherited code points after the first character hide all variants (digits_hide_all_variants); proved for the other scripts"
  },
  {
   "property": "C48",
   "status": "proved",
   "theorems": [
    "Lgr.Props.C48.listed_disposition",
    "Lgr.Props.C48.every_variant_listed"
   ],
   "note": ""
  },
  {
   "property": "C49",
   "status": "partial",
   "theorems": [
    "Lgr.Props.C49.reflexive_disposition",
    "Lgr.Props.C49.rejected_disposition",
    "Lgr.Props.C49.from_segmentation_partial",
    "Lgr.Props.C49.inner_character_counts"
   ],
   "note": "false with sequences: entries occurring inside a sequence count (inner_character_counts); exact outcome proved for every repertoire (reflexive_disposition), the property for single code point entries"
  },
  {
   "property": "C50",
   "status": "proved",
   "theorems": [
    "Lgr.Props.C50.add_cp_ok_iff",
    "Lgr.Props.C50.add_cp_effect",
    "Lgr.Props.C50.del_cp_effect",
    "Lgr.Props.C50.add_variant_ok_iff",
    "Lgr.Props.C50.add_variant_effect",
    "Lgr.Props.C50.del_variant_effect"
   ],
   "note": "acceptance conditions as iff, and effects"
  },
  {
   "property": "C51",
   "status": "partial",
   "theorems": [
    "Lgr.Props.C51.mentioned_defined_partial",
    "Lgr.Props.C51.del_reference_atomic_partial",
    "Lgr.Props.C51.dangling"
   ],
   "note": "Over every history without forced duplicates. False with force: duplicate references leave a dangling mention after del_reference (dangling)."
  },
  {
   "property": "C52",
   "status": "partial",
   "theorems": [
    "Lgr.Props.C52.basic_symmetry_recorded",
    "Lgr.Props.C52.strict_symmetry_recorded",
    "Lgr.Props.C52.transitivity_recorded_partial",
    "Lgr.Props.C52.transitivity_recorded_wrongly"
   ],
   "note": "Symmetry part proved. Transitivity part is violated by the code (a variant outside the repertoire fails the check but is recorded as passed): negation proved, and the exact record proved."
  },
  {
   "property": "C53",
   "status": "proved",
   "theorems": [
    "Lgr.Props.C53.populate_rules_symmetric"
   ],
   "note": "For every LGR with the class invariant; the empty string is no rule (as for the code)."
  },
  {
   "property": "C54",
   "status": "partial",
   "theorems": [
    "Lgr.Props.C54.union_self_partial",
    "Lgr.Props.C54.union_self_loses_rules",
    "Lgr.Props.C54.intersect_self_loses_types"
   ],
   "note": "Entries, comments, tags and variants kept by self-union; violated for context rules (union_self_loses_rules) and for types in the self-intersection (intersect_self_loses_types)."
  },
  {
   "property": "C55",
   "status": "partial",
   "theorems": [
    "Lgr.Props.C55.union_actions_dispositions",
    "Lgr.Props.C55.union_actions_exact",
    "Lgr.Props.C55.union_actions_out_of_step"
   ],
   "note": "Actions proved exact and disposition preserving; violated for the XML list (union_actions_out_of_step)."
  },
  {
   "property": "C56",
   "status": "partial",
   "theorems": [
    "Lgr.Props.C56.intersect_actions_partial",
    "Lgr.Props.C56.intersect_actions_returns",
    "Lgr.Props.C56.intersect_actions_reorders"
   ],
   "note": "Actions and XML exact as sets; order is lost, changing dispositions (intersect_actions_reorders)."
  },
  {
   "property": "C57",
   "status": "partial",
   "theorems": [
    "Lgr.Props.C57.union_named_partial",
    "Lgr.Props.C57.intersect_named_partial",
    "Lgr.Props.C57.union_named_returns",
    "Lgr.Props.C57.union_dangling",
    "Lgr.Props.C57.union_collides"
   ],
   "note": "Exact names and XML; violated: dangling names and collisions."
  },
  {
   "property": "C58",
   "status": "proved",
   "theorems": [
    "Lgr.Props.C58.union_references",
    "Lgr.Props.C58.intersect_references"
   ],
   "note": ""
  },
  {
   "property": "C59",
   "status": "partial",
   "theorems": [
    "Lgr.Props.C59.union_metadata_partial",
    "Lgr.Props.C59.intersect_metadata_partial",
    "Lgr.Props.C59.metadata_violations"
   ],
   "note": "Languages and validity period exact; violated for scopes, version and Unicode version (metadata_violations)."
  },
  {
   "property": "C60",
   "status": "proved",
   "theorems": [
    "Lgr.Props.C60.memo_fresh",
    "Lgr.Props.C60.scripts_fresh"
   ],
   "note": "memo_fresh: for every memoised method whose texts of attribute and arguments are injective; scripts_fresh: get_scripts, the only one, with the texts CPython gives (strings without lone surrogates)."
  },
  {
   "property": "C61",
   "status": "partial",
   "theorems": [
    "Lgr.Props.C61.validate_date_iff",
    "Lgr.Props.C61.force_accepts_partial",
    "Lgr.Props.C61.date_overflow",
    "Lgr.Props.C61.iso_lt"
   ],
   "note": "Exact without force; with force an OverflowError is possible (date_overflow)."
  },
  {
   "property": "C62",
   "status": "partial",
   "theorems": [
    "Lgr.Props.C62.add_language_iff",
    "Lgr.Props.C62.set_languages_partial",
    "Lgr.Props.C62.set_languages_accepts_invalid"
   ],
   "note": "add_language exact; set_languages exact for ASCII tags, violated otherwise."
  },
  {
   "property": "C63",
   "status": "partial",
   "theorems": [
    "Lgr.C63.pattern_exact",
    "Lgr.C63.rule_exact",
    "Lgr.C63.agrees_exists",
    "Lgr.C63.meaning_exists",
    "Lgr.C63.meaning_unique",
    "Lgr.C63.history_rule_exact",
    "Lgr.C63.empty_class_matches",
    "Lgr.C63.empty_classes_never_match"
   ],
   "note": "Exact for labels of at most 63 code points and rules without empty classes; a class without code points is dropped from the pattern (empty_class_matches)."
  },
  {
   "property": "C64",
   "status": "partial",
   "theorems": [
    "Lgr.C64.context_rule_exact",
    "Lgr.C64.history_context_exact",
    "Lgr.C64.empty_class_wrong",
    "Lgr.C64.long_label_wrong"
   ],
   "note": "Exact for labels of at most 63 code points and rules without empty classes; violated otherwise: a look-ahead for an empty class holds everywhere (empty_class_wrong), and a look-behind does not see more than 63 repetitions (long_label_wrong)."
  },
  {
   "property": "C65",
   "status": "partial",
   "theorems": [
    "Lgr.C65.cache_transparent_partial",
    "Lgr.C65.answer_exact",
    "Lgr.C65.cache_stale"
   ],
   "note": "Holds as long as no name is defined again and tags do not change; violated when a code point is tagged after a match (cache_stale)."
  },
  {
   "property": "C66",
   "status": "partial",
   "theorems": [
    "Lgr.C66.matching_total_partial",
    "Lgr.C66.pattern_total",
    "Lgr.C66.count_order_unchecked",
    "Lgr.C66.long_count_in_look_behind",
    "Lgr.C66.redefinition_recurses"
   ],
   "note": "Holds if no name is defined twice and counts are in order; violated for counts such as 2:1, 64+ in a look-behind, and circular redefinitions."
  },
  {
   "property": "C67",
   "status": "partial",
   "theorems": [
    "Lgr.C67.forced_kept_partial",
    "Lgr.C67.forced_kept_with_database_partial",
    "Lgr.C67.forced_parse_depends_on_database"
   ],
   "note": "Holds without a Unicode database, and with one for rules whose patterns can be calculated; violated otherwise."
  },
  {
   "property": "C68",
   "status": "proved",
   "theorems": [
    "Lgr.Props.C68.conditional_exact"
   ],
   "note": "For every LGR reached by a history in which ranges stay intact."
  },
  {
   "property": "C69",
   "status": "partial",
   "theorems": [
    "Lgr.Props.C69.entries_counted",
    "Lgr.Props.C69.variants_counted",
    "Lgr.Props.C69.tags_counted_partial",
    "Lgr.Props.C69.largest_range",
    "Lgr.Props.C69.largest_sequence",
    "Lgr.Props.C69.largest_set",
    "Lgr.Props.C69.deleted_member_counted",
    "Lgr.Props.C69.forced_tag_counted_twice"
   ],
   "note": "Counts are exact when ranges are intact and no tag is forced twice; otherwise violated (deleted_member_counted, forced_tag_counted_twice)."
  },
  {
   "property": "C70",
   "status": "partial",
   "theorems": [
    "Lgr.Props.C70.data_exact",
    "Lgr.Props.C70.rules_exact",
    "Lgr.Props.C70.misc_exact_partial",
    "Lgr.Props.C70.no_database",
    "Lgr.Props.C70.data_not_tested"
   ],
   "note": "Verdict and reported errors are exact with a Unicode database; violated without one (AttributeError), and a non-standard disposition keeps the data from being tested."
  },
  {
   "property": "C71",
   "status": "partial",
   "theorems": [
    "Lgr.Props.C71.metadata_exact",
    "Lgr.Props.C71.version_newline"
   ],
   "note": "Exact, except that the test of the version also accepts a final newline (version_newline) and whatever \\d matches."
  },
  {
   "property": "C72",
   "status": "partial",
   "theorems": [
    "Lgr.Props.C72.rebuild_exact_partial",
    "Lgr.Props.C72.no_database",
    "Lgr.Props.C72.readded_member_raises"
   ],
   "note": "Exact for LGRs with intact ranges and a database; violated without a database (AttributeError) and when a member of a range was deleted and added again (CharAlreadyExists)."
  },
  {
   "property": "C73",
   "status": "partial",
   "theorems": [
    "Lgr.Props.C73.table_exact_partial",
    "Lgr.Props.C73.meaning"
   ],
   "note": "Files in which no row has variants and an unreadable base (see C36); what is done with every file, those included, is C159."
  },
  {
   "property": "C74",
   "status": "partial",
   "theorems": [
    "Lgr.Props.C74.table_exact_partial"
   ],
   "note": "Rows written as sequences with references and comma-separated columns, white space allowed after commas and around columns. Rows with a space before a comma, semicolon or parenthesis are not read as written (C158); what is done with every file is C161."
  },
  {
   "property": "C75",
   "status": "proved",
   "theorems": [
    "Lgr.Props.C75.lines_exact",
    "Lgr.Props.C75.meaning"
   ],
   "note": ""
  },
  {
   "property": "C76",
   "status": "proved",
   "theorems": [
    "Lgr.Props.C76.choice_exact",
    "Lgr.Props.C76.xml_first"
   ],
   "note": "Regular expressions, not the reading and rewinding of the file."
  },
  {
   "property": "C77",
   "status": "proved",
   "theorems": [
    "Lgr.Props.C77.faithful",
    "Lgr.Props.C77.classes_functional",
    "Lgr.Props.C77.repertoire_functional",
    "Lgr.Props.C77.actions_functional",
    "Lgr.Props.C77.tags_functional",
    "Lgr.Props.C77.rules_functional",
    "Lgr.Props.C77.variant_sets_functional"
   ],
   "note": "Each remark goes with one result in every section of the report; then the lines of the summary speak for all they count."
  },
  {
   "property": "C78",
   "status": "partial",
   "theorems": [
    "Lgr.Props.C78.repertoire",
    "Lgr.Props.C78.classes",
    "Lgr.Props.C78.variant_sets",
    "Lgr.Props.C78.actions_partial",
    "Lgr.Props.C78.rules_partial",
    "Lgr.Props.C78.tag_partial",
    "Lgr.Props.C78.no_actions",
    "Lgr.Props.C78.two_tags",
    "Lgr.Props.C78.range_rule"
   ],
   "note": "Repertoire, classes, variant sets: proved for every LGR. Actions: sequence needs an action. Rules: without ranges. Tags: one tag. Violations: no actions, two languages, a context rule used in a range."
  },
  {
   "property": "C79",
   "status": "proved",
   "theorems": [
    "Lgr.Props.C79.verdict_exact",
    "Lgr.Props.C79.class_exact",
    "Lgr.Props.C79.report_exact"
   ],
   "note": "Entries and results, for any members and repertoires."
  },
  {
   "property": "C80",
   "status": "proved",
   "theorems": [
    "Lgr.Props.C80.compare_exact",
    "Lgr.Props.C80.report_exact",
    "Lgr.Props.C80.in_sequences_exact"
   ],
   "note": "Entries and results, for any well-formed repertoires and any iteration order on tags; membership in sequences."
  },
  {
   "property": "C81",
   "status": "proved",
   "theorems": [
    "Lgr.Props.C81.comparison_exact",
    "Lgr.Props.C81.sequence_exact"
   ],
   "note": "Comparison and order, for any lists of actions."
  },
  {
   "property": "C82",
   "status": "partial",
   "theorems": [
    "Lgr.Props.C82.rules_partial",
    "Lgr.Props.C82.range_context",
    "Lgr.Props.C82.range_subset"
   ],
   "note": "Violated: rules used on ranges are reported as mismatched or as of no concern. Proved for LGRs without ranges and with at most one context rule per code point."
  },
  {
   "property": "C83",
   "status": "partial",
   "theorems": [
    "Lgr.Props.C83.report_partial",
    "Lgr.Props.C83.check_exact",
    "Lgr.Props.C83.raises"
   ],
   "note": "Violated: IndexError if a label ends with a sequence of the repertoire. Proved for labels that do not (check_exact says exactly when it raises)."
  },
  {
   "property": "C84",
   "status": "partial",
   "theorems": [
    "Lgr.Props.C84.returns_partial",
    "Lgr.Props.C84.raises_sequence",
    "Lgr.Props.C84.raises_overlap"
   ],
   "note": "Violated: NotInLGR and KeyError witnesses. Proved for every table and symmetric reference."
  },
  {
   "property": "C85",
   "status": "partial",
   "theorems": [
    "Lgr.Props.C85.additional_partial",
    "Lgr.Props.C85.listed",
    "Lgr.Props.C85.range_lost"
   ],
   "note": "Violated: members of variant sets are listed; ranges count by their first code point. Proved without ranges and with variant sets inside the reference; otherwise what is listed is characterised."
  },
  {
   "property": "C86",
   "status": "partial",
   "theorems": [
    "Lgr.Props.C86.single_partial",
    "Lgr.Props.C86.each_kind_partial",
    "Lgr.Props.C86.match_wrong",
    "Lgr.Props.C86.reverse_wrong",
    "Lgr.Props.C86.unknown_wrong",
    "Lgr.Props.C86.remark_wrong"
   ],
   "note": "Violated for several variants of one kind per mapping, for mappings without reverse, and for remarks. Proved for one variant on each side, and for at most one variant of each kind (when, not-when, always) on each side: what each result means, and that result and remark do not depend on the order of iteration."
  },
  {
   "property": "C87",
   "status": "partial",
   "theorems": [
    "Lgr.Props.C87.report_partial",
    "Lgr.Props.C87.alone"
   ],
   "note": "Violated: with several sets in one set only some are compared. Proved for symmetric LGRs: all sets appear, equal identifiers are compared, sets with a unique counterpart are compared."
  },
  {
   "property": "C88",
   "status": "proved",
   "theorems": [
    "Lgr.Props.C88.checks_exact"
   ],
   "note": ""
  },
  {
   "property": "C89",
   "status": "proved",
   "theorems": [
    "Lgr.Props.C89.mappings_exact",
    "Lgr.Props.C89.mappings_once"
   ],
   "note": ""
  },
  {
   "property": "C90",
   "status": "partial",
   "theorems": [
    "Lgr.Props.C90.result_partial",
    "Lgr.Props.C90.asymmetric_wrong",
    "Lgr.Props.C90.reflexive_wrong"
   ],
   "note": "Violated for an asymmetric table and for reflexive mappings with several variants. Proved for symmetric LGRs and mappings between different code points, with one variant per mapping where both LGRs have it."
  },
  {
   "property": "C91",
   "status": "partial",
   "theorems": [
    "Lgr.Props.C91.relevant_exact",
    "Lgr.Props.C91.dest_partial",
    "Lgr.Props.C91.symmetric_partial",
    "Lgr.Props.C91.dest_wrong"
   ],
   "note": "Relevant repertoire: proved. dest_in_idn is violated for mappings of the reference only; proved what it means for symmetric LGRs. Symmetry: one variant per direction."
  },
  {
   "property": "C92",
   "status": "partial",
   "theorems": [
    "Lgr.Props.C92.comment_partial",
    "Lgr.Props.C92.comment_wrong"
   ],
   "note": "Violated: operator precedence keeps a non-empty comment unchanged."
  },
  {
   "property": "C93",
   "status": "partial",
   "theorems": [
    "Lgr.Props.C93.order_checks",
    "Lgr.Props.C93.ascending_without_sequences_partial",
    "Lgr.Props.C93.sequences_out_of_order"
   ],
   "note": "Exact condition for the check of ascending order; the strict one never fails; holds without sequences, violated with sequences sharing the first code point (iteration sorts by length only)."
  },
  {
   "property": "C94",
   "status": "partial",
   "theorems": [
    "Lgr.Props.C94.merge_references_faithful",
    "Lgr.Props.C94.merge_references_grows",
    "Lgr.Props.C94.merge_references_ok",
    "Lgr.Props.C45.merge_single_partial",
    "Lgr.Props.C45.merge_variant_references",
    "Lgr.Props.C45.merge_references_wrong"
   ],
   "note": "Proved for variants and for code points of a single LGR; violated for code points of several LGRs, whose references are not renamed (merge_references_wrong)."
  },
  {
   "property": "C95",
   "status": "proved",
   "theorems": [
    "Lgr.Props.C45.merge_tags"
   ],
   "note": "Tags must contain no space and not be empty, as in every document."
  },
  {
   "property": "C96",
   "status": "partial",
   "theorems": [
    "Lgr.Props.C96.merge_contexts_defined_partial",
    "Lgr.Props.C45.merge_contexts_wrong"
   ],
   "note": "Proved when no context is leading-combining-mark; violated for that rule (merge_contexts_wrong)."
  },
  {
   "property": "C97",
   "status": "partial",
   "theorems": [
    "Lgr.Props.C45.merge_variant_sets",
    "Lgr.Props.C45.merge_symmetric",
    "Lgr.Props.C45.merge_transitive_wrong"
   ],
   "note": "Variant sets and symmetry proved; transitivity violated (merge_transitive_wrong)."
  },
  {
   "property": "C98",
   "status": "proved",
   "theorems": [
    "Lgr.Props.C98.merge_contexts"
   ],
   "note": ""
  },
  {
   "property": "C99",
   "status": "partial",
   "theorems": [
    "Lgr.Props.C99.meta_round_trip_partial",
    "Lgr.Props.C99.meta_history_partial",
    "Lgr.Props.C99.empty_description_wrong",
    "Lgr.Props.C99.texts_wrong",
    "Lgr.Props.C99.unwritable_wrong"
   ],
   "note": "For every history of calls without force whose texts are not empty, allowed in XML and without carriage return, the section is written, read without failed check, and equal. False for other texts: an empty description makes the document unreadable, empty texts become None, duplicate languages are read once, line ends change, ']]>' cannot be written (negations proved)."
  }
 ]
}
