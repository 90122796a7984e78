{
 "claims": [
  {
   "property": "C01",
   "status": "proved",
   "theorems": [
    "JH.C01_text_roundtrip",
    "JH.C01_text_no_markup",
    "JH.C01_text_injective"
   ],
   "note": ""
  },
  {
   "property": "C02",
   "status": "proved",
   "theorems": [
    "JH.C02_attr_roundtrip",
    "JH.C02_attr_contained",
    "JH.C02_quote_choice"
   ],
   "note": ""
  },
  {
   "property": "C03",
   "status": "proved",
   "theorems": [
    "JH.C03_start_tag_roundtrip",
    "JH.C03_distinct_names",
    "JH.C03_values_without_minimization",
    "JH.C03_values_with_minimization"
   ],
   "note": ""
  },
  {
   "property": "C04",
   "status": "proved",
   "theorems": [
    "JH.C04_start_tag_names",
    "JH.C04_end_tag_names"
   ],
   "note": ""
  },
  {
   "property": "C05",
   "status": "proved",
   "theorems": [
    "JH.C05_comment_contained",
    "JH.C05_loop_terminates",
    "JH.C05_only_spaces_inserted",
    "JH.C05_plain_unchanged"
   ],
   "note": ""
  },
  {
   "property": "C06",
   "status": "proved",
   "theorems": [
    "JH.C06_pi_contained",
    "JH.C06_pi_data"
   ],
   "note": ""
  },
  {
   "property": "C07",
   "status": "proved",
   "theorems": [
    "JH.C07_doctype_contained",
    "JH.C07_doctype_token",
    "JH.C07_bad_name_dropped"
   ],
   "note": ""
  },
  {
   "property": "C08",
   "status": "partial",
   "theorems": [
    "JH.C08_no_end_tag",
    "JH.C08_idempotent",
    "JH.C08_serialized_text",
    "JH.C08_split_text_fails"
   ],
   "note": "False when the text is split over several text children (F3, C08_split_text_fails); proved for one text."
  },
  {
   "property": "C09",
   "status": "partial",
   "theorems": [
    "JH.C09_unchanged",
    "JH.C09_exact_partial",
    "JH.C09_text_kept_fails"
   ],
   "note": "False of the code (F2, C09_text_kept_fails): text before a look-alike end tag is dropped. Proved when every `</name` is a real end tag."
  },
  {
   "property": "C10",
   "status": "proved",
   "theorems": [
    "JH.C10_js_roundtrip",
    "JH.C10_js_contained",
    "JH.C10_js_bad_quote"
   ],
   "note": ""
  },
  {
   "property": "C11",
   "status": "proved",
   "theorems": [
    "JH.C11_roundtrip",
    "JH.C11_alphabet",
    "JH.C11_attr_form"
   ],
   "note": ""
  },
  {
   "property": "C12",
   "status": "proved",
   "theorems": [
    "JH.C12_document_order"
   ],
   "note": ""
  },
  {
   "property": "C13",
   "status": "partial",
   "theorems": [
    "JH.C13_decimal",
    "JH.C13_hexadecimal",
    "JH.C13_valid_char",
    "JH.C13_total_fails",
    "JH.C13_total_partial"
   ],
   "note": "Decoding is not total: `&#\u00b2;` raises (F1, C13_total_fails); total on all other texts."
  },
  {
   "property": "C14",
   "status": "proved",
   "theorems": [
    "JH.C14_no_amp_unchanged",
    "JH.C14_prefix_kept"
   ],
   "note": ""
  },
  {
   "property": "C15",
   "status": "proved",
   "theorems": [
    "JH.C15_fast",
    "JH.C15_scheme"
   ],
   "note": ""
  },
  {
   "property": "C16",
   "status": "partial",
   "theorems": [
    "JH.C16_characters",
    "JH.C16_relative_partial",
    "JH.C16_spaced_scheme_fails"
   ],
   "note": "False for a space inside an allowed scheme with allow_relative=False (F25, C16_spaced_scheme_fails); proved for values without a space."
  },
  {
   "property": "C17",
   "status": "proved",
   "theorems": [
    "JH.C17_hosts"
   ],
   "note": ""
  },
  {
   "property": "C18",
   "status": "partial",
   "theorems": [
    "JH.C18_strip",
    "JH.C18_proxy",
    "JH.C18_empty_fragment_fails",
    "JH.C18_proxy_scheme"
   ],
   "note": "A proxy URL that ends in `#` is accepted, and the original URL is then never sent (F26, C18_empty_fragment_fails)."
  },
  {
   "property": "C19",
   "status": "proved",
   "theorems": [
    "JH.C19_candidates",
    "JH.C19_all_or_nothing"
   ],
   "note": ""
  },
  {
   "property": "C20",
   "status": "proved",
   "theorems": [
    "JH.C20_items",
    "JH.C20_all_or_nothing"
   ],
   "note": ""
  },
  {
   "property": "C21",
   "status": "partial",
   "theorems": [
    "JH.C21_backslash_fails",
    "JH.C21_space_fails",
    "JH.C21_agree_partial"
   ],
   "note": "The two disagree for backslashes and inner spaces (F24); they agree on every other value."
  },
  {
   "property": "C22",
   "status": "partial",
   "theorems": [
    "JH.C22_navigation_partial",
    "JH.C22_prefix_fails",
    "JH.C22_nested_quote_fails"
   ],
   "note": "False for a delay that is no number (F9) and for nested quotes (F21); proved otherwise."
  },
  {
   "property": "C23",
   "status": "partial",
   "theorems": [
    "JH.C23_declarations",
    "JH.C23_functions_partial",
    "JH.C23_urls_partial",
    "JH.C23_boundaries",
    "JH.C23_comment_fails",
    "JH.C23_offset_fails"
   ],
   "note": "False with comments inside CSS strings (F23) and with U+0130 (F22); proved for values without these."
  },
  {
   "property": "C24",
   "status": "proved",
   "theorems": [
    "JH.C24_tags",
    "JH.C24_after_user_transforms"
   ],
   "note": ""
  },
  {
   "property": "C25",
   "status": "proved",
   "theorems": [
    "JH.C25_names",
    "JH.C25_addresses",
    "JH.C25_urls",
    "JH.C25_style"
   ],
   "note": ""
  },
  {
   "property": "C26",
   "status": "proved",
   "theorems": [
    "JH.C26_removed"
   ],
   "note": ""
  },
  {
   "property": "C27",
   "status": "partial",
   "theorems": [
    "JH.C27_no_foreign_partial",
    "JH.C27_unwrap_fails"
   ],
   "note": "False with `unwrap`/`escape` handling for a foreign element directly inside a removed one (F7, C27_unwrap_fails); proved for all other trees, and for every tree with `drop`."
  },
  {
   "property": "C28",
   "status": "proved",
   "theorems": [
    "JH.C28_dropped_content_gone",
    "JH.C28_dropped_element_gone"
   ],
   "note": ""
  },
  {
   "property": "C29",
   "status": "partial",
   "theorems": [
    "JH.C29_text_kept_partial",
    "JH.C29_trailing_fails"
   ],
   "note": "Everything after a foreign `script` or `style` is lost if no end tag was recorded for it, which for most policies is always so (F74, `C29_trailing_fails`); proved for trees without such elements, without foreign content directly inside removed elements, for unwrap and drop handling without raw text elements."
  },
  {
   "property": "C30",
   "status": "partial",
   "theorems": [
    "JH.C30_idempotent_partial",
    "JH.C30_hoisted_fails",
    "JH.C30_comment_fails",
    "JH.C30_rel_fails",
    "JH.C30_refresh_fails"
   ],
   "note": "False in four cases (F7, F8, F27, F21); proved outside them."
  },
  {
   "property": "C31",
   "status": "partial",
   "theorems": [
    "JH.C31_existing_kept_partial",
    "JH.C31_spaced_token_fails",
    "JH.C31_forced_partial"
   ],
   "note": "False for forced tokens with white space (F27); proved for proper tokens."
  },
  {
   "property": "C32",
   "status": "partial",
   "theorems": [
    "JH.C32_inert",
    "JH.C32_style_partial",
    "JH.C32_style_comment_fails"
   ],
   "note": "Style sheets with comments inside strings escape the check (F28); the rest is proved."
  },
  {
   "property": "C33",
   "status": "proved",
   "theorems": [
    "JH.C33_forest_every_history"
   ],
   "note": ""
  },
  {
   "property": "C34",
   "status": "proved",
   "theorems": [
    "JH.C34_raise_changes_nothing"
   ],
   "note": ""
  },
  {
   "property": "C35",
   "status": "proved",
   "theorems": [
    "JH.C35_deep_clone_equal",
    "JH.C35_clone_is_new",
    "JH.C35_clone_unaffected_by_original",
    "JH.C35_original_unaffected_by_clone"
   ],
   "note": ""
  },
  {
   "property": "C36",
   "status": "proved",
   "theorems": [
    "JH.C36_reset_sink",
    "JH.C36_strip",
    "JH.C36_raise",
    "JH.C36_collect"
   ],
   "note": ""
  },
  {
   "property": "C37",
   "status": "proved",
   "theorems": [
    "JH.C37_collect",
    "JH.C37_strict",
    "JH.C37_default",
    "JH.C37_bad_max"
   ],
   "note": ""
  },
  {
   "property": "C38",
   "status": "partial",
   "theorems": [
    "JH.C38_sanitizes_partial",
    "JH.C38_last",
    "JH.C38_disabled_fails"
   ],
   "note": "A disabled Sanitize in the list switches sanitizing off (F11, C38_disabled_fails); proved otherwise."
  },
  {
   "property": "C39",
   "status": "proved",
   "theorems": [
    "JH.C39_supported",
    "JH.C39_utf7"
   ],
   "note": ""
  },
  {
   "property": "C40",
   "status": "proved",
   "theorems": [
    "JH.C40_bom",
    "JH.C40_transport",
    "JH.C40_meta",
    "JH.C40_window",
    "JH.C40_comment",
    "JH.C40_meta_charset"
   ],
   "note": ""
  },
  {
   "property": "C41",
   "status": "proved",
   "theorems": [
    "JH.C41_stack_agrees_with_scan",
    "JH.C41_bottom_never_found"
   ],
   "note": ""
  },
  {
   "property": "C42",
   "status": "partial",
   "theorems": [
    "JH.C42_matches_sound_partial",
    "JH.C42_query_sound_partial",
    "JH.C42_not_fails",
    "JH.C42_cache_fails"
   ],
   "note": "False inside `:not` for chains that need backtracking or hit the cache (C42_not_fails, C42_cache_fails); proved otherwise."
  },
  {
   "property": "C43",
   "status": "partial",
   "theorems": [
    "JH.C43_matches_exact_partial",
    "JH.C43_matches_easy_partial",
    "JH.C43_query_exact_partial",
    "JH.C43_query_easy_partial",
    "JH.C43_greedy_fails",
    "JH.C43_cache_fails"
   ],
   "note": "False for chains that need backtracking (F12, C43_greedy_fails) and because of the shared cache (F33, C43_cache_fails); proved otherwise."
  },
  {
   "property": "C44",
   "status": "proved",
   "theorems": [
    "JH.C44_nth"
   ],
   "note": ""
  },
  {
   "property": "C45",
   "status": "proved",
   "theorems": [
    "JH.C45_parse_limits",
    "JH.C45_matches_work",
    "JH.C45_query_work",
    "JH.C45_tag_query_work",
    "JH.C45_matches_errors",
    "JH.C45_query_errors",
    "JH.C45_query_rounds",
    "JH.C45_query_test_spends",
    "JH.C45_ancestor_rounds",
    "JH.C45_text_rounds"
   ],
   "note": ""
  },
  {
   "property": "C46",
   "status": "proved",
   "theorems": [
    "JH.C46_matches_exact",
    "JH.C46_matches_disjoint"
   ],
   "note": ""
  },
  {
   "property": "C47",
   "status": "proved",
   "theorems": [
    "JH.C47_text_preserved",
    "JH.C47_href_scheme",
    "JH.C47_email_kind",
    "JH.C47_href_of_text",
    "JH.C47_href_ascii"
   ],
   "note": ""
  },
  {
   "property": "C48",
   "status": "partial",
   "theorems": [
    "JH.C48_no_lt",
    "JH.C48_amp",
    "JH.C48_special",
    "JH.C48_roundtrip",
    "JH.C48_text_document",
    "JH.C48_bang_link_fails",
    "JH.C48_no_html"
   ],
   "note": "`!` before a link makes an image of it (F17); the rest is proved."
  },
  {
   "property": "C49",
   "status": "partial",
   "theorems": [
    "JH.C49_fence",
    "JH.C49_span_line",
    "JH.C49_span_read_partial",
    "JH.C49_blank_span_fails",
    "JH.C49_quoted_cr_fails"
   ],
   "note": "False for a span of one line break (F16) and a `\\r` inside a quoted `pre` (F18); the rest is proved."
  },
  {
   "property": "C50",
   "status": "partial",
   "theorems": [
    "JH.C50_destination_partial",
    "JH.C50_backslash_fails",
    "JH.C50_control_fails"
   ],
   "note": "False for a final backslash and control characters (F19); the rest is proved."
  },
  {
   "property": "C51",
   "status": "partial",
   "theorems": [
    "JH.C51_glob_partial",
    "JH.C51_star_in_name_fails"
   ],
   "note": "False for attribute names that contain `*` (F15); proved for all others."
  },
  {
   "property": "C52",
   "status": "partial",
   "theorems": [
    "JH.C52_words_kept",
    "JH.C52_single_spaces",
    "JH.C52_not_trimmed",
    "JH.C52_idempotent",
    "JH.C52_pretty_collapse_fails"
   ],
   "note": "The pretty printer also removes no-break spaces (F14); the other function is proved."
  },
  {
   "property": "C53",
   "status": "partial",
   "theorems": [
    "JH.C53_stream_of_serialized",
    "JH.C53_stream_of_forest",
    "JH.C53_script_comment_fails"
   ],
   "note": "False for scripts with `<!--<script>` (F4); proved for every other tree."
  },
  {
   "property": "C54",
   "status": "proved",
   "theorems": [
    "JH.C54_sanitizer_ready",
    "JH.C54_normalized",
    "JH.C54_case",
    "JH.C54_attributes",
    "JH.C54_tags",
    "JH.C54_rejected"
   ],
   "note": ""
  },
  {
   "property": "C55",
   "status": "proved",
   "theorems": [
    "JH.C55_exact",
    "JH.C55_none_left",
    "JH.C55_idempotent"
   ],
   "note": ""
  },
  {
   "property": "C56",
   "status": "proved",
   "theorems": [
    "JH.C56_ascii_fold",
    "JH.C56_offsets"
   ],
   "note": ""
  },
  {
   "property": "C57",
   "status": "proved",
   "theorems": [
    "JH.C57_text_content",
    "JH.C57_text_stripped"
   ],
   "note": ""
  },
  {
   "property": "C58",
   "status": "proved",
   "theorems": [
    "JH.C58_no_new_elements"
   ],
   "note": ""
  },
  {
   "property": "C59",
   "status": "partial",
   "theorems": [
    "JH.C59_allowed_kept_partial",
    "JH.C59_trailing_fails",
    "JH.C59_no_foreign_raw_partial"
   ],
   "note": "False after a foreign `script` or `style` without recorded end tag (F74, `C59_trailing_fails`); proved for trees without one."
  },
  {
   "property": "C60",
   "status": "partial",
   "theorems": [
    "JH.C60_containment_acyclic_partial",
    "JH.C60_subtrees_are_trees_partial",
    "JH.C60_template_contents_fails"
   ],
   "note": "False after template contents were inserted elsewhere (F5, C60_template_contents_fails); proved for histories that never do that."
  },
  {
   "property": "C61",
   "status": "proved",
   "theorems": [
    "JH.C61_append_raises",
    "JH.C61_insert_raises",
    "JH.C61_remove_raises",
    "JH.C61_replace_raises",
    "JH.C61_append_effect",
    "JH.C61_append_fragment_effect",
    "JH.C61_insert_effect",
    "JH.C61_insert_fragment_effect",
    "JH.C61_insert_at_end",
    "JH.C61_remove_effect",
    "JH.C61_replace_effect"
   ],
   "note": ""
  },
  {
   "property": "C62",
   "status": "proved",
   "theorems": [
    "JH.C62_calls_finish",
    "JH.C62_deep_clone_finishes",
    "JH.C62_calls_finish_tidy"
   ],
   "note": ""
  },
  {
   "property": "C63",
   "status": "partial",
   "theorems": [
    "JH.C63_shallow_clone",
    "JH.C63_deep_clone_ignores_override",
    "JH.C63_deep_clone_override_fails"
   ],
   "note": "Deep clones ignore `override_attrs` (F29); the rest is proved."
  },
  {
   "property": "C64",
   "status": "proved",
   "theorems": [
    "JH.C64_query_document_order",
    "JH.C64_order_is_unique",
    "JH.C64_descendants_listed"
   ],
   "note": ""
  },
  {
   "property": "C65",
   "status": "proved",
   "theorems": [
    "JH.C65_tag_fast_path"
   ],
   "note": ""
  },
  {
   "property": "C66",
   "status": "proved",
   "theorems": [
    "JH.C66_query_compound_exact",
    "JH.C66_matches_compound_exact"
   ],
   "note": ""
  },
  {
   "property": "C67",
   "status": "proved",
   "theorems": [
    "JH.C67_nth_spelling",
    "JH.C67_contains_quoted",
    "JH.C67_contains_plain"
   ],
   "note": ""
  },
  {
   "property": "C68",
   "status": "proved",
   "theorems": [
    "JH.C68_spelling_is_parsed",
    "JH.C68_spelling_is_unique",
    "JH.C68_query_text",
    "JH.C68_matches_text"
   ],
   "note": ""
  },
  {
   "property": "C69",
   "status": "partial",
   "theorems": [
    "JH.C69_walk_partial",
    "JH.C69_endless_fails"
   ],
   "note": "The walk does not end if `a` is not a skip tag (F38, C69_endless_fails); proved otherwise."
  },
  {
   "property": "C70",
   "status": "proved",
   "theorems": [
    "JH.C70_bare_domain",
    "JH.C70_email_domain",
    "JH.C70_url_host",
    "JH.C70_protocol_relative"
   ],
   "note": ""
  },
  {
   "property": "C71",
   "status": "proved",
   "theorems": [
    "JH.C71_plain_url_found"
   ],
   "note": ""
  },
  {
   "property": "C72",
   "status": "partial",
   "theorems": [
    "JH.C72_raises_only_partial",
    "JH.C72_raises_fails"
   ],
   "note": "`1.2.3.\u00b2` raises (F10, C72_raises_fails); nothing else does."
  },
  {
   "property": "C73",
   "status": "partial",
   "theorems": [
    "JH.C73_pretty_reformats",
    "JH.C73_pretty_document",
    "JH.C73_pretty_refuses",
    "JH.C73_pretty_stream",
    "JH.C73_raw_mixed_fails"
   ],
   "note": "False for text beside other nodes in a hand-made raw text element (F43); proved otherwise."
  },
  {
   "property": "C74",
   "status": "partial",
   "theorems": [
    "JH.C74_words_joined_fails",
    "JH.C74_words_split_fails",
    "JH.C74_edges_fails",
    "JH.C74_text_only_partial"
   ],
   "note": "False in general (F41, F42); proved for elements with only text."
  },
  {
   "property": "C75",
   "status": "partial",
   "theorems": [
    "JH.Eng.C75_select_fails",
    "JH.Eng.C75_document_partial",
    "JH.Eng.C75_context_partial",
    "JH.Eng.C75_fragment_partial",
    "JH.Eng.C75_policy_partial"
   ],
   "note": "False for inputs with `<selectedcontent` (F49, C75_select_fails); proved for all other inputs: documents, and fragments in every context and namespace (the context element itself is shown to be gone at the end), also for custom policies (`C75_policy_partial`)."
  },
  {
   "property": "C76",
   "status": "partial",
   "theorems": [
    "JH.Eng.C76_adopted_fails",
    "JH.Eng.C76_document_partial",
    "JH.Eng.C76_fragment_partial"
   ],
   "note": "False for a link inside SVG that the adoption agency copies (F44, C76_adopted_fails); proved for inputs without `<svg`, `<math`, `<selectedcontent`."
  },
  {
   "property": "C77",
   "status": "proved",
   "theorems": [
    "JH.Eng.C77_no_comments",
    "JH.Eng.C77_no_doctype"
   ],
   "note": ""
  },
  {
   "property": "C78",
   "status": "proved",
   "theorems": [
    "JH.Props.C78_whole_input_read",
    "JH.Props.C78_round_reads",
    "JH.Props.C78_rest",
    "JH.Props.C78_attr_scan",
    "JH.Props.C78_skip_subtree"
   ],
   "note": ""
  },
  {
   "property": "C79",
   "status": "partial",
   "theorems": [
    "JH.Eng.C79_adopted_fails",
    "JH.Eng.C79_document_partial",
    "JH.Eng.C79_fragment_partial"
   ],
   "note": "False for the same input as C76 (F44, C79_adopted_fails); proved for inputs without `<svg`, `<math`, `<selectedcontent`."
  },
  {
   "property": "C80",
   "status": "proved",
   "theorems": [
    "JH.Eng.C80_document_names",
    "JH.Eng.C80_fragment_names"
   ],
   "note": ""
  },
  {
   "property": "C81",
   "status": "partial",
   "theorems": [
    "JH.Eng.Props.C81_raw_fragment",
    "JH.Eng.Props.C81_raw_stable",
    "JH.Eng.Props.C81_injective",
    "JH.Eng.Props.C81_pre_fails",
    "JH.Eng.Props.C81_comment_fails",
    "JH.Eng.Props.C81_boolean_fails"
   ],
   "note": "False for `pre` with a leading line feed, for comments starting with `!>` and for boolean attributes equal to their name (F50-F52, C81_pre_fails, C81_comment_fails, C81_boolean_fails); proved for ordinary content."
  },
  {
   "property": "C82",
   "status": "proved",
   "theorems": [
    "JH.Eng.Props.C82_safe_fragment",
    "JH.Eng.Props.C82_stable"
   ],
   "note": "`C82_stable` excludes inputs with `<svg`, `<math`, `<selectedcontent` and `<noframes`, for which the policy itself fails or is not proved. As in C81 the nesting conditions cover ordinary content only."
  },
  {
   "property": "C83",
   "status": "partial",
   "theorems": [
    "JH.Eng.Props.C83_text_partial",
    "JH.Eng.Props.C83_document_attrs_partial",
    "JH.Eng.Props.C83_fragment_attrs_partial",
    "JH.Eng.Props.C83_adopted_fails"
   ],
   "note": "False for attributes in inputs with SVG (F44). Texts: the tag `noframes` is excluded, because its text is not filtered in a frameset with foreign content; whether such a state can be reached is open."
  },
  {
   "property": "C84",
   "status": "proved",
   "theorems": [
    "JH.C84_drop_tags",
    "JH.C84_drop",
    "JH.C84_drop_names",
    "JH.C84_drop_other",
    "JH.C84_gone_aux",
    "JH.C84_none_left"
   ],
   "note": "Selectors that look at the surroundings are not covered. Elements have names that can be written in markup."
  },
  {
   "property": "C85",
   "status": "partial",
   "theorems": [
    "JH.C85_text",
    "JH.C85_unwrap_partial",
    "JH.C85_nested_fails"
   ],
   "note": "False for matches directly inside matches (F54): `C85_nested_fails`; without them it is exact. The text is kept in any case."
  },
  {
   "property": "C86",
   "status": "partial",
   "theorems": [
    "JH.C86_only_attrs",
    "JH.C86_values_partial",
    "JH.C86_boolean_fails"
   ],
   "note": "A value-less attribute (`None`) that is missing is not added (F57): `C86_boolean_fails`."
  },
  {
   "property": "C87",
   "status": "proved",
   "theorems": [
    "JH.C87_empty",
    "JH.C87_escape",
    "JH.C87_decide",
    "JH.C87_decide_all",
    "JH.C87_decide_chain"
   ],
   "note": "For `*` the callback must keep what is not an element."
  },
  {
   "property": "C88",
   "status": "partial",
   "theorems": [
    "JH.C88_edit_attrs",
    "JH.C88_drop_attrs_partial",
    "JH.C88_drop_attrs_shape",
    "JH.C88_case_fails",
    "JH.C88_merge_attrs",
    "JH.C88_merge_others",
    "JH.C88_merge_shape",
    "JH.C88_allowlist_partial",
    "JH.C88_allowlist_shape"
   ],
   "note": "Attribute names in lower case and not blank, as the parser makes them; otherwise names are rewritten: `C88_case_fails`."
  },
  {
   "property": "C89",
   "status": "partial",
   "theorems": [
    "JH.C89_trailing_fails",
    "JH.C89_comments",
    "JH.C89_doctype",
    "JH.C89_foreign",
    "JH.C89_foreign_partial"
   ],
   "note": "DropForeignNamespaces also removes all following siblings of a foreign element that contains a `script` or `style` whose end tag was not recorded: `C89_foreign` is exact, `C89_trailing_fails` the limit (F74)."
  },
  {
   "property": "C90",
   "status": "partial",
   "theorems": [
    "JH.C90_exact_partial",
    "JH.C90_none_left",
    "JH.C90_text",
    "JH.C90_idempotent",
    "JH.C90_doctype_fails"
   ],
   "note": "The selectors are assumed to match no doctypes (`C90_doctype_fails`, F58)."
  },
  {
   "property": "C91",
   "status": "proved",
   "theorems": [
    "JH.C91_exact",
    "JH.C91_text",
    "JH.C91_only_texts",
    "JH.C91_single_spaces",
    "JH.C91_skipped",
    "JH.C91_not_idempotent"
   ],
   "note": "Not idempotent (F56, `C91_not_idempotent`), which the property does not claim."
  },
  {
   "property": "C92",
   "status": "partial",
   "theorems": [
    "JH.C92_apart",
    "JH.C92_edit_document",
    "JH.C92_one_after_the_other_partial",
    "JH.C92_stages",
    "JH.C92_own_stages",
    "JH.C92_disabled",
    "JH.C92_unwrap_fails",
    "JH.C92_decide_fails",
    "JH.C92_edit_fails"
   ],
   "note": "Proved for the transforms in `OneByOne`. False for transforms that hoist contents (F53, `C92_unwrap_fails`), for neighbouring decisions with one selector (F55, `C92_decide_fails`) and neighbouring edits of attributes with a selector that looks at attributes (F59, `C92_edit_fails`)."
  },
  {
   "property": "C93",
   "status": "proved",
   "theorems": [
    "JH.C93_tags",
    "JH.C93_attrs",
    "JH.C93_urls",
    "JH.C93_style",
    "JH.C93_removed",
    "JH.C93_order_matters"
   ],
   "note": "Transforms after `Sanitize` can put anything back (`C93_order_matters`)."
  },
  {
   "property": "C94",
   "status": "proved",
   "theorems": [
    "JH.Eng.C94_tree",
    "JH.Eng.C94_tree_policy",
    "JH.Eng.C94_whole"
   ],
   "note": "Not claimed: that the `parent` of the root is `None`. A context with the internal namespace `justhtml-parser-only` is excluded. The model puts a new node only under an older one (`St.older`), as in Python the new object cannot be known elsewhere yet. `C94_tree_policy`: custom policies that allow `input`, `option` or `selectedcontent` are outside the claim."
  },
  {
   "property": "C95",
   "status": "proved",
   "theorems": [
    "JH.C95_shorthand",
    "JH.C95_unambiguous"
   ],
   "note": "a regular expression of the serializer ends with `$`, so the specification of an attribute name allows one line feed at its end (F61)"
  },
  {
   "property": "C96",
   "status": "proved",
   "theorems": [
    "JH.C96_children",
    "JH.C96_total",
    "JH.C96_element",
    "JH.C96_distinct",
    "JH.C96_serializes"
   ],
   "note": "names are compared as they are, so `id` and `ID` count as different (F60)"
  },
  {
   "property": "C97",
   "status": "partial",
   "theorems": [
    "JH.C97_scheme",
    "JH.C97_host",
    "JH.C97_attribute",
    "JH.C97_unescaped_attribute_fails",
    "JH.C97_meaning_partial",
    "JH.C97_meaning_fails",
    "JH.C97_proxy_fails",
    "JH.C97_raises",
    "JH.C97_js"
   ],
   "note": "a text that already contains percent escapes is encoded again (F62), and so is the target of a proxy URL (F63): the meaning is not preserved. `C97_unescaped_attribute_fails` records that the documented `escape_attr_value` step is necessary (F64)"
  },
  {
   "property": "C98",
   "status": "proved",
   "theorems": [
    "JH.C98_js",
    "JH.C98_attr",
    "JH.C98_url",
    "JH.C98_bad_quote",
    "JH.C98_text_in_js",
    "JH.C98_url_in_js"
   ],
   "note": ""
  },
  {
   "property": "C99",
   "status": "partial",
   "theorems": [
    "JH.C99_raise",
    "JH.C99_collect",
    "JH.C99_tags_partial",
    "JH.C99_foreign_partial",
    "JH.C99_other_partial",
    "JH.C99_attributes_partial",
    "JH.C99_style_declarations_fails",
    "JH.C99_blank_name_fails",
    "JH.C99_escaped_comment_fails",
    "JH.C99_quoted",
    "JH.C99_nothing_silent",
    "JH.C99_no_false_alarm",
    "JH.C99_trailing_fails"
   ],
   "note": "False after foreign `script` and `style`: what follows them is removed without a report (F74, `C99_trailing_fails`). False for single declarations of a style of which others survive (F65, `C99_style_declarations_fails`), for attributes with a blank name (F66, `C99_blank_name_fails`) and for comments in escape mode, which become text (F67, `C99_escaped_comment_fails`). Rewritten URLs, normalized styles and the forced `rel` are changes that are never reported; `KeptAttrs` says what may change."
  },
  {
   "property": "C100",
   "status": "partial",
   "theorems": [
    "JH.Eng.C100_where",
    "JH.Eng.C100_bounded",
    "JH.Eng.C100_nulls",
    "JH.Eng.C100_doctype",
    "JH.Eng.C100_tags",
    "JH.Eng.C100_cut",
    "JH.Eng.C100_unfinished",
    "JH.Eng.C100_written",
    "JH.Eng.C100_raw_fails",
    "JH.Eng.C100_quote_fails",
    "JH.Eng.C100_first_fails",
    "JH.Eng.C100_comment_fails"
   ],
   "note": "The scan knows no raw text, no CDATA and no attribute names with quotation marks: `C100_raw_fails` (F68), `C100_quote_fails` (F69). NULs are counted first, so with a limit the first error can be missing (F70, `C100_first_fails`). `---!>` does not end a comment (F71, `C100_comment_fails`). `C100_unfinished` leaves out inputs with `\u0130`, where the code goes on after the wrong number of characters."
  },
  {
   "property": "C101",
   "status": "partial",
   "theorems": [
    "JH.C101_present_partial",
    "JH.C101_reuse",
    "JH.C101_never_more",
    "JH.C101_case_fails",
    "JH.C101_style_fails"
   ],
   "note": "Proved for tidy fields (lower-case names, CSS properties listed if `style` is allowed). An edit is not normalized and the comparison ignores case (F72, `C101_case_fails`); an edit may allow `style` without CSS properties, which the constructor refuses (F73, `C101_style_fails`). For any edits, `C101_never_more`"
  },
  {
   "property": "C102",
   "status": "proved",
   "theorems": [
    "JH.C102_removing",
    "JH.C102_tags",
    "JH.C102_attrs",
    "JH.C102_urls",
    "JH.C102_removed"
   ],
   "note": "Decide callbacks that unwrap or escape hand-made objects named like a text node (`#\u2026`) are excluded; no parser makes them"
  },
  {
   "property": "C103",
   "status": "partial",
   "theorems": [
    "JH.C103_lines",
    "JH.C103_block",
    "JH.C103_texts",
    "JH.C103_text_content",
    "JH.C103_inline",
    "JH.C103_br_fails"
   ],
   "note": "Text inside a `br` element, which only trees built by hand have, is lost (F75, `C103_br_fails`)"
  },
  {
   "property": "C104",
   "status": "proved",
   "theorems": [
    "JH.C104_total",
    "JH.C104_unsanitized",
    "JH.C104_two_steps",
    "JH.C104_policy",
    "JH.C104_custom",
    "JH.C104_listed"
   ],
   "note": "Except the compiled path (default policy, no transforms), whose theorems are C75, C76 and C79. With transforms before `Sanitize`, elements named like a text node (`#...`), which only callbacks can make, are exempt. A disabled `Sanitize` counts as one (F11)."
  },
  {
   "property": "C105",
   "status": "partial",
   "theorems": [
    "JH.C105_allow_tags",
    "JH.C105_ends",
    "JH.C105_safe",
    "JH.C105_plain",
    "JH.C105_cleanup_removes",
    "JH.C105_cleanup_pruned",
    "JH.C105_links_fails"
   ],
   "note": "Partial: `--cleanup` leaves links without an address that stand in links without an address (C105_links_fails, F76). Reading files, `argparse`, `--version` and decoding errors are outside the model. Without `--allow-tags` and `--cleanup` the tree is that of the compiled parser (C105_plain), whose safety is C75, C76 and C79."
  },
  {
   "property": "C106",
   "status": "proved",
   "theorems": [
    "JH.C106_elements",
    "JH.C106_policy",
    "JH.C106_sanitized",
    "JH.C106_default"
   ],
   "note": "The elements whose text is written as it is (`script`, `style`, `iframe`, `noembed`, `noframes`, `plaintext`, `xmp`) are excluded, as are comments and doctype names with `<`. For attributes see C107."
  },
  {
   "property": "C107",
   "status": "proved",
   "theorems": [
    "JH.C107_attributes",
    "JH.C107_policy",
    "JH.C107_sanitized",
    "JH.C107_default"
   ],
   "note": "Excluded as in C106, and trees with `svg` or `math`, whose attributes are adjusted. Fragments are covered in the default context and in `html`."
  },
  {
   "property": "C108",
   "status": "proved",
   "theorems": [
    "JH.C108_sent",
    "JH.C108_only",
    "JH.C108_odd"
   ],
   "note": "Proxy URLs with a `#` are excluded (C18_empty_fragment_fails)."
  },
  {
   "property": "C109",
   "status": "partial",
   "theorems": [
    "JH.Eng.C109_batch_partial",
    "JH.Eng.C109_always_partial",
    "JH.Eng.C109_any_order_partial",
    "JH.Eng.C109_tree_partial",
    "JH.Eng.C109_document_partial",
    "JH.Eng.C109_fragment_partial",
    "JH.Eng.C109_policy_partial",
    "JH.Eng.C109_allowed_partial"
   ],
   "note": "Missing: inputs with a template tag that the policy does not allow. There the parser keeps the template as a node of its own outside the tree, whose list of children is not updated when they move; 9000 random inputs of that sort showed no difference."
  },
  {
   "property": "C110",
   "status": "partial",
   "theorems": [
    "JH.C110_text_partial",
    "JH.C110_paragraphs_partial",
    "JH.C110_fails",
    "JH.C110_split_fails",
    "JH.C110_item_fails"
   ],
   "note": "Missing: texts with line breaks, form feeds or carriage returns, and the lines in `Overlooked` (two to six `#`, a lone bullet or number, `--`): there the claim is false (`C110_fails`, `C110_split_fails`, `C110_item_fails`)."
  },
  {
   "property": "C111",
   "status": "partial",
   "theorems": [
    "JH.C111_words_partial",
    "JH.C111_em_fails",
    "JH.C111_list_fails"
   ],
   "note": "The content of emphasis or a link has a builder of its own with a second invariant (`ReadsI`: its text is white space, or white space, a core on one line, and white space again, which the flags `lead` and `pend` record); `em_gen` and `link_gen` put it back in a place of either kind. Missing: emphasis and links over a line break (`C111_em_fails`), addresses with other characters (C50 covers how they are written), quotes, code and images. Text in a list outside its items is not written (`C111_list_fails`), and the specification leaves it out."
  }
 ]
}