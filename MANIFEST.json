{
 "claims": [
  {
   "property": "C01",
   "status": "proved",
   "theorems": [
    "Xmq.Props.C01_encode_is_rfc3629",
    "Xmq.Props.C01_decode_encode"
   ],
   "note": ""
  },
  {
   "property": "C02",
   "status": "partial",
   "theorems": [
    "Xmq.Props.C02_decode_consumes_within",
    "Xmq.Props.C02_decode_local",
    "Xmq.Props.C02_canonical_false",
    "Xmq.Props.C02_canonical_partial",
    "Xmq.Props.C02_canonical_iff"
   ],
   "note": "Bounds and locality hold for all input; re-encoding fails for overlong forms (proved false), holds exactly for shortest forms inside of Unicode (C02_canonical_iff)."
  },
  {
   "property": "C03",
   "status": "proved",
   "theorems": [
    "Xmq.Props.C03_quote_read_back",
    "Xmq.Props.C03_never_two",
    "Xmq.Props.C03_minimal"
   ],
   "note": ""
  },
  {
   "property": "C04",
   "status": "proved",
   "theorems": [
    "Xmq.Props.C04_comment_read_back",
    "Xmq.Props.C04_minimal"
   ],
   "note": "Covers comments of any number of lines in the printed form; the compact single line form does not use the computed count, see C36."
  },
  {
   "property": "C05",
   "status": "proved",
   "theorems": [
    "Xmq.Props.C05_bare_value_read_back",
    "Xmq.Props.C05_bare_value_plain"
   ],
   "note": ""
  },
  {
   "property": "C06",
   "status": "partial",
   "theorems": [
    "Xmq.Props.C06_compact_quote_lossless_partial",
    "Xmq.Props.C06_false",
    "Xmq.Props.C06_false_leading_space",
    "Xmq.Props.C06_false_quotes",
    "Xmq.Props.C06_false_triple_quote",
    "Xmq.Props.C06_false_tabs",
    "Xmq.Props.C06_false_stray",
    "Xmq.Props.C06_utf8_noStray"
   ],
   "note": "False in five cases (witnesses; the fifth, continuation bytes behind a space or a tab, does not occur in proper UTF-8); proved for all other texts."
  },
  {
   "property": "C07",
   "status": "partial",
   "theorems": [
    "Xmq.Props.C07_compact_quote_single_line_partial",
    "Xmq.Props.C07_compact_document_single_line_partial",
    "Xmq.Props.C07_false_triple_quote",
    "Xmq.Props.C07_false_comment_cr"
   ],
   "note": "False for three quotes in a row and carriage returns in comments; proved otherwise, for values and whole documents."
  },
  {
   "property": "C08",
   "status": "partial",
   "theorems": [
    "Xmq.Props.C08_terminates_false",
    "Xmq.Props.C08_tab_hangs",
    "Xmq.Props.C08_terminates_partial",
    "Xmq.Props.C08_terminates_paren_partial",
    "Xmq.Props.C08_decided",
    "Xmq.Props.C08_bound"
   ],
   "note": "The full claim is false of the code (a(!) loops forever). Proved: necessary condition for looping, a linear bound on all loops when it finishes."
  },
  {
   "property": "C09",
   "status": "proved",
   "theorems": [
    "Xmq.Props.C09_tokens_cover_input",
    "Xmq.Props.C09_tokens_cover_prefix"
   ],
   "note": ""
  },
  {
   "property": "C10",
   "status": "proved",
   "theorems": [
    "Xmq.Props.C10_token_positions",
    "Xmq.Props.C10_token_positions_offset"
   ],
   "note": ""
  },
  {
   "property": "C100",
   "status": "partial",
   "theorems": [
    "Xmq.Props.C100_all_partial",
    "Xmq.Props.C100_place",
    "Xmq.Props.C100_order",
    "Xmq.Props.C100_one",
    "Xmq.Props.C100_attr_false",
    "Xmq.Props.C100_hidden_false",
    "Xmq.Props.C100_name_false",
    "Xmq.Props.C100_twice_false"
   ],
   "note": "Proved for all forests whose alternatives become elements, that have no alternatives inside attributes and no rule called AMBIGUOUS (Clear); for each of these restrictions the claim is shown false without it. C100_place: the readings put into a place are all there. C100_one: a tree without alternatives gives the document of C53. Which readings the parser finds (build_parse_tree for all parses) is not modelled."
  },
  {
   "property": "C101",
   "status": "partial",
   "theorems": [
    "Xmq.Props.C101_wanted_partial",
    "Xmq.Props.C101_exact",
    "Xmq.Props.C101_kept",
    "Xmq.Props.C101_none",
    "Xmq.Props.C101_blanks",
    "Xmq.Props.C101_parser",
    "Xmq.Props.C101_last_false"
   ],
   "note": "C101_exact: the last option decides if and only if --trim=none is not given behind --trim=heuristic; C101_last_false shows that case. That libxml2 leaves out nothing but texts of white space when told so (Delivers) is assumed. What trimming does is C38 and C69."
  },
  {
   "property": "C102",
   "status": "partial",
   "theorems": [
    "Xmq.Props.C102_keys",
    "Xmq.Props.C102_quit",
    "Xmq.Props.C102_stays",
    "Xmq.Props.C102_bytes",
    "Xmq.Props.C102_text",
    "Xmq.Props.C102_escape_false",
    "Xmq.Props.C102_f2_false",
    "Xmq.Props.C102_gone_false"
   ],
   "note": "Proved for all sequences of the keys with a meaning and of printable characters, and for all characters beyond ASCII. False: escape takes the next key along (C102_escape_false), F2 of an xterm ends the pager (C102_f2_false), and without a terminal it never ends (C102_gone_false). Where the moves lead to is C85. What the terminal sends for a key is that of an xterm."
  },
  {
   "property": "C103",
   "status": "partial",
   "theorems": [
    "Xmq.Props.C103_round_partial",
    "Xmq.Props.C103_iff",
    "Xmq.Props.C103_back",
    "Xmq.Props.C103_line",
    "Xmq.Props.C103_false",
    "Xmq.Props.C103_null_false",
    "Xmq.Props.C103_lost_false"
   ],
   "note": "C103_iff: a text comes back if and only if it has no backslash and no control characters but the seven with a letter; C103_back says what comes back else. False: backslashes (C103_false), documents without text at the top lead to a null pointer (C103_null_false), elements beside the text are lost (C103_lost_false). xmlNodeListGetString of libxml2 is modelled as giving the null pointer if there is no text; references to entities add nothing."
  },
  {
   "property": "C11",
   "status": "proved",
   "theorems": [
    "Xmq.Props.C11_accepted_balanced",
    "Xmq.Props.C11_counts"
   ],
   "note": ""
  },
  {
   "property": "C12",
   "status": "proved",
   "theorems": [
    "Xmq.Props.C12_tokens_complete",
    "Xmq.Props.C11_accepted_balanced"
   ],
   "note": "Every token of an accepted input is complete and brackets are balanced, hence an input that ends inside a construct is not accepted."
  },
  {
   "property": "C13",
   "status": "proved",
   "theorems": [
    "Xmq.Props.C13_single_line_unchanged"
   ],
   "note": ""
  },
  {
   "property": "C14",
   "status": "partial",
   "theorems": [
    "Xmq.Props.C14_multi_line_quote_partial",
    "Xmq.Props.C14_any_depth_partial",
    "Xmq.Props.C14_false",
    "Xmq.Props.C14_false_trailing_space",
    "Xmq.Props.C14_false_indentation",
    "Xmq.Props.C14_false_newline"
   ],
   "note": "False: blanks at the ends of lines are lost; with a quote at an edge common indentation is lost and a newline at the other edge doubled. Proved for every column and depth for the other texts without carriage returns."
  },
  {
   "property": "C15",
   "status": "partial",
   "theorems": [
    "Xmq.Props.C15_false",
    "Xmq.Props.C15_memory_safe_partial"
   ],
   "note": "False for lone carriage returns; proved for all texts in which every CR is followed by LF."
  },
  {
   "property": "C16",
   "status": "proved",
   "theorems": [
    "Xmq.Props.C16_reindent"
   ],
   "note": "Texts without carriage returns, a padding character given (as in the parser)."
  },
  {
   "property": "C17",
   "status": "partial",
   "theorems": [
    "Xmq.Props.C17_no_double_dash",
    "Xmq.Props.C17_lossless",
    "Xmq.Props.C17_buffer_exact",
    "Xmq.Props.C17_unescape_fits",
    "Xmq.Props.C17_well_formed_false",
    "Xmq.Props.C17_well_formed_partial",
    "Xmq.Props.C17_xml_to_xml_false",
    "Xmq.Props.C17_xml_to_xml_partial",
    "Xmq.Props.C17_well_formed_iff",
    "Xmq.Props.C17_xml_to_xml_iff"
   ],
   "note": "Lossless, no double dash and exact buffer sizes for all texts; not well formed for comments ending in a dash (proved false), and XML to XML loses a DLE after a dash (proved false); both conditions are exact (C17_well_formed_iff, C17_xml_to_xml_iff)."
  },
  {
   "property": "C18",
   "status": "partial",
   "theorems": [
    "Xmq.Props.C18_ignores_leading_space",
    "Xmq.Props.C18_rule",
    "Xmq.Props.C18_html_rule",
    "Xmq.Props.C18_html_behind_comment_missed",
    "Xmq.Props.C18_negative_number_missed",
    "Xmq.Props.C18_memory_safe_false",
    "Xmq.Props.C18_memory_safe_partial",
    "Xmq.Props.C18_accepted_is_xmq",
    "Xmq.Props.C18_printed_is_xmq_false",
    "Xmq.Props.C18_printed_is_xmq_partial"
   ],
   "note": "The decision rule is proved for all buffers; misdetections and an over-read are proved by witness, with partial theorems for the rest."
  },
  {
   "property": "C19",
   "status": "proved",
   "theorems": [
    "Xmq.Props.C19_char_entity_printed",
    "Xmq.Props.C19_char_entity_read_back"
   ],
   "note": ""
  },
  {
   "property": "C20",
   "status": "proved",
   "theorems": [
    "Xmq.Props.C20_get_after_puts",
    "Xmq.Props.C20_iterate"
   ],
   "note": ""
  },
  {
   "property": "C21",
   "status": "proved",
   "theorems": [
    "Xmq.Props.C21_stack_is_list",
    "Xmq.Props.C21_size_and_free"
   ],
   "note": ""
  },
  {
   "property": "C22",
   "status": "proved",
   "theorems": [
    "Xmq.Props.C22_vector_is_list",
    "Xmq.Props.C22_vector_size"
   ],
   "note": ""
  },
  {
   "property": "C23",
   "status": "proved",
   "theorems": [
    "Xmq.Props.C23_membuffer_is_append_only",
    "Xmq.Props.C23_never_aborts"
   ],
   "note": ""
  },
  {
   "property": "C24",
   "status": "proved",
   "theorems": [
    "Xmq.Props.C24_sorts",
    "Xmq.Props.C24_result_unique"
   ],
   "note": ""
  },
  {
   "property": "C25",
   "status": "partial",
   "theorems": [
    "Xmq.Props.C25_false",
    "Xmq.Props.C25_round_trip_partial",
    "Xmq.Props.C25_over_read",
    "Xmq.Props.C25_exact",
    "Xmq.Props.C25_iff"
   ],
   "note": "False: backslashes and bytes without a C escape are not recovered (what remains: C25_exact; the condition C25_iff is exact); text that is not UTF-8 is read beyond its end. Proved for all other valid UTF-8 texts."
  },
  {
   "property": "C26",
   "status": "partial",
   "theorems": [
    "Xmq.Props.C26_read_false",
    "Xmq.Props.C26_read_surrogates",
    "Xmq.Props.C26_read_partial",
    "Xmq.Props.C26_write_false",
    "Xmq.Props.C26_round_trip_partial",
    "Xmq.Props.C26_write_iff"
   ],
   "note": "False: `\\/` is rejected, surrogate pairs are read as two characters, control characters without a short escape are written as \\xHH. Proved for the other literals and texts against RFC 8259; the condition for writing is exact (C26_write_iff)."
  },
  {
   "property": "C27",
   "status": "partial",
   "theorems": [
    "Xmq.Props.C27_missed",
    "Xmq.Props.C27_extra",
    "Xmq.Props.C27_false",
    "Xmq.Props.C27_complete_partial",
    "Xmq.Props.C27_tab",
    "Xmq.Props.C27_sound_partial",
    "Xmq.Props.C27_exact"
   ],
   "note": "False in both directions (0e5, -012; numbers before a tab or carriage return). Completeness for all numbers not starting with 0e; soundness for texts without an exponent. C27_exact gives the texts taken for numbers exactly."
  },
  {
   "property": "C28",
   "status": "partial",
   "theorems": [
    "Xmq.Props.C28_hangs",
    "Xmq.Props.C28_aborts",
    "Xmq.Props.C28_false",
    "Xmq.Props.C28_ends_partial",
    "Xmq.Props.C28_only_loop",
    "Xmq.Props.C28_accepted_false",
    "Xmq.Props.C28_accepted_partial"
   ],
   "note": "False: an object that ends behind its brace or behind a comma loops forever, an unclosed array or object aborts the process. Proved: the endless loop happens only at the end of the text inside an object; every other text is answered; every RFC 8259 document outside the known defects is accepted."
  },
  {
   "property": "C29",
   "status": "proved",
   "theorems": [
    "Xmq.Props.C29_lookup_is_membership",
    "Xmq.Props.C29_every_category",
    "Xmq.Props.C29_names_stand_for",
    "Xmq.Props.C29_categories_overlap",
    "Xmq.Props.C29_supplementary_missed"
   ],
   "note": "Membership in the table is proved for every table that never decreases and for every table of the library. The tables themselves are wrong for code points above U+FFFF (two theorems)."
  },
  {
   "property": "C30",
   "status": "partial",
   "theorems": [
    "Xmq.Props.C30_compact_round_trip_partial",
    "Xmq.Props.C30_compact_round_trip_exact_partial",
    "Xmq.Props.C30_compact_injective_partial",
    "Xmq.Props.C30_reads_unique",
    "Xmq.Props.C30_false",
    "Xmq.Props.C30_false_comment",
    "Xmq.Props.C30_false_comment_spaces",
    "Xmq.Props.C30_false_comment_newline",
    "Xmq.Props.C30_false_attribute",
    "Xmq.Props.C30_false_stray"
   ],
   "note": "False without restrictions on texts and comments; proved for documents of elements, attributes, texts, entities and comments under the conditions of CompactSafe."
  },
  {
   "property": "C31",
   "status": "partial",
   "theorems": [
    "Xmq.Props.C31_pretty_round_trip_partial",
    "Xmq.Props.C31_pretty_round_trip_exact_partial",
    "Xmq.Props.C31_pretty_injective_partial",
    "Xmq.Props.C31_pretty_compact_agree_partial",
    "Xmq.Props.C31_false",
    "Xmq.Props.C31_false_column",
    "Xmq.Props.C31_false_column_spaces",
    "Xmq.Props.C31_false_quotes",
    "Xmq.Props.C31_false_equals",
    "Xmq.Props.C31_false_stray"
   ],
   "note": "False for certain texts, comments and columns (witnesses); proved for documents of elements, attributes, texts, entities and comments under the conditions of PrettySafe, for every step of indentation."
  },
  {
   "property": "C32",
   "status": "proved",
   "theorems": [
    "Xmq.Props.C32_html_read_back",
    "Xmq.Props.C32_html_no_markup",
    "Xmq.Props.C32_tex_injective",
    "Xmq.Props.C32_render_html_read_back",
    "Xmq.Props.C32_render_tex_read_back"
   ],
   "note": ""
  },
  {
   "property": "C33",
   "status": "partial",
   "theorems": [
    "Xmq.Props.C33_false",
    "Xmq.Props.C33_bom_transparent_partial",
    "Xmq.Props.C33_nothing_else_skipped",
    "Xmq.Props.C33_same_document"
   ],
   "note": "False for a buffer of the mark only; proved for all others."
  },
  {
   "property": "C34",
   "status": "partial",
   "theorems": [
    "Xmq.Props.C34_suffix_removed",
    "Xmq.Props.C34_index_removed",
    "Xmq.Props.C34_nothing_else_removed",
    "Xmq.Props.C34_false"
   ],
   "note": "User keys that end in such a suffix are altered (proved false); the rest holds for all keys."
  },
  {
   "property": "C35",
   "status": "proved",
   "theorems": [
    "Xmq.Props.C35_parse_i8"
   ],
   "note": ""
  },
  {
   "property": "C36",
   "status": "partial",
   "theorems": [
    "Xmq.Props.C36_pretty_comment_partial",
    "Xmq.Props.C36_pretty_any_depth_partial",
    "Xmq.Props.C36_compact_any_depth_partial",
    "Xmq.Props.C36_false_pretty",
    "Xmq.Props.C36_false_compact",
    "Xmq.Props.C36_false_leading_newline",
    "Xmq.Props.C36_false_trailing_space"
   ],
   "note": "False: newlines and spaces at the edges are lost. Proved for the other comments at every column and depth, for both printers."
  },
  {
   "property": "C37",
   "status": "partial",
   "theorems": [
    "Xmq.Props.C37_no_overrun",
    "Xmq.Props.C37_false",
    "Xmq.Props.C37_false_amp",
    "Xmq.Props.C37_collapse_partial",
    "Xmq.Props.C37_aborts_only_for_large"
   ],
   "note": "Buffer bound for all inputs; the text is wrong for hexadecimal references and &amp; (proved false), right for all others."
  },
  {
   "property": "C38",
   "status": "partial",
   "theorems": [
    "Xmq.Props.C38_false",
    "Xmq.Props.C38_false_indentation",
    "Xmq.Props.C38_stable_partial",
    "Xmq.Props.C38_memory_safe_partial"
   ],
   "note": "False for blank lines at the beginning or end; proved for texts without carriage returns that neither begin nor end with a blank line."
  },
  {
   "property": "C39",
   "status": "proved",
   "theorems": [
    "Xmq.Props.C39_strip_exact"
   ],
   "note": ""
  },
  {
   "property": "C40",
   "status": "partial",
   "theorems": [
    "Xmq.Props.C40_line_col",
    "Xmq.Props.C40_false",
    "Xmq.Props.C40_right_partial",
    "Xmq.Props.C40_excerpt_false",
    "Xmq.Props.C40_excerpt_partial"
   ],
   "note": "The reported position is characterised exactly for every UTF-8 text; the column is one too small behind a line break (proved false)."
  },
  {
   "property": "C41",
   "status": "partial",
   "theorems": [
    "Xmq.Props.C41_false",
    "Xmq.Props.C41_witnesses",
    "Xmq.Props.C41_reads_inside_partial"
   ],
   "note": "False; the two cases in which it fails are characterised."
  },
  {
   "property": "C42",
   "status": "partial",
   "theorems": [
    "Xmq.Props.C42_false",
    "Xmq.Props.C42_without_semicolon",
    "Xmq.Props.C42_entities_complete_partial"
   ],
   "note": "False for names of lower case hexadecimal digits; proved for all others."
  },
  {
   "property": "C43",
   "status": "proved",
   "theorems": [
    "Xmq.Props.C43_multi_line_is_dedent",
    "Xmq.Props.C43_any_line_ending",
    "Xmq.Props.C43_quote_token"
   ],
   "note": "Texts with LF or CR LF line endings (a lone CR is outside, see C15); C43_quote_token is about the whole token with its quotes, at any column."
  },
  {
   "property": "C44",
   "status": "partial",
   "theorems": [
    "Xmq.Props.C44_agreeing_type",
    "Xmq.Props.C44_disagreeing_type",
    "Xmq.Props.C44_htmq_never_accepted",
    "Xmq.Props.C44_clines_never_accepted",
    "Xmq.Props.C44_false"
   ],
   "note": "HTMQ and CLINES requests always fail (proved); the other types are honoured."
  },
  {
   "property": "C45",
   "status": "partial",
   "theorems": [
    "Xmq.Props.C45_false",
    "Xmq.Props.C45_keys_distinct_partial",
    "Xmq.Props.C45_names_read_back",
    "Xmq.Props.C45_iff"
   ],
   "note": "False for arrays with equal names; proved otherwise, as an equivalence (C45_iff)."
  },
  {
   "property": "C46",
   "status": "partial",
   "theorems": [
    "Xmq.Props.C46_false",
    "Xmq.Props.C46_get_int_partial",
    "Xmq.Props.C46_get_long_partial",
    "Xmq.Props.C46_get_int_wraps",
    "Xmq.Props.C46_hex_zero",
    "Xmq.Props.C46_octal_decimal",
    "Xmq.Props.C46_exact"
   ],
   "note": "False for signed hexadecimal and octal numerals; proved for decimal, unsigned octal and unsigned 0x numerals. C46_exact says which numerals strictly inside 64 bits are read, C46_hex_zero and C46_octal_decimal what the others give."
  },
  {
   "property": "C47",
   "status": "proved",
   "theorems": [
    "Xmq.Props.C47_complement",
    "Xmq.Props.C47_includes",
    "Xmq.Props.C47_categories_known",
    "Xmq.Props.C47_complement_once",
    "Xmq.Props.C47_no_repetition_false"
   ],
   "note": "Also: a set can contain a character twice and then has two rules for it (theorem C47_no_repetition_false)."
  },
  {
   "property": "C48",
   "status": "partial",
   "theorems": [
    "Xmq.Props.C48_false",
    "Xmq.Props.C48_scan_partial",
    "Xmq.Props.C48_outside_cause"
   ],
   "note": "Out of bounds write for F4..F7 lead bytes (proved false); exact for every UTF-8 text; the cause of every escape is characterised."
  },
  {
   "property": "C49",
   "status": "partial",
   "theorems": [
    "Xmq.Props.C49_unnamed",
    "Xmq.Props.C49_special_keys",
    "Xmq.Props.C49_false",
    "Xmq.Props.C49_round_trip_partial"
   ],
   "note": "False for keys with a meaning of their own and for empty containers under keys that are no names ({\"a b\":{}} is written as {{}}). Proved for all values whose keys avoid these, against RFC 8259."
  },
  {
   "property": "C50",
   "status": "proved",
   "theorems": [
    "Xmq.Props.C50_line_endings",
    "Xmq.Props.C50_accepted_alike",
    "Xmq.Props.C50_saved_with_crlf",
    "Xmq.Props.C50_quote_line_endings",
    "Xmq.Props.C50_lone_cr_counts"
   ],
   "note": "C50_lone_cr_counts shows that the hypothesis is needed."
  },
  {
   "property": "C51",
   "status": "proved",
   "theorems": [
    "Xmq.Props.C51_decimal_reference",
    "Xmq.Props.C51_hex_reference",
    "Xmq.Props.C51_outside_range",
    "Xmq.Props.C51_named_reference"
   ],
   "note": "For code points 1..0x10FFFF; C51_outside_range shows what happens beyond."
  },
  {
   "property": "C52",
   "status": "partial",
   "theorems": [
    "Xmq.Props.C52_same_language_partial",
    "Xmq.Props.C52_false",
    "Xmq.Props.C52_false_rejected",
    "Xmq.Props.C52_false_accepts"
   ],
   "note": "Proved for all grammars that avoid the constructs listed in Spec/Ixml (lim = true), for all contents. False without: valid grammars are rejected, and an empty literal under an operator changes the language. Acceptance is derivability by the rules handed to the Earley parser; C57 says when the parser finds a derivation."
  },
  {
   "property": "C53",
   "status": "partial",
   "theorems": [
    "Xmq.Props.C53_document_partial",
    "Xmq.Props.C53_unambiguous_partial",
    "Xmq.Props.C53_false",
    "Xmq.Props.C53_false_renamed",
    "Xmq.Props.C53_false_mark"
   ],
   "note": "Proved for grammars where no repeated group, set or literal inherits the mark of something read before it, and without the renamings that get lost (TidyGrammar). False without."
  },
  {
   "property": "C54",
   "status": "partial",
   "theorems": [
    "Xmq.Props.C54_ends_partial",
    "Xmq.Props.C54_accepts_partial",
    "Xmq.Props.C54_false",
    "Xmq.Props.C54_false_hang",
    "Xmq.Props.C54_false_abort"
   ],
   "note": "False: there is a text that makes the lookahead loop and there are texts that fail an assertion. Proved: reading ends for all texts without {, with a { only that lookahead can loop."
  },
  {
   "property": "C55",
   "status": "partial",
   "theorems": [
    "Xmq.Props.C55_accepted_partial",
    "Xmq.Props.C55_ends",
    "Xmq.Props.C55_rules",
    "Xmq.Props.C55_false",
    "Xmq.Props.C55_false_repetition",
    "Xmq.Props.C55_false_error",
    "Xmq.Props.C55_false_negative",
    "Xmq.Props.C55_false_message"
   ],
   "note": "False: a repeated expression that can be empty, a rule named error and a code of 32 bits are refused. Proved: the checks end for all rules; without the name error and without negative codes a grammar is refused exactly if some symbol derives itself."
  },
  {
   "property": "C56",
   "status": "proved",
   "theorems": [
    "Xmq.Props.C56_exact",
    "Xmq.Props.C56_lookahead"
   ],
   "note": "For all accepted grammars, as equivalences with derivability."
  },
  {
   "property": "C57",
   "status": "partial",
   "theorems": [
    "Xmq.Props.C57_sound",
    "Xmq.Props.C57_exact_partial",
    "Xmq.Props.free_of_single",
    "Xmq.Props.free_of_ends",
    "Xmq.Props.free_of_once",
    "Xmq.Props.C57_false",
    "Xmq.Props.C57_false_lost",
    "Xmq.Props.C57_answers_false",
    "Xmq.Props.C57_false_assertion"
   ],
   "note": "What is parsed belongs to the language, for all grammars and texts. False in the other direction: a text of the language is refused, and an assertion fails, because an item without a length is lost when the same rule position is there with one. Proved as an equivalence, with the absence of failing assertions, for all texts in which no rule gets in its own way (Spec/Trees: Clash); these are all texts if no rule begins with two symbols that can be empty, if only rules for a symbol that is used nowhere do, or if what such a beginning derives never ends with a character that can stand in front of the rule."
  },
  {
   "property": "C58",
   "status": "partial",
   "theorems": [
    "Xmq.Props.C58_tree",
    "Xmq.Props.C58_ambiguous",
    "Xmq.Props.C58_unambiguous_partial",
    "Xmq.Props.C58_false",
    "Xmq.Props.C58_false_two"
   ],
   "note": "The tree derives the text and a text called ambiguous has another tree: for all grammars and texts. That a text not called ambiguous has no other tree is false (witness) and proved for all texts without Clash."
  },
  {
   "property": "C59",
   "status": "partial",
   "theorems": [
    "Xmq.Props.C59_viable",
    "Xmq.Props.C59_first_error_partial",
    "Xmq.Props.C59_false"
   ],
   "note": "The first half is proved for all grammars and texts, the second half for continuations without Clash; it is false without (witness)."
  },
  {
   "property": "C60",
   "status": "partial",
   "theorems": [
    "Xmq.Props.C60_document_partial",
    "Xmq.Props.C60_language_partial",
    "Xmq.Props.C60_only_partial",
    "Xmq.Props.C60_refused_partial",
    "Xmq.Props.C60_false",
    "Xmq.Props.C60_false_lost",
    "Xmq.Props.C60_returns_false"
   ],
   "note": "For grammars in the part of ixml the reader understands (WGrammar true, no name `error`): what comes into the document is what ixml prescribes (marks as in C53); the grammar is refused exactly if a symbol derives itself; where it is not refused and no rule gets in its own way the text is accepted exactly if the grammar matches it, and without the warning nothing else is prescribed. False without the guards (witnesses), and the function returns true for texts that do not match."
  },
  {
   "property": "C61",
   "status": "partial",
   "theorems": [
    "Xmq.Props.C61_instead_partial",
    "Xmq.Props.C61_without_sets",
    "Xmq.Props.C61_one_character",
    "Xmq.Props.C61_false"
   ],
   "note": "False: the position in the list of rules is not set back. What happens instead is proved for all grammars and texts: the second time the grammar consists only of the rules for the characters of its sets; without sets it is refused, and never is a text read that has not exactly one character."
  },
  {
   "property": "C62",
   "status": "partial",
   "theorems": [
    "Xmq.Props.C62_written",
    "Xmq.Props.C62_resolved_partial",
    "Xmq.Props.C62_read_partial",
    "Xmq.Props.C62_unique",
    "Xmq.Props.namesText_means",
    "Xmq.Props.C62_false",
    "Xmq.Props.C62_false_default_stays",
    "Xmq.Props.C62_false_default_again",
    "Xmq.Props.C62_false_default_off",
    "Xmq.Props.C62_false_default_off_prefixed",
    "Xmq.Props.C62_false_prefix_again",
    "Xmq.Props.C62_false_two_before",
    "Xmq.Props.C62_false_element_before",
    "Xmq.Props.C62_false_no_value"
   ],
   "note": "False: the default namespace is not restored at the end of an element, declarations made anew do not affect the element that makes them, the second use of a prefix before its declaration loses the namespace, a declaration without value takes the next value. Proved: every accepted text (CR only before LF, references by number below the limits) is written as exactly one document (full syntax, Spec/Syntax), and is read as its meaning (Spec/Namespaces) if it avoids these cases (Tame, Spec/Namespaces). A quoted doctype and a second doctype are outside of the model."
  },
  {
   "property": "C63",
   "status": "partial",
   "theorems": [
    "Xmq.Props.C63_pi_partial",
    "Xmq.Props.pi_written",
    "Xmq.Props.C63_false",
    "Xmq.Props.C63_false_edge_spaces",
    "Xmq.Props.C63_false_no_value",
    "Xmq.Props.C63_false_empty"
   ],
   "note": "False: a value that begins or ends with a quote gets spaces; without a value the value of the next element is taken; an empty value makes the code read before a string. Proved for all non-empty values that neither begin nor end with a quote; inside documents by C62."
  },
  {
   "property": "C64",
   "status": "partial",
   "theorems": [
    "Xmq.Props.C64_compact_partial",
    "Xmq.Props.C64_pretty_partial",
    "Xmq.Props.C64_injective_partial",
    "Xmq.Props.C64_agree_partial",
    "Xmq.Props.C64_false",
    "Xmq.Props.C64_false_two_attributes",
    "Xmq.Props.C64_false_default_stays",
    "Xmq.Props.C64_false_default_again",
    "Xmq.Props.C64_false_pi_quotes",
    "Xmq.Props.C64_false_pi_newline",
    "Xmq.Props.C64_false_pi_empty"
   ],
   "note": "False: two attributes with the same prefix on the element that declares it, nested and neighbouring default namespaces, quotes at the ends of processing instructions, line feeds in them (compact), instructions without content. Proved for all documents whose texts survive (NsCompact, NsPretty: the conditions of C30 and C31, for processing instructions, doctypes and namespace names one line without quotes at the ends) and whose declarations the reader copes with (Tame, as in C62)."
  },
  {
   "property": "C65",
   "status": "partial",
   "theorems": [
    "Xmq.Props.C65_one_line_partial",
    "Xmq.Props.C65_line_partial",
    "Xmq.Props.C65_text_partial",
    "Xmq.Props.C65_injective_partial",
    "Xmq.Props.C65_false",
    "Xmq.Props.C65_false_long",
    "Xmq.Props.C65_false_triple_quote",
    "Xmq.Props.C65_false_tabs",
    "Xmq.Props.C65_false_human_fields",
    "Xmq.Props.C65_false_human_lines",
    "Xmq.Props.C65_false_doc"
   ],
   "note": "False: a value of 1024 bytes or more is formatted with an argument list that has been used up; three quotes in a row give a line break; two tabs are read as a field and a text; human readable lines do not separate fields; xmqLineDoc is a stub. Proved for any number of fields whose values the compact quoting keeps (CompactQuoteSafe, as in C30) and are below 1024 bytes."
  },
  {
   "property": "C66",
   "status": "partial",
   "theorems": [
    "Xmq.Props.C66_clines_partial",
    "Xmq.Props.C66_injective_partial",
    "Xmq.Props.C66_cstring_unique",
    "Xmq.Props.C66_false",
    "Xmq.Props.C66_false_hex",
    "Xmq.Props.C66_false_del",
    "Xmq.Props.C66_false_comment_only",
    "Xmq.Props.C66_false_structure"
   ],
   "note": "False: a control character (or DEL) written as a hexadecimal escape takes a hexadecimal digit that follows with it. Proved for all documents with texts in UTF-8 in which no such digit follows, names without equal sign and line feed, and attributes without entity references. Namespaces are not modelled here. Entity references print nothing and elements with only comments or references do not appear."
  },
  {
   "property": "C67",
   "status": "partial",
   "theorems": [
    "Xmq.Props.C67_text_partial",
    "Xmq.Props.C67_round_trip_partial",
    "Xmq.Props.C67_false",
    "Xmq.Props.C67_false_entity",
    "Xmq.Props.C67_false_nul",
    "Xmq.Props.C67_iff",
    "Xmq.Props.C67_round_trip_iff"
   ],
   "note": "False: an entity reference is printed as <ENTITY>name; a text read ends at a NUL byte. Proved for all documents without entity references and all texts without NUL, both as equivalences."
  },
  {
   "property": "C68",
   "status": "proved",
   "theorems": [
    "Xmq.Props.C68_sets",
    "Xmq.Props.C68_answer",
    "Xmq.Props.C68_sound"
   ],
   "note": "For all grammars (of any kind) and texts, including those for which the parser stops with an assertion. C68_exact_partial carries C57 over."
  },
  {
   "property": "C69",
   "status": "partial",
   "theorems": [
    "Xmq.Props.C69_only_whitespace_partial",
    "Xmq.Props.C69_structure",
    "Xmq.Props.C69_text_partial",
    "Xmq.Props.C69_false",
    "Xmq.Props.C69_false_words"
   ],
   "note": "False for lone carriage returns: for <a>&#13; &#13;x</a> the indentation is looked for beyond the end of the text. Proved for all documents without lone carriage returns; C69_structure for all documents. Words of neighbouring texts can be glued together (the comment in trim_text_node says that it over-trims)."
  },
  {
   "property": "C70",
   "status": "partial",
   "theorems": [
    "Xmq.Props.C70_written_partial",
    "Xmq.Props.C70_part",
    "Xmq.Props.C70_false",
    "Xmq.Props.C70_false_latin",
    "Xmq.Props.C70_false_lost",
    "Xmq.Props.C70_twice_partial",
    "Xmq.Props.C70_twice_false"
   ],
   "note": "False inside style and script for hexadecimal references (written as nothing), for references above 127 (written as one byte) and for undeclared entities (lost). False for the second write of a document with comments that need escapes. Proved for decimal references to ASCII and entities with known content, and for the second write without such comments."
  },
  {
   "property": "C71",
   "status": "partial",
   "theorems": [
    "Xmq.Props.C71_plain",
    "Xmq.Props.C71_terminal_partial",
    "Xmq.Props.C71_element_partial",
    "Xmq.Props.C71_page_partial",
    "Xmq.Props.C71_utf8",
    "Xmq.Props.C71_copied_partial",
    "Xmq.Props.C71_shown_partial",
    "Xmq.Props.C71_false_stray",
    "Xmq.Props.C71_false_escape",
    "Xmq.Props.C71_false_colour"
   ],
   "note": "Without theme the output is that of the plain printer, for all documents. False: an escape character in a comment reaches the terminal; a stray continuation byte behind <, > or & is lost in HTML; the letters behind a no-break space get the colour of the first token. Proved for outputs without escape characters (terminal) and without such bytes (HTML; true of UTF-8), id and class without > and not longer than 980 bytes."
  },
  {
   "property": "C72",
   "status": "partial",
   "theorems": [
    "Xmq.Props.C72_compact",
    "Xmq.Props.C72_pretty_partial",
    "Xmq.Props.C72_page_partial",
    "Xmq.Props.C72_false_newlines",
    "Xmq.Props.C72_false_class",
    "Xmq.Props.C72_false_tex"
   ],
   "note": "Compact output: for all documents. False with line breaks: a text of two newlines leaves an element open; a class of 1000 bytes cuts off the pre tag; in TeX a percent sign hides the closing brace. Proved with line breaks for texts that do not consist of newlines only and in which nothing is escaped, or without newlines."
  },
  {
   "property": "C73",
   "status": "partial",
   "theorems": [
    "Xmq.Props.C73_uncoloured",
    "Xmq.Props.C73_cells_partial",
    "Xmq.Props.C73_sequence",
    "Xmq.Props.C73_terminal_partial",
    "Xmq.Props.C73_left_on",
    "Xmq.Props.C73_page_cells_partial",
    "Xmq.Props.C73_page_partial",
    "Xmq.Props.C73_false",
    "Xmq.Props.C73_false_newline",
    "Xmq.Props.C73_false_plain",
    "Xmq.Props.C73_false_tex",
    "Xmq.Props.C73_false_empty"
   ],
   "note": "Without colours a terminal gets exactly the source, for all sources. False: an escape sequence in the source reaches the terminal; a newline at the start is lost in HTML; plain rendering writes nothing; braces are not escaped in TeX; a:=b is accepted but stops at an assertion when written to standard output. Proved for terminals if no escape character is in the source, and for HTML if the source does not start with a newline and id and class have no > and not more than 980 bytes."
  },
  {
   "property": "C74",
   "status": "partial",
   "theorems": [
    "Xmq.Props.C74_listing_partial",
    "Xmq.Props.C74_distinct_partial",
    "Xmq.Props.C74_source_partial",
    "Xmq.Props.C74_source_distinct_partial",
    "Xmq.Props.C74_ascii",
    "Xmq.Props.C74_false"
   ],
   "note": "Proved for sources shorter than 10^13 bytes (the numbers are written into 32 bytes) in UTF-8 without control characters followed by a hexadecimal digit (C74_source_partial; C79 carries this over to the tokens); for ASCII sources without other conditions. False for a control character in front of a digit: the escape takes the digit."
  },
  {
   "property": "C75",
   "status": "partial",
   "theorems": [
    "Xmq.Props.C75_round_trip_partial",
    "Xmq.Props.C75_injective_partial",
    "Xmq.Props.C75_lookup_partial",
    "Xmq.Props.C75_counted_together",
    "Xmq.Props.C75_reads_unique",
    "Xmq.Props.C75_false",
    "Xmq.Props.C75_false_root",
    "Xmq.Props.C75_false_underscore",
    "Xmq.Props.C75_false_entity",
    "Xmq.Props.C75_false_S"
   ],
   "note": "Proved for names in ASCII starting with a letter and without colon, attributes other than A, S and xmlns\u2026, texts without control characters that need \\u, no references, no attribute twice, no neighbouring texts, no single texts such as -012, and a root that is not only a name with a text. False otherwise: a root with only a text loses its name, an element _x becomes an attribute, references become elements, an attribute S is lost. Reading is unique without conditions. Not covered: arrays (C49), comments and doctype beside the root."
  },
  {
   "property": "C76",
   "status": "partial",
   "theorems": [
    "Xmq.Props.C76_exact",
    "Xmq.Props.C76_root_partial",
    "Xmq.Props.C76_children_partial",
    "Xmq.Props.C76_ignored",
    "Xmq.Props.C76_empty",
    "Xmq.Props.C76_unique",
    "Xmq.Props.C76_false",
    "Xmq.Props.C76_false_comment",
    "Xmq.Props.C76_false_same_name"
   ],
   "note": "What is read with an implicit root is described exactly in terms of what is read without (C76_exact, all texts). The claim is false when a comment, text or reference comes before the first element (the root is then never made) and when the first of several elements has the name of the root; the partial theorems exclude these. Doctypes in quotes or behind the first element are not modelled."
  },
  {
   "property": "C77",
   "status": "partial",
   "theorems": [
    "Xmq.Props.C77_round_trip_partial",
    "Xmq.Props.C77_injective_partial",
    "Xmq.Props.C77_writes_alike",
    "Xmq.Props.C77_reads_alike",
    "Xmq.Props.C77_reads_unique",
    "Xmq.Props.C77_only_comments",
    "Xmq.Props.C77_false",
    "Xmq.Props.C77_false_value",
    "Xmq.Props.C77_false_array",
    "Xmq.Props.C77_false_array_root",
    "Xmq.Props.C77_false_unnamed"
   ],
   "note": "Proved for any number of comments beside a root as in C75. False: comments beside a root with only a text are lost; with an array in the document the comments behind the root move into the first object of the array; comments behind a root without a name move before it; a document of comments only is not written as JSON. Doctypes are not modelled."
  },
  {
   "property": "C78",
   "status": "proved",
   "theorems": [
    "Xmq.Props.C78_longest",
    "Xmq.Props.C78_longest_prefix",
    "Xmq.Props.C78_whitespace_apart",
    "Xmq.Props.C78_name_apart",
    "Xmq.Props.C78_comment_last"
   ],
   "note": "For all sources. Nothing is said about quotes, block comments and references, whose ends are part of them (C12)."
  },
  {
   "property": "C79",
   "status": "proved",
   "theorems": [
    "Xmq.Props.C79_tokens_utf8",
    "Xmq.Props.C79_source_utf8",
    "Xmq.Props.C79_error_utf8"
   ],
   "note": "For all sources in UTF-8."
  },
  {
   "property": "C80",
   "status": "partial",
   "theorems": [
    "Xmq.Props.C80_exact",
    "Xmq.Props.C80_reads",
    "Xmq.Props.C80_beyond",
    "Xmq.Props.C80_terminal",
    "Xmq.Props.C80_ansi_fits",
    "Xmq.Props.C80_parts",
    "Xmq.Props.C80_sheet",
    "Xmq.Props.C80_sheet_unique",
    "Xmq.Props.C80_html_fits",
    "Xmq.Props.C80_tex",
    "Xmq.Props.C80_themes",
    "Xmq.Props.C80_false",
    "Xmq.Props.C80_false_beyond",
    "Xmq.Props.C80_false_letter",
    "Xmq.Props.C80_false_html_size"
   ],
   "note": "What is read is described exactly, for all texts (C80_exact, C80_beyond). False: the marks may be any letter (#aabbcc_X), and a text that ends in an underscore is read beyond its end. The output is right for all colours; a rule for HTML can need 65 bytes although the function asks for 64 (its caller has 128)."
  },
  {
   "property": "C81",
   "status": "partial",
   "theorems": [
    "Xmq.Props.C81_exact",
    "Xmq.Props.C81_pieces",
    "Xmq.Props.C81_command",
    "Xmq.Props.C81_plain",
    "Xmq.Props.C81_names",
    "Xmq.Props.C81_in_place",
    "Xmq.Props.C81_value_partial",
    "Xmq.Props.C81_means_partial",
    "Xmq.Props.C81_each",
    "Xmq.Props.C81_false",
    "Xmq.Props.C81_false_nested",
    "Xmq.Props.C81_false_environment",
    "Xmq.Props.C81_false_same",
    "Xmq.Props.C81_false_null"
   ],
   "note": "The command and the environment are described exactly, for all commands and elements (C81_exact). The values are right (C81_value_partial, C81_means_partial) unless the variable is in the environment already, two names have the same variable (a-b and a.b), the text has references (they become TODO) or a child has elements (their text is left out). A selection outside of any element uses NULL. What /bin/sh does is not modelled."
  },
  {
   "property": "C82",
   "status": "partial",
   "theorems": [
    "Xmq.Props.C82_delete_exact",
    "Xmq.Props.C82_delete_partial",
    "Xmq.Props.C82_replace",
    "Xmq.Props.C82_replace_partial",
    "Xmq.Props.C82_none_left",
    "Xmq.Props.C82_substitute_partial",
    "Xmq.Props.C82_substitute_named",
    "Xmq.Props.C82_determined",
    "Xmq.Props.C82_delete_false",
    "Xmq.Props.C82_substitute_false",
    "Xmq.Props.C82_substitute_false_attribute",
    "Xmq.Props.C82_substitute_false_hex",
    "Xmq.Props.C82_replace_false",
    "Xmq.Props.C82_file_false"
   ],
   "note": "Replacing is right whenever it gives a document (C82_replace). False: delete-entity and substitute-char-entities leave attributes alone; the latter does nothing when a comment precedes the root and drops hexadecimal references; substitute-entity with a name never does anything; replacing a reference beside the root uses freed memory; with --with-file only the first node of the file is used. CDATA nodes and doctypes are not modelled."
  },
  {
   "property": "C83",
   "status": "partial",
   "theorems": [
    "Xmq.Props.C83_stdin",
    "Xmq.Props.C83_stdin_whole",
    "Xmq.Props.C83_stdin_ends",
    "Xmq.Props.C83_file_partial",
    "Xmq.Props.C83_file_contents",
    "Xmq.Props.C83_file_shorter",
    "Xmq.Props.C83_handed",
    "Xmq.Props.C83_same",
    "Xmq.Props.C83_false_pipe",
    "Xmq.Props.C83_pipe",
    "Xmq.Props.C83_false_closes"
   ],
   "note": "Complete for the standard input (C83_stdin is exact). For files it is exact when ftell gives a size (C83_file_partial). False: for a pipe or another stream without a size, ftell gives -1, malloc(0) is called and up to 10000 bytes are read into it (C83_pipe: for every one); after an error the file is not closed and the buffer not freed. A file that grows while it is read is taken with its old size."
  },
  {
   "property": "C84",
   "status": "proved",
   "theorems": [
    "Xmq.Props.C84_statistics",
    "Xmq.Props.C84_readable",
    "Xmq.Props.C84_numbers",
    "Xmq.Props.C84_additive",
    "Xmq.Props.C84_sums",
    "Xmq.Props.C84_false_references"
   ],
   "note": "For all documents, with numbers without bound. That references are counted but not written is shown as C84_false_references; the property does not claim them."
  },
  {
   "property": "C85",
   "status": "partial",
   "theorems": [
    "Xmq.Props.C85_draws_text",
    "Xmq.Props.C85_page_loses_nothing",
    "Xmq.Props.C85_progress",
    "Xmq.Props.C85_last_screen",
    "Xmq.Props.C85_shows_everything",
    "Xmq.Props.C85_next_line",
    "Xmq.Props.C85_next_row",
    "Xmq.Props.C85_inside_partial",
    "Xmq.Props.C85_up_undoes_down_partial",
    "Xmq.Props.C85_up_stuck",
    "Xmq.Props.C85_false_first",
    "Xmq.Props.C85_false_rows",
    "Xmq.Props.C85_false_one_column",
    "Xmq.Props.C85_false_end"
   ],
   "note": "Drawing and going on are proved for all texts. False: going up undoes going down only for lines that fit on a row (coloured or not) and not behind an empty first line; behind a plain line that is as wide as the screen the key for going up has no effect at all (C85_up_stuck); the key for the end goes before the beginning of a text of less than 100 bytes; with one column going on never moves. Terminals and the reading of keys are not modelled."
  },
  {
   "property": "C86",
   "status": "partial",
   "theorems": [
    "Xmq.Props.C86_message",
    "Xmq.Props.C86_has_message",
    "Xmq.Props.C86_attributes",
    "Xmq.Props.C86_body_partial",
    "Xmq.Props.C86_picture_partial",
    "Xmq.Props.C86_column",
    "Xmq.Props.C86_character",
    "Xmq.Props.C86_warning",
    "Xmq.Props.C86_latest",
    "Xmq.Props.C86_texts",
    "Xmq.Props.C86_whole",
    "Xmq.Props.C86_printed_partial",
    "Xmq.Props.C86_printed_name",
    "Xmq.Props.C86_printed_none",
    "Xmq.Props.C86_false_mark",
    "Xmq.Props.C86_false_length",
    "Xmq.Props.C86_false_equals",
    "Xmq.Props.C86_false_plane",
    "Xmq.Props.C86_false_byte",
    "Xmq.Props.C86_false_body",
    "Xmq.Props.C86_false_content",
    "Xmq.Props.C86_false_printed"
   ],
   "note": "Place, line, column and what stands there are proved for every error and input. False: the mark is one too far for the first byte of a line and is lost when line and mark have more than 1020 bytes; for an equals sign in or behind a comment (`//=\\n=`) a NULL pointer is read, for characters from U+100000 on a byte is written behind a buffer, for bytes that begin no character memory is printed that was never set; the brace that is pointed to may be closed (`a{b{}`), it is the right one if no brace was closed before; the tool uses the message as a format."
  },
  {
   "property": "C87",
   "status": "partial",
   "theorems": [
    "Xmq.Props.C87_words",
    "Xmq.Props.C87_grammar",
    "Xmq.Props.C87_accepts",
    "Xmq.Props.C87_refuses",
    "Xmq.Props.C87_usual",
    "Xmq.Props.C87_stops",
    "Xmq.Props.C87_false_help",
    "Xmq.Props.C87_false_named",
    "Xmq.Props.C87_false_names",
    "Xmq.Props.C87_false_defined",
    "Xmq.Props.C87_false_edited",
    "Xmq.Props.C87_false_status",
    "Xmq.Props.C87_false_grammar",
    "Xmq.Props.C87_false_content",
    "Xmq.Props.C87_false_shell"
   ],
   "note": "What documents, conversions and edits are is a parameter. False: a document that is edited and tokenized in one line is a NULL pointer (C87_false_defined); commands behind the conversion do not change what is written; `for-each` with `print` fails; help on a command gives status 1 and on no command 0; the message for an unknown command names the file; `-i` is lost for tokenize. That a terminal is asked for when there are no arguments is not modelled."
  },
  {
   "property": "C88",
   "status": "partial",
   "theorems": [
    "Xmq.Props.C88_delete_defined",
    "Xmq.Props.C88_delete",
    "Xmq.Props.C88_delete_loaded",
    "Xmq.Props.C88_select_defined",
    "Xmq.Props.C88_select",
    "Xmq.Props.C88_select_loaded",
    "Xmq.Props.C88_select_partial",
    "Xmq.Props.C88_add",
    "Xmq.Props.C88_add_root",
    "Xmq.Props.C88_joined",
    "Xmq.Props.C88_edits_partial",
    "Xmq.Props.C88_false_order",
    "Xmq.Props.C88_false_whole",
    "Xmq.Props.C88_false_attributes",
    "Xmq.Props.C88_false_comment",
    "Xmq.Props.C88_false_prolog",
    "Xmq.Props.C88_false_twice",
    "Xmq.Props.C88_false_delete",
    "Xmq.Props.C88_false_add"
   ],
   "note": "What an XPath finds is a parameter, the functions of libxml2 are modelled. It is proved exactly when deleting and selecting are defined and what they give. False: what is selected comes in the opposite order, without what is selected inside; two attributes of one element, or an element and a comment behind it, lead to freed memory; what has been selected cannot be selected or deleted again."
  },
  {
   "property": "C89",
   "status": "partial",
   "theorems": [
    "Xmq.Props.C89_merge",
    "Xmq.Props.C89_unique",
    "Xmq.Props.C89_split",
    "Xmq.Props.C89_decimal",
    "Xmq.Props.C89_hex",
    "Xmq.Props.C89_finished",
    "Xmq.Props.C89_pieces",
    "Xmq.Props.C89_false_compact"
   ],
   "note": "For all inputs that can be read (namespaces, processing instructions and doctypes are not in this model). C89_split asks that every reference can be decoded. False: a document read with the flag and printed compactly is not the same when read again with the flag (C89_false_compact)."
  },
  {
   "property": "C90",
   "status": "partial",
   "theorems": [
    "Xmq.Props.C90_foreach",
    "Xmq.Props.C90_count",
    "Xmq.Props.C90_first",
    "Xmq.Props.C90_exact",
    "Xmq.Props.C90_defined",
    "Xmq.Props.C90_whole",
    "Xmq.Props.C90_int_partial",
    "Xmq.Props.C90_long_partial",
    "Xmq.Props.C90_zero",
    "Xmq.Props.C90_false_text",
    "Xmq.Props.C90_false_reference",
    "Xmq.Props.C90_false_comment",
    "Xmq.Props.C90_false_no_merge",
    "Xmq.Props.C90_false_namespace"
   ],
   "note": "What an XPath finds is a parameter. Proved for every document that was read: an element or attribute with nothing but text has its whole value, and its number. False: text() is NULL, the text behind a reference is lost, a comment in front is taken for the value, with --no-merge only the first quote is given, for a namespace memory is read that is no node. Numbers as in C46; xmqGetDouble is not modelled."
  },
  {
   "property": "C91",
   "status": "proved",
   "theorems": [
    "Xmq.Props.C91_table",
    "Xmq.Props.C91_reserve",
    "Xmq.Props.C91_size",
    "Xmq.Props.C91_nearest_iff",
    "Xmq.Props.C91_tables_of_yaep",
    "Xmq.Props.C91_nearest_false",
    "Xmq.Props.C91_reserve_false",
    "Xmq.Props.C91_reserve_count_false"
   ],
   "note": "Sizes and indices are natural numbers (no wrapping beyond 2^31 entries). For all sequences without entries that are reserved and not used, and, for the answers, for all sequences with them but without removals, which is how the program uses its tables; with removals a reserved entry loses elements (C91_reserve_false), and it is counted. The comment of higher_prime_number is wrong for numbers followed by a prime."
  },
  {
   "property": "C92",
   "status": "partial",
   "theorems": [
    "Xmq.Props.C92_find",
    "Xmq.Props.C92_vector_iff",
    "Xmq.Props.C92_fit_iff",
    "Xmq.Props.C92_tokens_iff",
    "Xmq.Props.C92_tokens",
    "Xmq.Props.C92_refused_iff",
    "Xmq.Props.C92_refused_partial",
    "Xmq.Props.C92_false",
    "Xmq.Props.C92_fit_false"
   ],
   "note": "False: a character below the largest terminal that is no terminal itself is looked up in memory that was never written; a terminal above U+30D3D makes an assertion fail. Proved exactly when each of the outcomes occurs."
  },
  {
   "property": "C93",
   "status": "proved",
   "theorems": [
    "Xmq.Props.C93_terminals",
    "Xmq.Props.C93_items",
    "Xmq.Props.C93_fill_false",
    "Xmq.Props.C93_new",
    "Xmq.Props.C93_new_false"
   ],
   "note": "For all sequences without terminal_bitset_fill, which nothing calls (with it the claim is false: C93_fill_false), and for item sets that are cleared before the first insertion, as set_create_new does (before that everything seems present: C93_new). Shifting into the sign bit is taken to work; the generation is a natural number."
  },
  {
   "property": "C94",
   "status": "partial",
   "theorems": [
    "Xmq.Props.C94_background",
    "Xmq.Props.C94_theme",
    "Xmq.Props.C94_fgbg_iff",
    "Xmq.Props.C94_defined_iff",
    "Xmq.Props.C94_otherwise",
    "Xmq.Props.C94_not_a_terminal",
    "Xmq.Props.C94_defined_false",
    "Xmq.Props.C94_short_false",
    "Xmq.Props.C94_silent_false"
   ],
   "note": "False: COLORFGBG ending in a semicolon is read beyond its end (C94_defined_iff says exactly when), and the program ends if a terminal does not answer. Proved: answers with four digits for each component, as xterm sends them; answers with two digits are taken for dark (C94_short_false). The brightness is computed without rounding."
  },
  {
   "property": "C95",
   "status": "partial",
   "theorems": [
    "Xmq.Props.C95_reference",
    "Xmq.Props.C95_means",
    "Xmq.Props.C95_ascii",
    "Xmq.Props.C95_read_iff",
    "Xmq.Props.C95_plain",
    "Xmq.Props.C95_read_false"
   ],
   "note": "For HTML proved for all characters; the 140 names are compared with the 252 of HTML 4. Read as XMQ a name is a reference and not the character (C95_read_false); C95_read_iff says exactly for which characters."
  },
  {
   "property": "C96",
   "status": "partial",
   "theorems": [
    "Xmq.Props.C96_joins_partial",
    "Xmq.Props.C96_structure",
    "Xmq.Props.C96_again",
    "Xmq.Props.C96_kept_partial",
    "Xmq.Props.C96_round_trip_partial",
    "Xmq.Props.C96_lost_false",
    "Xmq.Props.C96_changed_false"
   ],
   "note": "False: the text behind a reference to an unknown entity, &amp; or a hexadecimal reference is lost (a NUL ends the text). Proved for documents with other references (C96_joins_partial); that elements, attributes and comments stay, and that a second time changes nothing, for all documents. C96_kept_partial carries C75 over to the function that is called. Declared entities are not modelled."
  },
  {
   "property": "C97",
   "status": "partial",
   "theorems": [
    "Xmq.Props.C97_nothing_left_out",
    "Xmq.Props.C97_omit_iff",
    "Xmq.Props.C97_omit_false",
    "Xmq.Props.C97_print_iff",
    "Xmq.Props.C97_print_prefix",
    "Xmq.Props.C97_print_nothing",
    "Xmq.Props.C97_print_false",
    "Xmq.Props.C97_save",
    "Xmq.Props.C97_save_status_false",
    "Xmq.Props.C97_browse_partial",
    "Xmq.Props.C97_browse_omit",
    "Xmq.Props.C97_browse_false",
    "Xmq.Props.C97_browse_here",
    "Xmq.Props.C97_browse_name_partial"
   ],
   "note": "Exact conditions for the declaration (three characters of version, no standalone), for print (fewer than 2^31 bytes, no NUL) and for save-to. False: a declaration with standalone is cut in the middle; save-to succeeds though not everything was written; browse with --omit-decl writes the declaration and loses the end. The form of the declaration is that of libxml2, assumed."
  },
  {
   "property": "C98",
   "status": "proved",
   "theorems": [
    "Xmq.Props.C98_objects",
    "Xmq.Props.C98_apart",
    "Xmq.Props.C98_stays",
    "Xmq.Props.C98_segment_fits",
    "Xmq.Props.C98_variable"
   ],
   "note": "A read or write outside of memory is an outcome of the model and is shown not to occur. Memory does not run out, and lengths do not reach the range of size_t. OS_TOP_EXPAND is taken together with the bytes its caller stores. An object without bytes may be in memory given back; nothing is claimed of it."
  },
  {
   "property": "C99",
   "status": "proved",
   "theorems": [
    "Xmq.Props.C99_once",
    "Xmq.Props.C99_blank_false"
   ],
   "note": "For all graphs without cycles whose nodes of rules have names and whose alternatives are chained to alternatives (ParseGraph). A double free, a use after freeing, a null pointer and a failed assertion are outcomes of the model and are shown not to occur. C99_blank_false: a name without characters is not given back. Stack depth is not limited."
  }
 ]
}