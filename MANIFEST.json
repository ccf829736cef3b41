{
 "claims": [
  {
   "property": "C01",
   "status": "proved",
   "theorems": [
    "Gaspra.C01_find_substring_all",
    "Gaspra.C01_empty_iff",
    "Gaspra.C01_empty_pattern"
   ],
   "note": ""
  },
  {
   "property": "C02",
   "status": "proved",
   "theorems": [
    "Gaspra.C02_first_occurrence"
   ],
   "note": ""
  },
  {
   "property": "C03",
   "status": "proved",
   "theorems": [
    "Gaspra.C03_find_lcs_longest",
    "Gaspra.C03_C04_find_lcs"
   ],
   "note": ""
  },
  {
   "property": "C04",
   "status": "proved",
   "theorems": [
    "Gaspra.C04_find_lcs_first",
    "Gaspra.C03_C04_find_lcs"
   ],
   "note": ""
  },
  {
   "property": "C05",
   "status": "proved",
   "theorems": [
    "Gaspra.C05_all_suffixes"
   ],
   "note": ""
  },
  {
   "property": "C06",
   "status": "proved",
   "theorems": [
    "Gaspra.C06_size"
   ],
   "note": ""
  },
  {
   "property": "C09",
   "status": "proved",
   "theorems": [
    "Gaspra.C09_diff_reconstructs"
   ],
   "note": ""
  },
  {
   "property": "C10",
   "status": "proved",
   "theorems": [
    "Gaspra.C10_apply_both_ways"
   ],
   "note": ""
  },
  {
   "property": "C11",
   "status": "proved",
   "theorems": [
    "Gaspra.C11_old_apply"
   ],
   "note": ""
  },
  {
   "property": "C12",
   "status": "proved",
   "theorems": [
    "Gaspra.C12_diff_normal_form"
   ],
   "note": ""
  },
  {
   "property": "C13",
   "status": "proved",
   "theorems": [
    "Gaspra.C13_diff_self",
    "Gaspra.C13_no_change_eq"
   ],
   "note": ""
  },
  {
   "property": "C14",
   "status": "proved",
   "theorems": [
    "Gaspra.C14_lcs_survives"
   ],
   "note": ""
  },
  {
   "property": "C50",
   "status": "proved",
   "theorems": [
    "Gaspra.C50_common_prefix_length"
   ],
   "note": ""
  },
  {
   "property": "C23",
   "status": "proved",
   "theorems": [
    "Gaspra.C23_vint_roundtrip",
    "Gaspra.C23_vint_overflow"
   ],
   "note": ""
  },
  {
   "property": "C24",
   "status": "proved",
   "theorems": [
    "Gaspra.C24_vint_order",
    "Gaspra.C24_vint_length",
    "Gaspra.C24_shortest"
   ],
   "note": ""
  },
  {
   "property": "C25",
   "status": "proved",
   "theorems": [
    "Gaspra.C25_changeset_roundtrip",
    "Gaspra.C25_changeset_roundtrip_exact",
    "Gaspra.C25_refused"
   ],
   "note": ""
  },
  {
   "property": "C26",
   "status": "proved",
   "theorems": [
    "Gaspra.C26_truncation"
   ],
   "note": ""
  },
  {
   "property": "C53",
   "status": "proved",
   "theorems": [
    "Gaspra.C53_deserialize_total"
   ],
   "note": ""
  },
  {
   "property": "C54",
   "status": "proved",
   "theorems": [
    "Gaspra.C54_int_roundtrip",
    "Gaspra.C54_int_overflow",
    "Gaspra.C54_int_read"
   ],
   "note": ""
  },
  {
   "property": "C15",
   "status": "proved",
   "theorems": [
    "Gaspra.C15_merge_unchanged"
   ],
   "note": ""
  },
  {
   "property": "C16",
   "status": "proved",
   "theorems": [
    "Gaspra.C16_merge_identical"
   ],
   "note": ""
  },
  {
   "property": "C17",
   "status": "proved",
   "theorems": [
    "Gaspra.C17_merge_normal_form"
   ],
   "note": ""
  },
  {
   "property": "C18",
   "status": "proved",
   "theorems": [
    "Gaspra.C18_clean_merge",
    "Gaspra.editsOf_describe_branch"
   ],
   "note": ""
  },
  {
   "property": "C19",
   "status": "proved",
   "theorems": [
    "Gaspra.C19_tokens"
   ],
   "note": ""
  },
  {
   "property": "C20",
   "status": "proved",
   "theorems": [
    "Gaspra.C20_symmetric_of_compatible",
    "Gaspra.C20_not_symmetric"
   ],
   "note": "general symmetry is false; the witness is C20_not_symmetric"
  },
  {
   "property": "C21",
   "status": "proved",
   "theorems": [
    "Gaspra.C21_sides_of_aligned",
    "Gaspra.C21_sides_mixed_up"
   ],
   "note": "the unconditional claim is false; the witness is C21_sides_mixed_up"
  },
  {
   "property": "C22",
   "status": "proved",
   "theorems": [
    "Gaspra.C22_no_exception",
    "Gaspra.C22_bytes_type_error"
   ],
   "note": ""
  },
  {
   "property": "C27",
   "status": "proved",
   "theorems": [
    "Gaspra.C27_get_exact"
   ],
   "note": "contents shorter than 2**64 bytes"
  },
  {
   "property": "C28",
   "status": "proved",
   "theorems": [
    "Gaspra.C28_membership"
   ],
   "note": "contents shorter than 2**64 bytes"
  },
  {
   "property": "C29",
   "status": "proved",
   "theorems": [
    "Gaspra.C29_storage"
   ],
   "note": "contents shorter than 2**64 bytes"
  },
  {
   "property": "C30",
   "status": "proved",
   "theorems": [
    "Gaspra.C30_version_info"
   ],
   "note": "contents shorter than 2**64 bytes"
  },
  {
   "property": "C31",
   "status": "proved",
   "theorems": [
    "Gaspra.C31_failing_add",
    "Gaspra.C31_heads"
   ],
   "note": "contents shorter than 2**64 bytes"
  },
  {
   "property": "C32",
   "status": "proved",
   "theorems": [
    "Gaspra.C32_reuse_corrupts",
    "Gaspra.C32_self_base",
    "Gaspra.C32_self_parent_never_ends"
   ],
   "note": "the property states a defect; the theorems exhibit it"
  },
  {
   "property": "C33",
   "status": "proved",
   "theorems": [
    "Gaspra.C33_forest"
   ],
   "note": "contents shorter than 2**64 bytes"
  },
  {
   "property": "C34",
   "status": "proved",
   "theorems": [
    "Gaspra.C34_metrics"
   ],
   "note": "contents shorter than 2**64 bytes"
  },
  {
   "property": "C35",
   "status": "proved",
   "theorems": [
    "Gaspra.C35_get_split",
    "Gaspra.C35_order"
   ],
   "note": "contents shorter than 2**64 bytes"
  },
  {
   "property": "C36",
   "status": "proved",
   "theorems": [
    "Gaspra.C36_same_answers",
    "Gaspra.C36_same_errors",
    "Gaspra.C36_same_tree",
    "Gaspra.C36_same_rows",
    "Gaspra.C36_db_exact"
   ],
   "note": "for tags that SQLite returns unchanged (strings)"
  },
  {
   "property": "C37",
   "status": "proved",
   "theorems": [
    "Gaspra.C37_collection",
    "Gaspra.C37_same_as_dict"
   ],
   "note": "for keys that SQLite returns unchanged (strings)"
  },
  {
   "property": "C56",
   "status": "proved",
   "theorems": [
    "Gaspra.C56_slot_overwritten"
   ],
   "note": "the property states a defect by a concrete sequence of operations"
  },
  {
   "property": "C57",
   "status": "proved",
   "theorems": [
    "Gaspra.C57_readd_db",
    "Gaspra.C57_readd_memory",
    "Gaspra.C57_readd_corrupts"
   ],
   "note": "the property states a defect"
  },
  {
   "property": "C55",
   "status": "proved",
   "theorems": [
    "Gaspra.C55_patch_normal_form"
   ],
   "note": ""
  },
  {
   "property": "C07",
   "status": "proved",
   "theorems": [
    "Gaspra.C07_find_lcs_multiple",
    "Gaspra.C07_no_strings",
    "Gaspra.C07_iterations"
   ],
   "note": "for user tokens that are not equal to a Separator, see C08"
  },
  {
   "property": "C08",
   "status": "proved",
   "theorems": [
    "Gaspra.C08_separator_collision"
   ],
   "note": "the property states a defect; C07 is what holds when no token equals a Separator"
  },
  {
   "property": "C38",
   "status": "proved",
   "theorems": [
    "Gaspra.C38_null_lossless",
    "Gaspra.C38_char_lossless",
    "Gaspra.C38_line_lossless",
    "Gaspra.C38_symbol_lossless",
    "Gaspra.C38_not_utf8"
   ],
   "note": "SymbolTokenizer for every character class"
  },
  {
   "property": "C39",
   "status": "proved",
   "theorems": [
    "Gaspra.C39_line_tokens",
    "Gaspra.C39_symbol_tokens",
    "Gaspra.C39_lines_unique",
    "Gaspra.C39_symbols_unique",
    "Gaspra.C39_line_encode_strings"
   ],
   "note": ""
  },
  {
   "property": "C40",
   "status": "proved",
   "theorems": [
    "Gaspra.C40_mixed_types_rejected",
    "Gaspra.C40_default_is_shared"
   ],
   "note": ""
  },
  {
   "property": "C41",
   "status": "proved",
   "theorems": [
    "Gaspra.C41_null_diff",
    "Gaspra.C41_char_diff",
    "Gaspra.C41_line_diff",
    "Gaspra.C41_symbol_diff"
   ],
   "note": ""
  },
  {
   "property": "C42",
   "status": "proved",
   "theorems": [
    "Gaspra.C42_char_versions",
    "Gaspra.C42_symbol_versions"
   ],
   "note": "contents shorter than 2**64 bytes"
  },
  {
   "property": "C43",
   "status": "proved",
   "theorems": [
    "Gaspra.C43_line_versions_wrong",
    "Gaspra.C43_whole_lines_wrong",
    "Gaspra.C43_newest_two"
   ],
   "note": "existence of wrong histories by evaluation of the model on witnesses; the newest two versions of every branch for all histories without an exception and contents shorter than 2^64-1"
  },
  {
   "property": "C52",
   "status": "proved",
   "theorems": [
    "Gaspra.C52_merged_never_returns",
    "Gaspra.C52_merged_type_error",
    "Gaspra.C52_merged_type_error_tokenizers"
   ],
   "note": ""
  },
  {
   "property": "C45",
   "status": "proved",
   "theorems": [
    "Gaspra.C45_line_diff_texts",
    "Gaspra.C45_newline_exact",
    "Gaspra.C45_consolidated_texts",
    "Gaspra.C45_adjacent_reordered"
   ],
   "note": "str.isspace is an arbitrary predicate"
  },
  {
   "property": "C46",
   "status": "proved",
   "theorems": [
    "Gaspra.C46_whole_lines",
    "Gaspra.C46_consolidated"
   ],
   "note": ""
  },
  {
   "property": "C58",
   "status": "proved",
   "theorems": [
    "Gaspra.C58_diff_alternates",
    "Gaspra.C58_line_diff_of_diff"
   ],
   "note": ""
  },
  {
   "property": "C47",
   "status": "proved",
   "theorems": [
    "Gaspra.C47_git_markup",
    "Gaspra.C47_resolve",
    "Gaspra.C47_plain_stream_incomplete"
   ],
   "note": "names must not contain a newline for reading back"
  },
  {
   "property": "C48",
   "status": "proved",
   "theorems": [
    "Gaspra.C48_rich_escape_injective",
    "Gaspra.C48_brackets_escaped",
    "Gaspra.C48_backslash_count"
   ],
   "note": "rich's own parser is not modelled"
  },
  {
   "property": "C49",
   "status": "proved",
   "theorems": [
    "Gaspra.C49_deletion_raises",
    "Gaspra.C49_no_deletion",
    "Gaspra.C49_tables_changed",
    "Gaspra.C49_inner_changed",
    "Gaspra.C49_diff_pieces",
    "Gaspra.C49_diff_lines",
    "Gaspra.C49_merge_display_raises",
    "Gaspra.C49_merge_ignores_strikeout"
   ],
   "note": "the merge display is a concrete witness; the general statements cover the table and every stream"
  },
  {
   "property": "C59",
   "status": "proved",
   "theorems": [
    "Gaspra.C59_diff_file",
    "Gaspra.C59_marker_names"
   ],
   "note": "texts are lists of code points; argparse and file access are not modelled"
  },
  {
   "property": "C60",
   "status": "proved",
   "theorems": [
    "Gaspra.C60_merge_file",
    "Gaspra.C60_merge_unchanged",
    "Gaspra.C60_merge_clean"
   ],
   "note": "as C59; merges by words and lines in general: C67"
  },
  {
   "property": "C44",
   "status": "proved",
   "theorems": [
    "Gaspra.C44_doc_roundtrip",
    "Gaspra.C44_surrogates_joined",
    "Gaspra.C44_add_manifest",
    "Gaspra.C44_new_name_fails",
    "Gaspra.C44_manifests",
    "Gaspra.C44_unknown_manifest",
    "Gaspra.C44_ordinary_failures"
   ],
   "note": "names and tags are strings; default tree and tokenizer; json.loads modelled for objects of strings only"
  },
  {
   "property": "C51",
   "status": "proved",
   "theorems": [
    "Gaspra.C51_lines",
    "Gaspra.C51_depth"
   ],
   "note": "Exact height, by showing that the tree of a line is always a comb whose chain lengths are determined by n."
  },
  {
   "property": "C61",
   "status": "proved",
   "theorems": [
    "Gaspra.C61_recursion_limit",
    "Gaspra.C61_recursion_deep"
   ],
   "note": "the limit counts nested calls of find_changeset only; the interpreter also counts the frames around them"
  },
  {
   "property": "C62",
   "status": "proved",
   "theorems": [
    "Gaspra.C62_diff_exact"
   ],
   "note": ""
  },
  {
   "property": "C63",
   "status": "proved",
   "theorems": [
    "Gaspra.C63_accepts_suffixes",
    "Gaspra.C63_minimal"
   ],
   "note": ""
  },
  {
   "property": "C64",
   "status": "proved",
   "theorems": [
    "Gaspra.C64_same_result",
    "Gaspra.C64_build_linear",
    "Gaspra.C64_lcs_linear"
   ],
   "note": "steps as defined in Model/Cost.lean; dictionary accesses count as constant"
  },
  {
   "property": "C65",
   "status": "proved",
   "theorems": [
    "Gaspra.C65_diff_cost",
    "Gaspra.C65_diff_quadratic",
    "Gaspra.C65_diff_quadratic_reached"
   ],
   "note": "counts the steps of find_lcs; slicing the inputs adds at most the lengths of the parts per call"
  },
  {
   "property": "C66",
   "status": "proved",
   "theorems": [
    "Gaspra.C66_diff_rename",
    "Gaspra.C66_changeset_rename",
    "Gaspra.C66_merge_rename"
   ],
   "note": ""
  },
  {
   "property": "C67",
   "status": "proved",
   "theorems": [
    "Gaspra.C67_line_diff",
    "Gaspra.C67_symbol_diff",
    "Gaspra.C67_merge_file",
    "Gaspra.C67_merge_clean",
    "Gaspra.C67_diff_console",
    "Gaspra.C67_merge_console"
   ],
   "note": "texts are strings; merge as C59; console as C70"
  },
  {
   "property": "C68",
   "status": "proved",
   "theorems": [
    "Gaspra.C68_old_get_split",
    "Gaspra.C68_two_heads"
   ],
   "note": "_old_update_metrics is not modelled: its result depends on the order in which SQLite evaluates the subqueries of its UPDATE"
  },
  {
   "property": "C69",
   "status": "proved",
   "theorems": [
    "Gaspra.C69_dict",
    "Gaspra.C69_collections",
    "Gaspra.C69_no_version_info",
    "Gaspra.C69_db_exact"
   ],
   "note": "the two collections use tables of different names; tags are of a type that a TEXT column returns unchanged"
  },
  {
   "property": "C70",
   "status": "proved",
   "theorems": [
    "Gaspra.C70_console_stream",
    "Gaspra.C70_diff_console",
    "Gaspra.C70_merge_console",
    "Gaspra.C70_backslash"
   ],
   "note": "rich itself is outside the model; the reading of its markup is in Spec/Rich and leaves out emoji codes, automatic highlighting and line wrapping; --diff: C71"
  },
  {
   "property": "C71",
   "status": "proved",
   "theorems": [
    "Gaspra.C71_merge_diff_console",
    "Gaspra.C71_merge_diff_file",
    "Gaspra.C71_header_not_escaped"
   ],
   "note": "console as C70; file as C59"
  },
  {
   "property": "C72",
   "status": "proved",
   "theorems": [
    "Gaspra.C72_read_valid",
    "Gaspra.C72_read_utf8",
    "Gaspra.C72_read_latin1",
    "Gaspra.C72_line_ends",
    "Gaspra.utf8Encode_eq_core",
    "Gaspra.utf8Decode_eq_core",
    "Gaspra.utf8Decode_core_text"
   ],
   "note": "opening files is not modelled; the last three identify the codec of the model with the one in the Lean library"
  },
  {
   "property": "C73",
   "status": "proved",
   "theorems": [
    "Gaspra.C73_written",
    "Gaspra.C73_diff_files",
    "Gaspra.C73_merge_files",
    "Gaspra.C73_unchanged_files",
    "Gaspra.C73_rewritten",
    "Gaspra.C73_file_name",
    "Gaspra.C73_pieces"
   ],
   "note": "newlines are written as on POSIX systems; opening files is not modelled"
  },
  {
   "property": "C74",
   "status": "proved",
   "theorems": [
    "Gaspra.C74_diff_git_console",
    "Gaspra.C74_merge_git_console",
    "Gaspra.C74_name_not_escaped",
    "Gaspra.C74_colours_in_files"
   ],
   "note": "the reading of console markup is in Spec/Rich"
  },
  {
   "property": "C75",
   "status": "proved",
   "theorems": [
    "Gaspra.C75_conflicts",
    "Gaspra.C75_together",
    "Gaspra.C75_order",
    "Gaspra.C75_stops",
    "Gaspra.C75_consolidated"
   ],
   "note": "str.isspace is an arbitrary predicate"
  },
  {
   "property": "C76",
   "status": "proved",
   "theorems": [
    "Gaspra.C76_local",
    "Gaspra.C76_between",
    "Gaspra.C76_kept"
   ],
   "note": "edits as described by the diffs; valid edits have a kept token between them"
  },
  {
   "property": "C77",
   "status": "proved",
   "theorems": [
    "Gaspra.C77_tiles",
    "Gaspra.C77_tiles_part"
   ],
   "note": ""
  },
  {
   "property": "C78",
   "status": "proved",
   "theorems": [
    "Gaspra.C78_touched",
    "Gaspra.C78_delta_size",
    "Gaspra.C78_delta_size_bounds",
    "Gaspra.C78_delta_larger"
   ],
   "note": "sizes for NullTokenizer and MemoryTree; that a delta is smaller than its version is refuted"
  },
  {
   "property": "C79",
   "status": "proved",
   "theorems": [
    "Gaspra.C79_insert_all",
    "Gaspra.C79_edges",
    "Gaspra.C79_path",
    "Gaspra.C79_path_missing",
    "Gaspra.C79_previous",
    "Gaspra.C79_report",
    "Gaspra.C79_branch",
    "Gaspra.C79_depth",
    "Gaspra.C79_states",
    "Gaspra.C79_reevaluate",
    "Gaspra.C79_reevaluate_cost"
   ],
   "note": "tags are unique, as the docstring of insert asks; the linear cost of reevaluate is refuted"
  },
  {
   "property": "C80",
   "status": "proved",
   "theorems": [
    "Gaspra.C80_writes",
    "Gaspra.C80_survives",
    "Gaspra.C80_survives_chars",
    "Gaspra.C80_survives_symbols",
    "Gaspra.C80_no_tag_lost",
    "Gaspra.C80_torn",
    "Gaspra.C80_wrong_bytes",
    "Gaspra.C80_retry_makes_it_permanent",
    "Gaspra.C80_blocked"
   ],
   "note": "MemoryTree and dictionaries; a single assignment is atomic; an added tag has no parent in the tree; the last three theorems refute stronger claims with one store each"
  },
  {
   "property": "C81",
   "status": "proved",
   "theorems": [
    "Gaspra.C81_groups",
    "Gaspra.C81_diff_file",
    "Gaspra.C81_merge_file",
    "Gaspra.C81_diff_bytes",
    "Gaspra.C81_merge_bytes"
   ],
   "note": "str.isspace and the word class are arbitrary predicates; opening files is not modelled"
  },
  {
   "property": "C82",
   "status": "proved",
   "theorems": [
    "Gaspra.C82_find_all_cost",
    "Gaspra.C82_not_found"
   ],
   "note": "passes of the loop; the sort of the positions is not counted"
  },
  {
   "property": "C83",
   "status": "proved",
   "theorems": [
    "Gaspra.C83_kept",
    "Gaspra.C83_contained",
    "Gaspra.C83_contains",
    "Gaspra.C83_not_minimal"
   ],
   "note": "kept text as in commonText (Spec/Diff.lean)"
  },
  {
   "property": "C84",
   "status": "proved",
   "theorems": [
    "Gaspra.C84_dot_complete",
    "Gaspra.C84_dot_readable",
    "Gaspra.C84_dump_depth",
    "Gaspra.C84_dump_readable",
    "Gaspra.C84_all_suffixes_depth"
   ],
   "note": "lines as values; formatting of ids and tokens is not modelled"
  },
  {
   "property": "C85",
   "status": "proved",
   "theorems": [
    "Gaspra.C85_documents",
    "Gaspra.C85_last_counts",
    "Gaspra.C85_layout"
   ],
   "note": "json.loads also accepts other documents, which the model reports as errors"
  },
  {
   "property": "C86",
   "status": "proved",
   "theorems": [
    "Gaspra.C86_landmark",
    "Gaspra.C86_same_order"
   ],
   "note": ""
  },
  {
   "property": "C87",
   "status": "proved",
   "theorems": [
    "Gaspra.C87_merge",
    "Gaspra.C87_two_changes",
    "Gaspra.C87_merge_file"
   ],
   "note": "the command line tool as in C67"
  },
  {
   "property": "C88",
   "status": "proved",
   "theorems": [
    "Gaspra.C88_stretches",
    "Gaspra.C88_lost",
    "Gaspra.C88_doubled"
   ],
   "note": "C88_lost and C88_doubled show wrong merges that the code returns without a conflict"
  },
  {
   "property": "C89",
   "status": "proved",
   "theorems": [
    "Gaspra.C89_alone",
    "Gaspra.C89_interleaving",
    "Gaspra.C89_line"
   ],
   "note": "Any tokenizer. The DBTree statement covers get, version_info and in; its exceptions follow from C36_same_errors."
  },
  {
   "property": "C90",
   "status": "proved",
   "theorems": [
    "Gaspra.C90_converted",
    "Gaspra.C90_db_exact",
    "Gaspra.C90_plain",
    "Gaspra.C90_lost",
    "Gaspra.C90_integers",
    "Gaspra.C90_integers_db",
    "Gaspra.C90_integer_text",
    "Gaspra.C90_wrong_text"
   ],
   "note": "The conversion is a parameter; the instance is for strings and integers. Float, bytes and None as tags are not modelled."
  },
  {
   "property": "C91",
   "status": "proved",
   "theorems": [
    "Gaspra.C91_settled",
    "Gaspra.C91_choices",
    "Gaspra.C91_many",
    "Gaspra.C91_order",
    "Gaspra.C91_grows",
    "Gaspra.C91_again"
   ],
   "note": "C91_grows and C91_again show a wrong merge that the code returns without a conflict"
  },
  {
   "property": "C92",
   "status": "proved",
   "theorems": [
    "Gaspra.C92_apart",
    "Gaspra.C92_exact",
    "Gaspra.C92_foreign",
    "Gaspra.C92_lost",
    "Gaspra.C92_restart",
    "Gaspra.C92_taken",
    "Gaspra.C92_case"
   ],
   "note": "Model/Database.lean has the table graph and the other tables by name; names are plain identifiers other than graph."
  },
  {
   "property": "C93",
   "status": "proved",
   "theorems": [
    "Gaspra.C93_same_result",
    "Gaspra.C93_size",
    "Gaspra.C93_quadratic",
    "Gaspra.C93_quadratic_reached"
   ],
   "note": "Copying and joining text is not counted as steps."
  },
  {
   "property": "C94",
   "status": "proved",
   "theorems": [
    "Gaspra.C94_same_result",
    "Gaspra.C94_cost",
    "Gaspra.C94_factor_reached"
   ],
   "note": "Steps are counted in Model/MultiCost.lean; dictionary accesses and set.add are part of a step; the sort is left out."
  },
  {
   "property": "C95",
   "status": "proved",
   "theorems": [
    "Gaspra.C95_same_result",
    "Gaspra.C95_stream_steps",
    "Gaspra.C95_get_cost",
    "Gaspra.C95_add_cost",
    "Gaspra.C95_add_first",
    "Gaspra.C95_unknown",
    "Gaspra.C95_split_cost",
    "Gaspra.C95_read_quadratic"
   ],
   "note": "Steps are counted in Model/VersionsCost.lean; a dictionary access is part of a step."
  },
  {
   "property": "C96",
   "status": "proved",
   "theorems": [
    "Gaspra.C96_str",
    "Gaspra.C96_bytes",
    "Gaspra.C96_decoded_str",
    "Gaspra.C96_decoded_bytes",
    "Gaspra.C96_no_error",
    "Gaspra.C96_broken"
   ],
   "note": ""
  },
  {
   "property": "C97",
   "status": "proved",
   "theorems": [
    "Gaspra.C97_char_get",
    "Gaspra.C97_symbol_get",
    "Gaspra.C97_char_add",
    "Gaspra.C97_symbol_add"
   ],
   "note": "For the memory tree and dictionaries. The heads after a history are given by the specification headsWith (Spec/Refused.lean). UTF-8 is the encoder of Model/Utf8.lean: a byte string is UTF-8 if some text encodes to it."
  },
  {
   "property": "C98",
   "status": "proved",
   "theorems": [
    "Gaspra.C98_growing_add",
    "Gaspra.C98_growing_get",
    "Gaspra.C98_front_must_be_lines"
   ],
   "note": "For the memory tree and dictionaries. Growing is the specification GrowsTo (Spec/GrowingText.lean)."
  },
  {
   "property": "C99",
   "status": "proved",
   "theorems": [
    "Gaspra.C99_delta_size",
    "Gaspra.C99_total",
    "Gaspra.C99_char_delta_size",
    "Gaspra.C99_line_delta_size"
   ],
   "note": "For the memory tree and dictionaries. Stored bytes are those of the values in the two dictionaries, without tags."
  },
  {
   "property": "C100",
   "status": "proved",
   "theorems": [
    "Gaspra.C100_diff",
    "Gaspra.C100_merge",
    "Gaspra.C100_console",
    "Gaspra.C100_unreadable",
    "Gaspra.C100_unwritable",
    "Gaspra.C100_merge_driver",
    "Gaspra.C100_torture",
    "Gaspra.C100_torture_merge",
    "Gaspra.C100_torture_regular",
    "Gaspra.C100_lost"
   ],
   "note": "The file system has names, places and contents; each read and each write is one step. C100_lost is the failure in place."
  },
  {
   "property": "C101",
   "status": "proved",
   "theorems": [
    "Gaspra.C101_any_options",
    "Gaspra.C101_with_reverse_links",
    "Gaspra.C101_without_reverse_links",
    "Gaspra.C101_terminals"
   ],
   "note": "FirstAt is the least position of an occurrence."
  },
  {
   "property": "C102",
   "status": "proved",
   "theorems": [
    "Gaspra.C102_parts",
    "Gaspra.C102_default"
   ],
   "note": "Slices with natural start; negative bounds and steps are not modelled."
  },
  {
   "property": "C103",
   "status": "proved",
   "theorems": [
    "Gaspra.C103_readable",
    "Gaspra.C103_quote",
    "Gaspra.C103_revision_arrows",
    "Gaspra.C103_revisions",
    "Gaspra.C106_numbers"
   ],
   "note": "the part of the DOT language that is needed is Spec/Dot.lean; one attribute per statement; a text with a backslash is shown by an example only"
  },
  {
   "property": "C104",
   "status": "proved",
   "theorems": [
    "Gaspra.C104_same_store",
    "Gaspra.C104_same_errors",
    "Gaspra.C104_char",
    "Gaspra.C104_symbol",
    "Gaspra.C104_lines",
    "Gaspra.C104_total",
    "Gaspra.C104_add_manifest",
    "Gaspra.C104_manifests"
   ],
   "note": "Manifests with DBTree and dictionaries; collections in place of dictionaries change nothing by C69."
  },
  {
   "property": "C105",
   "status": "proved",
   "theorems": [
    "Gaspra.C105_survives",
    "Gaspra.C105_survives_chars",
    "Gaspra.C105_survives_symbols",
    "Gaspra.C105_same",
    "Gaspra.C105_short",
    "Gaspra.C105_deep"
   ],
   "note": "The limit is a number of nested find_changeset calls, not of Python frames."
  },
  {
   "property": "C106",
   "status": "proved",
   "theorems": [
    "Gaspra.C106_doc",
    "Gaspra.C106_tags",
    "Gaspra.C106_get",
    "Gaspra.C106_never",
    "Gaspra.C106_update_fails"
   ],
   "note": "Names and tags are str or int. json.loads of other values is an error in the model. MemoryTree, dictionaries and NullTokenizer."
  },
  {
   "property": "C107",
   "status": "proved",
   "theorems": [
    "Gaspra.C107_null",
    "Gaspra.C107_char",
    "Gaspra.C107_line",
    "Gaspra.C107_symbol",
    "Gaspra.C107_at_once"
   ],
   "note": "The changes of the token sequences are computed when diff is called in the model; in the code they are computed at the first item, from immutable sequences."
  },
  {
   "property": "C108",
   "status": "proved",
   "theorems": [
    "Gaspra.C108_same_result",
    "Gaspra.C108_line_diff",
    "Gaspra.C108_consolidated",
    "Gaspra.C108_reads",
    "Gaspra.C108_output"
   ],
   "note": "Steps are counted in a copy of the model whose results are proved equal to the model's."
  },
  {
   "property": "C109",
   "status": "proved",
   "theorems": [
    "Gaspra.C109_diff",
    "Gaspra.C109_texts",
    "Gaspra.C109_apply",
    "Gaspra.C109_equal",
    "Gaspra.C109_changes",
    "Gaspra.C109_lost",
    "Gaspra.C109_merge",
    "Gaspra.C109_merge_tokens",
    "Gaspra.C109_merge_parent",
    "Gaspra.C109_exact_diff",
    "Gaspra.C109_exact_merge"
   ],
   "note": "== is given by a function key, x == y iff key x = key y, and hash agrees with it"
  },
  {
   "property": "C110",
   "status": "proved",
   "theorems": [
    "Gaspra.C110_general",
    "Gaspra.C110_complete",
    "Gaspra.C110_str",
    "Gaspra.C110_bytes",
    "Gaspra.C110_tuple",
    "Gaspra.C110_list",
    "Gaspra.C110_unmarked"
   ],
   "note": "== of tokens is identity (True as a token is left out); subclasses of int, str, bytes and tuple are left out"
  },
  {
   "property": "C111",
   "status": "proved",
   "theorems": [
    "Gaspra.C111_memory_unknown",
    "Gaspra.C111_db_unknown",
    "Gaspra.C111_db_unknown_parent",
    "Gaspra.C111_memory_unknown_parent",
    "Gaspra.C111_memory_paths_lost",
    "Gaspra.C111_memory_versions_lost"
   ],
   "note": "Direct calls of the tree methods on arbitrary trees. Versions itself never moves a version under an unknown tag."
  },
  {
   "property": "C112",
   "status": "proved",
   "theorems": [
    "Gaspra.C112_memory_root",
    "Gaspra.C112_memory_line_lost",
    "Gaspra.C112_db_base",
    "Gaspra.C112_db_root",
    "Gaspra.C112_db_damage",
    "Gaspra.C112_memory_path"
   ],
   "note": "Stated for the default tokenizer over a MemoryTree; the DBTree statements hold for any tokenizer. C112_db_damage is an existence statement."
  },
  {
   "property": "C113",
   "status": "proved",
   "theorems": [
    "Gaspra.C113_same_result",
    "Gaspra.C113_line_steps",
    "Gaspra.C113_symbol_steps",
    "Gaspra.C113_line_quadratic",
    "Gaspra.C113_line_total_le",
    "Gaspra.C113_line_once",
    "Gaspra.C113_refused",
    "Gaspra.C113_strings_steps"
   ],
   "note": "A step is one round of a loop or generator expression of generic_encode or line_encode_strings; splitting the contents into pieces is not counted."
  },
  {
   "property": "C114",
   "status": "proved",
   "theorems": [
    "Gaspra.C114_same_result",
    "Gaspra.C114_first",
    "Gaspra.C114_add",
    "Gaspra.C114_unknown_base",
    "Gaspra.C114_get",
    "Gaspra.C114_add_line",
    "Gaspra.C114_get_line"
   ],
   "note": "Statements are counted for the model of a store with all its parts in the database (C69, C104); opening tables in the constructors is not counted. C114_add assumes that the call succeeds; C114_add_line proves that it does in documented histories with NullTokenizer."
  },
  {
   "property": "C115",
   "status": "proved",
   "theorems": [
    "Gaspra.C115_shortest",
    "Gaspra.C115_fewest",
    "Gaspra.C115_not_unique"
   ],
   "note": "C115_not_unique is a witness."
  },
  {
   "property": "C116",
   "status": "proved",
   "theorems": [
    "Gaspra.C116_other_text",
    "Gaspra.C116_no_longer",
    "Gaspra.C116_replaced"
   ],
   "note": ""
  },
  {
   "property": "C117",
   "status": "proved",
   "theorems": [
    "Gaspra.C117_ascii",
    "Gaspra.C117_ascii_exact",
    "Gaspra.C117_heads",
    "Gaspra.C117_wrong"
   ],
   "note": "C117_wrong consists of witnesses. SymbolTokenizer under another Unicode version is modelled as another word class."
  },
  {
   "property": "C118",
   "status": "proved",
   "theorems": [
    "Gaspra.C118_commits",
    "Gaspra.C118_survives",
    "Gaspra.C118_survives_chars",
    "Gaspra.C118_survives_symbols",
    "Gaspra.C118_no_tag_lost",
    "Gaspra.C118_torn",
    "Gaspra.C118_refused",
    "Gaspra.C118_wrong_bytes",
    "Gaspra.C118_blocked"
   ],
   "note": ""
  },
  {
   "property": "C119",
   "status": "proved",
   "theorems": [
    "Gaspra.C119_exchanged",
    "Gaspra.C119_backwards",
    "Gaspra.C119_longest_piece",
    "Gaspra.C119_backwards_differs"
   ],
   "note": ""
  },
  {
   "property": "C120",
   "status": "proved",
   "theorems": [
    "Gaspra.C120_merge_status",
    "Gaspra.C120_diff_status",
    "Gaspra.C120_same_output"
   ],
   "note": "Python exits with status 1 after an exception that is not caught and with 0 after the functions return None."
  },
  {
   "property": "C121",
   "status": "proved",
   "theorems": [
    "Gaspra.C121_exact",
    "Gaspra.C121_database",
    "Gaspra.C121_cut_lines",
    "Gaspra.C121_line_tokenizer"
   ],
   "note": "Shows which property of LineTokenizer breaks C43, and that leaving out the empty last line repairs it."
  },
  {
   "property": "C122",
   "status": "proved",
   "theorems": [
    "Gaspra.C122_memory",
    "Gaspra.C122_database",
    "Gaspra.C122_history",
    "Gaspra.C122_same_name"
   ],
   "note": "For tags that a database column returns unchanged; numbers in TEXT columns: C90. The model gives tags an equality and nothing else, as the code only hashes and compares them for equality; the claim is what follows from that."
  },
  {
   "property": "C123",
   "status": "proved",
   "theorems": [
    "Gaspra.C123_difflib",
    "Gaspra.C123_swapped",
    "Gaspra.C123_same_length",
    "Gaspra.C123_positions_differ",
    "Gaspra.C123_rounds",
    "Gaspra.C123_quadratic"
   ],
   "note": "`SequenceMatcher.find_longest_match` is not part of the project; it is modelled from Lib/difflib.py of CPython 3.11 for the call in the benchmark only (no junk, autojunk=False, default ranges). Timing, printing and the table are not modelled."
  },
  {
   "property": "C124",
   "status": "proved",
   "theorems": [
    "Gaspra.C124_same_store",
    "Gaspra.C124_exact",
    "Gaspra.C124_diff",
    "Gaspra.C124_differ",
    "Gaspra.C124_exactly"
   ],
   "note": "The class `[\\w\\d$-]` is a parameter of the model; the Unicode tables of Python are not modelled. The converse is for the tree in memory and tags that are numbers."
  },
  {
   "property": "C125",
   "status": "proved",
   "theorems": [
    "Gaspra.C125_exactly",
    "Gaspra.C125_otherwise",
    "Gaspra.C125_safe",
    "Gaspra.C125_swap"
   ],
   "note": "The exact condition is stated in Spec/BytesMerge.lean on the edits of the two diffs, without reference to the fragment loop."
  },
  {
   "property": "C126",
   "status": "proved",
   "theorems": [
    "Gaspra.C126_diff",
    "Gaspra.C126_merge",
    "Gaspra.C126_begins",
    "Gaspra.C126_stops",
    "Gaspra.C126_enough",
    "Gaspra.C126_lost"
   ],
   "note": "The limit is the number of nested find_changeset calls, separately for the three places that call it; frames of other functions are not counted."
  },
  {
   "property": "C127",
   "status": "proved",
   "theorems": [
    "Gaspra.C127_diff",
    "Gaspra.C127_merge",
    "Gaspra.C127_diff_readable",
    "Gaspra.C127_merge_readable",
    "Gaspra.C127_clean",
    "Gaspra.C127_ambiguous"
   ],
   "note": "--strikeout of gaspra-diff and merges with --diff are not treated here; C127_clean and C127_ambiguous are for output without --show-lines"
  },
  {
   "property": "C128",
   "status": "proved",
   "theorems": [
    "Gaspra.C128_confined",
    "Gaspra.C128_lines",
    "Gaspra.C128_spreads",
    "Gaspra.C128_head",
    "Gaspra.C128_delta",
    "Gaspra.C128_missing"
   ],
   "note": "Histories are documented (each base is a head) with null tokenizer; the texts are shorter than 2^64. The damage is to one tag at a time; damage to the tree itself is not treated."
  },
  {
   "property": "C129",
   "status": "proved",
   "theorems": [
    "Gaspra.C129_goes_on",
    "Gaspra.C129_head",
    "Gaspra.C129_lost"
   ],
   "note": "Documented histories, null tokenizer, texts shorter than 2^64; the tree is not damaged."
  },
  {
   "property": "C130",
   "status": "proved",
   "theorems": [
    "Gaspra.C130_two_way",
    "Gaspra.C130_no_parent",
    "Gaspra.C130_all_in_conflict",
    "Gaspra.C130_commands"
   ],
   "note": "C130_all_in_conflict is for str and tuples, because bytes may raise TypeError (C125). C130_commands needs --output, since gaspra-diff escapes the file names on the console and gaspra-merge does not, and no --strikeout, which only gaspra-diff obeys."
  },
  {
   "property": "C131",
   "status": "proved",
   "theorems": [
    "Gaspra.C131_as_memory",
    "Gaspra.C131_confined",
    "Gaspra.C131_lines",
    "Gaspra.C131_goes_on",
    "Gaspra.C131_lost"
   ],
   "note": "Damage to the rows of the tree's own table is not covered: a tree changed behind the program's back need not be a tree any more."
  },
  {
   "property": "C132",
   "status": "proved",
   "theorems": [
    "Gaspra.C132_lines",
    "Gaspra.C132_lines_file",
    "Gaspra.C132_lines_joined",
    "Gaspra.C132_words",
    "Gaspra.C132_words_joined",
    "Gaspra.C132_words_file"
   ],
   "note": "For str contents. The class of word characters is a parameter, as in C38."
  },
  {
   "property": "C133",
   "status": "proved",
   "theorems": [
    "Gaspra.C133_inner",
    "Gaspra.C133_insertions",
    "Gaspra.C133_found",
    "Gaspra.C133_end",
    "Gaspra.C133_start"
   ],
   "note": "C133_inner and C133_insertions take the diff with the insertion as a hypothesis; C133_found derives it for one insertion from conditions on the texts alone."
  },
  {
   "property": "C134",
   "status": "proved",
   "theorems": [
    "Gaspra.C134_same_stretches",
    "Gaspra.C134_append",
    "Gaspra.C134_insert"
   ],
   "note": "C134_insert assumes that the insertions have no token of the parent and that the part behind them does not begin earlier in the parent, as C133_found does."
  },
  {
   "property": "C135",
   "status": "proved",
   "theorems": [
    "Gaspra.C135_sides",
    "Gaspra.C135_file",
    "Gaspra.C135_append_lines"
   ],
   "note": "C135_file and C135_append_lines are for git-compatible output to a file without --diff, as C67_merge_file."
  },
  {
   "property": "C136",
   "status": "proved",
   "theorems": [
    "Gaspra.C136_aligned",
    "Gaspra.C136_positions"
   ],
   "note": "C136_positions states the condition with positions in the parent. Not covered are changes of different stretches that overlap and insertions next to a change of the other branch; C20, C21, C88, C130 and C133 describe what goes wrong there."
  },
  {
   "property": "C137",
   "status": "proved",
   "theorems": [
    "Gaspra.C137_sides",
    "Gaspra.C137_file"
   ],
   "note": "The text is specified with the edits of the two diffs and positions in the parent (`resolvedText`), without the merge algorithm. For changes that overlap without being of the same stretch it is false (example beside the theorem, and C20, C21)."
  },
  {
   "property": "C138",
   "status": "proved",
   "theorems": [
    "Gaspra.C138_sides",
    "Gaspra.C138_file",
    "Gaspra.C138_consolidate"
   ],
   "note": "Extends C137 to changes of different lengths. The two exceptions in the hypothesis are needed: examples beside the theorem show a change that touches such a conflict and becomes part of it, and an insertion and a deletion at one place, which are both applied."
  },
  {
   "property": "C139",
   "status": "proved",
   "theorems": [
    "Gaspra.C139_inserted",
    "Gaspra.C139_file"
   ],
   "note": "Common text has no such guarantee (C88: it may be lost or doubled), and the side need not be that of the branch (C21; example beside the theorem)."
  },
  {
   "property": "C140",
   "status": "proved",
   "theorems": [
    "Gaspra.C140_whole",
    "Gaspra.C140_file"
   ],
   "note": "The edits are those of the diffs from the parent to the branches; the some of the changes are a sublist of them. The hypothesis is Edit.Aligned of C21; an example shows that without it a side can lack its own branch's change. C138 says exactly which changes of the other branch are there if in addition nothing touches a conflict."
  },
  {
   "property": "C141",
   "status": "proved",
   "theorems": [
    "Gaspra.C141_exact",
    "Gaspra.C141_file"
   ],
   "note": "The changes that count are given by Boolean functions k0 and k1 that agree with CountsBeside on the edits of the diffs; such functions always exist. OpenAt is an inductive predicate on the two lists of edits and does not mention the merge. Contains C140 and, where nothing touches, C138."
  },
  {
   "property": "C142",
   "status": "proved",
   "theorems": [
    "Gaspra.C142_exchange",
    "Gaspra.C142_clean",
    "Gaspra.C142_file"
   ],
   "note": "Follows from C141, whose description of the sides does not depend on the order. The positions of the conflicts are not compared, only the texts; C20 has the example that without the hypothesis the order matters."
  }
 ]
}