# Formal model of mawicks/gaspra in Lean 4

## Method

The model is a set of total, computable Lean functions that mirror the Python
functions branch by branch (`lean/Verif/Model/*.lean`); every definition cites the
file and lines it models.  Specifications are small separate definitions
(`lean/Verif/Spec/*.lean`) that do not mention the model's helpers.  Lemmas live in
`lean/Verif/Proofs/*.lean`; the property theorems, named after the property they prove,
live in `lean/Verif/Props/*.lean` with concrete `example`s beside them.
`properties.jsonl` states the properties in words, `MANIFEST.json` lists their theorems,
`seeded/LOG.jsonl` records wrong programs that the theorems were tested against.  For most lines the edited model was built and
the theorems whose proofs no longer check are listed; the lines whose note begins with "test of the statements" were
found by evaluating the statements for the edited model on random inputs instead, which finds statements that are
false of the wrong program, not only proofs that break.

Modelling conventions

* A Python sequence (str / bytes / tuple) is `List α` with `DecidableEq α` (token `==`/hash).
  Where the concrete Python type matters (the `""` literals of `merge.py`, the type
  checks of the tokenizers) it is modelled explicitly.  A `str` is a list of code points
  (`List Nat`), `bytes` is `List UInt8`.
* Mutable object graphs (suffix-automaton nodes, tree nodes) are heaps indexed by
  creation order (`Node.id`) or by tag; a mutating function returns the new heap.
* A `dict` is an insertion-ordered association list.
* A `while` loop is structural recursion on a fuel argument with result `Option`/`Except`;
  running out of fuel is a distinguished result that the theorems prove unreachable
  (so termination is proved, not assumed).
* An exception is a value; functions that mutate state before raising return the
  partially updated state together with the exception.
* A generator is the list of the items it yields (with the exception that ends it, if any).
  Generators in gaspra are consumed completely by their callers; interleaving of a consumer's
  side effects with a lazy producer is modelled only for the `diff` of the tokenizers (C107).

## Trusted base

* The Lean 4.33.0 kernel and the axioms listed below.  No own axioms, no `sorry`, no
  `native_decide`, no `bv_decide`.  Nothing from Mathlib is imported.
* The reading of the Python code into the model (cited line by line).
* The semantics of Python built-ins and of the standard library as written in
  `Model/Py.lean` (dict order, slices, `sorted`), `Model/Utf8.lean` (strict UTF-8 codec, proved equal to the one
  of Lean's core library in `Proofs/Utf8Core.lean`),
  `Model/Manifest.lean` (`json.dumps`, and `json.loads` of objects whose values are strings),
  `Model/Tokenizers.lean` (`split`, `re.findall` with the pattern of `SymbolTokenizer`),
  `Model/Serialize.lean` (`struct`, `int.to_bytes`, exactness of `x / 256` for `x < 2**16`).
* The semantics of the SQL statements as written in `Model/DBTree.lean` and
  `Model/DBCollection.lean`: a table is the list of its rows, the rowid of a row is its position
  plus one, a `with connection` block is a transaction that is rolled back when it raises, text
  columns return strings unchanged.

### Axioms of each theorem in MANIFEST.json

* `propext`, `Classical.choice`, `Quot.sound`: C01_empty_iff, C01_empty_pattern, C01_find_substring_all, C02_first_occurrence, C03_C04_find_lcs, C03_find_lcs_longest, C04_find_lcs_first, C05_all_suffixes, C06_size, C07_find_lcs_multiple, C07_iterations, C07_no_strings, C08_separator_collision, C09_diff_reconstructs, C100_console, C100_diff, C100_lost, C100_merge, C100_merge_driver, C100_torture, C100_torture_merge, C100_torture_regular, C100_unreadable, C100_unwritable, C101_any_options, C101_terminals, C101_with_reverse_links, C101_without_reverse_links, C102_parts, C103_quote, C103_readable, C103_revision_arrows, C103_revisions, C104_add_manifest, C104_char, C104_lines, C104_manifests, C104_same_errors, C104_same_store, C104_symbol, C104_total, C105_deep, C105_same, C105_short, C105_survives, C105_survives_chars, C105_survives_symbols, C106_doc, C106_get, C106_never, C106_numbers, C106_tags, C106_update_fails, C107_char, C107_line, C107_null, C107_symbol, C108_consolidated, C108_line_diff, C108_output, C108_reads, C109_apply, C109_changes, C109_diff, C109_equal, C109_exact_diff, C109_exact_merge, C109_lost, C109_merge_parent, C109_texts, C10_apply_both_ways, C110_bytes, C110_complete, C110_general, C110_list, C110_str, C110_tuple, C110_unmarked, C111_db_unknown_parent, C111_memory_paths_lost, C111_memory_versions_lost, C112_db_root, C112_memory_line_lost, C112_memory_root, C113_line_once, C113_line_quadratic, C113_line_total_le, C113_symbol_steps, C114_add, C114_add_line, C114_get, C114_get_line, C114_unknown_base, C115_fewest, C115_shortest, C116_no_longer, C116_other_text, C116_replaced, C117_ascii, C117_ascii_exact, C117_heads, C117_wrong, C118_blocked, C118_no_tag_lost, C118_refused, C118_survives, C118_survives_chars, C118_survives_symbols, C118_torn, C119_backwards, C119_backwards_differs, C119_exchanged, C119_longest_piece, C11_old_apply, C120_diff_status, C120_merge_status, C120_same_output, C121_database, C121_exact, C122_database, C122_history, C123_difflib, C123_positions_differ, C123_quadratic, C123_rounds, C123_same_length, C123_swapped, C124_differ, C124_exact, C124_exactly, C124_same_store, C125_exactly, C125_otherwise, C125_safe, C125_swap, C126_begins, C126_diff, C126_enough, C126_lost, C126_merge, C126_stops, C127_ambiguous, C127_clean, C127_diff, C127_diff_readable, C127_merge, C127_merge_readable, C128_confined, C128_delta, C128_head, C128_lines, C128_missing, C128_spreads, C129_goes_on, C129_head, C129_lost, C12_diff_normal_form, C130_all_in_conflict, C130_commands, C130_no_parent, C130_two_way, C131_as_memory, C131_confined, C131_goes_on, C131_lines, C131_lost, C132_lines, C132_lines_file, C132_lines_joined, C132_words, C132_words_file, C132_words_joined, C133_end, C133_found, C133_inner, C133_insertions, C133_start, C134_append, C134_insert, C134_same_stretches, C135_append_lines, C135_file, C135_sides, C136_aligned, C136_positions, C137_file, C137_sides, C138_consolidate, C138_file, C138_sides, C139_file, C139_inserted, C13_diff_self, C13_no_change_eq, C140_file, C140_whole, C141_exact, C141_file, C142_clean, C142_exchange, C142_file, C14_lcs_survives, C15_merge_unchanged, C16_merge_identical, C17_merge_normal_form, C18_clean_merge, C19_tokens, C20_not_symmetric, C20_symmetric_of_compatible, C21_sides_mixed_up, C21_sides_of_aligned, C22_bytes_type_error, C22_no_exception, C23_vint_roundtrip, C24_shortest, C24_vint_length, C24_vint_order, C25_changeset_roundtrip, C25_changeset_roundtrip_exact, C25_refused, C26_truncation, C27_get_exact, C28_membership, C29_storage, C30_version_info, C31_failing_add, C31_heads, C33_forest, C34_metrics, C35_get_split, C35_order, C36_db_exact, C36_same_answers, C36_same_errors, C36_same_rows, C36_same_tree, C37_collection, C37_same_as_dict, C38_char_lossless, C38_line_lossless, C38_not_utf8, C38_symbol_lossless, C39_symbol_tokens, C40_mixed_types_rejected, C41_char_diff, C41_line_diff, C41_null_diff, C41_symbol_diff, C42_char_versions, C42_symbol_versions, C43_newest_two, C44_add_manifest, C44_doc_roundtrip, C44_manifests, C44_new_name_fails, C44_unknown_manifest, C45_adjacent_reordered, C45_consolidated_texts, C45_line_diff_texts, C45_newline_exact, C46_consolidated, C46_whole_lines, C47_git_markup, C47_plain_stream_incomplete, C47_resolve, C49_diff_lines, C49_diff_pieces, C49_merge_display_raises, C49_merge_ignores_strikeout, C51_depth, C51_lines, C52_merged_type_error, C52_merged_type_error_tokenizers, C53_deserialize_total, C55_patch_normal_form, C57_readd_db, C57_readd_memory, C58_diff_alternates, C58_line_diff_of_diff, C59_diff_file, C59_marker_names, C60_merge_clean, C60_merge_file, C60_merge_unchanged, C61_recursion_deep, C61_recursion_limit, C62_diff_exact, C63_accepts_suffixes, C63_minimal, C64_build_linear, C64_lcs_linear, C65_diff_cost, C65_diff_quadratic, C65_diff_quadratic_reached, C66_changeset_rename, C66_diff_rename, C66_merge_rename, C67_diff_console, C67_line_diff, C67_merge_clean, C67_merge_console, C67_merge_file, C67_symbol_diff, C68_old_get_split, C69_collections, C69_db_exact, C70_backslash, C70_console_stream, C70_diff_console, C70_merge_console, C71_header_not_escaped, C71_merge_diff_console, C71_merge_diff_file, C72_line_ends, C72_read_latin1, C72_read_utf8, C72_read_valid, C73_diff_files, C73_file_name, C73_merge_files, C73_pieces, C73_rewritten, C73_unchanged_files, C73_written, C74_colours_in_files, C74_diff_git_console, C74_merge_git_console, C74_name_not_escaped, C75_conflicts, C75_consolidated, C75_order, C75_stops, C75_together, C76_between, C76_kept, C76_local, C77_tiles, C77_tiles_part, C78_delta_larger, C78_delta_size, C78_delta_size_bounds, C79_branch, C79_depth, C79_edges, C79_insert_all, C79_path, C79_path_missing, C79_previous, C79_reevaluate, C79_reevaluate_cost, C79_report, C79_states, C80_blocked, C80_no_tag_lost, C80_survives, C80_survives_chars, C80_survives_symbols, C80_torn, C81_diff_bytes, C81_diff_file, C81_groups, C81_merge_bytes, C81_merge_file, C82_find_all_cost, C82_not_found, C83_contained, C83_contains, C83_kept, C83_not_minimal, C84_all_suffixes_depth, C84_dot_complete, C84_dot_readable, C84_dump_depth, C84_dump_readable, C85_documents, C85_layout, C86_landmark, C86_same_order, C87_merge, C87_merge_file, C87_two_changes, C88_doubled, C88_lost, C88_stretches, C89_alone, C89_interleaving, C89_line, C90_converted, C90_db_exact, C90_integer_text, C90_integers, C90_integers_db, C90_lost, C90_plain, C91_again, C91_choices, C91_grows, C91_many, C91_order, C91_settled, C92_apart, C92_case, C92_exact, C92_foreign, C92_lost, C92_restart, C92_taken, C93_quadratic, C93_quadratic_reached, C93_size, C94_cost, C94_factor_reached, C95_add_cost, C95_get_cost, C95_read_quadratic, C96_decoded_bytes, C96_decoded_str, C97_char_add, C97_char_get, C97_symbol_add, C97_symbol_get, C98_growing_add, C98_growing_get, C99_char_delta_size, C99_delta_size, C99_line_delta_size, C99_total, editsOf_describe_branch, utf8Decode_core_text, utf8Decode_eq_core, utf8Encode_eq_core.
* `propext`, `Quot.sound`: C108_same_result, C109_merge, C109_merge_tokens, C111_db_unknown, C111_memory_unknown, C111_memory_unknown_parent, C112_db_damage, C113_line_steps, C113_same_result, C113_strings_steps, C118_commits, C121_cut_lines, C121_line_tokenizer, C122_memory, C124_diff, C23_vint_overflow, C32_reuse_corrupts, C32_self_parent_never_ends, C39_line_encode_strings, C39_line_tokens, C39_lines_unique, C39_symbols_unique, C43_line_versions_wrong, C43_whole_lines_wrong, C49_deletion_raises, C49_no_deletion, C50_common_prefix_length, C54_int_overflow, C54_int_read, C54_int_roundtrip, C64_same_result, C69_dict, C78_touched, C80_writes, C85_last_counts, C90_wrong_text, C93_same_result, C94_same_result, C95_same_result, C95_stream_steps, C96_broken, C96_bytes, C98_front_must_be_lines.
* `propext`: C102_default, C112_db_base, C112_memory_path, C113_refused, C114_first, C114_same_result, C118_wrong_bytes, C122_same_name, C32_self_base, C38_null_lossless, C40_default_is_shared, C44_ordinary_failures, C44_surrogates_joined, C48_backslash_count, C48_brackets_escaped, C48_rich_escape_injective, C49_inner_changed, C49_tables_changed, C52_merged_never_returns, C56_slot_overwritten, C57_readd_corrupts, C68_two_heads, C80_retry_makes_it_permanent, C80_wrong_bytes, C95_add_first, C95_split_cost, C95_unknown, C96_no_error, C96_str.
* no axioms: C115_not_unique, C69_no_version_info.
* `Quot.sound`: C107_at_once.

## What is modelled

| source | model | remarks |
|--------|-------|---------|
| `suffix_automaton.py`, `wrappers.py` | `Model/SuffixAutomaton.lean` | `__str__` and the `__main__` block are left out; `dump` is in `Model/Dump.lean`. Node equality `transitions[token] == q` (dataclass `__eq__`) is equality of ids, which are unique per automaton and are the first compared field. |
| `dump` of `suffix_automaton.py`, `dump` of `dot_dump.py` | `Model/Dump.lean` | Lines are values; the recursion limit of Python is the fuel. |
| `multiple_strings.py` | `Model/MultipleStrings.lean` | Tokens are a disjoint sum of user tokens and separators (C07); the code is also modelled for an arbitrary confusion of the two (C08). |
| `types.py`, `changesets.py` | `Model/Changesets.lean` | complete; the depth of the recursion is C61 |
| `common.py` | `Model/Changesets.lean` | `common_prefix_length` |
| `changesets.py`, `merge.py` for tokens whose `==` is coarser than identity | `Model/Keyed.lean` | `==` is an equivalence that agrees with `hash` (so no NaN) |
| `merge.py` | `Model/Merge.lean` | complete; the stacks are popped at the other end; `Side.strLit` is the literal `""` |
| `serialize.py` | `Model/Serialize.lean` | items of other types (RuntimeError) are left out; big-endian `Q`, `H`, `B`, `I` |
| `memory_tree.py`, `tree.py` | `Model/MemoryTree.lean` | complete except for output; tags are different from `None` there (`None` as a tag: `Model/NoneTag.lean`, C112) |
| `versions.py` | `Model/Versions.lean` | for any tree and any tokenizer; contents are `bytes`. `Model/VersionsStore.lean` is the same code over any mappings. |
| `versions.py:add` under the recursion limit | `Model/VersionsLimit.lean` | the limit is the number of nested `find_changeset` calls, one limit for each call of `add`; the few frames of the other functions are not counted |
| `db_tree.py`, `db_tree_sql.py`, `db_connections.py` | `Model/DBTree.lean` | tags are of a type that a TEXT column returns unchanged (tags that it converts: `Model/DBTags.lean`, C90; `None` as a tag: `Model/NoneTag.lean`, C112; float and bytes as tags are not modelled); `_old_update_metrics` and the indices are left out; `old_get_split` in `Model/DBTreeOld.lean` |
| `db_connections.py`, `__init__` of `DBTree` and `DBCollection` | `Model/Database.lean` | one database with the table `graph` and the tables of the collections by name (plain identifiers, not `graph`, upper and lower case the same); every method is one transaction and no other process writes |
| `db_collections.py` | `Model/DBCollection.lean` | as above; order of iteration is not specified by SQL and not claimed |
| `tokenizers.py` | `Model/Tokenizers.lean`, `Model/Utf8.lean`, `Model/LazyDiff.lean` (the generator of `diff`, read item by item between further calls) | the Unicode class `\w` is an arbitrary predicate |
| `tokenizers.py:LineTokenizer` with another way of cutting | `Model/OwnTokenizer.lean` | for tokenizers a caller may pass as `tokenizer_factory`: the function that cuts texts is a parameter |
| `difflib_benchmark.py:difflib_lcs`, `string_matching_lcs` | `Model/Difflib.lean` | `find_longest_match` belongs to the standard library and is modelled from `Lib/difflib.py` of CPython 3.11, for no junk, `autojunk=False` and the default ranges; its rounds are counted |
| `manifest.py` | `Model/Manifest.lean`, `Model/ManifestNumbers.lean` | names and tags are strings, in the second file strings or integers; `loads` of other documents is reported as an error |
| `diff_to_lines.py` | `Model/DiffToLines.lean` | fragments are strings; `str.isspace` is an arbitrary predicate |
| `diff_to_lines.py`, `tokenizers.py` (`decode_and_line_diff_changes`) | `Model/LinesAny.lean` | the same over texts of either type; `str.isspace` is an arbitrary predicate |
| `markup.py` | `Model/Markup.lean` | what is passed to `print`; how rich reads its markup is a specification (`Spec/Rich.lean`), not a model of rich |
| `merge_tool.py` (`get_text`), `markup.py` (`file_writer`) | `Model/Files.lean` | decoding, newlines and encoding; POSIX newlines on output |
| `merge_tool.py` | `Model/MergeTool.lean` | functions of the parsed arguments and file texts; argparse and the console are left out; opening files is in `Model/Commands.lean`. The module-level style tables are state. |
| `suffix_automaton.py` (`build` with its options) | `Model/BuildOptions.lean` | `reverse_links` and `mark_terminals`; `empty` and the types of the results of `all_suffixes` are in `Model/SuffixTypes.lean` |
| `changesets.py` (`find_changeset` with slices) | `Model/ChangesetParts.lean` | bounds are natural numbers or, for the stop, missing |
| `merge_tool.py` (the commands), `torture_test.py` | `Model/Commands.lean` | a file system maps names to places and places to contents; reading and writing are each one step (no other process, no full disk); the abort during a write happens at the character that cannot be encoded; `get_usage` is left out |
| `dot_dump.py` (`dot_dump`, `revision_dot_dump`) | `Model/DotFile.lean` | the characters of the files, as if the import of `gaspra.revision_tree` succeeded; tags are natural numbers; graphviz is a specification (`Spec/Dot.lean`) |
| `src/deprecated/revision_tree.py` | `Model/RevisionTree.lean` | references are tags, which are unique; `timing_experiment` is left out |
| `versions.py:add`, `memory_tree.py` write by write | `Model/Interrupt.lean` | for the in-memory tree and dictionaries: the store after every assignment and deletion, each of which is taken to be done completely or not at all |
| `versions.py:add`, `db_tree.py` transaction by transaction | `Model/InterruptDB.lean` | for `DBTree` and dictionaries: the store after every transaction; an exception inside a transaction rolls it back |
| `merge_tool.py`, `merge.py`, `changesets.py` under the recursion limit | `Model/CommandsLimit.lean` | the limit is the number of nested `find_changeset` calls, one limit for each of the three places that call it; other frames are not counted; a generator raises when its first item is read, after the header |

Not modelled at all: the rest of `difflib_benchmark.py` (random strings, timing, table), `examples.py`,
memory, SQLite durability and concurrency.  The recursion limit is modelled for
`find_changeset` (C61), `Versions.add` (C105), the commands (C126), `dump` and `all_suffixes` (C84) only.  Running time is modelled as a number of steps for `build`, `find_lcs`,
`find_changeset` (`Model/Cost.lean`, C64 and C65), `merge_token_sequence` (`Model/MergeCost.lean`,
C93), `find_lcs` over several strings (`Model/MultiCost.lean`, C94), line diffs (`Model/LinesCost.lean`, C108), numbering pieces in tokenizers (`Model/TokenizerCost.lean`, C113), the number of SQL statements of a version store in a database (`Model/DBCost.lean`, C114) and a version store with `MemoryTree` and
`NullTokenizer` (`Model/VersionsCost.lean`, C95) only; a dictionary access counts
as part of a step, and sorting, the comparison `fragment0 == longer` of `copy_copy` and, except for C95 and C108,
slicing and joining are not counted.

## How the properties are proved

| id | proof |
|----|-------|
| C01, C02, C05 | invariant "each node stands for a class of words with the same end positions", preserved by `extend`; queries read it off |
| C03, C04 | loop invariant "current state and length represent the longest suffix of the read text that occurs in a" |
| C06 | each `extend` adds at most 2 nodes; transitions counted by spanning tree plus suffixes |
| C63 | two nodes reached in the same state of another automaton have the same end positions |
| C64 | amortised: the potential is the length of the node two suffix links above the last one; copied transitions are paid for by the number of edges |
| C65 | induction over the changeset, one linear pass per level |
| C07, C08 | depth-first search invariant over the automaton of the joined strings, termination by acyclicity; C08 by a witness |
| C09-C14, C55, C61, C62 | induction on the recursion of `find_changeset`, using C03/C04 at each level |
| C15-C22 | termination measure; simulation of the two fragment streams; the false claims are refuted by kernel-evaluated witnesses |
| C23-C26, C53, C54 | arithmetic, induction over pieces and over truncation points |
| C27-C35, C57 | invariant over histories: forest, and the stored delta of each node maps the content of its parent to its own |
| C36, C56 | simulation relation between the two trees, step by step |
| C37 | refinement of the table to a finite map |
| C68 | the columns for children and `parent_rid` hold the same tree in every reachable table |
| C69 | simulation of the dictionaries by any mappings that behave like them |
| C38-C41, C52, C58 | injective numbering invariant of the token dictionary |
| C42, C43 | the invariant of C27 for every lossless tokenizer whose pieces re-tokenize to themselves; C43 by witnesses, and for the newest two versions by comparison with the store without a tokenizer |
| C44 | invariant over manifest histories on top of C27, and a verified JSON round trip |
| C45, C46 | accumulator invariant |
| C47-C49 | structural induction; witnesses for the defects |
| C51 | the tree of a line of versions is always a comb whose chain lengths are determined by the number of versions |
| C59, C60 | composition of C41/C58, C45, C46 and C47 |
| C66 | every function of the model commutes with an injective renaming; renamings injective on the inputs by passing to the subtype of the tokens in use |
| C70 | rendering by structural induction, then as C59 and C67 |
| C67 | C66 for the numbering of the pieces, then as C60; console output through C70 |
| C71 | the three parts of a run with `--diff` (`mergeCli_diff`), each as C70 or C60 |
| C72 | induction on the text; UTF-8 round trip of C38 |
| C73 | C59, C60 and C67 with C72; the characters written are those of the texts, names and markers |
| C74 | as C47 and C70, with the two styles mixed |
| C75 | the pieces held back by the accumulator, followed through every step (`Holds`, `Stepped`) |
| C76 | the merge loop run on two streams cut in a copied token gives the two halves (`mergeLoop_cut`); streams are rebuilt from edits (`streamOf`) |
| C77 | induction over the recursion of `find_changeset`, as C09 |
| C78 | cases of `versionsAdd`; induction over the changeset tree for the size; the tree of the family is a comb as in C61 |
| C79 | the nodes in `index` represent a tree (`Rep`); an insertion moves the lower part of a path; after `k * k` insertions the tree is a line of `k` nodes with a path of `k - 1` nodes at each (`GridT`) |
| C80 | an invariant of stores that allows one tag to be halfway between two parents (`SafeBut`, `Halfway`), kept by every write (`add_states`); every entry of the list is reached from the one before by one write (`add_runs`) |
| C81 | the steps of C75; a text item ends a group; every conflict has a change, so changes in `spell` are counted; the middle lines of a piece are yielded as text (`Cut.line`) |
| C82 | nodes of prefixes are counted by their end position, the others by the first occurrence preceded by another letter |
| C83 | from C62; the family has two equally long common substrings in opposite order (`famA`, `famB`) |
| C84 | depth-first search: what is written is closed under transitions and contains the root; the first transition of the node of a prefix stays the next token of the text (`Firsts`) |
| C85 | the scanner is sound and complete for the grammar of Spec/Json.lean, by induction on the derivation and on the fuel |
| C86 | equal tokens are on the same side of a landmark, so a longest common substring is before it, behind it, or extends over all of it; induction on `IsDiff` |
| C87 | C86 for unchanged text together with the regions a branch leaves alone; the two diffs, spelled out token by token, can be read side by side (`SideBySide`), which gives compatible edits for C18 and the merged text |
| C88 | both diffs follow the regions (C87); a merge can be cut at a token kept by both (`mergeOf_cut` of C76), so it is the merges of the stretches side by side; for the wrong merges the two diffs are found from C62 and merged by C18 |
| C89 | simulation between the store and the store of the calls in `P`: the nodes of `P` agree up to metrics and order numbers, whose comparisons agree; heights then agree by induction, so `get_split` takes the same path; calls outside `P` only touch nodes outside |
| C90 | one call with tags that the columns convert is the call with converted tags, because `get_split` goes strictly down; with dictionaries: the dictionaries only know unconverted tags, the table only converted ones, and parents come later in the table, so `path_to` ends at a tag without text |
| C91 | both diffs follow the stretches (C88); a stretch without kept tokens is one change in each of them, so equal stretches are equal edits; sets of changes at spots are the case where every stretch is settled; for the growing text the diffs are found from C62 |
| C92 | the tree of all stores restricted to the tags of one is the tree of this store alone (the lemmas of C89, with the tables of each store agreeing on its own tags and empty outside them); the table `graph` represents the common tree (C36) and collections behave as dictionaries (C69) |
| C93 | any additive measure of the texts (a count of one token, the length) does not grow in a round of `_merge`, where at least one fragment is used up, nor in the two passes of `consolidate`; the costs of the diffs (C65) of groups of conflicts add up to at most the square of the sum of their sizes |
| C94 | a second potential beside the one of C07: a node that is not yet known still owes 2k+5 steps per transition and two more; a set of strings has at most k elements, so the unions of one node cost at most 2k+1 per transition; the lower bound comes from `get_string_offsets`, which starts at the first position for every string |
| C95 | every round of the reader copies at most twice the rest of the stream, so r(r+1) is a potential; a writer copies the result at most four times per item; the stored height gives the length of the walk to the split, and the comb of C51 gives at most two children per tag; the lower bound counts the slices of the delta of C78 |
| C96 | on `str` a simulation of `toLineDiff`; on `bytes` the loop only collects changes, by induction |
| C97 | the invariant of C31 with refused contents only at tags that are alone in their tree |
| C98 | the patch from a grown text back to the old one takes only slices of it and at most one piece, the last line, which has no newline; so what re-encoding adds is at most one missing empty token at the very end, which no later slice can see |
| C99 | if the newer text contains the older one, the longest common substring is all of it; that contents grow towards the root of the version tree is an invariant of `add`, splits included |
| C100 | unfolding the commands: all reading is before the writer is opened; file names of test cases by their endings |
| C101 | the queries only look at transitions, links, lengths and first end positions, which the options do not change |
| C102 | the induction of C09 to C11 for arbitrary slices; C62 |
| C103 | the lexer of `Spec/Dot.lean` goes through the file piece by piece; C84 and C79 say what the lines are |
| C104 | C36 and C69 carry answers over; `Joint.manifestLoop` and `Joint.addManifest` follow the two stores through `add_manifest` |
| C105 | `StoreOK` of C27 holds after every call; `StoreOK.add_head_lim` goes through the two places where `add` can be left; C61 says when the limit is reached |
| C106 | decimal notation is read back; induction over the entries as in C44; the rest is C27 and C28 |
| C107 | tables only grow and the type of a tokenizer stays, so what decodes once decodes alike later; then C41 |
| C108 | potential argument: what the accumulator holds pays for the copies made when it is emptied; induction over the fragments |
| C109 | replacing tokens by what `==` looks at commutes with the code; lifting the tokens to the type of those in the inputs |
| C110 | the typed generator is the untyped one (C05, C101) followed by joining each suffix, ended by the first failure |
| C111 | case analysis on the look-up; the walk of `path_to` reaches the moved tag before its unknown parent and depends only on parent links |
| C112 | `change_parent(x, None)` changes only the parent of `x`, so the paths of the line of the base end at a tag whose full text is gone; over `DBTree` every way through `add` reaches `change_parent` with `NULL` or raises before |
| C113 | the keys of the dictionary are the different pieces seen so far; the table costs one step per key |
| C114 | a successful loop over the metrics runs two statements per row above; the rows above follow the path in the tree that the table represents |
| C115 | induction on the reading loop: every item costs at least its standard form (C24), and an empty literal or slice pays for the one that the writer inserts |
| C116 | slices of a patch are within the original (C55), so a slice of another text is at most as long; equal results of equal length agree piece by piece |
| C117 | on ASCII the two tokenizers differ by an injective renaming of tokens, which commutes with every function of the store (C66); a head is stored in full, so only encoding and decoding matter |
| C118 | the parents in the table, seen as a tree in memory without lists of children (`shadowTree`), so that the store invariant of C80 applies; the columns of the table agree with each other after every transaction (`GSafe`) |
| C119 | induction over a derivation of `NoChoice`, which yields the three diffs at once in the description `IsDiff` of C62 |
| C120 | C100 and C73; the output of a merge is UTF-8 without carriage returns and consists of whole lines, so C73 applies to it as an input |
| C121 | a lawful tokenizer as for `SymbolTokenizer`, from the two conditions alone (they exclude empty pieces); consecutive lines are lines again if none is empty |
| C122 | every operation of both trees commutes with renaming, by induction on its loops; then every part of `add`; tags in use by seeing the history as one over the subtype of its tags |
| C123 | the table of a row holds the lengths of the longest common blocks that end there; the best block is the first longest of those that end in the places seen; then the extending loops find nothing, and the first longest block is unique |
| C124 | two tokenizers that encode the texts of a store alike and decode to such texts leave the same store; cutting into symbols asks the class about the characters of the text only; for the converse the store of two versions made of one character is computed |
| C125 | the loop is followed through what each branch has left at each parent position; one invariant (within a conflict not both heads insert) and four lemmas on how a step moves the condition |
| C126 | every phase either is the phase without limit or a RecursionError, with a threshold that does not depend on the limit; the bound on the conflicts comes from the token count of the fragments (C93), the families from C61 |
| C127 | the display is a sequence of chunks (both, first, second) for plain and for line diffs; the reader of tags, a state machine, undoes the writing of chunks without bracket; the ambiguity is the merge of three equal texts (C16) |
| C128 | the path of a version determines which entries are read (`retrieve_congr`); the last step of a path is one application of a stored delta, and a delta gives the right text exactly from a parent that agrees on the copied slices |
| C129 | the store invariant with the texts as read in place of the texts added (`LooseStore`) is kept by `add`; this is the induction of C27 over the further history |
| C130 | once in a conflict, fragments that are never both copies stay in it (`within_spec`), so the conflicts join to the two branches, and consolidating one group of conflicts is the diff of its sides |
| C131 | the invariant that links the two kinds of tree does not mention the texts and deltas, only their tags (`Joint.damaged`), so it holds for the damaged stores and is kept by every further call (`Joint.run`) |
| C132 | the tokens of a merge are tokens of the branches (C19), and pieces that are lines are the lines of their concatenation because these are unique (C39); the joined words by evaluating the merge of numbers and renaming (C66) |
| C133 | the diffs are known (C62), so the loop of the merge has two or three steps that are evaluated for arbitrary texts, in both orders; for several insertions by induction on them |
| C134 | the loop goes through both diffs in step (induction on `SameSpots`), so no two conflicts are adjacent; the first pass then splits each conflict by itself and the second one joins common pieces (`consolidateAllLoop_join`) |
| C135 | joining common pieces keeps both texts of a diff, and each stretch reconstructs its two versions (C09); appended lines stand before the empty last line, which occurs nowhere else, so the longest match is the old text (C62) |
| C136 | each step of the loop is one constructor of `Aligned`; a conflict is followed by copies on both sides because diffs alternate (C12), so conflicts are never adjacent and C134's description of the two passes applies; the condition on positions implies `Aligned` by induction on the number of items |
| C137 | an induction over `Aligned` (C136) with the position in the parent; each constructor is one step of `weave` (`weave_keep`, `weave_edit`), and changes of one branch are never at the same place because diffs alternate (C12) |
| C138 | both passes of `consolidate` keep the text of either side (`C138_consolidate`), so only the loop matters; induction on the number of items with the position in the parent, where changes of different lengths take two steps, the second one by `pending_conflict` |
| C139 | every split of a change leaves its whole insertion with the head (`splitChange_head`), the tails only delete; so one round of the loop puts an insertion out as one side of one fragment or pushes it back whole, and consolidating keeps the texts (C138) |
| C140 | the loop of C138 again without the conditions on touching changes: while a conflict is pending the change of one branch goes to its own side only and the parent text to the other, which is the other side without this change; a composition is an insertion followed by a deletion on both sides (`SidesOf`, `SomeOf`) |
| C141 | the loop of C140 with the flag for an open conflict tied to the predicate `OpenAt` on the edits that are left (`OpenFrom`, `Marks`): the flag is set exactly where `OpenAt` holds, and passing a common piece, one change or two changes keeps this (`OpenFrom.past_common`, `past_change`, `past_both`) |
| C142 | C141 for both orders: which changes count on a side is described without regard to the order |

## Limits stated in the theorems

* Contents and offsets are below `2 ^ 64` wherever a delta is serialized.
* C27-C35 are about histories in which tags are not reused; C32 and C57 say what happens
  otherwise.
* C36, C37, C68 and C69 are for tags that SQLite returns unchanged.

## Tests of the model

`Verif/Tests` restates the expectations of all the project's own tests (`tests/small` and
`src/deprecated/test_revision_tree.py`) and the results printed in README.md as `example`s about the
model, evaluated by the kernel (the two results in README.md about common texts by `#guard`,
outside the kernel, because of their size).  All of them hold.  They are samples that compare the model with what
the authors say the code does; no claim of the manifest rests on them.  Left out are the two tests of
`tests/medium` (a text of 2000 letters, for which see C03, and a measurement of time, for which see
C64), the `isinstance` tests, and the two tests of helper functions (`encode`, `concatenate_strings`).

`Verif/Tests/WitnessStore.lean` and `Verif/Tests/WitnessText.lean` apply theorems with hypotheses to concrete
histories and texts, with all hypotheses proved, so that none of them is empty; the other witnesses are
beside the theorems.

## Behaviour found on the way that looks like a defect

* C08: a user token that is a 1-tuple can equal a separator.
* C20, C21: merging is not symmetric, and a conflict side can mix both branches.
* C88: a clean merge can lose or double text: `merge("ooxy", "oxy", "ozw")` is `zw`, and
  `merge("oxy", "ooxy", "oozw")` is `ooozw`.
* C91: merging a branch that has been merged already may apply its change again, without a conflict: `merge("oxy", "ozw",
  "ooxy")` is `oozw`, merging `ooxy` into that gives `ooozw`, and so on.
* C92: making a second `DBTree` (or `Versions` over one) drops the table `graph` of the first, whose `get` then returns
  `None` for everything; so versions kept in the database file cannot be read by another process either.
* C22, C125: merging `bytes` can raise TypeError because of the literal `""`: exactly when a branch inserts right behind deleted text that reaches back to a clash.
* C31: a failing `add` leaves the new tag registered as a head.
* C32, C57: a reused tag corrupts other versions or makes `add` run forever.
* C40: the default tokenizer of `diff()` is one shared object and remembers the type of its
  first argument.
* C43: a store with `LineTokenizer` can return wrong bytes (the newest two versions of a branch are right).
* C44: a manifest cannot add a file later, and other ordinary uses fail.
* C45: adjacent text pieces are reordered by the line diff.
* C47: markers can be incomplete for a stream that is not a line diff.
* C48: the number of backslashes before a bracket is not taken into account.
* C70: a deletion or insertion that ends in a backslash swallows the closing tag on the console.
* C49: strikeout makes every later display of a deletion raise TypeError.
* C100: the output file is emptied before the command can fail, so `gaspra-diff -s -o x x y` destroys `x`.
* C52: `tokenizers.merged` can never return.
* C61: the diff of texts that agree in about 1000 isolated places raises RecursionError.
* C105: `add` raises RecursionError for such texts; the version is stored all the same, as a head of its own.
* C106: names of a manifest that are numbers come back as texts, and the next `add_manifest` on top raises KeyError.
* C84: `dump` and `all_suffixes` raise RecursionError for texts of about 1000 tokens.
* C65: the diff takes quadratic time on such texts.
* C95: `deserialize_changeset` copies the rest of the delta for every item, so reading takes quadratic time.
* C96: the line diff of `bytes` drops all common text (`handle_fragment` ignores pieces that are not `str`).
* C97: `add` without a base accepts bytes that the tokenizer cannot decode; the version can never be read, and every version
  based on it is refused.
* C83: the diff can lose almost all of what two texts have in common, depending on the direction.
* README.md documents `gaspra.diff` and `gaspra.merge`, which `__init__.py` does not export.
* README.md recommends `gaspra-merge -sdc`, whose strikeout option is the one of C49.
* C103: `dot_dump` does not escape labels; a quote in the text makes the file unreadable.
* `dot_dump.py` imports `gaspra.revision_tree`, which does not exist, so it cannot be imported.
* C71: with `--diff` and git markers the header and the first line of a part are one line.
* C71, C74: file names are not escaped in headers and, by `gaspra-merge`, in markers.
* C73: `\r\n` becomes `\n` and Latin-1 becomes UTF-8 in the output of a merge.
* C74: console markup is written to files, where it cannot be told from the text.
* C56: `DBTree.change_parent` can overwrite a child slot.
* C80: an `add` interrupted between writing the delta of the split and moving it leaves an old
  version that reads as wrong bytes; trying again makes that permanent.  Interrupted a little
  later, every further addition to that head raises ValueError.
* C79: `Node.height` is always the size, and `reevaluate` takes more than linear time.
* C90: with dictionaries and `DBTree`, tags that are not strings lose every version.
* C69: `version_info` cannot be used with `DBCollection`, which has no `get`.
* C109: a changeset between texts that are equal but not the same (`[1]` and `[True]`) is empty; applied to the first it
  does not give the second.
* C110: `all_suffixes` of the automaton of a list raises ValueError after the empty suffix.
* C111: `MemoryTree.change_parent` to an unknown parent raises KeyError after the links were changed, so the tag and everything below it cannot be read any more; `DBTree` rolls back.
* C112: `add(None, …, b)` is accepted by a store over a `MemoryTree` and makes all versions of the line of `b` unreadable; over a `DBTree` it raises after the stored changes of the split may have been replaced.
* C113: `generic_encode` makes the decoding table anew in every call, so encoding many pieces one by one, as reading a version does with the inserted pieces of its changes, takes quadratic time.
* C117: a store does not record its tokenizer; read with another one (or `SymbolTokenizer` under another Unicode version) old versions come back wrong without an exception.
* C118: the same with a `DBTree`, whose `change_parent` is three transactions: wrong bytes in one window, TypeError for all further additions to the head in another; an interrupted call cannot be tried again because of IntegrityError.
* C119: which of several longest matches is taken depends on the direction, so the reversed texts may have a diff that keeps far more (or less).
* C120: `gaspra-merge` exits with status 0 although there are conflicts, which git takes for a clean merge.
* C126: the output file is emptied before the diff is computed; a RecursionError in an in-place merge loses the current version.
* C127: with --output and without --git-compatible the tags are written but brackets in the text are not escaped, so a file with conflicts cannot be told from a file whose text contains tags.
* C128: there is no integrity check: a changed head text, or a changed delta that can still be read, is retrieved without an exception, and so is every version read through it.
* C129: if the text of a head is lost, `add` on this head raises KeyError but has stored the new version already.
* C132: `merge` composes a deletion and an insertion at the same place, so merging by words can make one word out of two without a conflict; by lines, a last line without a newline can be joined to another line in a conflict.
* C133: rewriting against inserting in the middle puts only the part before the insertion in conflict and drops the part behind it silently; with the rewriting branch second, the sides are exchanged. With several insertions all but the last one are shown on the side of the branch that does not have them.
