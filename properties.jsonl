{"id": "C01", "title": "find_substring returns every occurrence", "statement": "gaspra.find_substring(text, pattern) returns exactly the start positions at which pattern occurs in text, in increasing order and without repeats; the result is empty iff pattern does not occur, and the empty pattern occurs at 0..len(text).", "quantifier": "every text and pattern over any token type with decidable equality", "why_tests_cant": "the automaton's shape depends on the whole text; cloning and reverse links only go wrong on particular repetition patterns, and there are infinitely many texts", "anchors": ["src/gaspra/wrappers.py:find_substring", "src/gaspra/suffix_automaton.py:build", "src/gaspra/suffix_automaton.py:extend", "src/gaspra/suffix_automaton.py:insert_node", "src/gaspra/suffix_automaton.py:find_substring_all", "src/gaspra/suffix_automaton.py:follow_reverse_links"]}
{"id": "C02", "title": "First-occurrence query on a built automaton", "statement": "suffix_automaton.find_substring(build(text), pattern) returns the smallest start position of pattern in text, and None exactly when pattern is not a substring.", "quantifier": "every text and pattern", "why_tests_cant": "tests only try selected substrings of three texts", "anchors": ["src/gaspra/suffix_automaton.py:find_substring", "src/gaspra/suffix_automaton.py:_find_match_node", "src/gaspra/suffix_automaton.py:build"]}
{"id": "C03", "title": "find_lcs returns a longest common substring", "statement": "gaspra.find_lcs(a, b) = (i, j, n) satisfies a[i:i+n] == b[j:j+n], and no common substring of a and b is longer than n.", "quantifier": "every pair of sequences", "why_tests_cant": "maximality is a statement about every common substring of every pair of inputs; the tests check only local maximality on three pairs", "anchors": ["src/gaspra/wrappers.py:find_lcs", "src/gaspra/suffix_automaton.py:find_lcs", "src/gaspra/suffix_automaton.py:build"]}
{"id": "C04", "title": "find_lcs reports the first positions", "statement": "In find_lcs(a, b) = (i, j, n): i is the first position in a of the reported substring, j is the first position in b at which any common substring of that maximal length occurs, and (0, 0, 0) is returned when nothing is shared.", "quantifier": "every pair of sequences", "why_tests_cant": "ties between equally long matches depend on global structure of both inputs", "anchors": ["src/gaspra/wrappers.py:find_lcs", "src/gaspra/suffix_automaton.py:find_lcs"]}
{"id": "C05", "title": "all_suffixes enumerates each suffix exactly once", "statement": "list(all_suffixes(build(text))) contains every suffix of text (including the empty one) exactly once and nothing else.", "quantifier": "every text", "why_tests_cant": "the tests enumerate suffixes for three texts only", "anchors": ["src/gaspra/suffix_automaton.py:all_suffixes", "src/gaspra/suffix_automaton.py:mark_terminal_nodes", "src/gaspra/suffix_automaton.py:build"]}
{"id": "C06", "title": "Automaton size is linear", "statement": "build(text) terminates and creates at most 2*len(text)+1 nodes (at most 2*len(text)-1 when len(text) >= 2) and at least len(text)+1; the total number of transitions is linear (at most 3*len(text)).", "quantifier": "every text", "why_tests_cant": "README claims linear space; a timing test on two random strings cannot establish a worst case bound", "anchors": ["src/gaspra/suffix_automaton.py:build", "src/gaspra/suffix_automaton.py:extend", "src/gaspra/suffix_automaton.py:insert_node"]}
{"id": "C07", "title": "find_lcs_multiple returns a longest substring common to all strings", "statement": "For a nonempty argument list, gaspra.find_lcs_multiple(*strings) terminates with (positions, n): positions has one entry per string, strings[k][positions[k]:+n] is the same word for all k, that position is the word's first occurrence in strings[k], and no word longer than n is a substring of every string. With no arguments it returns ((), None).", "quantifier": "every finite list of token sequences", "why_tests_cant": "correctness depends on a DFS over an automaton of the concatenation; nine hand cases cannot cover it", "anchors": ["src/gaspra/multiple_strings.py:find_lcs", "src/gaspra/multiple_strings.py:concatenate_strings", "src/gaspra/multiple_strings.py:update_shared_strings", "src/gaspra/multiple_strings.py:get_string_offsets"]}
{"id": "C08", "title": "Separators can be confused with user tokens", "statement": "A user token that is the 1-tuple (i,) equals Separator(i) and is confused with it: there are strings for which find_lcs_multiple then returns a length different from that of the longest common substring. (C07 is the guarantee for tokens that equal no separator.)", "quantifier": "every hashable user token", "why_tests_cant": "a test would have to guess the colliding token value", "anchors": ["src/gaspra/multiple_strings.py:concatenate_strings", "src/gaspra/types.py:Separator"]}
{"id": "C09", "title": "A diff reconstructs both inputs", "statement": "Reading list(diff_token_sequences(original, modified)) and keeping common pieces plus each Change's first component spells modified; keeping common pieces plus each Change's second component spells original.", "quantifier": "every pair of sequences", "why_tests_cant": "one lost or duplicated token in any alignment breaks it; alignments are unbounded in number", "anchors": ["src/gaspra/changesets.py:diff_token_sequences", "src/gaspra/changesets.py:find_changeset", "src/gaspra/changesets.py:Changeset.as_diff_stream", "src/gaspra/changesets.py:ChangesetLeaf.as_diff_stream"]}
{"id": "C10", "title": "A changeset applies in both directions", "statement": "With cs = list(find_changeset(original, modified).as_change_stream()): apply_forward(cs, original) == modified and apply_reverse(cs, modified) == original.", "quantifier": "every pair of sequences", "why_tests_cant": "slices are absolute offsets computed down an unbounded recursion", "anchors": ["src/gaspra/changesets.py:apply", "src/gaspra/changesets.py:apply_forward", "src/gaspra/changesets.py:apply_reverse", "src/gaspra/changesets.py:strip_forward", "src/gaspra/changesets.py:strip_reverse", "src/gaspra/changesets.py:find_changeset"]}
{"id": "C11", "title": "The tree-walking patch functions agree", "statement": "old_apply_forward(find_changeset(a, b), a) == b and old_apply_reverse(find_changeset(a, b), b) == a.", "quantifier": "every pair of sequences", "why_tests_cant": "as C10", "anchors": ["src/gaspra/changesets.py:old_apply_forward", "src/gaspra/changesets.py:old_apply_reverse"]}
{"id": "C12", "title": "Diff normal form", "statement": "In a diff, common pieces are nonempty, no Change is empty on both sides, the two sides of a Change have no token in common, and common pieces and Changes strictly alternate (two common pieces or two Changes are never adjacent).", "quantifier": "every pair of sequences", "why_tests_cant": "non-adjacency of common pieces follows only from maximality of every recursive match; downstream code (to_line_diff) silently depends on it", "anchors": ["src/gaspra/changesets.py:find_changeset", "src/gaspra/changesets.py:diff_token_sequences"]}
{"id": "C13", "title": "Diff of equal inputs", "statement": "diff_token_sequences(x, x) is the single piece x (or nothing at all when x is empty); conversely a diff without any Change means the inputs are equal.", "quantifier": "every sequence", "why_tests_cant": "needs the LCS of x with itself to be found at offset 0 with full length for every x", "anchors": ["src/gaspra/changesets.py:diff_token_sequences"]}
{"id": "C14", "title": "A longest common substring survives as a common piece", "statement": "If original and modified share a nonempty substring, the diff contains a common piece whose length is the length of their longest common substring; the length of the common text is at least that.", "quantifier": "every pair of sequences", "why_tests_cant": "maximality over all substrings", "anchors": ["src/gaspra/changesets.py:find_changeset"]}
{"id": "C15", "title": "Merging with an unchanged branch", "statement": "list(merge_token_sequence(parent, x, parent)) == [x] and list(merge_token_sequence(parent, parent, x)) == [x]: no conflict and exactly the changed branch.", "quantifier": "every parent and branch (str, bytes or tuple)", "why_tests_cant": "needs every interleaving of copy/change fragments to be consumed exactly", "anchors": ["src/gaspra/merge.py:merge_token_sequence", "src/gaspra/merge.py:_merge", "src/gaspra/merge.py:consolidate"]}
{"id": "C16", "title": "Merging identical branches", "statement": "list(merge_token_sequence(parent, x, x)) == [x].", "quantifier": "every parent and branch", "why_tests_cant": "as C15", "anchors": ["src/gaspra/merge.py:merge_token_sequence", "src/gaspra/merge.py:change_change", "src/gaspra/merge.py:are_identical_changes"]}
{"id": "C17", "title": "Merge output normal form", "statement": "The merge output is never an empty list; text pieces are nonempty (except the single piece for an entirely empty result) and never adjacent; every conflict has at least one nonempty side and its two sides have no token in common.", "quantifier": "every (parent, branch0, branch1)", "why_tests_cant": "depends on the two consolidation passes over arbitrary fragment streams", "anchors": ["src/gaspra/merge.py:consolidate", "src/gaspra/merge.py:consolidate_conflicts", "src/gaspra/merge.py:consolidate_all"]}
{"id": "C18", "title": "Non-overlapping edits merge cleanly", "statement": "If no edit of branch0 overlaps or shares a starting point with an edit of branch1 (except identical edits, or a pure insertion meeting a pure deletion), the merge has no conflict and the result is the parent with both sets of edits applied at their positions.", "quantifier": "every parent and every pair of branches whose diffs satisfy the condition", "why_tests_cant": "there are unboundedly many relative placements of edit regions", "anchors": ["src/gaspra/merge.py:_merge", "src/gaspra/merge.py:process_fragments", "src/gaspra/merge.py:copy_copy", "src/gaspra/merge.py:copy_change", "src/gaspra/merge.py:compose_changes"]}
{"id": "C19", "title": "A merge neither invents nor loses text", "statement": "Every token of the merge output (text or either side of a conflict) occurs in one of the branches; every token inserted by a branch (relative to the parent) and every parent token kept by both branches occurs in the output.", "quantifier": "every (parent, branch0, branch1)", "why_tests_cant": "must hold across all conflict paths", "anchors": ["src/gaspra/merge.py:_merge", "src/gaspra/merge.py:flush_remaining", "src/gaspra/merge.py:pending_conflict", "src/gaspra/merge.py:ordinary_conflict"]}
{"id": "C20", "title": "Merging is symmetric where edits are compatible, not in general", "statement": "If the edits of the two branches are compatible (see C18), merge(parent, b, a) == merge(parent, a, b). In general merging is not symmetric: list(merge('ab','aa','')) == ['a'] has no conflict while list(merge('ab','','aa')) == [Change('','aa')] has one.", "quantifier": "every (parent, a, b)", "why_tests_cant": "the tests never merge in both orders", "anchors": ["src/gaspra/merge.py:copy_change", "src/gaspra/merge.py:process_fragments"]}
{"id": "C21", "title": "Conflict sides belong to their branches when overlapping edits start together", "statement": "If any two overlapping edits of the branches start at the same parent position, the first side of each conflict is a contiguous piece of branch0 and the second side one of branch1. Without that condition it fails: list(merge('ab','ay','x')) == [Change('xy','a')], where 'xy' occurs in neither branch.", "quantifier": "every (parent, branch0, branch1)", "why_tests_cant": "needs an input where overlapping edits start at different positions", "anchors": ["src/gaspra/merge.py:copy_change", "src/gaspra/merge.py:compose_changes", "src/gaspra/merge.py:pending_conflict", "src/gaspra/merge.py:ordinary_conflict"]}
{"id": "C22", "title": "Merge terminates and never raises on str and tuple inputs", "statement": "merge_token_sequence terminates and raises no exception for str and tuple inputs. For bytes it terminates and either yields the same items or raises TypeError (the str literal '' is used for an empty conflict side); the TypeError does happen, e.g. merge(b'ab', b'x', b'ybz').", "quantifier": "every (parent, branch0, branch1) of one kind", "why_tests_cant": "compose_changes pushes fragments back, so termination is not syntactic; the bytes failure needs a particular overlap", "anchors": ["src/gaspra/merge.py:_merge", "src/gaspra/merge.py:flush_remaining", "src/gaspra/merge.py:pending_conflict", "src/gaspra/common.py:get_joiner"]}
{"id": "C23", "title": "Variable length integers round-trip", "statement": "For 0 <= v < 2**64 and any following bytes rest, vdeserialize_int(vserialize_int(v) + rest) == (v, rest); v >= 2**64 and v < 0 raise OverflowError.", "quantifier": "every integer and every byte string", "why_tests_cant": "2**64 values, with boundaries at every code length", "anchors": ["src/gaspra/serialize.py:vserialize_int", "src/gaspra/serialize.py:vdeserialize_int"]}
{"id": "C24", "title": "Integer encoding is order preserving, prefix free and 1..9 bytes long", "statement": "For v < w < 2**64 the encoding of v precedes the encoding of w lexicographically and neither is a prefix of the other; encodings are 1 to 9 bytes long. Every byte string that vdeserialize_int accepts for a value is at least as long as the encoding of the value, and equal to it if it is as long.", "quantifier": "every pair of integers", "why_tests_cant": "as C23", "anchors": ["src/gaspra/serialize.py:vserialize_int"]}
{"id": "C25", "title": "Changeset serialization round-trips", "statement": "For every changeset whose byte pieces are nonempty and whose slices have start != stop, with lengths and offsets below 2**64, list(deserialize_changeset(serialize_changeset(cs))) == cs; in general exactly the empty pieces are dropped. A changeset with a slice without an end raises TypeError, and one with a number of 2**64 or more OverflowError, whichever comes first.", "quantifier": "every finite changeset", "why_tests_cant": "padding items are inserted depending on the alternation of an arbitrary sequence", "anchors": ["src/gaspra/serialize.py:serialize_changeset", "src/gaspra/serialize.py:deserialize_changeset"]}
{"id": "C26", "title": "Truncated changesets never yield wrong pieces", "statement": "Deserializing any prefix of a serialized changeset yields a prefix of the changeset's pieces and then either stops or raises RuntimeError; it never yields a piece that was not in the changeset. In particular it never loops.", "quantifier": "every changeset and every truncation point", "why_tests_cant": "every byte position of every stream is a crash point", "anchors": ["src/gaspra/serialize.py:deserialize_changeset", "src/gaspra/serialize.py:vdeserialize_int"]}
{"id": "C27", "title": "Every stored version is retrieved exactly", "statement": "After any sequence of Versions.add calls with fresh tags, each either without base or based on a current head, get(tag) returns exactly the bytes that were added under tag, for every tag ever added (default NullTokenizer).", "quantifier": "every history of adds, every content (shorter than 2**64 bytes)", "why_tests_cant": "each add rewrites parts of a tree of deltas; retrieval applies a chain of deltas whose length grows with the history", "anchors": ["src/gaspra/versions.py:Versions.add", "src/gaspra/versions.py:Versions.get", "src/gaspra/versions.py:Versions._add_edge", "src/gaspra/versions.py:Versions._retrieve_using_path", "src/gaspra/versions.py:Versions._make_changeset", "src/gaspra/memory_tree.py:MemoryTree"]}
{"id": "C28", "title": "Membership and unknown tags", "statement": "tag in versions is true exactly for added tags; get and version_info return None for exactly the others.", "quantifier": "every history", "why_tests_cant": "as C27", "anchors": ["src/gaspra/versions.py:Versions.__contains__", "src/gaspra/versions.py:Versions.get", "src/gaspra/versions.py:Versions.version_info"]}
{"id": "C29", "title": "Only heads are stored in full", "statement": "After any such history a tag is stored verbatim iff no later version was based on it, every other added tag is stored as exactly one delta, and no tag is stored both ways.", "quantifier": "every history", "why_tests_cant": "invariant over histories", "anchors": ["src/gaspra/versions.py:Versions._add_edge", "src/gaspra/versions.py:Versions.add"]}
{"id": "C30", "title": "version_info is accurate", "statement": "version_info(tag).base_version is forever the base given when tag was added; for a head token_count is the content length and change_count is 0; for a delta token_count is the number of literally stored bytes, never more than the version's length.", "quantifier": "every history", "why_tests_cant": "metadata must survive every later restructuring", "anchors": ["src/gaspra/versions.py:Versions.version_info", "src/gaspra/memory_tree.py:MemoryTree.base_version", "src/gaspra/memory_tree.py:MemoryTree.change_parent"]}
{"id": "C31", "title": "A failing add does not damage stored versions", "statement": "Adding with a base that is unknown or is not a current head raises KeyError; all versions stored before remain retrievable unchanged. (The new tag itself is nevertheless left registered as a head.)", "quantifier": "every history including failing adds", "why_tests_cant": "exceptions interrupt a multi-step update at different points", "anchors": ["src/gaspra/versions.py:Versions.add", "src/gaspra/memory_tree.py:MemoryTree.get_split"]}
{"id": "C32", "title": "Reusing a tag", "statement": "Nothing protects against reusing a tag: there is a history in which adding a version under an existing tag changes the bytes retrieved for another tag, without an exception; and add(t, v, t) on an empty store does not terminate, because a node that is its own parent makes the metrics update run forever.", "quantifier": "every history", "why_tests_cant": "needs a repeated tag after restructuring", "anchors": ["src/gaspra/versions.py:Versions.add", "src/gaspra/memory_tree.py:MemoryTree.add", "src/gaspra/memory_tree.py:MemoryTree._update_metrics"]}
{"id": "C33", "title": "The version tree is a forest rooted at the heads", "statement": "After any history path_to(tag) is defined for exactly the added tags, starts at a head, ends at tag, follows parent links and repeats no tag; parent and child lists agree.", "quantifier": "every history of adds", "why_tests_cant": "acyclicity is an invariant over histories", "anchors": ["src/gaspra/memory_tree.py:MemoryTree.path_to", "src/gaspra/memory_tree.py:MemoryTree.change_parent"]}
{"id": "C34", "title": "Tree metrics are exact", "statement": "After any history each node's height is 1 + the maximum height of its children and its size is the number of nodes in its subtree.", "quantifier": "every history", "why_tests_cant": "incremental maintenance along two changing root paths", "anchors": ["src/gaspra/memory_tree.py:MemoryTree._update_metrics", "src/gaspra/memory_tree.py:MemoryTree.change_parent"]}
{"id": "C35", "title": "get_split returns the middle of a longest path", "statement": "get_split(head) returns (split, path) where path starts at head, ends at split, follows child links along a longest downward path, and split is the first node on it whose depth reaches its height; ties go to the most recently added child.", "quantifier": "every reachable tree", "why_tests_cant": "depends on metrics of the whole tree", "anchors": ["src/gaspra/memory_tree.py:MemoryTree.get_split"]}
{"id": "C36", "title": "DBTree behaves like MemoryTree", "statement": "A Versions store over DBTree and one over MemoryTree that receive the same add calls (fresh tags, any base, any tokenizer, also one that raises) hold the same full versions and deltas, answer get, version_info and in alike for every tag, and raise in the same calls; the trees agree on path_to, get_split and base_version of every known tag, and the rows of the table have the parents, children, heights and sizes of the nodes, in the order of insertion.", "quantifier": "every history", "why_tests_cant": "two independently written implementations, one in SQL with two child slots per row", "anchors": ["src/gaspra/db_tree.py:DBTree", "src/gaspra/db_tree_sql.py", "src/gaspra/memory_tree.py:MemoryTree"]}
{"id": "C37", "title": "DBCollection behaves like a dict", "statement": "Any sequence of set, get, delete, contains, len and iteration on a DBCollection gives the results of the same sequence on a finite map, with KeyError exactly for missing keys.", "quantifier": "every operation sequence", "why_tests_cant": "unbounded histories", "anchors": ["src/gaspra/db_collections.py:DBCollection"]}
{"id": "C38", "title": "Tokenizers are lossless", "statement": "For NullTokenizer, CharTokenizer, LineTokenizer and SymbolTokenizer, decode(encode(x)) == x for every str (and every valid UTF-8 bytes where required), after any number of earlier encode calls on the same tokenizer; earlier encodings still decode to the same text.", "quantifier": "every text and every history of encode calls", "why_tests_cant": "tokens are numbered by a growing dictionary shared between calls", "anchors": ["src/gaspra/tokenizers.py:NullTokenizer", "src/gaspra/tokenizers.py:CharTokenizer", "src/gaspra/tokenizers.py:LineTokenizer", "src/gaspra/tokenizers.py:SymbolTokenizer", "src/gaspra/tokenizers.py:generic_encode", "src/gaspra/tokenizers.py:generic_decode"]}
{"id": "C39", "title": "Equal tokens iff equal text", "statement": "Within one tokenizer two token numbers are equal iff the corresponding pieces of text are equal, across all encode calls; line tokens never contain a newline except at the end.", "quantifier": "every history of encode calls", "why_tests_cant": "as C38", "anchors": ["src/gaspra/tokenizers.py:generic_encode", "src/gaspra/tokenizers.py:line_encode_strings"]}
{"id": "C40", "title": "Mixing str and bytes in one tokenizer is rejected", "statement": "A tokenizer whose first call had one type raises RuntimeError for the other type and is unchanged by the failing call. The default NullTokenizer of tokenizers.diff() is one shared object: after any diff() of one type, every diff() whose original has the other type raises RuntimeError.", "quantifier": "every call history", "why_tests_cant": "needs two calls of different type in one process", "anchors": ["src/gaspra/tokenizers.py:NullTokenizer.encode", "src/gaspra/tokenizers.py:diff"]}
{"id": "C41", "title": "High-level diff reconstructs text", "statement": "tokenizers.diff(original, modified, tokenizer) decodes to pieces that spell both original and modified, for each of the four tokenizers.", "quantifier": "every pair of texts", "why_tests_cant": "as C09 composed with C38", "anchors": ["src/gaspra/tokenizers.py:diff", "src/gaspra/tokenizers.py:decode_changes"]}
{"id": "C42", "title": "Versions with CharTokenizer or SymbolTokenizer", "statement": "The guarantee of C27 also holds when the store is created with CharTokenizer or SymbolTokenizer and all contents are valid UTF-8.", "quantifier": "every history of adds", "why_tests_cant": "delta pieces are re-tokenized on retrieval; tokens must not fuse or split at piece boundaries", "anchors": ["src/gaspra/versions.py:Versions._retrieve_using_path", "src/gaspra/tokenizers.py:SymbolTokenizer", "src/gaspra/tokenizers.py:CharTokenizer"]}
{"id": "C43", "title": "Versions with LineTokenizer can return wrong bytes", "statement": "The guarantee of C27 fails with LineTokenizer: there is a documented history of four linear adds, all succeeding, after which get(tag) returns other bytes than were added, without an exception, even if all four texts consist of whole lines. What holds: after any documented history without an exception, the newest version of every branch and the version it was based on are retrieved exactly. (Re-encoding a delta piece that ends in a newline appends an extra empty token, which shifts later slices.)", "quantifier": "every history of adds", "why_tests_cant": "needs a chain of two deltas", "anchors": ["src/gaspra/versions.py:Versions._retrieve_using_path", "src/gaspra/tokenizers.py:LineTokenizer.encode"]}
{"id": "C44", "title": "Manifests round-trip through the store", "statement": "After any sequence of add_manifest calls with new manifest tags, failing calls included: get_manifest of every manifest whose call succeeded returns it exactly, and every tag it lists is retrieved with its contents. A call succeeds exactly if there are contents for every new tag, the base manifest lists under the same name a different current head for every new entry, and the base is a current head; otherwise it raises KeyError. Hence adding a file later, changing a file after going back to an earlier version, and letting two files with the same tag diverge all fail. Strings survive the JSON document except where a high surrogate is followed by a low one.", "quantifier": "every manifest history", "why_tests_cant": "composition of the store over many tags", "anchors": ["src/gaspra/manifest.py:add_manifest", "src/gaspra/manifest.py:get_manifest", "src/gaspra/manifest.py:manifest_to_doc", "src/gaspra/manifest.py:doc_to_manifest"]}
{"id": "C45", "title": "Line diffs preserve both texts", "statement": "For a fragment stream in which text pieces are never adjacent, to_line_diff and consolidated_line_diff preserve the 'into' text and the 'from' text up to one newline appended at the end of both, and append it only if one of the texts does not end in a newline (exactly then, if texts and changes strictly alternate). Neither ever raises. For two adjacent text pieces the text is reordered.", "quantifier": "every alternating fragment stream", "why_tests_cant": "accumulator state machine over unbounded streams", "anchors": ["src/gaspra/diff_to_lines.py:to_line_diff", "src/gaspra/diff_to_lines.py:DiffAccumulator", "src/gaspra/diff_to_lines.py:handle_fragment", "src/gaspra/diff_to_lines.py:consolidate"]}
{"id": "C46", "title": "Line diffs consist of whole lines", "statement": "For every fragment stream, every item produced by to_line_diff covers whole lines: each text item ends in a newline (or the output is the single empty text, exactly when there is no nonempty fragment) and each side of each Change is empty or ends in a newline and contains a changed piece; consolidated_line_diff never yields two adjacent Changes.", "quantifier": "every fragment stream", "why_tests_cant": "as C45", "anchors": ["src/gaspra/diff_to_lines.py:to_line_diff", "src/gaspra/diff_to_lines.py:consolidated_line_diff"]}
{"id": "C47", "title": "git-style markup is complete and faithful", "statement": "With git-compatible markers written to a file, every conflict of a line diff is printed as '<<<<<<< name', the first text, '=======', the second text, '>>>>>>> name', each on its own line, and everything else verbatim; reading the markers back and choosing one side gives back either text, if no line of the texts looks like a marker. A stream that is not a line diff can lose its start marker.", "quantifier": "every line diff", "why_tests_cant": "the start marker is printed only if the first side is nonempty, which must never be false in this mode", "anchors": ["src/gaspra/markup.py:markup_stream", "src/gaspra/markup.py:markup_change_item", "src/gaspra/markup.py:markup_changes"]}
{"id": "C48", "title": "rich escaping is reversible", "statement": "rich_escape is injective: different texts are never printed the same way, and every '[' in the output is preceded by a backslash; a '[' that follows n backslashes in the text follows n + 1 in the output (an even number for odd n, which rich reads as an unescaped bracket).", "quantifier": "every text", "why_tests_cant": "unbounded", "anchors": ["src/gaspra/markup.py:rich_escape"]}
{"id": "C49", "title": "Strikeout cannot display deletions", "statement": "Asking for strikeout replaces an entry of the module-level style table in use, and of the one for pieces within lines, by a function; the other tables stay as they are. Displaying any deletion then raises TypeError, in every later display of the same kind, including merge displays for which strikeout is not allowed; streams without deletions are displayed as before. With lines shown, gaspra-diff with strikeout raises for any two different texts. gaspra-merge without --diff takes no notice of strikeout.", "quantifier": "every stream, every pair of texts and every tokenizer", "why_tests_cant": "global mutable state across calls", "anchors": ["src/gaspra/merge_tool.py:get_markup_style", "src/gaspra/markup.py:markup_change_item", "src/gaspra/markup.py:markup_stream", "src/gaspra/merge_tool.py:diff_cli"]}
{"id": "C50", "title": "common_prefix_length is the longest common prefix", "statement": "common_prefix_length(a, b) is the largest n <= min(len(a), len(b)) with a[:n] == b[:n].", "quantifier": "every pair of sequences", "why_tests_cant": "unbounded", "anchors": ["src/gaspra/common.py:common_prefix_length"]}
{"id": "C51", "title": "Depth of the version tree", "statement": "In a documented history the versions fall into lines, one per head, following the bases. In a line of n versions every path_to result starts at the head and has at most floor(sqrt(4n+1)) - 1 tags, and some path has exactly that many (the docstring of the predecessor of MemoryTree calls the square-root bound 'unproven').", "quantifier": "every documented history, every line", "why_tests_cant": "asymptotic statement over all n", "anchors": ["src/gaspra/memory_tree.py:MemoryTree.get_split", "src/deprecated/revision_tree.py:Tree"]}
{"id": "C52", "title": "tokenizers.merged always fails", "statement": "tokenizers.merged(parent, current, other) never returns a result, whatever the tokenizer; for three texts of the accepted type it raises TypeError (decode_changes is called with a third argument).", "quantifier": "every call", "why_tests_cant": "no test calls it", "anchors": ["src/gaspra/tokenizers.py:merged", "src/gaspra/tokenizers.py:decode_changes"]}
{"id": "C53", "title": "Deserializing arbitrary bytes terminates", "statement": "On any byte string, list(deserialize_changeset(stream)) terminates: it yields only nonempty pieces and slices with start != stop, and then stops or raises RuntimeError (no other exception).", "quantifier": "every byte string", "why_tests_cant": "corrupt streams are unbounded in number", "anchors": ["src/gaspra/serialize.py:deserialize_changeset", "src/gaspra/serialize.py:vdeserialize_int"]}
{"id": "C54", "title": "Fixed width integers round-trip", "statement": "deserialize_int(serialize_int(v) + rest) == (v, rest) for 0 <= v < 2**32, and the encoding has 4 bytes; other integers raise OverflowError. Any four bytes are read as the integer that they encode; fewer bytes raise RuntimeError.", "quantifier": "every integer", "why_tests_cant": "2**32 values", "anchors": ["src/gaspra/serialize.py:serialize_int", "src/gaspra/serialize.py:deserialize_int"]}
{"id": "C55", "title": "Patch normal form", "statement": "The forward and reverse patches stripped from a changeset contain no useless item: every literal piece is a nonempty contiguous part of the target; every slice is nonempty and within the source; the slices are increasing and do not overlap.", "quantifier": "every pair of sequences", "why_tests_cant": "A patch with redundant or overlapping items still applies correctly, so round-trip tests cannot see it.", "anchors": ["src/gaspra/changesets.py:165-180", "src/gaspra/changesets.py:213-261"]}
{"id": "C56", "title": "DBTree forgets a child", "statement": "When two nodes without a parent are moved under the same node by change_parent, DBTree overwrites the first in its child0 slot: its height, size and get_split then ignore the first child, while MemoryTree keeps both. Versions never does this (C36).", "quantifier": "a concrete sequence of operations on the Tree protocol", "why_tests_cant": "the two implementations agree on all sequences issued by Versions, which is all the tests use", "anchors": ["src/gaspra/db_tree.py:DBTree.change_parent", "src/gaspra/db_tree_sql.py"]}
{"id": "C57", "title": "Adding a tag again", "statement": "Adding a tag that is already in the store: over DBTree the call raises IntegrityError but has already replaced the stored full version; over MemoryTree, without a base, it silently succeeds and the tag becomes a root. In both cases a version stored as a delta to the replaced version can be lost (a concrete history).", "quantifier": "every history and every known tag", "why_tests_cant": "the damage shows only in other versions", "anchors": ["src/gaspra/versions.py:Versions.add", "src/gaspra/db_tree.py:DBTree.add", "src/gaspra/memory_tree.py:MemoryTree.add"]}
{"id": "C58", "title": "Diffs of tokenized text alternate", "statement": "With every tokenizer the diff of two strings is a list of string pieces in which common pieces and changes strictly alternate and which spells both strings; hence its consolidated line diff gives back both strings up to one appended newline.", "quantifier": "every pair of strings, every tokenizer and every earlier use of it", "why_tests_cant": "composition of tokenizer, diff and line accumulator", "anchors": ["src/gaspra/tokenizers.py:diff", "src/gaspra/tokenizers.py:decode_changes", "src/gaspra/diff_to_lines.py:consolidated_line_diff"]}
{"id": "C59", "title": "gaspra-diff writes both texts", "statement": "gaspra-diff with git-compatible markers and an output file, by characters, words or lines, never raises and writes whole lines; choosing the first side of every conflict gives the modified text and choosing the second gives the original text, both followed by the same at most one newline. The names in the markers are what follows the last slash of the paths.", "quantifier": "every pair of texts, all file names, every character class", "why_tests_cant": "end-to-end composition of tokenizer, diff, line accumulator and markup", "anchors": ["src/gaspra/merge_tool.py:diff_cli", "src/gaspra/merge_tool.py:get_markup_function", "src/gaspra/markup.py:markup_changes", "src/gaspra/tokenizers.py:diff", "src/gaspra/diff_to_lines.py:consolidated_line_diff"]}
{"id": "C60", "title": "gaspra-merge writes the merge", "statement": "gaspra-merge with git-compatible markers and an output file never raises. By characters, choosing the first (second) side of every conflict gives the first (second) text of merge_token_sequence followed by at most one newline, and compatible edits are written merged without markers. With every tokenization, if one branch equals the parent or the branches are equal, exactly the changed text is written, with a newline added only if it is missing.", "quantifier": "every triple of texts, all file names", "why_tests_cant": "end-to-end composition", "anchors": ["src/gaspra/merge_tool.py:merge_cli", "src/gaspra/merge_tool.py:_merge", "src/gaspra/merge_tool.py:get_markup_function", "src/gaspra/markup.py:markup_changes", "src/gaspra/tokenizers.py:Tokenizer", "src/gaspra/diff_to_lines.py:consolidated_line_diff"]}
{"id": "C61", "title": "Recursion depth of find_changeset", "statement": "If at most k calls of find_changeset may be nested, the diff is found exactly if the changeset tree is at most k levels deep, and then it does not depend on k. The depth is at most min(len(original), len(modified)) + 1, with two calls per common piece plus one. The bound is reached in essence: 'ax' * n and 'ay' * n need n + 1 nested calls, so that Python's limit of 1000 raises RecursionError for texts of 2000 characters.", "quantifier": "every pair of token sequences, every limit, every n", "why_tests_cant": "tests use short inputs; the recursion depth depends on the arrangement of the common pieces", "anchors": ["src/gaspra/changesets.py:find_changeset"]}
{"id": "C62", "title": "The diff is the longest-match recursion", "statement": "diff_token_sequences(original, modified) yields d if and only if d is the result of this recursion: inputs without a common token give a single Change (nothing if both are empty); otherwise both are split at the longest common substring that comes first in modified, at its first occurrence in original, and the parts before and after are treated in the same way. In particular the result is determined.", "quantifier": "every pair of token sequences over any alphabet", "why_tests_cant": "an exact description covers every input and every tie", "anchors": ["src/gaspra/changesets.py:diff_token_sequences", "src/gaspra/changesets.py:find_changeset"]}
{"id": "C63", "title": "The suffix automaton is minimal", "statement": "Reading a word from the root of build(text) ends in a terminal node exactly if the word is a suffix of the text, and no deterministic finite automaton (missing transitions allowed) that accepts exactly the suffixes has fewer states than build creates.", "quantifier": "every token sequence over any alphabet, every automaton", "why_tests_cant": "minimality quantifies over all automata", "anchors": ["src/gaspra/suffix_automaton.py:build", "src/gaspra/suffix_automaton.py:mark_terminal_nodes", "src/gaspra/suffix_automaton.py:insert_node"]}
{"id": "C64", "title": "Linear running time of the suffix automaton", "statement": "build takes at least n and at most 10 n + 3 steps for n tokens, whatever the size of the alphabet, and find_lcs(a, b) at most 10 len(a) + 2 len(b) + 3. A step is a round of a loop, a copied transition or a created node; a dictionary access is part of a step. Counting steps does not change the results.", "quantifier": "every token sequence over any alphabet", "why_tests_cant": "a single extend can take linearly many steps; the bound is amortised over all inputs", "anchors": ["src/gaspra/suffix_automaton.py:build", "src/gaspra/suffix_automaton.py:extend", "src/gaspra/suffix_automaton.py:insert_node", "src/gaspra/suffix_automaton.py:find_lcs"]}
{"id": "C65", "title": "Running time of the diff", "statement": "find_changeset takes at most depth * (10 len(original) + 2 len(modified)) + 3 * calls steps of find_lcs and at least depth * (depth - 1) / 2, hence at most (min(len) + 1) * (10 len(original) + 2 len(modified) + 6); 'ax' * n and 'ay' * n take at least n (n + 1) / 2.", "quantifier": "every pair of token sequences, every n", "why_tests_cant": "timing tests cover a few inputs", "anchors": ["src/gaspra/changesets.py:find_changeset", "src/gaspra/suffix_automaton.py:find_lcs"]}
{"id": "C66", "title": "Only equality of tokens matters", "statement": "If f gives different names to different tokens of the inputs, then the diff, the change stream and the merge of the renamed inputs are the renamed diff, change stream and merge of the inputs, including failures.", "quantifier": "every token sequence over any alphabet, every renaming that is injective on the tokens in use", "why_tests_cant": "tests fix the tokens", "anchors": ["src/gaspra/changesets.py:diff_token_sequences", "src/gaspra/changesets.py:find_changeset", "src/gaspra/merge.py:merge_token_sequence", "src/gaspra/suffix_automaton.py:find_lcs"]}
{"id": "C67", "title": "Tokenized diffs and merges are those of the pieces", "statement": "The diff by lines (words) is diff_token_sequences of the lists of lines (words and other characters) themselves, written out, whatever was tokenized before. gaspra-merge with git-compatible markers and an output file, by characters, words or lines, writes merge_token_sequence of the three lists of pieces: choosing the first (second) side of every conflict gives its first (second) text followed by at most one newline, and if the edits in terms of pieces are compatible, the parent with both sets of edits is written without markers. On the console, without show-lines, exactly the diff (merge) of the pieces is shown.", "quantifier": "every pair or triple of texts, every word class, every earlier use of the tokenizer", "why_tests_cant": "the numbering of the pieces depends on all the earlier inputs", "anchors": ["src/gaspra/tokenizers.py:Tokenizer", "src/gaspra/tokenizers.py:LineTokenizer", "src/gaspra/tokenizers.py:SymbolTokenizer", "src/gaspra/merge_tool.py:merge_cli", "src/gaspra/merge_tool.py:_merge"]}
{"id": "C68", "title": "old_get_split agrees with get_split", "statement": "In every tree that a version store over DBTree can make, old_get_split(tag) and get_split(tag) give the same split and path or the same exception. When two heads are moved under one node directly (C56), they differ and only old_get_split agrees with MemoryTree.", "quantifier": "every history of additions with fresh tags, every tag", "why_tests_cant": "the two functions find the children through different columns, which must stay consistent under all histories", "anchors": ["src/gaspra/db_tree.py:DBTree.old_get_split", "src/gaspra/db_tree.py:DBTree.new_get_split", "src/gaspra/db_tree_sql.py:OLD_GET_BEST_PATH"]}
{"id": "C69", "title": "Version store on database collections", "statement": "With DBCollections in place of the dictionaries for head_version and diffs, every call of add (including the failing ones), get and in behaves the same, for any tree, tokenizer and history. With DBTree as well, every version is returned exactly as added. version_info raises AttributeError for every tag, since DBCollection has no method get.", "quantifier": "every history, every tree, every tokenizer; for exact contents every documented history with the default tokenizer", "why_tests_cant": "no test combines the two classes", "anchors": ["src/gaspra/versions.py:Versions", "src/gaspra/db_collections.py:DBCollection", "src/gaspra/versions.py:Versions.version_info"]}
{"id": "C70", "title": "What the console shows", "statement": "In coloured output to the console of texts without backslashes nothing raises, and reading the markup ([name] opens a style, [/] closes the last one, \\\\[ is a bracket) gives the common text plain, the first sides in green4, the second sides in dark_red, and changed pieces within the lines of a side in a lighter shade. For gaspra-diff, without the characters in dark_red one sees the modified text and without those in green4 the original; for gaspra-merge (strikeout or not) the two texts of the merge of the pieces; followed by one newline at most, and only if lines are shown. A deletion that ends in a backslash swallows the closing tag.", "quantifier": "every pair or triple of texts without backslashes, all tokenizations", "why_tests_cant": "the markup is nested and escaped text may look like markup", "anchors": ["src/gaspra/markup.py:markup_stream", "src/gaspra/markup.py:markup_change_item", "src/gaspra/markup.py:rich_escape", "src/gaspra/merge_tool.py:diff_cli", "src/gaspra/merge_tool.py:_merge", "src/gaspra/merge_tool.py:get_markup_style"]}
{"id": "C71", "title": "gaspra-merge --diff", "statement": "gaspra-merge --diff on the console, without strikeout, for texts without backslashes and names without brackets and backslashes, never raises and shows three parts: a header with the name of the first branch and the diff from the parent to it, the same for the other branch, and the header Merged and the merge; each part is as for gaspra-diff and gaspra-merge alone. With git markers and an output file the same three parts are written, each preceded by a newline and the name, with no end of line after the name. Names in headers are not escaped.", "quantifier": "every triple of texts, all tokenizations", "why_tests_cant": "the parts are built from shared tokenizer state and style tables", "anchors": ["src/gaspra/merge_tool.py:_merge", "src/gaspra/markup.py:show_header", "src/gaspra/markup.py:markup_changes"]}
{"id": "C72", "title": "Reading files", "statement": "Every file can be read as text. The text contains no surrogates and no carriage returns. A UTF-8 file without carriage returns is read as it is; with CRLF line ends it gives the same text as with LF. Lines may end in LF, CR or CRLF, also mixed, and each of these is read as LF. A file that is not UTF-8 is read as Latin-1.", "quantifier": "every sequence of bytes", "why_tests_cant": "tests do not read files", "anchors": ["src/gaspra/merge_tool.py:get_text"]}
{"id": "C73", "title": "From files to files", "statement": "gaspra-diff and gaspra-merge with git-compatible markers and an output file, with file names that are valid Unicode, never raise whatever bytes the input files contain, and write UTF-8 whose two resolutions are the texts read (diff) or the two texts of the merge of the pieces (merge), followed by one newline at most. If one branch is the parent or both are equal, and the result is a UTF-8 file without carriage returns that ends in a newline, exactly its bytes are written; otherwise CRLF becomes LF, Latin-1 becomes UTF-8 and a final newline is added. A conflict in a file whose name contains undecodable bytes raises UnicodeEncodeError with part of the output written. With any arguments, the file holds in UTF-8 the strings the tool produces and the tool ends as it would otherwise, unless one of them cannot be encoded: then the file holds those before it and UnicodeEncodeError is raised.", "quantifier": "every triple of file contents, all tokenizations", "why_tests_cant": "input files are arbitrary bytes in any encoding", "anchors": ["src/gaspra/merge_tool.py:get_text", "src/gaspra/merge_tool.py:diff_cli", "src/gaspra/merge_tool.py:_merge", "src/gaspra/markup.py:file_writer"]}
{"id": "C74", "title": "Git markers on the console", "statement": "With git-compatible markers on the console, for texts without backslashes and names without brackets and backslashes, gaspra-diff (without strikeout) and gaspra-merge never raise, and in the text shown choosing the first (second) side of every conflict gives the modified (original) text, or the two texts of the merge of the pieces, followed by one newline at most. gaspra-merge does not escape names in markers. Without git markers an output file contains the console markup, unescaped, so that different diffs give the same file.", "quantifier": "every pair or triple of texts without backslashes, all tokenizations", "why_tests_cant": "two style tables are mixed", "anchors": ["src/gaspra/merge_tool.py:get_markup_style", "src/gaspra/merge_tool.py:diff_cli", "src/gaspra/merge_tool.py:_merge", "src/gaspra/markup.py:markup_stream"]}
{"id": "C75", "title": "Line conflicts are no larger than necessary", "statement": "The line diff of a diff stream has the characters and changes of the stream in their order, followed by at most one newline. The two sides of a line conflict hold, position by position, the same unchanged piece or the two sides of one change. An unchanged piece in a conflict is white space only, or lies within one line and its newline ends the conflict. If texts and changes alternate, a conflict does not go on with other text once both sides are at the end of a line. Changes with only white space between them are in one conflict.", "quantifier": "every stream of str fragments and changes; for the order: no two texts adjacent", "why_tests_cant": "the grouping depends on the accumulated state of both sides", "anchors": ["src/gaspra/diff_to_lines.py:to_line_diff", "src/gaspra/diff_to_lines.py:handle_fragment", "src/gaspra/diff_to_lines.py:DiffAccumulator", "src/gaspra/diff_to_lines.py:consolidate"]}
{"id": "C76", "title": "Merging is local", "statement": "There is a function M of a text and two lists of edits such that every merge, spelled token by token, is M of the parent and the edits of the two branches. At every token that neither list removes, M is M of the part before, the token, and M of the part after; where all edits are compatible, M is the text with both lists of edits made. So between two tokens that both branches keep, compatible edits are both made whatever happens elsewhere, and the tokens that both keep stand outside the conflicts in their order.", "quantifier": "every parent and branches over any alphabet, every cut", "why_tests_cant": "a conflict elsewhere in the file must not influence an unrelated place", "anchors": ["src/gaspra/merge.py:merge_token_sequence", "src/gaspra/merge.py:_merge", "src/gaspra/merge.py:consolidate"]}
{"id": "C77", "title": "The slices in a changeset tree tile both inputs", "statement": "In the tree of find_changeset(original, modified), read from left to right, the slices of leaves and common parts start at 0, each starts where the one before it ends, and the last one is open; none runs backwards or beyond the input. Every leaf stores exactly the text of its two slices, and the two slices of a common part select the same nonempty text. With slices given as arguments the same holds for these parts of the inputs.", "quantifier": "every pair of sequences, every pair of slices within them", "why_tests_cant": "the slices of leaves are not used by any other function", "anchors": ["src/gaspra/changesets.py:find_changeset", "src/gaspra/changesets.py:ChangesetLeaf", "src/gaspra/changesets.py:Changeset"]}
{"id": "C78", "title": "What an addition stores, and how much", "statement": "An addition changes at most the head text of the new tag and the delta and head text of its base and of the split that the tree names, whatever tree, tokenizer and store, also if it fails. The stored delta of a version takes at most 1+2w times the bytes of the version, where w is the length of the longest encoding of a number up to the longest content: 3 times for contents up to 240 bytes, 19 times in general. It can be larger than the version: with 'ay' repeated n times replaced by 'ax' repeated n times the delta takes at least twice the bytes of the version it replaces.", "quantifier": "every store, tree and tokenizer; for the sizes every documented history with the default tokenizer; every n", "why_tests_cant": "tests look at retrieved contents only", "anchors": ["src/gaspra/versions.py:Versions.add", "src/gaspra/versions.py:Versions._add_edge", "src/gaspra/versions.py:Versions._make_changeset", "src/gaspra/serialize.py:serialize_changeset"]}
{"id": "C79", "title": "The revision tree of the deprecated module", "statement": "Inserting n distinct tags gives a tree whose root is the newest tag: every other tag is the end of exactly one edge, and edges lead from newer to older tags. path_to leads from the newest tag along edges to the tag without repetition, the version before the newest is a child of the root, and a missing tag is a KeyError. insert reports exactly the edges added (at most two, from the new root) and removed (at most one). The branch it moves is found by going from the root to the child with more versions, the newer one of two equal ones, to the first tag with at most as many versions as its depth. The longest path has exactly D tags where D(D+2) <= 4n < (D+1)(D+3), which proves the bound O(sqrt n) that the docstring calls unproven, and insert makes at most 2D+1 passes through its loops. size is the number of tags reached through a node, and height, meant as a path length, is always the same number. reevaluate gives every node its states whatever they were; it is not O(n) as the docstring says: for n = k*k it makes at least k*k*k/2 passes.", "quantifier": "every list of distinct tags", "why_tests_cant": "the shape for all n is a claim about infinitely many trees; the docstring calls it unproven", "anchors": ["src/deprecated/revision_tree.py:Tree.insert", "src/deprecated/revision_tree.py:Tree.path_to", "src/deprecated/revision_tree.py:Tree.edges", "src/deprecated/revision_tree.py:Tree.reevaluate", "src/deprecated/revision_tree.py:find_and_detach_best_split", "src/deprecated/revision_tree.py:Node.update_states"]}
{"id": "C80", "title": "What an interrupted addition leaves behind", "statement": "An addition changes one entry of one dictionary at a time. If calls of add are interrupted after any of their writes (or fail, or complete), except between writing the delta of a version and changing its parent, every tag in the tree is retrieved with the bytes it was added with and every other tag gives None; interrupted calls may be tried again or others made. No write makes a stored tag unknown, and the new tag is known from the second write on. In the excepted window every version whose path does not pass through the moved one is still retrieved exactly, and the others are found along the path from the new tag. The stronger claims are false: in that window an old version is read with wrong bytes and no error, trying again makes the wrong bytes permanent, and after an interruption a little later every further addition to the same head raises ValueError.", "quantifier": "every sequence of calls, each interrupted after any number of writes, all contents below 2^64 bytes (NullTokenizer, CharTokenizer and SymbolTokenizer for retrieval)", "why_tests_cant": "an interruption between two particular writes cannot be provoked by an ordinary test", "anchors": ["src/gaspra/versions.py:Versions.add", "src/gaspra/versions.py:Versions._add_edge", "src/gaspra/memory_tree.py:MemoryTree.change_parent", "src/gaspra/memory_tree.py:MemoryTree._update_metrics"]}
{"id": "C81", "title": "What the git-compatible output marks as a conflict", "statement": "With git-compatible markers into a file, gaspra-diff and gaspra-merge write a proper grouping of the diff (merge) of the sequences of words, lines or characters: the unchanged characters and the changes are those of the diff in their order; there are no more conflicts than changes; there is unchanged text between any two conflicts; every part of a conflict has a change, and the unchanged pieces in it are blank or do not go beyond the end of a line; and every line that lies within an unchanged piece that is not blank is outside of all conflicts, at its place. A program that writes one conflict with the two whole texts in it does not satisfy this.", "quantifier": "all texts and file contents, by words, lines or characters, every class of word and space characters", "why_tests_cant": "that a conflict is not larger than need be is not visible from resolving it", "anchors": ["src/gaspra/diff_to_lines.py:consolidated_line_diff", "src/gaspra/diff_to_lines.py:consolidate", "src/gaspra/diff_to_lines.py:handle_fragment", "src/gaspra/merge_tool.py:diff_cli", "src/gaspra/merge_tool.py:merge_cli"]}
{"id": "C82", "title": "Cost of listing all occurrences", "statement": "For a pattern that occurs in the text, find_substring_all visits, after walking along the pattern, fewer than twice as many nodes as there are occurrences and none twice (the bound 2k-1 for k occurrences is reached); for other patterns it visits none. The length of the text does not enter. So the list that is sorted is less than twice as long as the result.", "quantifier": "every text and every pattern", "why_tests_cant": "depends on the shape of the suffix-link tree below a node, which a test sees for a few texts only", "anchors": ["src/gaspra/suffix_automaton.py:follow_reverse_links", "src/gaspra/suffix_automaton.py:_get_all_start_positions", "src/gaspra/suffix_automaton.py:find_substring_all"]}
{"id": "C83", "title": "How much a diff keeps", "statement": "The text a diff keeps is a common subsequence and at least as long as every common substring. If one text is contained in the other, the diff consists of at most one change before it and one after it. But the diff is not minimal, without bound: for every k there are texts with a common subsequence of length k + 2 of which the diff keeps 2 tokens, while the diff in the other direction keeps all k + 2.", "quantifier": "all texts; for every k a pair of texts", "why_tests_cant": "a family of inputs and the best possible diff cannot be enumerated", "anchors": ["src/gaspra/changesets.py:find_changeset", "src/gaspra/changesets.py:diff_token_sequences", "src/gaspra/suffix_automaton.py:find_lcs"]}
{"id": "C84", "title": "The dumps of an automaton", "statement": "dot_dump.dump writes every node and every transition of a built automaton exactly once and ends after at most one pass more than there are transitions; the words along the drawn paths from node 0 are exactly the substrings of the text, each on one path, and those ending in a red node are its suffixes. suffix_automaton.dump prints every node exactly once, with the length of the longest word leading to it and marked terminal exactly if those words are suffixes, but needs one nested call more than the text has tokens and raises RecursionError otherwise; so does all_suffixes.", "quantifier": "every text, every recursion limit", "why_tests_cant": "recursion limits and drawings of large automata are not inspected by tests; dump is excluded from coverage", "anchors": ["src/gaspra/dot_dump.py:dump", "src/gaspra/suffix_automaton.py:dump", "src/gaspra/suffix_automaton.py:all_suffixes"]}
{"id": "C85", "title": "Exactly the JSON objects of strings are read as manifests", "statement": "For every byte string, doc_to_manifest returns a manifest of strings exactly when the bytes are UTF-8 text that the JSON grammar derives as an object whose values are strings, and the result is the dictionary of its members, the last of several members with the same name counting. White space, the choice of escapes and the case of hexadecimal digits do not matter.", "quantifier": "all byte strings and all dictionaries of strings", "why_tests_cant": "Documents written by other programs differ in layout and escapes without limit; tests only read back what json.dumps wrote.", "anchors": ["src/gaspra/manifest.py:doc_to_manifest"]}
{"id": "C86", "title": "The diff keeps landmarks", "statement": "If a nonempty text c occurs in both versions, its tokens occur nowhere else in them, and no token is in front of c in one version and behind it in the other, then the diff keeps c in one common piece and describes the parts before and behind it separately; a part that is equal in both is not touched. If no version has a token twice and shared tokens come in the same order, the diff keeps every shared token.", "quantifier": "all token sequences with these properties", "why_tests_cant": "The search for the longest match is global, so whether a far away match pulls an unchanged line into a change depends on the whole text.", "anchors": ["src/gaspra/changesets.py:find_changeset", "src/gaspra/changesets.py:diff_token_sequences"]}
{"id": "C87", "title": "Changes on different sides of a landmark merge cleanly", "statement": "If two branches rewrite different regions of a text, with unchanged text between the regions, and no token of a region or of unchanged text occurs in another region or in other unchanged text, the merge has no conflict and is the text with all regions rewritten. gaspra-merge writes exactly this text, by characters, words or lines.", "quantifier": "all lists of regions and all texts", "why_tests_cant": "The hypothesis is about the texts and not about the diffs that the merge computes; tests have a few texts with one or two regions.", "anchors": ["src/gaspra/merge.py:merge_token_sequence", "src/gaspra/merge_tool.py:merge_cli"]}
{"id": "C88", "title": "Merging goes stretch by stretch between landmarks, and within a stretch may lose or double common text", "statement": "Let a text be divided into stretches with unchanged text between them, no token of a stretch or of unchanged text occurring in another stretch or other unchanged text, and let both branches change the stretches as they like. A merge that returns keeps the unchanged text, gives every stretch that only one branch changed the text of that branch, and has in the place of any other stretch, conflicts included, only tokens of the branches' versions of that stretch. Within a stretch nothing like this holds: merging oX and oZ with parent ooX gives Z without a conflict although all three texts begin with o, and merging ooX and ooZ with parent oX gives oooZ without a conflict (X nonempty, without o, and sharing no token with Z, which has no o).", "quantifier": "all tokens, all numbers and lengths of stretches, all X and Z", "why_tests_cant": "tests merge a few short texts; the loss and the doubling are silent and depend on how an edit elsewhere changes the longest match", "anchors": ["src/gaspra/merge.py:merge_token_sequence", "src/gaspra/changesets.py:diff_token_sequences"]}
{"id": "C89", "title": "Lines of versions do not affect each other", "statement": "Let P be a set of tags such that no version in P is based on one outside P and no version outside on one in P. Everything a Versions store holds and answers for the tags of P (get, version_info, in, path_to, the stored text and delta) and the exceptions of the calls with a tag in P are the same as if only those calls had been made. So the order in which several lines are interleaved makes no difference to any of them, over MemoryTree and DBTree. In a documented history this applies to the line of every head.", "quantifier": "every list of add calls with new tags, failing or not; every tokenizer; every such set of tags; every tag", "why_tests_cant": "A test interleaves a few short lines in one order; the split of one line is chosen by heights and order numbers which other lines change, for histories of any length.", "anchors": ["src/gaspra/versions.py:Versions.add", "src/gaspra/versions.py:Versions.get", "src/gaspra/memory_tree.py:MemoryTree.get_split", "src/gaspra/memory_tree.py:MemoryTree.change_parent"]}
{"id": "C90", "title": "Tags that a database column converts to text", "statement": "The tag columns of DBTree and DBCollection have TEXT affinity, so a number is stored and compared as its text and comes back as text. A store with all its parts in the database does and raises exactly what it would with the converted tags, so it returns every version as it was added as long as no two tags have the same text; different integers have different texts. A store that keeps its contents in dictionaries and uses DBTree is the ordinary store when all tags are strings, but when the tags are numbers every version is lost: after any calls each added tag is in the store and get raises KeyError for it. If a tag and its text are both added, the second call raises IntegrityError and get of the first tag then returns the content of the rejected call.", "quantifier": "for every conversion of tags that is idempotent, every history of calls of add, every tokenizer and every content; exact contents for documented histories with the default tokenizer", "why_tests_cant": "The tests of DBTree use string tags and never combine it with Versions.", "anchors": ["src/gaspra/db_tree.py:DBTree", "src/gaspra/db_tree_sql.py:CREATE_GRAPH", "src/gaspra/db_collections.py:DBCollection", "src/gaspra/versions.py:Versions.add", "src/gaspra/versions.py:Versions.get"]}
{"id": "C91", "title": "Changes at separate spots merge in any order and any number of times; other changes may be applied again each time", "statement": "(1) If a text is divided as in C88 and every stretch is changed by one branch only or replaced by both branches with the same text that keeps no old token, then the merge has no conflict and makes each of these changes once. (2) Let a text have separate spots, each with an old and a new text, and let parent, left and right have the new text at arbitrary sets A, S and T of spots. The merge never conflicts; at every spot it takes right if left is as in the parent and left otherwise, so changes are also undone by merging. (3) Merging any list of such branches one after the other into the parent gives the text with all their changes, whatever the order and the repetitions. (4) With a repeated token this fails: for every o, X not containing o and Z sharing nothing with them, merging o o X into n copies of o followed by Z, with the parent o X, returns n + 1 copies of o followed by Z without a conflict, so merging the same branch n times inserts o n times.", "quantifier": "all token types, texts, numbers of spots, sets of changes, branch lists, kinds; all o, X, Z, n in (4)", "why_tests_cant": "A test merges two fixed branches once; neither a statement on every set of changes in every order of merging nor growth without bound shows in it.", "anchors": ["src/gaspra/merge.py:merge_token_sequence", "src/gaspra/merge.py:_merge", "src/gaspra/changesets.py:diff_token_sequences"]}
{"id": "C92", "title": "Stores that share a database", "statement": "Every DBTree and DBCollection uses one connection to one file by default. (1) If stores with tables of their own are made in a database, whatever it held, and add is then called on them in any order with new tags, no tag being used with two stores, then every call ends as if its store were the only one, and so do get and in for every tag not used with another store; with documented histories every store returns every version added to it. (2) A tag of another store is in the store, but get raises KeyError. (3) Making any store, or any DBTree, empties the tree of all others: get returns None for every tag, in is false, and a version based on an earlier one raises TypeError, while the tables still hold the data. So nothing survives the process: a store made again behaves as in a new database. (4) A tag used by any store is refused by the others with IntegrityError, but the content has been written, and if the version under the tag is a head the refusing store returns the refused content. (5) Table names that differ only in case are one table.", "quantifier": "every initial content of the database, every number of stores, every interleaving of calls (failing or not), every tokenizer, every tag", "why_tests_cant": "The tests make one object at a time, each in a fresh state; what objects do to each other depends on the interleaving of whole histories.", "anchors": ["src/gaspra/db_tree.py:DBTree.__init__", "src/gaspra/db_collections.py:DBCollection.__init__", "src/gaspra/db_connections.py:connection_factory", "src/gaspra/versions.py:Versions.add", "src/gaspra/versions.py:Versions.get"]}
{"id": "C93", "title": "Size and running time of a merge", "statement": "A merge that is returned has, counting both sides of its conflicts, every token at most as often as branch0 and branch1 together, so it is not longer than both. It takes at most 28 (2 len(parent) + len(branch0) + len(branch1) + 2)**2 steps, where a step is a round of a loop, an item handed on by a generator, a comparison of list elements or a step of find_changeset; merges with parent 'ax' * n and branch0 'ay' * n take at least n (n + 1) / 2.", "quantifier": "every parent and two branches over any alphabet, of type str, bytes or tuple", "why_tests_cant": "timing tests cover a few inputs; a merge that repeats text looks right in small examples", "anchors": ["src/gaspra/merge.py:merge_token_sequence", "src/gaspra/merge.py:_merge", "src/gaspra/merge.py:consolidate_conflicts", "src/gaspra/merge.py:consolidate_all", "src/gaspra/merge.py:flush_remaining"]}
{"id": "C94", "title": "Running time of the longest common substring of several strings", "statement": "For k >= 1 strings of n tokens together, find_lcs over several strings takes at most (7k+44)(n+k) steps; a step is a round of a loop, an element looked at by a comprehension, an element copied by set.union or a step of build, and the call of sorted is not counted. The factor k cannot be dropped: on k copies of one word, however short, it takes at least k(k+1)/2 steps. Counting does not change the result.", "quantifier": "every list of strings over every token type whose tokens are not equal to a Separator", "why_tests_cant": "a bound for all inputs; the loop pushes nodes again and again, and only an amortised argument shows that this stays linear", "anchors": ["src/gaspra/multiple_strings.py:find_lcs", "src/gaspra/multiple_strings.py:update_shared_strings", "src/gaspra/multiple_strings.py:get_string_offsets", "src/gaspra/suffix_automaton.py:_get_all_start_positions"]}
{"id": "C95", "title": "Running time of reading from and adding to a version store", "statement": "For a documented history without a content of more than L bytes, kept in a MemoryTree with the NullTokenizer, with D = (1+2w)L bounding the bytes of a delta (w is the number of bytes of an encoded number up to L): reading a version of a line of n versions takes at most N(D^2+3D+2L+3) steps with N = floor(sqrt(4n+1))-1, and adding a version on top of it at most (N/2)(D^2+3D+2L+9) + 2(2L+1)(26L+4D+14) + 38 steps; a first version takes one step. Looking up an unknown tag takes one step, and get_split one for every tag above the split and one for every child of these. Steps are rounds of loops, steps of the diff, and bytes copied by +=, slices and join. The square cannot be dropped: after storing 'ay'*n and 'ax'*n on top of it, reading the first takes at least n(n+1)/2 steps, because deserialize_changeset copies the rest of the delta for every item. Counting does not change results.", "quantifier": "every documented history, every L below 2^64, every tag type; the lower bound for every n below 2^63", "why_tests_cant": "a bound for all histories and contents; the quadratic copying only shows on large texts with many small changes", "anchors": ["src/gaspra/versions.py:add", "src/gaspra/versions.py:get_version", "src/gaspra/versions.py:_retrieve_using_path", "src/gaspra/serialize.py:serialize_changeset", "src/gaspra/serialize.py:deserialize_changeset", "src/gaspra/memory_tree.py:change_parent", "src/gaspra/memory_tree.py:get_split", "src/gaspra/memory_tree.py:update_metrics"]}
{"id": "C96", "title": "Line diffs keep the common text of str and lose that of bytes", "statement": "On streams of str, the line diff over texts of either type is the line diff of C45 to C47. decode_and_line_diff_changes of the changes between two str gives back both texts, up to a final newline. On streams of bytes every common piece is dropped: all changes come out as one Change, closed by the str newline unless all are empty, and a stream without changes gives an empty line diff (or one empty str if all its pieces are empty). So if the diff of two nonempty bytes has no change, its line diff is empty. No stream makes the line diff raise an exception, not even one that mixes both types. If a token cannot be decoded, what decode_and_line_diff_changes yielded before the exception is the beginning of what the same pieces give when anything follows them, and at most the last item is missing.", "quantifier": "all streams, all tokenizers with the diff property of C41 and C58, all pairs of texts", "why_tests_cant": "The tests call to_line_diff with str only; decode_and_line_diff_changes has no test.", "anchors": ["src/gaspra/diff_to_lines.py:to_line_diff", "src/gaspra/diff_to_lines.py:handle_fragment", "src/gaspra/tokenizers.py:decode_and_line_diff_changes"]}
{"id": "C97", "title": "Contents that the tokenizer of a version store refuses", "statement": "A Versions store with CharTokenizer or SymbolTokenizer decodes contents as UTF-8, but add without a base never does. After any calls of add with new tags, whatever the contents and whichever calls failed: get returns the content of a tag exactly as it was added if it is UTF-8, and raises UnicodeDecodeError for every tag whose content is not, so a first version that is not UTF-8 is accepted silently and can never be read. A call without a base raises nothing; a base that is not a head raises KeyError; a base that is a head raises UnicodeDecodeError unless both contents are UTF-8, and then stays a head, while the new tag is stored as another one.", "quantifier": "every fresh history over any type of tags, all byte strings shorter than 2**64", "why_tests_cant": "the tests of Versions store text only; the failing call is not the one that stored the bytes", "anchors": ["src/gaspra/versions.py:Versions.add", "src/gaspra/versions.py:Versions.get", "src/gaspra/versions.py:Versions._make_changeset", "src/gaspra/tokenizers.py:CharTokenizer.encode", "src/gaspra/tokenizers.py:SymbolTokenizer.encode"]}
{"id": "C98", "title": "LineTokenizer is safe for texts that only grow", "statement": "Consider a documented history of adds with LineTokenizer in which every version is the one it is based on with whole lines put in front and any bytes put behind (a log, a changelog, or both; branches allowed). Then no add raises, and every version is retrieved exactly, however old. It is not enough that every version contains the one before: if the text put in front is not made of whole lines, a version can come back with other bytes, without an exception.", "quantifier": "every documented history of growing texts shorter than 2**64-1 bytes, every tag type", "why_tests_cant": "the length of the chain of deltas and the texts are unbounded; C43 needs a chain of deltas to go wrong", "anchors": ["src/gaspra/versions.py:Versions._retrieve_using_path", "src/gaspra/versions.py:Versions.add", "src/gaspra/tokenizers.py:LineTokenizer.encode"]}
{"id": "C99", "title": "Texts that only grow take constant space per version", "statement": "Consider a documented history of adds in which every version contains the version it is based on as one piece (a log, a changelog; branches allowed). With the default tokenizer every stored delta has at most 1+2w bytes, where w is the number of bytes of a serialized integer up to the greatest length (19 bytes at most, 3 bytes for texts up to 240 bytes), however much was added. So the store holds the contents of the heads and at most 19 bytes for each other version. The same bound per delta holds with CharTokenizer, where texts have to contain each other as texts. With LineTokenizer and whole lines put in front, a delta has at most 2+4w bytes more than the unfinished last line of its version.", "quantifier": "every documented history of growing texts shorter than 2**64 bytes, every tag type", "why_tests_cant": "the stored size is not observable through the interface, and the splits of the version tree replace deltas later by others, between versions further apart", "anchors": ["src/gaspra/versions.py:Versions.add", "src/gaspra/versions.py:Versions._add_edge", "src/gaspra/serialize.py:serialize_changeset"]}
{"id": "C100", "title": "The commands change the output file only", "statement": "gaspra-diff and gaspra-merge read all their inputs before they open the output. With -o the output file then holds what the texts before the command give, also when it is one of the inputs (under any name), and no other file changes. Without -o no file changes. If an input cannot be read, or the output cannot be opened, no file changes, nothing is printed and the error names that file. Used as a merge driver whose output is the current version: when the other branch did not change, no file changes at all; when only the other branch changed, its bytes replace the current ones. The torture test merges three different files, and different test cases share no file. The output is not safe from failures: --strikeout in place destroys the file.", "quantifier": "all file systems (including several names for one file, unreadable and unwritable files), all contents, all arguments, all names of test cases that are not absolute paths", "why_tests_cant": "Tests run the commands on separate, readable files; aliasing of output and input and missing files need a case for every option.", "anchors": ["src/gaspra/merge_tool.py:get_text", "src/gaspra/merge_tool.py:_merge", "src/gaspra/merge_tool.py:diff_cli", "src/gaspra/merge_tool.py:merge_cli", "src/gaspra/merge_tool.py:torture_cli", "src/gaspra/markup.py:file_writer", "src/gaspra/torture_test.py:get_filenames"]}
{"id": "C101", "title": "The options of build", "statement": "With every choice of reverse_links and mark_terminals, the automaton answers find_substring (first occurrence, or None exactly if there is none) and find_lcs as with the defaults. find_substring_all needs reverse_links only: without them it returns the first occurrence alone, so its answer is right exactly if there are not two occurrences. all_suffixes needs mark_terminals only: without them it yields nothing, not even the empty suffix.", "quantifier": "every text, every pattern, every choice of options", "why_tests_cant": "the package always uses the defaults, and the tests that pass options by position do not list occurrences", "anchors": ["src/gaspra/suffix_automaton.py:build", "src/gaspra/suffix_automaton.py:mark_terminal_nodes", "src/gaspra/suffix_automaton.py:add_reverse_links", "src/gaspra/suffix_automaton.py:find_substring", "src/gaspra/suffix_automaton.py:find_substring_all", "src/gaspra/suffix_automaton.py:find_lcs", "src/gaspra/suffix_automaton.py:all_suffixes"]}
{"id": "C102", "title": "Changesets of parts of texts", "statement": "find_changeset(original, modified, original_slice, modified_slice) always returns. Its change stream refers to positions in the whole texts: applied to the whole original it gives modified[modified_slice], applied in reverse to the whole modified text it gives original[original_slice], with apply and with the old tree-walking functions; its diff stream along the whole original is the diff of the two parts.", "quantifier": "all texts and all slices with natural bounds, also behind the end, in the wrong order or without a stop", "why_tests_cant": "the slices are only ever passed by the recursion itself, so other slices are never tested", "anchors": ["src/gaspra/changesets.py:find_changeset", "src/gaspra/changesets.py:apply_forward", "src/gaspra/changesets.py:apply_reverse", "src/gaspra/changesets.py:old_apply_forward", "src/gaspra/changesets.py:old_apply_reverse"]}
{"id": "C103", "title": "What graphviz reads from the dot files", "statement": "dot_dump of a text without quotes and backslashes writes a file that is read as a graph named G, drawn from left to right, in which the words along the arrows from node 0 are exactly the substrings of the text, each leading to one node, and the words leading to a red node are its suffixes. If the text has a quote (and no backslash) the file cannot be read, since labels are not escaped. revision_dot_dump writes one arrow per edge of the tree, from the larger to the smaller number; that is from parent to child if the revisions were added in increasing order, and then every revision but the newest has exactly one arrow to it.", "quantifier": "all texts, all trees of numbered revisions", "why_tests_cant": "dot_dump.py cannot be imported, so no test runs it; the files would have to be read by graphviz", "anchors": ["src/gaspra/dot_dump.py:dot_dump", "src/gaspra/dot_dump.py:revision_dot_dump", "src/gaspra/dot_dump.py:dump"]}
{"id": "C104", "title": "Every guarantee in a database", "statement": "A store whose head_version, diffs and tree are tables of a database answers with every tokenizer as one in memory and keeps the same rows: with CharTokenizer and SymbolTokenizer UTF-8 contents come back exactly and others raise, with LineTokenizer growing texts are added without an exception and come back exactly, and the tables take at most the newest versions plus 19 bytes per older version for texts that contain their bases. add_manifest over DBTree succeeds exactly if it succeeds in memory, and then every manifest and every tag it lists is returned exactly. An unknown base raises TypeError instead of KeyError, after the files have been stored; missing contents still raise KeyError first.", "quantifier": "every tokenizer, every history with fresh tags, every sequence of add_manifest calls", "why_tests_cant": "no test uses a tokenizer or manifests with the database", "anchors": ["src/gaspra/versions.py:add", "src/gaspra/versions.py:get", "src/gaspra/db_tree.py:DBTree", "src/gaspra/db_collections.py:DBCollection", "src/gaspra/manifest.py:add_manifest", "src/gaspra/manifest.py:get_manifest"]}
{"id": "C105", "title": "Version stores survive RecursionError", "statement": "Let every call of Versions.add be limited to some number of nested calls of find_changeset, a different one for each call, with RecursionError beyond it. After any calls with new tags every version is retrieved exactly, also the versions whose add raised. A call raises KeyError exactly if its base is not a head. It raises RecursionError if the changeset from the new version to its base is deeper than the limit, and only if the changeset from it to some earlier version is. The heads are the versions that no successful call was based on, so the base of a call that raised can be used again. A call that does not raise RecursionError does what it does without a limit, and a call with a limit above the length of the new version never raises it. For n copies of ay on top of n copies of ax it is raised whenever the limit is at most n.", "quantifier": "all histories of add calls with new tags, all limits, all contents; NullTokenizer, CharTokenizer and SymbolTokenizer; all n", "why_tests_cant": "The exception leaves add in the middle of its work, after one of the two edges was moved or before; tests would have to hit the limit in each of the two diffs for trees of many shapes.", "anchors": ["src/gaspra/versions.py:add", "src/gaspra/versions.py:_make_changeset", "src/gaspra/changesets.py:find_changeset"]}
{"id": "C106", "title": "Manifests whose names or tags are numbers", "statement": "The document of a manifest is read back with all names as texts: a number becomes its decimal notation, of several names with the same spelling the last one counts, and the tags, texts or numbers, are unchanged. A manifest whose names are texts is read back exactly. get_manifest never returns a manifest with a number as name, and the first new version under such a name makes add_manifest with a known base raise KeyError without adding anything, although the base manifest was given the same name.", "quantifier": "all manifests of texts and integers, all histories of additions with new tags", "why_tests_cant": "The type of a manifest is dict[Tag, Tag] with hashable tags, but the tests use strings only.", "anchors": ["src/gaspra/manifest.py:manifest_to_doc", "src/gaspra/manifest.py:doc_to_manifest", "src/gaspra/manifest.py:get_manifest", "src/gaspra/manifest.py:add_manifest"]}
{"id": "C107", "title": "A diff can be read at any time", "statement": "diff(original, modified, tokenizer) returns a generator that decodes an item only when it is asked for. For NullTokenizer, CharTokenizer, LineTokenizer and SymbolTokenizer, with any history of the tokenizer, the items are the same and no exception occurs however late they are read and whatever encode calls on the same tokenizer happen before each item: other texts, further diffs, calls that raise. The items spell both texts.", "quantifier": "all histories of the tokenizer, all pairs of texts of one type that the tokenizer accepts, all schedules of encode calls between the items, all character classes of SymbolTokenizer", "why_tests_cant": "tests read each diff to its end before the tokenizer is used again", "anchors": ["src/gaspra/tokenizers.py:diff", "src/gaspra/tokenizers.py:decode_changes", "src/gaspra/tokenizers.py:generic_encode", "src/gaspra/tokenizers.py:LineTokenizer.decode", "src/gaspra/tokenizers.py:SymbolTokenizer.decode"]}
{"id": "C108", "title": "Line diffs take linear time", "statement": "to_line_diff and consolidated_line_diff take a number of steps at most linear in the number of items of the diff plus the characters of its common fragments, and at least that number. The text of the changes is neither read nor copied. Counted are rounds of loops, method calls, elements copied into tuples or lists, characters that isspace, split, + and join look at or copy. The output has linearly many items and elements as well.", "quantifier": "all diff streams of str fragments and changes, all white space predicates", "why_tests_cant": "tests run on short streams and do not measure how the work grows when many changes are collected in one line or consolidated", "anchors": ["src/gaspra/diff_to_lines.py:to_line_diff", "src/gaspra/diff_to_lines.py:handle_fragment", "src/gaspra/diff_to_lines.py:DiffAccumulator.finish_conflict", "src/gaspra/diff_to_lines.py:join_with_newline", "src/gaspra/diff_to_lines.py:consolidate", "src/gaspra/diff_to_lines.py:consolidated_line_diff"]}
{"id": "C109", "title": "Tokens that are equal without being the same", "statement": "Let == of tokens be any equivalence (1 == True, words up to case, objects with their own __eq__ and __hash__). A diff lies piece by piece in the original, token for token, and in the modified text up to ==; inserted tokens are taken from the modified text as they are and common ones from the original. It has a change exactly if the texts differ by more than ==, so for texts equal up to == the changeset applied to the original returns the original, not the modified text. apply_forward gives the new text of the diff and apply_reverse the original up to ==. The equality classes of diff and merge results are the diff and merge of the classes, every token of a merge is literally a token of one of its inputs, branches that only replace tokens by equal ones are ignored, and where equal tokens are the same object value everything is as in the other claims.", "quantifier": "all token types, all equivalences ==, all texts and branches", "why_tests_cant": "Tests use characters and small integers, for which equal tokens are the same, so they never see which of two equal tokens is returned.", "anchors": ["src/gaspra/changesets.py:find_changeset", "src/gaspra/changesets.py:diff_token_sequences", "src/gaspra/merge.py:merge_token_sequence"]}
{"id": "C110", "title": "Types of the suffixes that all_suffixes yields", "statement": "all_suffixes of an automaton of a string yields exactly the suffixes of the string as strings, each once; for bytes they are bytes, for tuples and for anything that is not a sequence they are tuples. For a list with a token in it the generator yields the empty list once and then raises ValueError. With an explicit empty of any type, the generator yields the suffixes as values of that type, starting with the empty one, without repeating a suffix, up to the first suffix that has no value of that type, where it raises ValueError; it yields all suffixes exactly if every token can be put into a sequence of that type (bytes: integers in range(256); str: strings; tuple: anything). Without mark_terminals it yields nothing and raises nothing.", "quantifier": "all texts of all four kinds of input, all values of empty, with and without reverse links", "why_tests_cant": "The tests list suffixes of a handful of strings, bytes and tuples; none of them uses a list or the option empty.", "anchors": ["src/gaspra/suffix_automaton.py:all_suffixes", "src/gaspra/suffix_automaton.py:build"]}
{"id": "C111", "title": "Tags that a tree does not know", "statement": "Called with a tag that was never added, on any tree: MemoryTree.__contains__ is False, path_to returns None and base_version, get_split and change_parent raise a KeyError; DBTree.__contains__ is False, path_to returns the empty tuple and the others raise a TypeError; neither tree is changed. Moving a tag under an unknown parent leaves a DBTree as it was (TypeError, rolled back), but in a MemoryTree the KeyError comes when the tag already has the unknown parent and is no longer a child of the old one: from then on path_to, and Versions.get, return None for the tag and for everything below it and the same as before for all other tags.", "quantifier": "All trees (any dictionary of nodes, any table), all tags; for the second part every tag with a path to its root.", "why_tests_cant": "A test tries one unknown tag on one tree; that the tree is unchanged in every field, and which versions are lost after the failed move, is a statement about all trees.", "anchors": ["src/gaspra/memory_tree.py:change_parent", "src/gaspra/memory_tree.py:path_to", "src/gaspra/memory_tree.py:get_split", "src/gaspra/memory_tree.py:base_version", "src/gaspra/db_tree.py:change_parent", "src/gaspra/db_tree.py:path_to", "src/gaspra/db_tree.py:get_split", "src/gaspra/db_tree.py:base_version", "src/gaspra/versions.py:get"]}
{"id": "C112", "title": "None is not a usable tag", "statement": "Tags are typed Hashable and None is hashable, but None also means 'no parent' and 'no base'. Over a MemoryTree: in a documented history one version without a base may have the tag None; no call raises, all other versions are read back, None counts as known, but get(None) returns None. add(None, c, b) for a head b of a documented history raises nothing, yet afterwards get raises KeyError for every version of the line of b and returns None for None, while all versions of other lines are read back. Over a DBTree: add(None, c) always adds a row, None is never a known tag, get(None) returns None and what other tags read as does not change; add(None, c, b) raises for every store and every b and of the table graph changes only the added row, but the changes stored for an older version may be replaced by then, so that it reads as something else.", "quantifier": "all documented histories, heads, contents; for DBTree all stores", "why_tests_cant": "The test suite uses only integers and strings as tags; that a silent add makes a whole line unreadable shows only by reading all versions after it.", "anchors": ["src/gaspra/versions.py:add", "src/gaspra/versions.py:get", "src/gaspra/memory_tree.py:path_to", "src/gaspra/memory_tree.py:change_parent", "src/gaspra/db_tree.py:add", "src/gaspra/db_tree.py:change_parent"]}
{"id": "C113", "title": "Running time of the tokenizers with a dictionary", "statement": "generic_encode makes the decoding table anew in every call. After any calls with contents of one type, encoding x with a LineTokenizer takes exactly two steps for every line of x and one for every different line in all contents so far; with a SymbolTokenizer the same holds for symbols. So encoding k different lines one after the other takes exactly k(k+5)/2 steps, while one call with all of them takes at most 3 steps per line, and k calls with N lines in total never take more than (k+2)N. line_encode_strings makes its table once: one step per string, two per line and one per different line.", "quantifier": "all sequences of calls", "why_tests_cant": "Exact counts and growth rates are not visible in single runs.", "anchors": ["src/gaspra/tokenizers.py:generic_encode", "src/gaspra/tokenizers.py:LineTokenizer.encode", "src/gaspra/tokenizers.py:SymbolTokenizer.encode", "src/gaspra/tokenizers.py:line_encode_strings"]}
{"id": "C114", "title": "How many SQL statements a version store in a database runs", "statement": "For a Versions store whose tree is a DBTree and whose contents are two DBCollections, count the calls of execute(). add without a base runs 2. A successful add onto a head runs 16 statements if the head has height 1 and 39 + 4*floor(height/2) otherwise, for every tokenizer and after any calls with fresh tags; add onto a base that was never added runs 3 and raises TypeError. get runs one statement more than the path to the version has tags, and 1 for unknown tags. In documented histories height is floor(sqrt(4n+1)) - 1 for a line of n versions, so both grow with the square root of the number of versions. Leaving out the count gives the functions of the other claims.", "quantifier": "every tokenizer (where stated), every history of calls with fresh tags, every content", "why_tests_cant": "The counts depend on the shape of the tree, which only shows in long histories; a test measures time or counts of a few histories, and does not show the exact formula or that no history is worse.", "anchors": ["src/gaspra/db_tree.py:DBTree", "src/gaspra/db_collections.py:DBCollection", "src/gaspra/versions.py:Versions.add", "src/gaspra/versions.py:Versions.get"]}
{"id": "C115", "title": "No changeset can be read from fewer bytes than are written for it", "statement": "Whatever bytes deserialize_changeset reads without an error, the items it yields can be serialized again, in no more bytes, and are read back from these. So the serialized form of a changeset is among the shortest byte strings from which deserialize_changeset yields it. It is not the only one: the bounds of an empty slice between two literals are arbitrary, and padding may follow.", "quantifier": "for all byte strings that are read without an error", "why_tests_cant": "There are infinitely many byte strings that are read as a given changeset (with over-long integers, empty literals, empty slices); no test enumerates them.", "anchors": ["src/gaspra/serialize.py:deserialize_changeset", "src/gaspra/serialize.py:serialize_changeset", "src/gaspra/serialize.py:vdeserialize_int"]}
{"id": "C116", "title": "What a patch does to a text it was not made for", "statement": "Applied to another text than the one it was made from, a patch gives the modified text exactly if the other text agrees with the original in every slice that the patch copies; there is no check and no exception. Text outside the copied slices is ignored, and so is what follows. Whatever the text, the result is no longer than the modified text. The same holds for the reverse patch.", "quantifier": "for all sequences original, modified and other", "why_tests_cant": "Applying patches to arbitrary other texts is a question about all pairs of texts; the tests only apply patches to the texts they were made from.", "anchors": ["src/gaspra/changesets.py:apply", "src/gaspra/changesets.py:apply_forward", "src/gaspra/changesets.py:apply_reverse"]}
{"id": "C117", "title": "A store that is read with another tokenizer", "statement": "Nothing in a store records the tokenizer it was made with. If all contents are ASCII, NullTokenizer and CharTokenizer may be exchanged at every call, over any tree and for any tags: the stores are identical byte by byte, the exceptions are the same and both read the same. In a documented history made with NullTokenizer, CharTokenizer or SymbolTokenizer the heads are read back with each of the four tokenizers (contents valid UTF-8). Other versions are in general returned wrong without an exception; also by SymbolTokenizer itself if the reading Python has another idea of \\w.", "quantifier": "for all sequences of add calls with ASCII contents and all choices of the tokenizer; for all documented histories (heads)", "why_tests_cant": "A persistent store outlives the program that made it; which later programs read it correctly is a statement about all histories and pairs of tokenizers.", "anchors": ["src/gaspra/versions.py:add", "src/gaspra/versions.py:get", "src/gaspra/tokenizers.py:CharTokenizer", "src/gaspra/tokenizers.py:NullTokenizer", "src/gaspra/tokenizers.py:SymbolTokenizer"]}
{"id": "C118", "title": "What an interrupted addition leaves behind in a database", "statement": "With a DBTree, an addition changes one entry of head_version or of diffs, or the table, per transaction; change_parent takes three. If calls of add are interrupted after any of their transactions (or fail, or complete), except between writing the delta of a version and changing its parent, every tag in the table is retrieved with the bytes it was added with and every other tag gives None, whatever calls follow. No transaction makes a stored tag unknown, and the new tag is known from the second one on. In the excepted window every version whose path does not pass through the moved one is still retrieved exactly, and the others are found along the path from the new tag. A call interrupted after its second transaction cannot be tried again: add raises IntegrityError for every tag in the table, after replacing its head. The stronger claims are false: in the excepted window an old version is read with wrong bytes and no error, and the next addition to that head makes them permanent; interrupted after the first transaction of change_parent, all versions are readable but every further addition to that head raises TypeError.", "quantifier": "every sequence of calls, each interrupted after any number of transactions, all contents below 2^64 bytes (NullTokenizer, CharTokenizer and SymbolTokenizer for retrieval)", "why_tests_cant": "an interruption between two particular transactions cannot be provoked by an ordinary test", "anchors": ["src/gaspra/versions.py:Versions.add", "src/gaspra/versions.py:Versions._add_edge", "src/gaspra/db_tree.py:DBTree.change_parent", "src/gaspra/db_tree.py:DBTree._update_metrics"]}
{"id": "C119", "title": "Diffs of texts that are exchanged or read backwards", "statement": "If the recursion of the diff never has a choice (at every stage the two parts share no token, or there is a length at which they agree at exactly one pair of places), then the diff of modified and original is the diff of original and modified with the sides of every change exchanged, and the diff of the reversed texts is the reversed diff. Without this condition only the longest common piece keeps its length: every common piece is at most as long as some common piece of the diff in the other direction and of the reversed texts. The amount of kept text may differ without bound: for every k there are texts of which the diff keeps two tokens, but k + 2 tokens if both are reversed (C83 has the same for exchanged texts).", "quantifier": "all pairs of sequences over every token type; every k", "why_tests_cant": "symmetry is a relation between two runs on different inputs, which no example in the tests compares; the asymmetry only shows for ties", "anchors": ["src/gaspra/changesets.py:find_changeset", "src/gaspra/changesets.py:diff_token_sequences", "src/gaspra/suffix_automaton.py:find_lcs"]}
{"id": "C120", "title": "The exit status of the commands does not tell conflicts or differences", "statement": "gaspra-merge and gaspra-diff with git-compatible markers into a file exit with status 0 exactly if all inputs can be read and the output can be opened, whether or not there are conflicts or differences, so that git takes a merge with conflicts for a clean one. The output does not tell either: whatever a merge writes, the merge of three files that all contain exactly this writes the same bytes with the same status.", "quantifier": "all contents of all files, all file systems, all file names that are valid Unicode (and contain no carriage return, for the output), all tokenizations", "why_tests_cant": "no test runs the commands; the exit status is a property of every run", "anchors": ["src/gaspra/merge_tool.py:merge_cli", "src/gaspra/merge_tool.py:diff_cli", "src/gaspra/merge_tool.py:_merge", "pyproject.toml"]}
{"id": "C121", "title": "Which tokenizers of one's own a version store can be given", "statement": "Let a tokenizer be built like LineTokenizer but cut texts by any function whose pieces, joined, are the text, and which cuts a text made of some consecutive pieces of a text into exactly these pieces. A version store with it, in memory or in a database, never raises on documented histories and returns every version exactly. Lines without an empty last piece are such a function; the lines of LineTokenizer, which only differ by an empty last piece, are not.", "quantifier": "every function that cuts texts and satisfies the condition; every documented history of contents shorter than 2^64 bytes; every tag type", "why_tests_cant": "tests can only try some functions and some histories, and a store is only wrong after deltas of deltas are taken apart", "anchors": ["src/gaspra/versions.py:tokenizer_factory", "src/gaspra/versions.py:_make_changeset", "src/gaspra/versions.py:_apply_changeset", "src/gaspra/tokenizers.py:LineTokenizer"]}
{"id": "C122", "title": "Only equality of tags matters", "statement": "For every store over a MemoryTree or a DBTree, also one with reused tags, and every tokenizer: if different tags get different names, add, get, version_info and in on the renamed store do and answer the same with the names, including the exceptions. A history in which no two tags in use get the same name raises the same exceptions with the names, leaves the same bytes, nodes and rows in the same order, renamed, and every version reads the same. If two tags get the same name, a version can be lost without an exception.", "quantifier": "every store, every renaming that is injective (on the tags in use, for histories), every tokenizer, every history including failing calls", "why_tests_cant": "tests use one or two kinds of tags; no test can show that order or spelling of tags never enters", "anchors": ["src/gaspra/versions.py:Versions.add", "src/gaspra/versions.py:Versions.get", "src/gaspra/versions.py:Versions.version_info", "src/gaspra/memory_tree.py:MemoryTree", "src/gaspra/db_tree.py:DBTree"]}
{"id": "C123", "title": "The benchmark compares two ways to one result", "statement": "`difflib_lcs(s1, s2)`, that is `find_longest_match` of the standard library without junk, returns a longest common substring: the one that starts first in `s1`, there with its first place in `s2`, and `(0, 0, 0)` if there is no common element. It equals `string_matching_lcs(s2, s1)` with the two positions exchanged. On the same two inputs both methods find the same length, so the column `Match Length` is the same for both, while the positions can differ (`ab` and `ba`). The inner loop of difflib runs once for every pair of equal elements, at most `|s1| * |s2|` times and exactly so often when all elements are equal, where `find_lcs` takes a linear number of steps (C64).", "quantifier": "all pairs of sequences over any alphabet with decidable equality", "why_tests_cant": "The benchmark times two methods on random strings and never compares what they return; that an independent algorithm finds the same block for all inputs is a statement about all pairs of strings.", "anchors": ["src/gaspra/difflib_benchmark.py:difflib_lcs", "src/gaspra/difflib_benchmark.py:string_matching_lcs", "src/gaspra/suffix_automaton.py:find_lcs"]}
{"id": "C124", "title": "SymbolTokenizer with another idea of words", "statement": "Which characters belong to words is decided by the Unicode tables of the running Python. Let every call of add be made with word classes of its own that agree on all characters of all contents: the store is the same, byte by byte, as with one class, so are the exceptions, and each of these Pythons reads the same from it, for a documented history of UTF-8 contents what was added. Diffs and merges are the same as well. If two classes differ in any character, two versions made of this character alone are added without an exception and the first is read wrong, without an exception. So two classes are interchangeable for all documented histories exactly if they agree on all characters.", "quantifier": "every tree, every tag type, every sequence of calls including failing ones, all word classes, all contents; every Unicode scalar value for the converse", "why_tests_cant": "a test runs under one Python with one Unicode table; the statement compares all tables on all texts", "anchors": ["src/gaspra/tokenizers.py:SYMBOLS", "src/gaspra/tokenizers.py:SymbolTokenizer", "src/gaspra/versions.py:add", "src/gaspra/versions.py:get", "src/gaspra/tokenizers.py:diff"]}
{"id": "C125", "title": "Exactly when merging bytes raises", "statement": "merge() of bytes raises TypeError if and only if there are positions q < p of the parent such that at q the remaining parts of an edit of one branch and of an edit of the other are different and cannot be composed (one inserting only, the other deleting only), every parent token from q up to p is deleted by one of the branches, and one of the branches has a pure insertion at p. In every other case the items are those of the merge of the same tokens as tuples. In particular there is no exception when no pure insertion of one branch lies within or right behind a stretch the other deletes or replaces, and the order of the branches does not matter for the exception.", "quantifier": "for all parents and branches (any length, any alphabet), the edits being those of the diffs from the parent", "why_tests_cant": "C22 only says that TypeError is the one possible exception; whether it comes depends on how the edits of the two branches lie to each other, of which there are unboundedly many arrangements, and str inputs, which the tests use, never show it.", "anchors": ["src/gaspra/merge.py:_merge", "src/gaspra/merge.py:pending_conflict", "src/gaspra/merge.py:flush_remaining", "src/gaspra/merge.py:consolidate_conflicts"]}
{"id": "C126", "title": "What a RecursionError leaves of the output file", "statement": "find_changeset calls itself, so for every recursion limit there are texts that exceed it. gaspra-diff, and gaspra-merge without --diff, then leave an empty output file and print nothing; otherwise they do exactly what they do without a limit. Which of the two happens depends only on how deep the changesets of the pieces are nested, and for a merge on one more number, at most half of the pieces of both branches plus one. With --diff what has been written is a beginning of the full output: it stops behind the header of the first part whose diff is nested too deeply, or between the diffs and the merge. More nested calls than the parent has pieces are enough. Refuted: that a failing merge keeps the current file. With the current file as output it is empty afterwards, for the families axax… / ayay… and any limit.", "quantifier": "all file systems, contents, names, arguments and limits; for the loss: all lengths n and limits up to n", "why_tests_cant": "The default limit is about a thousand calls, so a test needs specially built texts of thousands of characters; the tests of the project merge small texts and never write to one of the inputs.", "anchors": ["src/gaspra/merge_tool.py:diff_cli", "src/gaspra/merge_tool.py:_merge", "src/gaspra/markup.py:file_writer", "src/gaspra/changesets.py:find_changeset", "src/gaspra/merge.py:consolidate_conflicts", "src/gaspra/merge.py:merge_token_sequence"]}
{"id": "C127", "title": "Coloured output in a file", "statement": "With --output and without --git-compatible, gaspra-diff and gaspra-merge write the tags of the console to the file: the file is the sequence of the common parts as they are, the parts of the first text between [green4] and [/] and the parts of the second text between [dark_red] and [/] (whole lines if lines are shown, otherwise exactly the sides of the diff or of the conflicts that are not empty). If no text has a bracket in it, both texts can be read back from the file, up to one newline at the end that is only added when lines are shown. Brackets in the texts are not escaped: a merge without conflict writes the merged text as it is, so everything that a merge with conflicts has written is also written by the merge of three equal files without any conflict.", "quantifier": "for all file contents, all names, all ways to cut texts into pieces, all classes of word characters and of space", "why_tests_cant": "the tests look at the console markup of single diffs; that two different merges write the same file needs a pair of inputs that nobody writes down", "anchors": ["src/gaspra/markup.py:markup_changes", "src/gaspra/markup.py:file_writer", "src/gaspra/merge_tool.py:get_writer", "src/gaspra/merge_tool.py:get_markup_style", "src/gaspra/merge_tool.py:_merge", "src/gaspra/merge_tool.py:diff_cli"]}
{"id": "C128", "title": "Damage to a stored entry stays on the versions that are read through it", "statement": "For every documented history of additions, let the text and the delta stored for one tag x be changed, removed or added in any way. Every version whose path does not lead through x, in particular every version of the lines of bases to which x does not belong, is retrieved exactly. A version whose parent in the tree cannot be read raises the same exception; otherwise it is read without an exception, is no longer than the right one, and is right exactly if the text of the parent agrees with the right one in the slices the stored delta copies. If the text of a head is replaced, nothing ever raises. If a delta is replaced, the bytes are applied without a check, or the exception of reading them is the exception of get. If nothing is stored for x, exactly the versions whose path leads through x raise KeyError.", "quantifier": "all documented histories, all tags x, all replacement texts and deltas, all versions", "why_tests_cant": "tests damage nothing; the extent of damage depends on the tree built by the whole history and on the slices of each delta", "anchors": ["src/gaspra/versions.py:Versions.get", "src/gaspra/versions.py:Versions._retrieve_using_path", "src/gaspra/changesets.py:apply"]}
{"id": "C129", "title": "A damaged store can be used on and damage does not spread to new versions", "statement": "Let a store have the tree and the tags of a documented history and be readable without an exception, with any (wrong) texts. None of the documented further additions raises, every version added from then on is retrieved exactly, and all earlier versions are read as before: the right ones right, the wrong ones with the same wrong text. This applies when the text of a head is replaced. If the text of a head is lost, add with this head as its base raises KeyError, the new version can be read nevertheless, and all others as before.", "quantifier": "all documented histories, all damaged stores that can be read, all further histories", "why_tests_cant": "add recomputes deltas from what it reads, so whether damage spreads depends on all further histories", "anchors": ["src/gaspra/versions.py:Versions.add", "src/gaspra/versions.py:Versions._retrieve_using_path", "src/gaspra/versions.py:Versions.get"]}
{"id": "C130", "title": "Merging without a common ancestor is a diff", "statement": "If neither branch has a token of the parent, and an empty parent does not meet an empty branch, then merge_token_sequence yields exactly what diff_token_sequences(branch1, branch0) yields (one empty piece where that is nothing). With an empty parent an empty branch gives the other branch. For str and tuples the same holds if no token of the parent is in both branches and the diffs of both branches begin with a change, unless the two first changes are the same or one only inserts and the other only deletes. gaspra-merge parent current other with an output file, whose parent has no character, word or line in common with the others, writes what gaspra-diff other current writes.", "quantifier": "all parents, branches, kinds of sequences, file names, tables and options without --diff and --strikeout", "why_tests_cant": "tests merge edited versions of a text; that the result for unrelated texts is a diff is a statement about two programs on all texts", "anchors": ["src/gaspra/merge.py:merge_token_sequence", "src/gaspra/merge.py:change_change", "src/gaspra/merge.py:pending_conflict", "src/gaspra/merge.py:consolidate_conflicts", "src/gaspra/merge_tool.py:_merge", "src/gaspra/merge_tool.py:diff_cli"]}
{"id": "C131", "title": "Damage to a database with a version store", "statement": "With all parts of a version store in a database (`DBTree` and two `DBCollection` tables), data of rows of the two tables is changed, or rows are deleted, behind the program's back. The damaged database behaves exactly as a store in memory with the same damage, with any tokenizer, for reading and for every documented further call of `add`. If only the rows of the tag x are concerned, every version whose path of deltas does not lead through x is retrieved exactly, in particular every version of a line to which x does not belong; if the rows of x are deleted, exactly the others raise `KeyError`. A database that still reads every version without an exception can be used on: further versions are retrieved exactly and the others as before. If the text of a head is deleted, `add` on it raises `KeyError`, but the new version is readable.", "quantifier": "all stores after documented histories, all changes of data and deletions of rows in the two tables, all further histories, all tokenizers for the first statement and NullTokenizer for the others", "why_tests_cant": "The repository's tests never change a table behind the store's back, and which versions a damaged row reaches depends on the whole tree the splits have built.", "anchors": ["src/gaspra/versions.py:Versions.get", "src/gaspra/versions.py:Versions.add", "src/gaspra/db_collections.py:DBCollection", "src/gaspra/db_tree.py:DBTree.path_to"]}
{"id": "C132", "title": "Which words and lines a merge can contain", "statement": "Merging by lines two branches that end in a newline (or are empty), every common part and every side of a conflict consists of whole lines, and each of its lines is a line of one of the branches; so is every line of the text one gets from the file of gaspra-merge --lines by choosing a side of every conflict. If a branch does not end in a newline this is false: with the parent q, a branch that replaces it by a without a newline and a branch that appends the line z, the merge is the conflict a or q followed by the line z, and whoever chooses a gets a and z in one line. Merging by words, the words of a part are words of the branches unless two of them stand side by side in it. They can, without a conflict: with the parent '+b', the branches 'b' and 'a+b' merge to the single word 'ab', which is a word of none of the three texts, and gaspra-merge --words writes it without a marker.", "quantifier": "all texts, all classes of word characters, all options with git-compatible markers into a file", "why_tests_cant": "Tests compare a few merges with expected output; they cannot show that no line is ever made of parts of others, nor do any of them merge by words a deletion and an insertion at the same place.", "anchors": ["src/gaspra/merge.py:merge_token_sequence", "src/gaspra/merge.py:compose_changes", "src/gaspra/tokenizers.py:SymbolTokenizer.encode", "src/gaspra/tokenizers.py:LineTokenizer.encode", "src/gaspra/merge_tool.py:_merge"]}
{"id": "C133", "title": "One branch rewrites the text, the other one inserts", "statement": "One branch shares no token with the parent (or is empty). If the other one inserts z in the middle of the parent x y, where z has no token of it and y does not begin earlier in x y, then merge_token_sequence yields exactly a conflict between the rewritten text and x, followed by z without a conflict: y is deleted silently, although it is as much in dispute as x, and the result is the same if the branches are exchanged, so that the sides are wrong in one of the two orders. If it inserts something new at several places behind the start, the conflict is between the rewritten text with all insertions but the last one appended to it, although they come from the other branch, and the parent before the last insertion; the last insertion follows without a conflict and the rest of the parent is deleted silently. If z is appended, the merge is the rewritten text followed by z, without a conflict, in both orders, for every z. If z is put in front and the parent does not begin earlier in the new text, all of it is in conflict: the merge is the diff between the branches; but if the rewriting branch is empty, the merge is z without a conflict.", "quantifier": "All parents, branches and insertions over every type of tokens, all three kinds of containers", "why_tests_cant": "Where an insertion lies decides whether there is a conflict and on which text; a test has one position and one order of the branches.", "anchors": ["src/gaspra/merge.py:merge_token_sequence", "src/gaspra/merge.py:copy_change", "src/gaspra/merge.py:change_change", "src/gaspra/merge.py:has_composable_changes", "src/gaspra/changesets.py:diff_token_sequences"]}
{"id": "C134", "title": "Both branches change the same stretches", "statement": "If the diffs from the parent to both branches have the same common pieces and replace or fill the same stretches between them, with whatever texts, then merge_token_sequence yields exactly the common pieces with the diff from the second version to the first one in the place of every stretch, where adjacent common pieces are made one: equal versions give no conflict, text that both versions share is not in the conflict, and every conflict has the first branch first. It never raises, also for bytes. Especially if both branches append something to a text, for all texts that are appended, and if both insert something new at the same place in the middle.", "quantifier": "All parents and branches over every type of tokens, any number of stretches, all three kinds of containers", "why_tests_cant": "Each conflict depends on both versions of its stretch and on the state that earlier conflicts leave behind; tests have one or two stretches.", "anchors": ["src/gaspra/merge.py:merge_token_sequence", "src/gaspra/merge.py:change_change", "src/gaspra/merge.py:ordinary_conflict", "src/gaspra/merge.py:consolidate_conflicts", "src/gaspra/merge.py:consolidate_all"]}
{"id": "C135", "title": "Both branches can be read from the merge of changes at the same places", "statement": "If both branches change the same stretches of the parent (C134), the first sides of all conflicts together with the common text are exactly the first branch, the second sides exactly the second one. For the commands: if the pieces (characters, words or lines) change in the same stretches, gaspra-merge -g -o writes a file from which choosing one side gives each of the two files, up to a final newline. So it is if both branches append lines to a file, unless one of the new files ends with all of the old one; then the insertion may be found in front of the old text and the merge has both parts without a conflict.", "quantifier": "All texts over every type of tokens, all three kinds of containers; all files, all three ways of reading them", "why_tests_cant": "In general the sides of a merge are not the branches (C21, C133); when they are depends on where the two diffs find the changes.", "anchors": ["src/gaspra/merge.py:merge_token_sequence", "src/gaspra/merge_tool.py:_merge", "src/gaspra/markup.py:markup_changes", "src/gaspra/changesets.py:diff_token_sequences"]}
{"id": "C136", "title": "Changes that are apart or of the same stretch merge exactly", "statement": "Going through the diffs from the parent to both branches, if every change of one branch falls into text that the other one keeps (it may touch the other's changes), or meets a change of exactly the same stretch, then merge_token_sequence yields exactly the text with all changes of only one branch applied, and in the place of every stretch that both change the diff from the second version to the first one, with adjacent common pieces made one. So no change is lost, doubled or on the wrong side, and a conflict does not affect what follows it. It never raises, also for bytes.", "quantifier": "All parents and branches over every type of tokens, any number of changes in any order, all three kinds of containers", "why_tests_cant": "C18 is for merges without conflicts and C134 for changes of the same stretches only; here both are mixed, with pieces of any lengths on both sides.", "anchors": ["src/gaspra/merge.py:merge_token_sequence", "src/gaspra/merge.py:_merge", "src/gaspra/merge.py:process_fragments", "src/gaspra/merge.py:copy_copy", "src/gaspra/merge.py:copy_change", "src/gaspra/merge.py:change_change"]}
{"id": "C137", "title": "Resolving the conflicts of a merge to one side keeps the other changes of both branches", "statement": "If any two changes of different branches are of exactly the same stretch of the parent, or do not overlap and do not start at the same place, then taking the first side of every conflict of merge_token_sequence gives the parent with the changes of both branches at their positions, where those of the first branch count if both change the same stretch; taking the second sides gives the same with the second branch preferred. The file that gaspra-merge -g writes has these two texts in it, for characters, words and lines.", "quantifier": "All parents and branches over every type of tokens, all three kinds of containers; all texts and file names for the command", "why_tests_cant": "A wrong result needs conflicts mixed with changes of one branch in a particular order, and a resolved text is a whole document, so a misplaced or lost change shows up only when compared with edits applied independently.", "anchors": ["src/gaspra/merge.py:merge_token_sequence", "src/gaspra/merge.py:copy_change", "src/gaspra/merge.py:change_change", "src/gaspra/merge.py:consolidate", "src/gaspra/merge_tool.py:_merge", "src/gaspra/markup.py:markup_changes"]}
{"id": "C138", "title": "Conflicts of changes that start at the same place have both versions on their sides", "statement": "If any two changes of different branches start at the same place of the parent (and are not an insertion and a deletion) or are apart, and no change touches the end of a conflict of changes of different lengths, then taking the first side of every conflict of merge_token_sequence gives the parent with all changes of the first branch and those changes of the second branch that start elsewhere; the second sides give the same with the branches exchanged. So what the longer change replaces and the other branch keeps is on the side of the other branch. It never raises, also for bytes. The file that gaspra-merge -g writes has these two texts in it. Consolidating conflicts never changes the text of either side, for all inputs.", "quantifier": "All parents and branches over every type of tokens, all three kinds of containers; all texts and file names for the command", "why_tests_cant": "Changes of different lengths that begin together are split and finished by pending_conflict over several rounds of the loop; a test has to hit the right lengths of the change, of the kept text after it and of the next change at once.", "anchors": ["src/gaspra/merge.py:ordinary_conflict", "src/gaspra/merge.py:pending_conflict", "src/gaspra/merge.py:split_change_fragment", "src/gaspra/merge.py:consolidate", "src/gaspra/merge.py:merge_token_sequence", "src/gaspra/merge_tool.py:_merge"]}
{"id": "C139", "title": "What a branch inserts is in one piece on one side of the merge", "statement": "For all parents and branches, also when changes overlap in any way: what a change of either branch inserts occurs in one piece in the text that results from taking the first side of every conflict of merge_token_sequence, or in the one that results from taking the second sides. The file that gaspra-merge -g writes has it in one piece in one of the two texts that its markers separate, for characters, words and lines. It may be on the side of the other branch only.", "quantifier": "All parents and branches over every type of tokens, all three kinds of containers if the merge does not raise; all texts and file names for the command", "why_tests_cant": "Changes are split at every boundary of the other branch's changes and their parts go through different functions; that an insertion is never cut or dropped has to hold for every way in which the boundaries interleave.", "anchors": ["src/gaspra/merge.py:split_change_fragment", "src/gaspra/merge.py:pending_conflict", "src/gaspra/merge.py:ordinary_conflict", "src/gaspra/merge.py:copy_change", "src/gaspra/merge.py:compose_changes", "src/gaspra/merge.py:flush_remaining", "src/gaspra/merge_tool.py:_merge"]}
{"id": "C140", "title": "A conflict never has part of a change", "statement": "If any two changes of the two branches that overlap start at the same place in the parent, then taking the first side of every conflict of a merge gives the parent with all changes of the first branch and some of the changes of the second branch, every change whole or not at all; taking the second sides gives the same with the branches exchanged. Nothing is assumed about changes that touch, insert and delete at the same place, or are equal. The same holds of the file written by gaspra-merge -g.", "quantifier": "all parents and branches over any token type with decidable equality, all three kinds of sequences whenever the merge returns a result; all texts and options for the file", "why_tests_cant": "Tests compare single merges with expected outputs; whether a long conflict, continued by changes that touch it, takes over half of a neighbouring change depends on the interplay of pending tails that examples hardly reach.", "anchors": ["src/gaspra/merge.py:process_fragments", "src/gaspra/merge.py:pending_conflict", "src/gaspra/merge.py:ordinary_conflict", "src/gaspra/merge.py:compose_changes", "src/gaspra/merge.py:flush_remaining"]}
{"id": "C141", "title": "Exactly which changes a side of a merge has", "statement": "If any two changes of the two branches that overlap start at the same place in the parent, then taking the first side of every conflict gives the parent with all changes of the first branch and exactly those changes of the second branch that (a) do not start where a change of the first one starts, unless one of the two only inserts and the other only deletes, and (b) do not start where a conflict is still open. A conflict is open at the end of the longer of two different changes that start together, and at the end of every change that starts where a conflict is open. Taking the second sides gives the same with the branches exchanged, and the same holds of the file written by gaspra-merge -g.", "quantifier": "all parents and branches over any token type with decidable equality, all three kinds of sequences whenever the merge returns a result; all texts and options for the file", "why_tests_cant": "Which changes a conflict swallows depends on chains of changes that touch each other; tests have at most one such chain.", "anchors": ["src/gaspra/merge.py:process_fragments", "src/gaspra/merge.py:pending_conflict", "src/gaspra/merge.py:change_change", "src/gaspra/merge.py:compose_changes", "src/gaspra/merge.py:flush_remaining"]}
{"id": "C142", "title": "Exchanging the branches exchanges the sides", "statement": "If any two changes of the two branches that overlap start at the same place in the parent, then merging the branches in the other order exchanges the two texts that the sides of the conflicts give: the first sides of merge(parent, b, a) give the text of the second sides of merge(parent, a, b), and the other way round. In particular, if one order has no conflict, both sides in the other order give the text of this merge. The same holds of the two files that gaspra-merge -g writes.", "quantifier": "all parents and branches over any token type with decidable equality, all three kinds of sequences whenever the merges return a result; all texts and options for the files", "why_tests_cant": "The tests never merge in both orders, and in general the order does matter (C20).", "anchors": ["src/gaspra/merge.py:process_fragments", "src/gaspra/merge.py:copy_change", "src/gaspra/merge.py:pending_conflict", "src/gaspra/merge.py:flush_remaining"]}
