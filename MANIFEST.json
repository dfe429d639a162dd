{
 "claims": [
  {
   "property": "C01",
   "status": "proved",
   "theorems": [
    "Verif.Props.C01_history_independent",
    "Verif.Props.C01_whole_history"
   ],
   "note": "All queries of the language over any multi-shard index, optimizer on or off."
  },
  {
   "property": "C02",
   "status": "proved",
   "theorems": [
    "Verif.Props.C02_query",
    "Verif.Props.C02_query_text",
    "Verif.Props.C02_all_of",
    "Verif.Props.C02_one_of",
    "Verif.Props.C02_followed_by",
    "Verif.Props.C02_contained_in",
    "Verif.Props.C02_containing",
    "Verif.Props.C02_not_contained_in",
    "Verif.Props.C02_not_containing",
    "Verif.Props.C02_fixed_width"
   ],
   "note": "Windows must have width at least 1; the parser accepts (# 0), see DESIGN.md."
  },
  {
   "property": "C03",
   "status": "proved",
   "theorems": [
    "Verif.Props.C03_no_stuck_call"
   ],
   "note": "Loop exhaustion, overflow and out-of-bounds reads are the model's none."
  },
  {
   "property": "C04",
   "status": "proved",
   "theorems": [
    "Verif.Props.C04_enumeration"
   ],
   "note": ""
  },
  {
   "property": "C05",
   "status": "proved",
   "theorems": [
    "Verif.Props.C05_any_cursor"
   ],
   "note": ""
  },
  {
   "property": "C06",
   "status": "proved",
   "theorems": [
    "Verif.Props.C06_index_union",
    "Verif.Props.C06_shard_union"
   ],
   "note": "C06_index_union is the index of the dynamic warren; C06_shard_union the multi-list hopper over any hoppers."
  },
  {
   "property": "C07",
   "status": "partial",
   "theorems": [
    "Verif.Props.C07_link",
    "Verif.Props.C07_merge_partial",
    "Verif.Props.C07_merge_same_starts_partial",
    "Verif.Props.C07_merge_uat_wrong"
   ],
   "note": "Link holds in full. Merge, in every history of calls: tau, rho, L and R are right, uat and ohr have the right start; their end is wrong when operands have equal starts and different ends (witness proved)."
  },
  {
   "property": "C08",
   "status": "proved",
   "theorems": [
    "Verif.Props.C08_optimizer"
   ],
   "note": ""
  },
  {
   "property": "C09",
   "status": "proved",
   "theorems": [
    "Verif.Props.C09_reads",
    "Verif.Props.C09_round_trip",
    "Verif.Props.C09_parse_total",
    "Verif.Props.C09_accepted_is_legal",
    "Verif.Props.C09_trailing_text_ignored"
   ],
   "note": "C09_reads: every documented notation is read as the query it writes. Text after a complete query is ignored."
  },
  {
   "property": "C10",
   "status": "proved",
   "theorems": [
    "Verif.Props.C10_post",
    "Verif.Props.C10_bytes",
    "Verif.Props.C10_post_domain",
    "Verif.Props.C10_tfdf",
    "Verif.Props.C10_tfdf_component_partial",
    "Verif.Props.C10_tfdf_component_loses"
   ],
   "note": "Both compressors restore their domain. Outside it, post never finishes (C10_post_domain) and the component form of tf/df loses values (witness)."
  },
  {
   "property": "C11",
   "status": "partial",
   "theorems": [
    "Verif.Props.C11_faithful",
    "Verif.Props.C11_post_partial",
    "Verif.Props.C11_negative_never_written"
   ],
   "note": "Full for the null and bad compressors (zlib as a hypothesis). With post, lists of non-negative addresses only: with a negative address the write never finishes (witness)."
  },
  {
   "property": "C12",
   "status": "partial",
   "theorems": [
    "Verif.Props.C12_kept",
    "Verif.Props.C12_minimal_partial",
    "Verif.Props.C12_equal_starts",
    "Verif.Props.C12_duplicates",
    "Verif.Props.arises_good"
   ],
   "note": "C12_kept is the exact content of the index for every transaction. It is the minimal set when no two annotations of a feature have the same start; otherwise the code keeps non-minimal or duplicate intervals (witnesses)."
  },
  {
   "property": "C13",
   "status": "partial",
   "theorems": [
    "Verif.Props.C13_merge_partial",
    "Verif.Props.C13_grouping_partial",
    "Verif.Props.C13_empty_list"
   ],
   "note": "All non-empty lists, any number and grouping. With an empty list in the middle the merge concatenates unsorted (witness, reachable)."
  },
  {
   "property": "C14",
   "status": "partial",
   "theorems": [
    "Verif.Props.C14_hidden_partial",
    "Verif.Props.C14_unaffected",
    "Verif.Props.C14_hopper_partial",
    "Verif.Props.C14_nested_erase"
   ],
   "note": "Unaffected part in full. Hiding holds for erased ranges without another erased range inside; a nested erase revives content (witness)."
  },
  {
   "property": "C15",
   "status": "partial",
   "theorems": [
    "Verif.Props.C15_merge_invisible_partial",
    "Verif.Props.C15_no_erasures",
    "Verif.Props.C15_merge_visible",
    "Verif.Props.arises_merge"
   ],
   "note": "In full, for all queries and histories, when the merged shards have no erasures; with erasures under a covering condition; otherwise answers change (witness)."
  },
  {
   "property": "C16",
   "status": "proved",
   "theorems": [
    "Verif.Props.C16_contract",
    "Verif.Props.C16_rounds",
    "Verif.Props.C16_fast_commits_a_no"
   ],
   "note": "The Committable base class; `make fast` differs, shown by C16_fast_commits_a_no."
  },
  {
   "property": "C17",
   "status": "proved",
   "theorems": [
    "Verif.Props.C17_reader",
    "Verif.Props.C17_history",
    "Verif.Props.C17_uncommitted_unseen",
    "Verif.Props.C17_aborted_never_seen"
   ],
   "note": "Dynamic warren (Bigwig) over all interleavings of writers, readers and merge workers, both builds, any failure short of the end of the process."
  },
  {
   "property": "C18",
   "status": "proved",
   "theorems": [
    "Verif.Props.C18_stable",
    "Verif.Props.C17_reader"
   ],
   "note": ""
  },
  {
   "property": "C19",
   "status": "partial",
   "theorems": [
    "Verif.Props.C19_disjoint_ordered",
    "Verif.Props.C19_relocate",
    "Verif.Props.C19_straddling"
   ],
   "note": "Annotations that start before the staging address and end in it are not relocated at their end: C19_straddling."
  },
  {
   "property": "C20",
   "status": "proved",
   "theorems": [
    "Verif.Props.C20_nothing_lost",
    "Verif.Props.C20_no_span",
    "Verif.Props.C20_output"
   ],
   "note": ""
  },
  {
   "property": "C21",
   "status": "partial",
   "theorems": [
    "Verif.Props.C21_recovery_partial",
    "Verif.Props.C21_history",
    "Verif.Props.C21_kept",
    "Verif.Props.C21_uncommitted_dropped",
    "Verif.Props.C21_published_durable",
    "Verif.Props.C21_fast_build_loses_commits",
    "Verif.Props.C21_unwritten_merge_loses_commits",
    "Verif.Props.C21_late_failure_closes_burrow",
    "Verif.Props.C21_abort_removes_another_vote",
    "Verif.Props.C21_empty_transaction_ends_process"
   ],
   "note": "Holds for histories where merge output files are written when the code assumes so (Clean); the excluded failures really lose data, shown by the five witness theorems."
  },
  {
   "property": "C22",
   "status": "partial",
   "theorems": [
    "Verif.Props.C22_all_or_nothing_partial",
    "Verif.Props.C22_readers_see_part",
    "Verif.Props.C22_fallback_not_atomic"
   ],
   "note": "One Working directory; concurrent readers may see part of a commit_all, and the fallback path is not atomic."
  },
  {
   "property": "C23",
   "status": "proved",
   "theorems": [
    "Verif.Props.C23_round_trip",
    "Verif.Props.C23_round_trip_hazel",
    "Verif.Props.C23_distinct",
    "Verif.Props.C23_order",
    "Verif.Props.C23_accepted",
    "Verif.Props.C23_kinds",
    "Verif.Props.C23_sidecar",
    "Verif.Props.C23_unpadded_accepted",
    "Verif.Props.C23_reversed_range"
   ],
   "note": "Sequence numbers below 2^63. The last two are observations: unpadded names are accepted too, and one of the two parsers does not compare the ends of the range."
  },
  {
   "property": "C24",
   "status": "proved",
   "theorems": [
    "Verif.Props.C24_kept",
    "Verif.Props.C24_rejected",
    "Verif.Props.C24_any_order",
    "Verif.Props.C24_combined"
   ],
   "note": "normalize_shards, verify_dead_shards, verify_shard_order and combine_shards. Sharing between two shards that both lie inside a third is accepted."
  },
  {
   "property": "C25",
   "status": "proved",
   "theorems": [
    "Verif.Props.C25_written",
    "Verif.Props.C25_lookup",
    "Verif.Props.C25_negative_zero",
    "Verif.Props.C25_blank_line",
    "Verif.Props.C25_marks"
   ],
   "note": "C25_lookup opens the bytes of the file, through magic, DNA, blob dictionary, index directory and binary search. C25_blank_line: a DNA containing an empty line makes the file unreadable (reported as a finding)."
  },
  {
   "property": "C26",
   "status": "proved",
   "theorems": [
    "Verif.Props.C26_resume",
    "Verif.Props.C26_contents",
    "Verif.Props.C26_torn_reachable",
    "Verif.Props.C26_top_feature_lost"
   ],
   "note": "Any number of interruptions (process killed between any two file operations, with any append cut short; ends of the checkpoint files lost) then a further run: same bytes as an undisturbed run, no leftovers, and the new shard holds the merged annotations. A feature equal to the largest address is dropped by the merge (C26_top_feature_lost). Not modelled: failing disk operations, checks of the source files, and loss of the linked file itself (the code does not sync before linking)."
  },
  {
   "property": "C27",
   "status": "partial",
   "theorems": [
    "Verif.Props.C27_append_partial",
    "Verif.Props.C27_ascii",
    "Verif.Props.C27_range_partial",
    "Verif.Props.C27_consecutive",
    "Verif.Props.C27_tokens",
    "Verif.Props.C27_merges",
    "Verif.Props.C27_code_points",
    "Verif.Props.C27_cursor",
    "Verif.Props.C27_fresh",
    "Verif.Props.C27_open_tag",
    "Verif.Props.C27_open_sequence",
    "Verif.Props.C27_to_the_end",
    "Verif.Props.C27_gap_merged",
    "Verif.Props.C27_tokenless_merged",
    "Verif.Props.C27_across_partial",
    "Verif.Props.C27_within_partial"
   ],
   "note": "Full statement proved for the ASCII tokenizer without tags (C27_ascii). With tags it needs texts that do not end in a blank or tab, with UTF-8 texts that do not end within a sequence; C27_open_tag and C27_open_sequence show it false without. The other witnesses show what translate gives outside of appended ranges."
  },
  {
   "property": "C28",
   "status": "partial",
   "theorems": [
    "Verif.Props.C28_ascii",
    "Verif.Props.C28_utf8_partial",
    "Verif.Props.C28_utf8_nul"
   ],
   "note": "Full statement proved for the ASCII tokenizer in both settings. For UTF-8, with any table of character classes, tokenize and skip are proved for every text and split for texts without a NUL byte; C28_utf8_nul shows that split disagrees with tokenize on a text with a NUL byte."
  },
  {
   "property": "C29",
   "status": "partial",
   "theorems": [
    "Verif.Props.C29_history_partial",
    "Verif.Props.C29_crash_partial",
    "Verif.Props.C29_crash_abort_partial",
    "Verif.Props.C29_commit_recovery",
    "Verif.Props.C29_readers_see_old",
    "Verif.Props.C29_clone_partial",
    "Verif.Props.C29_fast_abort",
    "Verif.Props.C29_late_abort",
    "Verif.Props.C29_clone_unflushed"
   ],
   "note": "Every history of appends, reads, flushes, transactions, commits, aborts and reopenings answers as one byte string, for every chunk size and every compressor that restores its input; every crash point (any subset of the file changes, each possibly torn, with interrupted recoveries) recovers the string from before the transaction; readers opened during a transaction see the old string. Partial: false in builds without assertions (C29_fast_abort), for buffered writes at abort with compressors that shrink on longer input (C29_late_abort), and for clones of unflushed stores (C29_clone_unflushed)."
  },
  {
   "property": "C30",
   "status": "partial",
   "theorems": [
    "Verif.Props.C30_freeze_cook_partial",
    "Verif.Props.C30_flat_partial",
    "Verif.Props.C30_stable_partial",
    "Verif.Props.C30_cooked",
    "Verif.Props.C30_written",
    "Verif.Props.C30_quote",
    "Verif.Props.C30_backslash",
    "Verif.Props.C30_backslash_lost",
    "Verif.Props.C30_key",
    "Verif.Props.C30_nested_escape",
    "Verif.Props.C30_unclosed_quote"
   ],
   "note": "Freezing does not escape: values with a double quote or backslash do not come back (C30_quote, C30_backslash, C30_backslash_lost), nor do keys that are not words (C30_key). For all other maps the same keys and equivalent values come back, nested to any depth, and text values byte for byte. Values that are maps come back laid out anew, so equality is up to Same."
  },
  {
   "property": "C31",
   "status": "partial",
   "theorems": [
    "Verif.Props.C31_distinct_partial",
    "Verif.Props.C31_translate_partial",
    "Verif.Props.C31_short_long",
    "Verif.Props.C31_literal",
    "Verif.Props.C31_positive_partial",
    "Verif.Props.C31_long_partial",
    "Verif.Props.C31_translate_again_partial",
    "Verif.Props.C31_tags_partial",
    "Verif.Props.C31_tagged_untagged_partial",
    "Verif.Props.C31_json_partial",
    "Verif.Props.C31_json_marks",
    "Verif.Props.C31_vocab",
    "Verif.Props.C31_literal_clash",
    "Verif.Props.C31_nul_clash",
    "Verif.Props.C31_nul_cut",
    "Verif.Props.C31_literal_lost",
    "Verif.Props.C31_literal_changed",
    "Verif.Props.C31_json_ligature"
   ],
   "note": "Proved for every key that is not empty, holds no NUL and does not itself denote a number. False beyond these, with witnesses: #97 and a share a feature, NULs at the end of a key are lost, translation stops at a NUL, and the feature of #65536 translates to the empty key. Also: the feature of a long key is the published hash of its bytes, literals denote their number, features are positive unless the hash is 2^63, tags and keys can be told apart, vocabularies count occurrences. The JSON featurizer drops exactly the three-byte keys with the first two bytes of its marks and a third byte outside 0x80 to 0x8F, among them U+FDF0 to U+FDFF (witness)."
  },
  {
   "property": "C32",
   "status": "partial",
   "theorems": [
    "Verif.Props.C32_compressed_partial",
    "Verif.Props.C32_pieces_flatten",
    "Verif.Props.C32_file_partial",
    "Verif.Props.C32_full_partial",
    "Verif.Props.C32_recipes",
    "Verif.Props.C32_no_offset",
    "Verif.Props.C32_file_wrap",
    "Verif.Props.C32_unclosed",
    "Verif.Props.C32_odd_recipe"
   ],
   "note": "Proved for every sequence of write lengths, every sequence of read lengths, every buffer size of the writer up to that of the reader and every compressor that restores what it was given: reading on from where the last read ended gives exactly the bytes written. Plain and in-memory readers are proved for offsets as well. Missing: compressed streams cannot be read at an offset (C32_no_offset), lengths that wrap around 64 bits (C32_file_wrap)."
  },
  {
   "property": "C33",
   "status": "partial",
   "theorems": [
    "Verif.Props.C33_cache_partial",
    "Verif.Props.C33_filled_for_good",
    "Verif.Props.C33_progress"
   ],
   "note": "The cache never evicts (a new cache starts at each commit). C33_cache_partial needs tidy transactions as in C38, because merging with untidy erasures changes answers (C15_merge_visible); the other two hold in full."
  },
  {
   "property": "C34",
   "status": "partial",
   "theorems": [
    "Verif.Props.C34_scribe",
    "Verif.Props.C34_parts_partial",
    "Verif.Props.C34_only_partial",
    "Verif.Props.C34_as_it_is",
    "Verif.Props.C34_sanitize_keeps",
    "Verif.Props.C34_sanitize_removes",
    "Verif.Props.C34_encode_chars",
    "Verif.Props.C34_newline",
    "Verif.Props.C34_tab",
    "Verif.Props.C34_nul",
    "Verif.Props.C34_noncharacter",
    "Verif.Props.C34_ligature",
    "Verif.Props.C34_ascii",
    "Verif.Props.C34_encode"
   ],
   "note": "Proved for the UTF-8 tokenizer and documents whose strings and keys have no control characters, none of U+FDD0..U+FDD9 and complete UTF-8 sequences; outside of that the code changes documents (C34_newline, C34_tab, C34_nul, C34_noncharacter, C34_ligature, C34_ascii, C34_encode). Parsing (nlohmann) is a parameter; of numbers six decimals are kept."
  },
  {
   "property": "C35",
   "status": "partial",
   "theorems": [
    "Verif.Props.C35_commit",
    "Verif.Props.C35_crash_partial",
    "Verif.Props.C35_back",
    "Verif.Props.C35_abort_partial",
    "Verif.Props.C35_locked",
    "Verif.Props.C35_index_partial",
    "Verif.Props.C35_sessions",
    "Verif.Props.C35_window",
    "Verif.Props.C35_wrong_flag",
    "Verif.Props.C35_cannot_tell",
    "Verif.Props.C35_unrecovered"
   ],
   "note": "Recovered contents are all old or all new for every crash point, torn write and number of interrupted recoveries, except (C35_window) between the commit of the text and the closing of the new block map, where the code itself is not atomic. The right flag for recover must be chosen from .limits once, and the code keeps no record of it (C35_wrong_flag, C35_cannot_tell). With C42 the recovered index answers for the history without or with the transaction."
  },
  {
   "property": "C36",
   "status": "partial",
   "theorems": [
    "Verif.Props.C36_build_partial",
    "Verif.Props.C36_build_ascii",
    "Verif.Props.C36_history_partial",
    "Verif.Props.C36_ranges_partial",
    "Verif.Props.C36_read_partial",
    "Verif.Props.C36_read_build_partial",
    "Verif.Props.C36_text",
    "Verif.Props.C36_utf8_undoubled",
    "Verif.Props.C36_utf8_partial",
    "Verif.Props.C36_doubled",
    "Verif.Props.C36_doubled_unreadable",
    "Verif.Props.C36_nul"
   ],
   "note": "For every list of texts built and every list of transactions, committed or aborted, the block map is exactly the map of the text, addresses follow on, and every sequence of translate and token-count calls (with the reader's memo) is answered from the whole text. False, and shown so by witnesses: the appender writes two entries for a word with two tokens (such as \"US\") at a block start, after which translate divides by zero or the warren cannot be opened; a NUL in the text makes the next transaction reuse addresses. Missing besides: with tags, texts that end in a blank or tab; with UTF-8, texts that end within a sequence."
  },
  {
   "property": "C37",
   "status": "proved",
   "theorems": [
    "Verif.Props.C37_phrase"
   ],
   "note": ""
  },
  {
   "property": "C38",
   "status": "partial",
   "theorems": [
    "Verif.Props.C38_reader_sees_spec_partial",
    "Verif.Props.C38_same_answers_partial"
   ],
   "note": "For tidy transactions: annotations in final addresses meet the preconditions of C12, no erased range lies strictly inside another, no erased annotation lies inside an unerased one of its feature. Without these, merging changes answers (C14_nested_erase, C15_merge_visible)."
  },
  {
   "property": "C39",
   "status": "partial",
   "theorems": [
    "Verif.Props.C39_written",
    "Verif.Props.C39_merged",
    "Verif.Props.C39_mixed_partial",
    "Verif.Props.C39_append_partial",
    "Verif.Props.C39_range",
    "Verif.Props.C39_cursor",
    "Verif.Props.C39_cursor_merged",
    "Verif.Props.C39_clamped",
    "Verif.Props.C39_first_lost",
    "Verif.Props.C39_to_the_end",
    "Verif.Props.C39_piece_end",
    "Verif.Props.C39_mark"
   ],
   "note": "Proved for warrens of dynamic, static and merged static shards in any mixture: every range with q below the largest address is answered as by dynamic shards with the same transactions, and an appended text is read back. Missing: a shard whose first transaction has no token loses text (C39_first_lost), reading up to the largest address differs from a dynamic shard (C39_to_the_end), and the texts C27 leaves out."
  },
  {
   "property": "C40",
   "status": "proved",
   "theorems": [
    "Verif.Props.C40_ascii",
    "Verif.Props.C40_bytes",
    "Verif.Props.C40_bytes_split",
    "Verif.Props.C40_bytes_determined",
    "Verif.Props.C40_utf8",
    "Verif.Props.C40_utf8_places",
    "Verif.Props.C40_utf8_split",
    "Verif.Props.C40_table",
    "Verif.Props.C40_code_points",
    "Verif.Props.C40_determined",
    "Verif.Props.C40_encoding"
   ],
   "note": "The table of character classes of the UTF-8 tokenizer is a parameter here; C83 is about the table that the code has. C40_bytes covers tags and entities and the place of every token (it was added after an edit of the characters of a tag's name went unnoticed)."
  },
  {
   "property": "C41",
   "status": "partial",
   "theorems": [
    "Verif.Props.C41_set_partial",
    "Verif.Props.C41_recipe_partial",
    "Verif.Props.C41_name_partial",
    "Verif.Props.C41_wrap_partial",
    "Verif.Props.C41_colon",
    "Verif.Props.C41_empty_value",
    "Verif.Props.C41_no_value",
    "Verif.Props.C41_extract_missing",
    "Verif.Props.C41_quote"
   ],
   "note": "Proved for recipes and values without double quotes, backslashes and NULs and for values that are not empty and have no colon or at sign. Values with a colon are cut short (C41_colon), an empty value replaces the whole recipe (C41_empty_value), malformed options are not refused but read a piece that is not there (C41_no_value), and so does extracting a missing parameter (C41_extract_missing)."
  },
  {
   "property": "C42",
   "status": "partial",
   "theorems": [
    "Verif.Props.C42_history_partial",
    "Verif.Props.C42_built_partial",
    "Verif.Props.C42_nested_depends_on_limit",
    "Verif.Props.C42_twice_in_one",
    "Verif.Props.C42_builder_drops",
    "Verif.Props.C42_builder_order"
   ],
   "note": "Proved for every history of transactions, starting empty or from a built index, when of the annotations of one feature in one transaction none contains another (for the builder: given in increasing order, and with some token). Otherwise false: what is found depends on the buffer size (C42_nested_depends_on_limit, C42_twice_in_one), a builder without tokens loses its annotations (C42_builder_drops) and annotations in decreasing order make it fail when they do not fit into memory (C42_builder_order). Compressors that give back their input, files below 2^62 bytes."
  },
  {
   "property": "C43",
   "status": "partial",
   "theorems": [
    "Verif.Props.C43_kept",
    "Verif.Props.C43_success_partial",
    "Verif.Props.C43_failure",
    "Verif.Props.C43_failed_file",
    "Verif.Props.C43_transaction",
    "Verif.Props.C43_transaction_post_partial",
    "Verif.Props.C43_full_disk",
    "Verif.Props.C43_full_disk_assert"
   ],
   "note": "Proved in full for a device with enough room, from the calls of a transaction to the hoppers of the opened file. On a full device success means that numbers and text are there and the postings up to some feature; C43_full_disk shows that the rest can be lost without a word, since nobody looks at the stream after the postings. With the post compressor, for non-negative addresses."
  },
  {
   "property": "C44",
   "status": "partial",
   "theorems": [
    "Verif.Props.C44_ssr_partial",
    "Verif.Props.C44_parallel_partial",
    "Verif.Props.C44_threads_partial",
    "Verif.Props.C44_overlap",
    "Verif.Props.C44_overlap_threads",
    "Verif.Props.C44_clone_fails",
    "Verif.Props.lists_exists",
    "Verif.Props.results_unique",
    "Verif.Props.C44_allowed"
   ],
   "note": "Proved for every index and legal query when the containers do not overlap. Fails for overlapping containers: a passage is counted for the first container only (C44_overlap), and then the answer depends on the number of threads (C44_overlap_threads). A failing clone gives an empty ranking (C44_clone_fails). Addresses spanning more than 2^63-1 overflow (hypothesis hspan)."
  },
  {
   "property": "C45",
   "status": "partial",
   "theorems": [
    "Verif.Props.C45_bm25_partial",
    "Verif.Props.C45_fields_partial",
    "Verif.Props.C45_containers",
    "Verif.Props.C45_negative",
    "Verif.Props.C45_fields_backward"
   ],
   "note": "The whole loop with skipping, for exact (rational) weights and scores; with rounding the skipping bound itself is inexact, and the order in which parts are added matters. Query weights times rsj must be positive where rsj is not zero: C45_negative is a ranking that misses its best document because of a term with a negative weight. Term frequencies must be annotated at document starts. The hopper over fields is proved for tau and rho only, which is all the ranking calls; C45_fields_backward shows that its uat and ohr answer with the wrong document."
  },
  {
   "property": "C46",
   "status": "partial",
   "theorems": [
    "Verif.Props.C46_forage",
    "Verif.Props.C46_whole_partial",
    "Verif.Props.C46_range_partial",
    "Verif.Props.C46_totals",
    "Verif.Props.C46_df",
    "Verif.Props.C46_bm25_partial",
    "Verif.Props.C46_gap",
    "Verif.Props.C46_range_end"
   ],
   "note": "Foraging, totals and document frequencies in full. tf_df_annotations only for texts with one token at each address between documents, and tf_annotations only for ranges that end with a document: C46_gap and C46_range_end show why. Scores are exact numbers. Statistics of the other kinds are C67 and C68."
  },
  {
   "property": "C47",
   "status": "partial",
   "theorems": [
    "Verif.Props.C47_label",
    "Verif.Props.C47_apart",
    "Verif.Props.C47_stats_partial",
    "Verif.Props.C47_merged",
    "Verif.Props.C47_unnamed"
   ],
   "note": "The label is read back in full, for all bytes, and exactly when only blanks follow it. Partial: in a merged shard other bytes may follow it up to the next token (C47_merged), and forage accepts an empty name that statistics do not (C47_unnamed). The theorems hold for every skip_value, which passes over keys that forager2json does not write; C82 models the one of the code."
  },
  {
   "property": "C48",
   "status": "partial",
   "theorems": [
    "Verif.Props.C48_jsonl",
    "Verif.Props.C48_succeeds",
    "Verif.Props.C48_fails",
    "Verif.Props.C48_ends",
    "Verif.Props.C48_tsv_partial",
    "Verif.Props.C48_tsv_succeeds",
    "Verif.Props.C48_tsv_path",
    "Verif.Props.C48_forage"
   ],
   "note": "append_jsonl in full, on top of C22 (commit_all is one step). append_tsv: every line once if it succeeds, no line if it fails; but the path is committed before, and the threads one after the other (C48_tsv_path). forage commits each thread on its own (C48_forage). What is appended for a line is C34 for JSON and C49 for TSV."
  },
  {
   "property": "C49",
   "status": "partial",
   "theorems": [
    "Verif.Props.C49_lines",
    "Verif.Props.C49_unbroken",
    "Verif.Props.C49_fields",
    "Verif.Props.C49_join",
    "Verif.Props.C49_whole",
    "Verif.Props.C49_words",
    "Verif.Props.C49_rows_partial",
    "Verif.Props.C49_apart",
    "Verif.Props.C49_kept_partial",
    "Verif.Props.C49_trailing",
    "Verif.Props.C49_past"
   ],
   "note": "Lines, fields and words in full. The annotations for tables in which a row with tokens has one in its last field, and a row with fields but no tokens is followed by one with tokens; otherwise records and paths reach one address too far, and can hide rows (C49_trailing, C49_past)."
  },
  {
   "property": "C50",
   "status": "proved",
   "theorems": [
    "Verif.Props.C50_bytes",
    "Verif.Props.C50_succeeds",
    "Verif.Props.C50_limit",
    "Verif.Props.C50_never_stuck",
    "Verif.Props.C50_ends"
   ],
   "note": "A step is what a call does under the mutex, one pread, or one notification. A range of length 0 succeeds also past the end of the file."
  },
  {
   "property": "C51",
   "status": "partial",
   "theorems": [
    "Verif.Props.C51_stored_partial",
    "Verif.Props.C51_same_partial",
    "Verif.Props.C51_search",
    "Verif.Props.C51_nul",
    "Verif.Props.C51_negative",
    "Verif.Props.C51_many"
   ],
   "note": "Not for texts with a NUL, ids at negative addresses and more than 2^31 ids: there the code fails, as the last three theorems show. zlib is taken to be lawful, and writing the file not to fail."
  },
  {
   "property": "C52",
   "status": "partial",
   "theorems": [
    "Verif.Props.C52_decides_partial",
    "Verif.Props.C52_true_means",
    "Verif.Props.C52_prefix",
    "Verif.Props.C52_leading_blank",
    "Verif.Props.C52_no_words",
    "Verif.Props.C52_backslash"
   ],
   "note": "Yes exactly for recorded paths, if the paths hold no blanks and at least one word, and the one asked for does not end in a backslash; that an append records its path so is a hypothesis (C11, C20, C27 are about that). Without these conditions the code goes wrong, as the last four theorems show."
  },
  {
   "property": "C53",
   "status": "proved",
   "theorems": [
    "Verif.Props.C53_clean",
    "Verif.Props.C53_covered",
    "Verif.Props.C53_interrupted",
    "Verif.Props.C53_again",
    "Verif.Props.C53_rejected",
    "Verif.Props.C53_finished",
    "Verif.Props.C53_other_sources",
    "Verif.Props.C53_conflict"
   ],
   "note": "One kind and range has one name (the code writes zero-padded names only). The last two theorems are warnings about what a report does not mean: the sources need not be those the checkpoint was made from, and two reported merges may not both be possible."
  },
  {
   "property": "C54",
   "status": "proved",
   "theorems": [
    "Verif.Props.C54_picks",
    "Verif.Props.C54_converts",
    "Verif.Props.C54_merges_fivers",
    "Verif.Props.C54_merges_static",
    "Verif.Props.C54_reports",
    "Verif.Props.C54_workers",
    "Verif.Props.C54_marks",
    "Verif.Props.C54_ends",
    "Verif.Props.C54_settles",
    "Verif.Props.C54_nothing_missed",
    "Verif.Props.C54_three_shards",
    "Verif.Props.C54_gap_blocks",
    "Verif.Props.C54_memory_blocks",
    "Verif.Props.C54_failure_forgotten"
   ],
   "note": "Sizes are taken to be at least 0 and sequence numbers to stay below 2^63. The last three theorems show that the conditions are needed: an aborted transaction, an index without a directory, or a failed merge leave work undone."
  },
  {
   "property": "C55",
   "status": "partial",
   "theorems": [
    "Verif.Props.C55_files_partial",
    "Verif.Props.C55_files_prefix",
    "Verif.Props.C55_missing_stops",
    "Verif.Props.C55_missing_last",
    "Verif.Props.C55_empty_file",
    "Verif.Props.C55_jsonl_partial",
    "Verif.Props.C55_jsonl_prefix",
    "Verif.Props.C55_jsonl_content",
    "Verif.Props.C55_last_line_lost",
    "Verif.Props.C55_blank_line",
    "Verif.Props.C55_commit_all",
    "Verif.Props.C55_rested",
    "Verif.Props.C55_refused",
    "Verif.Props.C55_jsonl_refused"
   ],
   "note": "Proved for files that can be read and have tokens, and for lines that end in a newline. The claim is false of the code otherwise: a file that cannot be read leaves its transaction open (C55_missing_stops, C55_missing_last), an empty file is marked over the token that follows it (C55_empty_file), and a last line without a newline is dropped (C55_last_line_lost)."
  },
  {
   "property": "C56",
   "status": "partial",
   "theorems": [
    "Verif.Props.C56_stem_partial",
    "Verif.Props.C56_bounds",
    "Verif.Props.C56_underflow",
    "Verif.Props.C56_shape",
    "Verif.Props.C56_case",
    "Verif.Props.C56_others",
    "Verif.Props.C56_nul"
   ],
   "note": "Proved for words without NUL bytes: the answer is that of the rules whatever byte lies before the buffer, and C56_bounds says exactly for which words the code reads that byte. Not true of the code: the byte before the buffer is read for words such as \"ied\", \"aed\" and \"ion\" (C56_underflow), and a word with a NUL byte is answered with letters of the word before it (C56_nul)."
  },
  {
   "property": "C57",
   "status": "proved",
   "theorems": [
    "Verif.Props.C57_gate",
    "Verif.Props.C57_whole",
    "Verif.Props.C57_counts",
    "Verif.Props.C57_once",
    "Verif.Props.C57_cached",
    "Verif.Props.C57_released",
    "Verif.Props.C57_chunk"
   ],
   "note": "Threads interleave at the operations on shared data (sequential consistency: the accesses that are not atomic are shown not to overlap). The index is modelled as compiled, without ejection from its cache. That the file can be read and decompressed is assumed for the index (the code asserts it), not for the text."
  },
  {
   "property": "C58",
   "status": "partial",
   "theorems": [
    "Verif.Props.C58_fusion_partial",
    "Verif.Props.C58_fusion_order",
    "Verif.Props.C58_fusion_conflates",
    "Verif.Props.C58_tiered_partial",
    "Verif.Props.C58_tiers_partial",
    "Verif.Props.C58_search_partial",
    "Verif.Props.C58_once_missed"
   ],
   "note": "Missing: fusion tells passages apart by their first address only (C58_fusion_conflates); a query of one word, and every choice of a single word, asks for the word twice, so a document in which it occurs once is not found (C58_once_missed). As for C44, containers that overlap are outside the theorem on tiers. Weights are any function of the term."
  },
  {
   "property": "C59",
   "status": "partial",
   "theorems": [
    "Verif.Props.C59_icover_partial",
    "Verif.Props.C59_narrow_partial",
    "Verif.Props.C59_zero_undefined",
    "Verif.Props.C59_ones_missed",
    "Verif.Props.C59_light_dropped"
   ],
   "note": "Missing: once `depth` containers are found, words are dropped by a bound that is too low, so that better passages with fewer words can be lost (C59_light_dropped; the method is called approximate in the code); of single words only the first `depth` occurrences are looked at (C59_ones_missed); depth 0 with two words is undefined (C59_zero_undefined). Hoppers are their answers, which C01 shows to depend on the key only."
  },
  {
   "property": "C60",
   "status": "partial",
   "theorems": [
    "Verif.Props.C60_trec_partial",
    "Verif.Props.C60_rr_is_ap",
    "Verif.Props.C60_ndcg",
    "Verif.Props.C60_rbp",
    "Verif.Props.C60_med",
    "Verif.Props.C60_med_ndcg_partial",
    "Verif.Props.C60_med_empty_undefined",
    "Verif.Props.C60_mean_partial",
    "Verif.Props.C60_mean_from_measures",
    "Verif.Props.C60_mean_undefined",
    "Verif.Props.C60_grades_partial",
    "Verif.Props.C60_grades_powers",
    "Verif.Props.C60_grades_zero_undefined",
    "Verif.Props.C60_grades_again",
    "Verif.Props.C60_tbg",
    "Verif.Props.C60_tbg_swap",
    "Verif.Props.C60_tbg_more"
   ],
   "note": "Violated: the reciprocal rank reported is the average precision (C60_rr_is_ap); the normalized similarity of two empty rankings is 0/0 (C60_med_empty_undefined); averaging rankings of which a later one lacks a measure is undefined (C60_mean_undefined); a file without a relevant document gives grades 0/0 (C60_grades_zero_undefined); a second file rescales the first (C60_grades_again). Numbers are exact; logarithms are any positive weights that do not grow. The decay of time-biased gain is any that does not grow. The parsing of the file is C84."
  },
  {
   "property": "C61",
   "status": "partial",
   "theorems": [
    "Verif.Props.C61_grammar",
    "Verif.Props.C61_one_reading",
    "Verif.Props.C61_definition",
    "Verif.Props.C61_refused_partial",
    "Verif.Props.C61_refused_defines",
    "Verif.Props.C61_query_partial",
    "Verif.Props.C61_answers_partial",
    "Verif.Props.C61_combination_refused",
    "Verif.Props.C61_backslash_changes",
    "Verif.Props.C61_large_width",
    "Verif.Props.C61_message_stale",
    "Verif.Props.C61_nul"
   ],
   "note": "Violated: a combination of more than one but not all of its expressions is printed as a text that the other parser refuses (C61_combination_refused); a quoted text that ends with a backslash is read back as another query (C61_backslash_changes); a definition followed by something else is refused but made (C61_refused_defines); widths from 4294967290 on become 4294967295 (C61_large_width); a line that ends after `contained` or `not` is refused with the message of an earlier line (C61_message_stale); text after a NUL is ignored (C61_nul)."
  },
  {
   "property": "C62",
   "status": "partial",
   "theorems": [
    "Verif.Props.C62_product_partial",
    "Verif.Props.C62_lmd_partial",
    "Verif.Props.C62_random",
    "Verif.Props.C62_parameter",
    "Verif.Props.C62_defaults",
    "Verif.Props.C62_weights",
    "Verif.Props.C62_likelihood_partial",
    "Verif.Props.C62_lmd_reversed",
    "Verif.Props.C62_common_dropped",
    "Verif.Props.C62_depth_undefined",
    "Verif.Props.C62_depth_range",
    "Verif.Props.C62_point_annotations",
    "Verif.Props.C62_uncounted"
   ],
   "note": "Violated: a dot product with a tag that is no name of a ranker and without a depth follows a null pointer (C62_depth_undefined); the scores of lmd_ranking are likelihoods only for passages with every term, and a passage with more of the query and a greater likelihood can rank lower (C62_lmd_reversed); passages with a score of zero or less are never returned (C62_common_dropped); a term that is not counted makes all its passages equal (C62_uncounted); with frequencies at the first word of a passage every length is one (C62_point_annotations). Scores are any ordered type, so rounding is covered, but not NaN."
  },
  {
   "property": "C63",
   "status": "partial",
   "theorems": [
    "Verif.Props.C63_accepts",
    "Verif.Props.C63_refused",
    "Verif.Props.C63_meaning_partial",
    "Verif.Props.C63_determined",
    "Verif.Props.C63_last_partial",
    "Verif.Props.C63_parameters_partial",
    "Verif.Props.C63_random_depth",
    "Verif.Props.C63_depth_shared",
    "Verif.Props.C63_two_tokenizers",
    "Verif.Props.C63_release_null",
    "Verif.Props.C63_flags_ignored"
   ],
   "note": "What stages do is proved when the statistics have the tokenizer of the warren. Violated otherwise: `lmd` first in a pipeline splits the query in another way than after `stop` (C63_two_tokenizers); without assertions statistics have no tokenizer at all and a null pointer is followed (C63_release_null). A stage for random parameters resets the depth (C63_random_depth). The flags stored with the statistics are not read (C63_flags_ignored). Number reading (`std::stof`) is a parameter; what feedback finds is a parameter."
  },
  {
   "property": "C64",
   "status": "partial",
   "theorems": [
    "Verif.Props.C64_answered",
    "Verif.Props.C64_failed",
    "Verif.Props.C64_threads",
    "Verif.Props.C64_one_clone",
    "Verif.Props.C64_ends",
    "Verif.Props.C64_returns",
    "Verif.Props.C64_identifiers",
    "Verif.Props.C64_identified",
    "Verif.Props.C64_stale",
    "Verif.Props.C64_own_draws",
    "Verif.Props.C64_point_unidentified"
   ],
   "note": "Violated: without topics what was in `results` stays (C64_stale); with a stage for random parameters each worker draws its own, so the topics of a run are ranked with different parameters (C64_own_draws); passages of one word, as lmd_ranking returns them with frequencies at the first word, have no identifier in them and are dropped (C64_point_unidentified). The times are not modelled."
  },
  {
   "property": "C65",
   "status": "partial",
   "theorems": [
    "Verif.Props.C65_answers",
    "Verif.Props.C65_candidates_partial",
    "Verif.Props.C65_fragments",
    "Verif.Props.C65_score",
    "Verif.Props.C65_weights",
    "Verif.Props.C65_locations_partial",
    "Verif.Props.C65_after",
    "Verif.Props.C65_nearer",
    "Verif.Props.C65_last_window",
    "Verif.Props.C65_zero_length",
    "Verif.Props.C65_duplicates"
   ],
   "note": "Violated: the last window of a longer fragment is no candidate (C65_last_window); a word after the passage has the distance 1 however far it is (C65_after) and one that occurs again nearer has the distance of its first occurrence (C65_nearer); the same fragment from two passages counts twice and its answer is returned twice (C65_duplicates); a length of 0 reads outside a vector (C65_zero_length). C65_locations_partial assumes that the passage is not further than twice the address of the fragment."
  },
  {
   "property": "C66",
   "status": "partial",
   "theorems": [
    "Verif.Props.C66_whole",
    "Verif.Props.C66_agree",
    "Verif.Props.C66_once",
    "Verif.Props.C66_released",
    "Verif.Props.C66_count",
    "Verif.Props.C66_bogus",
    "Verif.Props.C66_bogus_shown",
    "Verif.Props.C66_checked"
   ],
   "note": "In full when the file can be read. Violated otherwise, in builds without assertions: a posting that cannot be read is replaced by annotations near the smallest address that nobody made, without an error, for as long as the shard is open (C66_bogus, C66_bogus_shown)."
  },
  {
   "property": "C67",
   "status": "partial",
   "theorems": [
    "Verif.Props.C67_first",
    "Verif.Props.C67_counted_partial",
    "Verif.Props.C67_totals",
    "Verif.Props.C67_df",
    "Verif.Props.C67_idf",
    "Verif.Props.C67_asked",
    "Verif.Props.C67_weights",
    "Verif.Props.C67_refused",
    "Verif.Props.C67_no_weights",
    "Verif.Props.C67_out_of_range",
    "Verif.Props.C67_second"
   ],
   "note": "In full when no document has a field twice, and no document starts before address 0. Violated otherwise: only the first part of a field in a document is counted (C67_second, C67_first). A weight out of range is an exception, not an error (C67_out_of_range)."
  },
  {
   "property": "C68",
   "status": "partial",
   "theorems": [
    "Verif.Props.C68_committed",
    "Verif.Props.C68_nothing",
    "Verif.Props.C68_kept",
    "Verif.Props.C68_tf",
    "Verif.Props.C68_average_partial",
    "Verif.Props.C68_no_documents",
    "Verif.Props.C68_idf",
    "Verif.Props.C68_rsj",
    "Verif.Props.C68_again",
    "Verif.Props.C68_stale",
    "Verif.Props.C68_mixed"
   ],
   "note": "In full for statistics made once over some documents, none of which starts before address 0. Violated when they are made again: a Robertson and Sparck Jones weight that is no longer positive is not replaced (C68_stale); where there are statistics of kind df or field, the new counts are hidden by theirs (C68_mixed); with no documents the average is not a number (C68_no_documents)."
  },
  {
   "property": "C69",
   "status": "partial",
   "theorems": [
    "Verif.Props.C69_set_partial",
    "Verif.Props.C69_text_partial",
    "Verif.Props.C69_history_partial",
    "Verif.Props.C69_refused",
    "Verif.Props.C69_interrupted",
    "Verif.Props.C69_full_lost",
    "Verif.Props.C69_unnamed_success",
    "Verif.Props.C69_lost_update",
    "Verif.Props.C69_big_set_partial",
    "Verif.Props.C69_big_reopened_partial",
    "Verif.Props.C69_big_opened",
    "Verif.Props.C69_big_open_lost",
    "Verif.Props.C69_quote_lost",
    "Verif.Props.C69_newline",
    "Verif.Props.C69_backslash_lost"
   ],
   "note": "Proved for values without NUL, double quote, backslash and newline, and maps of such values (those mean the same afterwards), on a device that works. Violated: a double quote or a backslash makes the whole description unreadable (C69_quote_lost, C69_backslash_lost), a newline becomes a blank, a full device loses the description and reports success (C69_full_lost), even by opening a warren of shards (C69_big_open_lost), a renaming that fails reports success, and of two programs that set parameters at the same time one is lost (C69_lost_update)."
  },
  {
   "property": "C70",
   "status": "proved",
   "theorems": [
    "Verif.Props.C70_kept",
    "Verif.Props.C70_fresh",
    "Verif.Props.C70_success",
    "Verif.Props.C70_removed",
    "Verif.Props.C70_again",
    "Verif.Props.C70_grown_refused",
    "Verif.Props.C70_gap_refused",
    "Verif.Props.C70_missed"
   ],
   "note": "In full, at the level of the ranges of transactions of shards (what is in a merged shard is C13, C25 and C39). The last three theorems show directories that it refuses to merge, or where a union is not recognized; nothing is lost there."
  },
  {
   "property": "C71",
   "status": "partial",
   "theorems": [
    "Verif.Props.C71_clone_partial",
    "Verif.Props.C71_start",
    "Verif.Props.C71_simple_partial",
    "Verif.Props.C71_json_lost",
    "Verif.Props.C71_jason"
   ],
   "note": "The code violates it: in a burrow opened as one of JSON every copy shows the text as it is stored, with its marks, as the recipe is not copied (C71_json_lost). Everything else is proved; for simple warrens for the texts of C36."
  },
  {
   "property": "C72",
   "status": "partial",
   "theorems": [
    "Verif.Props.C72_rsj_partial",
    "Verif.Props.C72_kld_partial",
    "Verif.Props.C72_window_partial",
    "Verif.Props.C72_past",
    "Verif.Props.C72_longer",
    "Verif.Props.C72_rsj_twice",
    "Verif.Props.C72_nan",
    "Verif.Props.C72_qa_gaps_partial",
    "Verif.Props.C72_qa_score_partial",
    "Verif.Props.C72_qa_infinite"
   ],
   "note": "The code violates it: a window may reach into the next document (C72_past), a document with two results counts twice with rsj (C72_rsj_twice), weights are not numbers in a collection that says one word (C72_nan), nor the scores of qa_prf for a word after a passage of one word (C72_qa_infinite). Otherwise proved for rsj and kld, with exact numbers."
  },
  {
   "property": "C73",
   "status": "partial",
   "theorems": [
    "Verif.Props.C73_sort_partial",
    "Verif.Props.C73_succeeds",
    "Verif.Props.C73_check",
    "Verif.Props.C73_valid_partial",
    "Verif.Props.C73_empty",
    "Verif.Props.C73_full_disk"
   ],
   "note": "The code violates it: what is written when a file is closed is not checked, so that with a full disk annotations are lost, the input is removed and success is reported (C73_full_disk); a file without annotations is removed and the name of the sorted one is empty (C73_empty). Otherwise proved for every file, every size of memory and every noticed failure."
  },
  {
   "property": "C74",
   "status": "partial",
   "theorems": [
    "Verif.Props.C74_plain_partial",
    "Verif.Props.C74_compressed_partial",
    "Verif.Props.C74_command",
    "Verif.Props.C74_missing",
    "Verif.Props.C74_cut",
    "Verif.Props.C74_dash"
   ],
   "note": "The code violates it: an error on the way and damaged compressed content give a shorter text without an error (C74_cut), and the name of a compressed file that starts with - is taken for an option (C74_dash). Otherwise proved for every name and content; that the shell gets exactly two words is proved for every name, against a model of the shell's rules for words."
  },
  {
   "property": "C75",
   "status": "partial",
   "theorems": [
    "Verif.Props.C75_history",
    "Verif.Props.C75_trec_partial",
    "Verif.Props.C75_missing"
   ],
   "note": "The code violates it: a missing file is not reported by build_trec, a null pointer is read (C75_missing). Proved for every history of every builder, and for building from files that can be read."
  },
  {
   "property": "C76",
   "status": "partial",
   "theorems": [
    "Verif.Props.C76_accepted",
    "Verif.Props.C76_merged",
    "Verif.Props.C76_steps",
    "Verif.Props.C76_names",
    "Verif.Props.C76_backward"
   ],
   "note": "Proved for settings that can be kept (no NUL, quote, backslash or newline in a text: see C69), as claimed. The code violates what one would expect of names: numbers in the wrong order are accepted if the shards say nothing about their ranges (C76_backward), and the parameters given to a merge by name are ignored. Which featurizers, tokenizers and stemmers can be made is a parameter of the model."
  },
  {
   "property": "C77",
   "status": "partial",
   "theorems": [
    "Verif.Props.C77_through_partial",
    "Verif.Props.C77_finalize_partial",
    "Verif.Props.C77_transaction",
    "Verif.Props.C77_defined",
    "Verif.Props.C77_unheard",
    "Verif.Props.C77_abort",
    "Verif.Props.C77_annotator"
   ],
   "note": "Proved: what reaches the builder, the answers of texts and of finalize, that finalize notices every loss, and the protocol of transactions. The code violates the rest: an annotation that the builder refuses is answered with yes (C77_unheard), an abort undoes nothing (C77_abort), and ending a transaction of the annotator cuts it off for good (C77_annotator). The addresses that append sets are not in the model."
  },
  {
   "property": "C78",
   "status": "partial",
   "theorems": [
    "Verif.Props.C78_check",
    "Verif.Props.C78_tokenizer_check",
    "Verif.Props.C78_compressor_check",
    "Verif.Props.C78_compressor_unchecked",
    "Verif.Props.C78_tokenizer_undefined",
    "Verif.Props.C78_remade_partial",
    "Verif.Props.C78_tag",
    "Verif.Props.C78_tokenizer_remade",
    "Verif.Props.C78_built_partial",
    "Verif.Props.C78_unopened",
    "Verif.Props.C78_recipe_partial",
    "Verif.Props.C78_default",
    "Verif.Props.C78_checked_refused",
    "Verif.Props.C78_checked_undefined"
   ],
   "note": "Proved for featurizers whose tags are just text, compressors that pass the check, and recipes without NUL, double quote or backslash. The code violates the rest: a tag that can be read as a map is rewritten and gives other features (C78_tag), the builder takes compressors with which the burrow cannot be opened (C78_unopened), and recipes that pass the check are refused (C78_checked_refused) or have undefined behaviour (C78_checked_undefined, C78_tokenizer_undefined)."
  },
  {
   "property": "C79",
   "status": "partial",
   "theorems": [
    "Verif.Props.C79_opened",
    "Verif.Props.C79_range",
    "Verif.Props.C79_range_same",
    "Verif.Props.C79_tokens_partial",
    "Verif.Props.C79_tokens_dynamic",
    "Verif.Props.C79_tokens_same",
    "Verif.Props.C79_tokens_static",
    "Verif.Props.C79_again",
    "Verif.Props.C79_next",
    "Verif.Props.C79_default",
    "Verif.Props.C79_found",
    "Verif.Props.C79_threads_partial",
    "Verif.Props.C79_threads_first",
    "Verif.Props.C79_threads_later",
    "Verif.Props.C79_threads_alive",
    "Verif.Props.C79_race",
    "Verif.Props.C79_race_chunk",
    "Verif.Props.C79_gap",
    "Verif.Props.C79_wrapped"
   ],
   "note": "The range is right for every warren asked by one thread at a time, and so is the address at which a reopened burrow goes on. The count is proved for dynamic shards and for static shards without unused addresses; a static shard counts those too (C79_gap), so the count changes when shards are converted. The code violates the rest: a thread that asks while another computes the range can get whatever was in memory (C79_race), and the fastid text does not hand the question on (C79_wrapped)."
  },
  {
   "property": "C80",
   "status": "partial",
   "theorems": [
    "Verif.Props.C80_life_partial",
    "Verif.Props.C80_warren_partial",
    "Verif.Props.C80_taken",
    "Verif.Props.C80_meadow_created",
    "Verif.Props.C80_meadow_partial",
    "Verif.Props.C80_open_meadow_undefined",
    "Verif.Props.C80_unknown_stemmer",
    "Verif.Props.C80_null_stemmer"
   ],
   "note": "Proved for every history of setting values that can be kept (C69) and of opening. Missing: options with NUL, double quote or backslash, and writing that fails. The code violates the rest: the stemmer called null is forgotten when the warren is opened (C80_null_stemmer); a stemmer that there is not can be set and then the warren cannot be opened any more (C80_unknown_stemmer); open_meadow dereferences a null pointer when there is no burrow (C80_open_meadow_undefined)."
  },
  {
   "property": "C81",
   "status": "partial",
   "theorems": [
    "Verif.Props.C81_open_partial",
    "Verif.Props.C81_make_partial",
    "Verif.Props.C81_blank",
    "Verif.Props.C81_command",
    "Verif.Props.C81_temps_partial",
    "Verif.Props.C81_temps_wrap",
    "Verif.Props.C81_shared",
    "Verif.Props.C81_ls_partial",
    "Verif.Props.C81_ls_newline",
    "Verif.Props.C81_script",
    "Verif.Props.C81_script_again",
    "Verif.Props.C81_script_names",
    "Verif.Props.C81_crash_partial",
    "Verif.Props.C81_many"
   ],
   "note": "Proved for directory names that the shell reads as they are written, up to 2^32 temporary names of one object, and names without newlines; the scripts are proved right for all names. Missing: failing system calls. The code violates the rest: the directory's name is not quoted, so that opening a burrow with a blank in its name removes another file (C81_blank) and one with a semicolon runs a command (C81_command); a second object for the same directory removes temporary files in use (C81_shared); the counter of temporary names wraps (C81_temps_wrap); a newline in a name makes listings show names that are not there (C81_ls_newline)."
  },
  {
   "property": "C82",
   "status": "partial",
   "theorems": [
    "Verif.Props.C82_label_partial",
    "Verif.Props.C82_other",
    "Verif.Props.C82_skip",
    "Verif.Props.C82_written",
    "Verif.Props.C82_wide",
    "Verif.Props.C82_lenient"
   ],
   "note": "Proved for texts that write no character beyond ASCII with an escape, or whose name, tag and parameters are ASCII. The code violates the rest: a character beyond ASCII that is written with an escape is read as one byte or as a question mark, so that different names are read as the same (C82_wide). Some texts that are not JSON are read (C82_lenient). Missing: a stack that overflows on deep values."
  },
  {
   "property": "C83",
   "status": "partial",
   "theorems": [
    "Verif.Props.C83_built",
    "Verif.Props.C83_fold",
    "Verif.Props.C83_case_partial",
    "Verif.Props.C83_circled",
    "Verif.Props.C83_ascii_table",
    "Verif.Props.C83_ascii",
    "Verif.Props.C83_documents",
    "Verif.Props.C83_scripts",
    "Verif.Props.C83_capitals",
    "Verif.Props.C83_none",
    "Verif.Props.C83_compress",
    "Verif.Props.C83_generated"
   ],
   "note": "Proved for texts without circled letters, which the code leaves as they are although its folds have entries for them, so that \u24b6 and \u24d0 are different terms (C83_circled). The tables are those of src/unicode.h, number by number. Missing: that they are those of the Unicode database, which is not in the repository."
  },
  {
   "property": "C84",
   "status": "partial",
   "theorems": [
    "Verif.Props.C84_finds",
    "Verif.Props.C84_document_partial",
    "Verif.Props.C84_longer",
    "Verif.Props.C84_unknown",
    "Verif.Props.C84_unset",
    "Verif.Props.C84_quote",
    "Verif.Props.C84_file_partial",
    "Verif.Props.C84_read_partial",
    "Verif.Props.C84_leading",
    "Verif.Props.C84_leading_three",
    "Verif.Props.C84_docno_partial",
    "Verif.Props.C84_docno_quotes",
    "Verif.Props.C84_docno_glued"
   ],
   "note": "Violated: a number whose words are part of the number of an earlier document counts for that document (C84_longer; also for numbers that differ in case or punctuation only); a quote in a number changes the query (C84_quote); blanks before a line are taken for an empty topic, so that a good line is refused and one of three fields accepted (C84_leading, C84_leading_three); quotes in a number are dropped and text straight after the closing tag is added (C84_docno_quotes, C84_docno_glued). Proved without these. atof is a parameter; grades are exact; what a file that is refused leaves behind is modelled but not claimed."
  },
  {
   "property": "C85",
   "status": "partial",
   "theorems": [
    "Verif.Props.C85_history",
    "Verif.Props.C85_memory_partial",
    "Verif.Props.C85_destroy_partial",
    "Verif.Props.C85_missing_close_loses",
    "Verif.Props.C85_destroy_loses"
   ],
   "note": "C85_history is the first two sentences in full, for calls made one after the other. Violated: memory is lost when a `)` is missing (C85_missing_close_loses) and when a converter with definitions is destroyed (C85_destroy_loses); C85_memory_partial says that nothing is lost by texts that are accepted or refused with another message, and C85_destroy_partial that the end of a converter loses just the queries of its definitions. A refusal that sets no message shows an older one of the thread (C61_message_stale), which is what Agree leaves open. Calls of two threads at the same time share nothing but malloc and are not interleaved in the model; memory does not run out; that freed addresses are not given out again only makes misuse visible."
  },
  {
   "property": "C86",
   "status": "partial",
   "theorems": [
    "Verif.Props.C86_pages_partial",
    "Verif.Props.C86_lost",
    "Verif.Props.C86_snippet",
    "Verif.Props.C86_document",
    "Verif.Props.C86_unknown",
    "Verif.Props.C86_ambiguous",
    "Verif.Props.C86_lives",
    "Verif.Props.C86_not_object",
    "Verif.Props.C86_not_text",
    "Verif.Props.C86_not_utf8",
    "Verif.Props.C86_hangup",
    "Verif.Props.C86_lines",
    "Verif.Props.C86_budget",
    "Verif.Props.C86_texts",
    "Verif.Props.C86_missing"
   ],
   "note": "C86_pages_partial: names, pages and rankings for all histories of fewer than 2^64 lines; the ranking is right where content parts do not overlap (C44_overlap) and every warren can be cloned (C44). Of the best thousand parts of the content of a collection those without a document or a number are left out and not replaced (this is part of the specification, Contributes). Violated: a passage that cannot be sent is lost (C86_lost); a document whose number is part of another's cannot be had (C86_ambiguous); the server ends with a JSON line that is not an object (C86_not_object) or whose members are not texts (C86_not_text), with a text that is not UTF-8 in an answer (C86_not_utf8), and with a client that hangs up (C86_hangup). C86_lives says that it goes on otherwise. nlohmann's parser and json_translate are parameters; the start of the program and its terminal are not modelled."
  },
  {
   "property": "C87",
   "status": "partial",
   "theorems": [
    "Verif.Props.C87_session_partial",
    "Verif.Props.C87_stale_next",
    "Verif.Props.C87_stale_full",
    "Verif.Props.C87_not_utf8"
   ],
   "note": "C87_session_partial: for all earlier clients and earlier lines that kept the session open, a query that is well formed for all collections, with the hypotheses of C86 on the ranking, and numbers that can be looked up; messages are read as they were sent and are UTF-8. Violated: after a refused query, typing nothing continues the query before it (C87_stale_next); after a query without passages, @full shows the document of an earlier query (C87_stale_full); a line that is not UTF-8 ends the client (C87_not_utf8). Failures of the connection and other clients during the session are not modelled (the server serves one client at a time)."
  },
  {
   "property": "C88",
   "status": "partial",
   "theorems": [
    "Verif.Props.C88_read",
    "Verif.Props.C88_accepted",
    "Verif.Props.C88_run",
    "Verif.Props.C88_once",
    "Verif.Props.C88_empty_line",
    "Verif.Props.C88_carriage_return",
    "Verif.Props.C88_chain"
   ],
   "note": "C88_read and C88_accepted: for all files of groups with lines that end in a newline, and all texts without NUL. C88_run and C88_once: for all rankings and lists. Violated: an empty line ends the reading, and the groups after it are lost without a complaint (C88_empty_line); with carriage returns the last name of a line is not replaced (C88_carriage_return); a name that stands for one group and is a duplicate in another is not resolved further (C88_chain)."
  },
  {
   "property": "C89",
   "status": "partial",
   "theorems": [
    "Verif.Props.C89_read_partial",
    "Verif.Props.C89_cut",
    "Verif.Props.C89_rest_lost",
    "Verif.Props.C89_definite",
    "Verif.Props.C89_spin",
    "Verif.Props.C89_builder"
   ],
   "note": "C89_read_partial: for all headers, paragraphs and encodings, with a builder that takes everything; an assertion against empty names is left out. Violated: a file that ends within the body of a paragraph is accepted without complaint (C89_cut, for all files); an item that is not read loses all paragraphs after it and the answer is still success (C89_rest_lost); bodies written as arrays of known length give nothing and no complaint (C89_definite); nine bytes can ask for 2^64-1 rounds (C89_spin); a refused paragraph is not reported and its text is added to the next one (C89_builder)."
  },
  {
   "property": "C90",
   "status": "partial",
   "theorems": [
    "Verif.Props.C90_marco_partial",
    "Verif.Props.C90_c4_partial",
    "Verif.Props.C90_msmarco_partial",
    "Verif.Props.C90_cast_partial",
    "Verif.Props.C90_wapo_partial",
    "Verif.Props.C90_unnamed",
    "Verif.Props.C90_not_json",
    "Verif.Props.C90_no_tab",
    "Verif.Props.C90_last_line",
    "Verif.Props.C90_field",
    "Verif.Props.C90_wordless",
    "Verif.Props.C90_nameless"
   ],
   "note": "The partial theorems: for all files of documents whose texts have words, and a builder that takes everything; the JSON parser is a parameter. C90_unnamed: an article without a name is left out. C90_not_json: a line that is not JSON is reported, for all lines before it. Violated: a line without a tab ends the program (C90_no_tab); a last line without a newline is left out of three collections without complaint (C90_last_line); a missing field or one of another type ends the program in two of them (C90_field); so does a number that is too large (C90_not_json); a passage whose text has no words is marked up to the first word of the next one (C90_wordless), one whose name has no words loses its first word (C90_nameless)."
  },
  {
   "property": "C91",
   "status": "partial",
   "theorems": [
    "Verif.Props.C91_merged_partial",
    "Verif.Props.C91_once",
    "Verif.Props.C91_success_iff",
    "Verif.Props.C91_refused",
    "Verif.Props.C91_kept",
    "Verif.Props.C91_stale",
    "Verif.Props.C91_stale_case",
    "Verif.Props.C91_elsewhere"
   ],
   "note": "C91_merged_partial: for all lists of shards that are a complete sequence and alike, when nothing has the name of the output; C91_once: each number is in just one shard; C91_success_iff: when it succeeds, exactly; C91_refused and C91_kept: nothing is changed. Violated: a shard that has the name of the output already is reported as the merged one, whatever is in it (C91_stale); shards of different directories or indexes are merged (C91_elsewhere). The merging of contents is a concatenation here: C25 and C26 have it in detail."
  },
  {
   "property": "C92",
   "status": "partial",
   "theorems": [
    "Verif.Props.C92_vectors_partial",
    "Verif.Props.C92_queries_partial",
    "Verif.Props.C92_answers",
    "Verif.Props.C92_all_or_nothing",
    "Verif.Props.C92_wrong",
    "Verif.Props.C92_wrong_case",
    "Verif.Props.C92_lost",
    "Verif.Props.C92_unsaved",
    "Verif.Props.C92_fractions",
    "Verif.Props.C92_whole",
    "Verif.Props.C92_repeated",
    "Verif.Props.C92_race",
    "Verif.Props.C92_passed"
   ],
   "note": "C92_vectors_partial: for all files whose docids are found in one identifier only; C92_queries_partial: for all files of queries with different names; C92_answers: each topic is answered once, for all numbers of threads and all interleavings; C92_all_or_nothing; C92_passed: lines that do not count are passed over wherever they are. Violated: a vector is added to the first document whose identifier has the words of the docid (C92_wrong); one docid with a quote, one number that is too large or one line without fields loses the whole file (C92_lost); a failure to save ends with 0 (C92_unsaved); weights of documents that are not integers, and of queries that are, do not count (C92_fractions, C92_whole); queries with one name are mixed (C92_repeated); a topic without weights is inserted into a table that other threads use (C92_race, which says when exactly)."
  },
  {
   "property": "C93",
   "status": "partial",
   "theorems": [
    "Verif.Props.C93_options",
    "Verif.Props.C93_bad_threads",
    "Verif.Props.C93_pipeline",
    "Verif.Props.C93_threads",
    "Verif.Props.C93_negative",
    "Verif.Props.C93_run_partial",
    "Verif.Props.C93_refused",
    "Verif.Props.C93_blank_topic",
    "Verif.Props.C93_nameless",
    "Verif.Props.C93_repeated"
   ],
   "note": "C93_run_partial: for all files of queries with different topics that are words, and all rankings whose passages have names; C93_options: all sequences of options; C93_threads: all numbers below 2^64; C93_refused. Violated: topics with blanks, which a line with a tab may have, give lines of seven fields (C93_blank_topic); passages without a name give lines of five (C93_nameless); a topic that is there twice is answered twice with the last query (C93_repeated); a negative number of threads is taken for a huge one when a blank is before it (C93_negative)."
  },
  {
   "property": "C94",
   "status": "partial",
   "theorems": [
    "Verif.Props.C94_arguments",
    "Verif.Props.C94_appended",
    "Verif.Props.C94_default",
    "Verif.Props.C94_once_partial",
    "Verif.Props.C94_complete_partial",
    "Verif.Props.C94_refused",
    "Verif.Props.C94_twice",
    "Verif.Props.C94_lost",
    "Verif.Props.C94_created",
    "Verif.Props.C94_crash"
   ],
   "note": "C94_arguments: exactly the groups; C94_appended, C94_default: for all meadows and groups; C94_once_partial: all histories of runs that do not name a file twice, with any failures; C94_complete_partial: all histories in which failures commit nothing; C94_refused. Violated: a file that is named twice in a run is appended twice (C94_twice); a table that fails leaves its path and is passed over for good, with success (C94_lost); refused arguments after --create leave a meadow, which may not be the one that was named (C94_created); without a meadow the program uses a null pointer (C94_crash)."
  },
  {
   "property": "C95",
   "status": "partial",
   "theorems": [
    "Verif.Props.C95_threads",
    "Verif.Props.C95_ends",
    "Verif.Props.C95_round_partial",
    "Verif.Props.C95_parameters",
    "Verif.Props.C95_trials",
    "Verif.Props.C95_best",
    "Verif.Props.C95_magical_partial",
    "Verif.Props.C95_bootstrap_partial",
    "Verif.Props.C95_listed",
    "Verif.Props.C95_queries",
    "Verif.Props.C95_queries_text",
    "Verif.Props.C95_n"
   ],
   "note": "C95_threads, C95_ends: all schedules and numbers of threads; C95_trials: all rounds in all orders; C95_round_partial, C95_magical_partial, C95_bootstrap_partial: with exact numbers (those of the program are rounded); C95_parameters: when the pipeline has the same parameters for all topics; C95_listed: all orders that sorting may give; C95_queries: exactly those files. Violated: the metric n is accepted and ends the program with an exception after all rounds (C95_n)."
  },
  {
   "property": "C96",
   "status": "partial",
   "theorems": [
    "Verif.Props.C96_pairs_partial",
    "Verif.Props.C96_fetch_partial",
    "Verif.Props.C96_bad",
    "Verif.Props.C96_stop",
    "Verif.Props.C96_bad_question",
    "Verif.Props.C96_tab",
    "Verif.Props.C96_other",
    "Verif.Props.C96_short",
    "Verif.Props.C96_long",
    "Verif.Props.C96_itself",
    "Verif.Props.C96_lenient",
    "Verif.Props.C96_last_question"
   ],
   "note": "C96_pairs_partial: all preferences, with questions without tabs; C96_fetch_partial: identifiers of two words that no item before has in it; C96_bad, C96_stop: all files, and together all cases; C96_bad_question. Violated: a tab in a question makes a field too many (C96_tab); an item that mentions an identifier is taken for its item when it comes first (C96_other); with identifiers of one word a word of the text is lost, with three a part of the identifier stays (C96_short, C96_long); an item that is preferred to itself is a training line (C96_itself); 41 bad lines at the end are not too many (C96_lenient)."
  },
  {
   "property": "C97",
   "status": "partial",
   "theorems": [
    "Verif.Props.C97_run",
    "Verif.Props.C97_within",
    "Verif.Props.C97_passage",
    "Verif.Props.C97_untitled",
    "Verif.Props.C97_no_segment",
    "Verif.Props.C97_strip",
    "Verif.Props.C97_not_found",
    "Verif.Props.C97_short_line",
    "Verif.Props.C97_askable",
    "Verif.Props.C97_find_partial",
    "Verif.Props.C97_other",
    "Verif.Props.C97_unaskable",
    "Verif.Props.C97_lone_quote"
   ],
   "note": "C97_run, C97_not_found, C97_short_line: all inputs; C97_within: exactly the first one in the item; C97_passage, C97_untitled, C97_no_segment: all passages; C97_find_partial: identifiers that no item before mentions. Violated: an item that mentions an identifier is taken for its item when it comes first (C97_other); an identifier for which the query cannot be parsed is a null pointer that is used (C97_unaskable); a text that is one quote is undefined behaviour (C97_lone_quote)."
  },
  {
   "property": "C98",
   "status": "partial",
   "theorems": [
    "Verif.Props.C98_run",
    "Verif.Props.C98_output",
    "Verif.Props.C98_once",
    "Verif.Props.C98_line",
    "Verif.Props.C98_random",
    "Verif.Props.C98_passage_query",
    "Verif.Props.C98_cast_query_partial",
    "Verif.Props.C98_stems_partial",
    "Verif.Props.C98_bad",
    "Verif.Props.C98_doubled",
    "Verif.Props.C98_single",
    "Verif.Props.C98_repeated",
    "Verif.Props.C98_blank"
   ],
   "note": "C98_run, C98_output, C98_once: all schedules, labels without blanks; C98_random, C98_passage_query: all; C98_stems_partial: with exact numbers. Violated: the programs for conversations ask for the first keyword twice (C98_doubled) and leave the stopwords in a question with one keyword (C98_single); a label that is there twice is answered twice for its last question (C98_repeated); a label with a blank is cut by who reads the run (C98_blank). That the threads stop is C95_ends."
  },
  {
   "property": "C99",
   "status": "partial",
   "theorems": [
    "Verif.Props.C99_walk_partial",
    "Verif.Props.C99_refused",
    "Verif.Props.C99_arguments",
    "Verif.Props.C99_index_partial",
    "Verif.Props.C99_done_partial",
    "Verif.Props.C99_steps",
    "Verif.Props.C99_builds",
    "Verif.Props.C99_builds_passages",
    "Verif.Props.C99_forage",
    "Verif.Props.C99_parameter",
    "Verif.Props.C99_readme",
    "Verif.Props.C99_json",
    "Verif.Props.C99_nothing",
    "Verif.Props.C99_twice",
    "Verif.Props.C99_dashes"
   ],
   "note": "C99_arguments, C99_forage: equivalences for all arguments; C99_walk_partial, C99_refused: all trees; C99_index_partial, C99_done_partial: all outcomes of the steps. Violated: files in a directory with the word readme in its path are left out without a report (C99_readme); a collection in JSON is never built (C99_json); where no file is found the program says that it is done and there is no index (C99_nothing); a name given twice is built twice (C99_twice); a query with two dashes at the front cannot be given (C99_dashes). Links that lead back and files that cannot be opened (C75) are not in the model."
  },
  {
   "property": "C100",
   "status": "partial",
   "theorems": [
    "Verif.Props.C100_shown",
    "Verif.Props.C100_listed",
    "Verif.Props.C100_value_partial",
    "Verif.Props.C100_whole_partial",
    "Verif.Props.C100_window",
    "Verif.Props.C100_oneline",
    "Verif.Props.C100_run",
    "Verif.Props.C100_distinct",
    "Verif.Props.C100_line",
    "Verif.Props.C100_negative",
    "Verif.Props.C100_no_blank"
   ],
   "note": "C100_shown, C100_listed: all solutions by rising address (which C01 and C02 give); C100_window, C100_oneline: all texts; C100_run, C100_distinct: all rankings. Violated: a negative value with a fraction is printed as the next whole number (C100_negative); a line of queries without a blank is an exception and not a message (C100_no_blank). The values are exact numbers here, and what treccast20.cc prints between the lines of a run is not in the model."
  },
  {
   "property": "C101",
   "status": "partial",
   "theorems": [
    "Verif.Props.C101_passages_partial",
    "Verif.Props.C101_dump",
    "Verif.Props.C101_words",
    "Verif.Props.C101_plain",
    "Verif.Props.C101_listed",
    "Verif.Props.C101_one_line",
    "Verif.Props.C101_length_partial",
    "Verif.Props.C101_no_tab",
    "Verif.Props.C101_no_tab_file",
    "Verif.Props.C101_no_file",
    "Verif.Props.C101_no_brace",
    "Verif.Props.C101_refused",
    "Verif.Props.C101_less",
    "Verif.Props.C101_one_more",
    "Verif.Props.C101_two_fields",
    "Verif.Props.C101_place",
    "Verif.Props.C101_nowhere",
    "Verif.Props.C101_outside"
   ],
   "note": "C101_passages_partial: names and texts with words, as in C90; C101_dump: items on lines of their own; C101_words, C101_plain: all documents of texts and tags that end on their lines; C101_place, C101_listed, C101_one_line: all lists, with solutions by rising addresses (C01, C02). Violated: a line without a tab is an exception and the index is not finished (C101_no_tab, C101_no_tab_file); a line of a dump without a brace is undefined (C101_no_brace); items that the scribe refuses do not change the status (C101_refused); a less-than sign that opens no tag takes the rest of its line (C101_less); 2049 tokens are shown and not 2048 (C101_one_more); a line with fewer than three fields is undefined (C101_two_fields), and so is a name that is in no document (C101_nowhere). The text between two addresses is a parameter (C27 and after). Not proved: that the files after one that ends with an exception are not read."
  },
  {
   "property": "C102",
   "status": "partial",
   "theorems": [
    "Verif.Props.C102_documents",
    "Verif.Props.C102_content_partial",
    "Verif.Props.C102_fields_partial",
    "Verif.Props.C102_refused_partial",
    "Verif.Props.C102_failed_counts",
    "Verif.Props.C102_set",
    "Verif.Props.C102_set_failed",
    "Verif.Props.C102_content_ignored",
    "Verif.Props.C102_stale",
    "Verif.Props.C102_failed",
    "Verif.Props.C102_never_set",
    "Verif.Props.C102_succeeds"
   ],
   "note": "C102_documents, C102_content_partial, C102_fields_partial: all warrens and arguments; C102_failed_counts: all failures but that of setting the kind of statistics; C102_set: all keys and values that are kept (C69). Violated: the query for a part of the documents is kept but the terms of whole documents are counted (C102_content_ignored); fields are counted in the parts of documents that an earlier command was given (C102_stale); a command that fails has changed the stemmer (C102_failed). A key that was never set prints like an empty one (C102_never_set). Parameters are a function here; what is counted for given queries is C46 and C67."
  },
  {
   "property": "C103",
   "status": "partial",
   "theorems": [
    "Verif.Props.C103_passage",
    "Verif.Props.C103_middle",
    "Verif.Props.C103_line",
    "Verif.Props.C103_weird",
    "Verif.Props.C103_query_partial",
    "Verif.Props.C103_tasks_partial",
    "Verif.Props.C103_answers",
    "Verif.Props.C103_topic_partial",
    "Verif.Props.C103_names",
    "Verif.Props.C103_with_text",
    "Verif.Props.C103_short",
    "Verif.Props.C103_doubled",
    "Verif.Props.C103_one_keyword",
    "Verif.Props.C103_same_label",
    "Verif.Props.C103_gap",
    "Verif.Props.C103_no_line",
    "Verif.Props.C103_nowhere",
    "Verif.Props.C103_some_line_partial",
    "Verif.Props.C103_weird_stops",
    "Verif.Props.C103_before"
   ],
   "note": "C103_passage, C103_middle: all windows and results; C103_line, C103_weird: all lines; C103_query_partial: all questions with two words that carry meaning; C103_tasks_partial: all files of lines with tabs and different labels; C103_answers: all results; C103_topic_partial, C103_names: all results and names; C103_with_text: all lists. Violated: a result at the end of a document gets a short passage (C103_short); the first word is asked for twice (C103_doubled); with one word that carries meaning all words are asked for (C103_one_keyword); a label that is used twice has its last question answered twice (C103_same_label); results without a name leave gaps in the ranks (C103_gap), or no line at all (C103_no_line); a passage that is not there is undefined (C103_nowhere). The rankings, the tokenizer and how threads take the questions are not in this model (C98 has such threads)."
  },
  {
   "property": "C104",
   "status": "partial",
   "theorems": [
    "Verif.Props.C104_levels_partial",
    "Verif.Props.C104_every_query",
    "Verif.Props.C104_semaphore",
    "Verif.Props.C104_goes_on",
    "Verif.Props.C104_divided",
    "Verif.Props.C104_twice",
    "Verif.Props.C104_none_relevant",
    "Verif.Props.C104_not_taken_back",
    "Verif.Props.C104_stale",
    "Verif.Props.C104_no_queries"
   ],
   "note": "C104_levels_partial: all files, one at a time; C104_every_query, C104_semaphore: all numbers of queries and phases, all schedules; C104_goes_on: from every reachable state with a query. Violated: each file divides the judgements of all files before it (C104_divided, C104_twice), and one without a relevant document makes them infinite (C104_none_relevant); a later judgement of 0 takes nothing back (C104_not_taken_back); the answer that a phase waits for may be of the collection before (C104_stale); without queries the program waits for ever (C104_no_queries). Levels are exact numbers; that the gate for rankings opens and the flag that ends the threads are not in the model."
  },
  {
   "property": "C105",
   "status": "partial",
   "theorems": [
    "Verif.Props.C105_done_partial",
    "Verif.Props.C105_described",
    "Verif.Props.C105_succeeds",
    "Verif.Props.C105_refused",
    "Verif.Props.C105_number",
    "Verif.Props.C105_help",
    "Verif.Props.C105_elsewhere",
    "Verif.Props.C105_names_stay",
    "Verif.Props.C105_order",
    "Verif.Props.C105_failed",
    "Verif.Props.C105_undescribed"
   ],
   "note": "C105_done_partial, C105_succeeds: all requests of the documented form whose stemmer is not named like an option; C105_refused, C105_number, C105_elsewhere: all arguments. Violated: a command that fails leaves its stemmer, or weights that no parameter describes (C105_failed, C105_undescribed); names of documents that an earlier command gave stay (C105_names_stay); options in the other order are refused (C105_order). What the weights are is C67; that annotations of an earlier command are still there is not in the model."
  },
  {
   "property": "C106",
   "status": "partial",
   "theorems": [
    "Verif.Props.C106_phase_partial",
    "Verif.Props.C106_disks_partial",
    "Verif.Props.C106_goes_on",
    "Verif.Props.C106_ends",
    "Verif.Props.C106_each_once",
    "Verif.Props.C106_wrong_file"
   ],
   "note": "C106_phase_partial, C106_disks_partial: all schedules and numbers of threads, for distinct files whose names are not in other names; C106_goes_on, C106_ends: all files; C106_each_once: all files, when none is erased. Violated: a file is erased whose name only has the tokens of the one to erase, if it comes first (C106_wrong_file). A file is added or erased at once; failures, which end the program, are not in the model."
  },
  {
   "property": "C107",
   "status": "partial",
   "theorems": [
    "Verif.Props.C107_least_greatest",
    "Verif.Props.C107_average_partial",
    "Verif.Props.C107_no_ratings",
    "Verif.Props.C107_groups",
    "Verif.Props.C107_year_partial",
    "Verif.Props.C107_titles",
    "Verif.Props.C107_lines",
    "Verif.Props.C107_authors_partial",
    "Verif.Props.C107_empty_author",
    "Verif.Props.C107_iso",
    "Verif.Props.C107_months",
    "Verif.Props.C107_inspection",
    "Verif.Props.C107_company_partial",
    "Verif.Props.C107_twice",
    "Verif.Props.C107_all_titles",
    "Verif.Props.C107_iso_short",
    "Verif.Props.C107_unpadded"
   ],
   "note": "C107_least_greatest, C107_groups, C107_iso, C107_inspection: all lists and texts. Violated: the first rating counts twice, so that the average is right only when the first rating is the average (C107_average_partial, C107_twice); all titles of the file are printed for a year (C107_all_titles); a day of one digit is marked with a space for companies (C107_unpadded); an author with the text of an empty title is printed (C107_empty_author); a date that is too short ends the program (C107_iso_short). Solutions are lists (C04); the examples that only count or print solutions and the time of a date are not in the model."
  },
  {
   "property": "C108",
   "status": "partial",
   "theorems": [
    "Verif.Props.C108_marks",
    "Verif.Props.C108_table",
    "Verif.Props.C108_judged_partial",
    "Verif.Props.C108_present",
    "Verif.Props.C108_as_many",
    "Verif.Props.C108_twice",
    "Verif.Props.C108_last"
   ],
   "note": "C108_marks, C108_table: all judgements, documents, names and annotations. C108_judged_partial: both together for collections of files whose documents have one name each; C108_present: only documents of the collection are in the table at addresses of text; C108_as_many: exactly as many as were judged, when moreover no two documents have the same name. Violated: of two documents with one name both count, so that there are more than were judged (C108_twice); a name that ends with its file is not looked at (C108_last). Solutions of queries are given as lists (C04), levels are exact numbers; the transaction around the marks and the measures are not part of it (the measures are C60)."
  },
  {
   "property": "C109",
   "status": "partial",
   "theorems": [
    "Verif.Props.C109_build",
    "Verif.Props.C109_first_refused",
    "Verif.Props.C109_files",
    "Verif.Props.C109_zero",
    "Verif.Props.C109_cast20",
    "Verif.Props.C109_nothing",
    "Verif.Props.C109_jsonl_partial",
    "Verif.Props.C109_jsonl_simple",
    "Verif.Props.C109_unwritten",
    "Verif.Props.C109_cut",
    "Verif.Props.C109_dashes"
   ],
   "note": "C109_build, C109_first_refused, C109_files, C109_zero, C109_cast20, C109_nothing: all arguments, files and failures. Violated: jsonl ends with 0 when the index could not be written (C109_unwritten, so C109_jsonl_partial supposes that it can be); articles that are cut in the middle count as read (C109_cut); the option ---bigwig of the usage is the name of a file (C109_dashes). What is in the index of a file that was read is C77, C89 and C90; exceptions of the collections are there too (C90_field, C90_not_json)."
  },
  {
   "property": "C110",
   "status": "partial",
   "theorems": [
    "Verif.Props.C110_read",
    "Verif.Props.C110_refused",
    "Verif.Props.C110_either",
    "Verif.Props.C110_tab",
    "Verif.Props.C110_empty"
   ],
   "note": "C110_read, C110_refused: all lines with a space as separator, all files, for the example; C110_either: all lines with a tab or a space, for the test of a changing collection. Violated: a tab, which the other programs take, is no separator in the example (C110_tab); a line without a query is not refused (C110_empty). A file is its lines."
  },
  {
   "property": "C111",
   "status": "proved",
   "theorems": [
    "Verif.Props.C111_file",
    "Verif.Props.C111_files",
    "Verif.Props.C111_arguments",
    "Verif.Props.C111_command",
    "Verif.Props.C111_wordless"
   ],
   "note": "C111_file: all files with fewer than 2^63 words, all failures; C111_files, C111_command, C111_arguments: all lists of files and arguments. A file without words is a failure, as the program says (C111_wordless). Addresses are those within a transaction (they are moved when it is committed: C19); that an aborted transaction leaves nothing is C16 and C17."
  }
 ]
}
