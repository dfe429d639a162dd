{"id": "C01", "title": "Query answers do not depend on query history", "statement": "For every hopper obtained from a GCL query, each tau/rho/uat/ohr call returns the answer defined by the query's solution list and the argument alone: the sequence of earlier calls on the same hopper (which moves cursors, refills memos and queues) never changes any later answer.", "quantifier": "every query expression, every posting list at the leaves, every finite sequence of calls with any int64 arguments", "why_tests_cant": "hidden cursor/memo/queue state makes the number of histories unbounded; tests sample a few access patterns", "anchors": ["src/hopper.h:Hopper::tau", "src/array_hopper.cc:hopping", "src/array_hopper.cc:gnippoh", "gcl/gcl.cc", "gcl/vector_hopper.cc:InnerHopper"]}
{"id": "C02", "title": "GCL operators compute the shortest-substring algebra", "statement": "The solutions reported by a query (^ A B), (+ A B), (... A B), (<< A B), (>> A B), (!< A B), (!> A B) and (# n) are exactly the minimal intervals demanded by the operator: intervals covering both, either, A followed by B without overlap, A's contained in / containing / not contained in / not containing some B, and all n-token windows.", "quantifier": "every pair of operand solution lists and every nesting of operators", "why_tests_cant": "the correctness of the galloping loops depends on all relative positions of two unbounded interval lists", "anchors": ["gcl/gcl.cc:Combinational", "gcl/gcl.cc:And", "gcl/gcl.cc:Or", "gcl/gcl.cc:FollowedBy", "gcl/gcl.cc:ContainedIn", "gcl/gcl.cc:Containing", "gcl/gcl.cc:NotContainedIn", "gcl/gcl.cc:NotContaining", "src/hopper.cc:FixedWidthHopper"]}
{"id": "C03", "title": "Every hopper call terminates without signed overflow", "statement": "A tau/rho/uat/ohr/L/R call on any query hopper returns after finitely many steps and never evaluates k+1, k-1 or a width sum outside the int64 range.", "quantifier": "every query expression, every state reachable by earlier calls, every int64 argument including the two infinities", "why_tests_cant": "overflow and non-termination only occur at rare boundary values; a test cannot enumerate 2^64 arguments and all lists", "anchors": ["gcl/gcl.cc", "src/hopper.cc", "src/array_hopper.cc"]}
{"id": "C04", "title": "Enumeration visits every solution exactly once, in order", "statement": "The idiomatic loop 'for (h.tau(minfinity+1,&p,&q); p<maxfinity; h.tau(p+1,&p,&q))' terminates and lists each solution of the query exactly once, with strictly increasing starts and strictly increasing ends; the mirrored loop with uat lists the same solutions in reverse.", "quantifier": "every query expression and posting contents", "why_tests_cant": "needs agreement between all solutions and an unbounded loop", "anchors": ["src/hopper.h", "gcl/gcl.cc", "gcl/materialize.cc"]}
{"id": "C05", "title": "Posting search is correct from any cursor position", "statement": "Looking up a posting list by start or by end returns the first entry at or after the key (or the last at or before it) wherever the internal cursor was left by earlier lookups, and never reads outside the list.", "quantifier": "every strictly increasing posting list of any length, every cursor position and key", "why_tests_cant": "galloping search has data-dependent step counts; off-by-one errors show only for particular length/cursor/key triples", "anchors": ["src/array_hopper.cc:hopping", "src/array_hopper.cc:gnippoh", "src/array_hopper.cc:ArrayHopper"]}
{"id": "C06", "title": "Multi-shard union: minimal intervals, newest shard wins", "statement": "The hopper that combines one feature over several shards answers as a single posting list holding the minimal intervals of the union; where two shards hold the same interval the value comes from the later shard.", "quantifier": "every number of shards, every contents, every history of calls", "why_tests_cant": "lazy priority queues keep stale entries whose harmlessness depends on all call orders", "anchors": ["gcl/vector_hopper.cc:InnerHopper::tau_", "gcl/vector_hopper.cc:VectorHopper::make", "src/bigwig.cc:BigwigIdx"]}
{"id": "C07", "title": "Merge and link operators", "statement": "(|| A B) / merge yields the minimal intervals of the union preferring the left value on ties; a link query yields exactly the addresses stored as values in its operand's solutions, whichever method is called first.", "quantifier": "every operand solution list, every first call and later history", "why_tests_cant": "the link hopper replaces itself on first use along four different code paths", "anchors": ["gcl/gcl.cc:Merge", "gcl/gcl.cc:Link", "gcl/gcl.cc:make_link_hopper"]}
{"id": "C08", "title": "Query optimizer preserves meaning", "statement": "Optimizing a parsed query never changes its solution list.", "quantifier": "every query expression, every index contents", "why_tests_cant": "rewrites interact over unboundedly many expression shapes", "anchors": ["gcl/optimizer.cc", "gcl/parse.cc:to_binary"]}
{"id": "C09", "title": "Query text round trip", "statement": "Printing a parsed GCL query and parsing the printed text gives the same query back.", "quantifier": "every expression the parser can produce", "why_tests_cant": "unbounded nesting and term texts", "anchors": ["gcl/parse.cc:from_string", "gcl/parse.cc:to_string", "gcl/parse.cc:parse_expr"]}
{"id": "C10", "title": "Posting compressor round trip", "statement": "Compressing a non-decreasing list of non-negative addresses with the 'post' compressor and decompressing it gives back the same list, within the advertised output bound; the tf/df compressor likewise restores its input.", "quantifier": "every such list of any length with 63-bit values", "why_tests_cant": "variable-length coding depends on every gap magnitude", "anchors": ["src/post_compressor.cc", "src/tfdf_compressor.cc"]}
{"id": "C11", "title": "Posting file round trip", "statement": "A posting list written to storage and read back gives the same intervals and values.", "quantifier": "every posting list satisfying the posting invariants, any mix of point/interval and zero/non-zero values", "why_tests_cant": "three optional parallel arrays and their elisions interact with lengths", "anchors": ["src/simple_posting.cc:write", "src/simple_posting.cc:posting_from_file", "src/simple_posting.cc:posting_from_compressed_blob"]}
{"id": "C12", "title": "Committed annotations obey minimal-interval semantics", "statement": "After annotations for a feature are added in a transaction, in any order, the index holds exactly the minimal ones (none nested in another), in strictly increasing order, with the value given last for equal intervals.", "quantifier": "every multiset of annotations in every order of arrival", "why_tests_cant": "depends on the order-insensitive interplay of sort and filter over all inputs", "anchors": ["src/simple_posting.cc:posting_from_annotations", "src/fiver.cc:commit_", "src/simple_annotator.cc:ready_"]}
{"id": "C13", "title": "Merging posting lists is the union of minimal intervals", "statement": "Merging any number of posting lists gives the minimal intervals of the union in increasing order; on equal intervals the value of the later list is kept; grouping the merge differently gives the same list.", "quantifier": "every number and grouping of lists, every contents", "why_tests_cant": "associativity over all groupings cannot be sampled", "anchors": ["src/simple_posting.cc:posting_from_merge", "src/simple_posting.cc:append"]}
{"id": "C14", "title": "Erased content is hidden", "statement": "After erase(p,q) commits, no annotation lying inside [p,q] is returned by queries, and annotations not inside any erased range are unaffected.", "quantifier": "every set of annotations and erasures, in every split over transactions", "why_tests_cant": "depends on all overlap patterns of erasures", "anchors": ["src/fiver.cc:erase_", "src/simple_posting.cc:posting_from_merge", "src/bigwig.cc:BigwigIdx"]}
{"id": "C15", "title": "Background merging is invisible", "statement": "Replacing a run of adjacent committed shards by their merge changes no query answer.", "quantifier": "every contents of the shards, every choice of run, every query", "why_tests_cant": "merges happen at arbitrary times over arbitrary shard runs", "anchors": ["src/fiver.cc:merge", "src/bigwig.cc:merge_worker", "src/hazel.cc:HazelIdx::merge"]}
{"id": "C16", "title": "Two-phase transaction contract", "statement": "On any warren component: a second transaction() while one is open fails; ready() votes once and repeats the same vote; commit() takes effect only after a true vote; after commit or abort the component is idle again; abort when idle does nothing.", "quantifier": "every sequence of transaction/ready/commit/abort calls", "why_tests_cant": "all call orders", "anchors": ["src/committable.h"]}
{"id": "C17", "title": "Transactions are atomic to readers", "statement": "A reader that starts at any time sees, for every transaction, either all of its annotations and text or none, and sees none of an aborted or uncommitted one.", "quantifier": "every number of writers and readers, every interleaving of their steps with each other and with background merges", "why_tests_cant": "schedules", "anchors": ["src/bigwig.cc:start_", "src/bigwig.cc:commit_", "src/bigwig.cc:commit_all", "src/fluffle.h"]}
{"id": "C18", "title": "Readers have a stable snapshot", "statement": "Between start() and end() a reader's view does not change, whatever commits, aborts and merges happen meanwhile.", "quantifier": "every interleaving", "why_tests_cant": "schedules", "anchors": ["src/bigwig.cc:start_", "src/bigwig.cc:end_", "src/bigwig.cc:merge_worker"]}
{"id": "C19", "title": "Transactions get disjoint, ordered addresses", "statement": "Address ranges assigned to text of different committed transactions are disjoint and in commit-sequence order; relocating a transaction shifts all of its own annotations by one constant and leaves annotations on earlier addresses alone.", "quantifier": "every history of concurrent ready/commit/abort", "why_tests_cant": "schedules and sizes", "anchors": ["src/bigwig.cc:ready_", "src/bigwig.cc:find_sequence", "src/fiver.cc:relocate", "src/fiver.cc:ready_"]}
{"id": "C20", "title": "No committed transaction is lost by merging", "statement": "At every moment the live shards cover exactly the committed sequence numbers, each exactly once, with no merge spanning an unfinished transaction.", "quantifier": "every interleaving of commits, aborts and merge workers", "why_tests_cant": "schedules", "anchors": ["src/bigwig.cc:find_smallest_pair", "src/bigwig.cc:merge_worker", "src/bigwig.cc:combine_shards"]}
{"id": "C21", "title": "Crash recovery keeps committed and drops uncommitted transactions", "statement": "If the process stops at any point, reopening the directory makes visible exactly the transactions whose commit point was passed, regardless of which cleanup steps had run; recovering again changes nothing.", "quantifier": "every crash point in ready/commit/abort/merge, repeated crashes during recovery", "why_tests_cant": "crash points", "anchors": ["src/fiver.cc:ready_", "src/fiver.cc:commit_", "src/fiver.cc:abort_", "src/bigwig.cc:finalize_commits", "src/bigwig.cc:sanitize", "src/hazel.cc:Hazel::sanitize"]}
{"id": "C22", "title": "commit_all over several warrens is all-or-nothing across crashes", "statement": "When a set of ready warrens is committed together, a crash at any point leaves after recovery either all of the transactions committed or none.", "quantifier": "every number of warrens, every crash point", "why_tests_cant": "crash points", "anchors": ["src/bigwig.cc:commit_all", "src/bigwig.cc:finalize_commits", "src/warren.cc:commit_all"]}
{"id": "C23", "title": "Shard file names encode their range faithfully and order correctly", "statement": "Parsing a generated shard name gives back the prefix and sequence range; distinct ranges get distinct names; lexicographic order of names agrees with numeric order.", "quantifier": "all sequence numbers", "why_tests_cant": "unbounded numbers", "anchors": ["src/owsla.cc:seq2str", "src/owsla.cc:owsla_shard_name", "src/owsla.cc:owsla_parse_shard_name", "src/hazel.cc:parse_hazel_name"]}
{"id": "C24", "title": "Opening keeps exactly the outermost shards", "statement": "When a directory holds shards whose ranges of transactions nest (left behind by an interrupted merge), opening keeps exactly the shards that are inside no other, whatever order the directory lists them in; every transaction number covered by a shard found is covered by exactly one kept shard; dynamic shards inside a static one are dropped; and opening reports an error exactly when a shard that is inside no other shares transaction numbers with one it does not contain.", "quantifier": "every collection of shard ranges in every directory order", "why_tests_cant": "all permutations and nestings", "anchors": ["src/fiver.cc:normalize_shards", "src/hazel.cc:normalize_hazel_shards", "src/fiver.cc:verify_dead_shards", "src/bigwig.cc:combine_shards"]}
{"id": "C25", "title": "Static shard (Hazel) lookup finds exactly the stored postings", "statement": "Opening a static shard file and looking up a feature returns the posting stored for it and nothing for features not stored; a one-token zero-valued posting stored inline is returned as the same token with value zero (the sign of a negative zero is not kept, which no comparison can see).", "quantifier": "every index contents, every text blob, every DNA without an empty line", "why_tests_cant": "binary search and record elision over all sizes", "anchors": ["src/hazel.cc:locate_posting", "src/hazel.cc:HazelIdx::posting", "src/fiver.cc:hazel"]}
{"id": "C26", "title": "Interrupted static merge resumes to the same result", "statement": "If a static merge is interrupted at any point, including a partially written final record, running it again produces the same shard as an uninterrupted merge.", "quantifier": "every crash point and torn write, every input shards, any number of interruptions", "why_tests_cant": "crash points", "anchors": ["src/hazel.cc:hazel_repair_checkpoint", "src/hazel.cc:append_checkpoint_posting", "src/hazel.cc:HazelIdx::merge"]}
{"id": "C27", "title": "Appended text can be read back by address", "statement": "If append(text) returned [p,q] with p <= q then, after commit, translate of these addresses returns the appended text from its first token up to the next token stored after it (if no token came earlier in the transaction, also the bytes before its first token), whatever other transactions there are and however shards are merged; the address ranges of successive appends are consecutive; and exactly the tokens of the text are annotated, at their addresses.", "quantifier": "every sequence of transactions and appended texts, every tokenizer setting, every grouping into merged shards, every earlier use of the readers", "why_tests_cant": "interplay of token boundaries of concatenated texts, chunk boundaries and merges", "anchors": ["src/fiver.cc:FiverAppender", "src/fiver.cc:FiverTxt::translate_", "src/fiver.cc:Fiver::merge", "src/bigwig.cc:BigwigTxt::translate_", "src/ascii_tokenizer.cc", "src/utf8_tokenizer.cc"]}
{"id": "C28", "title": "Tokenization, skipping and splitting agree", "statement": "For any text, the n-th address produced by tokenize starts at the offset skip(n) reaches, split returns one string per address, and skip(m) after skip(n) equals skip(n+m).", "quantifier": "every byte string and every n, m", "why_tests_cant": "all byte strings", "anchors": ["src/ascii_tokenizer.cc", "src/utf8_tokenizer.cc"]}
{"id": "C29", "title": "Chunked text store behaves as one append-only byte string", "statement": "Reading any range of the text store returns the bytes appended there, across chunk boundaries and with any compressor that restores its input; abort or crash recovery restores the contents before the transaction.", "quantifier": "every sequence of appends, reads, transactions and aborts, every chunk size", "why_tests_cant": "unbounded histories and boundary alignments", "anchors": ["src/simple_txt_io.cc:append", "src/simple_txt_io.cc:read", "src/simple_txt_io.cc:transaction_", "src/simple_txt_io.cc:restore"]}
{"id": "C30", "title": "Recipe and DNA round trip", "statement": "Freezing a parameter map to text and cooking the text gives the same map back.", "quantifier": "every map of keys and string values", "why_tests_cant": "all strings and nestings", "anchors": ["src/recipe.cc:freeze", "src/recipe.cc:cook", "src/recipe.cc:dump", "src/recipe.cc:parse"]}
{"id": "C31", "title": "Featurizer maps keys injectively where promised", "statement": "Keys shorter than eight bytes get distinct features, translate returns the key, short and long keys never share a feature, and literal keys '#n' denote n. The feature of a longer key is the published hash of its bytes (MurmurHash64A), without its sign and with bit 56 set, so that programs that use this hash agree on every feature.", "quantifier": "every key", "why_tests_cant": "all byte strings", "anchors": ["src/hashing_featurizer.cc: MurmurHash64A, HashingFeaturizer::featurize_, translate_", "src/json.h: json_internal_token", "src/tagging_featurizer.h", "src/vocab_featurizer.cc"]}
{"id": "C32", "title": "Compressed temporary streams read back what was written", "statement": "A reader over a compressed stream returns for any offset and length exactly the bytes written, for any sequence of write sizes and flushes.", "quantifier": "every write sequence and read range", "why_tests_cant": "frame boundaries", "anchors": ["src/working.cc:CompressWriter", "src/working.cc:CompressReader"]}
{"id": "C33", "title": "The shared posting cache gives every reader its own answers", "statement": "Readers of a burrow share postings that the first of them to ask builds in the background. Whoever built the posting, from whatever shards and however many merges ago, a reader that gets it sees exactly what is visible of the transactions in its own snapshot; a posting once built never changes; and a reader waiting for one is released when its builder finishes.", "quantifier": "every interleaving of commits, aborts, merges, reader starts and ends, lookups and background fillings", "why_tests_cant": "unbounded concurrent histories", "anchors": ["src/owsla.h:OwslaCache", "src/bigwig.cc:BigwigIdx::hopper_", "src/cache_gate.h"]}
{"id": "C34", "title": "JSON documents survive the round trip", "statement": "When a JSON document is stored through the JSON scribe, every value in it, at any depth, is annotated under its path (and, for a member of an object, under its key), with its numeric value, and nothing else is annotated; reading the addresses of such an annotation through JSON translation gives a JSON text that denotes that value, whatever else the warren holds and however its shards were merged.", "quantifier": "every JSON value of any nesting, every position in a transaction, every set of other transactions and every merging of shards, every sequence of reads", "why_tests_cant": "all documents and all nestings, all strings with escapes and multi-byte characters, all layouts of shards", "anchors": ["src/json.cc:json_scribe", "src/json.cc:do_json", "src/json.cc:do_array", "src/json.cc:do_object", "src/json.cc:json_translate", "src/json.cc:sanitize", "src/json.cc:contains_utf8_noncharacters", "src/json.cc:json_encode", "src/json_txt.cc:JsonTxt::translate_"]}
{"id": "C35", "title": "A transaction on a static warren is atomic to crashes", "statement": "A transaction on a static warren (appending text, annotating, then ready and commit, or abort) changes the text, the block map and the index together. If the process dies at any point, recovering the directory, with however many interrupted attempts before, leaves exactly the old contents or exactly the new contents of all of them, no lock and nothing half made; and until it is recovered no new transaction begins on anything in between.", "quantifier": "every history of the text, every transaction, every crash point including torn writes, every number of interrupted recoveries", "why_tests_cant": "there are as many crash points as file operations, each with many torn states, and recovery may itself crash; tests only call recover on the text store after a clean stop", "anchors": ["src/simple_warren.cc:transaction_,ready_,commit_,abort_", "src/simple_appender.cc:transaction_,ready_,commit_,abort_,recover", "src/simple_annotator.cc:transaction_,ready_,commit_,abort_,recover", "src/simple_txt_io.cc:recover"]}
{"id": "C36", "title": "Token-to-offset map of a static warren stays aligned", "statement": "After any sequence of appends the block map used to translate addresses has exactly one entry for every block of 1024 addresses, in order, pointing at that address's first byte.", "quantifier": "every sequence of appended texts", "why_tests_cant": "alignment of duplicated tokens with block boundaries", "anchors": ["src/simple_appender.cc:append_", "src/simple_txt.cc:load_map", "src/simple_builder.cc:add_text_"]}
{"id": "C37", "title": "A quoted phrase finds exactly the places where its words are adjacent", "statement": "A query that is a quoted phrase of two or more words, as the tokenizer splits it, has as solutions exactly the intervals [p,p+n-1] at which word i of the phrase is annotated at address p+i, for an index in which those words are one-address annotations.", "quantifier": "every phrase, every tokenizer result whose words are query terms, every index over any number of shards", "why_tests_cant": "phrases expand into a containment of a window and an ordered sequence; that this equals adjacency is a statement about all posting lists and all phrase lengths", "anchors": ["gcl/parse.cc:SExpression::expand_phrases", "gcl/parse.h:SExpression", "gcl/gcl.cc:gcl::hopper"]}
{"id": "C38", "title": "What a reader sees depends only on which transactions were committed before it started", "statement": "From start to end of a reader, the answers to every query are those of one specification computed from the set of transactions committed before it started: with which shards these are stored, how often and in which order they were merged, converted to the static format or reloaded after a crash, and what is committed meanwhile does not matter.", "quantifier": "every history of transactions, merges, crashes and reopenings; every query; every sequence of cursor calls", "why_tests_cant": "couples all of query evaluation, storage, merging, transactions and recovery", "anchors": ["src/bigwig.cc:Bigwig::start_", "src/bigwig.cc:BigwigIdx", "src/fiver.cc:Fiver::merge", "src/hazel.cc:Hazel::merge", "gcl/hopper.cc"]}
{"id": "C39", "title": "The static form of a shard keeps its text", "statement": "When the text of a shard is written in static form, and when static shards are merged, the text can still be read by address as before: asking a warren for the addresses of an appended text gives that text, whatever shards are dynamic, static or merged from static ones, and any other range of addresses reads as it does when all shards are dynamic.", "quantifier": "every tokenizer, text, history of transactions, grouping into shards, piece size, compressor that restores what it compressed, tree of merges and range of addresses", "why_tests_cant": "The text is cut into compressed pieces at places that depend on the texts, the tokenizer and the piece size, and reading locates the pieces through offsets that merging moves; a test sees a few texts and one piece size, not the pieces that happen to end between a chunk and its first token or a merge of merges.", "anchors": ["src/fiver.cc: hazel_write_txt_blob, hazel_write_text_chunk", "src/hazel.cc: HazelTxt::translate_, HazelTxt::load, HazelTxt::merge, load_token_range", "src/bigwig.cc: BigwigTxt::translate_"]}
{"id": "C40", "title": "A text is cut into words as the character classes say", "statement": "The tokens of a text are the maximal runs of word characters (and, with XML, the tags, each without its attributes; entities are passed over) for the ASCII tokenizer, and for the UTF-8 tokenizer the runs of word code points, each folded, with every single-character code point a token of its own; the cutting is unique, each token reports the bytes it covers, and split lists the first string of each.", "quantifier": "every byte string; every table of character classes; every list of Unicode code points", "why_tests_cant": "all byte strings, including malformed UTF-8", "anchors": ["src/ascii_tokenizer.cc:tokenize", "src/utf8_tokenizer.cc:tokenize_", "src/utf8_tokenizer.cc:split_"]}
{"id": "C41", "title": "Setting options in recipes", "statement": "Setting an option X:Y:Z in a recipe where X has a recipe with a parameter Y succeeds; extracting X:Y from the result gives Z, and extracting any other parameter gives what it gave before. X:Z replaces the recipe of X, X:name:Z the name of X (clearing the recipe), and X@Y wraps X in Y. An option that is malformed is refused and leaves the recipe as it was.", "quantifier": "every recipe, every item, parameter and value", "why_tests_cant": "the recipes nest to any depth and are written to text and read again at each level", "anchors": ["src/recipe.cc:interpret_option", "src/recipe.cc:extract_option", "src/recipe.cc:unwrap", "src/recipe.cc:name_and_recipe"]}
{"id": "C42", "title": "A static warren's index answers for its whole history", "statement": "After a static warren has been built from texts and annotations, and any number of transactions on it were committed or aborted, its index answers every query for a feature with exactly the committed intervals that contain no other committed interval of that feature, each with the value committed last. Counts and the size of the vocabulary agree with this. How much is buffered in memory before it is written to a temporary file makes no difference.", "quantifier": "every sequence of texts, annotations and transactions, every limit on buffering, every order in which equal elements may be sorted, every query", "why_tests_cant": "The answer depends on the whole history, on how annotations were split over temporary files and on the order of equal elements when sorting; tests fix one history and one buffer size.", "anchors": ["src/simple_annotator.cc: SimpleAnnotator::annotate_, ready_, merge_updates", "src/simple_builder.cc: SimpleBuilder::add_text_, add_annotation_, build_index", "src/simple_idx.cc: SimpleIdx::hopper_, count_, vocab_, locate", "src/simple_posting.cc"]}
{"id": "C43", "title": "What a committed transaction left in its file is what opening the burrow finds", "statement": "When a dynamic shard (a transaction, or several merged ones) has been written to its file, opening the file gives a shard with the same transaction numbers, the same text, and for every feature the same annotations with the same values; a file that could not be written entirely is never reported as written.", "quantifier": "all texts, all sets of features and annotations, all compressors that restore their input, all amounts of space left on the device", "why_tests_cant": "A test writes and opens a few shards on a device with plenty of room; the claim is about every content and about every byte at which the device may run full.", "anchors": ["src/fiver.cc: Fiver::pickle, Fiver::unpickle, Fiver::ready_", "src/simple_posting.cc: SimplePosting::write, SimplePostingFactory::posting_from_file"]}
{"id": "C44", "title": "Ranking finds the best containers, whatever the number of threads", "statement": "Shortest-substring ranking of a query over containers returns the highest-scoring `depth` containers among those with a solution of the query in them and starting in the given range, best first; each with the sum of the weights of exactly the solutions in it and with the first of its shortest solutions as its passage. No container is missed by the early cut-off (scores not above the worst of the current best are skipped), by skipping along either list, or at the borders of the ranges that parallel ranking gives to its threads. The scores, rank by rank, are the same for every number of threads.", "quantifier": "every index, query, container query, depth, range, thread count and machine; any scores with an order and positive sums (so whatever the rounding)", "why_tests_cant": "Which containers survive depends on the interleaving of two solution lists, on where the current worst score stands, and on where range borders fall; tests use small collections far below the size at which ranges are cut.", "anchors": ["src/ranking.cc: ssr_ranking, top_results, parallel_ranking, parallel_ssr", "src/core.cc: allowed_threads"]}
{"id": "C45", "title": "BM25 ranking finds the best documents although it skips most", "statement": "BM25 ranking of a weighted query returns the highest-scoring `depth` documents among all those with a term of the query in them, best first, each with the sum over all the query's terms in it: no document is missed because the ranking skips those that cannot reach the current worst score. The same holds when frequencies are weighted sums over several fields. The container reported for a document is the first one that holds it, and the document itself if there is none.", "quantifier": "every list of documents, every set of term frequencies at document starts, every non-negative query weight and statistic, every depth, every parameter k1 >= 0 and 0 <= b <= 1, every order in which equal elements may be sorted", "why_tests_cant": "Which documents are skipped depends on the order of the terms' cursors and on the worst score so far at each step; a test compares a few rankings, and a wrong skip shows only when a document that was passed over would have made the list.", "anchors": ["src/ranking.cc: bm25_ranking, bm25, maybe_add_container, top_results", "src/tf_hopper.h: TfHopper", "src/field_stats.cc: TfHopper", "src/ranking.h: RankingResult::container"]}
{"id": "C46", "title": "Term statistics are those of the documents, however they are computed", "statement": "Foraging the solutions of a query commits, for every document and every term in it, one annotation at the start of the document with the number of times the term occurs in it, and totals that add up to the number of documents with each term, the number of documents and their length, whatever the number of threads; statistics over a whole text or a range of it commit the same counts. Statistics read back from an index with these annotations give these numbers, and BM25 ranking with them returns the documents that are best by the counts of their terms.", "quantifier": "every text, tokenizer, stemmer, query, range, number of threads, size of a batch and order of commits", "why_tests_cant": "the counts depend on how documents fall into batches and threads and on gaps in addresses; tests have a few small documents, in one batch and one thread", "anchors": ["meadowlark/tf-idf_forager.cc: forage_, ready_", "meadowlark/meadowlark.cc: forage, thread_count", "src/ranking.cc: tf_annotations, tf_df_annotations, bm25_ranking", "src/df_stats.cc: DfStats", "meadowlark/tf-idf_stats.cc: TfIdfStats"]}
{"id": "C47", "title": "What forage was asked for can be had from the warren", "statement": "After foraging a query with a tag and parameters, the statistics for this tag are found and are those of this query and these parameters, whatever bytes they contain, however often the warren is reopened and whatever transactions are merged; those of different foragers and tags are not mixed up.", "quantifier": "every tag, map of parameters, tokenizer, history of transactions, merge and following text", "why_tests_cant": "parameters may contain any bytes, which the label has to escape, and the label is read through the text of whatever shard it was merged into; tests read it from a warren with one label, not merged", "anchors": ["meadowlark/forager.cc: forager_label, label, forager2json, json2forager", "meadowlark/tf-idf_stats.cc: make", "meadowlark/meadowlark.cc: forage"]}
{"id": "C48", "title": "Appending a file is all or nothing, and every line goes in once", "statement": "Appending a file with any number of threads ends; if it reports success, every line of the file is in the warren exactly once, in lines that keep the order of the file within each thread's part, and if it reports failure or is interrupted, nothing of the file is; it reports success if the file can be read and no line is refused.", "quantifier": "every file, number of threads, schedule of the threads and set of refused lines", "why_tests_cant": "which thread takes which line, and which of them fails first, depends on the schedule; tests run one schedule, and hardly ever one with a failure", "anchors": ["meadowlark/meadowlark.cc: append_jsonl, append_tsv, forage", "src/scribe.cc: Scribe::commit_all"]}
{"id": "C49", "title": "Tables: every row and field of a TSV file is found where it is", "statement": "A file is cut into lines at newlines, returns and both; a line into fields at a separator from the left, or at blanks if none is given, so that nothing is lost but the ends and separators. After appending a table, each field that has tokens is an annotation of its number over just its own tokens, each row with tokens is one record (or the header, if it is the first and there is one) over just its own tokens, and the file's path is over just the file's tokens; all of these can be found once the table is committed.", "quantifier": "every file, separator, tokenizer setting, header flag and part of the lines a thread gets; rows of any number of fields, also without tokens", "why_tests_cant": "empty fields, missing separators, empty lines and foreign line ends combine in unboundedly many ways, and an annotation that reaches one token too far shows only in queries of the rows next to it", "anchors": ["meadowlark/meadowlark.cc: append_tsv", "src/core.cc: split_lines, split_tsv"]}
{"id": "C50", "title": "Reading through a gate gives the bytes, to so many at a time, and to all in the end", "statement": "Calls that read ranges of a file through a gate with n permits, from any number of threads: a call that returns bytes returns exactly those of its range, however the system splits, interrupts or delays the reads; a range inside the file that the system can read is returned; never do more than n calls read at once; and no call waits forever: as long as a call is not done some call can go on, and the number of steps all calls take is bounded.", "quantifier": "every file, list of calls, number of permits, schedule of the threads, choice of the thread a notification wakes, spurious wakeup, interruption and short read", "why_tests_cant": "a lost wakeup or a permit that is not given back needs one particular order of steps of several threads, and shows as a hang, in one run of very many", "anchors": ["src/read_gate.h: ReadGate::read, ReadGate::acquire, ReadGate::release"]}
{"id": "C51", "title": "A file of ids changes how fast texts are translated, not what they are", "statement": "After the texts of the ids of a warren have been written to a file, a warren that is opened with that file translates every interval as the warren without it does: an id to the text it had when the file was written, and any other interval to what the text itself says. Writing and opening the file succeed, and no read leaves the arrays.", "quantifier": "every index and id query, every text, every interval, every state of the query", "why_tests_cant": "that the file is shorter than the ids, or an offset one off, shows only for the ids that are last, empty, or share an end with another interval", "anchors": ["src/fastid_txt.cc: fastid, FastidTxt::make, FastidTxt::translate_, search_addr"]}
{"id": "C52", "title": "Asking whether a file was appended gives the right answer", "statement": "already_appended, for a file name, says yes exactly if the path of that file is among the paths recorded in the warren: it does not mistake another path that has the same words, or the path as a part, for it, and it finds the path wherever it is recorded.", "quantifier": "every warren, every set of recorded paths, every file name", "why_tests_cant": "file names can hold quotes, backslashes, blanks and any other character, and pass through quoting, query parsing, tokenizing, matching and comparing; tests try the usual names", "anchors": ["meadowlark/meadowlark.cc: already_appended, path_match, gcl_string, normalized_path"]}
{"id": "C53", "title": "Opening a burrow leaves only what is needed of static shards and interrupted merges", "statement": "Opening a burrow with static shards removes exactly the shards inside another shard and the leftover files of merges that are finished or cannot be restarted; it loses no sequence number; it reports exactly the shards inside no other, and exactly the merges whose checkpoint files are both there and whose range is made up of two or more of these shards, with those as sources. If it is stopped after any of its removals, opening again has the same outcome; opening twice removes nothing more; if it reports an error it has removed nothing. Once a restarted merge has put its shard in place, the next opening keeps that shard instead of its sources.", "quantifier": "every set of file names, every point at which the opening or the merge is stopped", "why_tests_cant": "every combination of leftover files from every interrupted merge, and every point between two removals", "anchors": ["src/hazel.cc: Hazel::sanitize, hazel_source_group, normalize_hazel_shards, verify_dead_hazels, parse_hazel_sidecar, parse_old_hazel_sidecar"]}
{"id": "C54", "title": "Background merging takes only idle shards, ends, misses no work and leaves at most three shards", "statement": "Whatever the order in which writers commit and merge workers run: a worker takes a stretch of neighbouring shards that no other worker is merging, of one kind, and by the stated thresholds (tiny fivers together, the smallest pair, large or stranded or lone fivers written out; static shards only without a gap in their numbers, and a merge that was interrupted first); there are never more workers than allowed; if nobody commits or aborts and no merge fails the workers stop after at most eight steps per shard; when all is quiet after somebody has run and no merge has failed, no aborted transaction is left in the list and nothing is left that could be merged; and if no transaction was aborted either, an index with a directory then has no shard, one shard, or a static one between two fivers of less than 256 MiB.", "quantifier": "every list of shards of any sizes, every order of commits, aborts and worker steps, every number of workers", "why_tests_cant": "depends on the interleaving of writers and workers and on the sizes of the outputs", "anchors": ["src/bigwig.cc: find_merge_action, find_fiver_action, find_hazel_action, find_sequence, find_smallest_pair, validate_*, merge_worker, Bigwig::try_merge, Bigwig::ready_, Bigwig::commit_, Bigwig::abort_"]}
{"id": "C55", "title": "Scribing a list of files is one whole transaction for each file, in order, and says so exactly", "statement": "Scribing files (scribe_files) adds, for each file in order, one transaction with the name and the content of the file, marked as filename:, content: and together as file:. Scribing files of JSON lines (scribe_jsonl) adds for each file one transaction with its documents in order and the path of the file over all of them. If anything is refused the transactions that were added are those of the first files, each whole. The call succeeds exactly if all files were added, and then no transaction is open. Committing several scribes together commits each warren exactly once.", "quantifier": "every list of files, every content, every pattern of refusals by the warren, every mix of scribes", "why_tests_cant": "depends on which call is refused in a run over any number of files; the tests scribe readable files that end in a newline", "anchors": ["src/scribe.cc: scribe_files, scribe_jsonl, path, Scribe::commit_all, WarrenScribe", "src/committable.h: Committable"]}
{"id": "C56", "title": "A word is stemmed by Porter's rules, and its stem depends on nothing but the word", "statement": "Stemming a word of three to thirty-two letters gives \"porter:\" and the stem that Porter's published rules give for the word in small letters: the word's first letter and then small letters, no longer than the word. Any other word is returned as it is, and the caller is told. The answer does not depend on the words stemmed before nor on anything outside the word.", "quantifier": "every word, every sequence of words given to one stemmer, every initial content of its buffer", "why_tests_cant": "the rules interact through indices into a buffer that is never cleared; a list of sample words cannot show that no word meets a stale byte or an index outside the buffer", "anchors": ["src/porter.cc: Porter::porter, step1ab, step1c, step2, step3, step4, step5, cons, m, vowelinstem, doublec, cvc, ends, setto", "src/porter.h: Porter::stem_"]}
{"id": "C57", "title": "Readers on many threads share what was read from the files, and none sees it half done", "statement": "Any number of threads may ask a static index for the annotations of features, and for their number, at the same time. Every hopper shows exactly what the file had for its feature when it was asked for, and every count is the number of annotations there; nothing is shown before it has been decompressed as a whole, also when the index is reset meanwhile. A feature is read at most once between two resets. Nobody waits for ever, and no wake-up is lost. The same for a chunk of compressed text: every thread gets exactly the chunk, or is told that its reading failed.", "quantifier": "every number of threads, every interleaving of their steps with those of the decompressing threads and with resets, every file, threads woken without reason, both builds of the gate", "why_tests_cant": "whether a reader can slip between the writing of two arrays, or sleep through the only wake-up, depends on interleavings that a test cannot choose", "anchors": ["src/cache_gate.h: CacheGate", "src/simple_idx.cc: load_cache, decompress_cache, hopper_, count_, reset_", "src/array_hopper.cc: ArrayHopper", "src/hazel.cc: HazelTxt::obtain"]}
{"id": "C58", "title": "Rankings are combined without loss: fusion, tiers and the tiers of a query", "statement": "Fusing rankings gives every passage of any of them once, with the sum of what its ranks in all of them are worth, best first, and the order in which the rankings are given does not matter. Ranking by tiers gives the containers in the order of the first tier that finds them and, within a tier, of their rank there, each container once, and the first `depth` of these; that every tier is cut at `depth` loses nothing. The tiers made of a query use its 16 weightiest words; every choice of words is in exactly one tier, weightier choices in earlier ones, and the text of each tier is read by the query parser as one of its choices with all its words.", "quantifier": "every set of rankings, every order on scores that is lawful, every sorting routine that sorts, every index, every list of tiers, every query of words, every weighting, every depth", "why_tests_cant": "that nothing is lost when tiers are cut, and that no choice of terms is in two tiers or in none, is about all queries and all collections; a test sees a handful", "anchors": ["src/ranking.cc: rrf_fusion, build_tiers, tiered_ranking, ssr_ranking"]}
{"id": "C59", "title": "Ranking by covers returns real covers, and the best of them", "statement": "`icover_ranking` ends and returns at most `depth` containers, each once, best first. Each comes with a passage in it that is a shortest one around some of the words of the query, and with the score that is due to that passage: the weights of these words less the penalty for its length. No container with a passage around all the words is passed over for one with a lower score. If fewer than `depth` containers are returned, then wherever two or more of the words stand in a container, a passage there around as many of the words was considered.", "quantifier": "every collection, every query of words (also with repeated words), all weights and every penalty, every depth above zero, every sorting routine", "why_tests_cant": "which covers exist is a matter of all the ways in which words can be spread over a collection; a cover that is skipped by one step too many shows only in rare layouts", "anchors": ["src/ranking.cc: icover_ranking, merge_results"]}
{"id": "C60", "title": "The measures of a ranking are what their names say", "statement": "For every ranking and every set of judgements, `eval` reports precision at 5, 10 and 20, average precision, reciprocal rank, precision, recall, discounted gain, normalized gain, rank-biased precision and time-biased gain as they are defined; each normalized measure is between zero and one for a ranking without duplicates, and a normalized gain of one means that no ranking could gain more. `med` reports the greatest difference that any grading of the passages could make between two rankings. `mean`, called for one ranking after the other, leaves the arithmetic means. Loading a file of judgements gives grades between zero and one in proportion to the levels in the file.", "quantifier": "every ranking of any length, all judgements with grades that are not negative, every number of rankings averaged, every file of judgements", "why_tests_cant": "a measure is a function on all rankings and judgements; that no ranking beats the ideal, or no grading the similarity, is a claim about all of them", "anchors": ["src/eval.cc: eval, med, mean, load_trec_qrels"]}
{"id": "C61", "title": "An infix query means what the query it is translated to means", "statement": "`Mt::infix_expression` accepts a line exactly when its words form a query, a definition or nothing by one grammar, and no line can be read as two different queries. After a definition the name stands for the query it was given and other names for what they did. A line that is refused changes nothing. The text that `s_expression` then gives is accepted by `SExpression::from_string`, and the query read from it has, over every index, the solutions that the infix query asks for.", "quantifier": "every line of text, every sequence of earlier lines, every index", "why_tests_cant": "the lines, the nesting of the expressions and the definitions before them are unbounded; that a translation keeps the meaning is a claim about all indexes", "anchors": ["gcl/mt.cc: Mt::infix_expression, parse_query, parse_term, scan", "gcl/mt.h: Mt::s_expression", "gcl/parse.cc: SExpression::from_string"]}
{"id": "C62", "title": "Rankings by annotated values return the best passages", "statement": "`product_ranking` and `lmd_ranking` return the best `depth` of all passages annotated with some term of the query whose score is greater than zero, best first, each once, with the sum over its terms of what weight, value and length make; `random_ranking` does so for the numbers it draws. The weight of a word in a query given as text is how often it is said. A parameter given as `ranker:name` counts before one given as `name`, and this before the default. The scores of `lmd_ranking` order passages by the likelihood of the query.", "quantifier": "every query, every index, every weight and value, every depth, every set of parameters, every logarithm", "why_tests_cant": "the number of terms and passages and their overlaps are unbounded, and the best are kept in batches of `depth` with a moving threshold", "anchors": ["src/ranking.cc: product_ranking, lmd_ranking, random_ranking, ranking_parameter", "src/parameters.cc: Parameters::from_ranker_name", "src/parameters.h: Parameters::defaults"]}
{"id": "C63", "title": "A pipeline for ranking does what its stages say, one after another", "statement": "`Ranker::from_pipeline` accepts a text just when it consists of words with blanks between them (and perhaps after the last), each of which is `bm25`, `lmd`, `kld`, `rsj`, `stem`, `stop`, `name=value` or `random:ranker`; the error names the first word that is none of these. Ranking a query then counts the words of the query and lets each stage do what it says to the words, the parameters and the ranking: `stem` adds up the weights of words with the same stem, `stop` drops stopwords unless nothing else is there, feedback adds the words it finds to the query (and does nothing before the first ranking), an assignment overrides those before it; the ranking is that of the last ranking stage.", "quantifier": "every text as a pipeline, every query, every tokenizer, stemmer, list of stopwords, ranking function and feedback", "why_tests_cant": "pipelines and queries are unbounded sequences, and the query is split lazily, by different code depending on what comes before", "anchors": ["src/ranker.cc: Ranker::from_pipeline, RankingContextTransformer::from_name, RankingContext::cook", "src/stats.cc: Stats::make", "src/idf_stats.cc: IdfStats::make", "src/ranking.cc: ranking<>, lmd_ranking"]}
{"id": "C64", "title": "Answering many topics with many threads answers each of them", "statement": "When `trec` returns true, every topic it was given has the answer of its query and `results` has nothing else; when it returns false the error is that of a worker that could not be prepared, and whatever is in `results` is an answer. It always returns, only one worker clones the warren at a time, and if ranking is deterministic the results do not depend on the number of threads. A ranked passage is reported by the first identifier that begins in or after its start, if that ends in the passage, and is left out otherwise.", "quantifier": "every set of topics, every number of threads, every schedule of the workers, every failure of a worker", "why_tests_cant": "the results depend on how the workers are scheduled and on where each of them fails; there are unboundedly many schedules", "anchors": ["src/ranker.cc: trec", "src/core.cc: allowed_threads"]}
{"id": "C65", "title": "Short answers are the best-scoring windows of the text around the passages", "statement": "`qap` returns at most `depth` texts: of the text within `window` words of each passage, in its container, the window of `length` words with the highest score (or all of it when it is not longer), best first and at most one for each passage, and no candidate of another passage is better than what is returned. The score of a window is the sum of the weights of its different words; a word of the query has no weight, any other the cube of the sum of what it is worth in each fragment, which depends on how far it is from the passage.", "quantifier": "every set of passages, every text, query, depth, window and length", "why_tests_cant": "the answer is an optimum over all windows of all fragments, for any text and any passages", "anchors": ["src/ranking.cc: qap"]}
{"id": "C66", "title": "Threads that read a static shard share its postings, and each gets all of them", "statement": "Any number of threads may ask a static shard for the hopper or the posting of a feature at the same time. If the file can be read, each gets exactly what the shard has for the feature, never a part of it; the postings of a feature are read at most once; all threads that ask for a feature get the same; nobody waits for ever; and the count of a feature is the number of its annotations.", "quantifier": "every number of threads, every interleaving of their calls with the threads that fill postings, every shard, every failure to read", "why_tests_cant": "whether a thread can see a posting that is being filled depends on interleavings that a test cannot choose", "anchors": ["src/hazel.cc: HazelIdx::hopper_, HazelIdx::posting, HazelIdx::count_, fill_hazel_posting, fill_bogus_posting", "src/owsla.h: OwslaCache::get"]}
{"id": "C67", "title": "Statistics by fields count the terms of each field of each document", "statement": "After the fields of a warren have been counted, the statistics of kind \"field\" know for every document and every field how often each term occurs in that field of the document, and for every term how many documents have it in some field, how many documents there are and how long their fields are; a query over these statistics sees, for each document, the sum of the term's numbers of occurrences, each times the weight of its field; fields without weight do not count, and weights that make no sense are refused.", "quantifier": "every text, every set of documents, every list of field queries and of weights, every term", "why_tests_cant": "how often the parts of a document are counted depends on where the solutions of arbitrary queries lie with respect to the documents", "anchors": ["src/ranking.cc: tf_field_annotations", "src/field_stats.cc: FieldStats::make, FieldStats::idf_, FieldStats::rsj_, load_df, FieldStats::tf_hopper_"]}
{"id": "C68", "title": "Statistics with the weights of terms are those of the documents", "statement": "After the weights of terms have been computed, the statistics of kind \"idf\" know for every term and every document how often the document has the term, the average length of the documents, and for every term its inverse document frequency and its Robertson and Sparck Jones weight, computed from the numbers of documents that there are and that have the term; a term in no document has no weight. Computing them again replaces them. Unstemmed terms count as well if that is asked for.", "quantifier": "every text, stemmer and set of documents, every choice of weights, every term, every earlier statistics", "why_tests_cant": "the counts are over all documents, and whether an annotation is seen depends on every annotation of its feature that any earlier transaction made", "anchors": ["src/ranking.cc: tf_idf_annotations", "src/idf_stats.cc: IdfStats::make, IdfStats::rsj_, IdfStats::idf_, IdfStats::tf_hopper_"]}
{"id": "C69", "title": "The parameters of a warren are kept", "statement": "After a parameter of a warren has been set, asking for it gives the value that was set last, also after the warren is closed and opened again; all other parameters and all other settings of the warren are what they were. If setting it is reported to have failed, or the program ends before the new description takes the place of the old, nothing has changed. A warren of shards has in memory what its description says.", "quantifier": "every warren that has a description, every parameter and value, every sequence of them, every failure of the device", "why_tests_cant": "a value is written inside a map inside a map and read back line by line, so that whether it survives depends on every byte of every value; what is lost is lost only on a device that is full or between two programs", "anchors": ["src/dna.cc: read_dna, write_dna, get_parameter_from_dna, set_parameter_in_dna", "src/bigwig.cc: Bigwig::set_parameter_, Bigwig::get_parameter_, Bigwig::make", "src/simple_warren.cc: SimpleWarren::set_parameter_, SimpleWarren::get_parameter_", "src/warren.h: set_stemmer, set_default_container"]}
{"id": "C70", "title": "Converting a burrow to static shards loses nothing", "statement": "The program that converts the shards of a burrow to static shards and merges these loses nothing: at every moment, also if it is stopped or fails between any two operations on files, every transaction that was in a static shard is in one, and the other shards are all there; no file is overwritten. When it reports success, every transaction of the other shards is in a static shard, and, if it merges, one static shard has exactly the transactions of all of them, and all others that are left are inside it. A static shard is removed only if it is the union of two or more others, and where ranges are nested or share nothing, exactly then. Running it again succeeds and leaves the same files.", "quantifier": "every directory of shards, every choice of converting and merging, every moment at which it is stopped", "why_tests_cant": "which shards are removed depends on all ranges in the directory, which may cover one another in any way, and on the moment at which the program stops", "anchors": ["apps/fiver2hazel.cc: main, living_fivers, hazel_files, covered_by_other_hazels, remove_merged_hazels, contiguous_hazels", "src/hazel.cc: Hazel::merge"]}
{"id": "C71", "title": "A copy of a reader answers as its original", "statement": "A reader can be copied while it is on. The copy shows the same shards, and between any two addresses the same text, as the original, with the same default container and stemmer, whatever is committed or merged meanwhile, until one of the two is ended. A copy of a reader that is off shows what is there when it is started. The copy of the text of a simple warren answers every call as the original does, whatever was asked of the original before.", "quantifier": "every history of commits, merges, starts, ends and copies of readers, every range of addresses, every sequence of calls before and after copying", "why_tests_cant": "a copy shares some state with its original and has some of its own; what each shows depends on what happened to either before and after", "anchors": ["src/bigwig.cc: Bigwig::clone_, start_, end_", "src/json_txt.cc: JsonTxt", "src/txt.cc: Txt::wrap", "src/simple_txt.cc: SimpleTxt::clone_"]}
{"id": "C72", "title": "Feedback adds the best words of the texts that were found", "statement": "Pseudo-relevance feedback looks at the texts of the first results, as many different documents as asked for, and at nothing outside of them. It returns at most as many words as asked for, the best of those that qualify (with rsj: those of positive weight in some text, by weight times the number of texts; with kld: those in at least two texts, by the number of texts compared with the number expected), and adds a share of gamma to the weight of each in the query, leaving all other weights alone. All weights are numbers.", "quantifier": "every ranking, every text, every number of words and results asked for, every query, every way in which sorting breaks ties", "why_tests_cant": "which words are chosen depends on all texts of the ranking together, on ties, and on passages at the edges of documents", "anchors": ["src/ranking.cc: rsj_prf, kld_prf, qa_prf"]}
{"id": "C73", "title": "Sorting a file of annotations loses nothing, and the check accepts exactly legal ones", "statement": "Sorting a file of annotations, however many there are and however few fit into memory, gives a file with exactly the same annotations, by feature and start; the input is then gone, no temporary file is left behind and no other file is touched. If it cannot be done, the input is still there as it was. The check of a file accepts it exactly if the annotations can be those of an index; after sorting, exactly if no annotation ends before it starts and no two of a feature are nested, in whatever order they came.", "quantifier": "every file, every number of annotations that fit into memory, every disk on which writing some of the files fails, every way in which sorting breaks ties", "why_tests_cant": "more than one file to merge needs more than 64 million annotations; failures can come with any of the files", "anchors": ["src/simple_builder.cc: sort_annotations, sort_records, merge_records, check_annotations"]}
{"id": "C74", "title": "Reading an input file gives its content", "statement": "Reading an input file gives exactly its content, and what was compressed if its name ends like that of a compressed file, whatever bytes its name has; a file that cannot be read to its end is an error. Whatever the name, nothing is run but the program that decompresses, with that one name.", "quantifier": "every name, every content and length, every size of buffers, every disk, every way in which reading or decompression fails", "why_tests_cant": "names with quotes and blanks, contents longer than buffers and failures on the way are all possible at once", "anchors": ["src/builder.cc: maybe_zipped, inhale, shell_quote, has_zcat_extension, FileStreamBuffer"]}
{"id": "C75", "title": "A build is all of its steps, or a failure", "statement": "A builder takes steps in their order until one fails or the build is finalized; from then on nothing is added, and every further attempt says that it failed; finalizing again says that it is done. Building from files succeeds exactly if every file can be read, the builder takes each text in order, and finalizes.", "quantifier": "every history of steps, every builder, every list of files", "why_tests_cant": "unbounded histories; failures can come at any step", "anchors": ["src/builder.h: Builder::add_text, add_annotation, finalize", "src/builder.cc: build_trec"]}
{"id": "C76", "title": "A merged static shard describes itself as its parts did", "statement": "Static shards are merged exactly if there are two or more, all their settings mean the same, and the transactions they say they hold follow one another without a gap (or none of them says). The new shard can be opened, its settings mean what those of the parts mean, it says that it holds the transactions of all parts, and its parameters are those given or else those of the last part. Merging in steps writes the same description as merging at once. By name, the names must say ranges that follow one another and agree with what the shards say, and the new name says the whole range.", "quantifier": "every list of shards, every settings, metadata and parameters that can be kept, nested to any depth, every range, every sequence of merges, every name", "why_tests_cant": "settings nest without bound and are rewritten at each merge; any grouping of any number of shards is possible", "anchors": ["src/hazel.cc: Hazel::merge, normalize_dna_for_activated_hazel_merge, hazel_sequence_range, merged_activated_hazel_dna, Hazel::make, Hazel::get_parameter_", "src/warren.cc: single_file_burrow", "src/owsla.cc: hazel_default_name"]}
{"id": "C77", "title": "Writing to a builder through a scribe is writing to the builder", "statement": "A scribe made on a builder hands the builder every text and every annotation it is given, those of files of annotations included, in their order, and nothing else. It answers as the builder does: a call that the builder refuses is refused. Finalizing it says yes exactly if everything given before was carried out, and then that is what was built. A transaction is refused while one is open, and aborting a transaction undoes what was added in it.", "quantifier": "every builder, every history of texts, annotations, files, parameters, transactions of the scribe and of its annotator and appender, with and without assertions", "why_tests_cant": "the order of texts, annotations, refusals and transactions is up to the program, and a builder may fail at any step", "anchors": ["src/scribe.cc: BuilderScribe, BuilderAnnotator, BuilderAppender, Scribe::make", "src/committable.h: transaction, ready, commit, abort", "src/annotator.h: annotate", "src/annotator.cc: annotate_, erase_", "src/builder.h: Builder"]}
{"id": "C78", "title": "A burrow is opened with the parts it was built with", "statement": "The name and recipe that a featurizer or tokenizer gives about itself make one that does the same: every key has the same feature. A burrow built from parts, or from a recipe of options, is described so that opening it makes a featurizer with the same features, the same tokenizer and the same compressors. What passes a check can be made, and the builder accepts a recipe exactly if it passes the check.", "quantifier": "every featurizer nested to any depth, every tokenizer, every choice of compressors, every recipe of options, every key, with or without a vocabulary in the directory", "why_tests_cant": "descriptions nest to any depth and are rewritten whenever they are stored, and the burrow is opened by another program at another time", "anchors": ["src/featurizer.cc: Featurizer::make, check", "src/tagging_featurizer.cc", "src/vocab_featurizer.cc", "src/wrapping_featurizer.cc: recipe_", "src/tokenizer.cc: make, check", "src/compressor.cc: make, check", "src/simple_builder.cc: check, make, finalize_", "src/simple_txt.cc: interpret_simple_txt_recipe", "src/simple_idx.cc: interpret_simple_idx_recipe", "src/simple_warren.cc: make", "src/dna.cc: name_and_recipe"]}
{"id": "C79", "title": "A warren knows how much text it has and where", "statement": "The range of a warren's text says whether there is text and gives the addresses of its first and last token; the token count says how many addresses have a token. Neither depends on how transactions are grouped in shards, on which shards have been converted in the background, or on who asked before. A burrow that is opened again goes on just after its last token, so that new text shares no address with old text. Threads may ask at the same time.", "quantifier": "every history of transactions, every grouping of them in shards, dynamic or static, every order of questions, every interleaving of calls of any number of threads", "why_tests_cant": "what is counted depends on the gaps left by transactions given up and on which shards happen to have been merged; the answer is cached on first use, and threads race for it", "anchors": ["src/txt.h: tokens, range", "src/fiver.cc: FiverTxt::tokens_, range_", "src/hazel.cc: HazelTxt::tokens_, range_, load_token_range", "src/bigwig.cc: BigwigTxt::tokens_, range_; Bigwig::make", "src/json_txt.cc", "src/fastid_txt.cc"]}
{"id": "C80", "title": "A warren of shards, or a meadow, is opened as it was made", "statement": "However a warren of shards was made - with options, from parts, or as a meadow - it is later opened with parts that do the same (features of keys, tokens, compressors, whether its text is read as JSON) and with the parameters it has, whatever parameters were set and however often it was opened in between. A meadow stays a meadow. Nothing is made where there is a burrow already.", "quantifier": "every list of options and every choice of parts, every history of setting parameters and opening", "why_tests_cant": "each setting of a parameter writes the whole description anew, through a language of nested maps with its own quoting; opening itself sets parameters; a loss shows only when the burrow is opened the next time", "anchors": ["src/bigwig.cc: Bigwig::make (three of them), recipe_", "src/warren.cc: Warren::make", "src/dna.cc: read_dna, write_dna, set_parameter_in_dna", "src/stemmer.cc: Stemmer::make", "meadowlark/meadowlark.cc: is_meadow, create_meadow, open_meadow"]}
{"id": "C81", "title": "Housekeeping touches a burrow's own files only, and commit scripts do what they say", "statement": "Opening a burrow removes its temporary files and nothing else, and making one makes its directory and nothing else, whatever it is called. Temporary names are never given out twice. A listing has exactly the names with a prefix. The script that commits several transactions is read by the shell as it was meant whatever characters names have, can be stopped and run again, and a process that stops at any point while committing several transactions leaves a directory from which opening makes none or all of them committed.", "quantifier": "every directory name, every content of the file system, every number of temporary names, every set of transactions, every point of stopping", "why_tests_cant": "the work is done by texts handed to a shell, which reads blanks, quotes, stars and semicolons in names; wrong names harm files that no test looks at", "anchors": ["src/working.h: Working, make_temp, remove", "src/working.cc: Working::ls", "src/bigwig.cc: shell_quote, is_commit_script, finalize_commits, commit_all", "src/fiver.cc: shell_quote, commit_command, commit_"]}
{"id": "C82", "title": "A label in any JSON is read as JSON says", "statement": "A forager's label, in any JSON text of an object, whatever the order, the white space and the repetition of its members and whatever else the object has, gives the last name, the last tag or none, and for each parameter what it was set to last; a text that does not describe a forager is refused. What is written as a label is JSON of the same name, tag and parameters.", "quantifier": "every JSON text of any depth, every name, tag and map of parameters", "why_tests_cant": "labels may be edited or written by other programs; JSON has endlessly many texts for one object and nests to any depth, tests have a handful", "anchors": ["meadowlark/forager.cc: json2forager, skip_value, skip_object, skip_array, skip_number, skip_literal, parse_string, forager2json"]}
{"id": "C83", "title": "The tables of the UTF-8 tokenizer are complete, fold case and agree with ASCII", "statement": "Every code point that can be decoded from a text has a defined action. Two texts that differ only in case have the same terms at the same addresses. On ASCII text the UTF-8 tokenizer finds the words that the ASCII tokenizer finds, in small letters. An ideograph is a term by itself, letters and marks of other scripts make up words, and surrogates and code points beyond Unicode are in no term. The characters that documents are built of are tokens and the separators are not.", "quantifier": "every code point, every text", "why_tests_cant": "there are two million entries, and a single wrong number in the tables shifts all that follow; a test looks at a few characters", "anchors": ["src/unicode.h: compressed_actions, compressed_folds", "src/utf8_tokenizer.cc: Utf8Tokenizer::Utf8Tokenizer, write_compressed_actions"]}
{"id": "C84", "title": "A judgement counts for the document that it names", "statement": "A file of judgements with a topic, an unused field, the number of a document and a level on each line is read, and gives to the document with that number, and to no other, the level of its last line for the topic, scaled to the greatest level; with it go the document's length and number. A file with a line of another form, or with a number that no document has, is refused. The number of a document is found in the text of its identifier, with or without tags and quotes.", "quantifier": "every file, every warren whose documents have numbers, every number and every text of an identifier", "why_tests_cant": "which documents' numbers share words with others depends on the collection, and whether a file is cut into fields rightly on every byte of it", "anchors": ["src/eval.cc: load_trec_qrels, translate_docno, trec_docno"]}
{"id": "C85", "title": "Converters of infix queries use memory rightly and do not disturb each other", "statement": "A program may have any number of threads and converters of infix queries, give any text to any converter in any thread, and destroy converters at any time. No call reads, writes or releases memory that was not given out or was given back. Each converter answers as it would if it were the only one in the program: whether a text is accepted, the query it gives and the message of a refusal depend only on the texts that converter was given. All memory is always free, or part of the definitions of one converter; none is lost.", "quantifier": "every number of threads and converters, every history of calls and every text", "why_tests_cant": "which nodes are free, shared or lost depends on the whole history of calls, and a use of freed memory may go unnoticed in a test", "anchors": ["gcl/mt.cc: gcl_allocQNode, gcl_freeQ, gcl_copyQ, parseQ, parseQTerm, gcl_freeEnv, Mt::infix_expression, Mt::~Mt"]}
{"id": "C86", "title": "A search server gives each query its ranking, one passage at a time", "statement": "Clients connect to a search server one after another and send lines; every line gets one answer, in order. A query gets a name that was never given before and the best passage of all collections; each later request for the next passage of that name, by whatever client and with whatever requests in between, gets the passage after the last one given, until there are no more. The passages are those of the rankings of the collections, each with the number of its document, best first. A snippet is up to two hundred tokens of the passage around the match, which is marked. A document is found by its number, with its text or its fields in order. No request and no client can end the server.", "quantifier": "every set of collections, every history of clients and lines, every query, every order of the threads of a query, and every way in which sending an answer goes", "why_tests_cant": "the state of the server depends on the whole history of all clients, and its end or a lost passage depends on lines, bytes and connections that a test does not think of", "anchors": ["apps/ssr-server.cc: Server::handle, query, next, document, locate_document, document_text, make_result, snippet, thread_budget, read_line, main"]}
{"id": "C87", "title": "The terminal client shows the passages of the last query and the document of the last passage", "statement": "What is typed at the terminal client of the search server is a query, nothing or @next, or @full. A query shows the best passage of its ranking. Typing nothing or @next then shows the following passages of that query, one at a time, and nothing once they are used up. @full shows the document of the last passage that was shown. This holds whatever was typed before and whatever other clients asked before. After a query that fails or has no passages, none of these shows something of an earlier query.", "quantifier": "every set of collections, every history of earlier clients, every sequence of lines typed before, every query and every sequence of requests after it", "why_tests_cant": "what a line shows depends on all earlier lines through two remembered names in the client and the rankings kept in the server; the wrong answers come from particular orders of success and failure", "anchors": ["apps/ssr-client.cc: main, print_record", "apps/ssr-server.cc: Server::handle, query, next, document"]}
{"id": "C88", "title": "Duplicate passages are reported once, under the first name of their group", "statement": "A file of duplicates has one group of passage names on each line; the first name of a line stands for the whole group. Reading the file gives exactly the pairs of other names and first names that the file has, and a file that is not of this form is refused. A run that is written with such a list has, for each passage, the name that stands for it, each such name once, in the order of the ranking and at the place of its best passage.", "quantifier": "every file of groups, every list of pairs, every ranking", "why_tests_cant": "files are arbitrary bytes and may have many groups; which names are lost depends on the line ends, on empty lines and on how groups share names", "anchors": ["apps/collection.cc: duplicates_TREC_CAst", "apps/treccast20.cc: main (writing of a run)"]}
{"id": "C89", "title": "All paragraphs of a CBOR file reach the index, and a damaged file is reported", "statement": "A file in CBOR that has, perhaps after a header, an array of paragraphs, each with a name and a body of texts and links, gives the index each paragraph that says something, once, in order, under its name, with its texts separated by blanks and its link targets as keywords at the end. A file that is cut or that has other things in it is reported as such, reading it ends, and a paragraph that the index refuses is reported.", "quantifier": "every header, every list of paragraphs with bodies of any nesting, every way to write them in CBOR with integers, texts and arrays, every point where the file may be cut, every item that is not read", "why_tests_cant": "the meaning of a text depends on its depth and place in nested arrays of known or unknown length, each of which has many encodings; the wrong results need a cut at a particular point or an encoding that the tests do not use", "anchors": ["apps/collection.cc: collection_TREC_CAR, from_CBOR, CBOR_size, CBOR_text, CBORBuild"]}
{"id": "C90", "title": "Collections with a document on each line reach the index whole", "statement": "For each of the collections that have a document on each line (tab-separated passages, web pages, passages and documents in JSON, newspaper articles in JSON), reading a file adds every document, in the order of the lines; names, titles, texts, addresses and numbered paragraphs are marked over exactly their words, and the document over exactly its own parts. A line that is not a document is reported and does not end the program.", "quantifier": "every file, every number of documents with texts of any length, every index before it, every way the tokenizer counts words, every result of the JSON parser", "why_tests_cant": "marks depend on the addresses of everything added before; the wrong ones come from texts without words, from the last line of a file and from fields of other types, which test files do not have", "anchors": ["apps/collection.cc: collection_TREC_MARCO, collection_TREC_WaPo2, collection_c4, collection_MSMARCO_V2, collection_CAsT2022_preprocessed", "src/simple_builder.cc: add_text_, add_annotation_"]}
{"id": "C91", "title": "The tool that merges static shards makes one shard of the given ones, or changes nothing", "statement": "Given two or more static shards of one index whose sequence numbers follow each other, the merging tool writes, beside the first, one shard that has exactly what the given ones have, in order, under a name that says exactly their numbers; it refuses shards that are no complete sequence or that do not fit together, and files that are no shards. No file that was there is changed, and when the tool fails no file is new.", "quantifier": "every number of shards with any contents, every range of sequence numbers, every set of files and of names", "why_tests_cant": "the decision depends on the ranges of all the shards together, on their directories and on what other files are there; tests try a few lists that fit or do not", "anchors": ["apps/merge-hazels.cc: main, sibling_path, hazel_name", "src/hazel.cc: Hazel::merge, Hazel::get_sequence, hazel_sequence_range, merged_activated_hazel_dna"]}
{"id": "C92", "title": "Learned sparse vectors count as they are given", "statement": "The program that adds vectors to an index gives every document that a record names exactly the positive weights of its record, at the document and under the term, and passes over records that are not usable; when it cannot save them it says so and adds none. The program that ranks takes for every topic exactly the positive weights of its query, and prints the answer to each topic once, whole, for any number of threads and any order in which they run.", "quantifier": "every file of records and of queries, every set of documents and identifiers, every number of threads and every interleaving of them", "why_tests_cant": "a vector goes astray only if an identifier is part of another one or the types of numbers are unusual; the threads' interleavings cannot be enumerated", "anchors": ["apps/splade-annotate.cc: main", "apps/splade.cc: main", "gcl/parse.cc: SExpression::expand_phrases", "src/annotator.h: Annotator::annotate"]}
{"id": "C93", "title": "The run of the ranking program says what the ranking is", "statement": "The options of the ranking program may be given in any order and spelling, each sets what it is for and the last one of a kind counts. For every file of queries the program prints, for each topic in the order of the file, exactly the names that the ranking gives for its query, in order, with ranks from 1 and scores that go down, in lines of six fields; a topic without results has one line with a name that is not in any collection. A file with a line that has no topic is refused and nothing is printed.", "quantifier": "every list of options, every file of queries, every topic and every ranking of any length", "why_tests_cant": "the topics, separators and names that break the lines are unusual, and the options form an unbounded language", "anchors": ["apps/rank.cc: main", "src/eval.cc: trec_docno"]}
{"id": "C94", "title": "The command that appends files to a meadow appends each file once", "statement": "The command accepts exactly arguments that are groups of an option for the type of files and one or more files. When all can be appended it ends with 0, and adds the path and the lines of each file that is not in the meadow, in order and as its type says, and nothing else anywhere. However often it is run, with whichever failures, no file is there twice; and once a run ends with 0 all its files are there with their lines, whether earlier runs failed or not. Arguments that are refused change nothing.", "quantifier": "every list of arguments, every meadow, every history of runs with failures at any file", "why_tests_cant": "the histories of runs and failures cannot be enumerated, and files that fail are tested one at a time", "anchors": ["apps/meadowlark.cc: main", "meadowlark/meadowlark.cc: already_appended, append_tsv, append_jsonl, create_meadow, open_meadow"]}
{"id": "C95", "title": "The search for parameters measures each topic once in each round and lists by true means", "statement": "Whatever the number of threads and the order in which they run, a round ends after a bounded number of steps, and then each topic was measured once. What is reported for the round are its parameters and the averages over the topics, for every order. The trials of a topic are the rounds in order, so that the numbers from resampled topics are the averages over the samples of the averages of that very round, and what is called the best for a topic is a round with the greatest value for it. The rounds that are listed first are the best ones and those listed last the worst. A file of queries is accepted exactly when it has a query, all lines are good, and all topics are different and judged. A metric that is accepted can be reported.", "quantifier": "every number of threads, every schedule, every number of rounds, all results, all samples, all files of queries", "why_tests_cant": "schedules of threads and samples are random, and a trial that is filed under the wrong round shows only as slightly different numbers", "anchors": ["apps/parameters.cc: main, magical, bootstrap", "src/eval.cc: mean"]}
{"id": "C96", "title": "The program that makes training lines from preferences gives each pair its question and texts", "statement": "For any questions and any preferences between items that can be found, the program ends with 0 and prints, for each preference and in order, a line that is at its tabs the question, the text of the better item and the text of the other item, without their identifiers. Lines that are bad change nothing for the others; when more than 40 are bad the program ends with 1. A question without a blank refuses the whole.", "quantifier": "all files of questions and preferences, all collections, all positions and numbers of bad lines", "why_tests_cant": "which item is found depends on all the items before it, and the file depends on where the bad lines are", "anchors": ["apps/pref2train.cc: fetch_text, main"]}
{"id": "C97", "title": "The program that extracts segments prints for each line the title and text of the item that it names", "statement": "For lines of a run, or of topics and identifiers, whose items are all there, the program ends with 0 and prints, for each line whose item has a title or a segment and in order, a line that is at its tabs the topic, the identifier and the passage: the first title in the item, a full stop and the first segment in the item, without quotes, and never a title or a segment of another item. An item that is not there ends the program with 1 after the output for the lines before.", "quantifier": "all collections, all inputs, all items with or without titles and segments", "why_tests_cant": "which title comes next depends on the whole collection, and an item without a title is followed by one that has one", "anchors": ["apps/rag2024-extract.cc: strip, main", "src/core.cc: split_re"]}
{"id": "C98", "title": "The programs that answer questions with threads print each run whole, and ask what is in the question", "statement": "For every number of threads and every order in which they run, the output of the programs for conversations is that of the questions in some order, unmixed: the lines with a label are the results for its question, in order of rank from 1 on, once. A run of random results gives each label the same number of results, and none twice. The query for a question is its words without the stopwords, in order and as often as they are there; the weight of a stem is the sum of the weights of its terms.", "quantifier": "all questions, all rankings, all numbers of threads and all schedules", "why_tests_cant": "the threads print in an order that differs from run to run, and a mixed line or a doubled word changes only the effectiveness", "anchors": ["apps/treccast21.cc: main", "apps/treccast22.cc: main", "apps/trecdl21.cc: main"]}
{"id": "C99", "title": "The command that builds an index builds from all the files that are named, and the command that annotates a meadow takes its arguments as written", "statement": "The build command takes exactly arguments that are options, the kind of the collection, --files and names. It builds from each file at or below a name once, save those called readme; a name at which there is nothing, or below which something cannot be read, is refused and nothing is built. When it ends with 0 there is an index of all these files. The annotation command takes options in either form, a query and at most two more arguments; the last value given for a key counts.", "quantifier": "all arguments, all filesystems, all steps that may fail", "why_tests_cant": "trees of files and lists of arguments are without bound, and a file that was left out is not reported", "anchors": ["apps/simple.cc: main, trec_build, marco_build, marco2_build, json_build", "apps/walk.cc: walk_filesystem", "apps/forage.cc: main"]}
{"id": "C100", "title": "What is shown for a query is its first solutions, what is listed is all of them, and a run has no duplicates", "statement": "The query shell shows the first 24 solutions of a query in order, each with its value and with its text on one line: whole when it is short, its first and last tokens when it is long. The program that lists containers prints each container once, in order and on one line, and ends. The program for conversations prints for each query the first 1000 different results, each under the first name of its duplicates, ranked from 1 on.", "quantifier": "all sets of solutions, all values, all texts, all rankings and all groups of duplicates", "why_tests_cant": "the loops go on from the address of the last solution, and a solution that is skipped or shown twice depends on all the addresses", "anchors": ["apps/fluffy.cc: main", "apps/containers.cc: main", "apps/treccast20.cc: main"]}
{"id": "C101", "title": "What is fed to an index is the records of its source, and a text made for other programs is the words of its document on one line", "statement": "The program for passages makes a paragraph of every line of its files, in order, with the name and the whole text under marks over exactly these. The program for dumps gives the scribe exactly the items of the dump, in order, without the commas and brackets around them. The program that adds texts to a list of names prints, for each name that is found, one line: the fields of the list and then the text of the document, with its words in order, a dash for each tag, and no tabs, ends of lines or repeated blanks.", "quantifier": "all files of lines with tabs, all dumps of items on lines, all lists and all documents of texts and tags", "why_tests_cant": "where a line, an item or a tag ends depends on every character, and so does which blanks are kept", "anchors": ["apps/treccast21-build.cc: add_collection, main", "apps/wikidata-build.cc: main", "apps/dagstuhl-trec45.cc: main"]}
{"id": "C102", "title": "A command that counts terms counts what it was asked to count and keeps what it was given", "statement": "When the command that counts terms ends with 0, the warren keeps the stemmer, the query for documents and the query for names that were given, and all parameters that were not given are what they were. With no other query the terms counted are those of the documents; with one more they are those of that part of the documents; with several they are those of each field, in the order given. When the command fails, nothing has changed. What the command that sets a parameter has set is what it prints when asked.", "quantifier": "all warrens with any parameters from earlier commands, all arguments, all sets of queries that are understood and all parameters that cannot be set", "why_tests_cant": "what is counted depends on parameters that earlier commands left, and on which of many steps failed", "anchors": ["apps/tf-df.cc: main", "apps/set.cc: main", "src/ranking.cc: tf_df_annotations, tf_field_annotations", "src/stats.cc: content_hopper", "src/field_stats.cc: FieldStats::make"]}
{"id": "C103", "title": "What is printed for a question or a topic is its own results, with passages around them, ranked from 1 on", "statement": "The program for questions reads a label and a question from each line, asks for the words of the question that carry meaning, each as often as in the question, and prints for each question its results in order, ranked from 1 on, each with a passage: in its document, of the length of the window where the document is long enough, with the whole result where it fits, on one line and in one field. The program for topics prints a line for each result, with its name, ranked from 1 on, and at least one line for each topic. The program that adds texts to a list of passages prints each line with the text of the passage that it names.", "quantifier": "all windows, results and documents, all lines, all lists of words and all sets of names", "why_tests_cant": "where a passage begins and ends depends on four addresses and a window, and the words asked for depend on every question", "anchors": ["apps/qap.cc: main", "apps/mt.cc: main", "apps/dagstuhl.cc: main"]}
{"id": "C104", "title": "Judgements have levels by their own file, and a changing collection goes on only when every query has been answered", "statement": "In the example of a changing collection, the level of a document for a topic is the last one that its file of judgements gives it, over the largest of that file: above 0 and at most 1. After the documents of a phase are in the collection, the program goes on to the next phase when, and only when, each query has been answered with that collection, and this always comes to pass.", "quantifier": "all files of judgements, all numbers of queries and phases, all schedules of the threads", "why_tests_cant": "the order in which threads rank, print and clear flags is not fixed, and each file of judgements changes the levels of the ones before", "anchors": ["apps/trec-example.cc: load_qrels, load_all_qrels, main"]}
{"id": "C105", "title": "A command that weighs terms weighs what it was asked to, keeps how it did so, and leaves other burrows alone", "statement": "When the command that weighs the terms of a burrow ends with 0, the terms of the documents that it was given are weighed by the stemmer that it was given, also unstemmed and by inverse document frequency if and only if that was asked for, and the parameters of that burrow say so. When it fails, nothing has changed. No other burrow changes.", "quantifier": "all arguments, all burrows on the disk, all stemmers, all queries that are or are not understood, all failures to set a parameter or to commit", "why_tests_cant": "options come in many combinations, and a failure may come after any of eight steps that change the burrow", "anchors": ["apps/tf-idf.cc: main", "src/ranking.cc: tf_idf_annotations", "src/warren.h: Warren::set_stemmer, Warren::set_default_container"]}
{"id": "C106", "title": "Threads that add and erase files leave exactly the files that a phase should have", "statement": "In the example of a changing collection several threads add the files of a phase while another erases files of earlier ones. When all have ended, the collection has the files that were to be added and those that were there and not to be erased, each once; in the end it has those of the last two disks but for those to be left out. This end always comes, after the same number of steps.", "quantifier": "all lists of files, all numbers of threads, all schedules, all ways in which names are made into tokens", "why_tests_cant": "threads take files from a queue in an order that is not fixed, at the same time as files are erased", "anchors": ["apps/trec-example.cc: main (scribe_worker, erase_worker, phases)", "src/scribe.cc: scribe_files"]}
{"id": "C107", "title": "The example queries compute what the SQL beside them says", "statement": "The example program for JSON prints for ratings their least, average and greatest value, for results the number of each, for books each title with each author, and for a year the titles of the books of that year; the year, month and day that it marks are those of the text, in four, two and two digits.", "quantifier": "all lists of ratings and of texts, all titles, files and marks, all dates in the given formats", "why_tests_cant": "an average or a count is over any number of solutions, and a wrong one looks like a right one for many lists", "anchors": ["apps/json-examples.cc: example1, example4, example6, example8, annotate_books, annotate_city_inspections, annotate_companies, annotate_profiles, annotate_trades, months"]}
{"id": "C108", "title": "A query is evaluated with the judged documents of the collection, at their addresses and with their levels", "statement": "In the example of a changing collection, a document that was added is marked for a topic if and only if it was judged for it, at the address where it starts and with the level that it was judged with. The table that a ranking is evaluated with has these documents with these levels, and as many documents as were judged: those that are not in the collection are there at addresses without text.", "quantifier": "all judgements, topics, files, lists of documents and of their names, and numbers of judged documents", "why_tests_cant": "a measure for a ranking looks plausible whichever documents it counts as relevant, and which are there depends on what has been added and erased", "anchors": ["apps/trec-example.cc: main (scribe_worker, query threads), invert_qrels", "apps/dynamic-test.cc: main"]}
{"id": "C109", "title": "A command that builds an index says 0 exactly when the index was written with all its files", "statement": "A command that builds an index from collections ends with 0 if and only if the index was written, in the burrow that it was given or the default one, with every file that it was given, whole and in the order given; otherwise it ends with another status and no index is written. Files after the first that is refused are not looked at. Without files nothing is built.", "quantifier": "all arguments, all burrows, all numbers of files, all files that can or cannot be read, all failures to make a directory or to write the index", "why_tests_cant": "a failure may come at any of the files and steps, and a command that ends with 0 after one of them looks as if it had built the index", "anchors": ["apps/c4-build.cc: main", "apps/treccast20-build.cc: main", "apps/treccast22-build.cc: main", "apps/jsonl.cc: main, simple_scribe, bigwig_scribe", "src/scribe.cc: scribe_jsonl"]}
{"id": "C110", "title": "The queries of a file of topics are those that it has", "statement": "When the example or the test of a changing collection reads a file of queries, each line of which has a topic and a query after a separator, every topic has the last query that was given for it; a file is refused if and only if one of its lines has no topic, no separator or no query.", "quantifier": "all files, all numbers of lines, all topics and queries, all tables of queries before it", "why_tests_cant": "a line that is split at the wrong place gives a topic and a query all the same", "anchors": ["apps/trec-example.cc: load_queries", "apps/dynamic-test.cc: main", "apps/idx-timing.cc: main"]}
{"id": "C111", "title": "A text file is added to an index whole or not at all, with its lines marked over exactly their words", "statement": "The command that adds text files to a changing index commits each file whole, with a mark over the words of each line that has any and one over the words of the file, or leaves nothing of it. It ends with 0 if and only if every file was committed; when one fails, those before it are committed and those after it are not looked at.", "quantifier": "all files, lines and numbers of words, all failures to open, read, append, annotate or commit, all arguments", "why_tests_cant": "a failure may come at any line of any file, and the marks depend on the words of every line before", "anchors": ["apps/scratch.cc: main, append_file"]}
