# A Lean 4 model of Cottontail

Everything in `lean/Verif/` is about a *model* of the C++ sources in `/repo`.
Nothing is compiled or run from `/repo`; every model definition cites the file
and lines it was read from, and says where it simplifies.

## Layout

* `lean/Verif/<Area>/Model.lean` and siblings – the model, function by function, with citations
* `lean/Verif/<Area>/Spec.lean`   – small independent specification (where one is needed)
* `lean/Verif/<Area>/*.lean`      – helper lemmas
* `lean/Verif/Props/*.lean`       – the property theorems, the witnesses of what fails, and the
  examples showing that hypotheses are met by concrete cases
* `properties.jsonl`              – the properties in English
* `MANIFEST.json`                 – property → theorem names and status
* `seeded/LOG.jsonl`              – what happened when the model was mutated
* `tools/axioms.py`               – regenerates the axiom table at the end of this file

## Trusted base

1. **Lean's kernel** (Lean 4.33.0). No `sorry`, no `native_decide`, no `bv_decide`, no axioms of our
   own. `decide +kernel` is used for some concrete witnesses and for finite facts about bytes; it asks
   the kernel, not compiled code.
2. **Lean's three standard axioms** `propext`, `Classical.choice`, `Quot.sound`, at most. Which theorem
   uses which is listed at the end.
3. **The reading of C++ into Lean.** No tool connects the two. The model was written by reading the
   sources; each definition names the lines it models. The mutation log shows what the theorems notice
   when a definition is changed, not that the definition is right.
4. **What lies below the model**, taken as given:
   * the file system: `rename`, `link`, `remove` are atomic, a completed call stays done after the
     process is killed. Loss of power (the order in which the kernel writes pages) is modelled only in
     C29, where any subset of the writes since the transaction began may be lost, each possibly torn.
     Nothing in the code calls `fsync`, so C21, C22, C26 and C35 are about killed processes.
   * mutexes: a critical section is one step. Unlocked reads that race (listed below) are noted, not
     modelled.
   * zlib: a compressor is a pair of functions; where one that restores its input is needed this is a
     hypothesis of the theorem. The repository's own compressors (`null`, `bad`, `post`, `tfdf`) are
     modelled byte by byte.
   * `std::map`, `std::vector`, `std::sort`, `std::string`, `std::regex` do what the standard says.
   * memory is never exhausted, and `int64` overflow is excluded by hypotheses or shown not to happen
     where the statement says so.

## Modelling conventions

* `addr` (int64) is `Int` with the explicit constants `minfinity = -2^63`,
  `maxfinity = 2^63-1`. Where hoppers add to an address the model uses a checked
  addition whose out-of-range result is a distinct outcome (`none` = undefined
  behaviour); the theorems show it does not happen.
* `fval` (double) is modelled by its 64-bit pattern read as an int64 (this is
  exactly what the overloads taking `addr *n` do); `0.0` is pattern 0.
* Mutable objects are states; methods are functions `State → Option (Result × State)`;
  loops are fuelled with more fuel than there are addresses, and the theorems show the
  fuel never runs out.
* Division by zero, reads outside an array and dereferencing null are `none`.
* Locks are modelled by atomic steps: every critical section is one step of a
  transition system, so theorems about "every interleaving" are inductions over
  arbitrary step sequences.
* The file system is a finite map from names to contents; `rename`, `link`,
  `remove` are atomic steps; a crash is stopping between two steps.

## What is modelled, and what is not

| code | model | not modelled |
|------|-------|--------------|
| `src/hopper.*`, `src/array_hopper.*`, `gcl/gcl.cc`, `gcl/vector_hopper.cc`, `gcl/materialize.cc` | `Hopper/*`, `Gcl/Model`: every hopper class with its state | `TfHopper` (no override of interest) |
| `gcl/parse.cc`, `gcl/optimizer.cc`, phrases | `Gcl/ParseModel`, `Gcl/Optimize`, `Gcl/Phrase`, `Gcl/Grammar` | |
| `gcl/mt.cc`, `gcl/mt.h` | `Mt/*` | memory in `Mt/Heap.lean` only, where calls are one after the other and memory does not run out; a pointer into the text is the rest of the text; bytes above 127 are no letters |
| `src/simple_posting.*`, compressors `post`, `tfdf`, `null`, `bad` | `Store/Posting*`, `Store/Post*`, `Store/Tfdf*`, `Store/Bytes` | zlib |
| `src/fiver.cc`: annotator, index, builder, merge, pickling to names; appender and text | `Store/Index*`, `Store/ShardMerge`, `Text/Fiver`, `Txn/*`, `Pickle/*` (bytes of a pickled shard) | buffering of the stream |
| `src/bigwig.cc`, `src/fluffle.h`, `src/committable.h`, `src/owsla.*` | `Txn/*`, `Sched/*` | parameters of DNA; unlocked reads |
| `src/scribe.cc` `scribe_files`, `scribe_jsonl`, `commit_all` | `Scribing/*` | verbose output; a document given up in the middle |
| `src/porter.cc`, `src/porter.h` | `Stem/*` | `isupper` and `islower` are those of the C locale, and give false for bytes above 127 |
| `src/cache_gate.h`, the cache of `src/simple_idx.cc`, `HazelTxt::obtain` | `Cache/*` | ejection (not compiled in); failing reads of the index; the cache of static shards in `src/hazel.cc` 255-312 |
| `src/hazel.cc`: file format, index, lookup, merge with checkpoints; shard names | `Hazel/*`, `Names/*`, `Sanitize/*` | opening one shard (`make`) |
| `src/ascii_tokenizer.cc`, `src/utf8_tokenizer.cc`, `src/tokenizer.h` | `Text/Ascii`, `Text/Utf8`, `Text/Words` | the generated table of character classes (a parameter) |
| `src/simple_txt_io.*` | `TxtIO/*` | |
| `src/simple_txt.cc`, `src/simple_appender.cc`, text half of `src/simple_builder.cc` | `SimpleText/*` | |
| `src/simple_annotator.cc`, `src/simple_idx.cc`, index half of `src/simple_builder.cc` | `Static/*` | failing temporary files |
| transactions and recovery of `src/simple_warren.cc`, `simple_appender.cc`, `simple_annotator.cc` as changes of files | `Crash/*` | temporary files; the failed states |
| text of static shards: `hazel_write_txt_blob` (`src/fiver.cc`), `HazelTxt` (`src/hazel.cc`) | `HazelText/*` | its caches (for these see `Cache/*`); the blob in the file is C25/C26 |
| `src/json.cc`, `src/json_txt.cc` | `Json/*` | `json::parse` (a parameter), rounding of `std::to_string` |
| readers and writers of `src/working.cc` | `Stream/*` | |
| `ssr_ranking`, `top_results`, `parallel_ranking` of `src/ranking.cc`, `allowed_threads` of `src/core.cc` | `Rank/*` | scores are an arbitrary type with an order; threads share nothing, so their schedule does not appear |
| `rrf_fusion`, `build_tiers`, `tiered_ranking`, `merge_results`, `icover_ranking` of `src/ranking.cc` | `Rank/Combine*`, `Rank/Tiers*`, `Rank/Cover*` | scores and weights are an arbitrary type with an order; the tokenizer is the list of its words |
| `bm25_ranking`, `bm25`, `maybe_add_container` of `src/ranking.cc`, `src/tf_hopper.h`, `TfHopper` of `src/field_stats.cc` | `Rank/Wand*`, `Rank/Tf*` | weights and scores are exact rationals; where the statistics come from |
| `meadowlark/tf-idf_forager.cc`, `forage` of `meadowlark/meadowlark.cc`, `tf_annotations`, `tf_df_annotations` of `src/ranking.cc`, `src/df_stats.cc`, `meadowlark/tf-idf_stats.cc` | `Terms/*` | tokenizer, stemmer and text are a function from addresses to tokens; features do not collide; totals and scores are exact; the label of a forager is C47 |
| `meadowlark/forager.cc`, `TfIdfStats::make` of `meadowlark/tf-idf_stats.cc` up to its parameters | `Label/*` | a position in a string is the rest of the string; `skip_value` is a parameter; the map of parameters is a list of its entries |
| `append_jsonl`, `append_tsv` and the workers of `forage` of `meadowlark/meadowlark.cc`, as threads | `Append/*` | a step is what happens under one lock or between two; whether a line is accepted and a transaction ready is any function of the thread and its lines; creating clones does not fail |
| `split_lines`, `split_tsv` of `src/core.cc`; the appending and annotating of `append_tsv` | `Tsv/*` | per thread, with the lines it has (C48); nothing is refused; a feature is a name, not its hash; staged addresses from 0 |
| `src/read_gate.h` | `Gate/*` | opening and closing the file; the mutex is fair enough that a step is taken at all |
| `src/fastid_txt.cc` | `Fastid/*` | zlib (a parameter that must give back what it took); failing writes; the parameter that says there is a file |
| `already_appended` of `meadowlark/meadowlark.cc` | `Paths/*` | the tokenizer (a parameter), the translation of an interval (a parameter) |
| featurizers (`hashing`, `tagging`, `json`, `vocab`) | `Feature/*` | keys of two gigabytes and more |
| `src/recipe.cc`, option strings of `src/dna.cc` | `Recipe/*` | |
| `eval`, `med`, `mean`, the grades of `load_trec_qrels` in `src/eval.cc` | `Eval/*` | numbers are exact, logarithms are weights given by a parameter; see also the rows for `Judge/*` and `Eval/Tbg.lean` |
| `product_ranking`, `lmd_ranking`, `random_ranking`, `ranking_parameter` of `src/ranking.cc`, `src/parameters.cc` without `random` | `Rank/Daat*` | scores are an arbitrary type with an order; a double given as a parameter is a rational; differences of addresses are unbounded |
| `src/ranker.cc` without `trec`, the tokenizer in `Stats::make`, the flags of `src/idf_stats.cc` | `Pipe/*` | `std::stof`, random draws, rankings and feedback are parameters; weights are any type with an addition; a double given as a parameter is a rational |
| `trec` of `src/ranker.cc` | `Trec/*` | what a worker prepares may fail with any error; the times are left out |
| `qap` of `src/ranking.cc` | `Qap/*` | from the passages on; numbers are not bounded; counts of words and logarithms are parameters |
| `HazelIdx` of `src/hazel.cc` as many threads use it, `OwslaCache` of `src/owsla.h` | `HazelRead/*` | what is done under the lock is one step; the bytes are in C25 |
| `tf_field_annotations` of `src/ranking.cc`, `FieldStats` of `src/field_stats.cc` | `Fields/*` | annotating does not fail; `std::stof` is any function; how parameters are kept |
| `tf_idf_annotations` of `src/ranking.cc`, `IdfStats` of `src/idf_stats.cc` | `Idf/*` | the file of annotations is a list; annotating does not fail; arithmetic is exact; the flags (C63) |
| `src/dna.cc`, parameters of `SimpleWarren` and `Bigwig` | `Dna/*` | a file is its bytes; a device works, refuses, writes a part, or does not rename; a stemmer is called what it was asked for; one thread |
| `apps/fiver2hazel.cc` | `Convert/*` | a shard is its kind and range; names are not parsed again (C23); reading the description and making components; each operation is one step |
| `bigwig.cc` (`clone_`, `start_`, `end_`), `json_txt.cc`, `txt.cc` (`wrap`), `simple_txt.cc` (`clone_`) | `Clone/*` | what a list of shards says is a parameter (C27, C39); the index of a reader is its list of shards (C15, C18); a stemmer is its name |
| `ranking.cc` (`rsj_prf`, `kld_prf`, `qa_prf`) | `Feedback/*` | numbers are exact; text, tokenizer, index, statistics and what sorting does among equals are parameters |
| `simple_builder.cc` (`sort_annotations`, `check_annotations`) | `Extsort/*` | what `std::sort` does and which writes fail are parameters |
| `builder.cc`, `builder.h` | `Inhale/*` | the disk, the shell that runs a command, `gzip`, and what builders do with a step are parameters |
| `hazel.cc` 1651-1812, 1911-2024, 2090-2201, `warren.cc` 72-113 | `HazelDna/*` | which featurizers, tokenizers and stemmers can be made, and the bytes of index and text, are parameters |
| `scribe.cc` 98-235, `committable.h`, `annotator.cc` 58-80 | `BuilderScribe/*` | the addresses that `append` sets; locks; the null scribe |
| `featurizer.cc`, `tagging_featurizer.cc`, `vocab_featurizer.cc`, `wrapping_featurizer.cc`, `tokenizer.cc`, `compressor.cc`, `simple_txt.cc` 62-136, `simple_idx.cc` 25-122 & 182-196, `simple_builder.cc` 217-426 & 696-722, `simple_warren.cc` 26-57 & 88-91 | `Parts/*` | the vocabulary's counts; the null index; whether the text is JSON; the parts for adding to a burrow; sizes of files |
| `txt.h` 48-55, `fiver.cc` 260-262 & 309-338, `hazel.cc` 1052-1066, `bigwig.cc` 246-274 & 573-584, `json_txt.cc` 95-97, `fastid_txt.cc` 153 | `Extent/*` | threads take turns at single accesses to memory |
| `bigwig.cc` 396-533 & 597-660 & 1421-1474, `warren.cc` 18-60 & 116-140, `stemmer.cc` 11-25, `meadowlark/meadowlark.cc` 25-63 | `Burrow/*` | the shards of the burrow (C01, C70) are left out; directories can be made |
| `working.h` 77-163, `working.cc` 341-371, `bigwig.cc` 349-381 & 1364-1408 (texts and files), `fiver.cc` 461-471 & 640-651 & 714-720 | `Working/*` | the shell, `rm`, `mv`, `mkdir` and `ls` are modelled for the forms used; paths are not resolved; calls do not fail |
| `meadowlark/forager.cc` 229-350 | `Member/*` | positions are the bytes from there on; the depth of the stack is not bounded |
| `src/unicode.h`, `src/utf8_tokenizer.cc` 105-129, 315-357 | `Unicode/*` | the whole of both tables; the lock and that the tables are set up once are not modelled; the rest of the generator (`utf8_tables`) is not |
| `src/eval.cc` 16-135 | `Judge/*` | bytes are characters; `atof` a parameter; maps are lists; opening the file is not modelled |
| `src/eval.cc` 288-317 | `Eval/Tbg.lean` | exact numbers, the decay a parameter |
| `apps/ssr-server.cc` | `Server/*` | sockets (what comes, and how sending ends, is given); nlohmann's parser and printer and `json_translate` (parameters); terminal, times, start of the program |
| `apps/ssr-client.cc` | `Server/Client` | sockets and their failures, `readline`, printing to the terminal |
| `apps/collection.cc` 15-67, `apps/treccast20.cc` 154-178 | `Collect/Duplicates` | opening of files, the search that gives the ranking |
| `apps/collection.cc` 205-434 | `Collect/Cbor` | opening of the file, what the builder does (C37 and others), the assertion in `add_id` |
| `apps/collection.cc` 70-201, 436-561 | `Collect/Lines` | opening of files, the JSON parser (a parameter; its exceptions are as documented by the library), failures of the builder |
| `apps/merge-hazels.cc`; `src/hazel.cc` 1911-2016 `Hazel::merge`, the decisions | `MergeTool/Model` | the checkpoint files beside a shard, failures while writing (C25, C26), the layout of what is merged |
| `apps/splade-annotate.cc`, `apps/splade.cc` | `Splade/Model` | the JSON parser, the parser of queries and the tokenizer (parameters), failures of `annotate`, `product_ranking` (C62), the names that are printed for documents |
| `apps/rank.cc` | `RankTool/Model` | opening files and the burrow, the pipeline (C58 to C65; a function here), the threads of `trec` (C64), what is written to the standard error |
| `apps/meadowlark.cc` | `MeadowTool/Model` | what the calls do in a meadow (C48, C49, C52, C80; outcomes and a list of items here), directories that cannot be read or written, crashes, programs at the same time |
| `apps/parameters.cc` | `Tune/Model` | pipelines and evaluation (C58 to C62; functions of the topic here), arguments and files that cannot be opened, what is printed of a trial, rounding, how samples are drawn (all samples here) |
| `apps/pref2train.cc` | `PrefTool/Model` | how a phrase and `>>` are evaluated (C01 and after; the first item with the phrase here), identifiers with quotes, what is written to the standard error, arguments |
| `apps/rag2024-extract.cc` | `ExtractTool/Model` | hoppers and texts (C01 and after; lists of intervals here), arguments, what is written to the standard error |
| `apps/treccast21.cc`, `apps/treccast22.cc`, `apps/trecdl21.cc` | `CastTool/Model` | the rankings, feedback and fusion, hoppers and texts, arguments, the lines that trecdl21.cc prints |
| `apps/simple.cc`, `apps/walk.cc`, `apps/forage.cc` | `BuildTool/Model` | links that lead back, the order of the directory iterator (any), what the collections do (C75, C89, C90), messages |
| `apps/fluffy.cc`, `apps/containers.cc`, `apps/treccast20.cc` | `Browse/Model` | arguments, the line editor, values shown as addresses, feedback and measures, the debugging lines in runs |
| `apps/treccast21-build.cc`, `apps/wikidata-build.cc`, `apps/dagstuhl-trec45.cc` | `Feeds/Model` | arguments, the builder (C90), the scribe (C77 and after), the queries for names and documents (their solutions are lists; a name with a quote gives no query, and a null pointer) |
| `apps/tf-df.cc`, `apps/set.cc` | `Settings/Model` | the options, opening the warren, how parameters are kept (C69) and terms counted (C46, C67) |
| `apps/qap.cc`, `apps/mt.cc`, `apps/dagstuhl.cc` | `Answers/Model` | arguments, rankings, the tokenizer, the expressions of topics (C61), threads, the line editor |
| `apps/trec-example.cc` | `Phases/Model` | `load_qrels` and the flags and semaphore between phases; not the rankings, the threads that add and erase, annotations of judgements (C108), `load_queries` (C110) |
| `apps/tf-idf.cc`, `src/ranking.cc` (order of steps of `tf_idf_annotations`) | `Weights/Model` | the whole command; not messages, nor failures to create a temporary file |
| `apps/trec-example.cc` (threads that add and erase) | `Workers/Model` | queues, phases and what is erased; not failures, annotations for judgements or counts of terms |
| `apps/json-examples.cc` | `Examples/Model` | examples 1, 4, 6 and 8 and the parts of dates; not the other examples, times, or arguments |
| `apps/trec-example.cc` (judgements of documents) | `Marks/Model` | the marks for a file and the table for a topic; not the transaction around them, names that are in no document, or the ranking |
| `apps/c4-build.cc`, `apps/treccast20-build.cc`, `apps/treccast22-build.cc`, `apps/jsonl.cc` | `Builds/Model` | the whole commands; not what is read (C77, C89, C90), exceptions or messages |
| `apps/trec-example.cc` (`load_queries`), `apps/dynamic-test.cc` and `apps/idx-timing.cc` (queries) | `Queries/Model` | the reading of queries; a file is its lines |
| `apps/scratch.cc` | `Scratch/Model` | the whole command; not messages, nor that merging is turned off |

Not modelled at all: random draws,
the other programs in `apps/`, and `ai/`.  They are clients of the API modelled here; the quality of a ranking is
not a logical property, but that the best are returned is (C44).

## Properties: what is proved and how

* **C01–C04** (queries). `HopperOk` says a hopper's state is consistent with one list of solutions; every
  method of every class keeps it and answers as a declarative specification says; any sequence of calls
  by induction. C02 refines each operator to minimal intervals over sets; C03 is "never `none`".
* **C05, C06** cursors of posting lists, union over shards with lazily refilled queues.
* **C07_partial** link in full; merge except the end returned by `uat`/`ohr`.
* **C08, C09, C37** optimizer, printer/parser, phrases: structural induction.
* **C10, C11** compressors and posting files: round trips on byte lists.
* **C12–C15** committed annotations, merging of postings and shards, erasing.
* **C16–C22** two-phase commit, the burrow as a transition system with writers, readers and workers,
  crash at any step, recovery; `commit_all` over several warrens.
* **C23, C24** shard names, and which shards are kept on opening.
* **C25, C26** static shards: opening the bytes of a file; interrupted merges resume to the same bytes.
* **C27, C28, C40** tokenizers as scanners; words, tags and entities, each with its place, as an inductive relation that is shown to be functional (`CutBytes`, `CutPlaces`); appended text read back through any shards and merges.
* **C29** the chunked store as one byte string, through crashes. **C36** the block map over it.
* **C30, C41** recipes and options. **C31** featurizers. **C33** the shared posting cache.
* **C38** end to end: what a reader sees is a function of the set of committed transactions.
* **C32** files and compressed streams: a writer refines appending to a byte list, a reader refines ranges of it.
* **C42** the index of a static warren after any history: the merge of runs and of old and new files keeps
  "the files hold exactly the newest annotations" as an invariant; lookup is proved against the bytes.
* **C35** a transaction as stages of file operations; `Old` and `New` are invariants of every torn state that
  the recoveries lead back or forward from; the text part is the invariant of C29.
* **C34** a JSON value as a mutual inductive type and RFC 8259 as a relation; the scribe appends a list of texts
  and annotates ranges of it, both by induction on the value; reading a range is C27, and turning the texts back
  is a loop invariant of `json_translate`.
* **C43** the file of a dynamic shard as the bytes `pickle` writes to a device with `room` bytes: a stream takes a
  prefix of what it is given, reading a posting is monotone in what follows, so a cut posting is an assertion or the end.
* **C44** `Rank/Spec` says what a ranking is without mentioning hoppers: `Results` are the containers' sums and
  passages, `Top` the best of them. Invariant of the loop over two hoppers: what has been counted is exactly the solutions
  before the current one in the current container, and everything dropped so far has `depth` rivals at least as good
  among what is kept (`Enough`), which survives sorting, cutting, the threshold and the union over ranges.
  Scores are abstract (`Scores.Lawful`): nothing about arithmetic is used but that sums of weights are positive.
* **C45** the sum of weights bounds what a document can score, so whatever lies before the pivot is below the target
  (`findPivot_some`); the invariant is that of C44 (`Enough`) with the documents before the frontier. `Rank/WandSpec` is the
  exhaustive sum. `TfHopper` implements the documents with a term (`withTf`), by the specifications of the two hoppers in it.
* **C46** every program's annotations are shown to be one explicit list (`runNotes`) by induction over the documents, with the
  maps as functions of what was counted (`tally_under`); `Recorded` is the specification, stable under union of disjoint
  documents and permutation, which covers threads. `C46_bm25_partial` joins it with C45.
* **C47** round trip: the parser is run over what the writer writes, one entry at a time, with any rest after it (`json_read`);
  what may follow is characterised exactly (`Blank`). `C47_stats_partial` joins it with C27, by which what is read is the label
  and what follows it up to the next token.
* **C48** an invariant of every schedule: lines taken so far are, as a multiset, what the threads have appended or hold
  (`Inv.taken`), unless one failed; `done`, `failed` and the threads' places fit together. A measure that every step lowers
  bounds all schedules (`C48_ends`).
* **C49** lines, fields and words are given by inductive relations and shown to be what the splitting yields. The rows by
  induction over fields and lines, with the address of the appender (`C27`) as the place; that all is found, from `C12_kept`.
* **C50** a relation of steps, and an invariant: permits are conserved, and if a call sleeps there are at least as many calls
  that are awake or about to notify as there are free permits. A measure that steps lower and spurious wakeups raise by one.
* **C51** the file is written and parsed as bytes, on top of C04 (the ids are the solutions) and C10 (the post compressor). The
  search has the invariant that the value, if there, is within the range that is left.
* **C52** the query text is the printed form of a tree, so C09 parses it; C37 says where the phrase is; the loop is like that of C04.
  The match of a text and a path is characterised as a decomposition of the text.
* **C53** a file is removed exactly if it is not kept, and what is kept does not depend on what was already removed; so any part of
  the removals may have been done. The scan for sources is compared with a description of a gapless run of ranges.
* **C54** each search is characterised by what it finds and what its failure excludes. The workers are a transition system over a
  list of blocks (a free shard, or the shards of one merge); a potential (four per unit of weight, a fiver weighing two and a
  static shard one) decreases with every step; "quiet implies nothing to do" is an invariant of every step but a failure.
* **C55** the warren is a set of arbitrary refusals; by induction on the list of files, what was committed is the image of an initial
  segment. The loop over a file of lines is reduced to one over the lines of a cut text.
* **C56** the specification rewrites words (lists of letters); the model moves the indices `j` and `k` over a buffer. A
  representation predicate relates them step by step. Reading the byte before the buffer is an input of the model, so that one
  proof covers both "whatever it is" and "it must not be read".
* **C57** transition systems with any number of threads: the gate, the cache with the threads that fill it, and the
  double-checked chunk of text, each with an inductive invariant; the answers are compared with the file by replaying the history
  of calls and resets. Progress is a measure that the threads' own steps decrease.
* **C58** refinement: fusion as a sum over ranks, tiers as the first occurrences in the concatenated complete rankings (by induction
  over the tiers, from the theorem on one ranking, C44), the tiers of a query as all sublists in groups; the texts of the tiers go
  through the grammar of C09.
* **C59** invariants of the nested loops: what is kept is the best of the candidates offered so far; each round of the inner loop
  finds a tight interval, and any interval with as many of the words that begins at or after the present position is not before it.
* **C60** invariants of the loops against closed forms. That no ranking gains more than the ideal one: sums of the first `k` grades
  are compared through a threshold, then weighed by summation by parts. That no grading makes a greater difference than the
  judgements of `med_qrels`: both scores become sums over addresses, and the grades are chosen address by address.
* **C61** the scanner and the parser against words and a grammar given as inductive relations: soundness by induction on the fuel,
  completeness by induction on the derivation, with a bound on the fuel from the length of the text. The text that is printed is
  that of a tree of the other parser, so its round trip (C09) and its meaning (C01, C02) are reused.
* **C62** the loop with the invariant that every term stands at its first passage from here on and that enough is kept of the
  passages before; no arithmetic law is used, since the order of the terms fixes the order of the sum. What the scores mean is
  proved apart, with exact numbers and any increasing function for the logarithm.
* **C63** the splitter against an inductive definition of a text made of words; what the stages do as a relation on queries whose
  words have their weights from the start, and a simulation of it by the program, which splits the query when it has to.
* **C64** workers as a transition system with one step for each critical section; an invariant (what each worker has stored so
  far), a measure that every step makes less, and that some worker can always move.
* **C65** the program after its passages are found, with the sort as a parameter; the selection by induction on the sorted
  candidates, weights by C63's lemma about sums, distances by an invariant of the loop over the words of a fragment.
* **C66** a transition system in which each annotation is pushed in a step of its own; the invariant says that what is pushed and
  what is still to be pushed make up the posting, and that the gate is open only when nothing is left.
* **C67** the loop over documents refines a list of annotations that is written down in one piece; its members are told apart by
  their features. Each field's hopper is only known by what it implements, so that any query will do; reading is by C45 and C46.
* **C68** as C67, with annotations over whole documents; that none hides another is the existence of a list for each feature. What is
  read after several transactions is by the union of C01.
* **C69** reading a file of lines is mapping newlines to blanks (`readDna_written`), which commutes with taking a map apart
  (`cook_flat`); then a map of keepable values is read back as one that means the same by the round trip of C30, and histories are by
  induction with transitivity of meaning the same.
* **C70** a shard that is found covered is a run of shorter ones, so that by induction on its length each shard is a run of shards that
  are not removed (`resolved`); this holds whatever part of them has been removed already. Taking the longest shard each time finds a
  run if there is one, provided a longest shard always ends where some shard of the run ends (`covered_complete`), which is so for
  nested ranges, and also after a run of the program, where every shard is a run of those that remained (`rest_of`).
* **C71** an invariant of all handles (`HandleOk`): which recipe each has, that it is on exactly if it holds a list of shards, and that
  its text reads that list; a handle that is neither ended nor started keeps its list (`run_leaves`). For simple warrens the copy meets
  the invariant of readers of C36 (`ReaderOk`), with an empty memo.
* **C72** the tables are what adding up a list of words with numbers gives (`get_addAll`), which for texts with different words is the
  number of texts that have the word, or the sum of what each adds (`total_docs`). Choosing the first result of each container is a
  specification of its own (`firsts`). With probabilities between 0 and 1 fewer texts are expected to have a word than do
  (`expected_lt`), so that scores are positive and the best one can be divided by.
* **C73** an invariant of the queue of files (`Queue`): each is sorted, together they have what was read, all other files made since are
  gone and the rest is as it was; merging keeps it (`queue_merge`), and failure keeps the files beside those made since (`Beside`).
* **C74** quoting is undone by the shell's rules for words, by induction on the name (`words_quoted`); the stream's loops give what there
  is for every size of buffer (`sgetn_left`, `sgetn_length`, `readLoop_eq`).
* **C75** every history has a longest part that was carried out; what comes after it changes nothing (`performAll_failed`, `performAll_finalized`).
* **C76** settings that mean the same are written the same way (`freeze_same`), so comparing the written forms without ranges and parameters
  decides whether settings mean the same (`normalize_iff`); the loop accepts exactly consecutive ranges (`checkLoop_some`); what is
  written has no empty line and is found again in the file (`freeze_lines`, `fileDna_ok`), and numbers survive (`stoll_toString`);
  merging in steps writes the same bytes (`merge_steps`).
* **C77** each call passes on what it means (`call_builder`, `calls_builder`), so C75 says what was carried out; the flags of a part say
  whether its last transaction was closed (`started_iff`).
* **C78** what is nested in a recipe is shorter than the recipe, so the bound on nesting does not matter (`make_fuel`, `check_fuel`); making
  depends on what name and recipe mean (`make_same`, `idx_same`, `txt_same`, `tokenizer_same`), which storing preserves (C76); every
  option leaves a description that can be kept (`interpret_described`), since what it puts in are bytes of the option (`cook_mem`).
* **C79** the chunks of a shard cover exactly the addresses of the tokens of its transactions (`group_covers`), so the first and last chunk
  bound them and the lengths of all chunks add up to their number (`countFrom_ok`, by induction over the chunks that are left); shards are in
  order of address, so the first and last shard with text give the range of the warren (`first_range`, `last_range`).  What is remembered is
  part of the state and stays right (`PartOk`).  For threads each access to a shared member is a step; an invariant says that only the
  holder of the lock writes, and that the range is right whenever `range_valid_` is set and nobody writes (`step_inv`), and once right it stays
  so (`settled_step`).
* **C80** an invariant of a warren of shards and its file (`Inv`): the file describes it, memory agrees with the file, and opening the file
  gives parts that do the same as those it was made with.  It holds for what options and parts write (`inv_makeBigwig`, `from_parts`), is kept
  by setting a parameter, because all other settings mean the same afterwards (C69) and parts made from descriptions that mean the same are
  the same (`parts_same`), and is kept by opening, which sets parameters too (`inv_open`); then by induction over what happens (`inv_later`).
* **C81** a file system as a function from paths, and a shell that reads a text into commands of words, with quotes, stars, comments and one
  redirection, and carries them out (`parse`, `command`).  Reading is by induction on names (`parse_bare_plain`, `parse_single`), effects are
  stated for every path (`rm_cases`, `mkdirs_cases`, `line_effect`).  A script is a sequence of independent moves (`settleAll`), each of
  which can be repeated (`stopped`); the states at which `commit_all` can stop are described by an invariant (`Mid`, `Scripted`).
* **C82** the grammar of RFC 8259 as mutually inductive relations between texts and values, exponents included (`Writes`); passing over a value
  is proved by their recursor, with what may follow and with twice the length as fuel (`skip_all`).  A string is read as some string that is the
  one written if it matters (`body_chars`, `Same`), so that other members may have any escapes.  What is read is then a fold over the
  members (`takeAll`), which is compared with the last member of each key (`takeAll_eq`).
* **C83** the 3009 runs and 1457 folds of src/unicode.h are data (`Unicode/Data.lean`, generated from the text between the braces).  What is computed
  over them by the kernel is finite because the tables are: their sums, that sources rise, that each folded code point has a fold
  (`folds_cover`).  All else is by induction over any tables: offsets and what is read from them (`read_offset`), ranges of one action (`constOn_spec`),
  runs and what they stand for (`runs_expand`), and that a text is cut in the same way if its characters are replaced by ones with the same part in
  words (`cut_alike`).
* **C84** the query that is put together is a sentence of the grammar of C09 (`query_writes`), so that what is found is the first solution of the tree it
  writes (`translate_first`); its phrase is the words of the number one after the other (C37), and these are at the addresses of a document's number iff
  they are part of its words (`consecutive_infix`).  The fields of a line are cut by induction in both directions (`row_fields`, `After.next`).
  Together with C60 this gives what a file as a whole leaves (`C84_file_partial`).  Time-biased gain (C60) is a sum over places (`gained_sum`).
* **C85** the code of C61 once more, on a memory of cells in which every misuse is an outcome of its own (`none`).  Queries, definitions and lists of free
  nodes in memory are predicates with the addresses they use (`Tree`, `EnvTree`, `Chain`), and each function has a triple (`Gives`): it ends, keeps a frame of
  addresses, and leaves just the addresses of its result.  The parser is by induction on the same fuel as the parser of values (`parses`); a definition
  is found and replaced by splitting the list around it (`finds`).  Histories of all threads and converters are then by induction (`run_holds`), and
  what one converter shows does not depend on the others (`sensible_run`).
* **C86** a server is a state (the rankings of all queries, with a place in each, and the next name) and a function from lines to answers (`respond`).  What a line
  can do to the state is an inductive relation (`Effect`); names never repeat (`runs_known`) and the answers to `next` are the pages of a ranking in order
  (`runs_pages`) by induction over histories.  The ranking of a query is C44 for each collection and a stable merge (`bestOf_ok`); the hopper for a number is the
  one of C84 (`den_tree`), and looking through the collections is by induction (`locateLoop_first`).  Ends of the program by exceptions and signals are outcomes.
* **C87** a session is a fold over the typed lines of the client's two names and the server's state (`session`).  What is shown after a query is an inductive
  relation (`Turns`) over the ranking of C86; `session_turns` is by induction over the lines, with the query's place in the server as the invariant, and
  `session_append` cuts a session at the query.
* **C88** the reader of groups is a recursion over the bytes as the code has it; the files are a relation (`WritesGroups`) between groups and texts, and
  `C88_accepted` says that exactly these are accepted.  The run is compared with the first places of the names (`firsts`), which has its own specification.
* **C89** CBOR is a relation between trees and bytes (`Writes`, every width of every number allowed); `item_ok` is by induction over that relation (with the
  lists of elements, up to a break, up to the end of the file, and counted, in the same induction) and says that reading is a walk over the tree.  The walk is
  then compared with `Para.content`, which only speaks of trees.
* **C90** what should be in the index is a tree of texts with marks over them (`Part`), whose addresses are sums of the numbers of words before them; the
  steps of each collection are shown to add such a tree (`with_text`, `with_mark`), and `run_all` adds those of all lines.  The JSON parser is a parameter.
* **C91** a disk is a function from paths to shards or other files; `Complete` says inductively that ranges follow each other, and the loop of the program is
  shown to accept just those (`rangeOf_iff`).
* **C92** what a file says is an inductive relation between its lines and pairs of documents and vectors (`Says`); the loop is compared with it by induction.
  The runs of threads are interleavings of the lists of their jobs (`Runs`), which are permutations of the jobs of all (`runs_perm`), and these of all topics
  (`jobs_flatten`).
* **C93** what options mean is an inductive relation between arguments and changes of the settings (`AllWritten`), which the loop is compared with by
  induction; the run is read back as fields (`wordsOf`, which has nothing to do with how it is printed) and compared with a list of entries.
* **C94** the arguments by a grammar (`Groups`), shown to be what the loop accepts; the histories by an inductive set of states (`Reached`), whose invariant is
  how often a path and its lines are there.
* **C95** the threads of a round as a transition system with an invariant (measured, being measured and waiting are the topics) and a measure that each step
  lowers by one; the means by C60 for a permutation of the topics; samples by using C60 twice.
* **C96** files as grammars of lines, read back at newlines and tabs; the bound on bad lines by induction over the lines with the count so far.
* **C97** the title and the segment of an item by an equivalence with what an interval in another is; the input as a grammar of lines; whether an identifier can be asked
  for by the parser of C09.
* **C98** the threads as the pool of C95, whose finished topics are a permutation; the output line by line over that order; the query read back at its blanks.
* **C99** trees of files by mutual structural induction against an inductive relation "a file below"; the two grammars of arguments as equivalences.
* **C100** the loop over `tau` by an invariant that splits the solutions into those before and after the address; the run by induction with what was seen.
* **C101** passages by the lemmas of C90; items by reversal of the line; texts by the equality of words before and after each of the three passes, with any word that is open.
* **C102** the command as a chain of steps that each go on or end; what a status of 0 means for the chain, step by step; the fields by a round trip of joining and splitting.
* **C103** windows by cases and linear arithmetic; the words of a query by induction with the word that is open; the questions by an invariant on the map of queries; ranks by induction.
* **C104** judgements by a fold that keeps the last positive level and the largest; the phases as a transition system with an invariant on flags, semaphore and what was printed, and
  the way on by induction on the number of flags.
* **C105** the command as a function from arguments and a disk of burrows to a status and a disk; requests as their usage has them, printed to arguments and read back; what was done by running through the steps.
* **C106** a transition system of two queues, the files held by threads and the collection; an invariant on who has which file; a measure that each step makes smaller by one.
* **C107** aggregates as folds over lists of solutions, by induction with the state of the fold generalised; dates by computing `substr` on texts of the given form.
* **C108** marks as a filtered list of names; the first document that ends after a name is the one it is in, by induction on disjoint documents; a table as a fold of insertions that keeps addresses distinct.
* **C109** commands as functions from arguments and a system that may fail at each step to a status and what was built; the files added by induction up to the first that is refused.
* **C110** a table as a function, by induction on the lines with the table generalised; lines by splitting at the first separator.
* **C111** the loop over lines by induction with an invariant: the next address is the number of words so far, and the file is marked from 0 to the one before it as soon as there is a word.
* **C39** a static text holds a list of pieces (`Holds`), and every piece ends between transactions or before a
  token (`Keeps`), which the writing loop and merging keep; what the tokenizer finds in the pieces up to there is
  what it finds in the whole text (`Cuts`), so reading refines the reading of dynamic shards (C27).

Out of scope (cannot be expressed or not logic): compression ratio, running time,
the C++ memory model below the level of mutex-protected sections, ranking quality.

## Where the code and the English property disagree

Each of these is a theorem about the model with a concrete input ("witness"), unless marked *read*, which
means it was only read in the source and lies outside the model.

Queries
* `C07_merge_uat_wrong` – `||` returns the wrong end from `uat`/`ohr` when operands have equal starts.
* `(# 0)` is accepted and yields a hopper of width 0 (*read*); a link follows a missing value to address 0 (*read*).
* `C09_trailing_text_ignored` – text after a complete query is ignored.
* *read*: the comparators given to `std::sort` and the queues are not irreflexive in places.

Postings and index
* `C10_post_domain`, `C11_negative_never_written` – the `post` compressor never finishes on a negative address.
* `C10_tfdf_component_loses` – the component form of `tfdf` loses values outside its domain.
* `C12_equal_starts`, `C12_duplicates` – annotations of one feature with equal starts: non-minimal and
  duplicate intervals are kept, because the sort compares starts only in places.
* `C13_empty_list` – merging with an empty posting in the middle concatenates unsorted lists.
* `C14_nested_erase` – an erased range inside another revives content. `C15_merge_visible` – merging shards
  with erasures changes query answers.
* *read*: annotations with a feature ≤ 0 are silently dropped; the static builder sorts by start only, and
  drops all annotations if no text has a token.

Transactions
* `C16_fast_commits_a_no` – with `-DNDEBUG` (`make fast`) commit without ready takes effect.
* `C19_straddling` – an annotation that starts below the staging address and ends in it is not relocated at
  its end.
* Five `C21_*` witnesses – merge outputs taken for written when they were not; abort before ready removes a
  file named from uninitialised numbers.
* `C22_readers_see_part`, `C22_fallback_not_atomic` – `commit_all` is not atomic to concurrent readers, and its
  fallback path is not atomic to crashes.
* *read*: sequence numbers of aborted transactions are reused after reopening; their gaps block merging of
  static shards; `try_merge` reads shared state unlocked; nothing is synced to disk before it is linked.

Shards
* `C23_unpadded_accepted`, `C23_reversed_range` – the name parsers accept more than is generated.
* `C25_blank_line` – a DNA with an empty line makes a static shard unreadable. `C25_negative_zero`.
* `C26_top_feature_lost` – a static merge drops the largest feature number.
* *read*: `ls` matches names by prefix (`fiverX…`), which makes opening fail.

Text
* `C27_open_tag`, `C27_open_sequence` – a tag or UTF-8 sequence left open at the end of an appended text swallows
  the separator and the start of the next. `C27_to_the_end` – translating past the last address of a shard
  returns its trailing text. `C27_gap_merged`, `C27_tokenless_merged` – merging shards changes what is returned
  for gaps and for text without tokens.
* `C28_utf8_nul` – `split` stops at a NUL, `tokenize` does not.
* `C29_fast_abort`, `C29_late_abort`, `C29_clone_unflushed` – truncation sits inside `assert` and is compiled out by
  `make fast`; abort after a failed ready; a clone of an unflushed store reads nothing. *read*: an uninitialised
  number is written to the `.limits` file when a transaction begins on an empty store.
* `C36_doubled`, `C36_doubled_unreadable` – appending a word with a capital after its first letter ("US") at an
  address that is a multiple of 1024 writes two block map entries: `translate` divides by zero, or, in a warren of
  several blocks, the warren cannot be opened any more. The builder is right: the appender forgot one assignment.
* `C36_nul` – after a text with a NUL the next transaction reuses addresses.

Static warrens
* `C42_nested_depends_on_limit` – of two nested annotations in one transaction, which can be found depends on how
  many annotations the annotator keeps in memory; with the default it is the *outer* one.
  `C42_twice_in_one` – one given twice is kept and counted twice. `C42_builder_drops` – the builder drops all
  annotations when no text has a token. `C42_builder_order` – and needs them in increasing order.
* `C35_window` – at `ready` the new block map may still be in a stream's buffer; it is closed after the text has
  been committed. A crash between leaves neither old nor new contents, whichever way one recovers.
* `C35_wrong_flag`, `C35_cannot_tell` – nothing on disk records whether to recover for commit or for abort.
  `C35_unrecovered` – a warren opened between the renames of `idx` and `pst` reads one feature's list for another's.
* *read*: nothing in `src/` or `apps/` calls `recover`; opening does not. `SimpleAppender::abort_` in the failed state
  leaves `txt.lock`. A new `Working` on the directory runs `rm -f temp.*` and restarts its numbering
  (`src/working.h` 92-120), so opening a warren removes the temporary files of a running transaction.
  `SimpleIdx` looks for `.NEW` files that nothing writes, and its `reset_` is never called; `Committable::ready`
  remembers a failed vote as a vote.

Streams
* `C32_no_offset` – a compressed file has no offsets: reads must begin where the last one ended. `C32_file_wrap` –
  places near 2^63 wrap around. `C32_odd_recipe` – an unknown recipe is read as "compressed". `C32_unclosed` – what a writer
  that is not closed had not filled a block with is lost.

Static texts
* `C43_full_disk` – `pickle` does not look at the stream after the postings: on a full device it reports success, and
  the file opens without an error and without the last features. `C43_full_disk_assert` – or it cannot be opened.
* `C43_failed_file` – a file cut in its text is not refused: `unpickle` goes on with bytes that were never read.
* `C44_overlap`, `C44_overlap_threads` – with overlapping containers a passage counts for the first one only, unless a
  range border separates them, so the ranking depends on the number of threads. `C44_clone_fails` – a worker that cannot
  clone the warren makes the whole ranking empty, without an error.
* `C45_negative` – a term with a negative weight makes BM25 ranking stop before the best document.
  `C45_fields_backward` – over fields, `uat` and `ohr` of a term's hopper look for the document that ends before the
  start of the right one, and answer with its frequencies.
* `C46_gap` – `tf_df_annotations` takes the tokens of a batch of documents to be at consecutive addresses: a gap between two
  documents makes it read past the end of its tokens. `C46_range_end` – `tf_annotations` counts the terms of the last batch
  only if a document ends exactly at the end of the range; with the default range no term is counted, and the totals go to
  the address `minfinity`, from where no hopper returns them.
* `C47_merged` – a text is read up to the next token of its shard. The label of one forager, merged before that of another,
  is read with the other's first bytes `{` and `"`, which the parser refuses: statistics that could be had before a merge cannot
  be had after it. `C47_unnamed` – `forage` takes the empty name for "tf-idf", but labels it differently, so that its statistics
  are refused, not found, or mixed with those of "tf-idf".
* `C48_tsv_path` – `append_tsv` commits the path before the lines: after a failure the file counts as appended, without any of
  its lines. `C48_forage` – a failing `forage` leaves the statistics of those threads that had committed.
* `C49_trailing`, `C49_past` – appending a text without tokens yields the empty range (n+1, n), and `append_tsv` takes the
  maximum of the ends: a row whose last field is empty is annotated as reaching into the next row. If that is of one token,
  the index drops the first row, as it is not minimal. A file that ends so has a path that reaches into the next text.
* **C51** `fastid` copies each text with `strcpy`, which ends at a NUL: what follows it in the text is not in the file
  (`C51_nul`). With an id at a negative address it never returns (`C51_negative`). `search_addr` keeps the middle of its range
  in an `int`; from about 2^32 ids on it reads before the array (`C51_many`).
* **C52** `path_match` takes a blank after the path for its end: once `./a b` is appended, `./a` counts as appended (`C52_prefix`).
  It skips blanks before the path, so a path that starts with one never matches (`C52_leading_blank`). A path without a word is
  looked up as a feature and not found (`C52_no_words`). In the query language a backslash after a backslash still escapes, so the
  query for a path that ends in a backslash does not parse (`C52_backslash`).
* **C53** a merge reported as restartable need not have been begun from the sources reported with it (`C53_other_sources`), and two
  reported merges may exclude each other (`C53_conflict`). The merge worker drops reported merges that overlap the one
  it takes up (bigwig.cc 1125-1155), so they are not both carried out in one process.
* (not modelled) `Working::ls` and the removal of `temp.*` pass the burrow's path to a shell without quotes: a burrow whose path has
  a blank is listed as empty (src/working.cc 341-371).
* **C54** the number of an aborted transaction between the two smallest static shards stops all merging of static shards
  (`C54_gap_blocks`): the smallest pair is found, refused, and no other is tried. In an index without a directory a fiver of at
  least 256 MiB is picked for conversion again and again, and no pair is merged any more (`C54_memory_blocks`). A merge that failed
  is not tried again before the next commit or abort (`C54_failure_forgotten`), and opening a burrow starts no worker.
* **C55** `scribe_files` begins a transaction before it knows whether the file can be read, and goes on without closing it: a
  missing file makes the next one fail (`C55_missing_stops`), and a missing last file is reported as a success with a transaction
  left open (`C55_missing_last`). The empty content of a file has the range [n+1,n], so that `file:` covers the first token of
  whatever is added next (`C55_empty_file`). `scribe_jsonl` drops a last line without a newline (`C55_last_line_lost`), and
  goes on to dereference a null scribe after setting the error. No failure is followed by an abort (`C55_blank_line`).
* **C56** `step2` and `step4` look at the letter before the last one, and `step4` at the letter before `ion`, without asking
  whether there is one: `b[-1]` is read for words that have shrunk to one letter, and for `ion` (`C56_underflow`; exactly these:
  `C56_bounds`). The answer never depends on it. `stem_` copies the word up to its first NUL but stems as many letters as the word
  has, and so uses letters of an earlier word (`C56_nul`).
* C58: `rrf_fusion` keys its sums by the first address of a passage. Two rankings with the passages [5, 20] and [5, 6] are fused into
  one passage with the scores of both (`C58_fusion_conflates`).
* C58: a choice of one word becomes the query `(... w w)`, which asks for the word twice. A query of one word never finds a document
  that has the word once (`C58_once_missed`). (`tiered_ranking` also takes `parameters` and ignores them.)
* C59: `icover_ranking` with depth 0 and two or more words takes `back()` of an empty vector (`C59_zero_undefined`).
* C59: single words are looked at until `depth` occurrences are found, before equal containers are merged. With depth 2 and a word
  twice in the first document and once in the second, only the first is returned (`C59_ones_missed`).
* C59: a word is dropped when the lightest `n` words do not reach the target; with the heaviest it might have. So a lower depth can
  return a worse first result than a higher one (`C59_light_dropped`).
* C60: `trec_eval` computes the reciprocal rank and then stores the average precision under its name (`C60_rr_is_ap`).
* C60: `med` of two empty rankings divides zero by zero (`C60_med_empty_undefined`).
* C60: `mean` erases a measure that the new ranking lacks from the map that it is walking, which is undefined; it is reached exactly
  when a later ranking lacks a measure of the first (`C60_mean_undefined`).
* C60: `load_trec_qrels` divides by the greatest level also if that is zero (`C60_grades_zero_undefined`), and rescales what was
  loaded before (`C60_grades_again`).
* C61: `2 of ("a", "b", "c")` is translated to `(2 "c" "b" "a")`, which `SExpression::from_string` refuses; so is every combination
  of more than one but not all of its expressions (`C61_combination_refused`). `test/mt.cc` expects this text.
* C61: a backslash is no escape in the infix notation but is one in the other, so `"a\" + "b"` comes out as another query
  (`C61_backslash_changes`).
* C61: `x = "a" )` is refused as having extra characters, after `x` has been defined (`C61_refused_defines`).
* C61: a line that ends after `contained` or `not` is refused without setting the error message (`C61_message_stale`); numbers from
  4294967290 on are all 4294967295 (`C61_large_width`); what follows a NUL is not seen (`C61_nul`).
* (not modelled) the destructor of `Mt` does not free the queries of the names; `isalpha` is given negative values for bytes above
  127, which C leaves undefined: the model takes them for no letter.
* C62: `product_ranking` takes its default depth from `Parameters::from_ranker_name(tag)`, which is null unless the tag is one of
  seven names: without a depth it crashes (`C62_depth_undefined`). The function without parameters cannot be used with "splade".
* C62: `lmd_ranking` adds nothing for a term that a passage does not have, where the likelihood has `log(mu) - log(mu + length)`.
  A passage with the whole query can rank below one with half of it (`C62_lmd_reversed`), and a passage all of whose terms are
  common is never returned (`C62_common_dropped`). Of a term that has frequencies but does not itself occur (a stem) the weight is
  `tokens / 0`, and all its passages have an infinite score (`C62_uncounted`).
* C62: `tf_annotations` and `tf_df_annotations` annotate frequencies at the first word only, and `lmd_ranking` takes the length of
  the passage from these annotations: then it is one (`C62_point_annotations`).
* C63: `Stats::make` assigns the tokenizer of the warren inside `assert(...)` (`src/stats.cc:80-81`). `make fast` builds with
  `-DNDEBUG`, and then statistics of kind "idf", "df" and "field" have a null tokenizer: `bm25`, `stem` and `stop` follow it
  (`C63_release_null`).
* C63: `lmd` splits a query with the tokenizer of the warren, every other stage with that of the statistics (`C63_two_tokenizers`).
* C63: `random:ranker` also sets `depth` to 1000 (`C63_random_depth`); put before `depth=...` it does not matter.
* C63: `IdfStats::make` takes a flag only if it can *not* be read (`src/idf_stats.cc:50-57`), so statistics made without idf or rsj
  values are taken to have them (`C63_flags_ignored`).
* C63: `std::stof` accepts trailing text, so `depth=5x` is `depth=5`; and an empty pipeline, or one that begins with a blank, is
  refused with an error that names no stage (`C63_refused`).
* C64: `trec` returns before it clears `results` when there are no queries, so old results stay (`C64_stale`).
* C64: every worker of `trec` reads the pipeline anew, so `random:...` draws once for each thread: which parameters rank a topic
  depends on the number of threads (`C64_own_draws`).
* C64: with `lmd` on frequencies annotated at the first word (C62) every passage is one word long, the identifier does not fit
  and `trec` reports nothing (`C64_point_unidentified`).
* C65: `qap` takes `tokens.size() - length` windows of a fragment, one too few: its last word is never in an answer
  (`C65_last_window`); a length of 0 reads `tokens[-1]` (`C65_zero_length`).
* C65: the location of a word after the passage is always 1, since it is first made less and then more (`C65_after`); and
  `where < locations[token]` compares an address with a distance, so the first occurrence of a word counts and not the nearest
  (`C65_nearer`).
* C65: `seen` is looked up but never filled: equal fragments count twice and give the same answer twice (`C65_duplicates`).
* C66: without assertions `fill_hazel_posting` answers a failed read, or a posting that does not decode, with annotations near the
  smallest address; the caller is not told, and the cache keeps them (`C66_bogus`).
* C67: `tf_field_annotations` counts only the first part of a document that a field's query has there: with two authors, the second
  is not counted (`C67_second`). `FieldStats::make` means to use plain statistics when there are no weights, but the text of no
  weights is split into one empty weight, which is an error (`C67_no_weights`); `std::out_of_range` of `std::stof` is not caught
  (`C67_out_of_range`). (Not modelled: when the length of a document cannot be annotated, `tf_field_annotations` returns without
  giving up its transaction, `src/ranking.cc:1739`.)
* C68: `tf_idf_annotations` does not annotate a Robertson and Sparck Jones weight that is not positive, so that an earlier, positive
  weight of the term stays (`C68_stale`); the same for a term that is in no document any more. It annotates counts over whole
  documents under the features that statistics of kinds "df" and "field" use at the first word: as only innermost annotations are
  kept, these hide the new ones, and a ranking finds the old counts (`C68_mixed`). Without documents it succeeds, and the average is
  0/0 (`C68_no_documents`), where `tf_df_annotations` reports an error. (Not modelled: its temporary file stays when it fails.)
* C69: `set_parameter_in_dna` accepts any value. One with a double quote or a backslash, such as a query with a phrase, is written so
  that `cook` refuses the description: from then on no parameter can be read or set, and the warren cannot be opened
  (`C69_quote_lost`, `C69_backslash_lost`). A newline comes back as a blank (`C69_newline`). `write_dna` looks neither at the stream
  after writing nor at `rename`: on a full device the old description is replaced by a part of the new one and success is reported
  (`C69_full_lost`, `C69_unnamed_success`). Reading and writing are not under any lock between programs (`C69_lost_update`).
  `Bigwig::make` sets the stemmer and the container that it has just read, and so writes the description of a warren that is only
  opened; the result is not looked at, so that opening on a full device loses the warren (`C69_big_open_lost`). (Not modelled: the
  null stemmer calls itself the empty string, so that a parameter "null" is written back as empty.)
* C70 (nothing lost, but refused): `fiver2hazel` does not merge where a static shard is inside another and the rest of it is in no
  other, as when a burrow was converted, then used and merged, and is converted again (`C70_grown_refused`); nor where a sequence number
  is missing because a transaction was given up after it was ready (`C70_gap_refused`), which `Bigwig` itself merges over. It fails
  again each time it is run. With overlapping ranges a union may be missed, as only the longest shard is tried (`C70_missed`).
* C71: a copy of a reader of a burrow of JSON shows text as it is stored, with its marks (`C71_json_lost`), as `Bigwig::clone_` does not
  copy the recipe of the text. A text of JSON describes itself with the key `jason`, which nothing reads (`C71_jason`).
* C72: the window of `kld_prf` may pass the end of its container (`C72_past`), and is a word too long at its start (`C72_longer`); `rsj_prf`
  counts a document once for each of its results (`C72_rsj_twice`); `kld_prf` divides by zero in a collection that says one word
  (`C72_nan`), `qa_prf` for the word right after a passage of one word, as its gap is counted two short (`C72_qa_infinite`). A depth of
  0 is one text. `rm3_prf` does nothing (*read*).
* C73: `merge_records` and `sort_records` ask for failure before the stream is closed, so that a disk that is full at the end is not
  noticed: annotations are lost, the input is removed, and success is reported (`C73_full_disk`). An empty file is removed and the name of the
  sorted file is empty (`C73_empty`). After failure temporary files stay (*read*).
* C74: `FileStreamBuffer` does not tell an error from the end of a file, and what `zcat` said at its end is not looked at: a
  directory is an empty text, and a damaged file a shorter one (`C74_cut`). `zcat '-x.gz'` takes the name for options (`C74_dash`).
* C75: `build_trec` reads through the null pointer that `inhale` gives for a missing file (`C75_missing`).
* C76: `Hazel::merge` by names ignores its argument `parameters` (hazel.cc 1753), and `parse_hazel_name` does not compare the two numbers of
  a name, so that `hazel.5.3` and `hazel.4.3` are merged into `hazel.5.3` if the shards say nothing about their ranges (`C76_backward`).
* C77: `BuilderAnnotator::annotate_` does not look at what the builder says and answers yes (scribe.cc 127, `C77_unheard`); `BuilderScribe::abort_`
  does nothing (scribe.cc 206, `C77_abort`); committing or aborting the annotator or the appender drops their builder, and nothing gives it
  back (scribe.cc 132, 171, `C77_annotator`).
* C78: `Compressor::make` does not look at the recipes of most compressors but `Compressor::check` does; the builder uses only the former
  and opening both, so a burrow can be built that cannot be opened (simple_builder.cc 381-417, simple_txt.cc 97, `C78_unopened`); a tag such
  as `[ ]` is rewritten by `freeze` (tagging_featurizer.cc 93, `C78_tag`); `idx:name:simple` passes `SimpleBuilder::check` but is refused by
  `make` (`C78_checked_refused`), and with `txt:[]` `extract_option` reads past the end of a map (recipe.cc 340, `C78_checked_undefined`);
  `Tokenizer::make` dereferences a null pointer for a recipe it does not know (tokenizer.cc 19, 22, `C78_tokenizer_undefined`), and so a
  warren with such a description cannot even be refused.
* (not modelled) `SimpleBuilder::add_annotation_` ignores whether the annotations before it could be written (simple_builder.cc 663); an
  `add_file_size` that is out of range throws an exception that is not caught (simple_idx.cc 78).
* C79: `HazelTxt::tokens_` counts the addresses between the first and the last token whether they have tokens or not (hazel.cc 1052-1056),
  `FiverTxt::tokens_` only those that have (fiver.cc 309-318), so the count, and every ranking computed from it, changes when a shard with a
  gap is converted in the background (`C79_gap`); `FiverTxt::range_` sets `range_valid_` before the range is known and looks at it without
  the lock, so another thread can be given uninitialised values or the first chunk only (fiver.cc 319-334, `C79_race`, `C79_race_chunk`);
  `FastidTxt` does not hand `range` on to the text it wraps and answers 0 to `tokens() - 1` (fastid_txt.cc 153, txt.h 48-55, `C79_wrapped`).
* C80: a `NullStemmer` does not know its name (stemmer.cc 15-16, stemmer.h 37), so opening a warren of shards whose stemmer is `null` sets the
  parameter to the empty text (bigwig.cc 598-599, `C80_null_stemmer`); a stemmer that there is not can be set as a parameter with success,
  and then opening is refused for good (bigwig.cc 525-528, `C80_unknown_stemmer`); `open_meadow` does not look whether there is a warren
  (meadowlark.cc 54-55, `C80_open_meadow_undefined`).
* C81: `Working` hands the directory's name to the shell without quotes (working.h 100 and 103, working.cc 347): a burrow called `my burrow`
  is made as two directories, and opening it removes the file `my` (`C81_blank`); a name with a semicolon runs what follows as a command
  (`C81_command`).  Opening a burrow that is open removes temporary files in use and gives out their names again (`C81_shared`).  After 2^32
  temporary names the first comes again (`C81_temps_wrap`).  `ls` is read by lines (`C81_ls_newline`).
* C82: `parse_string` (forager.cc 202-214) reads an escape from 80 to FF as that byte, which is not UTF-8, and all above as a question mark, so that
  different names and tags are read as the same (`C82_wide`).  `skip_number` accepts `+1` and `01` (`C82_lenient`).
* C83: the circled letters have case and `compressed_folds` has entries for the capital ones, but as symbols they are terms by themselves and are not folded
  (`C83_circled`; `set_fold_actions` only folds what is a token).
* C84: `translate_docno` takes the first document whose number contains the words of the one asked for, so that `doc-1` can stand for `doc-1-2`
  (`C84_longer`); it puts the number between quotes as it is (`C84_quote`).  `load_trec_qrels` takes blanks before a line for an empty topic
  (`C84_leading`, `C84_leading_three`).  `trec_docno` drops quotes and both tags wherever they are (`C84_docno_quotes`, `C84_docno_glued`).
* C85: `parseQTerm` returns without freeing what it has read when a `)` is missing (`C85_missing_close_loses`), and `gcl_freeEnv` frees the names and entries
  of the definitions but not their queries (`C85_destroy_loses`).
* C86: `handle` catches only `json::parse_error`: a JSON line that is not an object, or has a member that is not a text, ends the server by a type error
  (`C86_not_object`, `C86_not_text`), and so does a text that is not UTF-8, by `dump` (`C86_not_utf8`); `send` without `MSG_NOSIGNAL` ends it when a client has
  gone (`C86_hangup`).  `next` counts before it sends (`C86_lost`).  `locate_document` takes a number within another number for a second match (`C86_ambiguous`).
* C87: `print_record` keeps the name of the last query when a query is refused, and the number of the last document when a query has no passages, so that
  Enter and `@full` go on with an earlier query (`C87_stale_next`, `C87_stale_full`); `dump` throws for a typed line that is not UTF-8 (`C87_not_utf8`).
* C88: an empty line ends the reading of `duplicates_TREC_CAst` and the rest of the file is lost without a complaint (`C88_empty_line`); a carriage return
  becomes part of the last name of a line (`C88_carriage_return`); names are replaced once only (`C88_chain`).
* C89: the end of the file counts as the end of all open arrays in `from_CBOR` (`C89_cut`); `collection_TREC_CAR` answers `true` after a parse failure
  (`C89_rest_lost`); bodies must be arrays of unknown length (`C89_definite`); the number of elements of an array is not checked against the end of the file
  (`C89_spin`); the answer of `buildit` is not looked at (`C89_builder`).
* C90: `line.substr(npos)` throws for a line without a tab (`C90_no_tab`); the loops over `find(newline)` leave out a last line without one
  (`C90_last_line`); `collection_MSMARCO_V2` and `collection_CAsT2022_preprocessed` convert fields outside of a `try` (`C90_field`), and only `parse_error`
  is caught around `parse`, not the `out_of_range` for numbers that are too large (`C90_not_json`); `add_text` answers (n+1, n) for a text without words, and
  the collections use the one or the other as an end of their marks (`C90_wordless`, `C90_nameless`).
* C91: `Hazel::merge` opens a file that has the name of its output and answers with it, without a look at the shards it was given: after a crash this is
  right, but the tool reports "merged" for any shard that is there, even one with other numbers (`C91_stale`); nothing compares the directories or the
  origin of the shards (`C91_elsewhere`).
* C92: docids are looked up as phrases in identifiers, so that `r-1` is found in `r-1-2` (`C92_wrong`); a docid with a quote makes a query that cannot be
  parsed, which aborts the transaction of the whole file, and only `json::parse_error` is caught (`C92_lost`); after "commit failed" the program returns 0
  (`C92_unsaved`); `is_number_integer` in the one program and `is_number_float` in the other leave out the other kind of numbers without a word (`C92_fractions`,
  `C92_whole`); `queries[topic]` in the threads inserts topics that have no weights, without a lock (`C92_race`), and mixes queries of one name (`C92_repeated`).
* C93: a line with a tab may have a topic with blanks, and the lines of the run then have seven fields (`C93_blank_topic`); `trec_docno` of a name without
  letters is empty, and they have five (`C93_nameless`); `queries[topic]` keeps the last query of a topic, but the topic is printed each time it is there
  (`C93_repeated`); `-t -1` is refused but `-t " -1"` starts 2^64 - 1 workers (`C93_negative`).
* C94: all files are looked up before the first one is appended (apps/meadowlark.cc 102-113), so a file that is named twice is appended twice (`C94_twice`);
  `append_tsv` commits the path first (meadowlark.cc 311-313), so a table that fails then is never appended, and later runs end with 0 (`C94_lost`); the
  meadow is created before the arguments are looked at, so that `--create --meadow x` makes `a.meadow` (`C94_created`); `C94_crash` is
  `C80_open_meadow_undefined` as it is met from the command line.
* C95: whether a metric is known is looked up in the means of a round, which have an entry `n` for their number (parameters.cc 261); `n` is accepted, 1000 rounds
  are run, and then `metrics.at("n")` of a single topic throws (48): `C95_n`.
* C96: `fetch_text` (pref2train.cc 8-30) looks for the identifier anywhere in an item and drops two tokens, whatever the identifier is (`C96_other`, `C96_short`,
  `C96_long`); tabs are taken from texts but not from questions (69-71, `C96_tab`); the number of bad lines is looked at only before the next line (89, `C96_lenient`).
* C97: the identifier is put into a query as it is (rag2024-extract.cc 65-68): anywhere in an item counts (`C97_other`), and a query that cannot be parsed is a null
  pointer that is used (`C97_unaskable`); `strip` takes the last character of an empty string when the text is one quote (25, `C97_lone_quote`).
* C98: the loop that joins the keywords begins at 0 although the first one is there (treccast21.cc 129-131, treccast22.cc 99-101): it is asked for twice (`C98_doubled`); one
  keyword is too few, and the question is asked with its stopwords (`C98_single`); labels are queued as often as they are read, with one map for their questions
  (`C98_repeated`); a label before a tab may have blanks (`C98_blank`).
* C99: the word `readme` is looked for in the whole path (walk.cc 16, `C99_readme`); `json_build` always fails, after the directory was made and with an empty message
  (simple.cc 70, `C99_json`); nothing to build is a success without an index (28-29, 50-51, `C99_nothing`); names are not compared (`C99_twice`); nothing ends the options of
  `forage` (`C99_dashes`).
* C100: a fraction is printed when what is left after truncation is above 0, which it never is for a negative value (fluffy.cc 94-98, `C100_negative`); `substr` throws for a
  line without a blank, before the test of the line (treccast20.cc 116-118, `C100_no_blank`).
* C101: `substr(npos)` throws for a line without a tab (treccast21-build.cc 16, `C101_no_tab`); `line.back()` of a line that ran out of characters (wikidata-build.cc 40,
  `C101_no_brace`: also `[` with a return after it); refused items are only printed (wikidata-build.cc 42-46, `C101_refused`); a `<` that is no tag blanks its line
  (dagstuhl-trec45.cc 42-56, `C101_less`); `q = p + 2048` is 2049 tokens (dagstuhl-trec45.cc 76-77, `C101_one_more`); `tokens[2]` of two fields (dagstuhl-trec45.cc 33, `C101_two_fields`);
  a name that is nowhere is at the end of the addresses, where `ohr` finds the end again, which is not negative, and the address after it overflows (dagstuhl-trec45.cc 37-75, `C101_nowhere`).
* C102: `tf_df_annotations` takes its `content_query` from the parameter `container` (ranking.cc 856), so that the parameter `content`, which tf-df.cc sets, is not used
  (`C102_content_ignored`); `tf_field_annotations` does use it (stats.cc 133), also when an earlier command set it (`C102_stale`); the stemmer is set before the queries are read
  (tf-df.cc 51-60, `C102_failed`).
* C103: `query = keywords[0]` and then a loop from 0 (qap.cc 106-108, `C103_doubled`); the end of a passage is cut at the end of the document and its start stays (qap.cc 156-158,
  `C103_short`); questions are kept by label (qap.cc 112-114, `C103_same_label`); `i + 1` is printed also after results without a name (mt.cc 93-101, `C103_gap`, `C103_no_line`);
  `p + 4` of a passage that is not there (dagstuhl.cc 40-41, `C103_nowhere`). (Not modelled: `get_parameter` of a key that was never set succeeds, so that the query for names that
  mt.cc 54-55 falls back to is never used.)
* C104: `load_qrels` divides the whole map by the largest level of one file (trec-example.cc 43-45, `C104_divided`, `C104_twice`; by 0: `C104_none_relevant`); a flag is cleared when a
  line is printed, whenever its ranking began (trec-example.cc 437-442, `C104_stale`); with no thread to release it the semaphore is waited for (trec-example.cc 546, `C104_no_queries`).
* C105: `tf-idf` sets the stemmer before it looks at the query for documents (tf-idf.cc 64-73, `C105_failed`); weights are committed before they are described (ranking.cc 1089-1107, `C105_undescribed`);
  without a query for names that of an earlier command stays (tf-idf.cc 78, `C105_names_stay`); `--full --burrow b` is refused (tf-idf.cc 23-47, `C105_order`).
* C106: the file to erase is looked for as one whose name contains the given name as a phrase, without the condition that nothing else is in it that the query for added files has (trec-example.cc 479, compare 300-301;
  `C106_wrong_file`).
* C107: `example1` has the first rating in the total before a loop that begins with it, and counts from 1 (json-examples.cc 35-49, `C107_twice`, `C107_average_partial`); `example8` asks for titles in files, not in
  books, with a mark of the year (json-examples.cc 373, `C107_all_titles`); `annotate_companies` does not make ` 5` to `05` (json-examples.cc 313-314, `C107_unpadded`);
  empty titles and empty authors are looked for as different texts (json-examples.cc 133, 146, `C107_empty_author`).
* C108: every copy of a judged document is in the table, so that it may have more than were judged (trec-example.cc 343-363, 430, `C108_twice`); a name that ends with its file is not looked at, for `q0 < q`
  (trec-example.cc 341, `C108_last`).
* C109: `jsonl` does not look at what `finalize` answers (jsonl.cc 70-71, `C109_unwritten`), and its usage names an option `---bigwig` that it does not have (jsonl.cc 8, 47, `C109_dashes`); `treccast20-build` ends with 0 for
  articles that are cut, for `collection_TREC_CAR` answers `true` (apps/collection.cc 432-433, `C109_cut`).
* C110: the separator is a space, and when there is none it is a space again (trec-example.cc 72-74; a tab in apps/idx-timing.cc), so that lines with a tab are refused or split after the first word of the query (`C110_tab`);
  the query begins with the separator, so that it is never empty (trec-example.cc 80-81, `C110_empty`).
* (not modelled) `Fiver::hazel` appends a newline to the text it shares with readers, without a lock (src/fiver.cc).
* Not modelled: `TfIdfForager::check` accepts every parameter; with an unknown stemmer or tokenizer `Forager::make` returns
  null, which `forage` (`meadowlark/meadowlark.cc:453-455`) dereferences.
* `C39_first_lost` – when the first transaction of a shard has no token and a later one has, the pieces written start
  at the first chunk but the directory counts from 0, and what is read is empty. `C39_to_the_end` – asked up to the
  largest address a static text gives all, a dynamic one does not. `C39_piece_end` – what follows the last token asked
  for is given to the end of the piece only, so its length depends on the piece size.

JSON
* `C34_newline`, `C34_tab`, `C34_nul` – a newline in a string is read as a blank, other control characters come back
  unescaped, which is no JSON, and a NUL ends the text. `C34_noncharacter` – a string with U+FDD5, written as an
  escape, closes the string that holds it. `C34_ligature` – U+FDF0..U+FDFF are replaced by U+FFFD.
  `C34_ascii` – with a tokenizer that does not know the noncharacters an array is annotated beside its elements.
  `C34_encode` – `json_encode` escapes what `json_translate` escapes again.
* *read*: `std::to_string` keeps six decimals, so small numbers read back as 0 and large integers as doubles;
  `json_scribe` catches `parse_error` only, and a number out of range throws `out_of_range`.

Names of things
* `C30_quote`, `C30_backslash`, `C30_backslash_lost`, `C30_key`, `C30_nested_escape`, `C30_unclosed_quote` – freezing
  a map does not escape. `C41_colon`, `C41_empty_value`, `C41_no_value`, `C41_extract_missing`, `C41_quote` – options.
  *read*: an iterator of one map is compared with the end of another in the option code.
* `C31_literal_clash`, `C31_nul_clash`, `C31_nul_cut`, `C31_literal_lost`, `C31_literal_changed` – keys that share a
  feature or do not come back. `C31_json_ligature` – the JSON featurizer drops U+FDF0..U+FDFF, real characters,
  because of `||` for `&&`.
* *read*: `Tokenizer::make` with a bad recipe dereferences null; the JSON text recipe key is misspelt ("jason");
  `Reader::make` compares `recipe == "compressed" || "compression test"`, which is always true.

## Axioms of each claimed theorem

Printed by `#print axioms` (see `tools/axioms.py`); all names are in `Verif.Props`.

* **none**: `C16_fast_commits_a_no`, `C25_blank_line`, `C30_nested_escape`, `C30_unclosed_quote`, `C32_no_offset`, `C32_file_wrap`, `C32_unclosed`, `C32_odd_recipe`, `C48_forage`, `C53_other_sources`, `C53_conflict`, `C55_rested`, `C63_two_tokenizers`, `C63_flags_ignored`, `C65_after`, `C66_count`, `C70_missed`, `C72_past`, `C72_longer`, `C78_compressor_unchecked`, `C78_tokenizer_undefined`, `C78_tokenizer_remade`, `C79_wrapped`, `C89_builder`, `C93_negative`, `C98_single`, `C103_gap`, `C106_wrong_file`

* **propext**: `C07_merge_uat_wrong`, `C09_trailing_text_ignored`, `C10_tfdf_component_loses`, `C12_equal_starts`, `C12_duplicates`, `C13_empty_list`, `C16_contract`, `C16_rounds`, `C23_reversed_range`, `C27_open_sequence`, `C28_utf8_nul`, `C29_fast_abort`, `C29_late_abort`, `C29_clone_unflushed`, `C30_quote`, `C30_backslash`, `C30_backslash_lost`, `C30_key`, `C34_as_it_is`, `C34_sanitize_keeps`, `C34_sanitize_removes`, `C34_newline`, `C34_tab`, `C34_nul`, `C34_noncharacter`, `C34_ligature`, `C34_encode`, `C35_wrong_flag`, `C39_mark`, `C40_determined`, `C41_colon`, `C41_empty_value`, `C41_no_value`, `C41_extract_missing`, `C41_quote`, `C43_full_disk`, `C43_full_disk_assert`, `C46_gap`, `C46_range_end`, `C48_tsv_path`, `C54_memory_blocks`, `C54_failure_forgotten`, `C55_missing_stops`, `C55_missing_last`, `C55_empty_file`, `C55_last_line_lost`, `C55_blank_line`, `C55_commit_all`, `C56_case`, `C56_others`, `C56_nul`, `C59_zero_undefined`, `C63_release_null`, `C64_stale`, `C65_nearer`, `C69_refused`, `C69_interrupted`, `C69_unnamed_success`, `C69_quote_lost`, `C69_newline`, `C69_backslash_lost`, `C70_grown_refused`, `C70_gap_refused`, `C71_jason`, `C75_history`, `C78_compressor_check`, `C78_unopened`, `C78_default`, `C78_checked_refused`, `C78_checked_undefined`, `C79_opened`, `C80_taken`, `C80_meadow_created`, `C80_open_meadow_undefined`, `C82_lenient`, `C84_quote`, `C84_leading_three`, `C86_lines`, `C86_texts`, `C90_unnamed`, `C90_not_json`, `C90_no_tab`, `C90_last_line`, `C90_field`, `C92_all_or_nothing`, `C92_wrong_case`, `C92_repeated`, `C92_passed`, `C93_bad_threads`, `C93_pipeline`, `C94_created`, `C94_crash`, `C95_parameters`, `C96_bad_question`, `C97_passage`, `C97_untitled`, `C97_no_segment`, `C97_strip`, `C97_unaskable`, `C97_lone_quote`, `C99_refused`, `C99_json`, `C99_nothing`, `C99_twice`, `C100_line`, `C100_no_blank`, `C101_words`, `C101_no_tab`, `C101_no_file`, `C101_refused`, `C101_less`, `C101_two_fields`, `C101_nowhere`, `C102_documents`, `C102_content_partial`, `C102_fields_partial`, `C102_failed_counts`, `C102_set`, `C102_set_failed`, `C102_content_ignored`, `C102_stale`, `C102_failed`, `C102_never_set`, `C103_line`, `C103_query_partial`, `C103_doubled`, `C103_one_keyword`, `C103_no_line`, `C103_nowhere`, `C103_weird_stops`, `C104_stale`, `C105_described`, `C105_refused`, `C105_help`, `C105_order`, `C106_each_once`, `C107_months`, `C108_last`, `C109_first_refused`, `C109_cast20`, `C109_nothing`, `C109_jsonl_simple`, `C109_cut`, `C109_dashes`, `C110_empty`, `C111_arguments`, `C111_wordless`

* **propext, Quot.sound**: `C09_round_trip`, `C09_parse_total`, `C09_accepted_is_legal`, `C10_bytes`, `C10_post_domain`, `C11_faithful`, `C14_unaffected`, `C17_history`, `C19_relocate`, `C19_straddling`, `C21_history`, `C21_kept`, `C21_fast_build_loses_commits`, `C21_unwritten_merge_loses_commits`, `C21_late_failure_closes_burrow`, `C21_abort_removes_another_vote`, `C21_empty_transaction_ends_process`, `C22_readers_see_part`, `C22_fallback_not_atomic`, `C23_round_trip`, `C23_round_trip_hazel`, `C23_distinct`, `C23_order`, `C23_sidecar`, `C23_unpadded_accepted`, `C25_written`, `C25_negative_zero`, `C25_marks`, `C27_open_tag`, `C27_to_the_end`, `C27_gap_merged`, `C27_tokenless_merged`, `C30_cooked`, `C30_written`, `C31_json_partial`, `C31_json_marks`, `C31_vocab`, `C31_literal_clash`, `C31_nul_clash`, `C31_nul_cut`, `C31_literal_lost`, `C31_literal_changed`, `C31_json_ligature`, `C32_file_partial`, `C32_full_partial`, `C32_recipes`, `C33_filled_for_good`, `C33_progress`, `C34_encode_chars`, `C34_ascii`, `C35_window`, `C35_cannot_tell`, `C35_unrecovered`, `C36_doubled`, `C36_doubled_unreadable`, `C36_nul`, `C39_clamped`, `C39_first_lost`, `C39_to_the_end`, `C39_piece_end`, `C40_ascii`, `C40_bytes`, `C40_bytes_split`, `C40_bytes_determined`, `C40_table`, `C40_code_points`, `C40_encoding`, `C42_nested_depends_on_limit`, `C42_twice_in_one`, `C42_builder_drops`, `C42_builder_order`, `results_unique`, `C47_apart`, `C47_merged`, `C48_jsonl`, `C48_succeeds`, `C48_fails`, `C48_ends`, `C49_lines`, `C49_unbroken`, `C49_apart`, `C49_past`, `C51_nul`, `C51_negative`, `C51_many`, `C52_backslash`, `C54_picks`, `C54_reports`, `C55_files_partial`, `C55_files_prefix`, `C55_refused`, `C57_gate`, `C57_whole`, `C57_counts`, `C57_cached`, `C57_released`, `C57_chunk`, `C61_one_reading`, `C61_refused_defines`, `C61_backslash_changes`, `C61_message_stale`, `C61_nul`, `C62_point_annotations`, `C63_determined`, `C64_identified`, `C64_point_unidentified`, `C65_answers`, `C65_candidates_partial`, `C65_fragments`, `C65_score`, `C65_last_window`, `C65_zero_length`, `C65_duplicates`, `C66_whole`, `C66_agree`, `C66_once`, `C66_released`, `C66_bogus`, `C66_bogus_shown`, `C66_checked`, `C67_df`, `C67_weights`, `C67_refused`, `C67_no_weights`, `C67_out_of_range`, `C67_second`, `C68_mixed`, `C69_full_lost`, `C69_big_open_lost`, `C71_clone_partial`, `C71_start`, `C71_json_lost`, `C72_window_partial`, `C73_empty`, `C73_full_disk`, `C74_command`, `C76_backward`, `C77_through_partial`, `C77_finalize_partial`, `C77_transaction`, `C77_defined`, `C77_unheard`, `C77_abort`, `C77_annotator`, `C78_check`, `C78_tokenizer_check`, `C78_tag`, `C79_race`, `C79_race_chunk`, `C81_open_partial`, `C81_make_partial`, `C81_blank`, `C81_temps_wrap`, `C81_ls_partial`, `C81_ls_newline`, `C81_script`, `C81_script_again`, `C81_script_names`, `C81_many`, `C82_other`, `C82_skip`, `C82_written`, `C82_wide`, `C83_documents`, `C83_scripts`, `C83_compress`, `C83_generated`, `C84_unset`, `C84_docno_partial`, `C84_docno_quotes`, `C84_docno_glued`, `C85_missing_close_loses`, `C85_destroy_loses`, `C86_lost`, `C86_snippet`, `C86_not_object`, `C86_not_text`, `C86_not_utf8`, `C86_hangup`, `C86_budget`, `C86_missing`, `C87_stale_next`, `C87_stale_full`, `C87_not_utf8`, `C88_run`, `C88_empty_line`, `C89_definite`, `C89_spin`, `C90_marco_partial`, `C90_c4_partial`, `C90_msmarco_partial`, `C90_cast_partial`, `C90_wordless`, `C90_nameless`, `C91_refused`, `C91_kept`, `C91_elsewhere`, `C92_wrong`, `C92_lost`, `C92_unsaved`, `C92_fractions`, `C92_whole`, `C92_race`, `C93_options`, `C93_threads`, `C93_refused`, `C93_blank_topic`, `C94_appended`, `C94_default`, `C94_twice`, `C94_lost`, `C95_trials`, `C95_listed`, `C95_queries`, `C95_queries_text`, `C96_fetch_partial`, `C96_bad`, `C96_stop`, `C96_tab`, `C96_other`, `C96_short`, `C96_long`, `C96_itself`, `C96_lenient`, `C97_run`, `C97_not_found`, `C97_short_line`, `C97_askable`, `C97_find_partial`, `C97_other`, `C98_line`, `C98_cast_query_partial`, `C98_bad`, `C98_doubled`, `C98_blank`, `C99_walk_partial`, `C99_arguments`, `C99_index_partial`, `C99_done_partial`, `C99_steps`, `C99_builds`, `C99_builds_passages`, `C100_shown`, `C100_listed`, `C100_window`, `C100_oneline`, `C100_run`, `C100_distinct`, `C101_passages_partial`, `C101_dump`, `C101_plain`, `C101_listed`, `C101_one_line`, `C101_no_tab_file`, `C101_no_brace`, `C101_one_more`, `C101_outside`, `C103_weird`, `C103_tasks_partial`, `C103_answers`, `C103_topic_partial`, `C103_names`, `C103_with_text`, `C103_same_label`, `C103_some_line_partial`, `C103_before`, `C105_number`, `C105_elsewhere`, `C106_phase_partial`, `C106_disks_partial`, `C106_goes_on`, `C107_year_partial`, `C107_titles`, `C107_authors_partial`, `C107_empty_author`, `C107_iso`, `C107_inspection`, `C107_company_partial`, `C107_all_titles`, `C107_iso_short`, `C107_unpadded`, `C108_marks`, `C108_twice`, `C109_build`, `C109_files`, `C109_zero`, `C109_jsonl_partial`, `C109_unwritten`, `C110_read`, `C110_refused`, `C110_either`, `C111_files`, `C111_command`

* **propext, Classical.choice, Quot.sound**: `C01_history_independent`, `C01_whole_history`, `C02_query`, `C02_query_text`, `C02_all_of`, `C02_one_of`, `C02_followed_by`, `C02_contained_in`, `C02_containing`, `C02_not_contained_in`, `C02_not_containing`, `C02_fixed_width`, `C03_no_stuck_call`, `C04_enumeration`, `C05_any_cursor`, `C06_index_union`, `C06_shard_union`, `C07_link`, `C07_merge_partial`, `C07_merge_same_starts_partial`, `C08_optimizer`, `C09_reads`, `C10_post`, `C10_tfdf`, `C10_tfdf_component_partial`, `C11_post_partial`, `C11_negative_never_written`, `C12_kept`, `C12_minimal_partial`, `arises_good`, `C13_merge_partial`, `C13_grouping_partial`, `C14_hidden_partial`, `C14_hopper_partial`, `C14_nested_erase`, `C15_merge_invisible_partial`, `C15_no_erasures`, `C15_merge_visible`, `arises_merge`, `C17_reader`, `C17_uncommitted_unseen`, `C17_aborted_never_seen`, `C18_stable`, `C17_reader`, `C19_disjoint_ordered`, `C20_nothing_lost`, `C20_no_span`, `C20_output`, `C21_recovery_partial`, `C21_uncommitted_dropped`, `C21_published_durable`, `C22_all_or_nothing_partial`, `C23_accepted`, `C23_kinds`, `C24_kept`, `C24_rejected`, `C24_any_order`, `C24_combined`, `C25_lookup`, `C26_resume`, `C26_contents`, `C26_torn_reachable`, `C26_top_feature_lost`, `C27_append_partial`, `C27_ascii`, `C27_range_partial`, `C27_consecutive`, `C27_tokens`, `C27_merges`, `C27_code_points`, `C27_cursor`, `C27_fresh`, `C27_across_partial`, `C27_within_partial`, `C28_ascii`, `C28_utf8_partial`, `C29_history_partial`, `C29_crash_partial`, `C29_crash_abort_partial`, `C29_commit_recovery`, `C29_readers_see_old`, `C29_clone_partial`, `C30_freeze_cook_partial`, `C30_flat_partial`, `C30_stable_partial`, `C31_distinct_partial`, `C31_translate_partial`, `C31_short_long`, `C31_literal`, `C31_positive_partial`, `C31_long_partial`, `C31_translate_again_partial`, `C31_tags_partial`, `C31_tagged_untagged_partial`, `C32_compressed_partial`, `C32_pieces_flatten`, `C33_cache_partial`, `C34_scribe`, `C34_parts_partial`, `C34_only_partial`, `C35_commit`, `C35_crash_partial`, `C35_back`, `C35_abort_partial`, `C35_locked`, `C35_index_partial`, `C35_sessions`, `C36_build_partial`, `C36_build_ascii`, `C36_history_partial`, `C36_ranges_partial`, `C36_read_partial`, `C36_read_build_partial`, `C36_text`, `C36_utf8_undoubled`, `C36_utf8_partial`, `C37_phrase`, `C38_reader_sees_spec_partial`, `C38_same_answers_partial`, `C39_written`, `C39_merged`, `C39_mixed_partial`, `C39_append_partial`, `C39_range`, `C39_cursor`, `C39_cursor_merged`, `C40_utf8`, `C40_utf8_places`, `C40_utf8_split`, `C41_set_partial`, `C41_recipe_partial`, `C41_name_partial`, `C41_wrap_partial`, `C42_history_partial`, `C42_built_partial`, `C43_kept`, `C43_success_partial`, `C43_failure`, `C43_failed_file`, `C43_transaction`, `C43_transaction_post_partial`, `C44_ssr_partial`, `C44_parallel_partial`, `C44_threads_partial`, `C44_overlap`, `C44_overlap_threads`, `C44_clone_fails`, `lists_exists`, `C44_allowed`, `C45_bm25_partial`, `C45_fields_partial`, `C45_containers`, `C45_negative`, `C45_fields_backward`, `C46_forage`, `C46_whole_partial`, `C46_range_partial`, `C46_totals`, `C46_df`, `C46_bm25_partial`, `C47_label`, `C47_stats_partial`, `C47_unnamed`, `C48_tsv_partial`, `C48_tsv_succeeds`, `C49_fields`, `C49_join`, `C49_whole`, `C49_words`, `C49_rows_partial`, `C49_kept_partial`, `C49_trailing`, `C50_bytes`, `C50_succeeds`, `C50_limit`, `C50_never_stuck`, `C50_ends`, `C51_stored_partial`, `C51_same_partial`, `C51_search`, `C52_decides_partial`, `C52_true_means`, `C52_prefix`, `C52_leading_blank`, `C52_no_words`, `C53_clean`, `C53_covered`, `C53_interrupted`, `C53_again`, `C53_rejected`, `C53_finished`, `C54_converts`, `C54_merges_fivers`, `C54_merges_static`, `C54_workers`, `C54_marks`, `C54_ends`, `C54_settles`, `C54_nothing_missed`, `C54_three_shards`, `C54_gap_blocks`, `C55_jsonl_partial`, `C55_jsonl_prefix`, `C55_jsonl_content`, `C55_jsonl_refused`, `C56_stem_partial`, `C56_bounds`, `C56_underflow`, `C56_shape`, `C57_once`, `C58_fusion_partial`, `C58_fusion_order`, `C58_fusion_conflates`, `C58_tiered_partial`, `C58_tiers_partial`, `C58_search_partial`, `C58_once_missed`, `C59_icover_partial`, `C59_narrow_partial`, `C59_ones_missed`, `C59_light_dropped`, `C60_trec_partial`, `C60_rr_is_ap`, `C60_ndcg`, `C60_rbp`, `C60_med`, `C60_med_ndcg_partial`, `C60_med_empty_undefined`, `C60_mean_partial`, `C60_mean_from_measures`, `C60_mean_undefined`, `C60_grades_partial`, `C60_grades_powers`, `C60_grades_zero_undefined`, `C60_grades_again`, `C60_tbg`, `C60_tbg_swap`, `C60_tbg_more`, `C61_grammar`, `C61_definition`, `C61_refused_partial`, `C61_query_partial`, `C61_answers_partial`, `C61_combination_refused`, `C61_large_width`, `C62_product_partial`, `C62_lmd_partial`, `C62_random`, `C62_parameter`, `C62_defaults`, `C62_weights`, `C62_likelihood_partial`, `C62_lmd_reversed`, `C62_common_dropped`, `C62_depth_undefined`, `C62_depth_range`, `C62_uncounted`, `C63_accepts`, `C63_refused`, `C63_meaning_partial`, `C63_last_partial`, `C63_parameters_partial`, `C63_random_depth`, `C63_depth_shared`, `C64_answered`, `C64_failed`, `C64_threads`, `C64_one_clone`, `C64_ends`, `C64_returns`, `C64_identifiers`, `C64_own_draws`, `C65_weights`, `C65_locations_partial`, `C67_first`, `C67_counted_partial`, `C67_totals`, `C67_idf`, `C67_asked`, `C68_committed`, `C68_nothing`, `C68_kept`, `C68_tf`, `C68_average_partial`, `C68_no_documents`, `C68_idf`, `C68_rsj`, `C68_again`, `C68_stale`, `C69_set_partial`, `C69_text_partial`, `C69_history_partial`, `C69_lost_update`, `C69_big_set_partial`, `C69_big_reopened_partial`, `C69_big_opened`, `C70_kept`, `C70_fresh`, `C70_success`, `C70_removed`, `C70_again`, `C71_simple_partial`, `C72_rsj_partial`, `C72_kld_partial`, `C72_rsj_twice`, `C72_nan`, `C72_qa_gaps_partial`, `C72_qa_score_partial`, `C72_qa_infinite`, `C73_sort_partial`, `C73_succeeds`, `C73_check`, `C73_valid_partial`, `C74_plain_partial`, `C74_compressed_partial`, `C74_missing`, `C74_cut`, `C74_dash`, `C75_trec_partial`, `C75_missing`, `C76_accepted`, `C76_merged`, `C76_steps`, `C76_names`, `C78_remade_partial`, `C78_built_partial`, `C78_recipe_partial`, `C79_range`, `C79_range_same`, `C79_tokens_partial`, `C79_tokens_dynamic`, `C79_tokens_same`, `C79_tokens_static`, `C79_again`, `C79_next`, `C79_default`, `C79_found`, `C79_threads_partial`, `C79_threads_first`, `C79_threads_later`, `C79_threads_alive`, `C79_gap`, `C80_life_partial`, `C80_warren_partial`, `C80_meadow_partial`, `C80_unknown_stemmer`, `C80_null_stemmer`, `C81_command`, `C81_temps_partial`, `C81_shared`, `C81_crash_partial`, `C82_label_partial`, `C83_built`, `C83_fold`, `C83_case_partial`, `C83_circled`, `C83_ascii_table`, `C83_ascii`, `C83_capitals`, `C83_none`, `C84_finds`, `C84_document_partial`, `C84_longer`, `C84_unknown`, `C84_file_partial`, `C84_read_partial`, `C84_leading`, `C85_history`, `C85_memory_partial`, `C85_destroy_partial`, `C86_pages_partial`, `C86_document`, `C86_unknown`, `C86_ambiguous`, `C86_lives`, `C87_session_partial`, `C88_read`, `C88_accepted`, `C88_once`, `C88_carriage_return`, `C88_chain`, `C89_read_partial`, `C89_cut`, `C89_rest_lost`, `C90_wapo_partial`, `C91_merged_partial`, `C91_once`, `C91_success_iff`, `C91_stale`, `C91_stale_case`, `C92_vectors_partial`, `C92_queries_partial`, `C92_answers`, `C93_run_partial`, `C93_nameless`, `C93_repeated`, `C94_arguments`, `C94_once_partial`, `C94_complete_partial`, `C94_refused`, `C95_threads`, `C95_ends`, `C95_round_partial`, `C95_best`, `C95_magical_partial`, `C95_bootstrap_partial`, `C95_n`, `C96_pairs_partial`, `C96_last_question`, `C97_within`, `C98_run`, `C98_output`, `C98_once`, `C98_random`, `C98_passage_query`, `C98_stems_partial`, `C98_repeated`, `C99_forage`, `C99_parameter`, `C99_readme`, `C99_dashes`, `C100_value_partial`, `C100_whole_partial`, `C100_negative`, `C101_length_partial`, `C101_place`, `C102_refused_partial`, `C102_succeeds`, `C103_passage`, `C103_middle`, `C103_short`, `C104_levels_partial`, `C104_every_query`, `C104_semaphore`, `C104_goes_on`, `C104_divided`, `C104_twice`, `C104_none_relevant`, `C104_not_taken_back`, `C104_no_queries`, `C105_done_partial`, `C105_succeeds`, `C105_names_stay`, `C105_failed`, `C105_undescribed`, `C106_ends`, `C107_least_greatest`, `C107_average_partial`, `C107_no_ratings`, `C107_groups`, `C107_lines`, `C107_twice`, `C108_table`, `C108_judged_partial`, `C108_present`, `C108_as_many`, `C110_tab`, `C111_file`
