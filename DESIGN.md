# Design of the formal model of analiticcl

The code under study is the Rust library and command line tool in `/repo`.  It is
read as text and transcribed by hand, function by function, to Lean 4 (4.33.0 with
Mathlib).  Nothing of `/repo` is compiled or run.

## Layout

| directory | contents |
|---|---|
| `lean/Verif/Model/` | transcription of the Rust functions; every definition cites file and lines |
| `lean/Verif/Spec/`  | small specifications (edit steps, bags, segmentations, ...); they use the data types of the model, and none of its functions except those listed below |
| `lean/Verif/Lemmas/`| helper lemmas |
| `lean/Verif/Props/` | the property theorems, one file per group, each with a concrete example beside it |

The specifications use these functions of the model: look-up in a map (`HMap.get?`), n-grams as keys (`NGram.fromList`),
the table of primes, the smoothing constant, arithmetic on floating point numbers (`EFloat`, `Rounding`), and the construction
of a confusable from its line (`Confusable.new`).  Some name the program they speak about: `VariantsOf` and `StretchRow`
(`find_variants`), `Prints`, `QueryPrints` and `SameSuggestions` (`main`), `LoadedFor` and `PyLoads` (loading).

## Trusted base

* The Lean 4 kernel, and the axioms `propext`, `Classical.choice`, `Quot.sound` (at most
  these; the exact set per theorem is listed at the end of this file, produced with
  `#print axioms`).  No own axioms, no `sorry`, no `native_decide`, no `bv_decide`.
* The reading of the Rust code: the model files are transcriptions made by hand.  The
  correspondence of a model definition with the lines it cites is not machine checked.
* The modelling conventions below.

## Modelling conventions

* **Text.** `&str`/`String` is `List Char`; a Lean `Char` is a Unicode scalar value like a
  Rust `char`.  Byte offsets are sums of `Char.utf8Size`; slicing by bytes is defined on the
  list and fails (like `str::get` → `None`, `&s[a..b]` → panic) off character boundaries.
* **Numbers.** `AnaValue` (`UBig`) is `Nat`.  `u8`/`u16`/`u32`/`usize` values are `Nat`
  together with the explicit truncation of each `as u8`/`as u16` in the code.  Arithmetic
  overflow/underflow is a panic, as in the debug profile (the release profile wraps; this is
  noted at each place).  A theorem that says that something does not panic, or what a result is if it
  does not, thus holds for both profiles; one that says that something panics with `overflow` is about
  the debug profile.  The vocabulary is also modelled for the release profile (C133).  `usize`/`u64` are taken as unbounded.
* **Panics** are an explicit error value (`Except Panic`), for indexing out of bounds,
  `expect`/`unwrap` on `None`, `assert!`, division by zero, overflow.
* **Mutation** is a returned new state.
* **Hash maps.** Look-up is by key.  Iteration order is an arbitrary permutation, a parameter
  of the model; properties are proved for all of them.
* **Sorting.** Rust's `sort`, `sort_by` are stable; modelled by insertion/merge sort on lists.
* **Floating point.** Values are rationals and each operation is followed by `rnd`, an
  arbitrary function of a structure `Rounding` (monotone, idempotent, fixing 0 and 1, odd where
  needed).  IEEE-754 round-to-nearest satisfies it absent overflow, NaN and infinities
  (`Rounding.binary64`, `Rounding.binary32`; C115).  Theorems hold for every such function, in particular for exact arithmetic.
  Where logarithms of zero can occur (scores of sequences), values are `EFloat`: rationals with two
  infinities and NaN.  `ln`, decimal parsing and printing are parameters.
* **Foreign code** is a parameter with the assumption stated in the theorem that uses it:
  rustfst's `shortest_path` and `paths_iter` (one parameter `solve`; the requirements are `SolverOk`, `SolverExact`,
  `SolverFirst`, `SolverWithin`, `SolverAdds`, `SolverBest`, `SolverLeast`. None of them requires the paths in order of
  weight, since src/lib.rs:2323-2324 says that `paths_iter` does not give this; only for transducers of two states,
  whose paths have a single transition, the first must be a cheapest), sesdiff's `shortest_edit_script`, rayon, file system.
* **Concurrency.** Parallel iterators over disjoint elements are modelled as processing the
  elements in an arbitrary order.
* Debug output and `Display` implementations are not modelled, but for the parts of debug output that
  can panic in a search or in reading an alphabet (Model/Debug, C132).  Runs of the tool are modelled for
  levels of debugging up to 1; the model of a run at a higher level is the error value `unmodelled`, which
  says nothing about the code.  Files are lists of lines, some of which
  may be unreadable, or cannot be opened; that this is justified for readers that come to their end is C124, and how
  a text becomes a list of lines is C125.  Limits of memory and stack, and time, are not modelled.
* **Python bindings.** PyO3's conversions are modelled as far as the header of `Model/Python` says.

## Properties

For each property of `properties.jsonl`: what is modelled and how it is proved.

* **C01 Anagram values identify exactly the anagrams.** Modelled: `anahash`, `PRIMES`. Proof: prime table facts by kernel evaluation over the finite table; product of primes determines the bag by unique factorisation.
* **C02 Alphabet encoding is the greedy first-match segmentation.** Modelled: `normalize_to_alphabet`. Proof: inductive segmentation relation as specification; induction on the loop.
* **C03 Anagram value algebra is multiset algebra.** Modelled: `insert`, `delete`, `contains`, `empty`. Proof: bags as `Multiset`/`List` counts; divisibility of prime products.
* **C04 Counting functions report true symbol counts.** Modelled: `char_count`, `count_matches`, `alphabet_upper_bound`. Proof: induction on the bag; non-termination as: no fuel suffices.
* **C05 Iterating an anagram value lists its symbols in descending alphabet order.** Modelled: `iter` = single beam recursion. Proof: induction on the bag sorted in descending order.
* **C06 Parents of an anagram value are exactly its single deletions.** Modelled: `DeletionIterator`. Proof: invariant on the cursor position.
* **C07 Breadth-first deletion search is exhaustive, duplicate-free and terminates.** Modelled: `RecurseDeletionIterator`, breadth first, unique. Proof: queue/visited invariant; exactness and termination by a measure on unvisited sub-bags.
* **C08 Alphabet capacity and absence of panics in hashing.** Modelled: `anahash`, `normalize_to_alphabet` with explicit panics. Proof: bounds on every index produced; concrete witnesses beyond the limits.
* **C09 levenshtein is the true edit distance with an exact cap.** Modelled: `levenshtein`. Proof: row invariant; spec = least length of an edit sequence.
* **C10 damerau_levenshtein is the true unrestricted Damerau-Levenshtein distance with an exact cap.** Modelled: `damerau_levenshtein`. Proof: matrix invariant; recursive Lowrance–Wagner function; alignment relation; step relation.
* **C11 Edit distances obey the metric laws.** Modelled: corollary of C09, C10. Proof: laws proved on the step relation.
* **C12 Common prefix, suffix and substring lengths are exact.** Modelled: `common_prefix_length`, `common_suffix_length`, `longest_common_substring_length`. Proof: induction / table invariant; spec with `<+:`, `<:+`, `<:+:`.
* **C13 Vocabulary ids and texts stay in one-to-one correspondence.** Modelled: all operations that touch the vocabulary. Proof: invariant over an inductive set of histories.
* **C14 Duplicate entries combine frequencies as configured.** Modelled: `add_to_vocabulary`. Proof: fold over history.
* **C15 Lexicon provenance is exact.** Modelled: `in_lexicon`, `lexindex_as_vec`. Proof: bit lemmas, fold over history.
* **C16 Transparency is lost as soon as one non-transparent source provides the entry, and only then.** Modelled: `vocabtype` handling. Proof: fold over history.
* **C17 An entry in both the language model list and a lexicon serves both purposes.** Modelled: as C16. Proof: negation by witness; partial: when the first addition has both flags.
* **C18 Reserved tokens are never matched.** Modelled: `init_vocab`, `build`. Proof: invariant.
* **C19 After build, lookup by text is exact.** Modelled: `build`, `get`, `has`, `get_anagram_instances`. Proof: fold invariant, C01.
* **C20 The secondary index partitions the primary index by length, sorted.** Modelled: `build`. Proof: fold invariant, for each iteration order.
* **C21 Rebuilding is idempotent.** Modelled: `build`. Proof: fixed point; negation for n-grams by witness.
* **C22 Nothing depends on hash-map iteration order.** Modelled: `build`, `find_nearest_anahashes`. Proof: sorting kills permutations.
* **C23 Anagram search returns exactly the indexed values within anagram distance.** Modelled: `find_nearest_anahashes`. Proof: C03, C07, C20; both inclusions.
* **C24 The anagram filter never loses an entry within the edit distance when the anagram distance is at least twice as large.** Modelled: composition. Proof: C10 step relation against bag difference.
* **C25 Candidates carry correct distances and appear once.** Modelled: `gather_instances`. Proof: C10, C12, C19.
* **C26 Effective distance thresholds respect the configured limits.** Modelled: threshold computation in `find_variants`. Proof: case analysis; rounding of the ratio is a parameter.
* **C27 Stop-at-exact-match returns only anagrams of the query when one exists, and otherwise changes nothing.** Modelled: `find_nearest_anahashes`. Proof: case analysis.
* **C28 Similarity scores lie between 0 and 1.** Modelled: `score_and_rank` scoring loop. Proof: monotonicity of rounding.
* **C29 An exact match scores exactly 1.0.** Modelled: same. Proof: numerator and denominator are the same rounded sum.
* **C30 Results are ranked best first by a consistent order.** Modelled: `rank_cmp`, `rank_results`. Proof: order laws.
* **C31 Nothing below the score threshold is returned.** Modelled: `score_and_rank`. Proof: membership through all passes.
* **C32 max_matches bounds the number of results.** Modelled: max_matches pass. Proof: witnesses; exact number kept (`keptWith`, and in simpler terms `keptCount` without frequency weight).
* **C33 The cutoff threshold keeps exactly the results close enough to the best.** Modelled: cutoff pass. Proof: list lemma.
* **C34 The best candidate survives pruning.** Modelled: `score_and_rank`. Proof: list lemmas; exact condition for results (`results_nonempty_iff`).
* **C35 Frequency scores are normalised.** Modelled: frequency pass. Proof: monotone rounding.
* **C36 No entry is returned twice.** Modelled: `score_and_rank`, `expand_variants`. Proof: witness; distinct by entry and route, neighbours distinct.
* **C37 Transparent entries are replaced by what they are variants of.** Modelled: `expand_variants`. Proof: exact characterisation.
* **C38 Confusable patterns match only if they occur in the edit script.** Modelled: `found_in`, `compute_confusable_weight`. Proof: invariant of the scan; witness for the converse.
* **C39 find_variants never panics on non-empty input to a built model.** Modelled: `find_variants`. Proof: composition of the panic-freedom lemmas.
* **C40 Tokenisation partitions the text.** Modelled: `find_boundaries`. Proof: invariant; `char::is_alphabetic` is a parameter.
* **C41 Boundary strengths.** Modelled: `classify_boundaries`. Proof: pointwise.
* **C42 N-gram extraction yields exactly the runs of n consecutive tokens.** Modelled: `find_match_ngrams`. Proof: exact list equality with a specification.
* **C43 Higher-order matches are skipped only when all their words are already perfect.** Modelled: `redundant_match`. Proof: induction.
* **C44 Matches in running text are faithful to the text, ordered and non-overlapping.** Modelled: `find_all_matches`, `most_likely_sequence`. Proof: invariant over batches and paths; solver parameter.
* **C45 Unigram search returns every word of the text exactly once.** Modelled: `find_all_matches` with order 1. Proof: exact list equality.
* **C46 Unicode offsets count characters.** Modelled: `remap_offsets_to_unicodepoints`. Proof: byte/char counting lemmas.
* **C47 Parallel and sequential search agree.** Modelled: parallel iteration. Proof: updates of disjoint elements commute.
* **C48 The best sequence is chosen.** Modelled: `most_likely_sequence` selection. Proof: argmax lemma; witness for one boundary.
* **C49 Segmentation always has a complete path and never panics.** Modelled: transducer construction. Proof: graph lemmas.
* **C50 Pattern matching semantics.** Modelled: `PatternMatch`. Proof: structural induction; parser inverse.
* **C51 A context rule tags exactly the matched positions.** Modelled: `ContextRule::matches`. Proof: exact characterisation.
* **C52 Each word takes part in at most one context rule, first rule first.** Modelled: `test_context_rules`. Proof: loop invariant; witness.
* **C53 Tags resolve to the names given.** Modelled: `add_contextrule` tags. Proof: history invariant.
* **C54 NGram behaves as a list of at most five ids.** Modelled: `NGram`. Proof: refinement to `List`.
* **C55 Language model counts are the total frequencies.** Modelled: `build` LM part, `into_ngram`, `encode_token`. Proof: fold.
* **C56 Language model scoring covers each transition once.** Modelled: `lm_score`, `lm_score_tokens`. Proof: list equality.
* **C57 Learning only adds links, never search candidates.** Modelled: `learn_variants`. Proof: invariant; index fixed point.
* **C58 Adding the same variant twice has the effect of adding it once.** Modelled: `add_variant_by_id`. Proof: idempotence; witness.
* **C59 The reverse index records each non-exact instantiation.** Modelled: `add_to_reverse_index`. Proof: characterisation.
* **C60 Query mode gives the same output in parallel batches as line by line.** Modelled: `process`, `process_par`. Proof: list equality.
* **C61 Search mode batches cover the input.** Modelled: `process_search`. Proof: list equality.
* **C62 JSON output of texts can be read back.** Modelled: JSON escaping in output. Proof: reader for JSON strings as specification; witness.
* **C63 Output lists each variant exactly once with the selected one first.** Modelled: output order. Proof: permutation.
* **C64 The visited cache stays bounded.** Modelled: `Cache`. Proof: case analysis.
* **C65 Reading an alphabet file gives the documented entries.** Modelled: `read_alphabet`. Proof: case analysis.
* **C66 Distance thresholds parse as documented.** Modelled: `DistanceThreshold::from_str`. Proof: case analysis; number parsing as parameter.
* **C67 Reading a lexicon or variant list equals adding its lines.** Modelled: `read_vocabulary`, `read_variants`. Proof: grammar of lines as specification (`Spec/Files`), fold. Scores in files are finite numbers.
* **C68 No word of the text is lost.** Modelled: `find_all_matches`, `most_likely_sequence`. Proof: exchange argument on routes; witness for solvers that do not return a cheapest path first.
* **C69 Added context rules mean what was written.** Modelled: `add_contextrule`, `PatternMatch::parse`. Proof: grammar of rule texts as specification; induction.
* **C70 Reading context rules equals adding its lines.** Modelled: `read_contextrules`. Proof: grammar of lines, fold.
* **C71, C72 JSON output.** Modelled: the printing functions of `src/bin/analiticcl.rs`. Proof: JSON grammar as specification (`Spec/Json`), a scanner as proof device.
* **C73 Input test.** Modelled: `testinput`. Proof: C01 and the encoding.
* **C74 Output to several files.** Modelled: `output_weighted_variant_as_tsv/json` file selection. Proof: bit lemmas; refutations.
* **C75 Learning rounds.** Modelled: `process_learn`. Proof: induction on rounds.
* **C76 Searching a text never panics.** Modelled: all of `find_all_matches`. Proof: composition of panic-freedom lemmas over batches, routes, rules and language model.
* **C77 The chosen reading is not dominated.** Modelled: scoring in `most_likely_sequence`. Proof: the score as a weighted mean (`Spec/Choice`), monotonicity; witnesses.
* **C78 Tags of matches in text.** Modelled: tag assignment in `most_likely_sequence`. Proof: C51, C52 lifted to texts.
* **C79 Every mode of the recursive deletion search.** Modelled: both iterators with internal or external visited set. Proof: induction on the size of a bag (depth first; invariant: what is visited is closed downwards) and on the level (breadth first).
* **C80 A loaded model is determined by the command line.** Modelled: the loading part of `main`, `read_confusablelist`, `add_to_confusables`. Proof: what a file adds as specification (`Spec/Load`), then C13 to C16, C67 and totality (C39, C76).
* **C81 The printed index.** Modelled: subcommand `index` of `main`. Proof: the specification of the index (C19) read line by line.
* **C82 Confusable lists and the cutoff.** Modelled: `read_confusablelist`, cutoff check of `main`. Proof: grammar of lines, fold.
* **C83 Results for Python programs.** Modelled: all methods of `PyVariantModel`. Proof: a program of calls as a history of additions (C67, C80), totality (C39, C76), dictionaries as relations (`Spec/Python`).
* **C84 Command line options.** Modelled: the declaration of arguments and `main` up to the search parameters, weights and resources. Proof: what an option stands for as specification (`Spec/Options`), one lemma per kind of option.
* **C85 Keyword arguments.** Modelled: constructors of `PySearchParameters` and `PyVocabParams`, `extract_distance_threshold`. Proof: conversions as relations; a fold over arguments with distinct keys leaves in each field the value of its key.
* **C86 Reading parameters back.** Modelled: getters, setters and `to_dict` of `PySearchParameters`. Proof: invariant that parameters fit their types; refutation for ratios with a limit and the stop criterion.
* **C87 Repeatable runs.** Modelled: the whole of `main` (Model/Tool). Proof: a relation between models that have the same entries and links and agree in what index and lookups yield, whatever the order; every function of the library and the tool respects it (Lemmas/Agree, Lemmas/Run).
* **C88 What a run prints.** Modelled: the same. Proof: the run is taken apart into the request (options as a relation, `Asked`), the inputs (`InputsOf`) and the rows (`QueryRow`, `MatchRow`, `LearnAll`, `TestRow`, `IndexText`), each characterised exactly; the theorems are equivalences but for `index_run`. What the library finds is the subject of the other claims.
* **C89 Runs on well-formed files succeed.** Modelled: the same. Proof: `Loadable` (Spec/LoadTotal) says what files are well-formed, with the relations for lines of C65, C67, C69 and C82; `load_total` shows step by step that no addition overflows (`Ready` is kept: the frequencies so far sum to at most the total) and that every rule is accepted; the searches return by C39 and C76, and the printing functions are total because results refer to entries (`find_variants_ids`, `find_variants_via`, `search_known`) and tags to names (`loaded_book`). Learning: `Learning` (Props/LearnTotal) is kept over all rounds and inputs: the model is the result of a history that ends with a build, all references in both directions lead to entries, the frequencies sum to at most S and the counts of the language model are at most T; a round on lines of K bytes turns (S, T) into (S + K, T + S + K).
* **C90 A query over lexicons prints exactly the words that are similar enough.** Modelled: the same as for C88. Proof: `Similar` (Spec/Similar) says from the two texts, the alphabet, the weights and the thresholds alone when a word is similar and with what score; `similar_entries_found` composes the exactness of the anagram search and of the candidates (C23, C25) with what ranking keeps (C30 to C34); loading adds no links from lexicons (`noLinks_load`), so no result is expanded, and `loaded_entry` tells which words are there (C80); `query_prints_similar` adds option parsing and printing (C84, C88).
* **C91 The JSON output of a run.** Modelled: the same as for C88; the grammar of JSON is that of C71 (Spec/Json). Proof: `json_unique` shows that the grammar is unambiguous, by induction on the derivations with the claim that no reading of a text is a proper prefix of another's. `query_json_run` and `search_json_run` compose what a run prints (C88) with what the printers print (C71); that the texts of the vocabulary, the names of lexicons and the tags need no escapes follows from the files, by an invariant of loading (`loaded_chars`, `loaded_tags`).
* **C92 The order of the words in the lexicons is irrelevant.** Modelled: the same as for C88. Proof: `PlainQuery` (Spec/SimilarRuns) says what such a run is; `plain_query` gives for it what C90 says about each row. Two rankings of the same words are permutations of each other (`ranked_perm`) and sorted by score, so their scores agree at each place; what is shown depends on the scores only (`shown_map`).
* **C93 More words and looser thresholds find at least the same.** Modelled: the same. Proof: `Near` is monotone in the thresholds (`near_looser`, from `allowed_looser`), and the score of a pair of texts does not depend on the lexicon.
* **C94 A word of the lexicons is found for itself.** Modelled: the same. Proof: `near_self` shows that a text is within reach of itself with score 1, for any weights the score of C28 allows; `near_le_one` that nothing scores more.
* **C95 A search for single words over lexicons prints the similar words of each word.** Modelled: everything from the command line to the output. `Spec/SimilarText` says what the words of a text are (`WordAt`: letters with none before or after), and what is printed for a text, using `SimilarColumns` of C90. Proof: `words_of_text` shows that the runs of length one of C45 are these words; `noLm_load` that nothing loaded from lexicons without reserved words goes into a language model (the code makes `<unk>` and the like part of one when a lexicon has them); `unigram_search` (C45), `lexicons_loaded` (C90) and `search_run` (C88) give the rest. `search_without_words` is the case of an empty index.
* **C96 The rows of a search are stretches of whole words.** Modelled: as for C44 and C88. `Spec/Rows` says what a stretch of words at an offset is, with `WordAt`/`WordsOf` of C95 and without the segmentation used in the proofs. Proof: `batches_seps` (only the separator before the first word of a batch may be longer than a byte), `gatherSegments_known` (single words are always looked up) and the invariant of walks through the transducer (a longer match is only taken with one of its variants) give `MatchSegs`; `stretch_of_segs` turns consecutive words and separators into a stretch, using that the division into words is unique. A stretch may begin with the separator before the first word of the text (`exSearchN_prints`: a space before the first word becomes part of the match).
* **C97 A search divides the text at least cost.** Modelled: as for C44 and C48. `Spec/Division` defines divisions and their cost by recursion over words and separators, with the variants of a text as a parameter; neither matches, transducer nor boundaries appear. Proof: `gathered_matches` (which stretches are looked up: `redundantMatch` unfolded to `LookedUp`), `route_division` and `division_route` (routes through the matches of C48 are divisions), then `nearly_cheapest_route` per batch; errors of roundings and sums are carried along (`Reckons`, `slack`).
* **C98 What a search for stretches of words over lexicons prints.** Modelled: as for C88 and C97. `Spec/Divided` combines the divisions of `Spec/Division` with the ranking of similar words of `Spec/Similar`; the model of the library does not appear. Since words with the same score may come in any order, the theorem says that there is one listing for each text which meets the specification and with which the division is cheapest. Proof: `lexicons_listed` (variants and similar words correspond one by one, with the same scores), `division_imp` (a division only depends on scores), `search_cheapest_of_scores`, `search_total_of_lookups`.
* **C99 What a query of a built model gives, with links, confusables and stopping at exact matches.** Modelled: as for C08, C28-C40. `Spec/Suggest` describes the result in terms of words only (`Lexis`: which words are looked up, their frequencies, which are errors, of which words they are variants); `Describes` relates this to a model, and `describes_lexisOf` shows that there is always such a description. The confusables found are those of `Found` (`found_in_exact`, C38). Since equal scores may come in any order, the list before cutting is given up to the order of equals. Proof: `candidates_any` (what is found for either stop criterion), then each stage of `score_and_rank` commutes with replacing numbers of entries by their words.
* **C100 A query prints what the lexicons, variant lists, error lists and confusables suggest.** Modelled: as for C70-C99. `Spec/Resources` says what the files say about words (`lexisFrom`, from the words `Adds` and the links `Gives` of each source); `describes_load` shows that this is what the loaded model knows (`Known` is kept by every step of loading); `query_prints_suggestions` puts this together with C99 and C72.
* **C101 A search prints the cheapest division of the text, with what all resources suggest.** Modelled: as for C97-C100. `search_divides` (Props/Divided) says what a search prints once the variants of every stretch are described, in whatever terms; C98 and C101 are instances of it, with the words of the lexicons and with the suggestions of C100. That there is no language model (`noLm_loaded`) is kept by every step of loading.
* **C102 A search for single words prints what all resources suggest for each word.** Modelled: as for C95 and C100. `search_words` (Props/SimilarText) says what a search for single words prints once the variants of every word are described; C95 and C102 are instances of it.
* **C103 A query with --json writes a document with what all resources suggest for each line.** Modelled: as for C91 and C100. `query_document` and `search_document` (Props/Document) say what is written once something is written; `query_total_of` and `search_total_of` (Props/RunTotal) that something is, if variants are found for every line or text.
* **C104 A search with --json writes a document with what all resources suggest for each word or stretch.** Modelled: as for C91, C101 and C102. `text_divides` (Props/Divided) and `text_words` (Props/SimilarText) say what the matches in a text are; what is printed (C98, C101, C95, C102) and what is written in JSON (C104) follows from them.
* **C105 learn --strict prints the variants that repeated suggestions for whole lines give.** Modelled: as for C88, C89 and C100. `Stocked` (Props/Learned) relates a model to what it knows about words, loading establishes it (`stocked_load`), and each round of learning keeps it (`stocked_learn`, `stocked_whole`).
* **C106 learn without --strict prints the variants that repeated suggestions for parts of lines give.** Modelled: as for C101, C102 and C105. `Ready` (Props/LearnedParts) is `Stocked` for a model without a language model; each round of learning keeps it (`ready_learn`, `ready_parts`).
* **C107 A search in text reads each batch as the best of its cheapest readings.** Modelled: as for C76, C77 and C97. The readings (Spec/Reading) are defined over the words of the text and the variants of stretches, without transducer, symbols or indices; Lemmas/Reading relates them one to one to the paths of the transducer.
* **C108 The language model is what the files say.** Modelled: as for C60, C77 and C91. The specification (Spec/Counts) speaks of the lines of the files only: no ids, encoder, decoder or n-gram table. Finding: since --lm files are loaded after all lexicons, and the type of an entry is that of its first source, the unigram counts of a language model are ignored for all words of lexicons. `loaded_lm_run` says this of what `lm_score` computes for the symbols of a sequence.
* **C109 The context rules are what the files say.** Modelled: as for C59, C62, C75, C78 and C91. The specification (Spec/Context) speaks of the lines of the files and of words only: no ids, no bit masks of lexicons, no tag numbers. Finding: since unknown stretches have the id 0 of the marker <bos>, a pattern with the word <bos> holds for every unknown stretch and never at the beginning of a text. `loaded_rules_run` says this of what `test_context_rules` computes for the symbols of a sequence.
* **C110 With a language model and context rules, a search prints the best readings of the text.** Modelled: as for C88, C101 and C107–C109. The specification (Spec/Searched) uses the words and counts of the files, the rules as written and the suggestions of C99, not the ids, n-grams, lattices or solver symbols of the code.
* **C111 With a language model and context rules, a search with --json writes the best readings with their tags.** Modelled: as for C110 and C103.
* **C112 Which options make a difference.** Modelled: as for C84 and C85. Proof: two runs are compared step by step. The lists of options (Spec/Relevant) name options as they are written on the command line. The standard output and the files are compared; messages on standard error are not modelled, and `--progress`, `--debug` up to level 1 and the verbose messages affect only these. Runs at higher levels of debugging are not modelled (`CommandLine.debugLevel`, `Panic.unmodelled`).
* **C113 index prints the words of all files, grouped by anagrams.** Modelled: as for C80, C81 and C88. The specification (Spec/Indexed) uses the words of the files and the encoding of C02. Proof: the texts of the entries are the words in the order of first mention (`ordered_load`), all are looked up because `index` has no language models, and C81.
* **C114 What has been printed when a run panics.** Modelled: `main` with a trace of what has been written to standard output (Model/Trace); a row is written at once, and files written by `learn` before a panic are not in the trace. The specification (Spec/Trace) says which output a panicking run leaves. Proof: the traced run refines the run of C77 (`SameRun`), the traces of the two query loops are related by `Ahead`, and the rows are those of C100.
* **C115 Scores in IEEE 754 arithmetic.** Modelled: rounding to nearest, ties to even, of binary formats with subnormal numbers and no greatest one (Model/Ieee); `f32` and `f64` are instances of `Rounding`. The specification (Spec/Ieee) says what the numbers of a format are and what the nearest one is, and gives the means without rounding. Proof: error bounds for each operation, from an absolute and a relative error of rounding (`Accurate`). `query_accurate` says this of what a query prints.
* **C116 Frequency decides between equal scores.** Model and specification of C115. Refuted by a run (`tie_decided_by_rounding`). Proof of what holds: relative frequencies below 2³² are told apart (C115), and scores for lengths that are powers of two need no rounding. `query_ties_partial` says this of what a query prints.
* **C117 A search in IEEE 754 arithmetic.** Modelled: as for C97 and C115. C97, C98, C101, C104 and C106 are stated for any arithmetic with bounded errors (`Reckons`: relative errors of `f32` and `f64`, exact small integers, logarithms that tell `f32` numbers apart, errors of the solver's sums); C117 gives the bounds for IEEE 754. The solver may add the costs of a path in any order and may miss the least sum by a tolerance (`SolverAdds`; rustfst compares distances up to 1e-6). Proof: each of the n additions of a path adds a relative error of 2⁻²⁴ (`added_close`), paths have fewer transitions than there are states; different sums in `f32` have different logarithms in `f64` (`binary32_apart`).
* **C118 What learn prints can be loaded again.** Modelled: as for C67 and C105. Spec `HasLines`, `learnedEntries`, `NotCounts`, `Readable`. Proof: the printed rows are the lines of a variant list without frequencies (`Clean`); a line tells the format by its number of fields modulo 3; first mentions stay first mentions (`firsts_repeat`).
* **C119 Decimal thresholds are exact despite single precision.** Modelled: as for C26, C66, C83 and C116. Spec `DecimalText`, `ReadsDecimals`, `ThresholdMeant`. Proof: products that are not whole are further from whole numbers than the two relative errors; the products that are whole are finitely many (the length divides 100000 times the product), and these are calculated by the kernel.
* **C120 find_variants of a Python program returns what its calls say.** Modelled: as for C83, C99 and C100. Spec `CallGives`, `CallConfuses`, `CallCounts`, `frequencyIn`, `programLexis`, `SuggestionDict`, `Program`. Proof: an invariant (`Known`: exactly these links, frequencies count or not) is kept by every call, the fold of additions gives frequency and flags of each entry, and C99 turns the entries into suggestions.
* **C121 find_all_matches of a Python program divides a text by what its calls say.** Modelled: as for C83, C97 and C120. Spec `Offsets`, `StretchDict`, `NoRules`, `NoModel` (with `CheapestIn` and `WordsOf` of C98 and C95). Proof: programs without language model keep `NoLm`, C97 and C101 give the division for byte offsets, and the conversion of offsets to characters is total on faithful matches.
* **C122 With a language model and context rules, the reading chosen in floating point is not beaten.** Modelled: as for C76, C77 and C107. Spec/Weighed repeats the readings of Spec/Reading with the costs as they are computed, and compares readings by their computed figures only. Proof: the combined score is monotone in each of the figures under any monotone rounding, and never NaN for a reading that is no worse than the chosen one; the code replaces only by strictly better, so an earlier reading that is as good in all respects would have been kept, and a later one that is better would have been taken. In a batch of one word the least cost counts as 0, so all scores are at the bottom and the first reading is kept.
* **C123 Searches with a language model and context rules, from files to output, in floating point.** Modelled: as for C110, C111 and C122. Spec/WeighedFiles compares readings by what the lines of the files say. Proof: the readings over entries and over the words of the files correspond one to one with equal figures (`unbeaten_imp`), so a reading that is not beaten stays so.
* **C124 Reading line by line ends if the reader does.** Modelled: the loops over `lines()` with a reader that gives an event at each request (Model/Readers); fuel bounds the requests, and a loop ends if some fuel suffices. Proof: induction on fuel and on the number of requests; refinement of the loops over lists.
* **C125 The ends of lines do not matter.** Modelled: `BufRead::lines` of the standard library on texts (Model/TextFile), and `main` on file systems of texts. Spec/TextFile says inductively how lines are written. Proof: induction on the written lines.
* **C126 A Python program and the command line give the same.** The program, the keyword arguments and the rows made from dictionaries are in Spec/Bindings. Proof: refinement of the loading steps by calls, and the run theorems C88 and C91 composed with C83.
* **C127 A search for single words is a query for each word, and lines and groups of lines are independent.** The query that belongs to a search and the runs with other input are in Spec/Modes. Proof: the run theorems C88 and C91, applied to runs with the same resources and different input.
* **C128 Spellings that the alphabet does not distinguish get the same variants.** Equivalent texts are defined in Spec/Spelling by the greedy encoding of C02. Proof: induction over the encoding shows that hash and normal form are functions of the codes, also where they overflow, and the rest of the search uses the text only in the comparison of the case and in confusables.
* **C129 Weights and attributes in Python.** Modelled: `PyWeights` and the setters of `PyVocabParams` (Model/PyWeights). Proof: the fold over keyword arguments of C85, and cases over attributes.
* **C130 Exactly which lines can be searched for.** Modelled newly: the counters of 16 bits in `longest_common_substring_length`, `common_prefix_length` and `common_suffix_length` (`inU16`). Proof: the schedule of lengths overflows exactly from 65536 on, which is reached unless the search stops before; lines that fail make the run fail (`query_line_fails`); the words that are looked up from the words that loading adds (`sought_iff`).
* **C131 What does not change the suggestions.** Proof: a run prints what is shown of a ranking (C92, `plain_query`); if two rankings have the same words and scores, what is shown is the same up to ties (`same_suggestions`). Multiplication by a power of two commutes with rounding to 53 binary places unless the result is subnormal (`roundBinary_scale`); weights and the parts of a score are never that small.
* **C132 What the level of debugging does to a search.** Modelled: `decompose_anavalue`, and `find_variants` and `read_alphabet` with the level as a parameter (Model/Debug). Proof: the deletions that are looked at are those of C07; the unknown symbol has the index after the last line, so a deletion with it cannot be decomposed, and there is such a deletion as soon as there is another symbol to delete. Not modelled: `duration_since` from level 2, which panics if the clock goes backwards, and the files with transducers that searches write from level 3.
* **C133 The vocabulary in a release build.** Modelled: `add_to_vocabulary`, `in_lexicon` and `normalize_to_alphabet` with arithmetic that wraps around and shifts by the lowest five bits of the distance (Model/Release). Proof: an invariant (looking up a text leads to an entry with that text), and frequency and lexicons of an entry as a fold over the additions of its text. The rest of the code is modelled for the debug profile only.
* **C134 Searches for single words with other lexicons and parameters.** Proof: from what such searches print (C95) and the lemmas of C92 to C94 about rankings; the words of a text are unique (they are in order, and these are all), so that the rows of two runs can be paired.
* **C135 Correct words are left unchanged.** Proof: one edit lowers the mean by at least the weight of the edit distance divided by 255, and missing case by its weight; both exceed the error of the computed score (C115).
* **C136 Correct texts are left undivided.** Proof: a first variant with score 1 keeps longer stretches from being looked up, so every division consists of single words or of words left out; each deviation from taking every word as it is costs at least m more, which is more than C98 and C117 allow.
* **C137 Listed errors are corrected.** Proof: the line itself is within reach with score 1, so the words it is linked to are among those that are ranked (C99, C100); removing repeated words keeps the best of each.
* **C138 Listed errors are corrected in texts.** Proof: C102 gives what is suggested for each word of the text, to which the argument of C137 applies.
* **C139 Known errors are never suggested.** Proof: an error within reach has links, so candidates are expanded and it is dropped; expansion adds references only. Ranking, confusables and limits do not add words (C99, C101, C102).
* **C140 Correcting twice is correcting once.** Proof: what is suggested is a word of the lexicons (C90), which comes first for itself (C135); for the other lines the second run has the same scores as the first (C92).
* **C141 No known error is left after correction.** Proof: known errors are not suggested (C139); and for a known error something is, as it is within reach itself, and neither limits nor cutoffs leave nothing of a list that is not empty.
* **C142 The scores that a search prints are accurate.** Proof: a search ranks each word of the text like a query (C95); the error bounds are those of C115, and limits only leave out words.

## What is modelled, by function

`src/anahash.rs`: `anahash`, `normalize_to_alphabet`, `character`, `empty`, `is_empty`, `insert`, `delete`, `contains`, `iter`, `iter_parents`, `iter_recursive`, `iter_recursive_external_cache`, `SearchParams::default` (Model/Iter), `char_count`, `count_matches`, `alphabet_upper_bound` (Model/Anahash).

`src/iterators.rs`: both iterators in all modes, and what an external cache holds afterwards (Model/Anahash, Iter).

`src/distance.rs`: everything (Model/Distance).

`src/vocab.rs`, `src/index.rs`: everything but the builder methods (Model/Vocab).

`src/types.rs`: `Weights`, `DistanceThreshold::from_str`, `VariantResult::score`, `rank_cmp`, `NGram` (Model/NGram, Score, Files).  `SearchParameters::default` (Model/Options).  Not: builder and display methods.

`src/confusables.rs`: everything (Model/Confusable).  The edit script comes from the crate sesdiff and is a parameter.

`src/search.rs`: everything but `invert_score`, `len`, `new_empty` (Model/Search, RulesFile).

`src/lib.rs`: all functions that are not commented out, but for `new` (= reading an alphabet, then `new_with_alphabet`), `contains_key`, `get_vocab`, `ngram_to_str` (debug output), and debug output other than that of C132 (Model/Load, Vocab, Nearest, Score, Learn, LearnSearch, Sequence, RulesFile, Files, Debug).

`src/cache.rs`: everything (Model/Files).

`src/bin/analiticcl.rs`: all output functions, `process`, `process_par`, `process_learn`, `process_search` (Model/Cli, Load); the declaration of arguments and what `main` makes of them (Model/Options); `main` as a whole, with the output files of `--multi-output` (Model/Tool).  Not: messages on standard error, progress, help texts, infinite parameters and weights.  What was printed before a panic is modelled apart (Model/Trace, C114), without the files that `learn` writes.  The loops over the lines of a reader that may fail are modelled apart (Model/Readers, C124), and so are the lines of a text (Model/TextFile, C125; `BufRead::lines` of the standard library).

`bindings/python`: everything but `set_confusables_before_pruning` and warnings on standard error (Model/Python, PyWeights).

## Disagreements between the code and its documentation or expectation

Each is a theorem with a concrete witness (name in parentheses).

* Rebuilding doubles the n-gram counts (`rebuild_doubles_counts`).
* An entry of both a language model list and a lexicon keeps the type of its first addition (`both_purposes_fails`).
* Adding the same variant twice duplicates the link on the side of the variant (`add_variant_idempotent_fails`).
* `lexindex_as_vec` omits index 31 (`lexindex_as_vec_omits_31`); indices from 32 on panic (`lexicon_limit`, `pattern_shift_panics`).
* Damerau-Levenshtein is inexact for more than 255 symbols (`damerau_inexact_beyond_255`).
* Hashing: empty strings in the alphabet panic (`hashing_empty_string_panics`), indices wrap at 256 (`hashing_wraps_at_256`), late lines and unknown characters panic with large alphabets (`hashing_late_line_panics`, `hashing_unknown_panics`).
* `count_matches` and `contains` with the empty value (`count_matches_empty_diverges`, `contains_zero_panics`).
* The anagram search panics with 167 alphabet lines and an unknown character (`nearest_panics_large_alphabet`), misses neighbours beyond 255 symbols (`nearest_misses_long`), and never finds entries without a common symbol, though they may be within the edit distance (`filter_loses_disjoint`).
* An indexed empty text makes gathering panic (`gather_empty_text_panics`).
* More than `max_matches` results are returned (`max_matches_one_returns_two`, `max_matches_exceeded_with_frequency`); with frequency ranking the order of the words in the lexicon may decide how many (`word_order_may_matter`).
* A transparent match without references is dropped, or returned if no result has a link (`transparent_match_dropped`, `transparent_returned_without_links`).
* An entry can be returned twice (`duplicate_results`).
* Two words with the same mean similarity may get scores that differ in the last place, and then frequency does not decide between them (`tie_decided_by_rounding`): for `abc`, `axbc` is listed before `abxc` whatever their frequencies.
* A negative frequency weight misranks (`negative_weight_misranks`).
* Empty input panics (`empty_input_panics`), so one empty line in the input ends a query (`query_empty_line_fails`); so do links to missing entries (`dangling_reference_panics`).
* `found_in` misses occurrences after a failed partial match (`found_in_incomplete`, `found_in_end_incomplete`); building a confusable from an empty string or with a multibyte character at an end panics (`confusable_new_panics`).
* Learned forms never become search candidates (`learned_form_not_found`).
* In a batch of one word all scores degenerate: language model and context rules are ignored and the first path of the solver is taken (`single_word_first`, `single_word_ignores_rules`, `single_word_lost`).
* A pair counted more often than its first token is scored by its count (`overcounted_transition`), which can make a reading lose because its pair is counted more often (`overcounted_pair_loses`), or because it is closer and its pair is counted more often (`frequent_pair_loses`, in IEEE 754 arithmetic).
* The unigram counts of `--lm` files are ignored for words of lexicons, variant lists and error lists (`listed_not_lm`), so that transitions from such words are scored by the count of the pair (`listed_transition`).
* A separator before the first word of a text, such as a leading space, may become part of a match of two words (`exSearchN_prints`).
* Asking for no sequences panics (`no_sequences_panics`).
* Negated groups in disjunctions and the README's `!(a|b|c|)` are rejected (`negated_groups_rejected`).
* Rules of more than 256 words wrap (`long_rule_wraps`), the end of a tag may overflow (`tag_end_panics`), a tag beyond the rule panics when added (`offset_beyond_rule_panics`), tag indices wrap at 65536 (`tag_index_wraps`).
* A word of a pattern that gets no result may be used by another rule (`untagged_word_reused`).
* JSON output does not escape backslashes and control characters (`json_backslash_misread`), lacks a comma between files (`json_two_files_malformed`), has trailing commas in learn mode (`json_learn_malformed`); with several output files score and frequency are swapped (`multi_output_json_swapped`) and the TSV output picks the wrong files (`multi_output_tsv`).
* A line that cannot be read is skipped by the sequential mode and ends the parallel mode (`unreadable_line_stops_parallel`).
* A file that opens but cannot be read, such as a directory given as alphabet, lexicon, variant list, list of confusables, file of context rules or input of a query with one thread, makes the tool hang: the loops skip errors, and the reader goes on reporting them (`failing_reader_hangs`).  The learn and search modes and queries with threads end (`first_failure_ends`).
* The default parameters of the command line and of the Python binding differ: edit distance 2 and 10 variants against 3 and 20 (`search_defaults`, `query_defaults`), so that the same resources give other results (`defaults_differ`).
* A byte order mark at the beginning of a file is read as part of its first line (`byte_order_mark_is_read`).
* When a line makes the run panic, several threads lose up to 999 finished lines before it that one thread prints (`threads_lose_lines`, `query_prints_before_panic`); a file that cannot be opened is noticed only after the output for the files before it, and leaves a JSON array unclosed (`unopened_file_after_output`).
* The ratio in `ratio;limit` is not checked (`threshold_ratio_unchecked`).
* A variant list is misread if its first line has one field, or a variant is a number (`variant_list_misread`); so what `learn` prints is misread if a word has two variants that are numbers (`learned_list_misread`), and cannot be read if a text has a tab (`learned_list_tab`).
* The option `--unicode-offsets` is ignored (`unicode_offsets_fails`), and so is `--allow-overlap` (`allow_overlap_ignored`).
* Python: a word added with default parameters is reported as an entry of the first lexicon (`py_added_word_in_first_lexicon`); with more than 32 lexicons queries with results panic (`py_many_lexicons`); numbers outside 0 to 1 are accepted as ratios (`py_ratio_unchecked`); `VocabParams(freq_column=None)` keeps column 1 (`py_freq_column_none`); ratios with a limit and the stop criterion are lost when parameters are made from the dictionary of others (`py_read_back_fails`); `score_threshold` cannot be assigned (`py_score_readonly`).
* A stretch without a suggestion has the id of the marker `<bos>` in context rules, so a pattern with the word `<bos>` holds for every unknown stretch, and never for the beginning of a text (`loaded_context`).
* From `--debug 4` searching a text of two or more symbols with an unknown one panics (`high_levels_exact`, `exLevels`); from `--debug 2` so does reading an alphabet of more than 168 lines (`alphabet_level`).
* In a release build the words of the 33rd source count as words of the first, and sums of frequencies wrap around (`release_confuses`); in the debug profile both are panics.
* A word of the lexicons is replaced by another one that is written with the same symbols of the alphabet, if that is more frequent: for `baA` the first suggestion is `baa` (`correct_word_replaced`).

Seen while reading, but not stated as theorems: `consolidate_matches`, `lm_order` and `context_weight` are accepted and not used by the library (for the command line this is `idle_options`); `--debug` is meant to make processing single-threaded but is asked for among the arguments of the subcommand, where it is not declared.

## Tests against wrong programs

`seeded/LOG.jsonl` records edits of the model in a scratch copy.  For each, the copy is built; a proof that fails is replaced by `sorry` and the build continues, until everything builds.  `failed` lists the theorems whose own proofs failed; the theorems of the claim that rest on one of these are the ones lost.  That a proof fails does not by itself show that the theorem is false of the edited program; entries where the edit turned out not to break the named claim say so.

## Axioms per theorem

For the theorems named in `MANIFEST.json` (namespace `Verif.Props` unless written out), as reported by `#print axioms`.

### Classical.choice, Quot.sound, propext (412 theorems)

`add_returns_id`, `add_variant_idempotent_partial`, `add_variant_twice`, `allow_overlap_ignored`, `alphabet_upper_bound_exact`, `anagram_instances_exact`, `anahash_eq_iff_anagram`, `anahash_normalize_agree`, `anahash_value`, `bag_difference_le`, `batch_no_better_reading_partial`, `best_sequence`, `bfs_exact`, `binary32_nearest`, `binary64_nearest`, `both_purposes_fails`, `both_purposes_fails'`, `boundaries_faithful`, `boundary_strengths`, `build_order_independent`, `byte_order_mark_is_read`, `cache_bounded`, `candidates_exact`, `candidates_order_independent`, `candidates_within_edit_distance`, `char_count_exact`, `cheapest_route`, `cheapest_route_first`, `chosen_mixed`, `command_line_parameters_partial`, `command_line_resources`, `command_line_weights`, `computed_ties`, `confusable_weight_product`, `contains_iff_subbag`, `context_rules`, `correct_line_unchanged`, `correct_text_unchanged`, `correct_text_undivided`, `correct_text_undivided_ieee`, `correct_word_replaced`, `correct_words_found`, `correction_idempotent`, `count_matches_exact`, `cutoff_accepted`, `cutoff_exact`, `cutoff_off`, `damerau_exact`, `damerau_none`, `damerau_self`, `damerau_sound_any_length`, `dangling_reference_panics`, `decompose_exact`, `defaults_differ`, `delete_defined`, `delete_is_difference`, `describes_lexisOf`, `describes_load`, `distance_bounds`, `distance_symm`, `distance_triangle`, `distance_zero_iff`, `duplicate_results`, `effective_absolute`, `effective_ratio`, `effective_ratio_limit`, `effective_ratio_sign`, `empty_input_panics`, `empty_is_empty_bag`, `errors_corrected`, `errors_corrected_in_text`, `errors_unsuggested`, `errors_unsuggested_in_stretches`, `errors_unsuggested_in_text`, `exLevels`, `exUndivided`, `exactDistance_isDistance`, `exact_match_candidate`, `exact_match_first`, `expansion_exact`, `extractThreshold_iff`, `failing_reader_hangs`, `filter_complete`, `filter_loses_disjoint`, `find_variants_defined`, `find_variants_exact`, `find_variants_order_independent`, `find_variants_total`, `first_failure_ends`, `found_in_anchored_exact`, `found_in_exact`, `found_in_single_exact`, `found_in_sound`, `frequencies_break_ties`, `frequency_combined`, `frequency_ranking_accurate`, `frequency_scores_between`, `frequency_scores_ordered`, `frequent_pair_loses`, `gather_empty_text_panics`, `gather_exact`, `greedy_unique`, `hashing_total`, `high_levels_exact`, `idle_options`, `ieee_reckons`, `ieee_sound`, `in_lexicon_exact`, `index_groups_anagrams`, `index_output`, `index_prints_words`, `index_run`, `index_runs_repeatable`, `index_succeeds`, `insert_is_union`, `irrelevant_options`, `iterChain_spec`, `iter_exact`, `iter_external_cache`, `iter_recursive_unique`, `iter_recursive_ways`, `json_learn_iff`, `json_learn_malformed`, `json_query_document`, `json_search_document`, `json_text_reads_back_iff_partial`, `json_two_files_malformed`, `json_unique`, `keywords_give`, `learn_keeps_index`, `learn_links`, `learn_overflow_fails`, `learn_reloads`, `learn_rounds`, `learn_run`, `learn_stretches_prints`, `learn_strict_prints`, `learn_succeeds`, `learn_words_prints`, `learned_form_not_found`, `learned_list_iff`, `learned_list_misread`, `learned_list_tab`, `learned_list_variants`, `levenshtein_exact`, `levenshtein_none`, `lexicon_limit`, `lexindex_as_vec_exact`, `lines_of_text`, `linked_suggested`, `listed_not_lm`, `listed_transition`, `lm_counts`, `lm_score_exact_partial`, `load_total`, `loaded_context`, `loaded_counts`, `loaded_entry`, `loaded_has`, `loaded_haveLm`, `loaded_history`, `loaded_lexindex`, `loaded_lm_run`, `loaded_perplexity`, `loaded_query_total`, `loaded_rules_run`, `loaded_search_total`, `loaded_tags`, `loaded_written`, `loads_as_python`, `lookup_exact`, `low_levels_same`, `main_output`, `matches_stretches`, `max_matches_exact`, `max_matches_exceeded_with_frequency`, `max_matches_one_returns_two`, `max_matches_partial`, `max_matches_weighted`, `max_matches_zero`, `mixed_lt`, `more_is_found`, `more_words_may_hide`, `multi_output_json_swapped`, `nearest_exact`, `nearest_exact_general`, `negated_groups_rejected`, `negative_weight_misranks`, `neighbouring_results_differ`, `newParams_fits`, `ngram_counts_exact`, `ngram_push`, `ngram_refines_list`, `ngram_toVec`, `ngram_totals_exact`, `ngrams_exact`, `no_better_reading_partial`, `no_duplicate_results_partial`, `no_error_left`, `no_frequencies_by_assignment`, `no_sequences_panics`, `number_of_results`, `offset_beyond_rule_panics`, `one_rule_per_word_partial`, `out_of_reach_irrelevant`, `output_order_json`, `output_order_tsv`, `overall_accurate`, `overcounted_pair_loses`, `overcounted_transition`, `parallel_learning`, `parallel_query`, `parallel_search`, `parameters_as_python`, `parents_exact`, `parse_fuel`, `parse_semantics_partial`, `parse_trim`, `perplexity_positive`, `plain_query`, `plain_search`, `plausible_figures`, `power_exact`, `power_safe`, `purposes_of_first_addition_partial`, `py_added_word_in_first_lexicon`, `py_built`, `py_divides`, `py_find_all_matches`, `py_find_variants`, `py_find_variants_par`, `py_freq_column_none`, `py_history`, `py_lexicons`, `py_many_lexicons`, `py_parameters`, `py_parameters_order`, `py_query_total`, `py_ratio_unchecked`, `py_read_back_fails`, `py_read_back_partial`, `py_search_total`, `py_suggestions`, `py_suggestions_par`, `py_vocab_parameters`, `py_weights`, `py_words`, `python_threshold_exact`, `query_accurate`, `query_as_python`, `query_by_lines`, `query_defaults`, `query_empty_line_fails`, `query_json_as_python`, `query_json_run`, `query_json_several_malformed`, `query_prints_before_panic`, `query_prints_similar`, `query_prints_suggestions`, `query_run`, `query_succeeds`, `query_succeeds_iff`, `query_thresholds_exact`, `query_ties_partial`, `query_writes_suggestions`, `rank_cmp_meaning`, `rank_cmp_total_preorder`, `rank_results_ranked`, `rank_results_unique`, `ranking_accurate`, `rare_figures`, `read_alphabet_hashes`, `read_variants`, `read_variants_links`, `reading_ends_iff`, `reading_gives`, `rebuild_doubles_counts`, `rebuild_idempotent_partial`, `redundant_iff`, `refSolver_best`, `refSolver_ok`, `relative_frequencies_count`, `relative_weights_count`, `release_confuses`, `release_vocabulary`, `reserved_never_indexed`, `resources_in_order`, `resources_read`, `result_scores_between`, `result_scores_bounded`, `results_above_threshold`, `results_are_best_candidates`, `results_are_best_expanded`, `results_close_to_best`, `results_differ_by_route`, `results_nonempty_iff`, `results_nonempty_partial`, `rule_added`, `rule_application_partial`, `run_ignores_line_ends`, `runs_repeatable`, `same_spelling_same_columns`, `same_spelling_same_variants`, `score_accurate`, `score_between`, `score_exact_of_power`, `score_one_only`, `search_accurate`, `search_as_python`, `search_as_queries`, `search_batches`, `search_by_groups`, `search_cheapest`, `search_cheapest_exact`, `search_cheapest_ieee`, `search_defaults`, `search_finds_clear`, `search_json_run`, `search_more_is_found`, `search_needs_words`, `search_order_independent`, `search_order_irrelevant`, `search_output`, `search_prints_cheapest`, `search_prints_readings`, `search_prints_similar`, `search_prints_suggestions`, `search_prints_weighed`, `search_prints_word_suggestions`, `search_reads`, `search_rows`, `search_run`, `search_succeeds`, `search_total`, `search_total_of_lookups`, `search_weighs`, `search_without_words`, `search_words_succeeds_iff`, `search_writes_readings`, `search_writes_suggestions`, `search_writes_weighed`, `search_writes_word_suggestions`, `second_search_empty`, `secondary_index_exact`, `secondary_index_sound`, `sequence_score`, `setParam_fits`, `shallow_cache_hides`, `similar_entries_found`, `similar_words_found`, `similarity_formula`, `single_count`, `single_word_first`, `single_word_ignores_rules`, `single_word_lost`, `slack32_le`, `solverAdds_within`, `spelling_case_matters`, `spelling_confusables_matter`, `stop_at_exact_match`, `suggested_links`, `suggested_not_error`, `sumSolver_adds`, `tags_resolve`, `tags_stable`, `testinput_run`, `testinput_succeeds`, `testinput_unknown_iff`, `text_matches`, `text_matches_unicode`, `text_option`, `text_tags`, `text_tags_numbered`, `threads_do_not_matter`, `threads_lose_lines`, `threads_print_beginning`, `threshold_exact`, `threshold_inexact`, `threshold_ratio_unchecked`, `tie_decided_by_rounding`, `ties_by_frequency_partial`, `trace_complete`, `transducer_routes`, `transparent_exact`, `transparent_match_dropped`, `transparent_only_as_reference_partial`, `transparent_returned_without_links`, `unbuilt_returns_nothing`, `unicode_offsets`, `unicode_offsets_fails`, `unicode_offsets_ignored`, `unigram_search`, `unigrams_words`, `unopened_file_after_output`, `unreadable_line_stops_parallel`, `untagged_word_reused`, `value_inj`, `variant_list_misread`, `vocab_assign`, `vocabulary_bijection`, `vocabulary_ids_stable`, `vocabulary_texts_distinct`, `ways_same_value`, `weights_as_python`, `weights_assign`, `weights_read_back`, `word_found_for_itself`, `word_order_irrelevant`, `word_order_may_matter`, `wordsOf_nodup`, `words_covered`, `words_covered_ieee`

### Quot.sound, propext (61 theorems)

`add_variant_idempotent_fails`, `addsAll_unique`, `adds_unique`, `alphabet_level`, `assign_none`, `assign_some`, `boundaries_partition`, `cache_after`, `callsAdd_unique`, `common_lengths_bounds`, `common_prefix_exact`, `common_suffix_exact`, `confusable_new_panics`, `encoding_exists_unique`, `faithful_slice`, `found_in_end_incomplete`, `found_in_incomplete`, `groups_cover`, `groups_unique`, `hashing_empty_string_panics`, `hashing_late_line_panics`, `hashing_unknown_panics`, `hashing_wraps_at_256`, `holds_iff`, `json_backslash_misread`, `json_text_unique`, `learned_links`, `listed_perm`, `loaded_confusables`, `loaded_rules`, `loaded_rules_of_lines`, `long_rule_wraps`, `longest_common_substring_exact`, `mem_runsFrom`, `multi_output_json_partial`, `multi_output_tsv`, `ngram_fromList`, `ngrams_faithful`, `normalize_equivalent_strings`, `normalize_is_greedy_encoding`, `pattern_semantics`, `py_score_readonly`, `read_alphabet_entries`, `read_alphabet_noEmpty`, `read_confusables`, `read_rules`, `read_vocabulary`, `release_agrees`, `release_agrees_many`, `reverse_index_exact`, `splitSpaces_isTokens`, `strength_unique`, `tag_end_panics`, `tag_index_wraps`, `tags_assigned`, `threshold_absolute_iff`, `threshold_limit_partial`, `threshold_ratio_iff`, `variantLines_unique`, `vocabLine_unique`, `words_of_text`

### propext (15 theorems)

`contains_zero_panics`, `count_matches_empty_diverges`, `damerau_inexact_beyond_255`, `lexindex_as_vec_omits_31`, `nearest_misses_long`, `nearest_panics_large_alphabet`, `ngram_first_pop`, `ngram_fromOptionList`, `parents_empty`, `pattern_shift_panics`, `rebuild_idempotent_fails`, `segmentation_unique`, `tokensOf_unique`, `variantLines_freq`, `variantLines_plain`
