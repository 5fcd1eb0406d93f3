{"id": "C01", "title": "Anagram values identify exactly the anagrams", "statement": "Two texts get the same anagram value if and only if their symbol sequences under the alphabet (greedy encoding, unknown characters mapped to one extra symbol) are permutations of each other. No two non-anagrams ever collide.", "quantifier": "all alphabets of at most 167 entries without empty strings, all pairs of texts of any length", "why_tests_cant": "Collision freedom is a statement about infinitely many pairs of texts and every alphabet; a test only samples pairs.", "anchors": ["src/anahash.rs: Anahashable::anahash", "src/anahash.rs: Anahash::character", "src/types.rs: PRIMES"]}
{"id": "C02", "title": "Alphabet encoding is the greedy first-match segmentation", "statement": "normalize_to_alphabet splits the text, left to right, into pieces; each piece is the first alphabet string in file order (line by line, left to right within a line) that is a prefix of the remaining text, and yields the index of its line; if no alphabet string is a prefix, exactly one character is consumed and yields the unknown code (alphabet length + 1). Texts that segment through equivalent strings get identical codes.", "quantifier": "all texts and all alphabets of at most 254 entries without empty strings", "why_tests_cant": "Greedy segmentation interacts with multi-character entries, multi-byte characters and order of the alphabet in unboundedly many ways.", "anchors": ["src/anahash.rs: Anahashable::normalize_to_alphabet"]}
{"id": "C03", "title": "Anagram value algebra is multiset algebra", "statement": "For anagram values of symbol bags A and B: insert gives the value of the union bag A+B; contains(A,B) holds iff B is a sub-bag of A; delete(A,B) is Some of the value of A-B iff B is a sub-bag of A and None otherwise; the empty value is that of the empty bag.", "quantifier": "all bags of symbols of any size over the 168 available primes", "why_tests_cant": "Unique factorisation over arbitrarily large products; tests check a handful of words.", "anchors": ["src/anahash.rs: Anahash::insert", "src/anahash.rs: Anahash::delete", "src/anahash.rs: Anahash::contains", "src/anahash.rs: Anahash::empty"]}
{"id": "C04", "title": "Counting functions report true symbol counts", "statement": "char_count of an anagram value is the number of symbols in the bag, count_matches of a symbol is its multiplicity, alphabet_upper_bound returns the highest symbol index and the number of symbols. count_matches with the empty value never returns.", "quantifier": "all bags of symbols (fewer than 65536 symbols) and all alphabet sizes that cover them", "why_tests_cant": "Needs induction over arbitrary bags; the non-termination on the empty value cannot be shown by running.", "anchors": ["src/anahash.rs: Anahash::char_count", "src/anahash.rs: Anahash::count_matches", "src/anahash.rs: Anahash::alphabet_upper_bound"]}
{"id": "C05", "title": "Iterating an anagram value lists its symbols in descending alphabet order", "statement": "iter over an anagram value yields, before ending, one item per symbol occurrence, with the symbol indices in descending order with multiplicity, the remaining value after each deletion, and depths 1,2,3,...", "quantifier": "all bags of symbols and every alphabet size covering them", "why_tests_cant": "Must hold for every bag; iterator state evolves over unboundedly many steps.", "anchors": ["src/anahash.rs: Anahash::iter", "src/iterators.rs: RecurseDeletionIterator::next (single beam)"]}
{"id": "C06", "title": "Parents of an anagram value are exactly its single deletions", "statement": "iter_parents yields, in descending symbol order and without repetition, exactly the values obtained by deleting one symbol that occurs in the bag, each paired with the deleted symbol index; the empty value has no parents.", "quantifier": "all bags of symbols and alphabet sizes", "why_tests_cant": "For-all over bags and alphabet sizes.", "anchors": ["src/iterators.rs: DeletionIterator::next", "src/anahash.rs: Anahash::iter_parents"]}
{"id": "C07", "title": "Breadth-first deletion search is exhaustive, duplicate-free and terminates", "statement": "iter_recursive with breadth-first, no duplicates, no empty leaves and a maximum distance k yields exactly the values of all non-empty sub-bags obtained by deleting between 1 and k symbols, each exactly once, together with the number of symbols deleted, in non-decreasing distance, and then ends.", "quantifier": "all bags, all maximum distances, all alphabet sizes covering the bag", "why_tests_cant": "The search space grows exponentially; the visited-set logic must be right on every path.", "anchors": ["src/iterators.rs: RecurseDeletionIterator::next", "src/anahash.rs: Anahash::iter_recursive"]}
{"id": "C08", "title": "Alphabet capacity and absence of panics in hashing", "statement": "For an alphabet of at most 167 entries with no empty strings, computing anagram values and normalised strings never panics on any text; every symbol index produced is within the prime table. An alphabet containing an empty string makes hashing of every non-empty text that reaches it panic; alphabets above the limit panic on unknown characters.", "quantifier": "all texts, all alphabets", "why_tests_cant": "Panic freedom is a for-all claim; boundary is about alphabets no test uses.", "anchors": ["src/anahash.rs: Anahashable::anahash", "src/types.rs: PRIMES"]}
{"id": "C09", "title": "levenshtein is the true edit distance with an exact cap", "statement": "levenshtein(a,b,max) is Some(d) iff the least number d of single-symbol insertions, deletions and substitutions turning a into b is at most max; otherwise it is None.", "quantifier": "all pairs of sequences, all caps 0..255", "why_tests_cant": "Minimality over all edit sequences is not testable.", "anchors": ["src/distance.rs: levenshtein"]}
{"id": "C10", "title": "damerau_levenshtein is the true unrestricted Damerau-Levenshtein distance with an exact cap", "statement": "damerau_levenshtein(s,t,max) is Some(d) iff the least number d of single-symbol insertions, deletions, substitutions and swaps of two adjacent symbols turning s into t is at most max; otherwise None. Exact for first arguments of up to 255 symbols; for longer ones a returned distance is never below the true one and never above the distance without swaps (Levenshtein), and None is only returned if the latter exceeds the cap.", "quantifier": "all pairs of sequences (first at most 255 symbols for exactness), all caps 0..255", "why_tests_cant": "Minimality ranges over all edit sequences of any length; correctness of the last-occurrence bookkeeping needs an optimality proof.", "anchors": ["src/distance.rs: damerau_levenshtein", "src/distance.rs: min4"]}
{"id": "C11", "title": "Edit distances obey the metric laws", "statement": "With a cap that is large enough, both distances are zero exactly for equal sequences, symmetric, satisfy the triangle inequality, are at least the length difference and at most the longer length. The distance of a sequence to itself is zero whatever its length.", "quantifier": "all triples of sequences up to 255 symbols", "why_tests_cant": "Universally quantified over triples.", "anchors": ["src/distance.rs: levenshtein", "src/distance.rs: damerau_levenshtein"]}
{"id": "C12", "title": "Common prefix, suffix and substring lengths are exact", "statement": "common_prefix_length / common_suffix_length return the largest k such that the first / last k symbols agree; longest_common_substring_length returns the length of the longest contiguous sequence occurring in both. Hence none exceeds the length of either argument, and on equal arguments each equals the length.", "quantifier": "all pairs of sequences (shorter than 65536 symbols)", "why_tests_cant": "Maximality is a universal claim.", "anchors": ["src/distance.rs: common_prefix_length", "src/distance.rs: common_suffix_length", "src/distance.rs: longest_common_substring_length"]}
{"id": "C13", "title": "Vocabulary ids and texts stay in one-to-one correspondence", "statement": "After any sequence of vocabulary, variant, learning and build operations on a fresh model: looking up a text gives id i exactly when resolving i gives an entry with that text; ids are 0..n-1; no text has two ids; ids handed out earlier keep resolving to the same text forever; each add returns the id of its text.", "quantifier": "all histories of operations of any length", "why_tests_cant": "Invariant over all operation histories.", "anchors": ["src/lib.rs: VariantModel::add_to_vocabulary", "src/lib.rs: VariantModel::get_vocab", "src/vocab.rs: init_vocab"]}
{"id": "C14", "title": "Duplicate entries combine frequencies as configured", "statement": "After adding a new text several times under one handling mode, its frequency is the sum, maximum, minimum or last of the given frequencies (missing ones count as 1) for Sum, Max, Min, Replace respectively, and adding other texts does not affect it.", "quantifier": "all sequences of additions interleaved with additions of other texts", "why_tests_cant": "Histories of arbitrary length and interleaving.", "anchors": ["src/lib.rs: VariantModel::add_to_vocabulary", "src/vocab.rs: FrequencyHandling"]}
{"id": "C15", "title": "Lexicon provenance is exact", "statement": "in_lexicon(i) on an entry is true exactly if the entry was added at least once with lexicon index i; lexindex_as_vec lists those indices in order. (The list omits index 31.)", "quantifier": "all histories of additions with lexicon indices below 32", "why_tests_cant": "Histories and bit patterns.", "anchors": ["src/vocab.rs: VocabValue::in_lexicon", "src/vocab.rs: VocabValue::lexindex_as_vec", "src/lib.rs: VariantModel::add_to_vocabulary"]}
{"id": "C16", "title": "Transparency is lost as soon as one non-transparent source provides the entry, and only then", "statement": "A non-reserved entry is transparent at the end of a history exactly if its first addition was transparent and no later addition was non-transparent.", "quantifier": "all histories of additions", "why_tests_cant": "Histories.", "anchors": ["src/lib.rs: VariantModel::add_to_vocabulary", "src/vocab.rs: VocabType"]}
{"id": "C17", "title": "An entry in both the language model list and a lexicon serves both purposes", "statement": "An entry that is added once as language-model item and once as lexicon item (any order) is afterwards both indexed for matching and counted in the language model.", "quantifier": "all histories of additions", "why_tests_cant": "Order dependence over histories. (The code violates this; the negation is proved.)", "anchors": ["src/lib.rs: VariantModel::add_to_vocabulary", "README.md: Language Model"]}
{"id": "C18", "title": "Reserved tokens are never matched", "statement": "The begin, end and unknown markers always keep ids 0, 1, 2, and are never in the anagram index, whatever is added to the vocabulary.", "quantifier": "all histories", "why_tests_cant": "Histories.", "anchors": ["src/vocab.rs: init_vocab", "src/lib.rs: VariantModel::build"]}
{"id": "C19", "title": "After build, lookup by text is exact", "statement": "After build, has(text) is true and get(text) returns the entry exactly if text is an indexed vocabulary entry; get_anagram_instances(text) returns exactly the indexed entries that are anagrams of the text, each once, in id order.", "quantifier": "all histories followed by build, all query texts, alphabets within capacity", "why_tests_cant": "For all vocabularies and queries.", "anchors": ["src/lib.rs: VariantModel::build", "src/lib.rs: VariantModel::get", "src/lib.rs: VariantModel::has", "src/lib.rs: VariantModel::get_anagram_instances"]}
{"id": "C20", "title": "The secondary index partitions the primary index by length, sorted", "statement": "After build, each anagram value in the index occurs exactly once in the secondary index, under its exact number of symbols, and each list in the secondary index is sorted ascending without repetition.", "quantifier": "all vocabularies", "why_tests_cant": "For-all vocabularies, independent of hash order.", "anchors": ["src/lib.rs: VariantModel::build", "src/lib.rs: VariantModel::get_or_create_index"]}
{"id": "C21", "title": "Rebuilding is idempotent", "statement": "Calling build again without intermediate changes leaves the search index, the secondary index and the vocabulary unchanged, and leaves the n-gram counts unchanged.", "quantifier": "all models", "why_tests_cant": "For-all models. (The n-gram part is violated by the code: counts are added again; negation proved.)", "anchors": ["src/lib.rs: VariantModel::build"]}
{"id": "C22", "title": "Nothing depends on hash-map iteration order", "statement": "The state after build, and the outcome of find_variants, are the same whatever order hash maps are iterated in.", "quantifier": "all iteration orders (permutations) at every place a hash map is iterated, all models and inputs", "why_tests_cant": "Hash seeds randomise orders; tests see a few.", "anchors": ["src/lib.rs: VariantModel::build", "src/lib.rs: VariantModel::find_nearest_anahashes"]}
{"id": "C23", "title": "Anagram search returns exactly the indexed values within anagram distance", "statement": "For exhaustive search with distance k, the anagram values considered are exactly the indexed values that are equal to the query value or share at least one symbol with it and whose symmetric bag difference with the query has size at most k (query symbol count plus k at most 255).", "quantifier": "all vocabularies, queries and distances", "why_tests_cant": "Exhaustive neighbourhood claim; the combination of deletions and insertion look-ups has unboundedly many cases. (Beyond 255 symbols the code misses neighbours; witness proved.)", "anchors": ["src/lib.rs: VariantModel::find_nearest_anahashes"]}
{"id": "C24", "title": "The anagram filter never loses an entry within the edit distance when the anagram distance is at least twice as large", "statement": "Bag difference is at most twice the Damerau-Levenshtein distance; hence with effective anagram distance >= 2 * effective edit distance, every indexed entry within the edit distance that shares a symbol with the query is a candidate of find_variants.", "quantifier": "all vocabularies, queries, parameters", "why_tests_cant": "Completeness of a heuristic search over all lexicons.", "anchors": ["src/lib.rs: VariantModel::find_variants", "src/lib.rs: VariantModel::gather_instances"]}
{"id": "C25", "title": "Candidates carry correct distances and appear once", "statement": "gather_instances returns, for the selected anagram values, each indexed entry within the edit distance exactly once, with its exact edit distance, prefix, suffix and common-substring lengths (or 0 when the weight is not positive) and case agreement of the first character.", "quantifier": "all models, queries, sets of anagram values", "why_tests_cant": "For-all.", "anchors": ["src/lib.rs: VariantModel::gather_instances"]}
{"id": "C26", "title": "Effective distance thresholds respect the configured limits", "statement": "The distance actually used never exceeds: the absolute value and half the input length (Absolute), 12 and ratio times length (Ratio), the limit and ratio times length (RatioWithLimit); no entry with a larger edit distance is ever a candidate.", "quantifier": "all thresholds and inputs", "why_tests_cant": "For-all inputs and thresholds.", "anchors": ["src/lib.rs: VariantModel::find_variants", "src/types.rs: DistanceThreshold"]}
{"id": "C27", "title": "Stop-at-exact-match returns only anagrams of the query when one exists, and otherwise changes nothing", "statement": "With StopAtExactMatch, if the index has the query's anagram value, exactly this value is considered; otherwise the result equals the exhaustive one.", "quantifier": "all models and queries", "why_tests_cant": "For-all.", "anchors": ["src/lib.rs: VariantModel::find_nearest_anahashes", "src/types.rs: StopCriterion"]}
{"id": "C28", "title": "Similarity scores lie between 0 and 1", "statement": "With non-negative weights with positive sum, every similarity score computed for a candidate lies in [0,1], also under floating point rounding.", "quantifier": "all candidates, all weights, every monotone rounding of arithmetic", "why_tests_cant": "Rounding and for-all inputs.", "anchors": ["src/lib.rs: VariantModel::score_and_rank", "src/types.rs: Weights"]}
{"id": "C29", "title": "An exact match scores exactly 1.0", "statement": "If the query text is itself an indexed entry and weights are non-negative with positive sum, that entry is a candidate with similarity score exactly 1.0, also under rounding, and so the first result has score 1.0 when no confusables or variant links are involved and the score is not weighted by frequency.", "quantifier": "all models containing the query, all weights, every monotone rounding", "why_tests_cant": "Float equality claims for all weights.", "anchors": ["src/lib.rs: VariantModel::score_and_rank", "README.md: Scores and ranking"]}
{"id": "C30", "title": "Results are ranked best first by a consistent order", "statement": "rank_results returns a permutation of its input in which every result scores at least as high as every later one; without frequency weight ties are ordered by frequency score; equal results keep their order. The comparison is a total preorder.", "quantifier": "all result lists and non-negative frequency weights", "why_tests_cant": "Order laws over all triples.", "anchors": ["src/types.rs: VariantResult::rank_cmp", "src/types.rs: VariantResult::score", "src/lib.rs: VariantModel::rank_results"]}
{"id": "C31", "title": "Nothing below the score threshold is returned", "statement": "Without confusables and without variant links, every returned result has similarity score at least score_threshold, and its score is that of its candidate.", "quantifier": "all models, inputs and thresholds", "why_tests_cant": "For-all. (With confusables or variant expansion the rescored value may drop below; witness proved.)", "anchors": ["src/lib.rs: VariantModel::score_and_rank"]}
{"id": "C32", "title": "max_matches bounds the number of results", "statement": "With max_matches = m > 0, at most m results are returned; with 0 the number is not bounded.", "quantifier": "all candidate lists, all m", "why_tests_cant": "Tie handling depends on where ties fall. (False for m = 1 with a tie at the top and with frequency weighting; the true part and the witnesses are proved.)", "anchors": ["src/lib.rs: VariantModel::score_and_rank"]}
{"id": "C33", "title": "The cutoff threshold keeps exactly the results close enough to the best", "statement": "With cutoff c >= 1 all returned results other than the first score strictly more than best/c, and no result that scores more than best/c is removed by this step; with c < 1 this step removes nothing.", "quantifier": "all ranked lists and thresholds", "why_tests_cant": "For-all.", "anchors": ["src/lib.rs: VariantModel::score_and_rank"]}
{"id": "C34", "title": "The best candidate survives pruning", "statement": "If some candidate passes the score threshold, the result list is not empty, and without late confusable rescoring its first element is maximal in rank among all candidates after expansion; the result is a sublist (in rank order) of the ranked candidates.", "quantifier": "all candidate lists and parameters", "why_tests_cant": "For-all.", "anchors": ["src/lib.rs: VariantModel::score_and_rank"]}
{"id": "C35", "title": "Frequency scores are normalised", "statement": "Frequency scores of results lie between 0 and 1, also under rounding, and preserve the order of the underlying frequencies.", "quantifier": "all models and inputs, every monotone rounding", "why_tests_cant": "For-all.", "anchors": ["src/lib.rs: VariantModel::score_and_rank"]}
{"id": "C36", "title": "No entry is returned twice", "statement": "No two results of find_variants carry the same vocabulary id.", "quantifier": "all models and queries", "why_tests_cant": "Depends on interleavings of scores. (True without variant links; false with them, since only adjacent duplicates are removed; both proved.)", "anchors": ["src/lib.rs: VariantModel::score_and_rank", "src/lib.rs: VariantModel::expand_variants"]}
{"id": "C37", "title": "Transparent entries are replaced by what they are variants of", "statement": "Expansion returns each non-transparent result unchanged plus, for every recorded reference of a result, the reference with product score, the minimum of the two frequencies and the intermediary recorded; a transparent entry is only ever returned as the reference of another result.", "quantifier": "all models and result lists", "why_tests_cant": "For-all.", "anchors": ["src/lib.rs: VariantModel::expand_variants"]}
{"id": "C38", "title": "Confusable patterns match only if they occur in the edit script", "statement": "found_in returns true only if the pattern's instructions match a contiguous run of the script (starting at the beginning if ^, finishing at the end if $); the weight of a candidate is the product of the weights of the matching patterns, 1.0 if none.", "quantifier": "all patterns and edit scripts", "why_tests_cant": "For-all. (The converse fails: the scan does not restart inside a failed partial match; witness proved. What the scan finds is also described exactly.)", "anchors": ["src/confusables.rs: Confusable::found_in", "src/lib.rs: VariantModel::compute_confusable_weight"]}
{"id": "C39", "title": "find_variants never panics on non-empty input to a built model", "statement": "On a model reached by any history ending in build, with an alphabet of at most 166 entries, non-negative weights with positive sum, find_variants returns normally for every non-empty input shorter than 256 symbols. On empty input with a non-empty index it panics; on an unbuilt model it returns nothing.", "quantifier": "all histories, inputs and parameters", "why_tests_cant": "Panic freedom is a universal claim.", "anchors": ["src/lib.rs: VariantModel::find_variants"]}
{"id": "C40", "title": "Tokenisation partitions the text", "statement": "find_boundaries returns non-alphabetic runs in order, non-overlapping, the last one ending at the end of the text; the stretches between them contain only alphabetic characters and are non-empty except possibly the one before the first boundary; alternating stretches and boundaries concatenate to the text; each boundary's text equals the text at its offsets, which lie on character boundaries.", "quantifier": "all Unicode texts and every classification of characters as alphabetic", "why_tests_cant": "For-all texts.", "anchors": ["src/search.rs: find_boundaries"]}
{"id": "C41", "title": "Boundary strengths", "statement": "classify_boundaries gives one strength per boundary; the last is hard; others are hard iff longer than one byte, weak iff exactly ', - or _, normal otherwise.", "quantifier": "all boundary lists", "why_tests_cant": "For-all.", "anchors": ["src/search.rs: classify_boundaries"]}
{"id": "C42", "title": "N-gram extraction yields exactly the runs of n consecutive tokens", "statement": "For a batch, find_match_ngrams of order n returns exactly the stretches from the start of a token to the end of the (n-1)th token after it, in order, each with correct offsets and text, skipping only empty and single-space stretches.", "quantifier": "all texts, batches and orders", "why_tests_cant": "For-all.", "anchors": ["src/search.rs: find_match_ngrams", "src/search.rs: Match::internal_boundaries"]}
{"id": "C43", "title": "Higher-order matches are skipped only when all their words are already perfect", "statement": "redundant_match holds iff every unigram match inside the candidate has a best variant with score at least 1.0.", "quantifier": "all match lists with unigrams first", "why_tests_cant": "For-all.", "anchors": ["src/search.rs: redundant_match"]}
{"id": "C44", "title": "Matches in running text are faithful to the text, ordered and non-overlapping", "statement": "Every match returned by find_all_matches has text equal to the input at its offsets; matches appear in text order and never overlap; a selected variant index refers to an existing variant (or the variant list is empty).", "quantifier": "all texts, models, parameters and every choice the shortest-path solver may make", "why_tests_cant": "For-all texts and solver behaviours.", "anchors": ["src/lib.rs: VariantModel::find_all_matches", "src/lib.rs: VariantModel::most_likely_sequence"]}
{"id": "C45", "title": "Unigram search returns every word of the text exactly once", "statement": "With n-gram order 1, no language model and no context rules, find_all_matches returns exactly the maximal alphabetic runs of the text, in order, each with the result of find_variants and its top candidate selected.", "quantifier": "all texts and models", "why_tests_cant": "For-all.", "anchors": ["src/lib.rs: VariantModel::find_all_matches"]}
{"id": "C46", "title": "Unicode offsets count characters", "statement": "With unicodeoffsets, begin and end of each match are the number of characters before its begin and end; taking that character range of the input gives the match text; conversion never panics.", "quantifier": "all texts and matches on character boundaries", "why_tests_cant": "For-all Unicode texts.", "anchors": ["src/search.rs: remap_offsets_to_unicodepoints", "src/search.rs: Offset::convert"]}
{"id": "C47", "title": "Parallel and sequential search agree", "statement": "The result of searching with multiple threads equals that of single_thread, for every order in which the workers process the segments.", "quantifier": "all schedules (orders of processing the segments)", "why_tests_cant": "Schedules cannot be enumerated by tests.", "anchors": ["src/lib.rs: VariantModel::find_all_matches", "src/lib.rs: VariantModel::learn_variants"]}
{"id": "C48", "title": "The best sequence is chosen", "statement": "most_likely_sequence returns a sequence whose combined score is not exceeded by any other candidate sequence returned by the solver; without language model and context rules, it has least variant cost among the candidates. For a batch with a single boundary the scores degenerate and the first enumerated candidate is returned.", "quantifier": "all batches, candidates and solver behaviours", "why_tests_cant": "For-all. (Single-token batches violate the first sentence; proved.)", "anchors": ["src/lib.rs: VariantModel::most_likely_sequence"]}
{"id": "C49", "title": "Segmentation always has a complete path and never panics", "statement": "For every batch the transducer has a path from start to the final state, every match has a next boundary, and every transition goes strictly forward, so every path is finite and the lookup of boundaries never fails.", "quantifier": "all texts, batches and models", "why_tests_cant": "For-all.", "anchors": ["src/lib.rs: VariantModel::most_likely_sequence"]}
{"id": "C50", "title": "Pattern matching semantics", "statement": "A pattern element matches a position as documented: ? always; ^ iff the word is in no lexicon; @lex iff the word is in that lexicon; a word iff it is that vocabulary item; ! negates; | is disjunction. Parsing a textual pattern yields the pattern with that meaning.", "quantifier": "all patterns, sequences and positions", "why_tests_cant": "Recursive structure.", "anchors": ["src/search.rs: PatternMatch::matches", "src/search.rs: PatternMatch::parse"]}
{"id": "C51", "title": "A context rule tags exactly the matched positions", "statement": "ContextRule::matches succeeds iff the rule fits at the position and no position in its range is already covered; it then sets exactly these positions, with the rule's score and, per tag, the positions within the tag's offset and length, numbered from 0; otherwise nothing changes.", "quantifier": "all rules, sequences, positions and prior results", "why_tests_cant": "For-all.", "anchors": ["src/search.rs: ContextRule::matches"]}
{"id": "C52", "title": "Each word takes part in at most one context rule, first rule first", "statement": "test_context_rules covers each position by at most one rule application, preferring leftmost positions and earlier rules, and the score is the mean of the per-position scores (1.0 for uncovered).", "quantifier": "all sequences and rule lists", "why_tests_cant": "For-all. (Violated when a tag offset leaves a position untagged: such a position can be matched again; witness proved.)", "anchors": ["src/lib.rs: VariantModel::test_context_rules", "README.md: Context Rules"]}
{"id": "C53", "title": "Tags resolve to the names given", "statement": "After any sequence of add_contextrule calls, every tag index stored in a rule resolves in the tag list to the name given in that call, equal names share an index, and indices never change meaning.", "quantifier": "all sequences of rule additions with at most 65536 different names", "why_tests_cant": "Histories. (Beyond 65536 names the stored index is truncated; proved.)", "anchors": ["src/lib.rs: VariantModel::add_contextrule"]}
{"id": "C54", "title": "NGram behaves as a list of at most five ids", "statement": "from_list, to_vec, len, push, first, pop_first, pop_last behave exactly like the operations on a list of ids with capacity five; conversions round-trip; more than five items are rejected.", "quantifier": "all ids and operation sequences", "why_tests_cant": "Histories.", "anchors": ["src/types.rs: NGram"]}
{"id": "C55", "title": "Language model counts are the total frequencies", "statement": "After a first build, the count of an n-gram is the sum of frequencies of the language-model entries whose tokens (unknown tokens as the unknown marker) form that n-gram; entries of more than 5 tokens are ignored; per-order totals are the sums of these frequencies.", "quantifier": "all vocabularies (entries with fewer than 255 spaces)", "why_tests_cant": "For-all.", "anchors": ["src/lib.rs: VariantModel::build", "src/lib.rs: VariantModel::into_ngram", "src/lib.rs: VariantModel::add_ngram", "src/lib.rs: VariantModel::encode_token"]}
{"id": "C56", "title": "Language model scoring covers each transition once", "statement": "lm_score scores the token sequence: begin marker, tokens of each output symbol and its boundary, end marker; the number of transitions is the number of tokens minus one, each contributes its conditional log-probability or the smoothing constant.", "quantifier": "all sequences", "why_tests_cant": "For-all.", "anchors": ["src/lib.rs: VariantModel::lm_score", "src/lib.rs: VariantModel::lm_score_tokens"]}
{"id": "C57", "title": "Learning only adds links, never search candidates", "statement": "learn_variants never changes ids or texts of existing entries, links each learned form and its reference in both directions, returns the number of links made; and the anagram index after the automatic rebuild equals the one before it (learned forms are not indexed).", "quantifier": "all models, inputs, parameters", "why_tests_cant": "For-all. (The documentation promises that learned variants take part in matching in later iterations; the theorem shows that they do not.)", "anchors": ["src/lib.rs: VariantModel::learn_variants", "src/lib.rs: VariantModel::add_variant_by_id"]}
{"id": "C58", "title": "Adding the same variant twice has the effect of adding it once", "statement": "Adding a variant link that already exists changes nothing (only the first mention counts).", "quantifier": "all models, all pairs of entries", "why_tests_cant": "Histories. (True for the reference side, false for the variant side, where a duplicate link is stored; both proved.)", "anchors": ["src/lib.rs: VariantModel::add_variant_by_id"]}
{"id": "C59", "title": "The reverse index records each non-exact instantiation", "statement": "add_to_reverse_index appends exactly one entry for the matched item, known inputs by id and unknown ones by text, and does nothing when the input is the matched item itself; other items are untouched.", "quantifier": "all histories of calls", "why_tests_cant": "Histories.", "anchors": ["src/lib.rs: VariantModel::add_to_reverse_index"]}
{"id": "C60", "title": "Query mode gives the same output in parallel batches as line by line", "statement": "For input without read errors, the parallel query mode prints the same results, in the same order and with the same sequence numbers, as the sequential mode.", "quantifier": "all inputs of any number of lines", "why_tests_cant": "Batch boundaries at 1000 lines; any input length.", "anchors": ["src/bin/analiticcl.rs: process", "src/bin/analiticcl.rs: process_par"]}
{"id": "C61", "title": "Search mode batches cover the input", "statement": "The batches passed to find_all_matches contain every input line exactly once and in order, at most 100 lines per batch, joined by a single separator; the loop terminates.", "quantifier": "all inputs", "why_tests_cant": "For-all.", "anchors": ["src/bin/analiticcl.rs: process_search"]}
{"id": "C62", "title": "JSON output of texts can be read back", "statement": "A text printed between quotes in JSON output reads back as the same text.", "quantifier": "all texts", "why_tests_cant": "For-all texts. (False for texts with a backslash or control character, since only quotes are escaped; true otherwise; both proved.)", "anchors": ["src/bin/analiticcl.rs: output_matches_as_json", "src/bin/analiticcl.rs: output_result_as_json"]}
{"id": "C63", "title": "Output lists each variant exactly once with the selected one first", "statement": "The printed variants are a permutation of the result list, with the selected variant (if it exists) first and the others in rank order.", "quantifier": "all result lists and selections", "why_tests_cant": "For-all.", "anchors": ["src/bin/analiticcl.rs: output_matches_as_tsv", "src/bin/analiticcl.rs: output_matches_as_json"]}
{"id": "C64", "title": "The visited cache stays bounded", "statement": "After check, a cache with a positive maximum holds at most that many values; check never removes values from a cache within its bound; a maximum of 0 means unbounded.", "quantifier": "all caches", "why_tests_cant": "For-all.", "anchors": ["src/cache.rs: Cache::check", "src/cache.rs: Cache::clear"]}
{"id": "C65", "title": "Reading an alphabet file gives the documented entries", "statement": "Each non-empty line becomes one alphabet entry with its non-blank tab-separated fields trimmed, with \\s, \\t, \\n standing for space, tab, newline; no entry ever contains an empty string, so hashing with an alphabet read from a file never hits the empty-string panic.", "quantifier": "all file contents", "why_tests_cant": "For-all files.", "anchors": ["src/lib.rs: VariantModel::read_alphabet"]}
{"id": "C66", "title": "Distance thresholds parse as documented", "statement": "Parsing a threshold accepts an integer 0..255 as absolute, a float in [0,1] as ratio, ratio;limit as combination, and rejects everything else.", "quantifier": "all strings", "why_tests_cant": "For-all strings.", "anchors": ["src/types.rs: DistanceThreshold::from_str"]}
{"id": "C67", "title": "Reading a lexicon or variant list equals adding its lines", "statement": "Reading a vocabulary file has the effect of adding each non-empty line's text with its frequency under the next free lexicon index; reading a variant list additionally links every variant of a line to its reference; a missing frequency counts as 1.", "quantifier": "all file contents that parse", "why_tests_cant": "For-all files.", "anchors": ["src/lib.rs: VariantModel::read_vocabulary", "src/lib.rs: VariantModel::read_variants"]}
{"id": "C68", "title": "No word of the text is lost", "statement": "Without language model and context rules, every word of the text lies within a returned match (and, since matches do not overlap, within exactly one): skipping a word is never cheaper than keeping it.", "quantifier": "all texts, vocabularies and parameters, confusables that raise a score by at most nine tenths, for a solver that returns a cheapest path, and returns it first where all paths have one transition", "why_tests_cant": "For-all; depends on the costs of all routes. (Violated for single word batches if the solver returns paths in another order, as a comment in the code says it may; proved.)", "anchors": ["src/lib.rs: VariantModel::most_likely_sequence", "src/lib.rs: VariantModel::find_all_matches"]}
{"id": "C69", "title": "Added context rules mean what was written", "statement": "add_contextrule, given patterns separated by semicolons with known names, tags and tag offsets in the documented notation, stores exactly one rule whose pattern elements have the documented meaning, with the score, tags and offsets given; a missing length extends to the end of the rule and a missing offset stands for the whole rule.", "quantifier": "all rule texts of fewer than 256 words in the documented notation, all prior rules", "why_tests_cant": "Unbounded texts, with all uses of blanks.", "anchors": ["src/lib.rs: VariantModel::add_contextrule", "README.md: Entity Tagging"]}
{"id": "C70", "title": "A context rule file is its lines, in order", "statement": "read_contextrules has the effect of calling add_contextrule for each line that is not empty and not a comment, in the order of the file and up to the first error, with the columns split at tabs, tags and offsets split at semicolons and trimmed, and the offset 0: for a single tag without one.", "quantifier": "all files", "why_tests_cant": "Unbounded files.", "anchors": ["src/lib.rs: VariantModel::read_contextrules"]}
{"id": "C71", "title": "JSON output of query and search mode is a document", "statement": "For one input, the JSON output of query mode and of search mode is a JSON array with one object per line or match, in order, whose members are the input, offsets, tags and variants found.", "quantifier": "all inputs and vocabularies whose texts need no escapes but for quotes", "why_tests_cant": "Unbounded inputs; requires a grammar. (Violated for two or more input files with results: the comma between them is missing; proved.)", "anchors": ["src/bin/analiticcl.rs: process", "src/bin/analiticcl.rs: process_search", "src/bin/analiticcl.rs: output_matches_as_json", "src/bin/analiticcl.rs: main"]}
{"id": "C72", "title": "When the JSON output of learning is a document", "statement": "The JSON output of learn mode is a JSON document if and only if the model holds no variant to print (a comma follows the last variant of each list).", "quantifier": "all models", "why_tests_cant": "For all models; requires a grammar. (One would expect a document in all cases; that is refuted.)", "anchors": ["src/bin/analiticcl.rs: output_weighted_variants_as_json"]}
{"id": "C73", "title": "The input test finds exactly the unknown characters", "statement": "testinput reports a line as unknown exactly if some character of it is matched by no string of the alphabet in the greedy encoding.", "quantifier": "all alphabets of at most 167 entries and all lines", "why_tests_cant": "For-all texts; depends on unique factorisation.", "anchors": ["src/bin/analiticcl.rs: main (testinput)", "src/anahash.rs: contains"]}
{"id": "C74", "title": "Output to several files follows the lexicons", "statement": "With multiple output, a learned variant is written to the files of the lexicons it is in, with its score and frequency.", "quantifier": "all lexicon bit sets", "why_tests_cant": "For-all bit sets. (JSON: right files, but score and frequency are swapped. TSV: violated, the first file gets what is not in it, the third and later get nothing; proved.)", "anchors": ["src/bin/analiticcl.rs: output_weighted_variant_as_tsv", "src/bin/analiticcl.rs: output_weighted_variant_as_json"]}
{"id": "C75", "title": "Learning rounds", "statement": "Learning runs the given number of rounds or stops after the first that learns nothing, each from the model the previous one left.", "quantifier": "all inputs and numbers of rounds", "why_tests_cant": "For-all numbers of rounds.", "anchors": ["src/bin/analiticcl.rs: process_learn"]}
{"id": "C76", "title": "Searching a text never panics", "statement": "In a built model, searching any text whose runs of up to max_ngram words have at most 65280 characters returns normally, with any language model and context rules that fit the code's limits.", "quantifier": "all vocabularies, rules, language models, parameters (at least one sequence) and texts", "why_tests_cant": "For-all texts and models. (With max_seq = 0 the search panics: proved.)", "anchors": ["src/lib.rs: find_all_matches", "src/lib.rs: most_likely_sequence", "src/lib.rs: lm_score", "src/lib.rs: test_context_rules"]}
{"id": "C77", "title": "The chosen reading is not dominated", "statement": "The score of a reading is the weighted mean of the logarithms of how its perplexity, cost and context score compare to the best; of the readings proposed by the solver for a batch of two or more words, none that is at least as good in all respects that count and better in one is passed over.", "quantifier": "all batches, vocabularies, language models with discounted pairs, rules with positive scores, weights", "why_tests_cant": "For-all models and texts. (Violated for batches of one word, where language model and rules are ignored, and for pairs counted more often than their first token: proved.)", "anchors": ["src/lib.rs: most_likely_sequence"]}
{"id": "C78", "title": "Tags of matches in text", "statement": "Each match of a search in text carries exactly the tags, numbered by position, that the context rule application it takes part in gives it, and none if it takes part in none.", "quantifier": "all texts, rules, solvers", "why_tests_cant": "For-all texts and rule sets.", "anchors": ["src/lib.rs: most_likely_sequence", "src/lib.rs: test_context_rules", "src/types.rs: ContextRule::matches"]}
{"id": "C79", "title": "Every mode of the recursive deletion search", "statement": "For every setting (depth or breadth first, least and greatest number of deletions, empty leaves or not) the recursive deletion search without duplicates yields exactly the bags left by an allowed number of deletions, each once; with duplicates it yields one item per order of deletions, each once, in lexicographic order (larger symbols first), breadth first sorted by number of deletions; with a cache of the caller, depth first, exactly what the cache lacks. Afterwards, in every mode, the cache holds what it held and, if without duplicates, exactly the values yielded; depth first, a second search of the same value with it yields nothing (unless zero deletions are allowed).", "quantifier": "all bags, alphabet sizes up to 168, settings, caches that hold with each bag the bags below it", "why_tests_cant": "The tests run four settings on single words. (A cache left by a shallower search hides bags: proved.)", "anchors": ["src/iterators.rs: RecurseDeletionIterator", "src/anahash.rs: iter_recursive", "src/anahash.rs: iter_recursive_external_cache"]}
{"id": "C80", "title": "A loaded model is determined by the command line", "statement": "Loading a model from an alphabet, lexicons, variant lists, error lists and language models reads the resources in the order of the command line, language models last; the result holds exactly the entries the lines of the files stand for, with the greatest of their frequencies, the lexicons they occur in and the transparency of error lists; queries and text searches on a loaded model never panic.", "quantifier": "all contents of files, command lines, iteration orders, inputs", "why_tests_cant": "For-all files and command lines; the tests load single files.", "anchors": ["src/bin/analiticcl.rs: main", "src/lib.rs: read_vocabulary", "src/lib.rs: read_variants", "src/lib.rs: build"]}
{"id": "C81", "title": "The printed index is the vocabulary grouped by anagram value", "statement": "The subcommand index prints exactly one line for each anagram value of an indexed entry, with the value and all indexed entries that have it in order of their ids, and nothing else.", "quantifier": "all alphabets of at most 167 lines, vocabularies, iteration orders", "why_tests_cant": "For-all vocabularies; there are no tests of the tool.", "anchors": ["src/bin/analiticcl.rs: main", "src/lib.rs: build"]}
{"id": "C82", "title": "Confusable lists and the cutoff", "statement": "A list of confusables is read without error exactly if each non-empty line is a script, optionally followed by a weight; the confusables are added in order. Of the numbers the tool accepts as cutoff threshold exactly zero and those of at least one.", "quantifier": "all contents of files, all cutoffs", "why_tests_cant": "For-all files.", "anchors": ["src/lib.rs: read_confusablelist", "src/lib.rs: add_to_confusables", "src/bin/analiticcl.rs: main"]}
{"id": "C83", "title": "What Python programs get is what the library found", "statement": "A model made by a Python program holds exactly what its calls add, in order, and goes on unchanged after a call that raises an exception; with at most 32 lexicons queries on a built model never panic; the dictionaries returned for variants and matches give text, scores, origin, the names of exactly the lexicons of the entry, tags with their numbers, and the selected variant first; the parallel query returns the same results in the order of the inputs.", "quantifier": "all programs of calls, files, inputs, schedules", "why_tests_cant": "For-all programs and schedules; the bindings have no tests of their own results against the library.", "anchors": ["bindings/python/src/lib.rs: variantresult_to_dict", "bindings/python/src/lib.rs: find_variants", "bindings/python/src/lib.rs: find_variants_par", "bindings/python/src/lib.rs: find_all_matches", "bindings/python/src/lib.rs: read_lexicon"]}
{"id": "C84", "title": "Options of the command line become the parameters", "statement": "Every option of the command line that sets a search parameter, a weight or a resource has the effect of its value, or of the documented default if it is not given, and a value that is not of the right form is an error.", "quantifier": "all command lines accepted by the argument parser", "why_tests_cant": "For-all combinations of options; the tool has no tests.", "anchors": ["src/bin/analiticcl.rs: main", "src/bin/analiticcl.rs: common_arguments", "src/types.rs: SearchParameters::default"]}
{"id": "C85", "title": "Keyword arguments of the Python classes become the parameters", "statement": "Each keyword argument of SearchParameters and VocabParams sets exactly its own parameter to the converted value; arguments that are unknown or do not convert have no effect; the order of the arguments makes no difference; the only exceptions are names of frequency handling and vocabulary types that are not strings.", "quantifier": "all lists of keyword arguments with distinct keys and values of all types", "why_tests_cant": "For-all combinations of arguments and values.", "anchors": ["bindings/python/src/lib.rs: PySearchParameters::new", "bindings/python/src/lib.rs: extract_distance_threshold", "bindings/python/src/lib.rs: PyVocabParams::new"]}
{"id": "C86", "title": "Python parameters can be read back", "statement": "Assigning to an attribute has the effect of the keyword argument or raises an exception; parameters always fit their types; making parameters from the dictionary of others gives equal parameters.", "quantifier": "all parameters, keys and values", "why_tests_cant": "For-all values.", "anchors": ["bindings/python/src/lib.rs: to_dict", "bindings/python/src/lib.rs: get_max_edit_distance", "bindings/python/src/lib.rs: set_max_edit_distance"]}
{"id": "C87", "title": "Runs of the tool are repeatable", "statement": "Two runs of the tool with the same command line, files and standard input end in the same way and print the same, whatever the iteration orders of hash maps and the schedule of the threads; for the subcommand index the lines may be in another order. The options --single-thread and --interactive make no difference to the result of a query, search or learning if all lines can be read.", "quantifier": "all command lines that are accepted, all files, all iteration orders, all schedules", "why_tests_cant": "For-all iteration orders and schedules of the whole pipeline; a test sees a few.", "anchors": ["src/bin/analiticcl.rs: main", "src/lib.rs: find_variants", "src/lib.rs: find_all_matches", "src/lib.rs: learn_variants"]}
{"id": "C88", "title": "What a run prints", "statement": "A run of the tool that ends normally prints, for each subcommand, exactly: for query one row per readable input line with the variants the library finds for it with the loaded resources, weights and parameters; for search the rows of the matches of each group of lines; for learn, after each input, the words that have variants; for testinput the lines with known characters only, their anagram value and encoding; for index one row per anagram value.", "quantifier": "all command lines that are accepted, all files and standard inputs, all outputs (TSV)", "why_tests_cant": "For-all command lines and files; connects the options, loading, searching and printing, each of which is tested alone.", "anchors": ["src/bin/analiticcl.rs: main", "src/bin/analiticcl.rs: process", "src/bin/analiticcl.rs: process_par", "src/bin/analiticcl.rs: process_search", "src/bin/analiticcl.rs: process_learn"]}
{"id": "C89", "title": "Runs on well-formed files succeed", "statement": "If all files named on the command line can be opened and have lines as documented (at most 166 lines in the alphabet, at most 32 sources of words, frequencies summing to less than 2^32, no word of 65536 characters or more), the parameters and weights can be read and are finite, and the weights do not sum to zero, then loading succeeds; a query succeeds if all input lines have 1 to 65280 characters, and panics if some line is empty (and a word is looked up); a search succeeds if stretches of as many words as --max-ngram have at most 65280 characters; index and testinput succeed. Learning succeeds if its lines have fewer than 255 spaces and, with --strict, 1 to 65280 characters, otherwise short stretches and fewer than 65536 characters, and if (rounds x inputs + 1) times (sum of the frequencies + rounds x bytes of input) is below 2^32; without such a bound it may panic, because each round adds all frequencies to the counts of the language model again. All this holds with and without --json and --output-lexmatch and for every combination of lexicons, variant lists, error lists, language models, confusables and context rules.", "quantifier": "all command lines that are accepted, all files meeting the conditions, all inputs, all iteration orders and schedules", "why_tests_cant": "Absence of panics over all well-formed resources and inputs, through option parsing, loading, searching and printing.", "anchors": ["src/bin/analiticcl.rs: main", "src/lib.rs: read_vocabulary", "src/lib.rs: read_variants", "src/lib.rs: read_contextrules", "src/lib.rs: find_variants", "src/lib.rs: find_all_matches", "src/lib.rs: learn_variants"]}
{"id": "C90", "title": "A query over lexicons prints exactly the words that are similar enough", "statement": "With lexicons only (no variant lists, error lists and confusables), and without --json and --stop-exact, a query prints one row for each line of the input: the line, and, best first, each word of the lexicons that is similar to the line exactly once, as far as --max-matches and --cutoff-threshold let it be shown, with its score (with --freq-ranking: the weighted mean of the score and its frequency relative to the greatest one within reach) and, with --output-lexmatch, the names of exactly the lexicons that have it. A word is similar if its encoding and that of the line differ in at most the allowed number of symbols and share one, the edit distance is at most the allowed one, and the score reaches the threshold. This holds for well-formed files, finite parameters and lines that are not empty and, with the allowed distance, not longer than 255 symbols.", "quantifier": "all accepted command lines of this form, all lexicons and alphabets, all inputs, all iteration orders and schedules", "why_tests_cant": "An exact characterisation of the output of the program from the contents of its files, in both directions: nothing missing and nothing extra.", "anchors": ["src/bin/analiticcl.rs: main", "src/lib.rs: find_variants", "src/lib.rs: find_nearest_anahashes", "src/lib.rs: gather_instances", "src/lib.rs: score_and_rank", "src/lib.rs: read_vocabulary"]}
{"id": "C91", "title": "The JSON output of a run", "statement": "With --json and one input, a query or a search that ends normally prints a JSON document that can be read in exactly one way: for a query an array with one object per line of the input, in order, with the variants the library finds for it and their scores, the variant they were found through, and with --output-lexmatch the names of the lexicons that have them; for a search an array with one object per match, with its text, offsets, tags, sequence numbers and variants, the selected one first. This needs files and inputs without backslashes and control characters (and rules without quotes). With several inputs that have lines the output of a query is not JSON.", "quantifier": "all accepted command lines of query and search with --json, all files and inputs meeting the conditions, all iteration orders and schedules", "why_tests_cant": "For-all command lines, files and inputs; and that the output has exactly one reading under the JSON grammar is a statement about all values.", "anchors": ["src/bin/analiticcl.rs: main", "src/bin/analiticcl.rs: process", "src/bin/analiticcl.rs: process_par", "src/bin/analiticcl.rs: process_search", "src/bin/analiticcl.rs: output_matches_as_json", "src/bin/analiticcl.rs: output_result_as_json"]}
{"id": "C92", "title": "The order of the words in the lexicons is irrelevant", "statement": "Two queries over lexicons with the same words and frequencies, in any order and distributed in any way over the files, print for each line the same scores in the same order; they can only differ in which of the words with the lowest shown score they print, and, if neither the number of results nor the scores are limited, they print the same words, in another order between equals. This holds unless frequency ranking is combined with a limit on the number of results; then the order of the lexicon may decide how many words are printed.", "quantifier": "all pairs of runs of this form, all lexicons, inputs, parameters, iteration orders and schedules", "why_tests_cant": "A statement about two runs of the program, for all permutations of the lexicon.", "anchors": ["src/bin/analiticcl.rs: main", "src/lib.rs: find_variants", "src/lib.rs: score_and_rank", "src/lib.rs: read_vocabulary"]}
{"id": "C93", "title": "More words and looser thresholds find at least the same", "statement": "Without frequency ranking and without limits on the results of the second query, a query over lexicons with at least the same words, and thresholds that are not stricter, prints for each line at least the words the first one prints, with the same scores. With a limit on the number of results this fails.", "quantifier": "all pairs of runs of this form, all lexicons, inputs, parameters", "why_tests_cant": "Monotonicity relates two runs of the program for all pairs of lexicons and thresholds.", "anchors": ["src/bin/analiticcl.rs: main", "src/lib.rs: find_variants", "src/lib.rs: score_and_rank", "src/lib.rs: read_vocabulary"]}
{"id": "C94", "title": "A word of the lexicons is found for itself", "statement": "Without frequency ranking, for usual weights and a score threshold of at most 1, the first word that a query over lexicons prints for a line that is one of their words has score 1, no score is greater, and without limits the word itself is among those printed.", "quantifier": "all runs of this form, all lexicons, inputs, parameters", "why_tests_cant": "For all lexicons, parameters and iteration orders.", "anchors": ["src/bin/analiticcl.rs: main", "src/lib.rs: find_variants", "src/lib.rs: score_and_rank", "src/lib.rs: read_vocabulary"]}
{"id": "C95", "title": "A search for single words over lexicons prints the similar words of each word", "statement": "With lexicons only, `--max-ngram-order 1`, and no variant lists, error lists, confusables, language models, context rules, `--json` and stop criterion, a search prints, for each group of lines and in order, one row for each maximal run of letters: the word, its byte offsets, and what is shown (by `--max-matches` and the cutoff) of the ranking of all words of the lexicons that are similar to it, with their scores. If the lexicons have no words, it prints nothing.", "quantifier": "all runs of this form, all texts, lexicons, parameters, iteration orders, schedules", "why_tests_cant": "For all texts, lexicons, parameters, iteration orders and schedules of threads; combines reading, loading, segmenting, batching, searching, ranking and printing.", "anchors": ["src/bin/analiticcl.rs: main", "src/bin/analiticcl.rs: process_search", "src/lib.rs: find_all_matches", "src/search.rs: find_boundaries", "src/lib.rs: find_variants"]}
{"id": "C96", "title": "The rows of a search are stretches of whole words", "statement": "Whatever resources and options are given, each row that a search prints (without --json) is for a stretch of the text of its group of lines: the printed text is the text at the printed byte offsets, no word is cut, it has at least one and at most --max-ngram-order words with single bytes between them, it ends with a letter, and begins with one unless it is at the very beginning of the text. Rows come in order and do not touch. Each row lists all variants that the library finds for its text, only the selected one is moved to the front; only a single word may have no variants.", "quantifier": "all runs of search that end normally, all resources, options, texts, all paths returned by the solver", "why_tests_cant": "For all texts, models, option values and solver results; tests only look at a few sentences.", "anchors": ["src/bin/analiticcl.rs: process_search", "src/lib.rs: find_all_matches", "src/lib.rs: most_likely_sequence", "src/search.rs: find_match_ngrams", "src/search.rs: find_boundaries"]}
{"id": "C97", "title": "A search divides the text at least cost", "statement": "Without language model and context rules and with --max-ngram-order above 1, the matches found in a text divide each batch (the words between hard boundaries) at least cost. A stretch of words read as one of its variants costs the number of words plus what the variant's score lacks to 1, a single word without variants costs 2, a word left out costs 100; a stretch of several words can be used unless the first variant of each of its words has a perfect distance score. No other choice of stretches and variants is cheaper (in floating point: by more than a bounded error). Each match carries the variants the library finds for its text.", "quantifier": "all texts, models, weights that are sane, confusables that raise a score by at most nine tenths, frequency weights, orders of n-grams, thread schedules, solvers that return a cheapest path among others in any order, and return it first where all paths have one transition", "why_tests_cant": "Optimality over the exponentially many divisions of every text and model; tests only compare a few outputs.", "anchors": ["src/lib.rs: find_all_matches", "src/lib.rs: most_likely_sequence", "src/search.rs: redundant_match", "src/search.rs: find_match_ngrams"]}
{"id": "C98", "title": "What a search for stretches of words over lexicons prints", "statement": "With lexicons only (no variant lists, error lists, confusables, language model, context rules), without --json and --stop-exact, and with --max-ngram-order above 1, a search ends normally and prints for each group of lines the rows of a division of the text at least cost (as in C97), where what is shown for a stretch are the words of the lexicons that are similar to it (edit distance, anagram distance, score and frequency as in C90), ranked and cut off as asked, the chosen one first. The stretches must be short enough to be looked up.", "quantifier": "all alphabets, lexicons, texts, thresholds, weights, frequency ranking, cut-offs, group modes; solvers that return a cheapest path among others in any order, and return it first where all paths have one transition", "why_tests_cant": "Complete description of the output for every lexicon and text; tests check single sentences.", "anchors": ["src/bin/analiticcl.rs: main", "src/bin/analiticcl.rs: process_search", "src/lib.rs: find_all_matches", "src/lib.rs: most_likely_sequence", "src/lib.rs: find_variants"]}
{"id": "C99", "title": "What a query of a built model gives, with links, confusables and stopping at exact matches", "statement": "A query of a built model gives exactly the following. The words considered are those that are looked up and within the distances; if the search stops at exact matches and there are words with the same symbols, only these. Those that reach the threshold get their score and frequency. With confusables before pruning, scores are multiplied by the weights of the confusables found in the difference. If any word considered is linked to others, each word is followed to the words it is a variant of (score times the score of the link, smaller frequency), and stays itself unless it is an error. Frequencies are divided by the greatest one of a word considered. The list is put in order; a word that repeats the one before is dropped; the first ones are kept (as C32 says); with confusables after pruning, scores are multiplied and the list is put in order again; then words too far from the best are dropped. The text must not be empty and must be short enough to be looked up.", "quantifier": "all alphabets up to 166 lines, vocabularies, links, confusables, weights with a sum other than 0, distances, thresholds, frequency weights, hash orders", "why_tests_cant": "Complete description of the result for every vocabulary, links and confusables included; tests check single words.", "anchors": ["src/lib.rs: find_variants", "src/lib.rs: score_and_rank", "src/lib.rs: expand_variants", "src/lib.rs: rescore_confusables", "src/lib.rs: compute_confusable_weight"]}
{"id": "C100", "title": "A query prints what the lexicons, variant lists, error lists and confusables suggest", "statement": "After loading, the model knows exactly what the files say: a word is looked up if the first source that has it is a lexicon, variant list or error list; its frequency is the greatest one given (1 where none is given); frequencies count if a lexicon has a word; a word is an error if it is only given as the variant in an error list; it is a variant of the references the lists give, in their order and with their scores, except of itself. A query without --json prints for each line the line and the suggestions of C99 for this, with the confusables of the files (before pruning with --early-confusables): the word, the score that counts, and with --output-lexmatch the names of the sources that have the word. Lines must not be empty nor too long; references must not be reserved words.", "quantifier": "all files, command lines, numbers, inputs, hash orders", "why_tests_cant": "Describes every line of output from the contents of the files, for all kinds of resources together.", "anchors": ["src/bin/analiticcl.rs: main", "src/lib.rs: read_vocabulary", "src/lib.rs: read_variants", "src/lib.rs: add_variant", "src/lib.rs: find_variants", "src/bin/analiticcl.rs: process"]}
{"id": "C101", "title": "A search prints the cheapest division of the text, with what all resources suggest", "statement": "With lexicons, variant lists, error lists and confusables, without language model, context rules and --json, and with --max-ngram-order above 1, a search ends normally. For each group of lines it prints the rows of a division of the joined text at least cost (C97), where the scores are those of the suggestions that C99 and C100 describe for each stretch; the row has the text of the stretch, its offsets in bytes, and the suggestions, the chosen one first, with the score that counts and with --output-lexmatch the names of the sources that have the word.", "quantifier": "all files, command lines, numbers, inputs, hash orders, thread schedules, solvers that return a cheapest path among others in any order, and return it first where all paths have one transition; lists without reserved words, link scores between 0 and 1, confusables that raise a score by at most nine tenths", "why_tests_cant": "Describes every line of output of a search from the contents of the files, for all kinds of resources together.", "anchors": ["src/bin/analiticcl.rs: main", "src/bin/analiticcl.rs: process_search", "src/lib.rs: find_all_matches", "src/lib.rs: most_likely_sequence", "src/lib.rs: find_variants", "src/lib.rs: read_variants"]}
{"id": "C102", "title": "A search for single words prints what all resources suggest for each word", "statement": "With lexicons, variant lists, error lists and confusables, without language model, context rules and --json, and with --max-ngram-order 1, a search ends normally and prints, for each group of lines, for each word of the joined text (letters with no letter before or after them), in order, the word, its offsets in bytes, and the suggestions that C99 and C100 describe for it, with the score that counts and with --output-lexmatch the names of the sources that have the word.", "quantifier": "all files, command lines, numbers, inputs, hash orders, thread schedules, roundings, solvers; lists without reserved words", "why_tests_cant": "Describes every line of output of a search from the contents of the files, for all kinds of resources together.", "anchors": ["src/bin/analiticcl.rs: main", "src/bin/analiticcl.rs: process_search", "src/lib.rs: find_all_matches", "src/lib.rs: find_variants", "src/lib.rs: read_variants"]}
{"id": "C103", "title": "A query with --json writes a document with what all resources suggest for each line", "statement": "With lexicons, variant lists, error lists and confusables, with --json and at most one input, a query ends normally and writes a text that is a JSON document (RFC 8259) for exactly one value: an array with an object for each line of the input, in order, with the line itself and, for each suggestion that C99 and C100 describe for it, in order, an object with the word, the score that counts, the similarity score, the frequency score, the word it was found by if it is a reference found by its variant, and with --output-lexmatch the names of the sources that have the word.", "quantifier": "all files, command lines, numbers, inputs, hash orders, thread schedules, roundings; lists without reserved words as references; no characters that need escapes except quotes", "why_tests_cant": "Says what a program reading the output finds in it, for all files and inputs, from the contents of the files alone.", "anchors": ["src/bin/analiticcl.rs: main", "src/bin/analiticcl.rs: process", "src/bin/analiticcl.rs: output_matches_as_json", "src/lib.rs: find_variants", "src/lib.rs: read_variants"]}
{"id": "C104", "title": "A search with --json writes a document with what all resources suggest for each word or stretch", "statement": "With lexicons, variant lists, error lists and confusables, without language model, context rules and retained line breaks, with --json and at most one input, a search ends normally and writes a text that is a JSON document for exactly one value: an array with an object for each word of the joined lines (--max-ngram-order 1), or for each stretch of a division of them at least cost (above 1), in order, with its text, its offsets in bytes, and the objects of C103 for what is suggested for it, the chosen one first.", "quantifier": "all files, command lines, numbers, inputs, hash orders, thread schedules; for stretches: costs up to errors of the arithmetic as in C97, solvers that return a cheapest path among others in any order, and return it first where all paths have one transition, link scores between 0 and 1, confusables that raise a score by at most nine tenths", "why_tests_cant": "Says what a program reading the output finds in it, for all files and inputs, from the contents of the files alone.", "anchors": ["src/bin/analiticcl.rs: main", "src/bin/analiticcl.rs: process_search", "src/bin/analiticcl.rs: output_matches_as_json", "src/lib.rs: find_all_matches", "src/lib.rs: most_likely_sequence", "src/lib.rs: find_variants"]}
{"id": "C105", "title": "learn --strict prints the variants that repeated suggestions for whole lines give", "statement": "With lexicons, variant lists, error lists, language models and confusables, learn --strict ends normally and prints after each input, for each word of the files that has variants, in the order in which the files first mention them, a line with the word and its variants with scores: first those of the lists, then those learned, each once with the first score. What is learned is given by the files and inputs alone: in each of up to N rounds (no more after one that makes no links) each line becomes a variant, with the score, of every other word that C99 suggests for it given what was known before the round; it counts as seen once more for each uninterrupted series of suggestions for it; it is never itself suggested unless a list or lexicon has it; and what was learned stays for later rounds and inputs.", "quantifier": "all files, command lines, numbers, inputs, numbers of rounds, hash orders, thread schedules, roundings; lists without reserved words as references; counts below 2^32", "why_tests_cant": "The words learned in one round change the frequencies and the links that decide what is suggested in the next; says for all files, inputs and numbers of rounds what accumulates.", "anchors": ["src/bin/analiticcl.rs: main", "src/lib.rs: learn_variants", "src/lib.rs: find_variants_for_learning", "src/lib.rs: find_variants", "src/lib.rs: add_variant_by_id", "src/lib.rs: build"]}
{"id": "C106", "title": "learn without --strict prints the variants that repeated suggestions for parts of lines give", "statement": "With lexicons, variant lists, error lists and confusables (no language model, no context rules), learn without --strict ends normally and prints after each input the variants of each word of the files, as in C105. What is learned is given by the files and inputs alone: in each of up to N rounds (no more after one that makes no links) each line is divided, with --max-ngram-order 1 into its words, and otherwise into stretches at least cost as in C101, given what C99 suggests for all texts with what was known before the round; each part for which something was chosen becomes a variant, with the score, of the word that was chosen, unless it is that word; parts without suggestions are not learned.", "quantifier": "all files, command lines, numbers, inputs, numbers of rounds, hash orders, thread schedules; for single words all roundings, for stretches costs up to errors of the arithmetic as in C97, scores between 0 and 1 and confusables that do not raise scores; lists without reserved words; counts below 2^32", "why_tests_cant": "What is learned in one round changes the scores and with them the division of the lines in the next; says for all files, inputs and numbers of rounds what accumulates.", "anchors": ["src/bin/analiticcl.rs: main", "src/lib.rs: learn_variants", "src/lib.rs: find_variants_for_learning", "src/lib.rs: find_all_matches", "src/lib.rs: find_variants", "src/lib.rs: add_variant_by_id", "src/lib.rs: build"]}
{"id": "C107", "title": "A search in text reads each batch as the best of its cheapest readings", "statement": "With a language model, context rules, or stretches of several words, find_all_matches reads each batch of a text as follows. The candidates are the max_seq cheapest readings (ways to divide the batch into stretches with a chosen variant each, stretches without variants, and words left out), all of them if there are fewer. Each has a perplexity (minus the mean score of the transitions between the tokens of its entries and separators), a cost, and a context score (the mean of the scores of the rules that apply). The chosen reading has, among the candidates, the highest weighted mean of the logarithms of these values relative to the best ones, as a floating point number: perplexities may be zero or negative, so the mean may be infinite or not a number; if that of the candidate that the solver returns first is not a number, that one is chosen. If all perplexities are positive the mean is a plain number. A batch of a single word simply gets the cheapest. The matches show exactly the stretches of that reading, in order, with positions, selected variant, all variants of their text, and the tags of the applying rules.", "quantifier": "all texts, models, language models with positive counts, rules, weights, hash orders, thread schedules and solvers that return the cheapest paths in any order, and a cheapest first where all paths have one transition; exact arithmetic; sane distance weights, link scores between 0 and 1, confusables that raise a score by at most nine tenths", "why_tests_cant": "The choice depends on the interplay of dynamic programming, three scores and their normalisation; the reading chosen must be compared with all others, for all texts, models and weights.", "anchors": ["src/lib.rs: find_all_matches", "src/lib.rs: most_likely_sequence", "src/lib.rs: lm_score", "src/lib.rs: test_context_rules"]}
{"id": "C108", "title": "The language model is what the files say", "statement": "After loading the files of a command line: a text has an entry exactly if some source has it (or it is a marker), with the greatest frequency given; it is part of the language model exactly if the first source that has it is a --lm file (or it is a marker that some source has). There is a language model exactly if a text of at most five tokens is part of it. The count of a sequence of up to five tokens is the total frequency of the texts of the language model that consist of these tokens, where tokens that no source has count as the unknown word; it is absent if there is no such text. The perplexity of a reading is the one computed with these counts from the words chosen, the separators, and the markers around the text. Hence a word of a lexicon, variant list or error list never has a count of its own, whatever the --lm files say, and the transition from it to another word is scored by the logarithm of the count of the pair, not of a ratio.", "quantifier": "all files, numbers and orders of sources up to 256, hash orders, texts, readings, logarithm functions; entries of at most 255 tokens", "why_tests_cant": "The counts depend on the order in which all sources are loaded, on duplicate texts across files, and on which tokens any file knows; no finite set of files shows what holds for all.", "anchors": ["src/lib.rs: build", "src/lib.rs: add_to_vocabulary", "src/lib.rs: lm_score", "src/lib.rs: into_ngram", "src/bin/analiticcl.rs: main"]}
{"id": "C109", "title": "The context rules are what the files say", "statement": "After loading the files of a command line: the rules are those written in the lines of the --context-rules files, in order, with their patterns, scores, tag names and tag ranges; an entry belongs to the sources (lexicons, variant lists, language models, error lists) whose files have it, so that '@name' in a pattern holds for exactly the words in the file of that name, and '^' for exactly those in no file. The context score of a reading, and the tags and sequence numbers of its matches, are those that the written rules give when applied greedily, from left to right and in the order of the files, to the words chosen. The marker <bos> in a pattern holds exactly for stretches without a suggestion.", "quantifier": "all files, up to 256 sources, hash orders, rules with fewer than 256 words in a pattern and known names, up to 65536 tags, readings", "why_tests_cant": "What applies where depends on overlaps between applications of all rules at all positions, on negated groups and on which files have which word; the claim is for all rule files and all readings.", "anchors": ["src/lib.rs: read_contextrules", "src/lib.rs: add_contextrule", "src/lib.rs: test_context_rules", "src/search.rs: PatternMatch::parse", "src/search.rs: PatternMatch::matches", "src/lib.rs: add_to_vocabulary"]}
{"id": "C110", "title": "With a language model and context rules, a search prints the best readings of the text", "statement": "With lexicons, variant lists, error lists, language models, confusables and context rules, and without --json, a search ends normally. For each group of lines it prints the rows for the chosen reading of each batch of the joined text: among the cheapest readings (at most --max-seq of them), one whose score, mixing the perplexity that the files of the language models give, the cost of its suggestions and the score of the written context rules, is the highest (C107). The row has the text of the stretch, its offsets in bytes, and what all the resources suggest for it (C99, C100), the chosen one first, with the score that counts and with --output-lexmatch the names of the sources that have the word.", "quantifier": "all files, command lines, numbers, inputs, hash orders, thread schedules, solvers that return the cheapest paths in any order, and a cheapest first where all paths have one transition; variantmodel weight above 0, other weights at least 0, language model frequencies above 0, rule scores above 0, link scores between 0 and 1, confusables that raise a score by at most nine tenths, known names in patterns", "why_tests_cant": "Describes every line of output of a search from the contents of all files together, for all texts: which reading wins depends on the interplay of three models over exponentially many readings.", "anchors": ["src/bin/analiticcl.rs: main", "src/bin/analiticcl.rs: process_search", "src/bin/analiticcl.rs: output_matches_as_tsv", "src/lib.rs: find_all_matches", "src/lib.rs: most_likely_sequence", "src/lib.rs: lm_score", "src/lib.rs: test_context_rules"]}
{"id": "C111", "title": "With a language model and context rules, a search with --json writes the best readings with their tags", "statement": "As C110 with --json, one input and no --retain-linebreaks: the output is a JSON document, with one reading, an array with an object for each stretch of the chosen readings: its text, its offsets, the names of the tags that the written context rules give it with their sequence numbers (only if it has any), and what is suggested for it, the chosen one first, each with its scores, 'via' and the names of its sources.", "quantifier": "all files, command lines, numbers, inputs, hash orders, thread schedules, solvers that return the cheapest paths in any order, and a cheapest first where all paths have one transition; variantmodel weight above 0, other weights at least 0, language model frequencies above 0, rule scores above 0, link scores between 0 and 1, confusables that raise a score by at most nine tenths, known names in patterns; words, tags and names of files without characters that must be escaped", "why_tests_cant": "Describes the whole document from the contents of all files together, for all texts.", "anchors": ["src/bin/analiticcl.rs: main", "src/bin/analiticcl.rs: process_search", "src/bin/analiticcl.rs: output_matches_as_json", "src/lib.rs: find_all_matches", "src/lib.rs: most_likely_sequence", "src/lib.rs: test_context_rules"]}
{"id": "C112", "title": "Which options make a difference", "statement": "What a subcommand prints and writes depends on these options only, if it ends normally. testinput: --alphabet. index: the alphabet and the lexicons, variant lists and error lists. query: these, --confusables, --early-confusables, the weights of the distance metrics, the thresholds, --max-matches, --freq-ranking, --stop-exact, --output-lexmatch, --json and --single-thread or --interactive. search: these, --lm, --contextrules, the other weights, --max-ngram-order, --max-seq, --per-line and --retain-linebreaks. learn: the same with --iterations, --multi-output and --strict instead of the last two. In particular context rules never affect a query, and --per-line and --retain-linebreaks never affect learning. The options --lm-order, --weight-context, --allow-overlap, --unicode-offsets, --progress and --debug (up to level 1; see C132 for higher levels) make no difference at all, not even to whether a run panics, provided that the numbers they take can be read. So --allow-overlap does not give overlapping matches, contrary to its description.", "quantifier": "all files, command lines, inputs, hash orders, thread schedules and solvers; pairs of command lines of any length that agree on the options named", "why_tests_cant": "An equality between two runs for all inputs; tests can compare only some runs, and an option that never has an effect looks like one whose effect was not triggered.", "anchors": ["src/bin/analiticcl.rs: main", "src/bin/analiticcl.rs: common_arguments", "src/bin/analiticcl.rs: search_arguments", "src/types.rs: SearchParameters", "src/lib.rs: find_all_matches"]}
{"id": "C113", "title": "index prints the words of all files, grouped by anagrams", "statement": "If the files named on the command line are as documented, index ends normally. It prints lines with a number and words, such that every word of the lexicons, variant lists and error lists that is not reserved is on exactly one line, once; two words are on the same line if and only if they are anagrams of each other in the symbols of the alphabet; the number is the anagram value of the words; and the words of a line are in the order in which the files mention them first.", "quantifier": "all files, command lines for index that can be read, hash orders; at most 166 lines in the alphabet, 32 sources", "why_tests_cant": "Describes the whole output from the contents of the files, for all files.", "anchors": ["src/bin/analiticcl.rs: main", "src/lib.rs: build", "src/lib.rs: read_vocabulary", "src/lib.rs: read_variants", "src/anahash.rs: anahash"]}
{"id": "C114", "title": "What has been printed when a run panics", "statement": "If a query with documented files comes to a line that makes it panic, it has printed exactly the rows of all lines of the files before, and of the file with that line the rows of all lines before it with one thread, or, with several threads, of those in complete batches of 1000 before it; so with several threads the output at a panic is a beginning of the output with one. A run that reaches a file that cannot be opened has printed exactly what the run with the files before it prints, without the closing bracket of JSON. A run that does not panic prints its whole output.", "quantifier": "all files, command lines that can be read, crash points, hash orders and schedules; at most 166 lines in the alphabet, 32 sources", "why_tests_cant": "Ranges over all files and all points at which a run may panic.", "anchors": ["src/bin/analiticcl.rs: main", "src/bin/analiticcl.rs: process", "src/bin/analiticcl.rs: process_par", "src/bin/analiticcl.rs: process_search", "src/bin/analiticcl.rs: process_learn"]}
{"id": "C115", "title": "Scores in IEEE 754 arithmetic", "statement": "The arithmetic of f32 and f64 gives the nearest numbers of these formats, and the even one of two. The similarity score of a word within reach is not farther than 2^-46 from the weighted mean that it stands for, and the score with frequency ranking not farther than 2^-44; so a query lists every word whose mean exceeds the score threshold by 2^-46, none whose mean is below it by more than that, and none after one whose mean is less by more than 2^-45 (2^-43 with frequency ranking).", "quantifier": "all numbers; all texts, words, alphabets, lexicons and thresholds; all weights that are not negative and add up to at least 2^-1022; frequency weights at least 0; no overflow", "why_tests_cant": "Ranges over all numbers and all combinations of distances, lengths and weights.", "anchors": ["src/types.rs: Weights", "src/lib.rs: score_and_rank", "src/lib.rs: rank_results"]}
{"id": "C116", "title": "Frequency decides between equal scores", "statement": "By default the frequency decides which of two words with the same distance score is listed first (README.md:271-272).", "quantifier": "all texts, words, alphabets and lexicons; f64 arithmetic; frequencies below 2^32", "why_tests_cant": "Ranges over all combinations of distances and lengths; rounding differs between equal means only for some of them.", "anchors": ["src/lib.rs: score_and_rank", "src/lib.rs: rank_results", "README.md:271-272"]}
{"id": "C117", "title": "A search in IEEE 754 arithmetic", "statement": "With f32 and f64 arithmetic as IEEE 754 prescribes it, and with a solver that adds costs in f32 in any order and returns a least sum up to a tolerance t, a search without language model and context rules divides each batch of the text at least cost, up to a bounded fraction of the costs for n words; where one division is cheaper than all others by more than that, it is found; and no word is lost in batches of up to 1000 words if t is at most 1/20000.", "quantifier": "all texts, models, weights that are sane, confusables that raise a score by at most nine tenths, frequency weights of f64, orders of n-grams, thread schedules, logarithms that tell numbers apart that differ by a fraction of 2^-30", "why_tests_cant": "Ranges over all texts and models; rounding errors add up over the words of a batch in ways that depend on all scores.", "anchors": ["src/lib.rs: most_likely_sequence", "src/lib.rs: find_all_matches", "src/types.rs: VariantResult::score"]}
{"id": "C118", "title": "What learn prints can be loaded again", "statement": "What learn prints is a variant list: loaded with --variants after the same resources, it gives every word the variants and scores that were learned, and learn prints the same again if there is nothing more to learn. This holds exactly if no first variant of the entries that are read before the format is settled is written as a number and taken for a frequency.", "quantifier": "all resources, inputs and learned links whose texts have no tabs and newlines and whose scores are read as they are written", "why_tests_cant": "Ranges over all learned lists; the format of a list is guessed from the number of fields and the first variant of its first lines, so it depends on all of them.", "anchors": ["src/bin/analiticcl.rs: output_weighted_variants_as_tsv", "src/lib.rs: VariantModel::read_variants", "README.md: 169-175"]}
{"id": "C119", "title": "Decimal thresholds are exact despite single precision", "statement": "A ratio that is written as a decimal of up to five places, up to one, with no limit or one of at most 52, allows for a text of up to 255 symbols exactly the greatest distance within the exact product of ratio and length, although both the ratio and the product are rounded to f32; so a query finds the words that it would find by exact reckoning with the thresholds. The same holds for the Python binding, where the ratio is rounded to f64 first. With a limit of 53, with seven places, or for longer texts it fails.", "quantifier": "all decimals of up to five places, all lengths up to 255, all limits up to 52, all query runs", "why_tests_cant": "The rounded product may miss a whole number by one unit for single pairs of ratio and length (0.53 and 100); tests sample pairs.", "anchors": ["src/lib.rs: VariantModel::find_variants (984-1006)", "src/types.rs: DistanceThreshold::from_str", "bindings/python/src/lib.rs: extract_distance_threshold"]}
{"id": "C120", "title": "find_variants of a Python program returns what its calls say", "statement": "After any program of calls on a VariantModel from Python that ends with build (reading lexicons, vocabularies with own parameters, variant lists, language models, confusables and rules, adding words; whichever calls raise an exception and are ignored), find_variants and find_variants_par return for a text the dictionaries of exactly the suggestions that follow from what the calls say about words: a word is looked up if its first addition asks for it; its frequency is the first one given combined with each later one as that addition asks (sum, max, min, replace); it is an error if all additions say so; links come from the variant lists in order; frequencies count once a lexicon with words was read; confusables are those of the lists, up to a wrong line. Each dictionary has the text, score, distance and frequency score, via, and as lexicons the files whose number an addition of the word has.", "quantifier": "all programs of calls, files, alphabets of up to 166 lines, up to 32 word files, texts, parameters, hash orders, roundings, thread schedules", "why_tests_cant": "The result depends on the whole history of calls, including failed ones; tests try few programs.", "anchors": ["bindings/python/src/lib.rs: PyVariantModel (595-749)", "src/lib.rs: add_to_vocabulary, read_vocabulary, read_variants, read_confusablelist, find_variants"]}
{"id": "C121", "title": "find_all_matches of a Python program divides a text by what its calls say", "statement": "After any program of calls on a VariantModel from Python that ends with build and adds no language model and no context rules (whichever calls raise an exception and are ignored), find_all_matches ends normally for any text with short enough stretches. With max_ngram of at least 2 it divides each part of the text between hard boundaries into stretches of up to max_ngram words at least cost (as far as floating point sums can tell), where costs come from the scores of what is suggested for each stretch by the words, frequencies, links and confusables of the calls; with max_ngram=1 it takes each word. It returns a dictionary for each stretch, in order: input, begin and end offset (in bytes, or in characters if asked), no tags, and the suggestions as find_variants gives them with the chosen one first.", "quantifier": "all programs of calls without language model and rules, files, alphabets of up to 166 lines, up to 32 word files, texts, parameters, hash orders, roundings within the stated error, thread schedules", "why_tests_cant": "Which division is cheapest depends on all stretches of the text and on the whole history of calls; tests check a few texts.", "anchors": ["bindings/python/src/lib.rs: find_all_matches (752-805)", "src/lib.rs: find_all_matches, most_likely_sequence; src/search.rs: remap_offsets_to_unicodepoints"]}
{"id": "C122", "title": "With a language model and context rules, the reading chosen in floating point is not beaten", "statement": "With language model and context rules, and with every operation rounded as in IEEE 754 (or by any monotone rounding with a relative error of at most 0.001), a search in text reads each part between hard boundaries as one of its max_seq readings with the least computed sums of costs, all other readings having computed sums that are no smaller (up to the tolerance of the solver). None of these readings has a higher computed overall score. If no perplexity and no context score is negative, and one of them is as good as the chosen one in all respects (perplexity, cost and context score as computed), it comes later and has the same overall score (or one of both is not a number), however logarithms and weighted means are rounded. No figure is negative if no pair of tokens was counted more often than its first token and no rule has a negative score; otherwise a reading that is better in all respects can lose. A part of one word is read as cheaply as possible. Perplexities and context scores are computed over the tokens and entries of the reading. The matches show the stretches of the chosen reading with the variants of their text, and have the tags that the rules give to the chosen entries.", "quantifier": "all models built by any operations, texts, parameters with non-negative weights, monotone roundings, monotone logarithms, solvers that return the paths with the least sums in any order (a least first where all paths have one transition), language models, context rules", "why_tests_cant": "Rounding in four places (costs, perplexity, context score, combined score) could reverse any comparison; tests see only a few of the readings of a few texts.", "anchors": ["src/lib.rs: most_likely_sequence, lm_score, test_context_rules, find_all_matches"]}
{"id": "C123", "title": "Searches with a language model and context rules, from files to output, in floating point", "statement": "With all kinds of files (lexicons, variant lists, error lists, language models, confusables, context rules) and with IEEE 754 arithmetic, a search in text ends normally. It prints, for each group of lines, the rows of a reading of each part between hard boundaries that is not beaten (C122), and with --json it writes a document with an object for each stretch of these readings, with the tags of the rules. Counts, tokens, rules, suggestions and entries are those that the lines of the files say.", "quantifier": "all accepted command lines, readable files, texts with short stretches, non-negative weights, scores of variants between 0 and 1, confusables that raise a score by at most nine tenths, monotone roundings with a relative error of at most 0.001, monotone logarithms, solvers that return the paths with the least sums", "why_tests_cant": "Tests run single texts with small resources; that nothing between the files and the output (ids, n-gram table, rule indices, offsets, rounding) changes the chosen reading cannot be tested.", "anchors": ["src/bin/analiticcl.rs: main, process_search", "src/lib.rs: find_all_matches, most_likely_sequence, lm_score, test_context_rules"]}
{"id": "C124", "title": "Reading line by line ends if the reader does", "statement": "The loops that read alphabets, lexicons, variant lists, confusables, context rules, the input of a query with one thread and the input of testinput end exactly if the reader reports its end, or a line before makes them panic or return an error; their result is then that for the list of lines, in which errors are lines that are skipped. If the reader goes on reporting errors they never end. The learn and search modes and queries with several threads end at the first error, with the result for the lines up to there.", "quantifier": "all readers (any sequence of lines, errors and end), all models, parameters and parsers", "why_tests_cant": "Tests read files that can be read; that a loop never ends, and for which readers, cannot be observed in finite time.", "anchors": ["src/lib.rs: read_alphabet, read_confusablelist, read_vocabulary, read_contextrules, read_variants", "src/bin/analiticcl.rs: process, process_par, process_learn, process_search, main (testinput)"]}
{"id": "C125", "title": "The ends of lines do not matter", "statement": "The lines of every text are what it is written as: lines that end with a newline, or with a carriage return and a newline, or the rest at the end; those that are not UTF-8 cannot be read. A run of the tool prints and writes the same, and ends in the same way, if the ends of lines in any of its files or its standard input are changed between these. A byte order mark becomes part of the first line, so that its word is unknown.", "quantifier": "all texts (with any bytes that are not UTF-8), command lines, file systems", "why_tests_cant": "Tests use files with one kind of ends; independence from the ends compares two runs for all inputs.", "anchors": ["src/lib.rs: read_alphabet, read_confusablelist, read_vocabulary, read_contextrules, read_variants", "src/bin/analiticcl.rs: main, process, process_par, process_learn, process_search"]}
{"id": "C126", "title": "A Python program and the command line give the same", "statement": "The tool loads what its command line names exactly if a Python program with one call for each option, in the order in which the tool reads the files, runs without an exception, and both then have the same model. All parameters of a command line can be given as keyword arguments. What a query or a search prints without --json is what the Python program can write from the dictionaries that find_variants and find_all_matches return, and the JSON document of a query holds those dictionaries. The defaults differ: edit distance 2 and 10 variants against 3 and 20, and the results differ with them.", "quantifier": "all accepted command lines, file systems, inputs, alphabets; at most 32 files with words", "why_tests_cant": "Comparing two front ends needs all combinations of options, files and inputs; tests run one front end on a few.", "anchors": ["bindings/python/src/lib.rs: PyVariantModel, PySearchParameters, find_variants, find_all_matches", "src/bin/analiticcl.rs: main, output_matches_as_tsv, output_matches_as_json"]}
{"id": "C127", "title": "A search for single words is a query for each word, and lines and groups of lines are independent", "statement": "Without language models and context rules, a search for single words prints for each word of the text, in order, the word, its offsets, and exactly the columns that a query with the same options prints for that word as its only input. A query prints for several lines what it prints for each line alone, one after the other. A search prints for an input what it prints for each group of lines alone, with an empty line between what is printed for two groups. So nothing carries over from one line, word or group to another.", "quantifier": "all accepted command lines, file systems, inputs, alphabets and schedules", "why_tests_cant": "That nothing carries over between inputs is a statement about all pairs of inputs; tests run a few inputs together.", "anchors": ["src/bin/analiticcl.rs: process, process_par, process_search, output_matches_as_tsv", "src/lib.rs: find_all_matches, find_variants"]}
{"id": "C128", "title": "Spellings that the alphabet does not distinguish get the same variants", "statement": "Two texts that are written with the same symbols of the alphabet, that is, that differ only by strings on the same line of the alphabet and by characters that are not in it, get the same variants with the same scores in the same order, or fail in the same way, if there are no confusables and the texts begin with letters of the same case or the case has no weight. This holds for the library in any state and for what a query prints. Both conditions are needed.", "quantifier": "all alphabets, models, parameters, texts; all accepted command lines of queries without --json and --confusables", "why_tests_cant": "It relates all pairs of equivalent texts under all alphabets; tests compare a few texts.", "anchors": ["src/anahash.rs: anahash, normalize_to_alphabet", "src/lib.rs: find_variants, gather_instances, score_and_rank, rescore_confusables"]}
{"id": "C129", "title": "Weights and attributes in Python", "statement": "Weights in Python are those the keyword arguments ask for: a number in double precision if it is given, and the default otherwise; values that are no numbers are passed over. The dictionary of weights gives the weights again. An assignment changes one weight, or raises an exception if the value is no number. Keyword arguments for the options of a command line give the weights of the command line, so the defaults agree. An assignment to an attribute of vocabulary parameters changes this attribute only; the column of frequencies can be removed by an assignment but not by keyword arguments.", "quantifier": "all keyword arguments and values, all command lines", "why_tests_cant": "There are infinitely many values of mixed types and combinations of arguments.", "anchors": ["bindings/python/src/lib.rs: PyWeights, PyVocabParams", "src/types.rs: Weights::default"]}
{"id": "C130", "title": "Exactly which lines can be searched for", "statement": "Searching for a text in a built model returns normally exactly if no word is looked up; or the text is not empty, and its symbols and the allowed anagram distance together are fewer than 65536, or the search stops at exact matches and a word that is looked up is an anagram of it. Otherwise it panics. So a query on files that can be loaded succeeds exactly if this holds for all lines that can be read, and (unless there is a single thread) all lines can be read; which words are looked up is decided by the first source that has them. A search in text that succeeds, with whatever resources and options, has only words for which this holds, and a search for single words succeeds exactly if it holds for all words (if --max-seq is not 0 and no entry has more than 255 words).", "quantifier": "all alphabets of at most 166 lines, all vocabularies of words below 65536 characters, all parameters, all input lines of any length, all iteration orders and schedules", "why_tests_cant": "An exact boundary between success and panic over all inputs of any length and all resources.", "anchors": ["src/lib.rs: find_variants", "src/lib.rs: find_nearest_anahashes", "src/anahash.rs: alphabet_upper_bound", "src/bin/analiticcl.rs: process, process_par"]}
{"id": "C131", "title": "What does not change the suggestions", "statement": "Two queries for the same lines give the same up to ties (the same scores in the same order; they can only differ in which of the words with the lowest shown score they print, and without limits they print the same words) in each of these cases: their lexicons differ only in words out of reach of the lines, whatever frequencies these have; there is no frequency ranking and their lexicons have the same words within reach, with whatever frequencies; all frequencies of the one are those of the other times the same power of two; all weights of the one are those of the other times the same power of two. In the first, third and fourth case this holds unless frequency ranking is combined with a limit on the number of results.", "quantifier": "all pairs of runs of this form, all lexicons, inputs, parameters, weights that are 0 or at least 2^-1000, iteration orders and schedules", "why_tests_cant": "Statements about two runs of the program, for all changes of lexicons, frequencies and weights of these kinds, with rounded arithmetic.", "anchors": ["src/bin/analiticcl.rs: main", "src/lib.rs: find_variants", "src/lib.rs: score_and_rank", "src/lib.rs: gather_instances", "src/types.rs: Weights"]}
{"id": "C132", "title": "What the level of debugging does to a search", "statement": "decompose_anavalue gives the first strings of the lines of the symbols of a value, in descending order of the lines, and panics exactly if one of the symbols has no line or an empty line. Below level 4 of debugging, find_variants gives the same as without debugging. From level 4, it panics exactly if there is an indexed entry, the text has at least two symbols of which at least one is in no line of the alphabet, the anagram distance allows a deletion, and the search does not stop at an exact match; otherwise the level makes no difference. From level 2, reading an alphabet panics exactly if it has more than 168 lines.", "quantifier": "all alphabets of at most 166 lines (any number of lines for reading), all sequences of operations ending in build, texts, parameters and levels", "why_tests_cant": "That printing messages does not change a result is a statement about all texts; the panics need a high level of debugging and an unknown character together.", "anchors": ["src/lib.rs: decompose_anavalue", "src/lib.rs: find_nearest_anahashes", "src/lib.rs: find_variants", "src/lib.rs: read_alphabet"]}
{"id": "C133", "title": "The vocabulary in a release build", "statement": "An addition to the vocabulary that does not panic in the debug profile does the same in a release build (without overflow checks). In a release build, additions to a fresh model never panic; a text has an entry exactly if it was added; in_lexicon says that it is in lexicon k exactly if it was added with an index that equals k modulo 32; and its frequency is the maximum, minimum or last of those given, or, for the sum, the sum modulo 2^32.", "quantifier": "all alphabets, all sequences of additions with frequencies below 2^32, texts, indices", "why_tests_cant": "Tests run in the debug profile; the wrong answers appear silently in release builds with more than 32 sources or large frequencies.", "anchors": ["src/lib.rs: add_to_vocabulary", "src/vocab.rs: in_lexicon", "src/anahash.rs: normalize_to_alphabet"]}
{"id": "C134", "title": "Searches for single words with other lexicons and parameters", "statement": "What C92 to C94 say about the lines of a query holds for the words of a text in searches with --max-ngram-order 1. The words and offsets printed depend on the text only. Two searches in the same texts over the same words, in any order and distribution over lexicons, print the same scores in the same order for each word of the text, and differ only in words with the lowest shown score (and in the order of equals). A search with at least the same words and no stricter thresholds, without frequency ranking and limits, prints at least the same words with the same scores. Without frequency ranking, for usual weights and a score threshold of at most 1, each word of the text that is a word of the lexicons gets a first suggestion with score 1, none with a greater one, and without limits itself.", "quantifier": "all runs and pairs of runs of this form, all texts, lexicons, parameters, iteration orders", "why_tests_cant": "Relates pairs of whole runs for all lexicons, texts and thresholds.", "anchors": ["src/bin/analiticcl.rs: process_search", "src/lib.rs: find_all_matches", "src/lib.rs: find_variants", "src/lib.rs: score_and_rank"]}
{"id": "C135", "title": "Correct words are left unchanged", "statement": "In f64 arithmetic, if the weight of the edit distance is at least the 2^-37th part of all weights, only words written with the same symbols of the alphabet as the input get score 1 (and, if the weight of case is that large, only those with the same case of the first letter). So without frequency ranking, and with a score threshold of at most 1, a query or a search for single words lists a word of the lexicons first for itself, with score 1, and everything else with a lower score, unless another word of the lexicons is written with the same symbols (and case).", "quantifier": "all runs of this form, all texts, alphabets, lexicons and parameters; all weights that are not negative and add up to at least 2^-1022", "why_tests_cant": "Ranges over all words, alphabets and weights, and over all rounding errors.", "anchors": ["src/types.rs: Weights", "src/lib.rs: score_and_rank", "src/lib.rs: find_variants", "src/bin/analiticcl.rs: process_search"]}
{"id": "C136", "title": "Correct texts are left undivided", "statement": "Without frequency ranking, and with a score threshold of at most 1, a search with lexicons for stretches of up to n >= 2 words in texts all words of which are words of the lexicons prints exactly one row for each word of the texts, with the word itself first, with score 1, and everything else with a score of at most 1 - m: no words are joined, replaced or left out. This holds if other words of the lexicons get scores of at most 1 - m for these words, and if batches have few enough words for a difference of m to show in sums of their costs (4 e (k + 99) < m for k words, if costs are off by a fraction e). In IEEE arithmetic the former holds if no other word of the lexicons is written with the same symbols (and case) and m + 2^-46 is at most the share of the weight of the edit distance divided by the length of the word (and the share of case, if it counts).", "quantifier": "all runs of this form, all texts, alphabets, lexicons, weights and parameters; any arithmetic with bounded errors", "why_tests_cant": "Ranges over all texts, all divisions of them, and all rounding errors.", "anchors": ["src/lib.rs: find_all_matches", "src/lib.rs: most_likely_sequence", "src/types.rs: Weights", "src/bin/analiticcl.rs: process_search"]}
{"id": "C137", "title": "Listed errors are corrected", "statement": "With lexicons, variant lists and error lists, and without language models, confusables, frequency ranking and limits (max-matches 0, cutoff below 1, score threshold at most 1), a query prints for each line that a list gives as a variant or error of another word that word, with at least the score given in the list (as it is rounded). If the line is only given as an error, and is not itself the reference of another word, it is not among its own suggestions.", "quantifier": "all runs of this form, all files and lines", "why_tests_cant": "Ranges over all lexicons, lists and lines.", "anchors": ["src/lib.rs: read_variants", "src/lib.rs: expand_variants", "src/lib.rs: score_and_rank", "src/bin/analiticcl.rs: process"]}
{"id": "C138", "title": "Listed errors are corrected in texts", "statement": "What C137 says about the lines of a query holds for the words of a text in searches with --max-ngram-order 1. With lexicons, variant lists and error lists, and without language models, context rules, confusables, frequency ranking and limits (max-matches 0, cutoff below 1, score threshold at most 1), such a search prints one row for each word of the texts, in order, with its offsets. The row of a word that a list gives as a variant or error of another word has that word, with at least the score given in the list (as it is rounded). If the word is only given as an error, and is not itself the reference of another word, it is not among its own suggestions.", "quantifier": "all runs of this form, all files and texts", "why_tests_cant": "Ranges over all lexicons, lists and texts.", "anchors": ["src/lib.rs: read_variants", "src/lib.rs: expand_variants", "src/lib.rs: find_all_matches", "src/bin/analiticcl.rs: process_search"]}
{"id": "C139", "title": "Known errors are never suggested", "statement": "A word that the files give as an error of another word, that every file that has it gives as an error only, and that is not itself the reference in a list, is never printed as a suggestion: for no line of a query, and for no word or stretch of words of a text in a search. This holds for all weights, thresholds, limits and stop criteria, with and without frequency ranking and confusables.", "quantifier": "all runs of query and search of this form, all files and inputs", "why_tests_cant": "Ranges over all lexicons, lists, parameters and inputs; an error would have to be within reach of a line without any other linked word to show a slip in the condition for expansion.", "anchors": ["src/lib.rs: expand_variants", "src/lib.rs: score_and_rank", "src/lib.rs: read_variants", "src/lib.rs: find_all_matches"]}
{"id": "C140", "title": "Correcting twice is correcting once", "statement": "Replace each line of a query by what is suggested first for it (or leave it, if nothing is), and run the same query again with these lines on the standard input. The first suggestions are then the lines themselves (and nothing is suggested for lines that were left), so nothing changes any more. This holds in f64 arithmetic for lexicons of words that are written with different symbols (or, if case counts, differ in the case of the first letter), without frequency ranking, with a score threshold of at most 1, all limits, and the edit distance having at least the 2^-37th part of the weights.", "quantifier": "all pairs of runs of this form, all lexicons and inputs", "why_tests_cant": "Relates two runs, the second of which depends on the output of the first, for all lexicons and inputs.", "anchors": ["src/lib.rs: find_variants", "src/lib.rs: score_and_rank", "src/bin/analiticcl.rs: process"]}
{"id": "C141", "title": "No known error is left after correction", "statement": "If each line of a query is replaced by what is suggested first for it (or left, if nothing is), then no line is a known error any more: none is a word that the files give only as an error and that is not itself a reference. This holds for usual weights and a score threshold of at most 1, with all limits and stop criteria, and with and without frequency ranking and confusables.", "quantifier": "all runs of query of this form, all files and lines", "why_tests_cant": "Ranges over all lexicons, lists, parameters and lines; needs that limits and cutoffs never empty a list of suggestions.", "anchors": ["src/lib.rs: expand_variants", "src/lib.rs: score_and_rank", "src/lib.rs: read_variants", "src/bin/analiticcl.rs: process"]}
{"id": "C142", "title": "The scores that a search prints are accurate", "statement": "In f64 arithmetic, what a search over lexicons prints for each word of a text is what the exact means say up to small errors. Without frequency ranking: each score is within 2^-46 of the mean of the similarities it stands for; the mean reaches the score threshold up to 2^-46; the order is that of the means up to 2^-45; and without limits each word within reach whose mean exceeds the threshold by 2^-46 is printed. With frequency ranking and positive frequencies: each score is within 2^-44 of the weighted mean of similarity and frequency relative to the greatest one within reach, and the order is that of these up to 2^-43.", "quantifier": "all lexicons, texts, alphabets, parameters and usual weights; f64 arithmetic", "why_tests_cant": "Ranges over all lexicons, texts and weights; rounding errors differ for each combination of distances and lengths.", "anchors": ["src/lib.rs: score_and_rank", "src/lib.rs: find_all_matches", "src/types.rs: VariantResult::score", "src/bin/analiticcl.rs: process_search"]}
