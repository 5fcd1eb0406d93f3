{
 "claims": [
  {
   "property": "C01",
   "status": "proved",
   "theorems": [
    "Verif.Props.anahash_eq_iff_anagram",
    "Verif.Props.anahash_value",
    "Verif.Props.anahash_normalize_agree",
    "Verif.Props.encoding_exists_unique"
   ],
   "note": "alphabets of at most 167 lines without empty strings, all texts"
  },
  {
   "property": "C02",
   "status": "proved",
   "theorems": [
    "Verif.Props.normalize_is_greedy_encoding",
    "Verif.Props.normalize_equivalent_strings",
    "Verif.Props.encoding_exists_unique"
   ],
   "note": ""
  },
  {
   "property": "C03",
   "status": "proved",
   "theorems": [
    "Verif.Props.insert_is_union",
    "Verif.Props.contains_iff_subbag",
    "Verif.Props.delete_is_difference",
    "Verif.Props.delete_defined",
    "Verif.Props.empty_is_empty_bag",
    "Verif.Props.value_inj",
    "Verif.Props.contains_zero_panics"
   ],
   "note": ""
  },
  {
   "property": "C04",
   "status": "proved",
   "theorems": [
    "Verif.Props.char_count_exact",
    "Verif.Props.alphabet_upper_bound_exact",
    "Verif.Props.count_matches_exact",
    "Verif.Props.count_matches_empty_diverges"
   ],
   "note": ""
  },
  {
   "property": "C05",
   "status": "proved",
   "theorems": [
    "Verif.Props.iter_exact",
    "Verif.Props.iterChain_spec"
   ],
   "note": ""
  },
  {
   "property": "C06",
   "status": "proved",
   "theorems": [
    "Verif.Props.parents_exact",
    "Verif.Props.parents_empty"
   ],
   "note": ""
  },
  {
   "property": "C07",
   "status": "proved",
   "theorems": [
    "Verif.Props.bfs_exact"
   ],
   "note": ""
  },
  {
   "property": "C08",
   "status": "proved",
   "theorems": [
    "Verif.Props.hashing_total",
    "Verif.Props.hashing_empty_string_panics",
    "Verif.Props.hashing_unknown_panics",
    "Verif.Props.hashing_late_line_panics",
    "Verif.Props.hashing_wraps_at_256"
   ],
   "note": ""
  },
  {
   "property": "C09",
   "status": "proved",
   "theorems": [
    "Verif.Props.levenshtein_exact",
    "Verif.Props.levenshtein_none"
   ],
   "note": ""
  },
  {
   "property": "C10",
   "status": "proved",
   "theorems": [
    "Verif.Props.damerau_exact",
    "Verif.Props.damerau_none",
    "Verif.Props.damerau_sound_any_length",
    "Verif.Props.damerau_inexact_beyond_255"
   ],
   "note": "exact up to 255 symbols of the first argument, as stated; beyond, exactness fails (damerau_inexact_beyond_255)"
  },
  {
   "property": "C11",
   "status": "proved",
   "theorems": [
    "Verif.Props.distance_zero_iff",
    "Verif.Props.distance_symm",
    "Verif.Props.distance_triangle",
    "Verif.Props.distance_bounds",
    "Verif.Props.damerau_self"
   ],
   "note": ""
  },
  {
   "property": "C12",
   "status": "proved",
   "theorems": [
    "Verif.Props.common_prefix_exact",
    "Verif.Props.common_suffix_exact",
    "Verif.Props.longest_common_substring_exact",
    "Verif.Props.common_lengths_bounds"
   ],
   "note": ""
  },
  {
   "property": "C13",
   "status": "proved",
   "theorems": [
    "Verif.Props.vocabulary_bijection",
    "Verif.Props.vocabulary_texts_distinct",
    "Verif.Props.vocabulary_ids_stable",
    "Verif.Props.add_returns_id"
   ],
   "note": ""
  },
  {
   "property": "C14",
   "status": "proved",
   "theorems": [
    "Verif.Props.frequency_combined"
   ],
   "note": "for texts other than the three reserved ones, histories without learning (which increments frequencies)"
  },
  {
   "property": "C15",
   "status": "proved",
   "theorems": [
    "Verif.Props.in_lexicon_exact",
    "Verif.Props.lexindex_as_vec_exact",
    "Verif.Props.lexindex_as_vec_omits_31",
    "Verif.Props.lexicon_limit"
   ],
   "note": ""
  },
  {
   "property": "C16",
   "status": "proved",
   "theorems": [
    "Verif.Props.transparent_exact"
   ],
   "note": ""
  },
  {
   "property": "C17",
   "status": "partial",
   "theorems": [
    "Verif.Props.purposes_of_first_addition_partial",
    "Verif.Props.both_purposes_fails",
    "Verif.Props.both_purposes_fails'"
   ],
   "note": "the claim is false; proved instead: the first addition alone decides, with both refutations"
  },
  {
   "property": "C18",
   "status": "proved",
   "theorems": [
    "Verif.Props.reserved_never_indexed"
   ],
   "note": ""
  },
  {
   "property": "C19",
   "status": "proved",
   "theorems": [
    "Verif.Props.anagram_instances_exact",
    "Verif.Props.lookup_exact"
   ],
   "note": ""
  },
  {
   "property": "C20",
   "status": "proved",
   "theorems": [
    "Verif.Props.secondary_index_exact",
    "Verif.Props.secondary_index_sound"
   ],
   "note": ""
  },
  {
   "property": "C21",
   "status": "partial",
   "theorems": [
    "Verif.Props.rebuild_idempotent_partial",
    "Verif.Props.rebuild_doubles_counts",
    "Verif.Props.rebuild_idempotent_fails"
   ],
   "note": "false for the n-gram counts; proved for everything else"
  },
  {
   "property": "C22",
   "status": "proved",
   "theorems": [
    "Verif.Props.build_order_independent",
    "Verif.Props.search_order_independent",
    "Verif.Props.candidates_order_independent",
    "Verif.Props.find_variants_order_independent"
   ],
   "note": ""
  },
  {
   "property": "C23",
   "status": "proved",
   "theorems": [
    "Verif.Props.nearest_exact",
    "Verif.Props.nearest_exact_general",
    "Verif.Props.nearest_panics_large_alphabet",
    "Verif.Props.nearest_misses_long"
   ],
   "note": ""
  },
  {
   "property": "C24",
   "status": "proved",
   "theorems": [
    "Verif.Props.bag_difference_le",
    "Verif.Props.filter_complete",
    "Verif.Props.filter_loses_disjoint"
   ],
   "note": ""
  },
  {
   "property": "C25",
   "status": "proved",
   "theorems": [
    "Verif.Props.gather_exact",
    "Verif.Props.candidates_exact",
    "Verif.Props.gather_empty_text_panics"
   ],
   "note": ""
  },
  {
   "property": "C26",
   "status": "proved",
   "theorems": [
    "Verif.Props.effective_ratio",
    "Verif.Props.effective_ratio_limit",
    "Verif.Props.effective_absolute",
    "Verif.Props.effective_ratio_sign",
    "Verif.Props.candidates_within_edit_distance"
   ],
   "note": ""
  },
  {
   "property": "C27",
   "status": "proved",
   "theorems": [
    "Verif.Props.stop_at_exact_match"
   ],
   "note": ""
  },
  {
   "property": "C28",
   "status": "proved",
   "theorems": [
    "Verif.Props.score_between",
    "Verif.Props.result_scores_between",
    "Verif.Props.result_scores_bounded",
    "Verif.Props.similarity_formula"
   ],
   "note": "any monotone rounding; result scores without confusables; with confusables, result_scores_bounded gives the product of the weights above 1 (rounded) as upper bound"
  },
  {
   "property": "C29",
   "status": "proved",
   "theorems": [
    "Verif.Props.exact_match_candidate",
    "Verif.Props.exact_match_first",
    "Verif.Props.exactDistance_isDistance"
   ],
   "note": ""
  },
  {
   "property": "C30",
   "status": "proved",
   "theorems": [
    "Verif.Props.rank_cmp_meaning",
    "Verif.Props.rank_cmp_total_preorder",
    "Verif.Props.rank_results_ranked",
    "Verif.Props.rank_results_unique",
    "Verif.Props.negative_weight_misranks"
   ],
   "note": "proved for non-negative frequency weights; false for negative ones (witness)"
  },
  {
   "property": "C31",
   "status": "proved",
   "theorems": [
    "Verif.Props.results_above_threshold",
    "Verif.Props.results_are_best_candidates"
   ],
   "note": ""
  },
  {
   "property": "C32",
   "status": "partial",
   "theorems": [
    "Verif.Props.max_matches_partial",
    "Verif.Props.max_matches_exact",
    "Verif.Props.max_matches_weighted",
    "Verif.Props.number_of_results",
    "Verif.Props.max_matches_zero",
    "Verif.Props.max_matches_one_returns_two",
    "Verif.Props.max_matches_exceeded_with_frequency"
   ],
   "note": "false as stated (witnesses); proved in the cases where it holds; max_matches_weighted says exactly how many are kept; without frequency weight max_matches_exact and number_of_results say it in simpler terms"
  },
  {
   "property": "C33",
   "status": "proved",
   "theorems": [
    "Verif.Props.cutoff_exact",
    "Verif.Props.cutoff_off",
    "Verif.Props.results_close_to_best"
   ],
   "note": ""
  },
  {
   "property": "C34",
   "status": "partial",
   "theorems": [
    "Verif.Props.results_are_best_candidates",
    "Verif.Props.results_are_best_expanded",
    "Verif.Props.results_nonempty_partial",
    "Verif.Props.results_nonempty_iff",
    "Verif.Props.transparent_match_dropped"
   ],
   "note": "the list can be empty if the only candidate is a transparent entry without references (witness); results_nonempty_iff says exactly when there are results"
  },
  {
   "property": "C35",
   "status": "proved",
   "theorems": [
    "Verif.Props.frequency_scores_between",
    "Verif.Props.frequency_scores_ordered"
   ],
   "note": ""
  },
  {
   "property": "C36",
   "status": "partial",
   "theorems": [
    "Verif.Props.no_duplicate_results_partial",
    "Verif.Props.duplicate_results",
    "Verif.Props.results_differ_by_route",
    "Verif.Props.neighbouring_results_differ"
   ],
   "note": "false if one entry is reached both directly and by a variant link (witness); no entry is returned twice by the same route, nor twice in a row"
  },
  {
   "property": "C37",
   "status": "partial",
   "theorems": [
    "Verif.Props.expansion_exact",
    "Verif.Props.transparent_only_as_reference_partial",
    "Verif.Props.transparent_returned_without_links"
   ],
   "note": "the second half fails when no candidate has a link (witness)"
  },
  {
   "property": "C38",
   "status": "proved",
   "theorems": [
    "Verif.Props.found_in_exact",
    "Verif.Props.found_in_sound",
    "Verif.Props.found_in_anchored_exact",
    "Verif.Props.found_in_single_exact",
    "Verif.Props.found_in_incomplete",
    "Verif.Props.found_in_end_incomplete",
    "Verif.Props.confusable_weight_product",
    "Verif.Props.confusable_new_panics"
   ],
   "note": ""
  },
  {
   "property": "C39",
   "status": "proved",
   "theorems": [
    "Verif.Props.find_variants_total",
    "Verif.Props.empty_input_panics",
    "Verif.Props.unbuilt_returns_nothing",
    "Verif.Props.dangling_reference_panics"
   ],
   "note": ""
  },
  {
   "property": "C40",
   "status": "proved",
   "theorems": [
    "Verif.Props.boundaries_partition",
    "Verif.Props.segmentation_unique",
    "Verif.Props.boundaries_faithful",
    "Verif.Props.faithful_slice"
   ],
   "note": ""
  },
  {
   "property": "C41",
   "status": "proved",
   "theorems": [
    "Verif.Props.boundary_strengths",
    "Verif.Props.strength_unique"
   ],
   "note": ""
  },
  {
   "property": "C42",
   "status": "proved",
   "theorems": [
    "Verif.Props.ngrams_exact",
    "Verif.Props.mem_runsFrom",
    "Verif.Props.ngrams_faithful",
    "Verif.Props.unigrams_words"
   ],
   "note": "assumes that a space is not alphabetic (a fact about the Unicode table)"
  },
  {
   "property": "C43",
   "status": "proved",
   "theorems": [
    "Verif.Props.redundant_iff"
   ],
   "note": ""
  },
  {
   "property": "C44",
   "status": "proved",
   "theorems": [
    "Verif.Props.text_matches",
    "Verif.Props.text_matches_unicode",
    "Verif.Props.refSolver_ok"
   ],
   "note": "the solver is a parameter; assumes that it only returns accepting paths and that a space is not alphabetic"
  },
  {
   "property": "C45",
   "status": "proved",
   "theorems": [
    "Verif.Props.unigram_search",
    "Verif.Props.unigrams_words"
   ],
   "note": "assumes that a space is not alphabetic"
  },
  {
   "property": "C46",
   "status": "proved",
   "theorems": [
    "Verif.Props.unicode_offsets"
   ],
   "note": ""
  },
  {
   "property": "C47",
   "status": "proved",
   "theorems": [
    "Verif.Props.parallel_search",
    "Verif.Props.parallel_learning"
   ],
   "note": ""
  },
  {
   "property": "C48",
   "status": "proved",
   "theorems": [
    "Verif.Props.best_sequence",
    "Verif.Props.cheapest_route",
    "Verif.Props.cheapest_route_first",
    "Verif.Props.single_word_lost"
   ],
   "note": "The single word case is violated; witness single_word_lost"
  },
  {
   "property": "C49",
   "status": "proved",
   "theorems": [
    "Verif.Props.transducer_routes"
   ],
   "note": ""
  },
  {
   "property": "C50",
   "status": "partial",
   "theorems": [
    "Verif.Props.pattern_semantics",
    "Verif.Props.holds_iff",
    "Verif.Props.pattern_shift_panics",
    "Verif.Props.parse_semantics_partial",
    "Verif.Props.parse_fuel",
    "Verif.Props.negated_groups_rejected"
   ],
   "note": "matching is proved for all patterns with lexicon indices up to 31 (beyond, it panics); parsing for the grammar in Spec/Rules (words, lexicons, ? and ^, with !, separated by |, and !(...) around all of it); the example !(a|b|c|) of the README and groups within a disjunction are rejected (witness)"
  },
  {
   "property": "C51",
   "status": "partial",
   "theorems": [
    "Verif.Props.rule_application_partial",
    "Verif.Props.long_rule_wraps",
    "Verif.Props.tag_end_panics"
   ],
   "note": "for patterns of at most 256 words and tags that end before position 256; false beyond (witnesses)"
  },
  {
   "property": "C52",
   "status": "partial",
   "theorems": [
    "Verif.Props.context_rules",
    "Verif.Props.greedy_unique",
    "Verif.Props.one_rule_per_word_partial",
    "Verif.Props.untagged_word_reused"
   ],
   "note": "exact for all rules that cannot overflow, where words without a result do not count as covered; at most one rule per word if tags leave no word of a pattern out, false otherwise (witness)"
  },
  {
   "property": "C53",
   "status": "proved",
   "theorems": [
    "Verif.Props.tags_resolve",
    "Verif.Props.tags_stable",
    "Verif.Props.tag_index_wraps"
   ],
   "note": "for up to 65536 names; beyond, indices are truncated (witness)"
  },
  {
   "property": "C54",
   "status": "proved",
   "theorems": [
    "Verif.Props.ngram_fromList",
    "Verif.Props.ngram_toVec",
    "Verif.Props.ngram_fromOptionList",
    "Verif.Props.ngram_push",
    "Verif.Props.ngram_first_pop",
    "Verif.Props.ngram_refines_list"
   ],
   "note": ""
  },
  {
   "property": "C55",
   "status": "proved",
   "theorems": [
    "Verif.Props.ngram_counts_exact",
    "Verif.Props.ngram_totals_exact",
    "Verif.Props.splitSpaces_isTokens"
   ],
   "note": ""
  },
  {
   "property": "C56",
   "status": "partial",
   "theorems": [
    "Verif.Props.lm_score_exact_partial",
    "Verif.Props.lm_counts",
    "Verif.Props.tokensOf_unique",
    "Verif.Props.overcounted_transition"
   ],
   "note": "entries of at most 255 words; entries of more than five words contribute no token, and a pair counted more often than its first token is scored by its count, which is no probability (overcounted_transition)"
  },
  {
   "property": "C57",
   "status": "proved",
   "theorems": [
    "Verif.Props.learn_links",
    "Verif.Props.learn_keeps_index",
    "Verif.Props.learned_form_not_found"
   ],
   "note": ""
  },
  {
   "property": "C58",
   "status": "partial",
   "theorems": [
    "Verif.Props.add_variant_idempotent_partial",
    "Verif.Props.add_variant_twice",
    "Verif.Props.add_variant_idempotent_fails"
   ],
   "note": "false on the side of the variant"
  },
  {
   "property": "C59",
   "status": "proved",
   "theorems": [
    "Verif.Props.reverse_index_exact"
   ],
   "note": ""
  },
  {
   "property": "C60",
   "status": "proved",
   "theorems": [
    "Verif.Props.parallel_query",
    "Verif.Props.unreadable_line_stops_parallel"
   ],
   "note": "the two modes differ on a line that cannot be read"
  },
  {
   "property": "C61",
   "status": "proved",
   "theorems": [
    "Verif.Props.search_batches",
    "Verif.Props.groups_cover",
    "Verif.Props.groups_unique",
    "Verif.Props.search_output"
   ],
   "note": ""
  },
  {
   "property": "C62",
   "status": "partial",
   "theorems": [
    "Verif.Props.json_text_reads_back_iff_partial",
    "Verif.Props.json_text_unique",
    "Verif.Props.json_backslash_misread"
   ],
   "note": "proved: exactly the texts without backslash and control characters are read back; the claim for all texts is false (json_backslash_misread)"
  },
  {
   "property": "C63",
   "status": "proved",
   "theorems": [
    "Verif.Props.listed_perm",
    "Verif.Props.output_order_tsv",
    "Verif.Props.output_order_json"
   ],
   "note": ""
  },
  {
   "property": "C64",
   "status": "proved",
   "theorems": [
    "Verif.Props.cache_bounded"
   ],
   "note": "the cache is not used by the library: its only use is commented out"
  },
  {
   "property": "C65",
   "status": "proved",
   "theorems": [
    "Verif.Props.read_alphabet_entries",
    "Verif.Props.read_alphabet_noEmpty",
    "Verif.Props.read_alphabet_hashes"
   ],
   "note": "a line of blanks only becomes an entry without symbols, which still takes a place in the alphabet"
  },
  {
   "property": "C66",
   "status": "partial",
   "theorems": [
    "Verif.Props.threshold_absolute_iff",
    "Verif.Props.threshold_ratio_iff",
    "Verif.Props.threshold_limit_partial",
    "Verif.Props.threshold_ratio_unchecked"
   ],
   "note": "parsing floats is foreign; the ratio of a combination is not checked to be in [0,1] (threshold_ratio_unchecked)"
  },
  {
   "property": "C67",
   "status": "proved",
   "theorems": [
    "Verif.Props.read_vocabulary",
    "Verif.Props.vocabLine_unique",
    "Verif.Props.read_variants",
    "Verif.Props.read_variants_links",
    "Verif.Props.variantLines_unique",
    "Verif.Props.variantLines_freq",
    "Verif.Props.variantLines_plain",
    "Verif.Props.variant_list_misread"
   ],
   "note": "scores are finite numbers; a first line without variants, and a variant that is a number in a list without frequencies, make reading panic (variant_list_misread)"
  },
  {
   "property": "C68",
   "status": "proved",
   "theorems": [
    "Verif.Props.words_covered",
    "Verif.Props.single_word_lost"
   ],
   "note": "In floating point for batches that are not too long (C117: up to 1000 words), for exact arithmetic of any length; requires that a cheapest path is returned, and first where all paths have one transition; violated otherwise (single_word_lost); confusables may raise a score by at most nine tenths"
  },
  {
   "property": "C69",
   "status": "proved",
   "theorems": [
    "Verif.Props.rule_added",
    "Verif.Props.parse_trim",
    "Verif.Props.offset_beyond_rule_panics"
   ],
   "note": "rules of fewer than 256 words; a tag that starts after the end of the rule panics instead of giving an error (witness)"
  },
  {
   "property": "C70",
   "status": "proved",
   "theorems": [
    "Verif.Props.read_rules"
   ],
   "note": "reading lines and parsing floats are foreign"
  },
  {
   "property": "C71",
   "status": "proved",
   "theorems": [
    "Verif.Props.json_query_document",
    "Verif.Props.json_search_document",
    "Verif.Props.json_two_files_malformed"
   ],
   "note": "for texts that need no escapes but for quotes; violated for several files"
  },
  {
   "property": "C72",
   "status": "proved",
   "theorems": [
    "Verif.Props.json_learn_malformed",
    "Verif.Props.json_learn_iff"
   ],
   "note": "under the assumption that texts need no escapes but for quotes"
  },
  {
   "property": "C73",
   "status": "proved",
   "theorems": [
    "Verif.Props.testinput_unknown_iff"
   ],
   "note": ""
  },
  {
   "property": "C74",
   "status": "partial",
   "theorems": [
    "Verif.Props.multi_output_json_partial",
    "Verif.Props.multi_output_tsv",
    "Verif.Props.multi_output_json_swapped"
   ],
   "note": "JSON: right files, but score and frequency are swapped; TSV: refuted, multi_output_tsv says which files are written"
  },
  {
   "property": "C75",
   "status": "proved",
   "theorems": [
    "Verif.Props.learn_rounds"
   ],
   "note": ""
  },
  {
   "property": "C76",
   "status": "proved",
   "theorems": [
    "Verif.Props.search_total",
    "Verif.Props.search_total_of_lookups",
    "Verif.Props.no_sequences_panics"
   ],
   "note": "no_sequences_panics: maxSeq = 0 panics"
  },
  {
   "property": "C77",
   "status": "partial",
   "theorems": [
    "Verif.Props.sequence_score",
    "Verif.Props.mixed_lt",
    "Verif.Props.no_better_reading_partial",
    "Verif.Props.batch_no_better_reading_partial",
    "Verif.Props.single_word_first",
    "Verif.Props.single_word_ignores_rules",
    "Verif.Props.overcounted_pair_loses"
   ],
   "note": "exact arithmetic; violated for batches of one word (single_word_first, single_word_ignores_rules) and for pairs counted more often than their first token (overcounted_pair_loses)"
  },
  {
   "property": "C78",
   "status": "proved",
   "theorems": [
    "Verif.Props.text_tags",
    "Verif.Props.text_tags_numbered",
    "Verif.Props.tags_assigned"
   ],
   "note": "rules within the limits of C51"
  },
  {
   "property": "C79",
   "status": "proved",
   "theorems": [
    "Verif.Props.iter_recursive_unique",
    "Verif.Props.iter_recursive_ways",
    "Verif.Props.ways_same_value",
    "Verif.Props.iter_external_cache",
    "Verif.Props.shallow_cache_hides",
    "Verif.Props.cache_after",
    "Verif.Props.second_search_empty"
   ],
   "note": "the cache variant is proved for depth first; a cache that is not closed downwards hides bags (shallow_cache_hides)"
  },
  {
   "property": "C80",
   "status": "proved",
   "theorems": [
    "Verif.Props.resources_in_order",
    "Verif.Props.loaded_history",
    "Verif.Props.adds_unique",
    "Verif.Props.addsAll_unique",
    "Verif.Props.loaded_entry",
    "Verif.Props.loaded_rules",
    "Verif.Props.loaded_rules_of_lines",
    "Verif.Props.loaded_query_total",
    "Verif.Props.loaded_search_total"
   ],
   "note": "at most 256 sources, of which membership is stated for the first 32 (see C10); the limits on lengths of C48 and C76"
  },
  {
   "property": "C81",
   "status": "proved",
   "theorems": [
    "Verif.Props.index_output"
   ],
   "note": "alphabets of at most 167 lines"
  },
  {
   "property": "C82",
   "status": "proved",
   "theorems": [
    "Verif.Props.read_confusables",
    "Verif.Props.loaded_confusables",
    "Verif.Props.cutoff_accepted"
   ],
   "note": "the edit script parser of sesdiff and decimal parsing are parameters"
  },
  {
   "property": "C83",
   "status": "proved",
   "theorems": [
    "Verif.Props.py_history",
    "Verif.Props.callsAdd_unique",
    "Verif.Props.py_lexicons",
    "Verif.Props.py_built",
    "Verif.Props.py_query_total",
    "Verif.Props.py_search_total",
    "Verif.Props.py_find_variants",
    "Verif.Props.py_find_variants_par",
    "Verif.Props.py_find_all_matches",
    "Verif.Props.py_added_word_in_first_lexicon",
    "Verif.Props.py_many_lexicons"
   ],
   "note": "lengths as in C48 and C76; with more than 32 lexicons queries with results panic (py_many_lexicons)"
  },
  {
   "property": "C84",
   "status": "partial",
   "theorems": [
    "Verif.Props.command_line_parameters_partial",
    "Verif.Props.command_line_weights",
    "Verif.Props.command_line_resources",
    "Verif.Props.text_option",
    "Verif.Props.unicode_offsets_ignored",
    "Verif.Props.unicode_offsets_fails"
   ],
   "note": "all options but --unicode-offsets, which is ignored because main asks for it by another name (refuted: unicode_offsets_fails)"
  },
  {
   "property": "C85",
   "status": "proved",
   "theorems": [
    "Verif.Props.py_parameters",
    "Verif.Props.py_parameters_order",
    "Verif.Props.extractThreshold_iff",
    "Verif.Props.py_vocab_parameters",
    "Verif.Props.py_ratio_unchecked",
    "Verif.Props.py_freq_column_none"
   ],
   "note": "PyO3 conversions as described in Model/Python; ratios are not checked (py_ratio_unchecked)"
  },
  {
   "property": "C86",
   "status": "partial",
   "theorems": [
    "Verif.Props.assign_some",
    "Verif.Props.assign_none",
    "Verif.Props.setParam_fits",
    "Verif.Props.newParams_fits",
    "Verif.Props.py_read_back_partial",
    "Verif.Props.py_read_back_fails",
    "Verif.Props.py_score_readonly"
   ],
   "note": "a ratio with a limit and the stop criterion are lost (refuted: py_read_back_fails); everything else is read back"
  },
  {
   "property": "C87",
   "status": "proved",
   "theorems": [
    "Verif.Props.runs_repeatable",
    "Verif.Props.index_runs_repeatable",
    "Verif.Props.threads_do_not_matter"
   ],
   "note": "index prints the same lines in another order; --single-thread makes a difference to a query with lines that cannot be read (see C60)"
  },
  {
   "property": "C88",
   "status": "proved",
   "theorems": [
    "Verif.Props.main_output",
    "Verif.Props.query_run",
    "Verif.Props.search_run",
    "Verif.Props.learn_run",
    "Verif.Props.testinput_run",
    "Verif.Props.index_run"
   ],
   "note": "TSV output; parameters and weights that are infinite or not numbers are not modelled; testinput and index for alphabets of up to 167 symbols"
  },
  {
   "property": "C89",
   "status": "proved",
   "theorems": [
    "Verif.Props.load_total",
    "Verif.Props.query_succeeds",
    "Verif.Props.query_empty_line_fails",
    "Verif.Props.search_succeeds",
    "Verif.Props.index_succeeds",
    "Verif.Props.testinput_succeeds",
    "Verif.Props.learn_succeeds",
    "Verif.Props.learn_overflow_fails"
   ],
   "note": "the conditions are those of the statement: documented file formats, at most 166 alphabet lines and 32 sources, frequencies that sum to less than 2^32, finite parameters, and short texts; an empty line makes a query panic (refuted for such inputs: query_empty_line_fails); learning needs a bound for the counts (learn_overflow_fails shows a run that panics without)"
  },
  {
   "property": "C90",
   "status": "proved",
   "theorems": [
    "Verif.Props.similar_entries_found",
    "Verif.Props.similar_words_found",
    "Verif.Props.query_prints_similar"
   ],
   "note": "the conditions are those of the statement; TSV output"
  },
  {
   "property": "C91",
   "status": "proved",
   "theorems": [
    "Verif.Props.json_unique",
    "Verif.Props.query_json_run",
    "Verif.Props.search_json_run",
    "Verif.Props.query_json_several_malformed"
   ],
   "note": "the conditions are those of the statement: characters that need escapes other than quotes are refuted in C62 (json_backslash_misread), several inputs here (query_json_several_malformed); the search needs lines joined by spaces (without --retain-linebreaks)"
  },
  {
   "property": "C92",
   "status": "proved",
   "theorems": [
    "Verif.Props.plain_query",
    "Verif.Props.word_order_irrelevant",
    "Verif.Props.word_order_may_matter"
   ],
   "note": "the conditions are those of C90; without --output-lexmatch; word_order_may_matter is the witness for the last sentence"
  },
  {
   "property": "C93",
   "status": "proved",
   "theorems": [
    "Verif.Props.more_is_found",
    "Verif.Props.more_words_may_hide"
   ],
   "note": "the conditions are those of C90; without --output-lexmatch; more_words_may_hide is the witness for the last sentence"
  },
  {
   "property": "C94",
   "status": "proved",
   "theorems": [
    "Verif.Props.word_found_for_itself"
   ],
   "note": "the conditions are those of C90; without --output-lexmatch"
  },
  {
   "property": "C95",
   "status": "proved",
   "theorems": [
    "Verif.Props.words_of_text",
    "Verif.Props.search_prints_similar",
    "Verif.Props.search_without_words"
   ],
   "note": "the lexicons must not have reserved words, and the words of the text must not be too long"
  },
  {
   "property": "C96",
   "status": "proved",
   "theorems": [
    "Verif.Props.matches_stretches",
    "Verif.Props.search_rows"
   ],
   "note": "the solver is a parameter; assumes that it only returns accepting paths and that a space is not alphabetic"
  },
  {
   "property": "C97",
   "status": "proved",
   "theorems": [
    "Verif.Props.search_cheapest",
    "Verif.Props.search_cheapest_exact"
   ],
   "note": "up to errors of the arithmetic, which are bounded (Reckons, slack) and zero for exact arithmetic (search_cheapest_exact), C117 for IEEE 754; confusables may raise a score by at most nine tenths; the solver is a parameter that returns a cheapest path (in any order; first where all paths have one transition)"
  },
  {
   "property": "C98",
   "status": "proved",
   "theorems": [
    "Verif.Props.search_prints_cheapest"
   ],
   "note": "up to errors of the arithmetic as in C97; the solver is a parameter that returns a cheapest path (in any order; first where all paths have one transition); lexicons without reserved words"
  },
  {
   "property": "C99",
   "status": "proved",
   "theorems": [
    "Verif.Props.find_variants_exact",
    "Verif.Props.describes_lexisOf"
   ],
   "note": "floats are rationals with a rounding function; distances at most 255; entries shorter than 65536 characters; links lead to entries that exist"
  },
  {
   "property": "C100",
   "status": "proved",
   "theorems": [
    "Verif.Props.describes_load",
    "Verif.Props.query_prints_suggestions"
   ],
   "note": "at most 32 sources; references of links are not reserved words; resources and numbers are usable (C86), lines 1 to about 255 symbols"
  },
  {
   "property": "C101",
   "status": "proved",
   "theorems": [
    "Verif.Props.search_prints_suggestions"
   ],
   "note": "up to errors of the arithmetic as in C97; the solver is a parameter that returns a cheapest path (in any order; first where all paths have one transition); resources without reserved words; confusables may raise a score by at most nine tenths"
  },
  {
   "property": "C102",
   "status": "proved",
   "theorems": [
    "Verif.Props.search_prints_word_suggestions"
   ],
   "note": "resources without reserved words; resources and numbers are usable (C86), words of up to about 255 symbols"
  },
  {
   "property": "C103",
   "status": "proved",
   "theorems": [
    "Verif.Props.query_writes_suggestions"
   ],
   "note": "one input (with several, the output is not JSON: C91); files and input without backslashes and control characters; resources and numbers are usable (C86), lines of up to about 255 symbols"
  },
  {
   "property": "C104",
   "status": "proved",
   "theorems": [
    "Verif.Props.search_writes_suggestions",
    "Verif.Props.search_writes_word_suggestions"
   ],
   "note": "as C101-C103"
  },
  {
   "property": "C105",
   "status": "proved",
   "theorems": [
    "Verif.Props.learn_strict_prints"
   ],
   "note": "without --json and --multi-output; resources and numbers are usable (C86), counts stay below 2^32 (C89), lines are not empty and have up to about 255 symbols"
  },
  {
   "property": "C106",
   "status": "proved",
   "theorems": [
    "Verif.Props.learn_words_prints",
    "Verif.Props.learn_stretches_prints"
   ],
   "note": "without --json and --multi-output; resources and numbers are usable (C86), counts stay below 2^32 (C89), words or stretches have up to about 255 symbols; confusables above 1 are excluded for stretches because learned scores could then grow from round to round"
  },
  {
   "property": "C107",
   "status": "proved",
   "theorems": [
    "Verif.Props.search_reads",
    "Verif.Props.chosen_mixed",
    "Verif.Props.perplexity_positive",
    "Verif.Props.refSolver_best"
   ],
   "note": "byte offsets (C18 covers character offsets); the solver is required to return the n cheapest paths (the reference solver does); with max_ngram 1 and neither language model nor rules the search takes another branch (C95, C102); with exact arithmetic only (positive and discounted counts give positive perplexities, perplexity_positive)"
  },
  {
   "property": "C108",
   "status": "proved",
   "theorems": [
    "Verif.Props.loaded_has",
    "Verif.Props.loaded_haveLm",
    "Verif.Props.loaded_counts",
    "Verif.Props.single_count",
    "Verif.Props.listed_not_lm",
    "Verif.Props.listed_transition",
    "Verif.Props.loaded_perplexity",
    "Verif.Props.loaded_lm_run"
   ],
   "note": "listed_transition is stated for exact arithmetic; that lexicon words never get a count of their own is proved as what the code does"
  },
  {
   "property": "C109",
   "status": "proved",
   "theorems": [
    "Verif.Props.loaded_lexindex",
    "Verif.Props.loaded_written",
    "Verif.Props.loaded_context",
    "Verif.Props.loaded_tags",
    "Verif.Props.loaded_rules_run"
   ],
   "note": ""
  },
  {
   "property": "C110",
   "status": "proved",
   "theorems": [
    "Verif.Props.search_prints_readings",
    "Verif.Props.resources_read"
   ],
   "note": ""
  },
  {
   "property": "C111",
   "status": "proved",
   "theorems": [
    "Verif.Props.search_writes_readings"
   ],
   "note": ""
  },
  {
   "property": "C112",
   "status": "proved",
   "theorems": [
    "Verif.Props.irrelevant_options",
    "Verif.Props.idle_options",
    "Verif.Props.allow_overlap_ignored"
   ],
   "note": ""
  },
  {
   "property": "C113",
   "status": "proved",
   "theorems": [
    "Verif.Props.index_prints_words",
    "Verif.Props.index_groups_anagrams",
    "Verif.Props.wordsOf_nodup"
   ],
   "note": ""
  },
  {
   "property": "C114",
   "status": "proved",
   "theorems": [
    "Verif.Props.trace_complete",
    "Verif.Props.unopened_file_after_output",
    "Verif.Props.query_prints_before_panic",
    "Verif.Props.threads_print_beginning",
    "Verif.Props.threads_lose_lines"
   ],
   "note": ""
  },
  {
   "property": "C115",
   "status": "proved",
   "theorems": [
    "Verif.Props.binary64_nearest",
    "Verif.Props.binary32_nearest",
    "Verif.Props.score_accurate",
    "Verif.Props.ranking_accurate",
    "Verif.Props.overall_accurate",
    "Verif.Props.frequency_ranking_accurate",
    "Verif.Props.query_accurate"
   ],
   "note": ""
  },
  {
   "property": "C116",
   "status": "partial",
   "theorems": [
    "Verif.Props.ties_by_frequency_partial",
    "Verif.Props.computed_ties",
    "Verif.Props.query_ties_partial",
    "Verif.Props.score_exact_of_power",
    "Verif.Props.tie_decided_by_rounding"
   ],
   "note": "False in f64 arithmetic: with default weights the words abxc and axbc have the same mean, 2/3, for the text abc, but their computed scores differ in the last place, so that the word that occurs once is listed before the one that occurs 1000 times (tie_decided_by_rounding). Proved: frequency decides between the same computed scores (computed_ties), and, with the default weights, between the same means for texts of 1, 2, 4, ..., 128 symbols, for which scores are computed without rounding (ties_by_frequency_partial); the same for what a query prints (query_ties_partial). Missing: the statement for other lengths, where it is false."
  },
  {
   "property": "C117",
   "status": "proved",
   "theorems": [
    "Verif.Props.search_cheapest_ieee",
    "Verif.Props.words_covered_ieee",
    "Verif.Props.search_finds_clear",
    "Verif.Props.ieee_reckons",
    "Verif.Props.solverAdds_within",
    "Verif.Props.sumSolver_adds",
    "Verif.Props.slack32_le"
   ],
   "note": "the solver (rustfst) is not modelled; SolverAdds says what is required of it: sums in f32 in any order, a tolerance; sumSolver is one that meets this; no overflow"
  },
  {
   "property": "C118",
   "status": "proved",
   "theorems": [
    "Verif.Props.learned_list_iff",
    "Verif.Props.learned_list_variants",
    "Verif.Props.learn_reloads",
    "Verif.Props.learned_links",
    "Verif.Props.learned_list_misread",
    "Verif.Props.learned_list_tab"
   ],
   "note": "that scores are read as they are written (Display and FromStr of f64 are inverse) is an assumption (Readable); learned_list_misread and learned_list_tab show the claim of the README failing for two numbers as variants and for texts with tabs"
  },
  {
   "property": "C119",
   "status": "proved",
   "theorems": [
    "Verif.Props.query_thresholds_exact",
    "Verif.Props.threshold_exact",
    "Verif.Props.python_threshold_exact",
    "Verif.Props.threshold_inexact"
   ],
   "note": "that decimals are read as the nearest f32 (FromStr of f32) is an assumption (ReadsDecimals), and that arithmetic is that of IEEE 754; threshold_inexact shows that 53 as a limit, seven places, and longer texts are not covered"
  },
  {
   "property": "C120",
   "status": "proved",
   "theorems": [
    "Verif.Props.py_suggestions",
    "Verif.Props.py_suggestions_par"
   ],
   "note": "references in variant lists must not be the reserved texts <bos>, <eos>, <unk>; weights must not sum to zero and the frequency weight must not be negative; a call that panics ends what is said"
  },
  {
   "property": "C121",
   "status": "proved",
   "theorems": [
    "Verif.Props.py_divides",
    "Verif.Props.py_words"
   ],
   "note": "as C120; in addition no reserved words and no entries of a language model may be added, scores of links must be between 0 and 1, and confusables may raise a score by at most nine tenths (for max_ngram of at least 2)"
  },
  {
   "property": "C122",
   "status": "proved",
   "theorems": [
    "Verif.Props.search_weighs",
    "Verif.Props.plausible_figures",
    "Verif.Props.frequent_pair_loses",
    "Verif.Props.ieee_sound"
   ],
   "note": "for solvers that return the paths with the least sums as they are computed, up to a tolerance and in any order (a least first where all paths have one transition); token lists of entries of at most 255 tokens"
  },
  {
   "property": "C123",
   "status": "proved",
   "theorems": [
    "Verif.Props.search_prints_weighed",
    "Verif.Props.search_writes_weighed",
    "Verif.Props.rare_figures"
   ],
   "note": "for solvers and token lists as for C122"
  },
  {
   "property": "C124",
   "status": "proved",
   "theorems": [
    "Verif.Props.reading_gives",
    "Verif.Props.reading_ends_iff",
    "Verif.Props.failing_reader_hangs",
    "Verif.Props.first_failure_ends"
   ],
   "note": ""
  },
  {
   "property": "C125",
   "status": "proved",
   "theorems": [
    "Verif.Props.lines_of_text",
    "Verif.Props.run_ignores_line_ends",
    "Verif.Props.byte_order_mark_is_read"
   ],
   "note": ""
  },
  {
   "property": "C126",
   "status": "proved",
   "theorems": [
    "Verif.Props.loads_as_python",
    "Verif.Props.keywords_give",
    "Verif.Props.parameters_as_python",
    "Verif.Props.query_as_python",
    "Verif.Props.search_as_python",
    "Verif.Props.query_json_as_python",
    "Verif.Props.search_defaults",
    "Verif.Props.query_defaults",
    "Verif.Props.defaults_differ"
   ],
   "note": ""
  },
  {
   "property": "C127",
   "status": "proved",
   "theorems": [
    "Verif.Props.search_as_queries",
    "Verif.Props.query_by_lines",
    "Verif.Props.search_by_groups"
   ],
   "note": ""
  },
  {
   "property": "C128",
   "status": "proved",
   "theorems": [
    "Verif.Props.same_spelling_same_variants",
    "Verif.Props.same_spelling_same_columns",
    "Verif.Props.spelling_case_matters",
    "Verif.Props.spelling_confusables_matter"
   ],
   "note": ""
  },
  {
   "property": "C129",
   "status": "proved",
   "theorems": [
    "Verif.Props.py_weights",
    "Verif.Props.weights_read_back",
    "Verif.Props.weights_assign",
    "Verif.Props.weights_as_python",
    "Verif.Props.vocab_assign",
    "Verif.Props.no_frequencies_by_assignment"
   ],
   "note": ""
  },
  {
   "property": "C130",
   "status": "proved",
   "theorems": [
    "Verif.Props.find_variants_defined",
    "Verif.Props.query_succeeds_iff",
    "Verif.Props.search_needs_words",
    "Verif.Props.search_words_succeeds_iff"
   ],
   "note": ""
  },
  {
   "property": "C131",
   "status": "proved",
   "theorems": [
    "Verif.Props.out_of_reach_irrelevant",
    "Verif.Props.frequencies_break_ties",
    "Verif.Props.relative_frequencies_count",
    "Verif.Props.relative_weights_count",
    "Verif.Props.power_safe",
    "Verif.Props.power_exact"
   ],
   "note": "the conditions are those of C90; without --output-lexmatch; the condition on rounding is proved for powers of two in binary64 (power_safe, power_exact), and holds for all factors in exact arithmetic (exact_safe)"
  },
  {
   "property": "C132",
   "status": "proved",
   "theorems": [
    "Verif.Props.decompose_exact",
    "Verif.Props.alphabet_level",
    "Verif.Props.low_levels_same",
    "Verif.Props.high_levels_exact",
    "Verif.Props.exLevels"
   ],
   "note": "the clock (level 2 and more) and the drawing of transducers to files in searches (level 3 and more) are not modelled"
  },
  {
   "property": "C133",
   "status": "proved",
   "theorems": [
    "Verif.Props.release_agrees",
    "Verif.Props.release_agrees_many",
    "Verif.Props.release_vocabulary",
    "Verif.Props.release_confuses"
   ],
   "note": "that a word of the 33rd source counts as one of the first, and that a frequency can shrink when added to, is release_confuses"
  },
  {
   "property": "C134",
   "status": "proved",
   "theorems": [
    "Verif.Props.plain_search",
    "Verif.Props.search_order_irrelevant",
    "Verif.Props.search_more_is_found",
    "Verif.Props.correct_words_found"
   ],
   "note": "without --lm, --contextrules, --confusables, --variants, --errors, --json, --output-lexmatch and --stop-exact"
  },
  {
   "property": "C135",
   "status": "proved",
   "theorems": [
    "Verif.Props.score_one_only",
    "Verif.Props.correct_line_unchanged",
    "Verif.Props.correct_text_unchanged",
    "Verif.Props.correct_word_replaced"
   ],
   "note": "that another word with the same symbols can take its place is correct_word_replaced"
  },
  {
   "property": "C136",
   "status": "proved",
   "theorems": [
    "Verif.Props.correct_text_undivided",
    "Verif.Props.correct_text_undivided_ieee",
    "Verif.Props.exUndivided"
   ],
   "note": "exUndivided is the example"
  },
  {
   "property": "C137",
   "status": "proved",
   "theorems": [
    "Verif.Props.suggested_links",
    "Verif.Props.errors_corrected"
   ],
   "note": ""
  },
  {
   "property": "C138",
   "status": "proved",
   "theorems": [
    "Verif.Props.errors_corrected_in_text"
   ],
   "note": "resources without reserved words; words of up to about 255 symbols"
  },
  {
   "property": "C139",
   "status": "proved",
   "theorems": [
    "Verif.Props.suggested_not_error",
    "Verif.Props.errors_unsuggested",
    "Verif.Props.errors_unsuggested_in_text",
    "Verif.Props.errors_unsuggested_in_stretches"
   ],
   "note": "query without --json and --output-lexmatch; search without --json, --lm and --contextrules, resources without reserved words"
  },
  {
   "property": "C140",
   "status": "proved",
   "theorems": [
    "Verif.Props.correction_idempotent"
   ],
   "note": "without --variants, --errors, --confusables, --json, --output-lexmatch and --stop-exact; words of up to about 255 symbols"
  },
  {
   "property": "C141",
   "status": "proved",
   "theorems": [
    "Verif.Props.linked_suggested",
    "Verif.Props.no_error_left"
   ],
   "note": "without --json, --output-lexmatch and --lm; lines that are not reserved"
  },
  {
   "property": "C142",
   "status": "proved",
   "theorems": [
    "Verif.Props.search_accurate"
   ],
   "note": "searches of the form of C93-C95: words of the text one by one, lexicons only, TSV output"
  }
 ]
}
