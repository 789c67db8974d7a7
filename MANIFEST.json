{
 "claims": [
  {
   "property": "C01",
   "status": "partial",
   "theorems": [
    "Fog.Props.levenshtein_distance_is_not_edit_distance",
    "Fog.Props.levenshtein_distance_collides_beyond_16_bits",
    "Fog.Props.levenshtein_distance_exact_partial",
    "Fog.Props.levenshtein_distance_within_one_partial",
    "Fog.Props.levenshtein_distance_error_partial",
    "Fog.Props.levenshtein_distance_truncated_partial"
   ],
   "note": "False of the code: the one-character shortcut looks in the untrimmed string and code points are truncated to 16 bits (both negations proved with witnesses). Proved: the value is the edit distance less one exactly when the shortcut misfires, and the edit distance otherwise, when characters fit in 16 bits; for any characters, the value is the one of the truncated strings wherever the code reads truncated characters."
  },
  {
   "property": "C02",
   "status": "partial",
   "theorems": [
    "Fog.Props.limited_levenshtein_distance_is_not_exact",
    "Fog.Props.limited_levenshtein_distance_partial",
    "Fog.Props.limited_levenshtein_distance_truncated_partial"
   ],
   "note": "False of the code for characters beyond 16 bits (witness). Proved for all limits when the longer string has 16-bit characters, and in general in terms of the truncated strings."
  },
  {
   "property": "C03",
   "status": "proved",
   "theorems": [
    "Fog.Props.levenshtein_distance_lte1_iff"
   ],
   "note": "identical stands for A is B: identical strings are equal and CPython has a single empty string. Lengths and reads are unbounded here; C104 is about the compiled numbers and memory."
  },
  {
   "property": "C04",
   "status": "proved",
   "theorems": [
    "Fog.Props.damerau_levenshtein_distance_lte1_iff"
   ],
   "note": "identical stands for A is B, as in C03."
  },
  {
   "property": "C05",
   "status": "proved",
   "theorems": [
    "Fog.Props.levenshtein_1d_keys_sound"
   ],
   "note": "For strings without the flag character, as the property says."
  },
  {
   "property": "C06",
   "status": "partial",
   "theorems": [
    "Fog.Props.levenshtein_1d_keys_is_not_complete",
    "Fog.Props.levenshtein_1d_keys_complete_partial",
    "Fog.Props.levenshtein_1d_keys_complete_undoubled_partial"
   ],
   "note": "False of the code: 'aa' and 'aba' share no key (negation proved). Proved: the exact set of colliding pairs, and completeness for words without doubled letters. Missing: additions between two equal letters, which the code misses."
  },
  {
   "property": "C07",
   "status": "partial",
   "theorems": [
    "Fog.Props.damerau_levenshtein_1d_keys_is_not_sound",
    "Fog.Props.damerau_levenshtein_1d_keys_is_not_complete",
    "Fog.Props.damerau_levenshtein_1d_keys_collide_partial",
    "Fog.Props.damerau_levenshtein_1d_keys_sound_partial"
   ],
   "note": "False of the code in both directions (negations proved). Proved: the exact set of colliding pairs, and that colliding strings are within two edits."
  },
  {
   "property": "C08",
   "status": "proved",
   "theorems": [
    "Fog.Props.levenshtein_1d_blocks_complete"
   ],
   "note": ""
  },
  {
   "property": "C09",
   "status": "proved",
   "theorems": [
    "Fog.Props.damerau_levenshtein_1d_blocks_complete"
   ],
   "note": ""
  },
  {
   "property": "C10",
   "status": "partial",
   "theorems": [
    "Fog.Props.levenshtein_2d_blocks_is_not_complete",
    "Fog.Props.damerau_levenshtein_2d_blocks_raises",
    "Fog.Props.damerau_levenshtein_2d_blocks_is_not_complete",
    "Fog.Props.levenshtein_2d_blocks_complete_partial",
    "Fog.Props.levenshtein_2d_blocks_substitutions_partial",
    "Fog.Props.levenshtein_2d_blocks_returns_partial",
    "Fog.Props.levenshtein_2d_blocks_same_length",
    "Fog.Props.levenshtein_2d_blocks_shift",
    "Fog.Props.levenshtein_2d_blocks_shift_plain",
    "Fog.Props.levenshtein_2d_blocks_missed_partial",
    "Fog.Props.damerau_levenshtein_2d_blocks_swap_edit",
    "Fog.Props.damerau_levenshtein_2d_blocks_swap_swap",
    "Fog.Props.damerau_levenshtein_2d_blocks_complete_partial"
   ],
   "note": "False of the code (negations proved). Proved: complete for all strings within two edits unless they have the same length and it is a multiple of three; there, complete for substitutions, and without transpositions the strings missed are found exactly: a letter is taken away and another put further, and no third is unchanged by the shift. With transpositions, all strings within two edits or swaps share a block but for this case and two swaps both at the borders of the thirds of 3 h + 1 letters. Raises only on the empty string with transpositions."
  },
  {
   "property": "C100",
   "status": "proved",
   "theorems": [
    "Fog.Props.turn_full_exact"
   ],
   "note": "heapq is a parameter: it loses nothing, its first element is one of the least similar, and being a heap does not depend on flags, which is so of the order by similarity. Neighbors may be repeated in a list (see C42)."
  },
  {
   "property": "C101",
   "status": "proved",
   "theorems": [
    "Fog.Props.preprocess_freq_exact",
    "Fog.Props.preprocess_none_exact",
    "Fog.Props.argsort_exact"
   ],
   "note": "The frequency of a token counts all of its occurrences, also in one record. Without a tokenizer, the order by frequency raises (see ppjoin_default_raises)."
  },
  {
   "property": "C102",
   "status": "proved",
   "theorems": [
    "Fog.Props.split_hashtag_exact",
    "Fog.Props.split_hashtag_first"
   ],
   "note": "Character tables are parameters. Hashtags with characters which have no case are only covered by C52."
  },
  {
   "property": "C103",
   "status": "proved",
   "theorems": [
    "Fog.Props.turn_exact"
   ],
   "note": "heapq is a parameter: it loses nothing and its first element is one of the least similar. Neighbors may be repeated in a list (see C42)."
  },
  {
   "property": "C104",
   "status": "proved",
   "theorems": [
    "Fog.Props.levenshtein_distance_memory",
    "Fog.Props.limited_levenshtein_distance_memory",
    "Fog.Props.lte1_memory"
   ],
   "note": "malloc is assumed to succeed. The values are compared with those of the models of C01-C04 when the lengths are below 2^32; there is no fault at any length for the two distances."
  },
  {
   "property": "C105",
   "status": "partial",
   "theorems": [
    "Fog.Props.limited_levenshtein_distance_leaks",
    "Fog.Props.limited_levenshtein_distance_keeps_partial",
    "Fog.Props.limited_levenshtein_distance_keeps_distance_partial"
   ],
   "note": "False: the return of l. 257 frees nothing. Exact account: both arrays, of the size of the trimmed longer string, are lost exactly when the distance is above the limit and the difference of the lengths is not."
  },
  {
   "property": "C106",
   "status": "partial",
   "theorems": [
    "Fog.Props.levenshtein_1d_keys_count_documented",
    "Fog.Props.levenshtein_1d_keys_count_partial",
    "Fog.Props.damerau_levenshtein_1d_keys_count_partial",
    "Fog.Props.levenshtein_1d_keys_nodup",
    "Fog.Props.levenshtein_1d_blocks_count_partial",
    "Fog.Props.levenshtein_2d_blocks_count_partial"
   ],
   "note": "False: the documented numbers of keys are never reached (levenshtein_1d_keys_count_documented), and a single letter has three blocks. Proved: the exact numbers, with the number of doubled letters, and that no key is given twice when the flag is not in the string."
  },
  {
   "property": "C107",
   "status": "partial",
   "theorems": [
    "Fog.Props.levenshtein_distance_not_symmetric",
    "Fog.Props.levenshtein_distance_no_triangle",
    "Fog.Props.limited_levenshtein_distance_not_metric",
    "Fog.Props.levenshtein_distance_metric_partial",
    "Fog.Props.levenshtein_distance_almost_metric_partial",
    "Fog.Props.limited_levenshtein_distance_metric_partial"
   ],
   "note": "False: levenshtein_distance is not symmetric, is zero between 'aa' and 'ab' and breaks the triangle inequality; limited_levenshtein_distance does beyond 16 bits. Proved: levenshtein_distance is a metric on strings without a repeated letter and up to one or two on all 16-bit strings; limited_levenshtein_distance is a metric on all 16-bit strings, for all limits."
  },
  {
   "property": "C108",
   "status": "partial",
   "theorems": [
    "Fog.Props.blocking_levenshtein",
    "Fog.Props.blocking_damerau_levenshtein",
    "Fog.Props.key_collision_levenshtein_partial",
    "Fog.Props.key_collision_levenshtein_undoubled_partial",
    "Fog.Props.passjoin_limited_levenshtein",
    "Fog.Props.passjoin_levenshtein_partial",
    "Fog.Props.passjoin_levenshtein_sorting",
    "Fog.Props.quickjoin_limited_levenshtein"
   ],
   "note": "Proved for blocking, and for passjoin and quickjoin with limited_levenshtein_distance on 16-bit strings. False for key_collision on words with doubled letters (exactly what it links is proved) and for passjoin with levenshtein_distance, which may link strings k + 1 edits apart, depending on the sort option (passjoin_levenshtein_sorting)."
  },
  {
   "property": "C109",
   "status": "partial",
   "theorems": [
    "Fog.Props.set_similarities_float",
    "Fog.Props.set_similarities_float_one",
    "Fog.Props.sparse_cosine_float",
    "Fog.Props.cosine_similarity_float",
    "Fog.Props.binary_cosine_float",
    "Fog.Props.sparse_cosine_float_above_one",
    "Fog.Props.weighted_jaccard_float_partial",
    "Fog.Props.weighted_jaccard_float_not_symmetric"
   ],
   "note": "Proved for jaccard, dice, overlap (any sets; one on equal sets only up to 2^53 elements), for the cosine of integer weights whose squares add up to at most 2^53, of sequences of at most 2^26 items and of binary vectors up to 2^53 elements (error at most 3/2^53). False in general: the cosine of the vectors 0.3 and 1.7 is 1 + 2^-52, and weighted_jaccard_similarity is not symmetric and may be one on maps which differ. For weighted_jaccard_similarity only the bounds and one on equal maps are proved, for weights which are doubles."
  },
  {
   "property": "C11",
   "status": "proved",
   "theorems": [
    "Fog.Props.ngram_keys_first",
    "Fog.Props.ngram_keys_exact",
    "Fog.Props.ngram_keys_collide"
   ],
   "note": "keys are the n-grams of the string; unbounded in string and n"
  },
  {
   "property": "C110",
   "status": "proved",
   "theorems": [
    "Fog.Props.all_pairs_jaccard_float",
    "Fog.Props.all_pairs_dice_float",
    "Fog.Props.all_pairs_cosine_float",
    "Fog.Props.jaccard_max_length_float",
    "Fog.Props.dice_max_length_float",
    "Fog.Props.cosine_max_length_float"
   ],
   "note": "Each float operation of the three helpers is rounded by an arbitrary function to nearest doubles. The join itself is that of C31-C33, generic in the helper. ppjoin and ppjoin+ are in C127. The greatest possible lengths are not too small either."
  },
  {
   "property": "C111",
   "status": "partial",
   "theorems": [
    "Fog.Props.quickjoin_float_components_partial",
    "Fog.Props.quickjoin_float_vptree_partial",
    "Fog.Props.quickjoin_float_terminates_partial",
    "Fog.Props.quickjoin_float_loses"
   ],
   "note": "False when the distances are themselves rounded: with abs(x - y) on four doubles, two items at a computed distance of exactly the radius are not linked (quickjoin_float_loses). Proved: nothing is lost when the distances are doubles which obey the triangle inequality exactly, as distances which are integers do, with or without vantage point trees; and it ends as in C30 when beta times a distance is not rounded to zero."
  },
  {
   "property": "C112",
   "status": "partial",
   "theorems": [
    "Fog.Props.best_matching_float_partial",
    "Fog.Props.best_matching_float_f1",
    "Fog.Props.best_matching_float_perfect",
    "Fog.Props.best_matching_float_one",
    "Fog.Props.best_matching_float_tie"
   ],
   "note": "False for precision and recall: when two candidates have the same F1 score, rounding decides, and on twelve items the precision goes from 1/2 to 19/22 (best_matching_float_tie). Proved: the candidate taken has the greatest exact F1 score, the three results are between 0 and 1 and near the means for the candidates taken, the F1 result is near the exact one, and is 1 exactly when the clusters are the same (up to 16000 clusters)."
  },
  {
   "property": "C113",
   "status": "partial",
   "theorems": [
    "Fog.Props.floatsam_float_partial",
    "Fog.Props.floatsam_float_stops_partial",
    "Fog.Props.floatsam_float_stuck",
    "Fog.Props.floatsam_float_two_nodes"
   ],
   "note": "False: when the nodes are linked by weights of at least 2^54 times the learning rate, the threshold stops growing and the loop never ends, where it would with exact numbers (floatsam_float_stuck, floatsam_float_two_nodes with the default arguments). Proved: what is returned when it stops, and that it stops, as in C48, when no weight is above 2^52 times the learning rate."
  },
  {
   "property": "C114",
   "status": "partial",
   "theorems": [
    "Fog.Props.minhash_similarity_estimates_partial",
    "Fog.Props.minhash_similarity_estimates_distinct_partial",
    "Fog.Props.agreeing_disjoint_le",
    "Fog.Props.agreeing_same",
    "Fog.Props.agreeing_not_jaccard",
    "Fog.Props.minhash_bias",
    "Fog.Props.minhash_similarity_biased",
    "Fog.Props.agreeing_quarter",
    "Fog.Props.minhash_mean_quarter"
   ],
   "note": "False of the code: the hash functions being affine maps modulo a prime, three tokens with successive hashes are sent on an arithmetic progression, and 'ab' and 'bc', of Jaccard similarity one third, have a mean minhash_similarity of one quarter (minhash_bias, minhash_similarity_biased); items which have nothing in common agree on some coefficients (agreeing_not_jaccard), but on one in 2^28 at most (agreeing_disjoint_le). Proved: the mean is the share of the coefficients on which the two items agree, whether the draws may repeat or not; with independent draws the variance is s (1 - s) / h, with different ones (n - h) / (n - 1) times that for n pairs to draw from, and the chance to be off by e at most that over e squared. That the constructor draws its coefficients in this way is C122. How far the mean may be: for two sequences of at most 8000 tokens in all, it is at least a fourth of the Jaccard similarity s, and at most 1 - (1 - s) / 4 (minhash_mean_quarter)."
  },
  {
   "property": "C115",
   "status": "partial",
   "theorems": [
    "Fog.Props.band_chance",
    "Fog.Props.match_probability_exact_partial",
    "Fog.Props.match_probability_under",
    "Fog.Props.band_chance_distinct"
   ],
   "note": "False when bands does not divide h: the formula uses h / bands where the bands are of h // bands integers, and tells less than the actual chance (match_probability_under). Proved: the exact chance 1 - (1 - s^(h // bands))^bands, which is match_probability when bands divides h; with coefficients which are all different, the same up to h (h - 1) / 2 over the number of pairs of coefficients."
  },
  {
   "property": "C116",
   "status": "partial",
   "theorems": [
    "Fog.Props.join_pivots_float_exact_partial",
    "Fog.Props.join_pivots_float_sound",
    "Fog.Props.join_pivots_float_loses"
   ],
   "note": "False when the distances are themselves rounded: three points of the line, with their distances rounded, lose a pair at a computed distance of exactly the radius (join_pivots_float_loses). Proved: exact when the distances obey the triangle inequality exactly and the radius is a double, although the differences of the filter are rounded; and, whatever the distance, only close pairs are yielded, in order."
  },
  {
   "property": "C117",
   "status": "partial",
   "theorems": [
    "Fog.Props.super_minhash_estimates_partial",
    "Fog.Props.super_minhash_saturates",
    "Fog.Props.super_minhash_disjoint_similar"
   ],
   "note": "False: the signatures keep the integer parts only, so that two sequences with n tokens each, even with none in common, have a mean similarity of at least 1 - 2 (1 - 1/h)^n (super_minhash_saturates), above 24/25 for a thousand tokens and h = 256 (super_minhash_disjoint_similar). Proved: the exact mean, in terms of the chances of the ranks of one token and of the numbers of tokens of each sequence only and of both; and that it is never below the Jaccard similarity. The generator is taken at random among all: rng.seed(token) gives independent numbers to different tokens."
  },
  {
   "property": "C118",
   "status": "partial",
   "theorems": [
    "Fog.Props.lsb_minhash_estimates_partial",
    "Fog.Props.lsb_minhash_biased"
   ],
   "note": "False: with the coefficients of the library, the mean for an empty sequence and the sequence of the integer 1 is below zero (lsb_minhash_biased). Proved: with coefficients which are all different, the mean is 2 t - 1 where t is the share of the coefficients on which the integers of the two sequences have the same parity; the exact variance; and a bound on the chance to be far from the mean. That the constructor draws its coefficients in this way is C122."
  },
  {
   "property": "C119",
   "status": "proved",
   "theorems": [
    "Fog.Props.drawn_pivots_uniform",
    "Fog.Props.quickjoin_turns_mean",
    "Fog.Props.quickjoin_ends",
    "Fog.Props.quickjoin_ends_almost_surely",
    "Fog.Props.quickjoin_may_never_end"
   ],
   "note": "The mean number of turns is at most 2 * 11^n for n items, and the share of the drawings not over after s turns at most 2 * 11^n / s. All the pairs of different positions are as likely at each turn, independently of the other turns. Some drawings never end even so: the pivots taken from the two lists at each turn (quickjoin_may_never_end)."
  },
  {
   "property": "C12",
   "status": "proved",
   "theorems": [
    "Fog.Props.clusters_from_pairs_components"
   ],
   "note": "Components as classes of the reflexive-transitive closure of the pairs; any set iteration order."
  },
  {
   "property": "C120",
   "status": "partial",
   "theorems": [
    "Fog.Props.simhash_estimates_partial",
    "Fog.Props.simhash_disjoint",
    "Fog.Props.simhash_disjoint_odd",
    "Fog.Props.simhash_even_biased",
    "Fog.Props.simhash_tied",
    "Fog.Props.simhash_even_mean"
   ],
   "note": "False: a tie gives a zero bit, so that two sequences of two tokens with none in common have a mean similarity of 5/8 (simhash_even_biased). Proved: for any two sequences the mean is the chance that one random bit per token has the same majority in both, with the exact variance and a bound on the chance to be far from it; with no token in common it is one half plus half of the chance of a tie in both, so one half when a sequence has an odd number of tokens. For 2 m and 2 n different tokens it is one half plus half of C(2m, m) C(2n, n) / 4^(m + n)."
  },
  {
   "property": "C121",
   "status": "proved",
   "theorems": [
    "Fog.Props.nn_descent_draws_mean",
    "Fog.Props.nn_descent_ends",
    "Fog.Props.nn_descent_full_ends",
    "Fog.Props.nn_descent_ends_almost_surely",
    "Fog.Props.nn_descent_may_never_end"
   ],
   "note": "The outcomes are the first s results of rng.randint, all as likely; what comes next is arbitrary. The mean is bounded on both sides, so that it tends to the sum given. The ends are for the mode of connected components. Some drawings never end (nn_descent_may_never_end)."
  },
  {
   "property": "C122",
   "status": "proved",
   "theorems": [
    "Fog.Props.minhash_constructor_ends",
    "Fog.Props.minhash_constructor_uniform",
    "Fog.Props.minhash_drawn_mean",
    "Fog.Props.minhash_similarity_drawn_mean",
    "Fog.Props.minhash_similarity_drawn_near",
    "Fog.Props.lsb_minhash_drawn_mean"
   ],
   "note": "The outcomes are the first s pairs drawn, all as likely; what comes next is arbitrary. The order in which the set of coefficients is iterated is arbitrary, and the results do not depend on it. It is the uniform draw that C114 and C118 suppose."
  },
  {
   "property": "C123",
   "status": "partial",
   "theorems": [
    "Fog.Props.set_similarity_threshold",
    "Fog.Props.jaccard_similarity_threshold",
    "Fog.Props.intersection_index_threshold",
    "Fog.Props.minhash_threshold",
    "Fog.Props.minhash_similarity_threshold_partial",
    "Fog.Props.minhash_similarity_threshold_false",
    "Fog.Props.lsb_minhash_similarity_threshold_partial",
    "Fog.Props.simhash_similarity_threshold"
   ],
   "note": "False for minhash_similarity, which subtracts a rounded quotient from one: when one integer of ten agrees it is computed below 0.1 (minhash_similarity_threshold_false). Proved for the set similarities, intersection_index, minhash with a given number of bands, and simhash_similarity; for minhash_similarity and lsb_minhash_similarity when the similarity is not exactly the threshold, or when the signature has a power of two of integers, as by default, where it is computed exactly."
  },
  {
   "property": "C124",
   "status": "partial",
   "theorems": [
    "Fog.Props.projections_float_sets",
    "Fog.Props.projections_float_threshold",
    "Fog.Props.projections_float_agree_partial",
    "Fog.Props.projections_float_integers",
    "Fog.Props.projections_float_disagree"
   ],
   "note": "False for the cosine: the version with topology passes the smaller node first to sparse_dot_product, the other one the node inserted first, and when both have the same degree the products are added in the order of the first; the weights then differ by an ulp, and with a threshold between them only one version adds the edge (projections_float_disagree). Proved for the set metrics, with and without threshold; and for the cosine when each two nodes have different degrees, at most two common neighbours, or integer weights whose squares have a sum of at most 2^53 (where the weights are given), if no vector has all its weights below 2^-537."
  },
  {
   "property": "C125",
   "status": "proved",
   "theorems": [
    "Fog.Props.fog_help",
    "Fog.Props.fog_actions",
    "Fog.Props.fog_cluster",
    "Fog.Props.fog_cluster_read",
    "Fog.Props.fog_cluster_raises_iff",
    "Fog.Props.fog_fingerprint_settles",
    "Fog.Props.time_text",
    "Fog.Props.took_text",
    "Fog.Props.fog_split_default",
    "Fog.Props.fog_transform"
   ],
   "note": "From the namespace made by argparse (its defaults and choices are modelled, the reading of the command line is not) to what is written. The tables of Unicode are a parameter, supposed to work character by character (ByCharacter); fog_fingerprint_settles supposes that a written table is read again with the same cells. A reader of the TOML text needs values without backslash or control characters other than newlines (C58, C87)."
  },
  {
   "property": "C126",
   "status": "proved",
   "theorems": [
    "Fog.Props.similarity_threshold_float_near",
    "Fog.Props.guess_bands_float_between",
    "Fog.Props.guess_bands_float_same",
    "Fog.Props.guess_bands_float_usable",
    "Fog.Props.guess_bands_default",
    "Fog.Props.minhash_float_guess"
   ],
   "note": "The power of doubles is a parameter: a double, on the same side of every double as the exact power (IsPower), as pow of a C library with an error of less than a unit in the last place which is exact on doubles."
  },
  {
   "property": "C127",
   "status": "proved",
   "theorems": [
    "Fog.Props.ppjoin_position_float",
    "Fog.Props.ppjoin_jaccard_float",
    "Fog.Props.ppjoin_dice_float",
    "Fog.Props.ppjoin_cosine_float"
   ],
   "note": "The hypotheses on thresholds are those of C110. Pairs whose required overlap is within 2e-6 above the greater size minus one may be yielded or not, according to roundings."
  },
  {
   "property": "C128",
   "status": "proved",
   "theorems": [
    "Fog.Props.word_tokenizer_made",
    "Fog.Props.word_tokenizer_type_error",
    "Fog.Props.word_tokenizer_tokens",
    "Fog.Props.word_tokenizer_ascii",
    "Fog.Props.word_tokenizer_keep_nothing"
   ],
   "note": "html.unescape and unidecode are parameters. Bounds on lengths are natural numbers."
  },
  {
   "property": "C129",
   "status": "partial",
   "theorems": [
    "Fog.Props.word_tokenizer_reduced_partial",
    "Fog.Props.word_tokenizer_reduced_not_lowered"
   ],
   "note": "False with lower: words are reduced before they are lowered, so that sooooOOO is given with seven letters o. Proved without lower and without the normalization of mentions and hashtags."
  },
  {
   "property": "C13",
   "status": "proved",
   "theorems": [
    "Fog.Props.clusters_from_pairs_order_irrelevant"
   ],
   "note": ""
  },
  {
   "property": "C130",
   "status": "proved",
   "theorems": [
    "Fog.Props.online_mean_float",
    "Fog.Props.online_mean_float_integers",
    "Fog.Props.online_mean_float_tenth",
    "Fog.Props.online_mean_float_erased"
   ],
   "note": "Ties are rounded arbitrarily; no infinities."
  },
  {
   "property": "C131",
   "status": "proved",
   "theorems": [
    "Fog.Props.sparse_normalize_float",
    "Fog.Props.sparse_normalize_float_zero",
    "Fog.Props.normalized_dot_float",
    "Fog.Props.normalized_dot_float_cosine",
    "Fog.Props.sparse_dot_product_float_not_symmetric"
   ],
   "note": "Ties are rounded arbitrarily. The sum of the norm is rounded at each step, which is exact on whole weights."
  },
  {
   "property": "C132",
   "status": "proved",
   "theorems": [
    "Fog.Props.match_probability_float",
    "Fog.Props.match_probability_float_mono",
    "Fog.Props.match_probability_float_vanishes"
   ],
   "note": "The power of doubles is a parameter as in C126 (IsPower), with 0.0 to a positive power being 0.0."
  },
  {
   "property": "C133",
   "status": "proved",
   "theorems": [
    "Fog.Props.split_written",
    "Fog.Props.transform_written",
    "Fog.Props.split_written_short"
   ],
   "note": "The rows are those given to csv.writer; buffering of the file is not modelled. What is written from a file without fault is in C57 and C69, which rows are at fault in C91."
  },
  {
   "property": "C134",
   "status": "proved",
   "theorems": [
    "Fog.Props.ppjoin_jaccard_raises",
    "Fog.Props.ppjoin_dice_raises",
    "Fog.Props.ppjoin_cosine_raises",
    "Fog.Props.ppjoin_raises_before_yielding",
    "Fog.Props.ppjoin_yields_exact",
    "Fog.Props.ppjoin_dice_raises_before_yielding",
    "Fog.Props.ppjoin_cosine_raises_before_yielding"
   ],
   "note": "Exact arithmetic. A Dice threshold of two divides by zero in the code and is left out."
  },
  {
   "property": "C135",
   "status": "proved",
   "theorems": [
    "Fog.Props.nn_descent_default_float",
    "Fog.Props.nn_descent_float",
    "Fog.Props.laesa_float",
    "Fog.Props.sqrt_indexation_float"
   ],
   "note": "math.log2 is assumed faithful (no double lies between the logarithm and the result), which the C library promises but IEEE 754 does not."
  },
  {
   "property": "C136",
   "status": "proved",
   "theorems": [
    "Fog.Props.crc32_lt",
    "Fog.Props.crc32_substitution",
    "Fog.Props.crc32_ascii",
    "Fog.Props.crc32_ngrams",
    "Fog.Props.crc32_collision",
    "Fog.Props.all_pairs_crc32_collision",
    "Fog.Props.minhash_crc32_collision"
   ],
   "note": "binascii.crc32 is modelled after its definition, bit by bit (it is not part of the repository)."
  },
  {
   "property": "C137",
   "status": "proved",
   "theorems": [
    "Fog.Props.nn_descent_full_float",
    "Fog.Props.nn_descent_full_float_any",
    "Fog.Props.nn_descent_full_float_rho"
   ],
   "note": "The similarities are those of the caller and are not computed with. rho is not negative."
  },
  {
   "property": "C138",
   "status": "proved",
   "theorems": [
    "Fog.Props.popcount16_int",
    "Fog.Props.popcount32_int",
    "Fog.Props.popcount64_int",
    "Fog.Props.popcount_int",
    "Fog.Props.is_power_of_two_int"
   ],
   "note": ""
  },
  {
   "property": "C139",
   "status": "proved",
   "theorems": [
    "Fog.Props.laesa_rounded_components",
    "Fog.Props.laesa_rounded_sound",
    "Fog.Props.laesa_rounded_complete",
    "Fog.Props.laesa_rounded_keeps",
    "Fog.Props.pivot_selection_rounded_greedy",
    "Fog.Props.laesa_rounded_raises_iff",
    "Fog.Props.laesa_rounded_integers"
   ],
   "note": "Overflow is left out. The distance function is a parameter whose values are doubles; no triangle inequality is asked for, but for laesa_rounded_complete."
  },
  {
   "property": "C14",
   "status": "partial",
   "theorems": [
    "Fog.Props.fuzzy_clusters_are_stars",
    "Fog.Props.fuzzy_clusters_cover",
    "Fog.Props.fuzzy_clusters_may_repeat",
    "Fog.Props.fuzzy_clusters_may_repeat_leader",
    "Fog.Props.fuzzy_clusters_nodup_partial",
    "Fog.Props.fuzzy_clusters_exact",
    "Fog.Props.leaders_unique"
   ],
   "note": "False as stated: an item can be repeated in a cluster when a pair is repeated (fuzzy=False) or when an item is paired with itself. Stars and coverage hold."
  },
  {
   "property": "C140",
   "status": "partial",
   "theorems": [
    "Fog.Props.super_minhash_float_partial",
    "Fog.Props.super_minhash_float_total",
    "Fog.Props.super_minhash_float_set",
    "Fog.Props.super_minhash_float_false",
    "Fog.Props.super_minhash_float_chance",
    "Fog.Props.super_minhash_float_same_chance",
    "Fog.Props.super_minhash_float_average",
    "Fog.Props.super_minhash_float_disjoint_similar"
   ],
   "note": "False of the code: r + j may be rounded to j + 1, and then the signature may hold m, which is not a rank (super_minhash_float_false). Proved when no sum of a token is rounded up. Without that condition, nothing is raised and the integers are between 0 and m + 1 (super_minhash_float_total), and the share of the generators for which the signature is not made of the least ranks is at most n * m * (m - 1) / 2 / 2^53 for n tokens (super_minhash_float_chance). Overflow and the Mersenne twister are left out: each number is any multiple of 2^-53. Over all the generators, the signature differs from the exact one (of C117) for a share of at most n * m * (m - 1) / 2 ** 53, and the mean similarity is within (|x| + |y|) * m * (m - 1) / 2 ** 53 + 2 ** -53 of the exact mean, so what C117 says of disjoint sequences holds in double precision too."
  },
  {
   "property": "C141",
   "status": "proved",
   "theorems": [
    "Fog.Props.threshold_algorithm_rounded",
    "Fog.Props.threshold_algorithm_rounded_raises",
    "Fog.Props.sqrt_indexation_rounded",
    "Fog.Props.sqrt_indexation_rounded_misses"
   ],
   "note": "Overflow is left out. With weights below the bound, threshold_algorithm_k1 may raise ZeroDivisionError (threshold_algorithm_rounded_raises: 2^-300). The leader may not be the most similar (sqrt_indexation_rounded_misses: similarities 0 and 2^-60)."
  },
  {
   "property": "C142",
   "status": "partial",
   "theorems": [
    "Fog.Props.numpy_similarity_estimates_partial",
    "Fog.Props.numpy_tokens_agree",
    "Fog.Props.numpy_similarity_half",
    "Fog.Props.numpy_similarity_half_all",
    "Fog.Props.numpy_characters_agree_le"
   ],
   "note": "False: the hash wraps around at 2^32, so that tokens which differ by 2^31 agree on half of the coefficients though their Jaccard similarity is 0 (numpy_similarity_half). Proved: the mean is the share of the coefficients on which the items agree, with the variance of independent draws; for one token each this share is exactly (2^v - 1) / (2^32 - 2), 2^v being the largest power of two which divides the difference; it is at most 2^-11 for two characters."
  },
  {
   "property": "C143",
   "status": "proved",
   "theorems": [
    "Fog.Props.minhash_numpy_exact",
    "Fog.Props.minhash_numpy_identical",
    "Fog.Props.minhash_numpy_raises_iff",
    "Fog.Props.numpy_signature_set",
    "Fog.Props.numpy_band_chance"
   ],
   "note": "The semantics of numpy is that of the version 1.14 in requirements.txt."
  },
  {
   "property": "C144",
   "status": "proved",
   "theorems": [
    "Fog.Props.default_size_float",
    "Fog.Props.floatsam_default_float",
    "Fog.Props.default_size_float_off",
    "Fog.Props.ngram_keys_float",
    "Fog.Props.ngram_keys_default_float",
    "Fog.Props.ngram_keys_float_off"
   ],
   "note": "math.log is assumed faithful (no double lies between the logarithm and the result), except in default_size_float_off where it is the nearest double. Strings have fewer than 2^47 characters, or fewer than 2^50 / b for the threshold a / b."
  },
  {
   "property": "C145",
   "status": "partial",
   "theorems": [
    "Fog.Props.fuzzy_calls_serial",
    "Fog.Props.workers_calls",
    "Fog.Props.leader_calls_same",
    "Fog.Props.leader_calls_exact",
    "Fog.Props.leader_calls_bounds",
    "Fog.Props.leader_calls_documented_partial",
    "Fog.Props.leader_calls_one",
    "Fog.Props.components_calls_exact",
    "Fog.Props.components_calls_across",
    "Fog.Props.components_calls_unbounded"
   ],
   "note": "True of the fuzzy clusters, and of pairwise_leader with two clusters or more (those of one item included). False of pairwise_leader with one cluster, where n(c-1)/2 is zero and there are n - 1 calls, and of pairwise_connected_components: when all items are similar to the last one only, there is one component and all n(n-1)/2 pairs are compared (components_calls_unbounded), as they always are with several processes (workers_calls). What is proved instead is exactly which pairs are compared, once each, and bounds for the leaders: between (n-c) + c(c-1)/2 and cn - c(c+1)/2 calls. The calls are listed by models proved to compute the same as the others."
  },
  {
   "property": "C146",
   "status": "proved",
   "theorems": [
    "Fog.Props.crc32_standard",
    "Fog.Props.crc32_unique"
   ],
   "note": "binascii.crc32 belongs to the standard library of Python and is modelled after its definition, bit by bit; that this is what the library does is assumed. Added because a wrong start of the register was seen by examples only."
  },
  {
   "property": "C147",
   "status": "partial",
   "theorems": [
    "Fog.Props.passjoin_trials_same",
    "Fog.Props.passjoin_calls_count_partial",
    "Fog.Props.finds_le",
    "Fog.Props.passjoin_calls_many"
   ],
   "note": "False: the distance is computed once per piece found (the code says so in a comment), and for all k and n there are n different strings of the same length for which it is computed at least k n(n-1)/2 times (passjoin_calls_many). What is proved instead is exactly how many times each pair is compared: as many times as pieces are found, at most (k^2 - d^2)/2 + k + 1 times for lengths differing by d, and zero for lengths too far apart or both at most k. The calls are listed by a model proved to yield the same pairs as the other."
  },
  {
   "property": "C148",
   "status": "partial",
   "theorems": [
    "Fog.Props.blocking_calls_same",
    "Fog.Props.blocking_calls_count_partial",
    "Fog.Props.blocking_calls_single",
    "Fog.Props.blocking_calls_many"
   ],
   "note": "The first sentence is false: nothing is ever added to the graph (the code says that it is not used), and for all m there are blocks for which m n(n-1)/2 comparisons are made (blocking_calls_many). What is proved instead is the exact number: a pair is compared once for each block it shares and for each pair of its places in the data. The second sentence is proved (blocking_calls_single). The calls are listed by models proved to make the same clusters as the others."
  },
  {
   "property": "C149",
   "status": "proved",
   "theorems": [
    "Fog.Props.snm_calls_same",
    "Fog.Props.snm_calls_positions",
    "Fog.Props.snm_calls_count",
    "Fog.Props.snm_calls_bound",
    "Fog.Props.snm_calls_closed"
   ],
   "note": "The calls are listed by a model proved to yield the same pairs as that of C23. When the data is an iterator, the passes after the first one see no data and compare nothing: snm_calls_count says so."
  },
  {
   "property": "C15",
   "status": "proved",
   "theorems": [
    "Fog.Props.chunks_find_similar_pairs_once",
    "Fog.Props.chunks_cover_upper_triangle_once",
    "Fog.Props.chunk_count_float"
   ],
   "note": "The number of chunks, computed with a float division, is right below 2^53 items (chunk_count_float)."
  },
  {
   "property": "C150",
   "status": "partial",
   "theorems": [
    "Fog.Props.laesa_calls_same",
    "Fog.Props.laesa_printed_le",
    "Fog.Props.laesa_calls_count_partial",
    "Fog.Props.laesa_calls_many"
   ],
   "note": "The number printed is at most n(n-1)/2 (laesa_printed_le), but it is not the number of distances computed: those to the pivots, about three times n for each pivot, are not counted. laesa_calls_count_partial gives the exact number, for all data on which the pivots are found. On different items all at distance one, more distances are computed than there are pairs, whatever the number of pivots (laesa_calls_many; a comment of the code says that the method is often worse than the quadratic approach). Distances are exact."
  },
  {
   "property": "C151",
   "status": "partial",
   "theorems": [
    "Fog.Props.increments_same",
    "Fog.Props.intersection_increments_partial",
    "Fog.Props.intersection_quotients",
    "Fog.Props.intersection_increments_many"
   ],
   "note": "The bound is false: n items with the same m tokens need m n(n-1)/2 increments (intersection_increments_many; the documentation says that the method is poor on tokens which are often shared). What is proved instead is the exact number of increments: one for each two items and each token they share; none are made for items which share nothing. A quotient is computed once for each two items which share a token, and for no others."
  },
  {
   "property": "C152",
   "status": "partial",
   "theorems": [
    "Fog.Props.hashjoin_steps_same",
    "Fog.Props.hashjoin_calls_partial",
    "Fog.Props.hashjoin_calls_keys_partial",
    "Fog.Props.hashjoin_calls_many"
   ],
   "note": "False: nothing is hashed. The key of each item of the longer list is computed again for each item of the shorter one: n m + min(n, m) keys (hashjoin_calls_many). hashjoin_calls_partial and hashjoin_calls_keys_partial list the calls in order, with key and with keys. The steps are those of a model proved to yield the same pairs as that of C45. Lists only: one-shot iterators are treated by C45."
  },
  {
   "property": "C153",
   "status": "partial",
   "theorems": [
    "Fog.Props.join_pivots_tables",
    "Fog.Props.join_pivots_calls_partial",
    "Fog.Props.join_pivots_calls_bound",
    "Fog.Props.join_pivots_calls_many"
   ],
   "note": "The tables: proved, with P and D written and read by index as in the code (join_pivots_tables: the same pairs and error as the model of C60). The number of distances: false, since those from the k pivots to the other items of S1 are computed too; with distances all equal there are more than pairs (join_pivots_calls_many). Proved: the exact number, k N2 + (N1 - k) k and one for each pair not excluded (join_pivots_calls_partial), at most N1 N2 + 16 (N1 - 1) (join_pivots_calls_bound). Distances in an ordered field."
  },
  {
   "property": "C154",
   "status": "partial",
   "theorems": [
    "Fog.Props.adaptive_calls_same",
    "Fog.Props.adaptive_calls_partial",
    "Fog.Props.adaptive_calls_many",
    "Fog.Props.adaptive_place_bound",
    "Fog.Props.adaptive_calls_sum"
   ],
   "note": "False: the ends of a window are compared to place it, and again in its block; with a window as long as the data and no similar items there is one more comparison than there are pairs (adaptive_calls_many). Proved: the steps, with the three branches on the size of a block, yield the pairs of the model of C24 (adaptive_calls_same); inside the blocks there are l (l - 1) / 2 comparisons for a block of l items, and no more than there are pairs (adaptive_calls_partial); at most n^2 / window comparisons place the windows (adaptive_place_bound). One pass, over the sorted data."
  },
  {
   "property": "C155",
   "status": "partial",
   "theorems": [
    "Fog.Props.minhash_calls_same",
    "Fog.Props.minhash_calls_count_partial",
    "Fog.Props.minhash_calls_bound",
    "Fog.Props.minhash_calls_many"
   ],
   "note": "False: when all n items have the same signature, each pair is compared once per band, bands * n (n - 1) / 2 similarities in all (minhash_calls_many). Proved: the similarity of two items is computed exactly once for each band on which their signatures agree and each place of the one before the other (minhash_calls_count_partial), at most once per band (minhash_calls_bound); the calls are those of a model which gives the same clusters and errors as that of C35 and C73, guessed bands included (minhash_calls_same). Without numpy."
  },
  {
   "property": "C156",
   "status": "proved",
   "theorems": [
    "Fog.Props.self_vptree_objects",
    "Fog.Props.self_vptree_objects_bruteforce"
   ],
   "note": "The model of C28 gives the same identity to equal items; here items are objects with any identities. The tree is the phylactery library: that it returns the objects within the radius is a hypothesis, as in C28."
  },
  {
   "property": "C157",
   "status": "partial",
   "theorems": [
    "Fog.Props.key_collision_linear",
    "Fog.Props.key_collision_merged",
    "Fog.Props.key_collision_pairs_partial",
    "Fog.Props.key_collision_pairs_many"
   ],
   "note": "False with keys and merge, the default: when n items share one key, n (n - 1) / 2 pairs are read (key_collision_pairs_many). Proved: with key, each item with a true key is appended once (key_collision_linear); with keys and merge, the clusters are made from the pairs of the buckets (key_collision_merged), whose exact number is given (key_collision_pairs_partial)."
  },
  {
   "property": "C158",
   "status": "partial",
   "theorems": [
    "Fog.Props.vp_tree_queries_same",
    "Fog.Props.vp_tree_queries_partial",
    "Fog.Props.vp_tree_queries_all",
    "Fog.Props.vp_tree_queries_once"
   ],
   "note": "False, for the better: items of a cluster which was yielded are not queried; when the first answer holds all items there is one query (vp_tree_queries_once). Proved: the queries are at most one for each place of the data, in order (vp_tree_queries_partial), and exactly one when no answer is viable (vp_tree_queries_all); the clusters are the viable answers (vp_tree_queries_same). The distances which the tree computes are those of the phylactery library, not modelled."
  },
  {
   "property": "C159",
   "status": "proved",
   "theorems": [
    "Fog.Props.lookups_same",
    "Fog.Props.lookups_count",
    "Fog.Props.lookups_nodup",
    "Fog.Props.lookups_smaller"
   ],
   "note": "The lookups are counted: min(len(A), len(B)) of them once both are sets, none twice, all elements of the smaller set. The documentation says that the metrics run in O(n), n being the size of the smallest set: making sets out of other collections reads both entirely, and is not counted."
  },
  {
   "property": "C16",
   "status": "proved",
   "theorems": [
    "Fog.Props.pairwise_components_serial",
    "Fog.Props.pairwise_components_parallel",
    "Fog.Props.pairwise_components_same"
   ],
   "note": "Union-find of the phylactery library is a parameter assumed to report the connectivity of the unions made."
  },
  {
   "property": "C160",
   "status": "proved",
   "theorems": [
    "Fog.Props.steps_same",
    "Fog.Props.steps_sum",
    "Fog.Props.steps_min",
    "Fog.Props.steps_once"
   ],
   "note": "A step is one turn of a loop, which makes at most one lookup. No step is made when one of the sets is empty. For the same object there are no steps, except in sparse_dot_product, which does not test it."
  },
  {
   "property": "C161",
   "status": "proved",
   "theorems": [
    "Fog.Props.lte1_steps_same",
    "Fog.Props.lte1_steps_bound",
    "Fog.Props.lte1_steps_true"
   ],
   "note": "A step is one turn of a loop. The bound is met: to answer True for strings which are not the same object, the whole of the shortest string is read (lte1_steps_true)."
  },
  {
   "property": "C162",
   "status": "proved",
   "theorems": [
    "Fog.Props.levenshtein_cells_same",
    "Fog.Props.levenshtein_cells_common",
    "Fog.Props.levenshtein_cells_bound",
    "Fog.Props.levenshtein_cells_all"
   ],
   "note": "The turns of the inner loop are counted; the other loops, one after the other, are linear and are not. The bound is met by all strings of two characters or more whose first and last characters differ (levenshtein_cells_all)."
  },
  {
   "property": "C163",
   "status": "proved",
   "theorems": [
    "Fog.Props.limited_cells_same",
    "Fog.Props.limited_cells_band",
    "Fog.Props.limited_cells_bound",
    "Fog.Props.limited_cells_none"
   ],
   "note": "The turns of the inner loop are counted; the other loops, one after the other, are linear and are not. Numbers are unbounded here, as in C02, except for the upper bound."
  },
  {
   "property": "C164",
   "status": "partial",
   "theorems": [
    "Fog.Props.quickjoin_calls_same",
    "Fog.Props.quickjoin_calls_partial",
    "Fog.Props.quickjoin_calls_one_block",
    "Fog.Props.quickjoin_calls_split"
   ],
   "note": "False: partitioning the data computes one distance more than there are items, so that two or three items which are not in one block cost more than comparing all pairs (quickjoin_calls_split). Proved: solving the blocks never computes more distances than comparing all pairs (quickjoin_calls_partial); the distances which come on top are those of the partitions; in one block they are exactly those of all pairs (quickjoin_calls_one_block). For one process and without vantage point trees."
  },
  {
   "property": "C165",
   "status": "proved",
   "theorems": [
    "Fog.Props.projection_calls_same",
    "Fog.Props.projection_calls_topology",
    "Fog.Props.projection_calls_quadratic"
   ],
   "note": "With use_topology a pair whose metric is zero or under the threshold may be computed again for each shared neighbor, as a comment of the code admits; the theorem does not count these. For the cosine, nodes whose weights are all zero may be left out."
  },
  {
   "property": "C17",
   "status": "partial",
   "theorems": [
    "Fog.Props.pairwise_leader_max_size_raises",
    "Fog.Props.pairwise_leader_partial",
    "Fog.Props.leader_assignment_exists",
    "Fog.Props.pairwise_leader_disjoint_partial",
    "Fog.Props.pairwise_leader_max_size_partial",
    "Fog.Props.pairwise_leader_raises_iff",
    "Fog.Props.pairwise_leader_yields"
   ],
   "note": "False with max_size: AttributeError (set.delete). Exact without max_size; with max_size, AttributeError exactly when a leader would lead max_size positions or more (pairwise_leader_raises_iff), and the same clusters otherwise. pairwise_leader_yields says which clusters are yielded before the exception."
  },
  {
   "property": "C18",
   "status": "partial",
   "theorems": [
    "Fog.Props.pairwise_fuzzy_depends_on_processes",
    "Fog.Props.pairwise_fuzzy_one_chunk_partial",
    "Fog.Props.pairwise_fuzzy_stars_partial",
    "Fog.Props.pairwise_fuzzy_exact",
    "Fog.Props.read_unique"
   ],
   "note": "False: witness with six items. Proved: exactly the clusters for any number of processes, which differ only by which items lead, in the order in which the chunks read the pairs; and the same clusters when one chunk holds all items."
  },
  {
   "property": "C19",
   "status": "proved",
   "theorems": [
    "Fog.Props.key_collision_single",
    "Fog.Props.key_collision_several_unmerged",
    "Fog.Props.key_collision_unmerged_repeats"
   ],
   "note": "one key: the classes of equal keys; several keys unmerged: one cluster per shared key"
  },
  {
   "property": "C20",
   "status": "partial",
   "theorems": [
    "Fog.Props.key_collision_merge_ignores_sizes",
    "Fog.Props.key_collision_merge_partial"
   ],
   "note": "false as stated: merged clusters ignore min_size and max_size (witness); proved: the merged clusters are the connected components of sharing a key"
  },
  {
   "property": "C21",
   "status": "proved",
   "theorems": [
    "Fog.Props.blocking_components_serial",
    "Fog.Props.blocking_components_parallel",
    "Fog.Props.blocking_processes_irrelevant",
    "Fog.Props.block_worker_exact"
   ],
   "note": "any arrival order of the pool results"
  },
  {
   "property": "C22",
   "status": "proved",
   "theorems": [
    "Fog.Props.intersection_pairs_exact",
    "Fog.Props.intersection_pairs_positive_radius",
    "Fog.Props.intersection_index_components",
    "Fog.Props.intersection_index_unknown_metric"
   ],
   "note": "rationals instead of floats"
  },
  {
   "property": "C23",
   "status": "partial",
   "theorems": [
    "Fog.Props.sorted_neighborhood_one_key",
    "Fog.Props.sorted_neighborhood_several_keys_partial",
    "Fog.Props.sorted_neighborhood_one_shot",
    "Fog.Props.sorted_is_sorted",
    "Fog.Props.sorted_neighborhood_iterator"
   ],
   "note": "One key: proved for all data. Several keys: proved when data is not a one-shot iterator. False for iterators (witness), for which only the first key counts."
  },
  {
   "property": "C24",
   "status": "partial",
   "theorems": [
    "Fog.Props.adaptive_sorted_neighborhood_raises",
    "Fog.Props.adaptive_sorted_neighborhood_diverges",
    "Fog.Props.adaptive_blocks_partial",
    "Fog.Props.adaptive_clusters_partial",
    "Fog.Props.adaptive_blocks_exact",
    "Fog.Props.adaptive_raises_on_duplicates",
    "Fog.Props.adaptive_clusters_exact"
   ],
   "note": "False as stated: IndexError witness, and divergence for window=1 with reflexive similarity. Proved for window >= 2: it ends; which blocks are made, and that an IndexError is raised exactly when a window which grows has an end beyond the data, as it always has when all items are similar and fill a window; the blocks tile the sorted data; the clusters are the components of similar items of a same block, for any number of keys."
  },
  {
   "property": "C25",
   "status": "proved",
   "theorems": [
    "Fog.Props.segments_tile",
    "Fog.Props.segments_lengths"
   ],
   "note": ""
  },
  {
   "property": "C26",
   "status": "proved",
   "theorems": [
    "Fog.Props.passjoin_components",
    "Fog.Props.passjoin_linked",
    "Fog.Props.passjoin_sorted"
   ],
   "note": "the given distance is assumed to be the edit distance; string comparison is any total preorder"
  },
  {
   "property": "C27",
   "status": "partial",
   "theorems": [
    "Fog.Props.passjoin_fuzzy_repeats",
    "Fog.Props.passjoin_nodup_partial",
    "Fog.Props.passjoin_pair_count",
    "Fog.Props.passjoin_fuzzy_counts",
    "Fog.Props.passjoin_fuzzy_repeats_close"
   ],
   "note": "false in fuzzy mode: passjoin_fuzzy_counts says how many times each string is listed in a cluster (as many times as pieces of one are found in the other), and passjoin_fuzzy_repeats_close that two strings of the same length which differ at h places are listed at least k + 1 - h times; proved for connected components, any data and any distance"
  },
  {
   "property": "C28",
   "status": "proved",
   "theorems": [
    "Fog.Props.quickjoin_components",
    "Fog.Props.quickjoin_vptree_components"
   ],
   "note": "distances in any ordered field; all pivot choices, any arrival order; only symmetry and the triangle inequality are used; vantage point trees are assumed to return the neighbours"
  },
  {
   "property": "C29",
   "status": "partial",
   "theorems": [
    "Fog.Props.quickjoin_similarity_window",
    "Fog.Props.quickjoin_similarity_loses",
    "Fog.Props.quickjoin_similarity_partial",
    "Fog.Props.quickjoin_similarity_exact",
    "Fog.Props.splits_perm"
   ],
   "note": "false: with a non-negative radius no pair across the two parts is compared (general theorem and witness); proved: exactly what is linked, the similar items of the same leaf when the data is split around pivots, for all pivots, orders and sizes without a vantage point tree"
  },
  {
   "property": "C30",
   "status": "partial",
   "theorems": [
    "Fog.Props.quickjoin_diverges",
    "Fog.Props.quickjoin_terminates_partial",
    "Fog.Props.sameSide_firstTwo"
   ],
   "note": "false: more equal items than the block size never end, for all pivot choices; proved: for a metric and distinct items, ends when pivots of a pair of lists come from the same list, a choice which always exists. That quickjoin ends with probability one on distinct items, whatever the pivots' lists, is C119."
  },
  {
   "property": "C31",
   "status": "proved",
   "theorems": [
    "Fog.Props.ppjoin_jaccard_sound",
    "Fog.Props.ppjoin_dice_sound",
    "Fog.Props.ppjoin_cosine_sound",
    "Fog.Props.ppjoin_jaccard_yields_sound",
    "Fog.Props.ppjoin_dice_yields_sound",
    "Fog.Props.ppjoin_cosine_yields_sound"
   ],
   "note": "All three algorithms (any all_pairs/plus flags), all thresholds, all token orderings; crc32 ordering under the hypothesis that the hash does not collide on the tokens. Exact arithmetic instead of floats. The three theorems ending in yields_sound also cover the pairs yielded before an exception."
  },
  {
   "property": "C32",
   "status": "partial",
   "theorems": [
    "Fog.Props.all_pairs_jaccard_complete_partial",
    "Fog.Props.all_pairs_dice_complete_partial",
    "Fog.Props.all_pairs_cosine_complete_partial",
    "Fog.Props.ppjoin_threshold_one",
    "Fog.Props.all_pairs_threshold_one",
    "Fog.Props.ppjoin_empty_record",
    "Fog.Props.ppjoin_default_raises"
   ],
   "note": "False for threshold 1 (nothing is ever yielded), for empty records (IndexError) and with the default arguments (KeyError): refuted by the other theorems. Proved for thresholds above epsilon and below one, records which are not empty. For which thresholds and records they raise is in C134, where all_pairs is complete below one whenever it does not raise."
  },
  {
   "property": "C33",
   "status": "partial",
   "theorems": [
    "Fog.Props.ppjoin_misses_equal",
    "Fog.Props.ppjoin_jaccard_complete_partial",
    "Fog.Props.ppjoin_dice_complete_partial",
    "Fog.Props.ppjoin_cosine_complete_partial"
   ],
   "note": "False: the positional filter uses the threshold in place of the position, so equal records with fewer than (1+t)/(1-t) tokens are never yielded. The partial theorems say exactly which similar pairs are yielded by ppjoin and by ppjoin_plus, whose suffix filter raises nothing and removes none of them: those whose required overlap is smaller than the longer record."
  },
  {
   "property": "C34",
   "status": "partial",
   "theorems": [
    "Fog.Props.create_signature_set",
    "Fog.Props.create_signature_values",
    "Fog.Props.create_signature_union_partial",
    "Fog.Props.create_signature_empty"
   ],
   "note": "The signature depends on the set only and fits in 32 bits. The union law is false with an empty sequence, whose signature is zero (create_signature_empty). The use of numpy is the subject of C95."
  },
  {
   "property": "C35",
   "status": "proved",
   "theorems": [
    "Fog.Props.minhash_sound_complete",
    "Fog.Props.minhash_components",
    "Fog.Props.minhash_identical"
   ],
   "note": "For any coefficients and any usable number of bands. Items with two empty keys which are the same object are linked as well. With numpy, see C143."
  },
  {
   "property": "C36",
   "status": "partial",
   "theorems": [
    "Fog.Props.guess_bands_partial",
    "Fog.Props.guess_bands_low",
    "Fog.Props.minhash_low_radius",
    "Fog.Props.minhash_default_partial"
   ],
   "note": "False for a threshold below 1/h: h + 1 bands are returned and clustering raises a ValueError (guess_bands_low, minhash_low_radius). Over the reals here, with doubles in C126."
  },
  {
   "property": "C37",
   "status": "proved",
   "theorems": [
    "Fog.Props.popcount_eq",
    "Fog.Props.popcount16_eq",
    "Fog.Props.popcount32_eq",
    "Fog.Props.popcount64_eq"
   ],
   "note": "On natural numbers."
  },
  {
   "property": "C38",
   "status": "partial",
   "theorems": [
    "Fog.Props.simhash_majority_partial",
    "Fog.Props.simhash_perm",
    "Fog.Props.simhash_similarity_laws",
    "Fog.Props.simhash_narrow",
    "Fog.Props.simhash_refused"
   ],
   "note": "False for the widths 1 and 2, which pass the assertion but raise a ValueError (simhash_narrow). Proved for 4 to 512."
  },
  {
   "property": "C39",
   "status": "partial",
   "theorems": [
    "Fog.Props.set_similarities_partial",
    "Fog.Props.set_similarity_laws",
    "Fog.Props.jaccard_similarity_eq",
    "Fog.Props.dice_coefficient_eq",
    "Fog.Props.overlap_coefficient_eq",
    "Fog.Props.set_similarities_empty"
   ],
   "note": "False on two empty collections: jaccard_similarity and overlap_coefficient give 1 if they are the same object and 0 otherwise (set_similarities_empty). Everything holds when a collection is not empty. Division is exact."
  },
  {
   "property": "C40",
   "status": "partial",
   "theorems": [
    "Fog.Props.weighted_jaccard_partial",
    "Fog.Props.weighted_jaccard_laws",
    "Fog.Props.weighted_jaccard_zero"
   ],
   "note": "False when all weights are zero: ZeroDivisionError (weighted_jaccard_zero). Weights are in an ordered field, not floats."
  },
  {
   "property": "C41",
   "status": "proved",
   "theorems": [
    "Fog.Props.sparse_cosine_eq",
    "Fog.Props.cosine_laws",
    "Fog.Props.sparse_binary_cosine_eq",
    "Fog.Props.binaryCosine_eq_cosine",
    "Fog.Props.binary_cosine_similarity_eq",
    "Fog.Props.cosine_similarity_eq",
    "Fog.Props.sparse_cosine_zero"
   ],
   "note": "Over the reals, not floats. A zero vector which is not empty raises (sparse_cosine_zero)."
  },
  {
   "property": "C42",
   "status": "partial",
   "theorems": [
    "Fog.Props.nn_descent_sound",
    "Fog.Props.nn_descent_links",
    "Fog.Props.nn_descent_terminates_partial",
    "Fog.Props.nn_descent_default_k",
    "Fog.Props.nn_descent_diverges",
    "Fog.Props.nn_descent_full_sound",
    "Fog.Props.nn_descent_full_terminates_partial",
    "Fog.Props.nn_descent_full_diverges",
    "Fog.Props.nn_descent_loses_neighbors"
   ],
   "note": "Soundness holds for every random stream, set order, heap and fuel. Termination is false in general: it never ends when k >= number of items (nn_descent_diverges), and nn_descent_full never ends when delta <= 0 or k = 0, e.g. one item with default arguments. Termination is proved when k is less than the number of items, for random streams in which every index keeps coming (the sampling rejects draws, so a constant stream never ends). heapq is a parameter with its laws; the logarithm of the default k is exact; numbers are of a linear order (no NaN). That it ends with probability one for every k less than the number of items, with the mean number of draws, is C121."
  },
  {
   "property": "C43",
   "status": "partial",
   "theorems": [
    "Fog.Props.best_matching_eq",
    "Fog.Props.best_matching_type_error",
    "Fog.Props.best_matching_bounds_partial",
    "Fog.Props.best_matching_f1_order",
    "Fog.Props.best_matching_order_partial",
    "Fog.Props.best_matching_identity",
    "Fog.Props.best_matching_ties",
    "Fog.Props.best_matching_above_one"
   ],
   "note": "False of the code: precision and recall depend on the order of items in a truth cluster when two predicted clusters tie (best_matching_ties), and a truth cluster with a repeated item gives scores above 1 (best_matching_above_one). Proved: the exact result for all accepted inputs, TypeError for all others, bounds for truth clusters without repeated items, independence of everything but the order inside truth clusters, independence of F1 of that order too, and (1, 1, 1) on the same clusters. Scores are rational numbers."
  },
  {
   "property": "C44",
   "status": "proved",
   "theorems": [
    "Fog.Props.labels_to_clusters_eq",
    "Fog.Props.labels_to_clusters_same",
    "Fog.Props.labels_to_clusters_items",
    "Fog.Props.clusters_to_labels_eq",
    "Fog.Props.clusters_round_trip",
    "Fog.Props.flat_labels_eq"
   ],
   "note": "clusters_round_trip drops empty clusters, which have no label. Flat labels exist for partitions of 0..n-1 only."
  },
  {
   "property": "C45",
   "status": "partial",
   "theorems": [
    "Fog.Props.hashjoin_key_partial",
    "Fog.Props.hashjoin_keys_partial",
    "Fog.Props.hashjoin_one_shot",
    "Fog.Props.hashjoin_generator_keys",
    "Fog.Props.hashjoin_both",
    "Fog.Props.hashjoin_key_exact",
    "Fog.Props.hashjoin_keys_exact",
    "Fog.Props.hashjoin_both_exact"
   ],
   "note": "False of the code when right is a one-shot iterator (exhausted after the first left row) and when keys gives generators (exhausted after the first right row). Proved for right inputs which can be iterated again and keys which are not generators; the last three theorems say what is given in the other cases."
  },
  {
   "property": "C46",
   "status": "partial",
   "theorems": [
    "Fog.Props.projection_quadratic",
    "Fog.Props.projection_topology_partial",
    "Fog.Props.projections_agree_partial",
    "Fog.Props.projection_zero_norm"
   ],
   "note": "The quadratic version is proved to be the projection on all bipartite graphs and all metrics; the topology version too, and both agree, when (for the cosine) no node of the part has only edges of weight zero. Otherwise the topology version raises KeyError, witness proved."
  },
  {
   "property": "C47",
   "status": "proved",
   "theorems": [
    "Fog.Props.component_sizes_eq",
    "Fog.Props.second_largest_eq"
   ],
   "note": "Graphs are adjacency dicts as networkx keeps them, undirected; the filter is symmetric. The sizes are those of the connected components of the accepted edges."
  },
  {
   "property": "C48",
   "status": "partial",
   "theorems": [
    "Fog.Props.floatsam_partial",
    "Fog.Props.floatsam_stops_partial",
    "Fog.Props.floatsam_never_stops",
    "Fog.Props.floatsam_star",
    "Fog.Props.floatsam_stops_iff"
   ],
   "note": "False: the loop never ends on graphs with fewer than 2 * max_drifter_size nodes, and on a star of 8 nodes with the default size. When it stops the threshold is the last step before the first step with a drifting component (the starting threshold itself is never tested), and remove_edges keeps exactly the edges at or above it; it stops when the size is at most 1, with two nodes and a positive learning rate."
  },
  {
   "property": "C49",
   "status": "proved",
   "theorems": [
    "Fog.Props.ngrams_short",
    "Fog.Props.ngrams_windows",
    "Fog.Props.join_ngrams_ngrams",
    "Fog.Props.ngrams_int",
    "Fog.Props.ngrams_negative"
   ],
   "note": "For negative n, ngrams_negative says what is yielded; joining then raises."
  },
  {
   "property": "C50",
   "status": "partial",
   "theorems": [
    "Fog.Props.fingerprint_tokens",
    "Fog.Props.fingerprint_same",
    "Fog.Props.fingerprint_idempotent_partial",
    "Fog.Props.min_token_size_words",
    "Fog.Props.min_token_size_two",
    "Fog.Props.keep_digits_not_idempotent",
    "Fog.Props.min_token_size_not_idempotent",
    "Fog.Props.ngrams_fingerprint_tokens",
    "Fog.Props.fingerprint_ascii",
    "Fog.Props.ngrams_fingerprint_ascii",
    "Fog.Props.fingerprint_case_punctuation",
    "Fog.Props.fingerprint_same_iff",
    "Fog.Props.fingerprint_alike_iff",
    "Fog.Props.fingerprint_empty_iff",
    "Fog.Props.fingerprint_capital_dropped"
   ],
   "note": "False as stated: min_token_size n keeps words with more than n characters; dropping digits or short words is not idempotent (superscripts, underscores). Idempotence is proved without stopwords, with digits kept and no minimum size. Unicode tables are parameters, and so is the substitution of stopwords (see C98). The cleaning itself is spelled out on ASCII texts. The texts which have the same fingerprint are exactly those turned into each other by changes of case, accents, punctuation, white space, order and repetition (fingerprint_alike_iff, default options). The case is normalised before the transliteration, so that the capital letters which unidecode makes are dropped: the fingerprint of a Chinese text differs from that of its transliteration (fingerprint_capital_dropped)."
  },
  {
   "property": "C51",
   "status": "partial",
   "theorems": [
    "Fog.Props.squeeze_partial",
    "Fog.Props.squeeze_newlines"
   ],
   "note": "False of the code for newlines, which the dot of the pattern does not match. Proved for all other characters; roman numerals are left alone when asked to be kept."
  },
  {
   "property": "C52",
   "status": "proved",
   "theorems": [
    "Fog.Props.split_hashtag_lossless",
    "Fog.Props.split_hashtag_kinds",
    "Fog.Props.split_hashtag_short"
   ],
   "note": "Character classes are arbitrary; for the kinds of pieces a digit is neither lower nor upper case."
  },
  {
   "property": "C53",
   "status": "partial",
   "theorems": [
    "Fog.Props.words_lossless_partial",
    "Fog.Props.words_acronym_lost",
    "Fog.Props.words_empty_token",
    "Fog.Props.words_hyphen_number",
    "Fog.Props.words_cut",
    "Fog.Props.words_sublist"
   ],
   "note": "False as stated: the end of a word after an acronym-like point is lost. Proved for texts without an upper case letter followed by a point and a word character. On all texts: the tokenizer ends without raising and its tokens are pieces of the text, in order and without overlap. Unicode tables, emoji regular expression are parameters; the smiley, email and vowel expressions are modelled and satisfy the assumptions."
  },
  {
   "property": "C54",
   "status": "proved",
   "theorems": [
    "Fog.Props.omission_key_spec",
    "Fog.Props.skeleton_key_spec"
   ],
   "note": "unidecode is a parameter which leaves capital letters unchanged; after it the string is ASCII."
  },
  {
   "property": "C55",
   "status": "partial",
   "theorems": [
    "Fog.Props.cologne_digits_partial",
    "Fog.Props.cologne_standard_partial",
    "Fog.Props.cologne_doubled",
    "Fog.Props.cologne_vowel",
    "Fog.Props.cologne_ph"
   ],
   "note": "Digits 0-8 and no 0 after the first one, for all names and any upper/unidecode. The last part of the claim is false: 'BB' gives '11' (first code is never collapsed with the next; Cologne phonetics gives '1') and 'BAB' gives '11'. The code is proved equal to a separate definition of Cologne phonetics when the second code does not begin with the last digit of the first and the letters have no P before H ('P-H' gives 1)."
  },
  {
   "property": "C56",
   "status": "partial",
   "theorems": [
    "Fog.Props.rusalka_raises_iff",
    "Fog.Props.rusalka_raises",
    "Fog.Props.rusalka_vowels_partial"
   ],
   "note": "False as stated: IndexError on names as 'hh' or 'iy'. The names on which it raises are characterised exactly (at least two letters, h's maybe followed by ij or iy), for every unidecode and every lower which is empty only on the empty string; elsewhere the code has no vowel but a first a."
  },
  {
   "property": "C57",
   "status": "partial",
   "theorems": [
    "Fog.Props.split_in_place_partial",
    "Fog.Props.split_rectangular_partial",
    "Fog.Props.split_target",
    "Fog.Props.split_target_rectangular_iff",
    "Fog.Props.split_grows",
    "Fog.Props.split_empty_target"
   ],
   "note": "Proved when there is no target column. False with a target column: values accumulate in the row and rows with an empty cell lack the new cell; the rows are as long as the headers exactly when every cell has a single non-empty value (split_target_rectangular_iff)."
  },
  {
   "property": "C58",
   "status": "partial",
   "theorems": [
    "Fog.Props.toml_read_back_iff_partial",
    "Fog.Props.escape_injective_partial",
    "Fog.Props.escape_not_injective",
    "Fog.Props.escape_unreadable"
   ],
   "note": "False as stated: backslashes are not escaped, so a newline and a backslash followed by n give the same text. Proved: a string is read back by the TOML grammar exactly when it has no backslash and no control character but tabs and newlines; injective without backslashes."
  },
  {
   "property": "C59",
   "status": "proved",
   "theorems": [
    "Fog.Props.online_mean_eq"
   ],
   "note": "Numbers are in any field instead of floats. With floats: C130."
  },
  {
   "property": "C60",
   "status": "proved",
   "theorems": [
    "Fog.Props.join_pivots_exact"
   ],
   "note": ""
  },
  {
   "property": "C61",
   "status": "proved",
   "theorems": [
    "Fog.Props.sparse_normalize_norm",
    "Fog.Props.sparse_normalize_dot"
   ],
   "note": "Over the reals, not floats. In double precision: C131."
  },
  {
   "property": "C62",
   "status": "partial",
   "theorems": [
    "Fog.Props.intersection_size_partial",
    "Fog.Props.intersection_size_same"
   ],
   "note": "False when both arguments are the same object with duplicates: len(A) is returned (intersection_size_same)."
  },
  {
   "property": "C63",
   "status": "partial",
   "theorems": [
    "Fog.Props.is_power_of_two_partial",
    "Fog.Props.is_power_of_two_inverted"
   ],
   "note": "False: the value is zero, hence false, exactly on zero and powers of two. The exact condition is proved."
  },
  {
   "property": "C64",
   "status": "proved",
   "theorems": [
    "Fog.Props.minhash_similarity_eq"
   ],
   "note": "Exact division."
  },
  {
   "property": "C65",
   "status": "proved",
   "theorems": [
    "Fog.Props.lsb_create_signature_eq",
    "Fog.Props.lsb_minhash_similarity_eq"
   ],
   "note": "Exact division."
  },
  {
   "property": "C66",
   "status": "proved",
   "theorems": [
    "Fog.Props.match_probability_laws"
   ],
   "note": "Over the reals, not floats. In double precision: C132."
  },
  {
   "property": "C67",
   "status": "proved",
   "theorems": [
    "Fog.Props.word_options_exact",
    "Fog.Props.word_options",
    "Fog.Props.word_construct",
    "Fog.Props.word_construct_error",
    "Fog.Props.words_mentions_dropped",
    "Fog.Props.words_stoplist_hashtag"
   ],
   "note": "The arguments given as strings, and the options acting on the text before it is cut, are in C128."
  },
  {
   "property": "C68",
   "status": "proved",
   "theorems": [
    "Fog.Props.reduce_lengthening_runs",
    "Fog.Props.reduce_lengthening_idempotent",
    "Fog.Props.exists_runs"
   ],
   "note": "The class of letters is a parameter."
  },
  {
   "property": "C69",
   "status": "proved",
   "theorems": [
    "Fog.Props.transform_rows",
    "Fog.Props.transform_eval_rows",
    "Fog.Props.transform_len_raises"
   ],
   "note": "For rows as long as the headers and chains where only the last operation may be len (otherwise every cell raises)."
  },
  {
   "property": "C70",
   "status": "proved",
   "theorems": [
    "Fog.Props.cluster_report"
   ],
   "note": "The text layout of the report, the date and the time are not modelled; the padding of the values is not stated."
  },
  {
   "property": "C71",
   "status": "proved",
   "theorems": [
    "Fog.Props.levenshtein_1d_blocks_halves",
    "Fog.Props.levenshtein_2d_blocks_thirds",
    "Fog.Props.damerau_levenshtein_1d_blocks_empty"
   ],
   "note": "The empty string with transpositions is left out: a block of it has two flags (damerau_levenshtein_1d_blocks_empty)."
  },
  {
   "property": "C72",
   "status": "proved",
   "theorems": [
    "Fog.Props.super_minhash_eq",
    "Fog.Props.super_minhash_set",
    "Fog.Props.super_minhash_union",
    "Fog.Props.super_minhash_range"
   ],
   "note": "Floats are rational numbers, and the random generator is any function to [0, 1) of the seed and the rank of the call."
  },
  {
   "property": "C73",
   "status": "proved",
   "theorems": [
    "Fog.Props.minhash_bands_exact"
   ],
   "note": "The signature function is that of C34; with numpy, see C143."
  },
  {
   "property": "C74",
   "status": "proved",
   "theorems": [
    "Fog.Props.words_plain_text",
    "Fog.Props.words_single_digit"
   ],
   "note": "Hashtags are not split. Tables and the expressions for smileys, emojis and addresses are parameters with laws met by ASCII."
  },
  {
   "property": "C75",
   "status": "proved",
   "theorems": [
    "Fog.Props.naive_cosine_pairs_eq",
    "Fog.Props.naive_cosine_pairs_dot"
   ],
   "note": "Vectors are dictionaries, without repeated dimensions."
  },
  {
   "property": "C76",
   "status": "partial",
   "theorems": [
    "Fog.Props.fagin_k1_partial",
    "Fog.Props.fagin_k1_misses"
   ],
   "note": "Missing because false: lists are read from the least weight, so that the farthest vector is among the candidates and the nearest may not be (fagin_k1_misses). Proved: termination, for which vectors there is an answer, and what candidates are."
  },
  {
   "property": "C77",
   "status": "partial",
   "theorems": [
    "Fog.Props.threshold_algorithm_k1_partial",
    "Fog.Props.threshold_algorithm_k1_misses"
   ],
   "note": "Missing because false: the answer may not be the nearest vector (threshold_algorithm_k1_misses). Proved: termination without exception, one answer for each vector, and what it is at least as similar to. Real numbers instead of floats."
  },
  {
   "property": "C78",
   "status": "partial",
   "theorems": [
    "Fog.Props.sqrt_indexation_pairs_partial",
    "Fog.Props.sqrt_indexation_self_pair"
   ],
   "note": "Missing because false: the first leader always forms a pair with itself, and the pair of a vector and its leader is repeated. Proved: exactly what is yielded. The integer square root is exact."
  },
  {
   "property": "C79",
   "status": "partial",
   "theorems": [
    "Fog.Props.laesa_components_partial",
    "Fog.Props.laesa_sound",
    "Fog.Props.laesa_complete_partial",
    "Fog.Props.laesa_pivot_finds_nothing",
    "Fog.Props.laesa_loses_pairs"
   ],
   "note": "Soundness and the exact condition for a pair to be found are proved; completeness is false of the code (the filter compares with the distance to the nearest pivot instead of the radius): the negation is proved with a witness, and that pivots never find later items in general."
  },
  {
   "property": "C80",
   "status": "partial",
   "theorems": [
    "Fog.Props.pivot_selection_greedy_partial",
    "Fog.Props.laesa_raises_iff",
    "Fog.Props.laesa_default_raises_iff",
    "Fog.Props.laesa_raises_on_equal_items"
   ],
   "note": "The choice is proved when two items differ; on equal items the function raises with two pivots or more, and this is proved to be the only case on data with enough items."
  },
  {
   "property": "C81",
   "status": "proved",
   "theorems": [
    "Fog.Props.vp_tree_balls",
    "Fog.Props.vp_tree_diameter",
    "Fog.Props.vp_tree_overlap"
   ],
   "note": "The tree comes from the phylactery library: its answer is assumed to be each stored item within the radius, once."
  },
  {
   "property": "C82",
   "status": "proved",
   "theorems": [
    "Fog.Props.rusalka_respelling"
   ],
   "note": "lower and unidecode are assumed to do what they do on lower case Latin letters (and lower on the three signs which the rules add)."
  },
  {
   "property": "C83",
   "status": "proved",
   "theorems": [
    "Fog.Props.passjoin_substrings_bound",
    "Fog.Props.passjoin_substrings_count",
    "Fog.Props.passjoin_lookups_bound",
    "Fog.Props.passjoin_lookups_count"
   ],
   "note": "The bounds hold for all strings; equality for strings without repeated characters, since consecutive equal substrings are yielded once."
  },
  {
   "property": "C84",
   "status": "proved",
   "theorems": [
    "Fog.Props.minhash_params",
    "Fog.Props.minhash_params_terminates"
   ],
   "note": "The random generator is any sequence of draws."
  },
  {
   "property": "C85",
   "status": "proved",
   "theorems": [
    "Fog.Props.minhash_agree_iff",
    "Fog.Props.minhash_disjoint",
    "Fog.Props.next_prime"
   ],
   "note": "The modulus is proved prime by the kernel. numpy is not modelled."
  },
  {
   "property": "C86",
   "status": "proved",
   "theorems": [
    "Fog.Props.passjoin_agrees",
    "Fog.Props.blocking_agrees",
    "Fog.Props.quickjoin_agrees"
   ],
   "note": "The union-find structure is any lawful one; distances are exact edit distances."
  },
  {
   "property": "C87",
   "status": "proved",
   "theorems": [
    "Fog.Props.toml_report_read",
    "Fog.Props.toml_report_invalid",
    "Fog.Props.toml_report_other"
   ],
   "note": "The reader covers the part of TOML used by the report and leaves dates and floats as words. toml_report_invalid and toml_report_other show that the condition on the values is needed (see C58)."
  },
  {
   "property": "C88",
   "status": "proved",
   "theorems": [
    "Fog.Props.suffix_filter_bounds",
    "Fog.Props.suffix_filter_removes"
   ],
   "note": "For the call on whole lists; the calls made by ppjoin_plus on the ends of the records, where the budget may be smaller, are covered by the theorems of C33."
  },
  {
   "property": "C89",
   "status": "proved",
   "theorems": [
    "Fog.Props.jaccard_bounds",
    "Fog.Props.dice_bounds",
    "Fog.Props.cosine_bounds",
    "Fog.Props.jaccard_bounds_tight",
    "Fog.Props.dice_bounds_tight",
    "Fog.Props.cosine_bounds_tight"
   ],
   "note": "Floats are exact numbers here; see C110 and C127 for doubles."
  },
  {
   "property": "C90",
   "status": "proved",
   "theorems": [
    "Fog.Props.stars_of_relation",
    "Fog.Props.blocking_fuzzy_serial",
    "Fog.Props.blocking_fuzzy_parallel",
    "Fog.Props.sorted_neighborhood_fuzzy_one_key",
    "Fog.Props.sorted_neighborhood_fuzzy_several_keys",
    "Fog.Props.intersection_index_fuzzy",
    "Fog.Props.quickjoin_fuzzy",
    "Fog.Props.laesa_fuzzy",
    "Fog.Props.fuzzy_clusters_counts",
    "Fog.Props.blocking_fuzzy_repeats",
    "Fog.Props.blocking_parallel_fuzzy_repeats",
    "Fog.Props.sorted_neighborhood_fuzzy_repeats"
   ],
   "note": "Items found similar: as in C21, C22 (positive radius), C23, C28 and C79. passjoin repeats items in this mode (C27)."
  },
  {
   "property": "C91",
   "status": "proved",
   "theorems": [
    "Fog.Props.split_raises_iff",
    "Fog.Props.transform_raises_iff",
    "Fog.Props.transform_eval_raises_iff"
   ],
   "note": "What was written before the exception is in C133."
  },
  {
   "property": "C92",
   "status": "proved",
   "theorems": [
    "Fog.Props.words_special_text",
    "Fog.Props.email_lookahead_iff",
    "Fog.Props.asciiTable_special",
    "Fog.Props.email_with_point",
    "Fog.Props.email_sixty_four",
    "Fog.Props.abbreviation_last",
    "Fog.Props.smiley_exact"
   ],
   "note": "The regular expressions of e-mail addresses and of smileys are those of the code: what the one of smileys finds is the longest smiley. The tables of Unicode are parameters, and those of ASCII meet the hypotheses. split_hashtags is off."
  },
  {
   "property": "C93",
   "status": "proved",
   "theorems": [
    "Fog.Props.projection_exact",
    "Fog.Props.projection_modes_disagree"
   ],
   "note": "Weights are reals. Nodes are compared by a linear order, as the code does with >=. The edges are in the order in which networkx yields them, which is modelled."
  },
  {
   "property": "C94",
   "status": "proved",
   "theorems": [
    "Fog.Props.html_report_read",
    "Fog.Props.html_report_neat",
    "Fog.Props.html_not_closed",
    "Fog.Props.html_took_wrong",
    "Fog.Props.html_took_ninety",
    "Fog.Props.html_tag_item",
    "Fog.Props.html_tag_list",
    "Fog.Props.html_same"
   ],
   "note": "The reader knows tags without attributes, white space and the four usual references. Durations are rational numbers which are not negative. Values which begin a tag are shown otherwise (html_tag_item, html_tag_list) and two different values may be shown as the same (html_same)."
  },
  {
   "property": "C95",
   "status": "partial",
   "theorems": [
    "Fog.Props.numpy_signature_not_universal",
    "Fog.Props.numpy_signature_partial",
    "Fog.Props.numpy_signature_empty",
    "Fog.Props.wrapped_hash_collides_iff",
    "Fog.Props.wrapped_hash_injective_iff",
    "Fog.Props.numpy_disjoint_agree"
   ],
   "note": "False: products and sums wrap around modulo 2 ** 32 and the last modulo changes nothing. Proved: the values are the least hashes modulo 2 ** 32; which tokens collide (none exactly when the coefficient is odd); sequences without a common token agree wherever the coefficient is even. numpy is the version of requirements.txt (1.14)."
  },
  {
   "property": "C96",
   "status": "proved",
   "theorems": [
    "Fog.Props.fingerprint_key_iff",
    "Fog.Props.ngrams_fingerprint_key_iff",
    "Fog.Props.ngrams_fingerprint_key_zero"
   ],
   "note": "Unicode tables are parameters, and so is the substitution of stopwords (see C98); the space is assumed to be a white space."
  },
  {
   "property": "C97",
   "status": "partial",
   "theorems": [
    "Fog.Props.old_new_flags",
    "Fog.Props.old_new_exact_partial",
    "Fog.Props.reverse_exact",
    "Fog.Props.sample_exact",
    "Fog.Props.sample_full_exact",
    "Fog.Props.nn_descent_full_random"
   ],
   "note": "False for the marks: the neighbors which were not sampled are marked as old, and the sampled ones stay new. Proved: exactly which are old, sampled and marked; in-neighbors and their errors; samples; and when rho * k < 1 the clusters are those of the initial random neighbors."
  },
  {
   "property": "C98",
   "status": "partial",
   "theorems": [
    "Fog.Props.stopword_symbol_kept",
    "Fog.Props.stopwords_exact_partial",
    "Fog.Props.stopwords_tokens_partial",
    "Fog.Props.stopwords_ngrams_partial",
    "Fog.Props.stopwords_words",
    "Fog.Props.stopwords_symbol"
   ],
   "note": "False for a stopword which ends with a symbol, as 'c++': the boundary asks for a word character after it. Proved: exactness for stopwords made of word characters, on all texts; and that stopwords ending with a symbol are never removed where no word character follows. Unicode tables and the comparison without case are parameters; the option to split is off in the theorems on tokens."
  },
  {
   "property": "C99",
   "status": "proved",
   "theorems": [
    "Fog.Props.make_similarity_exact",
    "Fog.Props.make_similarity_opposite",
    "Fog.Props.pairwise_raises_iff",
    "Fog.Props.pairwise_modes_nested",
    "Fog.Props.pairwise_connected_components_exact",
    "Fog.Props.pairwise_fuzzy_mode_exact",
    "Fog.Props.pairwise_raises_processes"
   ],
   "note": "The union-find library is a parameter which keeps its promise. Raising is stated without a maximum size in leader mode (see C17). The modes of connected components and of fuzzy clusters are stated on the keys of the items, for every number of processes and size of chunks."
  }
 ]
}
