{"id": "C01", "title": "levenshtein_distance is the edit distance", "statement": "levenshtein_distance(A, B) returns the smallest number of single-character insertions, deletions and substitutions that turns A into B.", "quantifier": "all strings A and B of every length, over every Unicode character", "why_tests_cant": "The algorithm has early exits that depend on what the common prefix and suffix contain; a table of word pairs exercises only a few shapes of overlap and no characters outside the 16-bit range.", "anchors": ["cfog/metrics/levenshtein.pyx:levenshtein_distance"]}
{"id": "C02", "title": "limited_levenshtein_distance agrees with the edit distance up to the limit", "statement": "limited_levenshtein_distance(max_distance, A, B) returns the edit distance of A and B when it is at most max_distance, and a value greater than max_distance otherwise.", "quantifier": "all strings A and B and all limits max_distance", "why_tests_cant": "The banded computation reads cells outside the band as approximations; only an argument about every band position and every early exit shows that they never leak into an answer.", "anchors": ["cfog/metrics/levenshtein.pyx:limited_levenshtein_distance"]}
{"id": "C03", "title": "levenshtein_distance_lte1 decides distance at most one", "statement": "levenshtein_distance_lte1(A, B) is true exactly when the edit distance of A and B is at most 1.", "quantifier": "all strings A and B", "why_tests_cant": "Both directions are quantified over all strings; tests only sample.", "anchors": ["cfog/metrics/levenshtein.pyx:levenshtein_distance_lte1"]}
{"id": "C04", "title": "damerau_levenshtein_distance_lte1 decides distance at most one", "statement": "damerau_levenshtein_distance_lte1(A, B) is true exactly when at most one insertion, deletion, substitution or swap of adjacent characters turns A into B.", "quantifier": "all strings A and B", "why_tests_cant": "Both directions are quantified over all strings; the swap branch jumps two positions and interacts with repeated characters.", "anchors": ["cfog/metrics/levenshtein.pyx:damerau_levenshtein_distance_lte1"]}
{"id": "C05", "title": "Two strings sharing a levenshtein_1d_keys key are at distance at most one", "statement": "If some key is produced by levenshtein_1d_keys for both A and B, then the edit distance of A and B is at most 1.", "quantifier": "all strings A, B not containing the flag character", "why_tests_cant": "A false collision needs two specific strings whose keys coincide; there is no finite set of pairs that rules it out.", "anchors": ["fog/key/levenshtein.py:levenshtein_1d_keys"]}
{"id": "C06", "title": "Strings at distance at most one share a levenshtein_1d_keys key", "statement": "If the edit distance of A and B is at most 1 then levenshtein_1d_keys(A) and levenshtein_1d_keys(B) have a key in common, so a key collision pass misses no such pair.", "quantifier": "all strings A, B", "why_tests_cant": "A missed pair depends on an exact repetition pattern; the tests check the key set of one word.", "anchors": ["fog/key/levenshtein.py:levenshtein_1d_keys"]}
{"id": "C07", "title": "damerau_levenshtein_1d_keys collide exactly at Damerau distance at most one", "statement": "damerau_levenshtein_1d_keys(A) and damerau_levenshtein_1d_keys(B) share a key exactly when at most one insertion, deletion, substitution or adjacent swap turns A into B.", "quantifier": "all strings A, B not containing the flag character", "why_tests_cant": "Two different swaps can meet on a third string; tests only list the keys of one word.", "anchors": ["fog/key/levenshtein.py:damerau_levenshtein_1d_keys"]}
{"id": "C08", "title": "levenshtein_1d_blocks has no false negatives", "statement": "If the edit distance of A and B is at most 1 then levenshtein_1d_blocks(A) and levenshtein_1d_blocks(B) have a block in common.", "quantifier": "all strings A, B and every flag character", "why_tests_cant": "The documentation promises no false negatives; tests try edits of one word.", "anchors": ["fog/key/levenshtein.py:levenshtein_1d_blocks"]}
{"id": "C09", "title": "damerau_levenshtein_1d_blocks has no false negatives", "statement": "If at most one insertion, deletion, substitution or adjacent swap turns A into B then damerau_levenshtein_1d_blocks(A) and damerau_levenshtein_1d_blocks(B) have a block in common.", "quantifier": "all strings A, B and every flag character", "why_tests_cant": "Parity of the length, the middle position and empty strings interact; tests try edits of one even and one odd word.", "anchors": ["fog/key/levenshtein.py:damerau_levenshtein_1d_blocks"]}
{"id": "C10", "title": "levenshtein_2d_blocks has no false negatives", "statement": "If the edit distance of A and B is at most 2 then levenshtein_2d_blocks(A) and levenshtein_2d_blocks(B) have a block in common; damerau_levenshtein_2d_blocks never raises.", "quantifier": "all strings A, B", "why_tests_cant": "Two edits of different kinds shift the middle of the string; there are no tests of this function.", "anchors": ["fog/key/levenshtein.py:levenshtein_2d_blocks", "fog/key/levenshtein.py:damerau_levenshtein_2d_blocks"]}
{"id": "C11", "title": "ngram_keys are the joins of all large enough sub-sequences of n-grams", "statement": "ngram_keys(n, s, threshold) yields the concatenation of all n-grams of s first, and then exactly the concatenations of the order-preserving selections of at least max(1, floor(threshold * number of n-grams)) n-grams; strings whose n-gram lists have such a common selection collide.", "quantifier": "all strings, every n at least 1 and all thresholds", "why_tests_cant": "Combinatorial: the number of keys is unbounded.", "anchors": ["fog/key/misc.py:ngram_keys"]}
{"id": "C12", "title": "Connected-component clusters are exactly the components of the pair graph", "statement": "In connected_components mode, the clusters built from a sequence of pairs are the connected components of the graph having those pairs as edges, restricted to the components whose size is between min_size and max_size; no item appears twice, neither in a cluster nor in two clusters.", "quantifier": "all finite sequences of pairs (with repetitions, self-pairs and any order), all size bounds", "why_tests_cant": "Graphs of any size and shape.", "anchors": ["fog/clustering/utils.py:clusters_from_pairs"]}
{"id": "C13", "title": "Components do not depend on the order in which pairs arrive", "statement": "In connected_components mode, feeding the same pairs in any order, with any repetition and with either orientation, as a pool of workers may do, gives the same clusters up to order.", "quantifier": "all schedules: every permutation, duplication and flipping of the pairs", "why_tests_cant": "Scheduling non-determinism cannot be enumerated by a test.", "anchors": ["fog/clustering/utils.py:clusters_from_pairs", "fog/clustering/utils.py:clusters_from_buckets", "fog/clustering/blocking.py:blocking"]}
{"id": "C14", "title": "Fuzzy clusters are stars", "statement": "In fuzzy_clusters mode each cluster is an item followed by all the items paired with it, a cluster is never led by an item already listed in an earlier cluster as a follower, no cluster lists an item twice, and with default sizes every paired item is in some cluster.", "quantifier": "all sequences of pairs", "why_tests_cant": "Depends on arbitrary graphs and on repeated pairs.", "anchors": ["fog/clustering/utils.py:clusters_from_pairs"]}
{"id": "C15", "title": "The chunks handed to workers cover each pair of items exactly once", "statement": "Splitting the upper triangle into chunks and comparing inside each chunk compares every unordered pair of distinct positions exactly once, and compares nothing else.", "quantifier": "every number of items and every positive chunk size", "why_tests_cant": "Off-by-one errors depend on divisibility of the size by the chunk size.", "anchors": ["fog/clustering/utils.py:upper_triangular_matrix_chunk_iter", "fog/clustering/pairwise.py:pairwise_worker"]}
{"id": "C16", "title": "pairwise connected components are exact with and without processes", "statement": "pairwise(data, mode='connected_components') yields exactly the connected components, of size between min_size and max_size, of the graph linking positions i < j whose items are similar; using several processes and any chunk size yields the same components.", "quantifier": "all data, all similarity functions, all chunk sizes", "why_tests_cant": "Quantifies over all similarity functions and sizes.", "anchors": ["fog/clustering/pairwise.py:pairwise_connected_components", "fog/clustering/pairwise.py:pairwise"]}
{"id": "C17", "title": "pairwise leader clustering is a partition led by first items and honours max_size", "statement": "pairwise_leader yields disjoint clusters made of a leader and of exactly the later unclaimed items similar to it, and with max_size no cluster is larger than max_size.", "quantifier": "all data and all similarity functions", "why_tests_cant": "Depends on arbitrary similarity patterns.", "anchors": ["fog/clustering/pairwise.py:pairwise_leader"]}
{"id": "C18", "title": "Fuzzy pairwise clustering does not depend on the number of processes", "statement": "pairwise(data, mode='fuzzy_clusters') yields the same clusters with processes=1 as with more processes.", "quantifier": "all data, similarity functions and chunk sizes", "why_tests_cant": "The insertion order of the graph changes with chunking; it takes a particular graph for it to matter.", "anchors": ["fog/clustering/pairwise.py:pairwise_fuzzy_clusters"]}
{"id": "C19", "title": "key_collision with a single key groups the items having the same key", "statement": "key_collision(data, key=f) yields, for each usable key in order of first appearance, the list of all items with this key in input order, when its length is between min_size and max_size; unusable (empty) keys are dropped.", "quantifier": "all data and all key functions", "why_tests_cant": "All data and key functions.", "anchors": ["fog/clustering/key_collision.py:key_collision"]}
{"id": "C20", "title": "key_collision with several keys and merging honours min_size and max_size", "statement": "key_collision(data, keys=f, merge=True) yields the connected components of the relation 'share a key', whose size is between min_size and max_size.", "quantifier": "all data, key functions and bounds", "why_tests_cant": "All data and bounds; the tests use default bounds.", "anchors": ["fog/clustering/key_collision.py:key_collision"]}
{"id": "C21", "title": "blocking returns the components of similar pairs sharing a block", "statement": "blocking yields the connected components of the graph linking items which share a block and are similar, whatever the number of processes and the order in which their results arrive.", "quantifier": "all data, block functions, similarity functions and schedules", "why_tests_cant": "Scheduling and arbitrary functions.", "anchors": ["fog/clustering/blocking.py:blocking"]}
{"id": "C22", "title": "intersection_index finds exactly the pairs above the Jaccard radius", "statement": "intersection_index links two items exactly when the Jaccard index of their token sets is at least radius (for a positive radius), and each such pair is produced once; with overlap, the overlap coefficient is used instead.", "quantifier": "all data, all tokenizers, all positive radii", "why_tests_cant": "The documentation promises all existing pairs; this is about all data sets.", "anchors": ["fog/clustering/intersection_index.py:intersection_index"]}
{"id": "C23", "title": "sorted_neighborhood links exactly the similar items within the window", "statement": "With one key, sorted_neighborhood links exactly the similar items whose positions in the sorted data differ by less than window; with several keys it links those of every sort.", "quantifier": "all data, keys, windows and similarity functions, including data given as a one-shot iterator", "why_tests_cant": "All data; the iterator case needs several keys.", "anchors": ["fog/clustering/sorted_neighborhood.py:sorted_neighborhood"]}
{"id": "C24", "title": "adaptive_sorted_neighborhood never fails and splits the sorted data into blocks", "statement": "adaptive_sorted_neighborhood terminates without raising on every data set, and the blocks it compares are contiguous, disjoint and cover all the sorted data.", "quantifier": "all data, window sizes and similarity functions", "why_tests_cant": "Termination and absence of exceptions for all inputs.", "anchors": ["fog/clustering/sorted_neighborhood.py:full_AA_SNM", "fog/clustering/sorted_neighborhood.py:adaptive_sorted_neighborhood"]}
{"id": "C25", "title": "passjoin segments tile the string", "statement": "The k+1 segments of a string concatenate to the string, their lengths differ by at most one and shorter ones come first.", "quantifier": "all strings and all k", "why_tests_cant": "All lengths and thresholds.", "anchors": ["fog/clustering/passjoin.py:partition", "fog/clustering/passjoin.py:segments"]}
{"id": "C26", "title": "passjoin finds every pair within distance k and no other", "statement": "When the given distance is the Levenshtein distance, passjoin links two items of the data exactly when their distance is at most k, with sorted or unsorted data.", "quantifier": "all data sets and all k", "why_tests_cant": "Completeness of the substring selection is a combinatorial theorem about all alignments.", "anchors": ["fog/clustering/passjoin.py:passjoin", "fog/clustering/passjoin.py:multi_match_aware_interval", "fog/clustering/passjoin.py:multi_match_aware_substrings"]}
{"id": "C27", "title": "passjoin clusters list an item once", "statement": "No cluster returned by passjoin on data without repeated strings lists the same string twice.", "quantifier": "all data sets without repetitions, all k, both modes", "why_tests_cant": "Needs particular segment coincidences.", "anchors": ["fog/clustering/passjoin.py:passjoin", "fog/clustering/utils.py:clusters_from_pairs"]}
{"id": "C28", "title": "quickjoin with a metric distance returns the same pairs as comparing everything", "statement": "If distance is a metric and quickjoin terminates, it links exactly the items at distance at most radius, for every random choice of pivots.", "quantifier": "all data, metrics, radii, block sizes and pivot choices", "why_tests_cant": "Quantifies over all random choices.", "anchors": ["fog/clustering/quickjoin.py:quickjoin", "fog/clustering/quickjoin.py:partition", "fog/clustering/quickjoin.py:quickjoin_bruteforce", "fog/clustering/quickjoin.py:quickjoin_self_bruteforce", "fog/clustering/quickjoin.py:quickjoin_vptree", "fog/clustering/quickjoin.py:quickjoin_self_vptree"]}
{"id": "C29", "title": "quickjoin with a similarity returns the same pairs as comparing everything", "statement": "quickjoin(data, similarity=s, radius=r) links exactly the items with similarity at least r.", "quantifier": "all data, block sizes and pivot choices", "why_tests_cant": "Small tests never exceed the block size, so never partition.", "anchors": ["fog/clustering/quickjoin.py:quickjoin"]}
{"id": "C30", "title": "quickjoin terminates", "statement": "quickjoin terminates on every finite data set with a metric distance.", "quantifier": "all data and pivot choices", "why_tests_cant": "Non-termination cannot be observed by a test and needs more items than the block size.", "anchors": ["fog/clustering/quickjoin.py:quickjoin"]}
{"id": "C31", "title": "ppjoin, ppjoin+ and all_pairs only return pairs above the threshold", "statement": "Every pair yielded by ppjoin, ppjoin_plus or all_pairs has a similarity of at least threshold minus the documented epsilon, and no pair is yielded twice.", "quantifier": "all record collections, all thresholds, all three similarity functions", "why_tests_cant": "All data.", "anchors": ["fog/clustering/ppjoin.py:ppjoin"]}
{"id": "C32", "title": "all_pairs returns every pair above the threshold", "statement": "all_pairs yields every pair of records whose Jaccard or Dice similarity is at least the threshold.", "quantifier": "all record collections and all thresholds between 0 and 1", "why_tests_cant": "Completeness of prefix filtering is a combinatorial theorem; tests use one data set.", "anchors": ["fog/clustering/ppjoin.py:ppjoin", "fog/clustering/ppjoin.py:all_pairs"]}
{"id": "C33", "title": "ppjoin returns every pair above the threshold", "statement": "ppjoin yields every pair of records whose similarity is at least the threshold.", "quantifier": "all record collections and all thresholds between 0 and 1", "why_tests_cant": "The positional filter only misfires on short records; tests use long ones.", "anchors": ["fog/clustering/ppjoin.py:ppjoin"]}
{"id": "C34", "title": "A MinHash signature is a function of the set of tokens", "statement": "MinHash.create_signature gives the same signature whatever the order and repetition of tokens, the signature of a union is the pointwise minimum of the signatures, and every value fits in 32 bits.", "quantifier": "all token sequences, all hash coefficients", "why_tests_cant": "All sequences.", "anchors": ["fog/lsh/minhash.py:MinHash.create_signature"]}
{"id": "C35", "title": "minhash clustering never links items below the radius and always links identical sets", "statement": "minhash links two items only when the Jaccard index of their key sets is at least radius; two items with the same non-empty key set are linked.", "quantifier": "all data, all signature functions, all radii", "why_tests_cant": "Randomised hashing: all hash functions must be covered.", "anchors": ["fog/clustering/minhash.py:minhash"]}
{"id": "C36", "title": "guess_bands returns a usable number of bands", "statement": "guess_bands(h, threshold) returns the smallest number of bands between 1 and h whose similarity threshold is at most the given one, so that minhash clustering never raises.", "quantifier": "all h at least 1, all thresholds", "why_tests_cant": "A low radius is needed.", "anchors": ["fog/clustering/minhash.py:guess_bands", "fog/clustering/minhash.py:minhash"]}
{"id": "C37", "title": "All population count variants count bits", "statement": "popcount, popcount16, popcount32 and popcount64 return the number of one bits.", "quantifier": "all integers of the width of the variant", "why_tests_cant": "2^64 inputs.", "anchors": ["fog/lsh/utils.py:popcount64", "fog/lsh/utils.py:popcount16", "fog/lsh/utils.py:popcount32", "fog/lsh/utils.py:popcount"]}
{"id": "C38", "title": "simhash is the bitwise majority of the token hashes", "statement": "Bit i of simhash(tokens, f) is set exactly when bit i is set in more than half of the token hashes; hence it does not depend on token order, fits in f bits, and simhash_similarity is symmetric, within [0, 1] and 1 exactly on equal signatures.", "quantifier": "all token sequences, all widths f accepted by the function", "why_tests_cant": "All sequences and widths.", "anchors": ["fog/lsh/simhash.py:simhash", "fog/lsh/simhash.py:simhash_distance", "fog/lsh/simhash.py:simhash_similarity"]}
{"id": "C39", "title": "Set similarities are symmetric, bounded and one on equal sets", "statement": "jaccard_similarity, dice_coefficient and overlap_coefficient are symmetric, lie in [0, 1], equal 1 on two equal collections, and depend only on the sets of elements.", "quantifier": "all pairs of collections", "why_tests_cant": "All pairs; the value on empty collections depends on object identity.", "anchors": ["fog/metrics/jaccard.py:jaccard_similarity", "fog/metrics/dice.py:dice_coefficient", "fog/metrics/overlap.py:overlap_coefficient"]}
{"id": "C40", "title": "weighted_jaccard_similarity is the ratio of sums of minima and maxima", "statement": "For non-negative weights, weighted_jaccard_similarity(A, B) is the sum over all keys of the smaller weight divided by the sum of the larger weight; it is symmetric and in [0, 1].", "quantifier": "all pairs of weight maps with non-negative weights", "why_tests_cant": "All maps.", "anchors": ["fog/metrics/jaccard.py:weighted_jaccard_similarity"]}
{"id": "C41", "title": "Cosine similarities lie within bounds and are symmetric", "statement": "sparse_cosine_similarity is symmetric, lies in [-1, 1] and equals 1 on equal non-zero vectors; binary_cosine_similarity is its value on 0/1 vectors.", "quantifier": "all pairs of non-zero sparse vectors", "why_tests_cant": "Cauchy-Schwarz for all vectors.", "anchors": ["fog/metrics/cosine.py:sparse_cosine_similarity", "fog/metrics/cosine.py:sparse_binary_cosine_similarity", "fog/metrics/cosine.py:binary_cosine_similarity"]}
{"id": "C42", "title": "nn_descent only links similar items and terminates", "statement": "nn_descent terminates, and only links distinct items whose similarity is at least radius, for every random choice.", "quantifier": "all data of at least one item, similarity functions, k and random choices", "why_tests_cant": "All random choices; non-termination.", "anchors": ["fog/clustering/nn_descent.py:nn_descent", "fog/clustering/nn_descent.py:nn_descent_full"]}
{"id": "C43", "title": "best_matching_macro_average scores are well behaved", "statement": "best_matching_macro_average gives (1, 1, 1) when predicted equals truth, gives scores in (0, 1], and does not depend on the order of clusters nor on the order of items inside clusters.", "quantifier": "all truth and predicted clusterings accepted by the function", "why_tests_cant": "Ties between candidates need specific sizes.", "anchors": ["fog/evaluation/best_matching.py:best_matching_macro_average"]}
{"id": "C44", "title": "Labels and clusters convert back and forth without loss", "statement": "labels_to_clusters puts two items in the same cluster exactly when they have the same label and clusters_to_labels gives two items the same label exactly when they are in the same cluster, so that converting back and forth keeps the partition.", "quantifier": "all label sequences and all partitions", "why_tests_cant": "All sequences.", "anchors": ["fog/evaluation/utils.py:labels_to_clusters", "fog/evaluation/utils.py:clusters_to_labels"]}
{"id": "C45", "title": "hashjoin yields exactly the pairs of rows sharing a key", "statement": "hashjoin(left, right, key or keys) yields (l, r) with l from left and r from right exactly for the pairs of rows having a common key, whether the inputs are lists or one-shot iterators and whether keys returns a list or a generator.", "quantifier": "all pairs of collections and all key functions", "why_tests_cant": "All collections; one-shot iterators only matter from the second row.", "anchors": ["fog/join/hashjoin.py:hashjoin"]}
{"id": "C46", "title": "Both monopartite projection algorithms agree", "statement": "monopartite_projection with use_topology=True gives the same graph as with use_topology=False, that is the nodes of the part linked by the metric when positive and above threshold.", "quantifier": "all bipartite graphs, metrics and thresholds", "why_tests_cant": "All graphs.", "anchors": ["fog/graph/projection.py:monopartite_projection"]}
{"id": "C47", "title": "component_sizes measures connected components", "statement": "component_sizes yields the size of each connected component of the graph of edges accepted by the filter, once each; the sizes add up to the number of nodes, and second_largest_component_size is the second largest or nothing.", "quantifier": "all graphs and all symmetric edge filters", "why_tests_cant": "All graphs.", "anchors": ["fog/graph/utils.py:component_sizes", "fog/graph/utils.py:second_largest_component_size"]}
{"id": "C48", "title": "floatsam_sparsification terminates with the last threshold before a drifting component", "statement": "floatsam_sparsification terminates and returns the last threshold step before a step for which the second largest component has at least max_drifter_size nodes.", "quantifier": "all graphs, learning rates and drifter sizes", "why_tests_cant": "Non-termination.", "anchors": ["fog/graph/sparsification.py:floatsam_sparsification"]}
{"id": "C49", "title": "n-grams can be joined back", "statement": "ngrams(n, s) yields the whole sequence if it is shorter than n and otherwise every window of n consecutive items in order; join_ngrams(ngrams(n, s)) is s.", "quantifier": "all sequences and all n at least 1", "why_tests_cant": "All sequences.", "anchors": ["fog/tokenizers/ngrams.py:ngrams", "fog/tokenizers/ngrams.py:join_ngrams"]}
{"id": "C50", "title": "The fingerprint key ignores order, repetition, case, punctuation and spacing, and is idempotent", "statement": "Two strings with the same set of cleaned words have the same fingerprint; applying the fingerprint to a fingerprint changes nothing; min_token_size keeps the words having at least that size.", "quantifier": "all strings", "why_tests_cant": "All strings.", "anchors": ["fog/tokenizers/fingerprint.py:FingerprintTokenizer", "fog/key/fingerprint.py:FingerprintingKeyer"]}
{"id": "C51", "title": "squeeze removes all consecutive repetitions and nothing else", "statement": "squeeze(s) has no two equal consecutive characters, is obtained from s by collapsing runs, and is idempotent.", "quantifier": "all strings", "why_tests_cant": "All strings, including line breaks.", "anchors": ["fog/utils.py:squeeze"]}
{"id": "C52", "title": "Splitting a hashtag loses nothing", "statement": "The pieces of split_hashtag concatenate to the hashtag without its first character and none is empty.", "quantifier": "all hashtags of at least two characters, all character classifications", "why_tests_cant": "All strings and alphabets.", "anchors": ["fog/tokenizers/words.py:split_hashtag"]}
{"id": "C53", "title": "WordTokenizer loses no word character and terminates", "statement": "WordTokenizer terminates and every letter or digit of the text is in some token, in the same order.", "quantifier": "all texts", "why_tests_cant": "All texts; the loss needs a mixed acronym.", "anchors": ["fog/tokenizers/words.py:WordTokenizer", "fog/tokenizers/words.py:with_holes", "fog/tokenizers/words.py:punct_emoji_iter"]}
{"id": "C54", "title": "Omission and skeleton keys keep each letter once and are idempotent", "statement": "omission_key and skeleton_key list each distinct letter of the string once, in the documented order, and are unchanged when applied to themselves.", "quantifier": "all strings", "why_tests_cant": "All strings.", "anchors": ["fog/key/omission.py:omission_key", "fog/key/skeleton.py:skeleton_key"]}
{"id": "C55", "title": "cologne produces a normalised code", "statement": "cologne(name) is made of digits, has no 0 after the first digit and has no two equal consecutive digits.", "quantifier": "all names", "why_tests_cant": "All names.", "anchors": ["fog/phonetics/cologne.py:cologne"]}
{"id": "C56", "title": "rusalka never fails", "statement": "rusalka(name) returns a string for every name.", "quantifier": "all names", "why_tests_cant": "Crashes need names that the rules erase.", "anchors": ["fog/phonetics/rusalka.py:rusalka"]}
{"id": "C57", "title": "The split command writes rectangular rows", "statement": "fog split writes, for each row and each value of the split column, one row as long as the header holding this value in the target column.", "quantifier": "all CSV contents, separators and target columns", "why_tests_cant": "All inputs.", "anchors": ["fog/cli/split.py:split_action"]}
{"id": "C58", "title": "TOML escaping is injective", "statement": "Two different strings are never escaped to the same TOML text, so cluster values survive a write and read.", "quantifier": "all strings", "why_tests_cant": "Needs a backslash.", "anchors": ["fog/cli/reporting/toml.py:escape_string"]}
{"id": "C59", "title": "OnlineMean is the mean of what was added", "statement": "After any sequence of additions, removals of added values and merges, OnlineMean reports the mean of the values held.", "quantifier": "all sequences of operations", "why_tests_cant": "All histories.", "anchors": ["fog/utils.py:OnlineMean"]}
{"id": "C60", "title": "quickjoin_join_pivots joins two lists exactly", "statement": "For a metric distance, quickjoin_join_pivots(S1, S2) yields exactly the pairs of S1 x S2 at distance at most radius, in order and once each, and raises IndexError only when S1 is empty.", "quantifier": "all lists, metrics and radii", "why_tests_cant": "The pivot filter must never reject a close pair, for all metrics.", "anchors": ["fog/clustering/quickjoin.py:quickjoin_join_pivots"]}
{"id": "C61", "title": "sparse_normalize gives unit vectors whose dot product is the cosine", "statement": "The norm of sparse_normalize(A) is one unless A is a zero vector, whose result is empty, and sparse_dot_product of two normalized non-zero vectors is sparse_cosine_similarity of the vectors.", "quantifier": "all sparse vectors", "why_tests_cant": "All vectors; two different code paths must agree.", "anchors": ["fog/metrics/cosine.py:sparse_normalize", "fog/metrics/cosine.py:sparse_dot_product", "fog/metrics/cosine.py:sparse_norm"]}
{"id": "C62", "title": "intersection_size counts common elements", "statement": "intersection_size(A, B) is the number of distinct elements in both collections.", "quantifier": "all pairs of collections", "why_tests_cant": "All pairs; depends on object identity.", "anchors": ["fog/metrics/utils.py:intersection_size"]}
{"id": "C63", "title": "is_power_of_two recognises powers of two", "statement": "is_power_of_two(x) is true exactly when x is a power of two.", "quantifier": "all natural numbers", "why_tests_cant": "All numbers; the callers negate the result.", "anchors": ["fog/lsh/utils.py:is_power_of_two"]}
{"id": "C64", "title": "minhash_similarity is the share of agreeing positions", "statement": "For two signatures of the same length, not empty, minhash_similarity is the share of the positions where they agree; it is symmetric, in [0, 1], and 1 exactly on equal signatures.", "quantifier": "all pairs of signatures", "why_tests_cant": "All signatures.", "anchors": ["fog/lsh/minhash.py:minhash_similarity"]}
{"id": "C65", "title": "LSBMinHash packs the parities of the MinHash signature", "statement": "Bit i of integer s of an LSBMinHash signature is the parity of value 64s + i of the MinHash signature with the same coefficients; lsb_minhash_similarity is twice the share of agreeing bits minus one, symmetric, in [-1, 1], and 1 exactly on equal signatures.", "quantifier": "all token sequences, precisions and coefficients", "why_tests_cant": "All sequences and coefficients.", "anchors": ["fog/lsh/minhash.py:LSBMinHash.create_signature", "fog/lsh/minhash.py:lsb_minhash_similarity"]}
{"id": "C66", "title": "match_probability is a probability which grows with similarity", "statement": "match_probability(h, bands, s) lies in [0, 1], is 0 at 0 and 1 at 1, grows with s, and equals 1 - (1 - 1/bands)^bands at similarity_threshold(h, bands).", "quantifier": "all h, bands at least 1 and all similarities in [0, 1]", "why_tests_cant": "Monotonicity over a continuum.", "anchors": ["fog/clustering/minhash.py:match_probability", "fog/clustering/minhash.py:similarity_threshold"]}
{"id": "C67", "title": "The options of WordTokenizer select tokens", "statement": "A tokenizer yields, in order, exactly the tokens of a kept, not dropped type which, as rewritten, have a length between the given bounds when they are words and are not in the stoplist (lowered when words are). Mentions and hashtags are lowered, unidecoded and made words when asked for; words are lowered when asked for. The constructor raises a TypeError exactly on both keep and drop, or on a minimum length not less than the maximum.", "quantifier": "all texts, all options", "why_tests_cant": "All combinations of options and all texts.", "anchors": ["fog/tokenizers/words.py:WordTokenizer"]}
{"id": "C68", "title": "reduce_lenghtening shortens exactly the runs of five letters or more", "statement": "Each run of at least five equal letters becomes three letters, other runs are unchanged; doing it twice changes nothing.", "quantifier": "all strings, all letter classes", "why_tests_cant": "All strings.", "anchors": ["fog/tokenizers/words.py:reduce_lenghtening"]}
{"id": "C69", "title": "The transform command keeps rows rectangular", "statement": "fog transform writes one row per row, as long as the headers, with the value given by the operations under the target header (at the end, or just after the column) or in the column, every other cell being unchanged.", "quantifier": "all CSV contents, chains of operations, expressions, target columns", "why_tests_cant": "All inputs and all chains of operations.", "anchors": ["fog/cli/transform.py:transform_action", "fog/cli/utils.py:custom_reader"]}
{"id": "C70", "title": "The cluster command reports all values with the same fingerprint", "statement": "The clusters of the report are exactly the sets of at least two different values of the column with the same non-empty fingerprint, each once, with their values by decreasing number of rows; nb_rows is the number of rows having one of these values.", "quantifier": "all CSV contents, all fingerprint functions", "why_tests_cant": "All inputs.", "anchors": ["fog/cli/cluster.py:cluster_action", "fog/cli/reporting/toml.py:print_toml_report"]}
{"id": "C71", "title": "Levenshtein blocks are flagged parts of the string", "statement": "Every block returned by levenshtein_1d_blocks is one half of the string (lengths differing by at most one) with the flag at its outside end, or with transpositions the same half of the string with two adjacent letters swapped, and there are at most four blocks; likewise every block of levenshtein_2d_blocks is one third of the string behind the flag of its rank, and there are at most seven. Hence two strings sharing a block share a half or a third up to a swap.", "quantifier": "all strings (not empty with transpositions), all flags", "why_tests_cant": "Strings of every length modulo 2 and 3 have their own slicing arithmetic; a block cut one letter short still finds all matches and only adds collisions, which completeness tests do not show.", "anchors": ["fog/key/levenshtein.py:levenshtein_1d_blocks", "fog/key/levenshtein.py:levenshtein_2d_blocks"]}
{"id": "C72", "title": "SuperMinHash signatures are least values of full shuffles", "statement": "For h >= 1, SuperMinHash.create_signature never raises and holds at each position the integer part of the least value r + j given by a token whose shuffle puts the position at rank j, or h + 1 without tokens; the early exit of the loop and the lazily reset permutation change nothing. Hence the signature is a function of the set of tokens, the signature of a union is the pointwise minimum, and the integers of a non-empty sequence lie between 0 and h - 1.", "quantifier": "all sequences, all h, all sequences of random numbers in [0, 1), all orders of iteration of the set", "why_tests_cant": "The early exit depends on a histogram maintained incrementally over all tokens; an off-by-one in it only loses a value for rare random draws.", "anchors": ["fog/lsh/minhash.py:SuperMinHash"]}
{"id": "C73", "title": "Minhash bands link exactly the similar items which agree on a band", "statement": "The clusters of minhash are exactly the connected components, of two items or more, of the relation between two items of the data whose keys have a Jaccard index of at least radius and whose signatures agree on all h // bands rows of one of the bands; joining the integers of a band by a percent sign loses nothing.", "quantifier": "all data, all coefficients, all radii, 1 <= bands <= h", "why_tests_cant": "A band that is one row too short or too long links more or fewer items only with small probability, and the same items are always linked.", "anchors": ["fog/clustering/minhash.py:minhash"]}
{"id": "C74", "title": "WordTokenizer cuts plain texts into their words, numbers, hashtags, mentions and signs", "statement": "On a text made of words of letters, whole or decimal numbers, hashtags and mentions, each followed by a space, a punctuation sign or the end of the text (a point only after what is not an abbreviation nor an upper case letter, no decimal sign after a number), and of punctuation signs, without smileys, emojis or addresses, the tokens are exactly these pieces in order with the expected types, except that a number of one digit is a punctuation token.", "quantifier": "all such texts, all Unicode tables meeting a few laws", "why_tests_cant": "All texts; the index arithmetic of the number, word and punctuation loops depends on what follows each piece.", "anchors": ["fog/tokenizers/words.py:WordTokenizer"]}
{"id": "C75", "title": "naive_cosine_pairs yields every pair of vectors with a common dimension once", "statement": "naive_cosine_pairs yields the pair (i, j) exactly once when j < i and the vectors i and j have a dimension in common, and nothing else; so no pair with a dot product other than zero is lost.", "quantifier": "all lists of sparse vectors", "why_tests_cant": "The inverted lists grow while they are read; exactness is over all lists of vectors.", "anchors": ["fog/clustering/fagin.py:naive_cosine_pairs"]}
{"id": "C76", "title": "fagin_k1 finds candidates among which is the nearest vector", "statement": "fagin_k1 ends, answers for the vectors whose dimensions are all found in another vector, and the nearest vector is among the candidates it yields.", "quantifier": "all lists of sparse vectors", "why_tests_cant": "When the loop stops depends on the order of all lists; a sample may hold the nearest vector by chance.", "anchors": ["fog/clustering/fagin.py:fagin_k1"]}
{"id": "C77", "title": "threshold_algorithm_k1 finds the nearest vector", "statement": "threshold_algorithm_k1 ends without raising and yields for each vector the other vector with the highest cosine similarity, or the vector itself when no other has a dimension in common.", "quantifier": "all lists of sparse vectors of positive weights", "why_tests_cant": "The stopping rule is right or wrong over all lists of vectors.", "anchors": ["fog/clustering/fagin.py:threshold_algorithm_k1"]}
{"id": "C78", "title": "sqrt_indexation_pairs pairs the vectors which have the same leader", "statement": "sqrt_indexation_pairs yields the pairs of vectors which have the same closest leader, each once, and no pair of a vector with itself.", "quantifier": "all lists of vectors, all shuffles", "why_tests_cant": "Leaders are drawn at random and pairs depend on all similarities.", "anchors": ["fog/clustering/fagin.py:sqrt_indexation_pairs"]}
{"id": "C79", "title": "laesa: the clusters are sound, and which pairs are found", "statement": "Whenever laesa returns, each cluster is made of items linked by pairs of items of the data at a distance of at most radius, has an accepted size and no repetition. A pair of items, the first before the second in the data, is used if and only if it is within the radius and no pivot tells the two apart by more than the distance from the first item to its nearest pivot. For a metric, two different close items are thus in the same cluster as soon as the first is at least as far from all pivots as from the second. An item chosen as a pivot is never paired with a later, different item: close items are lost, and what is lost depends on the seed.", "quantifier": "for all data, distances, radii, numbers of pivots, size bounds, drawn indices, orders of the set of pivots", "why_tests_cant": "What is lost depends on the seed, the order of the data and the distances; a test on one data set with one seed sees neither the exact condition nor that soundness never fails.", "anchors": ["fog/clustering/laesa.py:laesa", "fog/clustering/laesa.py:pivot_selection"]}
{"id": "C80", "title": "laesa: the pivots are chosen greedily and never run out on different items", "statement": "When two items differ, with a metric and at most as many pivots as items, pivot_selection raises nothing and returns that many different indices with the matrix of the distances from each pivot to each item; the pivots are, in some order, chosen one after the other, each maximising among the items not yet chosen the sum of its distances to the item drawn first and to the previous pivots. laesa raises exactly on no data (ValueError), with more pivots than items or at least two pivots and only equal items (IndexError), and on an unknown mode (TypeError).", "quantifier": "for all lists of items, metrics, numbers of pivots, drawn indices, orders of the set of pivots", "why_tests_cant": "The sums are updated in place and items are skipped once chosen; an error in the update changes the choice only on some data, and the exception depends on repeated items.", "anchors": ["fog/clustering/laesa.py:pivot_selection"]}
{"id": "C81", "title": "vp_tree: the clusters are the balls of far apart leaders and cover all viable items", "statement": "The clusters of vp_tree are the balls (all items of the data within the radius) of leaders taken in the order of the data; each cluster has an accepted size, any two leaders are more than the radius apart (the later from the earlier), and each item whose own ball has an accepted size is in some cluster. With a metric two items of a cluster are within twice the radius, and with the default sizes each item having another one within the radius is clustered. Clusters may overlap, and two close items may be in no common cluster.", "quantifier": "for all data, distances null on equal items, radii at least 0, size bounds, and trees returning each item within the radius once", "why_tests_cant": "Which items lead depends on the order of the data; the tests only look at one small list.", "anchors": ["fog/clustering/vp_tree.py:vp_tree"]}
{"id": "C82", "title": "rusalka gives one code to the variant spellings of a name", "statement": "For names of two lower case letters or more, rusalka gives the same result to two spellings which differ by one of: f, v, w or ph for each other; cz for ts; a for e from the third letter on; ch, sh, tch, dch, tsh, dsh, tz for each other (not after d or t); zh, j, dzh, dj, tj for each other inside a word (not after c, d or t); ks for x (not before h); k, g, c, kh, gh for each other (not before h, s or z); a last ij or iy for nothing (not after j or y).", "quantifier": "for all such names and all places of the change", "why_tests_cant": "The rules are applied one after the other, each on what the others left: whether a rule fires depends on the letters around, which examples sample poorly.", "anchors": ["fog/phonetics/rusalka.py:rusalka"]}
{"id": "C83", "title": "passjoin selects count_substrings_l substrings", "statement": "For a threshold k and lengths s, l differing by at most k, the multi-match-aware selection of passjoin takes at most count_substrings_l(k, s, l) substrings of a string of length s for the strings of length l, and exactly so many when segments are not empty and the string has no repeated character. Consequently count_keys(k, s) bounds the number of substrings looked up for a string of length s once strings are sorted, and is this number for strings longer than k without repeated characters.", "quantifier": "for all thresholds, all strings and all lengths within the threshold", "why_tests_cant": "the closed form is a sum over k + 1 intervals cut by four bounds; tests compare it with a few small thresholds and lengths", "anchors": ["fog/clustering/passjoin.py:count_substrings_l", "fog/clustering/passjoin.py:count_keys", "fog/clustering/passjoin.py:multi_match_aware_substrings"]}
{"id": "C84", "title": "MinHash coefficients are different pairs", "statement": "The constructors of MinHash and LSBMinHash end exactly when the generator gives sooner or later h different pairs of coefficients, and then hold exactly h different pairs among those drawn.", "quantifier": "for all generators (any infinite sequence of draws), all h and all orders of sets", "why_tests_cant": "a test sees the pairs of some seeds; that the loop may never end, and when, is about all infinite sequences", "anchors": ["fog/lsh/minhash.py:MinHash", "fog/lsh/minhash.py:LSBMinHash"]}
{"id": "C85", "title": "MinHash signatures agree when the least token is shared", "statement": "With coefficients in the ranges drawn by the constructor and tokens hashed to 32 bits, the signatures of two sequences agree at a position exactly when a token with the least universal hash among those of both is in both (the identity behind the estimate of the Jaccard similarity), or when no hash is less than 2**32 - 1. Hence sequences without a common token agree nowhere but where both signatures are saturated.", "quantifier": "for all non-empty sequences, all hash functions to 32 bits, all coefficients in range and all positions", "why_tests_cant": "it rests on NEXT_PRIME being prime, so that no two of the 2**32 tokens collide under any of the 2**64 coefficients", "anchors": ["fog/lsh/minhash.py:MinHash"]}
{"id": "C86", "title": "The clustering algorithms agree with comparing all pairs", "statement": "On different items and for a minimum size of at least two, these return the same clusters, up to order, as pairwise comparison by connected components: passjoin with the edit distance and any threshold; blocking on levenshtein_1d_blocks for one edit, with one process or several; quickjoin with a metric, whenever it ends.", "quantifier": "for all data without repetition, all thresholds, sizes, set orders, pivots, block sizes and arrival orders", "why_tests_cant": "the four algorithms look at different pairs in different orders; tests compare them on one list of names", "anchors": ["fog/clustering/passjoin.py:passjoin", "fog/clustering/blocking.py:blocking", "fog/clustering/quickjoin.py:quickjoin", "fog/clustering/pairwise.py:pairwise_connected_components"]}
{"id": "C87", "title": "The TOML report can be read back", "statement": "A TOML reader applied to the text of print_toml_report finds the date, the algorithm, the statistics and, for each cluster, its number, size, rows, most frequent value, and all of its values by decreasing number of rows; when the values hold no backslash and no control character except newlines.", "quantifier": "for all counters, lists of clusters that are not empty, dates, algorithms and times", "why_tests_cant": "the report interleaves escaped values with syntax, so any value could break the document; tests never parse it", "anchors": ["fog/cli/reporting/toml.py:print_toml_report", "fog/cli/reporting/toml.py:escape_string"]}
{"id": "C88", "title": "The suffix filter of ppjoin+ never removes a pair by mistake", "statement": "For two increasing lists of tokens and a budget not smaller than the difference of their sizes, suffix_filter raises nothing and its result lies between the difference of the sizes and the number of tokens found in only one list, whenever the latter is within the budget; so a result above the budget means that the lists differ by more tokens than the budget.", "quantifier": "for all increasing lists of tokens and budgets", "why_tests_cant": "the recursion uses a search window computed from halves and parities, so an off by one shows only on few shapes of lists", "anchors": ["fog/clustering/ppjoin.py:suffix_filter"]}
{"id": "C89", "title": "The bounds on sizes and overlaps of the ppjoin helpers are right", "statement": "For each metric, the size of a set similar to a set of l tokens lies between min_possible_length(l) and max_possible_length(l), its intersection with it is at least require_overlap, and these bounds let nothing else through than the real bounds do, up to epsilon.", "quantifier": "for all sets and thresholds", "why_tests_cant": "the formulas round real numbers; max_possible_length is never called", "anchors": ["fog/clustering/ppjoin.py:JaccardHelper", "fog/clustering/ppjoin.py:DiceHelper", "fog/clustering/ppjoin.py:BinaryCosineHelper"]}
{"id": "C90", "title": "The fuzzy clusters of the clustering algorithms are stars of similar items", "statement": "With mode='fuzzy_clusters' and distinct items, blocking (in one or several processes), sorted_neighborhood, quickjoin, laesa and intersection_index give clusters made of an item followed by exactly the items found similar to it, without repetitions; no cluster starts with an item of an earlier one, and when sizes from two on are accepted each item similar to another one is in a cluster. For any data, with one block or one key by item, an item is repeated in a cluster as many times as there are pairs of places holding it and the leader and found similar.", "quantifier": "for all data without repetitions, similarities, sizes, keys, orders of iteration and of arrival", "why_tests_cant": "the mode is tested on a few lists; repeated pairs depend on the algorithm", "anchors": ["fog/clustering/blocking.py:blocking", "fog/clustering/sorted_neighborhood.py:sorted_neighborhood", "fog/clustering/quickjoin.py:quickjoin", "fog/clustering/laesa.py:laesa", "fog/clustering/intersection_index.py:intersection_index"]}
{"id": "C91", "title": "The split and transform commands raise exactly on these files and rows", "statement": "fog split raises an AttributeError on an empty file, a ValueError when no header is the column, and otherwise what the first bad row raises: an IndexError if it has no such cell, a ValueError if it has a value to cut and the separator is empty; in all other cases it does not raise. fog transform raises a KeyError when a name of operation is unknown, whatever the file; then the same for the file, the column and short rows, and at the first row a TypeError or an AttributeError when `len` is followed by another operation; with --eval, what the expression raises.", "quantifier": "for all files, columns, separators, operations and expressions", "why_tests_cant": "the commands are not tested; which exception comes first depends on the order of the checks and of the rows", "anchors": ["fog/cli/split.py:split_action", "fog/cli/transform.py:transform_action", "fog/cli/utils.py:custom_reader"]}
{"id": "C92", "title": "Addresses, abbreviations, contractions, elisions, acronyms, quotes and hyphens are cut as listed", "statement": "In a text made of plain pieces (words, numbers, hashtags, mentions, punctuation, spaces) and of smileys, page addresses, e-mail addresses (a name of 1 to 63 accepted characters), listed abbreviations followed by a point and more text, listed English contractions, words joined by an apostrophe (n't, 'hui, O', two consonants), elisions, words ended or quoted by apostrophes, acronyms of capitals with points, the two archaic contractions and words linked by hyphens (cut before a listed pronoun and around -t-), each suitably followed, the word tokenizer yields exactly the tokens of each piece, in order, and raises nothing.", "quantifier": "for all texts made of such pieces, and character tables which agree on ASCII and on the listed signs", "why_tests_cant": "the tests try some sixty sentences; the rules interact through what follows each piece", "anchors": ["fog/tokenizers/words.py:WordTokenizer", "fog/tokenizers/words.py:email_lookahead", "fog/tokenizers/words.py:starts_as_url"]}
{"id": "C93", "title": "monopartite_projection raises exactly on these faults and is the projection otherwise", "statement": "On every undirected graph, with any metric name, threshold, mode and partition, monopartite_projection raises a TypeError when the metric is unknown; with the check, on the first edge after which the edges seen are not between two parts, a KeyError if an end of it has no part and a TypeError otherwise; then a KeyError if a node has no part; then, following edges, a KeyError exactly when a greater node two steps away from a node of the part is not in the part or (for the cosine) has only zero weights. It raises on nothing else, and what it returns otherwise is the projection.", "quantifier": "for all undirected graphs, partitions (even partial or with more than two parts), metrics, thresholds and modes", "why_tests_cant": "the tests project two small graphs and never a graph without two parts or with weights of zero", "anchors": ["fog/graph/projection.py:monopartite_projection", "fog/graph/projection.py:compute_metric"]}
{"id": "C94", "title": "The HTML report can be read back when no value begins a tag", "statement": "A reader of HTML finds in the report, in the tables, the date, the algorithm, the numbers of rows, of distinct values and of clusters written by groups of three digits, and a duration which is the time in seconds, rounded, taken for microseconds; then for each cluster its number counted from one, its size and its number of rows, and the list of its values by decreasing number of rows, ties in the order of the cluster. This holds when the date, the algorithm and the values have no '<' before a letter, '/', '!' or '?'. Values without '&' and with single spaces are found unchanged. The page is never closed, and the duration is never the time taken from two microseconds on.", "quantifier": "for all dates, algorithm names, times, counts and clusters of values without tags", "why_tests_cant": "no test runs the HTML report, and values with markup or white space are never clustered by the tests", "anchors": ["fog/cli/reporting/html.py:print_html_report"]}
{"id": "C95", "title": "MinHash with numpy computes the same universal hashes", "statement": "With use_numpy, every value of the signature of a sequence is the least of (a * x + b) mod 4294967311 over its tokens x, so that different tokens have different hashes, as without numpy.", "quantifier": "for all sequences of tokens and all coefficients of 32 bits", "why_tests_cant": "the tests compare the estimate of a single pair of sequences within a tolerance, which hashes modulo 2 ** 32 pass too", "anchors": ["fog/lsh/minhash.py:create_signature"]}
{"id": "C96", "title": "Fingerprint keys collide exactly for the same words or grams", "statement": "Two texts have the same fingerprint key exactly when the sets of their words, once cleaned, are the same; and the same n-gram key exactly when the sets of their n-grams, once cleaned and without spaces, are the same, for n at least 1. With n = 0 all texts have the same key.", "quantifier": "for all pairs of texts, all options and all sizes n", "why_tests_cant": "a finite list of pairs says nothing of the pairs which are wrongly merged or wrongly kept apart by joining the tokens", "anchors": ["fog/tokenizers/fingerprint.py:key", "fog/tokenizers/fingerprint.py:tokenize", "fog/key/fingerprint.py:NgramsFingerprintKeyer", "fog/tokenizers/fingerprint.py:NgramsFingerprintTokenizer"]}
{"id": "C97", "title": "The helpers of nn_descent_full do what the algorithm asks", "statement": "sample gives k different items other than the given one; sample_full reorders its list and gives its k first items; reverse gives the in-neighbors of every item and raises an IndexError exactly when a neighbor is not an item; at each turn the new neighbors which are sampled are those then marked as old.", "quantifier": "for all tables of neighbors, all sample sizes and all draws of the random number generator", "why_tests_cant": "the tests only look at the clusters found in one small dataset with a seed, which do not depend on which neighbors are marked", "anchors": ["fog/clustering/nn_descent.py:sample", "fog/clustering/nn_descent.py:sample_full", "fog/clustering/nn_descent.py:shuffle_k", "fog/clustering/nn_descent.py:reverse", "fog/clustering/nn_descent.py:reverse_full", "fog/clustering/nn_descent.py:nn_descent_full"]}
{"id": "C98", "title": "Stopwords are removed from fingerprints, and nothing else is", "statement": "With stopwords, exactly the runs of word characters of the text which are a stopword, whatever their case, are removed before making tokens; a stopword with other characters is removed too where it stands alone.", "quantifier": "for all texts and all lists of stopwords", "why_tests_cant": "the tests have one list of plain words; word boundaries behave differently for stopwords with symbols and inside words", "anchors": ["fog/tokenizers/fingerprint.py:FingerprintTokenizer", "fog/tokenizers/fingerprint.py:tokenize"]}
{"id": "C99", "title": "pairwise: what its arguments mean, when it raises, and how its modes compare", "statement": "The function made from a similarity, a distance and a radius says whether items are similar, and a TypeError is raised exactly when there is neither; pairwise raises exactly for these faults of its arguments; leader and fuzzy clusters are within connected components and fuzzy clusters have the items of the components.", "quantifier": "for all data, all functions and radii, all modes and arguments", "why_tests_cant": "the tests try one dataset and compare each mode with a list of clusters; the relation between modes is about all graphs of similar items", "anchors": ["fog/clustering/utils.py:make_similarity_function", "fog/clustering/pairwise.py:pairwise"]}
{"id": "C100", "title": "A turn of nn_descent_full: what it compares, and that it only replaces neighbors by better ones", "statement": "A turn compares, for every item, its sampled new neighbors and a sample of the items of which it is one, between them and with its old neighbors and a sample of the items of which it is one; afterwards each former neighbor and each compared item is in the list, or all of the list is at least as similar; and nothing else is in the list.", "quantifier": "for all lists of neighbors which are heaps, all similarities, all random draws, all iteration orders of sets", "why_tests_cant": "the tests only look at final clusters, for one seed; what is compared and kept in a turn depends on the draws and on the order of comparisons", "anchors": ["fog/clustering/nn_descent.py:nn_descent_full", "fog/clustering/nn_descent.py:reverse_full", "fog/clustering/nn_descent.py:sample_full"]}
{"id": "C101", "title": "ppjoin orders tokens by frequency and records by length", "statement": "With a tokenizer and the order by frequency, the label of a token is the number of tokens which are less frequent, or as frequent but before it; each record becomes the increasing list of the labels of its tokens, or of its tokens when there is no order; records are visited the shortest first, and in their order when they are as long.", "quantifier": "for all lists of records over any ordered type of tokens", "why_tests_cant": "the result of the join is the same for any order of tokens, so that a test on pairs cannot tell that the order is the documented one", "anchors": ["fog/clustering/ppjoin.py:preprocess"]}
{"id": "C102", "title": "Hashtags are cut where their case changes", "statement": "A hashtag of capitals, small letters and digits is cut exactly between digits and letters, between a small letter and a capital, and before the last of several capitals when a small letter follows, its first letter counting as a capital; so a small first letter followed by capitals only is not cut from them.", "quantifier": "for all hashtags of characters which are a capital, a small letter or a digit, for all character tables", "why_tests_cant": "the tests try a few hashtags; the rule is about any sequence of cases, and its exception for the first letter is not in them", "anchors": ["fog/tokenizers/words.py:split_hashtag"]}
{"id": "C103", "title": "A turn of nn_descent: what it compares, and that it only replaces neighbors by better ones", "statement": "A turn compares every item with the items near an item near it, near meaning that one is among the neighbors of the other before the turn; afterwards each former neighbor and each compared item is in the list, or all of the list is at least as similar; and nothing else is in the list.", "quantifier": "for all items, similarities, lists of neighbors which are heaps, orders of sets", "why_tests_cant": "the tests only look at the clusters of one dataset for one seed; a turn which forgets to compare some items still gives plausible clusters", "anchors": ["fog/clustering/nn_descent.py:nn_descent", "fog/clustering/nn_descent.py:reverse"]}
{"id": "C104", "title": "The compiled distances stay inside of their memory and their numbers do not wrap around", "statement": "With unsigned 32 bits numbers, unchecked reads of strings and malloc'ed arrays, the compiled distances read and write inside of their strings and arrays only, read no cell before writing it, use no array after freeing it, and give the value computed with unbounded numbers.", "quantifier": "for all pairs of strings, all limits, all states of the memory", "why_tests_cant": "a read past an array gives whatever is there, often without any visible effect, and only long strings make the numbers wrap", "anchors": ["cfog/metrics/levenshtein.pyx:levenshtein_distance", "cfog/metrics/levenshtein.pyx:limited_levenshtein_distance", "cfog/metrics/levenshtein.pyx:levenshtein_distance_lte1", "cfog/metrics/levenshtein.pyx:damerau_levenshtein_distance_lte1"]}
{"id": "C105", "title": "limited_levenshtein_distance gives back the memory it allocates", "statement": "Whatever the strings and the limit, no array allocated by a call is still allocated after it.", "quantifier": "for all limits, pairs of strings, states of the memory", "why_tests_cant": "a leak has no effect on the value returned", "anchors": ["cfog/metrics/levenshtein.pyx:limited_levenshtein_distance"]}
{"id": "C106", "title": "How many blocking keys a string has", "statement": "A string of n letters has 2n + 3 different keys for the Levenshtein distance and 3n + 2 for the Damerau-Levenshtein distance; levenshtein_1d_blocks gives 2 blocks when n is even, 4 when it is odd and always 4 with transpositions.", "quantifier": "for all strings, flags", "why_tests_cant": "the tests list the keys of a few words; the documentation gives a number for every length", "anchors": ["fog/key/levenshtein.py:levenshtein_1d_keys", "fog/key/levenshtein.py:levenshtein_1d_blocks", "fog/key/levenshtein.py:levenshtein_2d_blocks"]}
{"id": "C107", "title": "The compiled distances are metrics", "statement": "levenshtein_distance and limited_levenshtein_distance are metrics: zero exactly between equal strings, the same in both directions, and the triangle inequality holds. The index structures which prune with the triangle inequality (quickjoin, vantage point trees, laesa) rely on it.", "quantifier": "for all triples of strings, limits", "why_tests_cant": "the tests compare a few pairs with a known distance; symmetry and the triangle inequality relate all pairs and triples", "anchors": ["cfog/metrics/levenshtein.pyx:levenshtein_distance", "cfog/metrics/levenshtein.pyx:limited_levenshtein_distance"]}
{"id": "C108", "title": "The clusterings with the keys, blocks and distances of the library find the strings within a few edits", "statement": "blocking with levenshtein_1d_blocks and levenshtein_distance_lte1 (or their Damerau variants), key_collision with levenshtein_1d_keys, passjoin with levenshtein_distance or limited_levenshtein_distance and quickjoin with limited_levenshtein_distance return the connected components of the strings at most one, or k, edits apart.", "quantifier": "for all data, bounds on sizes, orders of iteration and of arrival, k", "why_tests_cant": "the tests use each key, block, distance and algorithm apart, on a few words, and an external distance", "anchors": ["fog/clustering/blocking.py:blocking", "fog/clustering/key_collision.py:key_collision", "fog/clustering/passjoin.py:passjoin", "fog/clustering/quickjoin.py:quickjoin", "fog/key/levenshtein.py:levenshtein_1d_blocks", "cfog/metrics/levenshtein.pyx:levenshtein_distance_lte1"]}
{"id": "C109", "title": "The similarities keep their laws in double precision", "statement": "With floats rounded to the nearest IEEE double after each operation, the similarities of fog/metrics remain between zero (minus one for cosines) and one, symmetric, equal to one on equal inputs, and within a few units in the last place of the exact value.", "quantifier": "for all sets, sequences and maps of weights, and all roundings to nearest (whatever is done with ties)", "why_tests_cant": "the tests compare a few values with an approximate equality; a value one unit above one, or a difference between both orders, only appears for some weights", "anchors": ["fog/metrics/jaccard.py:jaccard_similarity", "fog/metrics/jaccard.py:weighted_jaccard_similarity", "fog/metrics/dice.py:dice_coefficient", "fog/metrics/overlap.py:overlap_coefficient", "fog/metrics/cosine.py:sparse_cosine_similarity", "fog/metrics/cosine.py:cosine_similarity", "fog/metrics/cosine.py:sparse_binary_cosine_similarity"]}
{"id": "C110", "title": "all_pairs misses no pair because of rounding", "statement": "Computing with IEEE doubles, each operation rounded to nearest, ppjoin with all_pairs=True raises nothing, yields every pair of records whose exact similarity (Jaccard, Dice or binary cosine) reaches the threshold, and yields no pair whose exact similarity is below the threshold by more than 1e-6 and a rounding (at most 2^-50): EPSILON makes up for the roundings in the lengths of prefixes, the bounds on lengths and the overlap required.", "quantifier": "for all records of 1 to 2^26 distinct tokens, all thresholds which are doubles below one and at least 2e-6 (Jaccard), 4e-6 (Dice), or whose square is at least 2e-6 (binary cosine), all orderings of tokens without collision, all roundings to nearest", "why_tests_cant": "a prefix one token too short, or a bound rounded up to the next integer, only loses a pair when the exact number is an integer or next to one; the tests try one threshold on one small dataset", "anchors": ["fog/clustering/ppjoin.py:JaccardHelper", "fog/clustering/ppjoin.py:DiceHelper", "fog/clustering/ppjoin.py:BinaryCosineHelper", "fog/clustering/ppjoin.py:ppjoin"]}
{"id": "C111", "title": "quickjoin misses no pair because of rounding", "statement": "Computing with IEEE doubles, each operation rounded to nearest, quickjoin returns the connected components of the items at a computed distance of at most radius, as comparing all pairs would.", "quantifier": "for all data, radii, beta, pivots, block sizes, orders of arrival, all roundings to nearest", "why_tests_cant": "a pair is only lost when its distance is the radius up to a rounding and a pivot is placed so that the windows are rounded the wrong way", "anchors": ["fog/clustering/quickjoin.py:partition", "fog/clustering/quickjoin.py:quickjoin"]}
{"id": "C112", "title": "best matching scores are not spoiled by rounding", "statement": "Computing with IEEE doubles, each operation rounded to nearest, best_matching_macro_average returns scores between 0 and 1 which are those of the exact computation up to a few units in the last place per cluster, and exactly 1 when the clusters are the same.", "quantifier": "for all truth and predicted clusters of at most 2^24 items, all roundings to nearest", "why_tests_cant": "two candidates with the same F1 score may be rounded differently, and then precision and recall jump; the clusters which do so are not seen in fixtures", "anchors": ["fog/evaluation/best_matching.py:best_matching_macro_average", "fog/utils.py:OnlineMean"]}
{"id": "C113", "title": "floatsam sparsification is not held up by rounding", "statement": "Computing with IEEE doubles, floatsam_sparsification stops whenever it stops with exact numbers, at the last threshold before a component drifts away, and removes exactly the edges below that threshold.", "quantifier": "for all graphs, starting thresholds, learning rates, sizes, all roundings to nearest", "why_tests_cant": "the threshold only stops growing when the weights are about 2^53 times the learning rate, and the call then never returns", "anchors": ["fog/graph/sparsification.py:floatsam_sparsification"]}
{"id": "C114", "title": "minhash_similarity estimates the Jaccard similarity without bias", "statement": "Averaged over the random coefficients, minhash_similarity of the signatures of two items is their Jaccard similarity s, with variance s (1 - s) / h when the coefficients are drawn independently.", "quantifier": "for all pairs of items, sets of coefficients to draw from, numbers of coefficients and orders of iteration of the sets", "why_tests_cant": "a test sees a few seeds; a mean over all the coefficients, and the chance of being far from it, cannot be told from them", "anchors": ["fog/lsh/minhash.py:minhash_similarity", "fog/lsh/minhash.py:MinHash"]}
{"id": "C115", "title": "match_probability is the chance that two items meet in a band", "statement": "match_probability(h, bands, s) is the share of the coefficients for which two items, which agree on a share s of them, have the same key for one of the bands of minhash clustering.", "quantifier": "for all pairs of items, sets of coefficients to draw from, numbers of coefficients and of bands", "why_tests_cant": "it is a count over all the tuples of coefficients; tests see a few of them", "anchors": ["fog/clustering/minhash.py:match_probability", "fog/clustering/minhash.py:minhash"]}
{"id": "C116", "title": "quickjoin_join_pivots loses no pair to rounding", "statement": "Computing with doubles, quickjoin_join_pivots(S1, S2, distance, radius) yields exactly the pairs of S1 x S2 whose computed distance is at most radius, in order.", "quantifier": "for all lists, distances, radii and roundings to nearest", "why_tests_cant": "the filter loses a pair only for distances within an ulp of the radius, which random tests do not draw", "anchors": ["fog/clustering/quickjoin.py:quickjoin_join_pivots"]}
{"id": "C117", "title": "SuperMinHash estimates the Jaccard similarity without bias", "statement": "Averaged over the random numbers which follow rng.seed(token), minhash_similarity of the SuperMinHash signatures of two sequences is the Jaccard similarity of their tokens.", "quantifier": "for all pairs of sequences, hashes, h, orders of iteration of the sets; over all generators giving h numbers among 0, 1/N, ... to each token", "why_tests_cant": "it is a mean over all generators; a test sees the one of Python, and small sequences, on which the bias is small", "anchors": ["fog/lsh/minhash.py:SuperMinHash", "fog/lsh/minhash.py:minhash_similarity"]}
{"id": "C118", "title": "lsb_minhash_similarity estimates the Jaccard similarity without bias", "statement": "Averaged over the random coefficients of LSBMinHash, lsb_minhash_similarity of the signatures of two sequences is their Jaccard similarity.", "quantifier": "for all pairs of sequences, sets of coefficients to draw from, precisions and orders of iteration of the sets", "why_tests_cant": "it is a mean over all the sets of coefficients; a test sees a few seeds and cannot tell a mean from them", "anchors": ["fog/lsh/minhash.py:lsb_minhash_similarity", "fog/lsh/minhash.py:LSBMinHash"]}
{"id": "C119", "title": "quickjoin ends with probability one on different items", "statement": "For a metric, different items, a block size of at least two and 0 < beta <= 1, the share of the drawings of pivots for which quickjoin is not over after s turns of its loop goes to zero as s grows, and the number of turns has a finite mean.", "quantifier": "for all metrics, lists of different items, radiuses, block sizes from two on, betas, and numbers of turns", "why_tests_cant": "a test draws some pivots; it cannot tell an end for almost every drawing from an end for every drawing, and some drawings never end", "anchors": ["fog/clustering/quickjoin.py:quickjoin"]}
{"id": "C120", "title": "simhash_similarity of sequences with nothing in common is one half in the mean", "statement": "Averaged over hash functions whose bits are all as likely, simhash_similarity of the simhashes of two sequences with no token in common is one half, as for vectors at a right angle.", "quantifier": "for all pairs of sequences with no token in common and all widths which simhash accepts", "why_tests_cant": "it is a mean over all the hash functions; a test has one hash function", "anchors": ["fog/lsh/simhash.py:simhash", "fog/lsh/simhash.py:simhash_similarity"]}
{"id": "C121", "title": "nn_descent ends with probability one when there are more items than neighbors to look for", "statement": "When k is less than the number N of items and the indices drawn are all as likely, drawing the first neighbors takes in the mean N * (N/(N-1) + ... + N/(N-k)) draws, and the share of the drawings for which nn_descent (or nn_descent_full, when k and delta are positive) is not over after s draws goes to zero as s grows.", "quantifier": "for all lists of items, similarities, k less than the number of items, and numbers of draws", "why_tests_cant": "a test draws some indices; it cannot tell an end for almost every drawing from an end for every drawing, and some drawings never end", "anchors": ["fog/clustering/nn_descent.py:nn_descent", "fog/clustering/nn_descent.py:nn_descent_full", "fog/clustering/nn_descent.py:sample"]}
{"id": "C122", "title": "The constructors of MinHash and LSBMinHash draw their coefficients uniformly, and end with probability one", "statement": "When the pairs drawn are all as likely and there are c of them, the share of the drawings for which the loop of the constructor is not over after s draws is at most (c/c + c/(c-1) + ... + c/(c-h+1)) / s; when it is over, all sets of h coefficients are as likely, so that the mean of minhash_similarity over the drawings is exactly the share of the pairs on which the two items agree.", "quantifier": "for all sets of pairs to draw from, numbers of coefficients, numbers of draws, orders of iteration of the sets and pairs of items", "why_tests_cant": "it is about the shares of all the drawings; a test sees a few seeds", "anchors": ["fog/lsh/minhash.py:MinHash", "fog/lsh/minhash.py:LSBMinHash", "fog/lsh/minhash.py:minhash_similarity", "fog/lsh/minhash.py:lsb_minhash_similarity"]}
{"id": "C123", "title": "A threshold written as a fraction is not spoiled by rounding", "statement": "With doubles, comparing a computed similarity with the double nearest to a / b decides whether the exact similarity is at least a / b: for jaccard_similarity, dice_coefficient, overlap_coefficient, minhash_similarity, lsb_minhash_similarity and simhash_similarity, and so for the clusters of intersection_index and minhash, when sizes times b are below 2 ** 53.", "quantifier": "for all collections, fractions between zero and one and roundings to nearest", "why_tests_cant": "only similarities within an ulp of the threshold can be wrong, and there are too many fractions to try", "anchors": ["fog/clustering/intersection_index.py:intersection_index", "fog/clustering/minhash.py:minhash", "fog/metrics/jaccard.py:jaccard_similarity", "fog/metrics/dice.py:dice_coefficient", "fog/metrics/overlap.py:overlap_coefficient", "fog/lsh/minhash.py:minhash_similarity", "fog/lsh/minhash.py:lsb_minhash_similarity", "fog/lsh/simhash.py:simhash_similarity"]}
{"id": "C124", "title": "Both monopartite projections agree in double precision", "statement": "With doubles, monopartite_projection returns the same nodes and the same weighted edges with and without use_topology, and never fails; with set metrics the weights are the exact similarities rounded and, given the double nearest to a fraction as threshold, the edges are those of the exact projection.", "quantifier": "for all bipartite graphs, weights, thresholds, orders of nodes and roundings to nearest", "why_tests_cant": "sums of floats depend on the order of terms by an ulp, which shows only with a threshold between two sums", "anchors": ["fog/graph/projection.py:monopartite_projection", "fog/graph/projection.py:compute_metric", "fog/metrics/cosine.py:sparse_dot_product"]}
{"id": "C125", "title": "fog cluster groups exactly the values which are written with the same words", "statement": "Given its defaults and choices, fog cluster writes one report, which a TOML reader reads when no value has a backslash or a control character other than a newline, where two different values of the column are in the same cluster exactly when one can be turned into the other by changes of case, accents, punctuation, white space, order and repetition of words, and they have a letter or a digit; it raises an AttributeError on an empty file, a ValueError when no header is the column and an IndexError when a row has no such cell, and nothing else. After fog transform with fingerprint, fog cluster finds no cluster and the same transformation changes nothing. fog help and fog alone print the help only.", "quantifier": "for all CSV contents, columns, clocks and transliteration tables which work character by character", "why_tests_cant": "All files, all texts and all sequences of changes.", "anchors": ["fog/cli/__main__.py:main", "fog/cli/cluster.py:cluster_action", "fog/cli/transform.py:transform_action", "fog/key/fingerprint.py:FingerprintingKeyer"]}
{"id": "C126", "title": "The number of bands guessed in double precision is that of exact numbers, up to a slack", "statement": "guess_bands computed with doubles and a faithful power returns a number of bands between those of exact numbers for the thresholds multiplied by exp(d) and exp(-d), where d = (6 + 4 log h) / 2^53, and the same number unless the threshold is that close to the threshold of a number of bands; it is 20 for the defaults. It is at most h exactly when the threshold is at least the double 1/h, so that minhash without a number of bands clusters as with exact numbers and the guessed bands when the radius is at least 1/h, and raises a ValueError on data otherwise.", "quantifier": "for all roundings to nearest, all faithful powers, all h up to 2^53, all thresholds, all data", "why_tests_cant": "The power is that of the C library of the machine, and the thresholds are all doubles.", "anchors": ["fog/clustering/minhash.py:guess_bands", "fog/clustering/minhash.py:similarity_threshold", "fog/clustering/minhash.py:minhash"]}
{"id": "C127", "title": "ppjoin and ppjoin_plus lose no further pair to rounding", "statement": "Computed with doubles, ppjoin and ppjoin_plus raise nothing and yield a pair at most once, only when its similarity reaches the threshold up to EPSILON and roundings; among the pairs whose similarity reaches it, they yield those whose required overlap is at most the greater size minus one, and none of those for which it is greater by more than 2e-6: those lost with exact numbers. The tests of positions are not changed by roundings.", "quantifier": "for all roundings to nearest, all thresholds which are doubles below one and not too small, all records of 1 to 2^26 tokens, all token orderings, the three metrics", "why_tests_cant": "All thresholds, all sizes and all ways to round ties.", "anchors": ["fog/clustering/ppjoin.py:ppjoin", "fog/clustering/ppjoin.py:ppjoin_plus"]}
{"id": "C128", "title": "WordTokenizer from its arguments to its tokens", "statement": "A WordTokenizer is made exactly when keep and drop are not both given, the minimum length is less than the maximum, and only existing token types are named; otherwise a TypeError is raised. Then it tokenizes every text without raising: the text is unescaped, transliterated and reduced as asked for, cut into typed pieces in order, and the pieces which the arguments let through are given, rewritten as asked for; the shortcut taken without options on tokens gives the same. Transliterated texts give ASCII tokens; an empty keep gives nothing.", "quantifier": "all arguments, all texts", "why_tests_cant": "All combinations of fourteen arguments and all texts.", "anchors": ["fog/tokenizers/words.py:WordTokenizer", "fog/tokenizers/words.py:validate_token_types"]}
{"id": "C129", "title": "reduce_words leaves no long run of a letter", "statement": "With reduce_words, no token has a letter five times in a row.", "quantifier": "all arguments, all texts", "why_tests_cant": "All combinations of options and all texts.", "anchors": ["fog/tokenizers/words.py:WordTokenizer", "fog/tokenizers/words.py:reduce_lenghtening"]}
{"id": "C130", "title": "OnlineMean in double precision", "statement": "In double precision, after additions, removals and merges of floats, OnlineMean reports the mean of the values held up to a relative error proportional to the number of operations and to the absolute values of everything which was added or removed; with whole numbers whose absolute values sum to at most 2^53 it is the mean rounded once, whatever the order of the operations; it raises when nothing is held. The mean of equal floats may be another float, and values removed can erase the ones which are left.", "quantifier": "all sequences of at most 2^51 operations, all roundings to nearest", "why_tests_cant": "All histories and all doubles, and the errors which accumulate.", "anchors": ["fog/utils.py:OnlineMean"]}
{"id": "C131", "title": "sparse_normalize in double precision", "statement": "A vector with whole weights whose squares sum to at most 2^53 is normalized in double precision with a relative error of at most 3/2^53 on each weight, no weight above one, and a sum of squares within 7/2^53 of one; a zero vector gives an empty one. The dot product computed from two normalized vectors is the cosine of the vectors, and the result of sparse_cosine_similarity, up to an error proportional to the number of keys of the smaller one. The dot product is not symmetric when the keys are in different orders.", "quantifier": "all vectors with whole weights, all roundings to nearest", "why_tests_cant": "All vectors, and rounding errors which accumulate.", "anchors": ["fog/metrics/cosine.py:sparse_norm", "fog/metrics/cosine.py:sparse_normalize", "fog/metrics/cosine.py:sparse_dot_product"]}
{"id": "C132", "title": "match_probability in double precision", "statement": "Computed in double precision, match_probability(h, bands, s) lies in [0, 1], is 0 at 0 and 1 at 1, is within (5 bands + 3) / 2^54 of the exact value, and grows with s if the power of the C library does. When the chance that a band is equal is at most 2^-55, zero is computed however many bands there are.", "quantifier": "all h, all bands up to 2^53, all doubles from 0 to 1, all roundings to nearest", "why_tests_cant": "All parameters and all doubles.", "anchors": ["fog/clustering/minhash.py:match_probability"]}
{"id": "C133", "title": "What fog split and fog transform leave behind when they raise", "statement": "When fog split or fog transform raises, the rows already written are exactly those it writes from the file cut before the first row on which it raises, and none if it raises before the headers are written; when it does not raise, everything is written.", "quantifier": "all arguments, all files", "why_tests_cant": "All files and all positions of the row at fault.", "anchors": ["fog/cli/split.py:split_action", "fog/cli/transform.py:transform_action"]}
{"id": "C134", "title": "When ppjoin, ppjoin_plus and all_pairs raise", "statement": "For any threshold t (other than two for Dice, not negative for the binary cosine) and with a tokenizer or a token ordering other than the frequencies, ppjoin, ppjoin_plus and all_pairs raise an IndexError exactly when u*l <= 0.000001 for some record of l tokens, where u is t for Jaccard, t/(2-t) for Dice and t*t for the binary cosine, and they have then yielded nothing. When they do not raise, they yield nothing if t >= 1, and all_pairs yields every similar pair if t < 1.", "quantifier": "all thresholds (other than two for Dice, not negative for the binary cosine), all lists of records, all token orderings whose hash tells the tokens apart", "why_tests_cant": "All thresholds and records; a threshold of 0.001 already raises for the cosine when a record has a single token.", "anchors": ["fog/clustering/ppjoin.py:ppjoin", "fog/clustering/ppjoin.py:all_pairs", "fog/clustering/ppjoin.py:ppjoin_plus", "fog/clustering/ppjoin.py:preprocess"]}
{"id": "C135", "title": "Numbers computed from the number of items, in double precision", "statement": "The default number of neighbours of nn_descent is the integer part of the logarithm of the number of items below 2^46 items, the default number of pivots of laesa is that logarithm rounded up to 2^45 items, and the number of leaders of sqrt_indexation_pairs is the integer square root below 2^52 vectors, though math.log2 and math.sqrt are rounded: no result is off by one.", "quantifier": "all numbers of items below these bounds, all roundings to a nearest double, all logarithms which are off by less than a unit in the last place", "why_tests_cant": "The numbers at risk are those next to powers of two and to squares, up to 2^52.", "anchors": ["fog/clustering/nn_descent.py:nn_descent", "fog/clustering/nn_descent.py:nn_descent_full", "fog/clustering/laesa.py:laesa", "fog/clustering/fagin.py:sqrt_indexation_pairs"]}
{"id": "C136", "title": "Which tokens crc32 tells apart", "statement": "crc32 gives integers below 2^32. Tokens that differ in one character only, encoded in as many bytes, have different values, and so do ASCII tokens that differ in at most four consecutive characters, whatever their length: ppjoin with the crc32 ordering is exact on ASCII n-grams of at most four characters. Words may have the same value, and then all_pairs with the crc32 ordering yields records with nothing in common, and their minhash signatures are the same whatever the coefficients.", "quantifier": "all strings without surrogates", "why_tests_cant": "All pairs of strings of all lengths; a collision has one chance in four billions to be met by a random test.", "anchors": ["fog/lsh/utils.py:crc32", "fog/clustering/ppjoin.py:preprocess", "fog/lsh/minhash.py:MinHash"]}
{"id": "C137", "title": "nn_descent_full in double precision", "statement": "With the default rho and delta, fewer than 2^46 items and at most 2^52 neighbours in all, nn_descent_full computed in double precision samples as many neighbours, makes as many turns and gives the same clusters as with exact numbers, though 0.001 is not a double. With any other rho and delta it gives what exact numbers give for some rho and some delta of the same sign, so it is as sound and ends as surely; but rho * k may fall below the integer it should be: with 0.29 and 100 neighbours, 28 are sampled, not 29.", "quantifier": "all lists of items, similarities, numbers of neighbours, random draws, iteration orders of sets, roundings to a nearest double, logarithms off by less than a unit in the last place", "why_tests_cant": "The numbers at risk are the products of items and neighbours that are multiples of a thousand; no test can try them all, and the number of turns is not visible in the clusters.", "anchors": ["fog/clustering/nn_descent.py:nn_descent_full"]}
{"id": "C138", "title": "Population counts and powers of two on integers of any sign and size", "statement": "popcount16, popcount32 and popcount64 count the one bits among the 16, 32 and 64 lowest bits of the two's complement of any integer, popcount counts the one bits of its absolute value, and is_power_of_two is zero, hence false, exactly on zero and on powers of two.", "quantifier": "all integers", "why_tests_cant": "Tests try a few positive integers of the width of the variant; the masks and the sign extension matter on all others.", "anchors": ["fog/lsh/utils.py:popcount", "fog/lsh/utils.py:popcount16", "fog/lsh/utils.py:popcount32", "fog/lsh/utils.py:popcount64", "fog/lsh/utils.py:is_power_of_two"]}
{"id": "C139", "title": "laesa in double precision", "statement": "Computing with IEEE doubles, each operation rounded to nearest, laesa raises exactly when it does with exact numbers; its clusters are the components of the pairs within the radius which no pivot tells apart by a rounded difference above the distance of the first item to its nearest pivot, and no pair kept by the exact filter is lost for the same pivots; each pivot has the greatest rounded sum of distances; with integer distances whose sums over the pivots are at most 2^53 the result is that of exact numbers.", "quantifier": "all data of at most 2^45 items, distances which are doubles and positive between different items, radii, numbers of pivots, drawn indices, orders of sets, bounds on sizes, roundings to nearest, base 2 logarithms right up to monotonicity", "why_tests_cant": "Rounding differences only show on particular distances, and the pivots depend on the random draw; tests try a few integers.", "anchors": ["fog/clustering/laesa.py:pivot_selection", "fog/clustering/laesa.py:laesa"]}
{"id": "C140", "title": "SuperMinHash in double precision", "statement": "Computing with IEEE doubles, each operation rounded to nearest, SuperMinHash(h=m).create_signature raises nothing, and its signature holds at each position the least rank given by the shuffles of the tokens, whatever the order of the set of tokens.", "quantifier": "all numbers of integers from 1 to 2^53, sequences, hashes, orders of sets, random numbers which are multiples of 2^-53 from 0 to 1 (excluded), roundings to nearest", "why_tests_cant": "A sum is rounded up to the next integer for a few random numbers among 2^53, which no test will draw; and only then does the histogram of the levels disagree with the values.", "anchors": ["fog/lsh/minhash.py:SuperMinHash"]}
{"id": "C141", "title": "The threshold algorithm and the square root indexation in double precision", "statement": "Computing with IEEE doubles, each operation rounded to nearest, threshold_algorithm_k1 ends without raising and its answers are those of the algorithm for the cosines which are computed; sqrt_indexation_pairs raises nothing, and the leader of a vector is the first of those whose rounded distance is least, so that when the similarities are from 0 to 1 no leader is more similar by more than 2^-53.", "quantifier": "all lists of vectors of weights at least 2^-255 (less than 2^52 vectors for the indexation), shuffles, roundings to nearest", "why_tests_cant": "Underflow and ties made by rounding only show for weights far apart, which tests do not use.", "anchors": ["fog/clustering/fagin.py:threshold_algorithm_k1", "fog/clustering/fagin.py:sqrt_indexation_pairs"]}
{"id": "C142", "title": "minhash_similarity with numpy estimates the Jaccard similarity", "statement": "With use_numpy=True, the mean of minhash_similarity over the coefficients which the constructor may draw is the Jaccard similarity of the two sequences.", "quantifier": "all pairs of sequences of tokens and numbers of coefficients", "why_tests_cant": "The mean is over about 2^64 pairs of coefficients for each position; the defect only shows for tokens which differ by a multiple of a large power of two.", "anchors": ["fog/lsh/minhash.py:MinHash", "fog/lsh/minhash.py:minhash_similarity"]}
{"id": "C143", "title": "minhash clustering with numpy", "statement": "With use_numpy=True, the clusters of minhash are exactly the connected components, of two items or more, of the relation between items whose signatures agree on a band and whose Jaccard index is at least the radius; items with the same tokens are always together; it raises exactly when bands is zero or when some data is given more bands than integers in a signature; two items agree on a band with the chance 1 - (1 - s^(h // bands))^bands, s being the share of the coefficients on which they agree.", "quantifier": "all data, keys, radii, numbers of bands and coefficients", "why_tests_cant": "A test runs a few seeds; the statement is about all the coefficients, and the chance is over about 2^64 pairs of them for each position.", "anchors": ["fog/clustering/minhash.py:minhash", "fog/lsh/minhash.py:MinHash"]}
{"id": "C144", "title": "The default size of floatsam_sparsification and the sizes of ngram_keys, in double precision", "statement": "With fewer than 2^46 nodes, the default max_drifter_size of floatsam_sparsification is the integer part of the logarithm of the number of nodes, though math.log is rounded; with 214643579785916 nodes it is one more. Computing with doubles, ngram_keys with the default threshold gives the keys of exact numbers; with the threshold a / b it gives them too when b does not divide k * a, k being the number of grams, and otherwise it loses none but may add the selections of one gram less, as with 0.29 and 100 grams.", "quantifier": "all graphs, all strings and sizes of grams, all fractions up to one as thresholds, all roundings to a nearest double, all logarithms off by less than a unit in the last place", "why_tests_cant": "Whether a rounded logarithm crosses an integer depends on each number of nodes up to 2^46; whether a rounded product does, on each number of grams and threshold.", "anchors": ["fog/graph/sparsification.py:floatsam_sparsification", "fog/key/misc.py:ngram_keys"]}
{"id": "C145", "title": "The number of comparisons of pairwise clustering", "statement": "As the documentation says, pairwise_fuzzy_clusters calls the similarity n(n-1)/2 times, once per pair of items, in one process or over all of them, and pairwise_leader and pairwise_connected_components call it O(n(c-1)/2) times, n being the number of items and c the number of clusters.", "quantifier": "all lists of items, all similarities, all chunk sizes, all union-find structures which work", "why_tests_cant": "A test checks the clusters, which stay the same when comparisons are added or repeated; which pairs are compared depends on the order of all the items and on all the answers before.", "anchors": ["fog/clustering/pairwise.py:pairwise_leader", "fog/clustering/pairwise.py:pairwise_worker", "fog/clustering/pairwise.py:pairwise_fuzzy_clusters", "fog/clustering/pairwise.py:pairwise_connected_components"]}
{"id": "C146", "title": "crc32 is CRC-32", "statement": "crc32(x) is the CRC-32 of IEEE 802.3 of the UTF-8 encoding of x: the complemented remainder by the generator of degree 32, over the field with two elements, of the message followed by 32 zeros and whose first 32 bits are complemented, bits being sent from the lowest one of each byte; no other integer is.", "quantifier": "all strings without surrogates", "why_tests_cant": "A test compares a few strings with known values; that a loop over bits computes a remainder of polynomials is a statement about all lengths.", "anchors": ["fog/lsh/utils.py:crc32"]}
{"id": "C147", "title": "The number of distances computed by passjoin", "statement": "As its documentation says, passjoin is better than comparing all pairs: on different strings it computes the distance at most n(n-1)/2 times, never between strings whose lengths differ by more than k, and never between two strings of at most k characters.", "quantifier": "all lists of different strings, all thresholds, all distances, sorted or not", "why_tests_cant": "A test checks the clusters, which do not show how many times a pair is a candidate; this depends on all pieces of all strings.", "anchors": ["fog/clustering/passjoin.py:passjoin", "fog/clustering/passjoin.py:multi_match_aware_substrings"]}
{"id": "C148", "title": "The number of comparisons of blocking", "statement": "blocking compares a pair of items once at most, however many blocks they share: pairs found to be similar are put in a graph and skipped. With one block per item it makes at most n(n-1)/2 comparisons.", "quantifier": "all data, blocks, similarities, orders of iteration of sets, numbers of processes", "why_tests_cant": "A test checks the clusters, which do not show how many times a pair is compared.", "anchors": ["fog/clustering/blocking.py:block_worker", "fog/clustering/blocking.py:blocking"]}
{"id": "C149", "title": "The number of comparisons of sorted_neighborhood", "statement": "For each key, sorted_neighborhood compares once each two positions of the sorted data which are less than window apart, and no others: (n-1) + (n-2) + ... + (n-window+1) comparisons, hence at most window-1 per item, and never more than n(n-1)/2.", "quantifier": "all data, keys, similarities, windows; lists and iterators", "why_tests_cant": "A test checks the clusters, which do not show how many times items are compared.", "anchors": ["fog/clustering/sorted_neighborhood.py:sorted_neighborhood"]}
{"id": "C150", "title": "The number of distances computed by laesa, and the number it prints", "statement": "laesa prints the number of distances it has computed, and this number is at most n(n-1)/2: no more than comparing all pairs.", "quantifier": "all data, distances, radii, numbers of pivots, first pivots drawn", "why_tests_cant": "The number depends on all distances to all pivots; a test of the clusters does not show it.", "anchors": ["fog/clustering/laesa.py:laesa", "fog/clustering/laesa.py:pivot_selection"]}
{"id": "C151", "title": "The number of increments and quotients of intersection_index", "statement": "As its documentation says, intersection_index runs in subquadratic time: the less two items share tokens, the fewer steps it makes. It makes fewer than n(n-1)/2 increments of its counters, and computes a quotient only for items which share a token.", "quantifier": "all items, orders of iteration of sets", "why_tests_cant": "A test checks the clusters, which do not show how many steps are made; these depend on all pairs of items.", "anchors": ["fog/clustering/intersection_index.py:intersection_index"]}
{"id": "C152", "title": "The number of keys computed by hashjoin", "statement": "As a hash join does, hashjoin computes the key of each item of both sides once: n + m keys for lists of n and m items.", "quantifier": "all lists, key functions", "why_tests_cant": "A test checks the pairs, which do not show how many keys are computed.", "anchors": ["fog/join/hashjoin.py:hashjoin"]}
{"id": "C153", "title": "The tables of quickjoin_join_pivots, and the number of distances it computes", "statement": "The flat lists P and D of quickjoin_join_pivots are read where the distances to the pivots were written, and, since it prunes with pivots, it computes at most as many distances as there are pairs.", "quantifier": "all lists, distances and radii", "why_tests_cant": "A wrong index in P only shows for lists with several pivots, that is 16 items or more, and the pairs do not show how many distances are computed.", "anchors": ["fog/clustering/quickjoin.py:quickjoin_join_pivots"]}
{"id": "C154", "title": "The number of comparisons of adaptive_sorted_neighborhood", "statement": "A pass of adaptive_sorted_neighborhood compares no two items twice: it makes at most as many comparisons as there are pairs of items.", "quantifier": "all data, similarity functions and windows of at least two", "why_tests_cant": "The clusters do not show how many comparisons were made, and the windows depend on all answers of the similarity.", "anchors": ["fog/clustering/sorted_neighborhood.py:full_AA_SNM", "fog/clustering/sorted_neighborhood.py:adaptive_sorted_neighborhood"]}
{"id": "C155", "title": "The number of similarities computed by minhash clustering", "statement": "As its documentation says (it runs in O(nh)), minhash computes a number of similarities which is linear in the number of items, and never compares two items twice.", "quantifier": "all data, keys, coefficients and numbers of bands", "why_tests_cant": "The clusters do not show how many similarities are computed, nor that a pair is compared again for each band.", "anchors": ["fog/clustering/minhash.py:minhash", "fog/clustering/utils.py:clusters_from_buckets"]}
{"id": "C156", "title": "quickjoin with a vantage point tree when equal items are different objects", "statement": "quickjoin_self_vptree, which orders the two items of a pair by id(), loses no pair of different values when equal items are different objects.", "quantifier": "all lists of objects, identities, symmetric distances and radii", "why_tests_cant": "Identities depend on memory; a test cannot choose them.", "anchors": ["fog/clustering/quickjoin.py:quickjoin_self_vptree"]}
{"id": "C157", "title": "What key_collision appends and merges", "statement": "As its documentation says (it runs in O(n)), key_collision does an amount of work which is linear in the number of items and keys: items appended to buckets, and pairs read to merge them.", "quantifier": "all data and key functions", "why_tests_cant": "The clusters do not show how many pairs were read to make them.", "anchors": ["fog/clustering/key_collision.py:key_collision", "fog/clustering/utils.py:pairs_from_buckets"]}
{"id": "C158", "title": "How many times vp_tree queries its tree", "statement": "As its documentation says, vp_tree queries the tree once per item.", "quantifier": "all data, sizes and answers of the tree", "why_tests_cant": "The clusters do not show how many queries were made.", "anchors": ["fog/clustering/vp_tree.py:vp_tree"]}
{"id": "C159", "title": "How many lookups the set metrics make", "statement": "jaccard_similarity, dice_coefficient, overlap_coefficient and intersection_size look up each element of the smaller set once, and nothing else.", "quantifier": "all collections A and B which are not the same object", "why_tests_cant": "The results do not show how many lookups were made: without the swap they are the same.", "anchors": ["fog/metrics/jaccard.py:jaccard_similarity", "fog/metrics/dice.py:dice_coefficient", "fog/metrics/overlap.py:overlap_coefficient", "fog/metrics/utils.py:intersection_size"]}
{"id": "C160", "title": "How many steps the metrics of weighted sets make", "statement": "weighted_jaccard_similarity and sparse_cosine_similarity make as many steps as the sum of the sizes, sparse_binary_cosine_similarity and sparse_dot_product as many as the size of the smaller set, as their documentation says.", "quantifier": "all weighted sets A and B which are not the same object", "why_tests_cant": "The results do not show how many steps were made: without the swap they are the same.", "anchors": ["fog/metrics/jaccard.py:weighted_jaccard_similarity", "fog/metrics/cosine.py:sparse_cosine_similarity", "fog/metrics/cosine.py:sparse_binary_cosine_similarity", "fog/metrics/cosine.py:sparse_dot_product"]}
{"id": "C161", "title": "How many steps the predicates on distances make", "statement": "As documented, levenshtein_distance_lte1 and damerau_levenshtein_distance_lte1 are linear in the length of the shortest string: their loops turn at most once more than its length.", "quantifier": "all strings", "why_tests_cant": "The answers do not show how many steps were made.", "anchors": ["cfog/metrics/levenshtein.pyx:levenshtein_distance_lte1", "cfog/metrics/levenshtein.pyx:damerau_levenshtein_distance_lte1"]}
{"id": "C162", "title": "How many cells levenshtein_distance computes", "statement": "As documented, levenshtein_distance runs in O(mn): its inner loop turns at most len(A) * len(B) times; what both strings begin and end with costs no turn.", "quantifier": "all strings", "why_tests_cant": "The distances do not show how many cells were computed.", "anchors": ["cfog/metrics/levenshtein.pyx:levenshtein_distance"]}
{"id": "C163", "title": "How many cells limited_levenshtein_distance computes", "statement": "limited_levenshtein_distance computes at most 2 * max_distance + 1 cells, less the difference of the lengths, for each character of the shortest string, and none when the difference of the lengths is above the limit.", "quantifier": "all strings and limits", "why_tests_cant": "The distances do not show how many cells were computed: they are the same without the band.", "anchors": ["cfog/metrics/levenshtein.pyx:limited_levenshtein_distance"]}
{"id": "C164", "title": "The number of distances computed by quickjoin", "statement": "As its header says, quickjoin partitions the data to reduce the amount of necessary distance computations: it computes at most as many distances as comparing all pairs, n(n - 1)/2.", "quantifier": "all data, distances, radiuses, pivots, betas and sizes of blocks for which quickjoin ends", "why_tests_cant": "The clusters do not show how many distances were computed, and the pivots are drawn at random.", "anchors": ["fog/clustering/quickjoin.py:quickjoin", "fog/clustering/quickjoin.py:partition", "fog/clustering/quickjoin.py:quickjoin_bruteforce", "fog/clustering/quickjoin.py:quickjoin_self_bruteforce"]}
{"id": "C165", "title": "The metrics computed by monopartite_projection", "statement": "With use_topology, as documented, monopartite_projection only computes the metrics of pairs of nodes which share a neighbor, in one order only. Without it, it computes exactly once the metric of each pair of nodes of the part which have neighbors (for the cosine: at least of those which have an edge whose weight is not zero), l(l - 1)/2 of them.", "quantifier": "all graphs, parts, metrics and thresholds for which the function ends", "why_tests_cant": "The projection does not show which metrics were computed, since most of them are zero or under the threshold.", "anchors": ["fog/graph/projection.py:monopartite_projection", "fog/graph/projection.py:compute_metric"]}
