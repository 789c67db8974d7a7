# A machine-checked model of fog

The Lean project in `lean/` models the Python (and Cython) code of the
repository, function by function, and proves the properties of
`properties.jsonl` about that model.  `MANIFEST.json` says which theorem stands
for which property.

## Layout

* `Verif/Spec/*.lean`: specifications, written without looking at the code:
  edit distance, connectivity, set similarity, ...  They never import a model.
* `Verif/Model/*.lean`: the model, one file per source file.  Every definition
  cites the file and the lines it models and says where it simplifies.
* `Verif/Lemmas/*.lean`: helper lemmas.
* `Verif/Props/*.lean`: the theorems of the manifest, each with an `example`
  that its hypotheses can be met, or with a witness when the property is false.

## Modelling conventions

* A Python string is a `List Char` (or a list over an arbitrary alphabet with
  decidable equality when the code only compares characters).
* A loop becomes a fold, a structural recursion, or a recursion on fuel.
  A loop that may diverge returns `none` when it runs out of fuel and
  termination is a separate theorem about the fuel.
* A raised exception is a value (`Except Err`).  Indexing out of range is
  `Err.indexError`, a missing key is `Err.keyError`, and so on.
* `A is B` is a Boolean parameter, because identity is not a function of the
  values.
* A generator is the list of what it yields (and how it ends: normally, by an
  exception, or never).
* Iteration over a `dict` follows insertion order.  Iteration over a `set` is a
  list in an order which the theorem quantifies over.
* Floats are rationals (reals where a square root is taken).  Rounding is not
  modelled.
* What belongs to another library is a parameter with the assumption stated in
  the theorem: `unidecode`, `UnionFind`, `VPTree`, the random generator,
  `crc32`, `md5`, multiprocessing pools (any order of results), networkx graphs.

## Trusted base

* Lean 4.33.0's kernel and the axioms `propext`, `Classical.choice` and
  `Quot.sound`.  The axioms of each theorem are listed at the end of this file.
* The reading of the Python source into the model: nothing but review ties the
  two.
* Numbers are exact (rationals, elements of an ordered field or reals) in the
  models, but in `MetricsFloat`, `NormalizeFloat`, `PpjoinFloat`, `QuickjoinFloat`,
`BestMatchingFloat` and `SparsificationFloat`, where each operation is
  followed by a rounding to nearest double (`Spec.IsRounding`: any function to
  the 53-bit doubles such that no double is nearer; overflow is left out).
* Not modelled: rounding of floats elsewhere, memory (but for the arrays of the
  compiled distances), speed,
  multiprocessing beyond the order of results, progress bars,
  experiments and scripts outside `fog/` and `cfog/`.

## Plan per property

Written before the proofs.  A property already seen to be false when reading
the code gets a proof of its negation with a witness and a `_partial` theorem.

| id | model | how it is proved |
|----|-------|------------------|
| C01 | `levenshtein_distance`: swap, trimming, one-character shortcut, single row DP with 16-bit codes | False: the shortcut looks in the untrimmed string ("aa","ab" gives 0), and codes collide modulo 65536. Negation by computation; partial: exact when the shortcut does not apply (trimmed length is not 1, or the character is not in the trimmed part) and characters are below 65536, by a DP row invariant against a recursive edit distance. |
| C02 | `limited_levenshtein_distance`: banded DP with early exit | False beyond 16 bits. Partial: band invariant (cells are upper bounds, exact when cheap enough to matter). |
| C03 | `levenshtein_distance_lte1` | loop invariants, both directions. |
| C04 | `damerau_levenshtein_distance_lte1` | same, against an inductive "one edit" relation. |
| C05 | `levenshtein_1d_keys` | case analysis on the kind of key, position of the flag. |
| C06 | same | False: no key is made between two equal letters ("aa","aba"). Partial: complete unless the insertion falls strictly between two equal letters. |
| C07 | same with transpositions | False: two swaps meet ("bacd","abdc"). Partial: collisions imply at most two swaps; completeness as C06. |
| C08, C09 | `levenshtein_1d_blocks` | case analysis on parity and edit position. |
| C10 | `levenshtein_2d_blocks` | False: insertion and deletion around the middle; the empty string raises with transpositions. Partial: two substitutions, or edits of one direction. |
| C11 | `ngram_keys` with itertools.combinations | membership of combinations is the sublist relation. |
| C12 | `clusters_from_pairs` | graph search invariant; components are the classes of the generated equivalence. |
| C13 | same | from C12: the classes only depend on the set of unordered pairs. |
| C14 | same, fuzzy mode | invariant; uniqueness inside a cluster is false for repeated pairs, partial under distinct pairs or `fuzzy=True`. |
| C15 | `upper_triangular_matrix_chunk_iter`, `pairwise_worker` | arithmetic on chunk indices. |
| C16 | `pairwise_connected_components` | union-find as an abstract partition; C15. |
| C17 | `pairwise_leader` | False: `visited.delete` raises; partial without max_size. |
| C18 | `pairwise_fuzzy_clusters` | False: witness with six items; partial: same neighbourhoods. |
| C19, C20 | `key_collision` | dictionary of lists; C20 false, merging drops the bounds; partial for default bounds. |
| C21 | `blocking` | C12, C13 on the pairs produced. |
| C22 | `intersection_index` | counting invariant of the inverted index. |
| C23 | `sorted_neighborhood` | window arithmetic; one-shot iterators false with several keys. |
| C24 | `full_AA_SNM` | False: reads past the end; loops for window 1. Partial: blocks tile the data when no exception is raised. |
| C25 | `partition`, `segments` | arithmetic. |
| C26 | `passjoin` | alignment splits along segments; pigeonhole with the multi-match-aware interval. |
| C27 | `passjoin` in both modes | False in fuzzy mode, where the number of times a string is listed is given; exact in component mode. |
| C28 | `quickjoin` with pivots from an oracle | stack invariant, triangle inequality. |
| C29 | same with negated similarity | False: witness. |
| C30 | same | False: identical items; proof that no fuel suffices. |
| C31-C33 | `ppjoin` over rationals | merge invariant for overlaps; prefix filter theorem; witnesses for C33. |
| C34 | `MinHash.create_signature` | fold of min. |
| C35, C36 | `minhash`, `guess_bands` | C12 on buckets; C36 false: h+1 bands. |
| C37 | popcounts | field-wise arithmetic on 64-bit words, table by strong induction. |
| C38 | `simhash` | histogram invariant. |
| C39-C41 | metrics | counting, sums, Cauchy-Schwarz. |
| C42 | `nn_descent` | invariant of heaps for any random generator; termination false for k too large. |
| C43, C44 | evaluation | maxima over candidates; dictionary lemmas. |
| C45 | `hashjoin` with one-shot iterators | nested loops; false for one-shot iterators. |
| C46-C48 | graph | sums over common neighbours; search invariant; fuel. |
| C49-C54 | tokenizers and keys | list lemmas, automaton invariants. |
| C55, C56 | phonetics | invariants; witnesses. |
| C57, C58 | command line | witnesses and partials. |
| C59 | `OnlineMean` | algebra over rationals. |

| C60-C165 | added after the others, as the model grew | see the manifest |

## What is modelled

Each file of `Verif/Model` names the source file it models.

| source | model | left out |
|--------|-------|----------|
| `cfog/metrics/levenshtein.pyx` | `Levenshtein`, with lists and unbounded numbers; `LevenshteinMemory`, with arrays and 32 bits numbers; `Lte1Steps`, `LevenshteinCells`, `LimitedCells` | a failure of `malloc` |
| `fog/key/levenshtein.py` | `KeyLevenshtein` | |
| `fog/key/misc.py` | `KeyMisc`, `KeyMiscFloat` | |
| `fog/key/omission.py`, `skeleton.py` | `KeyLetters` | |
| `fog/key/fingerprint.py`, `fog/tokenizers/fingerprint.py` | `Fingerprint`, `Stopwords` | which characters are the same but for case |
| `fog/tokenizers/ngrams.py` | `Ngrams` |  |
| `fog/tokenizers/words.py` | `Words`, `WordTokenizer` | `html.unescape`, `unidecode` and the emoji expression are parameters |
| `fog/phonetics/cologne.py`, `rusalka.py` | `Phonetics` | |
| `fog/metrics/*.py` | `Metrics`, `MetricsLookups`, `WeightedSteps` | |
| `fog/lsh/minhash.py` | `Minhash`, `MinhashNumpy`, `SuperMinhash` | versions of numpy other than 1.14 |
| `fog/lsh/simhash.py`, `utils.py` | `Simhash`, `LshUtils`, `LshUtilsInt`, `Crc32` | the demonstration at the end of `simhash.py` |
| `fog/clustering/utils.py` | `ClusteringUtils` | |
| `fog/clustering/pairwise.py` | `Pairwise`, `PairwiseCalls` | progress bars; worker initialisation |
| `fog/clustering/key_collision.py` | `KeyCollision`, `KeyCollisionPairs` | |
| `fog/clustering/blocking.py` | `Blocking`, `BlockingCalls` | |
| `fog/clustering/intersection_index.py` | `IntersectionIndex`, `IntersectionIndexCalls` | |
| `fog/clustering/sorted_neighborhood.py` | `SortedNeighborhood`, `SortedNeighborhoodCalls`, `AdaptiveCalls` | |
| `fog/clustering/passjoin.py` | `Passjoin`, `PassjoinCalls` | |
| `fog/clustering/quickjoin.py` | `Quickjoin`, `JoinPivotsTable`, `QuickjoinObjects`, `QuickjoinCalls` | |
| `fog/clustering/ppjoin.py` | `Ppjoin`, `PpjoinYields` | |
| `fog/clustering/minhash.py` | `MinhashClustering`, `MinhashCalls`, `MinhashClusteringNumpy` | versions of numpy other than 1.14 |
| `fog/clustering/nn_descent.py` | `NnDescent`, `DefaultsFloat` | |
| `fog/clustering/fagin.py` | `Fagin`, `DefaultsFloat` | |
| `fog/clustering/laesa.py` | `Laesa`, `LaesaCalls`, `DefaultsFloat` | |
| `fog/clustering/vp_tree.py` | `VpTree`, `VpTreeQueries` | the tree itself |
| `fog/evaluation/*.py` | `BestMatching`, `EvaluationUtils` | |
| `fog/join/hashjoin.py` | `Hashjoin`, `HashjoinCalls` | the warning |
| `fog/graph/*.py` | `GraphUtils`, `Projection`, `ProjectionCalls`, `Sparsification` | attributes of nodes |
| `fog/utils.py` | `Utils`, `UtilsFloat` | |
| `fog/cli/*.py` | `Cli`, `Html`, `CliMain`, `CliStream` | reading of the command line (defaults and choices are modelled) |

## Assumptions of theorems about other libraries

These are hypotheses of the theorems, visible in their statements.  Each has an
`example` or an instance that meets it.

* `UnionFind` (phylactery): reports the connectivity of the unions made (C16).
* `VPTree`: returns the items within the radius (C28), each once (C81).
* `heapq`: `heapify` and `heapreplace` keep the items with the least one first
  (C42).
* `hashlib`: digests have as many hexadecimal digits as they should (C38).
* `crc32`: does not collide on the tokens at hand, where needed (C31).
* `unidecode`, `str.lower`, `str.upper` and classes of characters: arbitrary, or
  with laws such as leaving capital letters alone (C50, C53, C54, C56).
* Pools give all results of their tasks in any order (C16, C18, C21, C28).
* A set is iterated upon in any order, which does not change while the set does
  not.
* `math.log2`: no double lies between the logarithm and what is computed (C135).
* Random generators give any stream of numbers; for the termination of
  nn_descent, one in which every index keeps coming (C42).

## Disagreements found between the code and the properties

Each has a theorem in the manifest unless told otherwise.

Metrics and keys

* C01 `levenshtein_distance`: when one character remains after trimming, it is
  looked for in the whole other string instead of its trimmed part:
  ("aa", "ab") gives 0.  Code points are truncated to 16 bits, here and in
  `limited_levenshtein_distance` (C02).
* C107: `levenshtein_distance` is no metric: ("aa", "ab") gives 0 and ("ab",
  "aa") gives 1; "aaz" is at 1 from "abcz", which is at 1 from "wbcz", which is at
  3 from "aaz".  The algorithms which prune with the triangle inequality may miss
  pairs with it.  `limited_levenshtein_distance` is a metric on 16-bit strings.
* C109: in double precision `sparse_cosine_similarity` may be above one (the
  vectors 0.3 and 1.7 give 1 + 2^-52), which `math.acos` or `1 - similarity` would
  not expect, and `weighted_jaccard_similarity` depends on the order of its
  arguments and may be one on maps which differ.
* C108: with `levenshtein_distance`, `passjoin` may link two strings one edit too
  far apart, and whether it does depends on its `sort` option: "aaz" and "abcz".
* C105: `limited_levenshtein_distance` does not free its two arrays when it
  returns early (levenshtein.pyx l. 257): each call on two strings which are
  further apart than the limit, but whose lengths are not, loses six bytes per
  character of the longer trimmed string.
* C03, C04: true.  In CPython there is a single empty string, so the identity
  test at the top cannot make a difference on it.
* C06: no addition key is made between two equal letters: "aa" and "aba" share
  no key.
* C106: the documentation promises 2n + 3 keys, and 3n + 2 with transpositions;
  there is one less, and one or two less again for each doubled letter.  A single
  letter has three blocks in `levenshtein_1d_blocks` where four are announced.
* C07: with transpositions two swaps meet: "bacd" and "abdc" share "abcd".
* C10: an insertion at one end and a deletion at the other are missed in strings
  whose length is a multiple of three; two swaps are missed ("abcd", "badc"); the
  empty string raises an `IndexError` with transpositions.
* C71: the empty string with transpositions has a block made of two flags.
* C39: the similarity of two empty collections depends on whether they are the
  same object.
* C40, C41: vectors of zeros raise a `ZeroDivisionError`.
* C62: `intersection_size(A, A)` counts repeated elements.
* C63: `is_power_of_two` is false on powers of two and true elsewhere.
* C38: `simhash` accepts widths of one and two bits and raises a `ValueError`.
* C34: the signature of an empty sequence is all zeros, which is lower than any
  other: the signature of a union is not the minimum of signatures.
* C36: below 1/h, `guess_bands` gives h + 1 bands, on which `minhash` raises.

Clustering

* C14, C27: in fuzzy mode an item is listed several times in a cluster.
* C17: `pairwise_leader` with `max_size` calls `set.delete`, which does not
  exist.
* C18: fuzzy clusters depend on the number of processes.
* C20: with `merge`, `min_size` and `max_size` are ignored.
* C23: with several keys, a one-shot iterator is empty for the second one.
* C24: the adaptive version reads past the end, and never ends for a window of 1.
* C29: `quickjoin` with a similarity compares no pair across the two parts of a
  partition when the radius is not negative: what it finds is what is similar
  inside of the last parts.
* C30: `quickjoin` never ends on more equal items than the block size.
* C113: in double precision `floatsam_sparsification` never ends when the weights
  are at least 2^54 times the learning rate: the threshold stops growing.
* C114: over the random coefficients `minhash_similarity` is not the Jaccard
  similarity in the mean: "ab" and "bc" are similar by a third, but the mean is a
  quarter, the hash functions being affine maps modulo a prime
  (`minhash_similarity_biased`).
* C117: `SuperMinHash` returns the integer parts only: what is left of a token at
  a position is a rank, and two sequences with many tokens have zeros everywhere.
  With `h=256`, two sequences of a thousand tokens with none in common have a
  mean `minhash_similarity` above 24/25 (`super_minhash_disjoint_similar`).
* C118: the parities kept by `LSBMinHash` are not even half of the time: hashes from
  `MAX_UINT32` on count as odd, and the mean similarity of an empty sequence with
  another is below zero (`lsb_minhash_biased`).
* C119 (true, with a reserve): quickjoin ends for almost every drawing of its pivots,
  but not for every one: with the pivots `0` and `10` at each turn, the items
  `0, 1, 10, 11` are never separated (`quickjoin_may_never_end`).
* C120: `simhash` sets a bit when more ones than zeros were seen, so that ties give
  zeros: sequences with no token in common agree more than half of the time when
  both have an even number of tokens (`simhash_even_biased`).
* C123: `minhash_similarity` computes `1.0 - hamming / h`, which rounds twice: with ten integers of which one agrees it is
  0.09999999999999998, below 0.1. A signature whose length is a power of two (256 by default) is not concerned.
* C124: in double precision the two versions of `monopartite_projection` may disagree with the cosine: one passes the
  smaller node first to `sparse_dot_product`, the other the node inserted first, and sums of floats depend on the order
  of terms. With a threshold between the two sums only one version adds the edge (`projections_float_disagree`).
* C129: `WordTokenizer` with `reduce_words` and `lower` reduces runs of a letter before it lowers: `sooooOOO` has no run of five and is
  given as `sooooooo`, with seven letters in a row.
* C130: `OnlineMean` with floats is exact only up to rounding: the mean of three times `0.1` is not `0.1`, and after `add(1)`, `add(2**54)`, `subtract(2**54)` the mean of the only value left, `1`, is `0`.
* C131: `sparse_dot_product` is not symmetric in double precision: with as many keys on both sides, products are added in the order of the first vector.
* C132: `match_probability` computes zero for a small but positive chance (`1.0 - x` loses `x` below `2 ** -54`), as for a similarity of 0.5 with 60 integers in one band.
* C134: `ppjoin` and its variants raise an `IndexError` for thresholds close to zero: for
  the cosine, 0.001 with a record of one token.
* C136: with the `crc32` ordering `all_pairs` yields records with nothing in common when
  their tokens collide: "plumless" and "buckeroo".
* C137: `int(rho * k)` may be one less than it should: `int(0.29 * 100)` is 28.  With
  the default `rho` it is never off.
* C140: in double precision `r + j` may be rounded to `j + 1` in `SuperMinHash` (for `j = 2` and the last number below 1, 2.999... becomes 3). The value is then one level above the one at which the histogram `b` counts it, and the signature may hold `m`, though ranks stop at `m - 1`. Witness: three positions, one token, draws 0, 0 and `1 - 2 ** -53` give `[0, 1, 3]`. Nothing is raised even so, and the chance of it is at most `n * m * (m - 1) / 2 / 2 ** 53`.
* C141: in double precision `sparse_cosine_similarity` divides by zero on two vectors of weights `2 ** -300`, because `xx * yy` is rounded to zero, and `threshold_algorithm_k1` raises with it. In `sqrt_indexation_pairs` the key `1.0 - cs` is rounded, so that a leader with similarity 0 may be preferred to one with similarity `2 ** -60`; the loss is never above `2 ** -53`.
* C142: with numpy, `minhash_similarity` does not estimate the Jaccard similarity: two sequences of one token each, which differ by `2 ** 31`, have a mean similarity of one half.
* C144: `int(math.log(n))` is 33 for 214643579785916 nodes, whose logarithm is less than 33. `math.floor(100 * 0.29)` is 28 in `ngram_keys`, which then gives keys of 28 grams of 100.
* C145: the documentation says that `pairwise_connected_components` runs in O(n (c - 1) / 2), c being the number of
  components. When all items are similar to the last one only, there is a single component and all n (n - 1) / 2 pairs
  are compared. With several processes they always are. For `pairwise_leader` the count is right but for c = 1, which
  takes n - 1 comparisons.
* C147: the documentation says that `passjoin` is undoubtedly better than the naive quadratic approach. It computes
  the distance once per piece found: on strings of the same length which differ by their last character, at least k
  times per pair, and all pairs are compared.
* C148: `block_worker` skips the pairs which are in `worker_graph`, but nothing is ever added to this graph: a pair is
  compared once for each block it shares. A comment of the code says so.
* C150: `laesa` prints `DISTANCES:` and a number, which leaves out all distances to the pivots. On items all at the same
  distance it computes more distances than there are pairs; a comment of the code says that it is often worse than the
  quadratic approach.
* C151: the documentation says that `intersection_index` runs in subquadratic time. On items with the same m tokens it
  makes m n(n-1)/2 increments.
* C152: `hashjoin` hashes nothing: it compares all pairs, and computes the key of each item of the longer list again for
  each item of the shorter one.
* C153: `quickjoin_join_pivots` also computes the distances from its pivots to the other items of the first list: when the
  pivots exclude nothing, it computes more distances than comparing all pairs would.
* C154: `adaptive_sorted_neighborhood` compares the ends of a window to place it, and compares them again in the block: it
  may make more comparisons than there are pairs.
* C155: the documentation says that `minhash` runs in O(nh). Items with the same signature are all compared with each other,
  once for each band.
* C157: the documentation says that `key_collision` runs in O(n). With several keys, it reads all pairs of each bucket to merge
  them.
* C158: the documentation says that `vp_tree` queries the tree once per item. It does not query the items of the clusters
  which it has yielded.
* C164: the header of quickjoin.py says that the data is partitioned "in order
  to reduce the amount of necessary distance computations". Partitioning `n`
  items computes `n + 1` distances (l. 268, 50), more than the `n(n - 1)/2` of all
  pairs for two or three items in smaller blocks. Solving the blocks never
  computes more than `n(n - 1)/2`.
* C115: `match_probability` uses `h / bands` where `minhash` cuts bands of
  `h // bands` integers: it tells less than the actual chance when `bands` does not
  divide `h` (`match_probability_under`).
* C112: in double precision `best_matching_macro_average` may take another
  cluster than the exact computation among clusters of the same F1 score: the
  candidates 3/11 and 1/4 of a cluster of four items both have an F1 score of
  2/5, of which the first is rounded below. Precision and recall then differ.
* C111: in double precision `quickjoin` may lose a pair whose computed distance
  equals the radius, when the distance is itself rounded (`abs(x - y)` on four
  doubles). Nothing is lost when the distances are exact doubles.
* C116: the same for `quickjoin_join_pivots`: the difference of two rounded
  distances may exceed the radius although the pair is at the radius.
* C32: `ppjoin` and `all_pairs` give nothing for a threshold of 1, raise on an
  empty record, and raise with their default arguments.
* C33: the positional filter uses the threshold in place of the position:
  equal short records are not found.
* C42: `nn_descent` never ends when `k` is at least the number of items, and
  `nn_descent_full` when `delta` is not positive or `k` is zero.  The same
  neighbour enters a heap several times, so that neighbours are lost.
  `nn_descent_full` marks as old what was not sampled, and leaves as new what was,
  the contrary of the paper (not a theorem).
* C76, C77: the lists of `fagin_k1` and `threshold_algorithm_k1` are sorted from the
  least weight, so that the nearest vector may be missed.
* C78: `sqrt_indexation_pairs` yields pairs of a vector with itself, and repeats the
  pair of a vector and its leader.
* C79: `laesa` (marked as not working) compares with the distance to the nearest
  pivot instead of the radius: pivots find no later item, and pairs are lost.
* C80: `laesa` raises an `IndexError` on three or more items which are all equal
  (proved to be the only such case with the default number of pivots).  The item
  drawn first is not a pivot.
* C97: `nn_descent_full` marks as old the new neighbors which were *not* sampled,
  where the algorithm marks those which were (nn_descent.py l. 310-312).  When
  rho * k < 1, as with the default rho on two or three items, nothing is compared
  after the random neighbors.

Graphs, joins, evaluation

* C43: precision and recall depend on the order of items when clusters tie;
  repeated items give scores above one.
* C44: `clusters_to_labels(flat=True)` raises unless keys are 0 to n - 1.
* C45: `hashjoin` loses pairs when `right` is a one-shot iterator or when `keys`
  gives generators.
* C95: with numpy, MinHash computes its hashes modulo 2 ** 32 and not modulo the
  prime number, so that a position whose coefficient is even cannot tell x from
  x + 2 ** 31.
* C46: the version by topology raises a `KeyError` for the cosine of nodes whose
  edges all have a weight of zero.
* C93: without the check, the version by topology raises a `KeyError` on a node two
  steps away which is not of the part, where the other version does not.
* C48: `floatsam_sparsification` may never end, and the starting threshold is
  never tested.

Text

* C50: `min_token_size=n` drops tokens of n characters; the key is not idempotent
  with `keep_digits=False` or a minimum size. The case is lowered before the
  transliteration, whose capital letters ("Bei" for a Chinese character) are then
  dropped as punctuation.
* C98: a stopword which ends with a symbol, as `c++`, is not removed unless a word
  character follows it.
* C51: `squeeze` leaves repeated newlines.
* C53: the end of a word after an acronym is lost ("A.Hello"); an empty token is
  given for "a-t-!"; "-." begins with the number "-".
* C74: a number of one digit is a punctuation token (the tests of the repository
  expect it).
* C67: with `mentions_as_words`, `keep={'word'}` drops mentions; a lowered stoplist
  never matches "#Foo".
* C52: `split_hashtag` raises on a single character.
* C92: an e-mail address whose name has a point is cut there ("john.doe@x.net"
  gives "john", "." and "doe@x.net"); a name of 64 characters, which the
  expression accepts, is never recognised, because the text searched is cut at 64
  characters with the `@`; an abbreviation at the very end loses its point.
* C55: "BB" gives "11" where Cologne phonetics gives "1"; "P-H" is not "PH".
* C56: `rusalka` raises an `IndexError` on "hh" and "iy".

Command line

* C57: `split` with a target column grows the row by one cell per value, and
  leaves rows with an empty cell shorter.
* C58: TOML strings are written without escaping backslashes and control
  characters.
* C94: the HTML report gives the time in seconds to `timedelta(microseconds=...)`, so
  that ninety seconds are shown as ninety microseconds.  The time is moreover that of
  the creation of a generator, before any clustering is done.  Values are not
  escaped, and the page ends with a second `<html>`.
* C69: `transform` with `len` before another operation raises on every row.

## Axioms of each theorem

Printed by `#print axioms` for the theorems of the manifest (in namespace
`Fog.Props`).

No axioms (2):

escape_not_injective, transform_len_raises

`propext` (18):

damerau_levenshtein_2d_blocks_raises, split_hashtag_first,
levenshtein_1d_blocks_count_partial, leaders_unique, vp_tree_queries_all,
adaptive_sorted_neighborhood_raises, adaptive_sorted_neighborhood_diverges,
create_signature_empty, simhash_narrow, nn_descent_links, hashjoin_one_shot,
hashjoin_generator_keys, hashjoin_both, split_hashtag_short, is_power_of_two_inverted,
word_construct_error, damerau_levenshtein_1d_blocks_empty, numpy_signature_not_universal

`propext`, `Quot.sound` (77):

levenshtein_distance_collides_beyond_16_bits, levenshtein_2d_blocks_returns_partial,
levenshtein_2d_blocks_same_length, levenshtein_2d_blocks_shift, preprocess_none_exact,
lte1_memory, levenshtein_1d_keys_count_documented, levenshtein_1d_keys_count_partial,
damerau_levenshtein_1d_keys_count_partial, nn_descent_may_never_end, split_written,
fuzzy_clusters_may_repeat, fuzzy_clusters_may_repeat_leader, leader_calls_same,
passjoin_trials_same, blocking_calls_same, snm_calls_same, laesa_calls_same,
increments_same, hashjoin_steps_same, hashjoin_calls_partial, hashjoin_calls_keys_partial,
hashjoin_calls_many, adaptive_calls_sum, self_vptree_objects, key_collision_merged,
vp_tree_queries_partial, vp_tree_queries_once, lte1_steps_same, lte1_steps_bound,
lte1_steps_true, limited_cells_same, quickjoin_calls_same, quickjoin_calls_one_block,
quickjoin_calls_split, pairwise_leader_max_size_raises, pairwise_leader_max_size_partial,
pairwise_fuzzy_depends_on_processes, pairwise_fuzzy_one_chunk_partial,
key_collision_unmerged_repeats, key_collision_merge_ignores_sizes, block_worker_exact,
sorted_neighborhood_one_shot, sorted_is_sorted, sorted_neighborhood_iterator,
segments_tile, segments_lengths, passjoin_sorted, passjoin_fuzzy_repeats, splits_perm,
quickjoin_diverges, nn_descent_default_k, nn_descent_diverges, nn_descent_loses_neighbors,
clusters_to_labels_eq, hashjoin_key_partial, hashjoin_keys_partial, hashjoin_key_exact,
hashjoin_keys_exact, hashjoin_both_exact, ngrams_short, join_ngrams_ngrams, ngrams_int,
cologne_digits_partial, rusalka_vowels_partial, toml_read_back_iff_partial,
escape_injective_partial, word_construct, exists_runs, levenshtein_1d_blocks_halves,
passjoin_substrings_bound, passjoin_lookups_bound, minhash_params, old_new_flags,
sample_exact, sample_full_exact, make_similarity_opposite

`propext`, `Classical.choice`, `Quot.sound` (602):

levenshtein_distance_is_not_edit_distance, levenshtein_distance_exact_partial,
levenshtein_distance_within_one_partial, levenshtein_distance_error_partial,
levenshtein_distance_truncated_partial, limited_levenshtein_distance_is_not_exact,
limited_levenshtein_distance_partial, limited_levenshtein_distance_truncated_partial,
levenshtein_distance_lte1_iff, damerau_levenshtein_distance_lte1_iff,
levenshtein_1d_keys_sound, levenshtein_1d_keys_is_not_complete,
levenshtein_1d_keys_complete_partial, levenshtein_1d_keys_complete_undoubled_partial,
damerau_levenshtein_1d_keys_is_not_sound, damerau_levenshtein_1d_keys_is_not_complete,
damerau_levenshtein_1d_keys_collide_partial, damerau_levenshtein_1d_keys_sound_partial,
levenshtein_1d_blocks_complete, damerau_levenshtein_1d_blocks_complete,
levenshtein_2d_blocks_is_not_complete, damerau_levenshtein_2d_blocks_is_not_complete,
levenshtein_2d_blocks_complete_partial, levenshtein_2d_blocks_substitutions_partial,
levenshtein_2d_blocks_shift_plain, levenshtein_2d_blocks_missed_partial,
damerau_levenshtein_2d_blocks_swap_edit, damerau_levenshtein_2d_blocks_swap_swap,
damerau_levenshtein_2d_blocks_complete_partial, turn_full_exact, preprocess_freq_exact,
argsort_exact, split_hashtag_exact, turn_exact, levenshtein_distance_memory,
limited_levenshtein_distance_memory, limited_levenshtein_distance_leaks,
limited_levenshtein_distance_keeps_partial,
limited_levenshtein_distance_keeps_distance_partial, levenshtein_1d_keys_nodup,
levenshtein_2d_blocks_count_partial, levenshtein_distance_not_symmetric,
levenshtein_distance_no_triangle, limited_levenshtein_distance_not_metric,
levenshtein_distance_metric_partial, levenshtein_distance_almost_metric_partial,
limited_levenshtein_distance_metric_partial, blocking_levenshtein,
blocking_damerau_levenshtein, key_collision_levenshtein_partial,
key_collision_levenshtein_undoubled_partial, passjoin_limited_levenshtein,
passjoin_levenshtein_partial, passjoin_levenshtein_sorting, quickjoin_limited_levenshtein,
set_similarities_float, set_similarities_float_one, sparse_cosine_float,
cosine_similarity_float, binary_cosine_float, sparse_cosine_float_above_one,
weighted_jaccard_float_partial, weighted_jaccard_float_not_symmetric, ngram_keys_first,
ngram_keys_exact, ngram_keys_collide, all_pairs_jaccard_float, all_pairs_dice_float,
all_pairs_cosine_float, jaccard_max_length_float, dice_max_length_float,
cosine_max_length_float, quickjoin_float_components_partial,
quickjoin_float_vptree_partial, quickjoin_float_terminates_partial, quickjoin_float_loses,
best_matching_float_partial, best_matching_float_f1, best_matching_float_perfect,
best_matching_float_one, best_matching_float_tie, floatsam_float_partial,
floatsam_float_stops_partial, floatsam_float_stuck, floatsam_float_two_nodes,
minhash_similarity_estimates_partial, minhash_similarity_estimates_distinct_partial,
agreeing_disjoint_le, agreeing_same, agreeing_not_jaccard, minhash_bias,
minhash_similarity_biased, agreeing_quarter, minhash_mean_quarter, band_chance,
match_probability_exact_partial, match_probability_under, band_chance_distinct,
join_pivots_float_exact_partial, join_pivots_float_sound, join_pivots_float_loses,
super_minhash_estimates_partial, super_minhash_saturates, super_minhash_disjoint_similar,
lsb_minhash_estimates_partial, lsb_minhash_biased, drawn_pivots_uniform,
quickjoin_turns_mean, quickjoin_ends, quickjoin_ends_almost_surely,
quickjoin_may_never_end, clusters_from_pairs_components, simhash_estimates_partial,
simhash_disjoint, simhash_disjoint_odd, simhash_even_biased, simhash_tied,
simhash_even_mean, nn_descent_draws_mean, nn_descent_ends, nn_descent_full_ends,
nn_descent_ends_almost_surely, minhash_constructor_ends, minhash_constructor_uniform,
minhash_drawn_mean, minhash_similarity_drawn_mean, minhash_similarity_drawn_near,
lsb_minhash_drawn_mean, set_similarity_threshold, jaccard_similarity_threshold,
intersection_index_threshold, minhash_threshold, minhash_similarity_threshold_partial,
minhash_similarity_threshold_false, lsb_minhash_similarity_threshold_partial,
simhash_similarity_threshold, projections_float_sets, projections_float_threshold,
projections_float_agree_partial, projections_float_integers, projections_float_disagree,
fog_help, fog_actions, fog_cluster, fog_cluster_read, fog_cluster_raises_iff,
fog_fingerprint_settles, time_text, took_text, fog_split_default, fog_transform,
similarity_threshold_float_near, guess_bands_float_between, guess_bands_float_same,
guess_bands_float_usable, guess_bands_default, minhash_float_guess, ppjoin_position_float,
ppjoin_jaccard_float, ppjoin_dice_float, ppjoin_cosine_float, word_tokenizer_made,
word_tokenizer_type_error, word_tokenizer_tokens, word_tokenizer_ascii,
word_tokenizer_keep_nothing, word_tokenizer_reduced_partial,
word_tokenizer_reduced_not_lowered, clusters_from_pairs_order_irrelevant,
online_mean_float, online_mean_float_integers, online_mean_float_tenth,
online_mean_float_erased, sparse_normalize_float, sparse_normalize_float_zero,
normalized_dot_float, normalized_dot_float_cosine, sparse_dot_product_float_not_symmetric,
match_probability_float, match_probability_float_mono, match_probability_float_vanishes,
transform_written, split_written_short, ppjoin_jaccard_raises, ppjoin_dice_raises,
ppjoin_cosine_raises, ppjoin_raises_before_yielding, ppjoin_yields_exact,
ppjoin_dice_raises_before_yielding, ppjoin_cosine_raises_before_yielding,
nn_descent_default_float, nn_descent_float, laesa_float, sqrt_indexation_float, crc32_lt,
crc32_substitution, crc32_ascii, crc32_ngrams, crc32_collision, all_pairs_crc32_collision,
minhash_crc32_collision, nn_descent_full_float, nn_descent_full_float_any,
nn_descent_full_float_rho, popcount16_int, popcount32_int, popcount64_int, popcount_int,
is_power_of_two_int, laesa_rounded_components, laesa_rounded_sound,
laesa_rounded_complete, laesa_rounded_keeps, pivot_selection_rounded_greedy,
laesa_rounded_raises_iff, laesa_rounded_integers, fuzzy_clusters_are_stars,
fuzzy_clusters_cover, fuzzy_clusters_nodup_partial, fuzzy_clusters_exact,
super_minhash_float_partial, super_minhash_float_total, super_minhash_float_set,
super_minhash_float_false, super_minhash_float_chance, super_minhash_float_same_chance,
super_minhash_float_average, super_minhash_float_disjoint_similar,
threshold_algorithm_rounded, threshold_algorithm_rounded_raises, sqrt_indexation_rounded,
sqrt_indexation_rounded_misses, numpy_similarity_estimates_partial, numpy_tokens_agree,
numpy_similarity_half, numpy_similarity_half_all, numpy_characters_agree_le,
minhash_numpy_exact, minhash_numpy_identical, minhash_numpy_raises_iff,
numpy_signature_set, numpy_band_chance, default_size_float, floatsam_default_float,
default_size_float_off, ngram_keys_float, ngram_keys_default_float, ngram_keys_float_off,
fuzzy_calls_serial, workers_calls, leader_calls_exact, leader_calls_bounds,
leader_calls_documented_partial, leader_calls_one, components_calls_exact,
components_calls_across, components_calls_unbounded, crc32_standard, crc32_unique,
passjoin_calls_count_partial, finds_le, passjoin_calls_many, blocking_calls_count_partial,
blocking_calls_single, blocking_calls_many, snm_calls_positions, snm_calls_count,
snm_calls_bound, snm_calls_closed, chunks_find_similar_pairs_once,
chunks_cover_upper_triangle_once, chunk_count_float, laesa_printed_le,
laesa_calls_count_partial, laesa_calls_many, intersection_increments_partial,
intersection_quotients, intersection_increments_many, join_pivots_tables,
join_pivots_calls_partial, join_pivots_calls_bound, join_pivots_calls_many,
adaptive_calls_same, adaptive_calls_partial, adaptive_calls_many, adaptive_place_bound,
minhash_calls_same, minhash_calls_count_partial, minhash_calls_bound, minhash_calls_many,
self_vptree_objects_bruteforce, key_collision_linear, key_collision_pairs_partial,
key_collision_pairs_many, vp_tree_queries_same, lookups_same, lookups_count,
lookups_nodup, lookups_smaller, pairwise_components_serial, pairwise_components_parallel,
pairwise_components_same, steps_same, steps_sum, steps_min, steps_once,
levenshtein_cells_same, levenshtein_cells_common, levenshtein_cells_bound,
levenshtein_cells_all, limited_cells_band, limited_cells_bound, limited_cells_none,
quickjoin_calls_partial, projection_calls_same, projection_calls_topology,
projection_calls_quadratic, pairwise_leader_partial, leader_assignment_exists,
pairwise_leader_disjoint_partial, pairwise_leader_raises_iff, pairwise_leader_yields,
pairwise_fuzzy_stars_partial, pairwise_fuzzy_exact, read_unique, key_collision_single,
key_collision_several_unmerged, key_collision_merge_partial, blocking_components_serial,
blocking_components_parallel, blocking_processes_irrelevant, intersection_pairs_exact,
intersection_pairs_positive_radius, intersection_index_components,
intersection_index_unknown_metric, sorted_neighborhood_one_key,
sorted_neighborhood_several_keys_partial, adaptive_blocks_partial,
adaptive_clusters_partial, adaptive_blocks_exact, adaptive_raises_on_duplicates,
adaptive_clusters_exact, passjoin_components, passjoin_linked, passjoin_nodup_partial,
passjoin_pair_count, passjoin_fuzzy_counts, passjoin_fuzzy_repeats_close,
quickjoin_components, quickjoin_vptree_components, quickjoin_similarity_window,
quickjoin_similarity_loses, quickjoin_similarity_partial, quickjoin_similarity_exact,
quickjoin_terminates_partial, sameSide_firstTwo, ppjoin_jaccard_sound, ppjoin_dice_sound,
ppjoin_cosine_sound, ppjoin_jaccard_yields_sound, ppjoin_dice_yields_sound,
ppjoin_cosine_yields_sound, all_pairs_jaccard_complete_partial,
all_pairs_dice_complete_partial, all_pairs_cosine_complete_partial, ppjoin_threshold_one,
all_pairs_threshold_one, ppjoin_empty_record, ppjoin_default_raises, ppjoin_misses_equal,
ppjoin_jaccard_complete_partial, ppjoin_dice_complete_partial,
ppjoin_cosine_complete_partial, create_signature_set, create_signature_values,
create_signature_union_partial, minhash_sound_complete, minhash_components,
minhash_identical, guess_bands_partial, guess_bands_low, minhash_low_radius,
minhash_default_partial, popcount_eq, popcount16_eq, popcount32_eq, popcount64_eq,
simhash_majority_partial, simhash_perm, simhash_similarity_laws, simhash_refused,
set_similarities_partial, set_similarity_laws, jaccard_similarity_eq, dice_coefficient_eq,
overlap_coefficient_eq, set_similarities_empty, weighted_jaccard_partial,
weighted_jaccard_laws, weighted_jaccard_zero, sparse_cosine_eq, cosine_laws,
sparse_binary_cosine_eq, binaryCosine_eq_cosine, binary_cosine_similarity_eq,
cosine_similarity_eq, sparse_cosine_zero, nn_descent_sound, nn_descent_terminates_partial,
nn_descent_full_sound, nn_descent_full_terminates_partial, nn_descent_full_diverges,
best_matching_eq, best_matching_type_error, best_matching_bounds_partial,
best_matching_f1_order, best_matching_order_partial, best_matching_identity,
best_matching_ties, best_matching_above_one, labels_to_clusters_eq,
labels_to_clusters_same, labels_to_clusters_items, clusters_round_trip, flat_labels_eq,
projection_quadratic, projection_topology_partial, projections_agree_partial,
projection_zero_norm, component_sizes_eq, second_largest_eq, floatsam_partial,
floatsam_stops_partial, floatsam_never_stops, floatsam_star, floatsam_stops_iff,
ngrams_windows, ngrams_negative, fingerprint_tokens, fingerprint_same,
fingerprint_idempotent_partial, min_token_size_words, min_token_size_two,
keep_digits_not_idempotent, min_token_size_not_idempotent, ngrams_fingerprint_tokens,
fingerprint_ascii, ngrams_fingerprint_ascii, fingerprint_case_punctuation,
fingerprint_same_iff, fingerprint_alike_iff, fingerprint_empty_iff,
fingerprint_capital_dropped, squeeze_partial, squeeze_newlines, split_hashtag_lossless,
split_hashtag_kinds, words_lossless_partial, words_acronym_lost, words_empty_token,
words_hyphen_number, words_cut, words_sublist, omission_key_spec, skeleton_key_spec,
cologne_standard_partial, cologne_doubled, cologne_vowel, cologne_ph, rusalka_raises_iff,
rusalka_raises, split_in_place_partial, split_rectangular_partial, split_target,
split_target_rectangular_iff, split_grows, split_empty_target, escape_unreadable,
online_mean_eq, join_pivots_exact, sparse_normalize_norm, sparse_normalize_dot,
intersection_size_partial, intersection_size_same, is_power_of_two_partial,
minhash_similarity_eq, lsb_create_signature_eq, lsb_minhash_similarity_eq,
match_probability_laws, word_options_exact, word_options, words_mentions_dropped,
words_stoplist_hashtag, reduce_lengthening_runs, reduce_lengthening_idempotent,
transform_rows, transform_eval_rows, cluster_report, levenshtein_2d_blocks_thirds,
super_minhash_eq, super_minhash_set, super_minhash_union, super_minhash_range,
minhash_bands_exact, words_plain_text, words_single_digit, naive_cosine_pairs_eq,
naive_cosine_pairs_dot, fagin_k1_partial, fagin_k1_misses, threshold_algorithm_k1_partial,
threshold_algorithm_k1_misses, sqrt_indexation_pairs_partial, sqrt_indexation_self_pair,
laesa_components_partial, laesa_sound, laesa_complete_partial, laesa_pivot_finds_nothing,
laesa_loses_pairs, pivot_selection_greedy_partial, laesa_raises_iff,
laesa_default_raises_iff, laesa_raises_on_equal_items, vp_tree_balls, vp_tree_diameter,
vp_tree_overlap, rusalka_respelling, passjoin_substrings_count, passjoin_lookups_count,
minhash_params_terminates, minhash_agree_iff, minhash_disjoint, next_prime,
passjoin_agrees, blocking_agrees, quickjoin_agrees, toml_report_read, toml_report_invalid,
toml_report_other, suffix_filter_bounds, suffix_filter_removes, jaccard_bounds,
dice_bounds, cosine_bounds, jaccard_bounds_tight, dice_bounds_tight, cosine_bounds_tight,
stars_of_relation, blocking_fuzzy_serial, blocking_fuzzy_parallel,
sorted_neighborhood_fuzzy_one_key, sorted_neighborhood_fuzzy_several_keys,
intersection_index_fuzzy, quickjoin_fuzzy, laesa_fuzzy, fuzzy_clusters_counts,
blocking_fuzzy_repeats, blocking_parallel_fuzzy_repeats,
sorted_neighborhood_fuzzy_repeats, split_raises_iff, transform_raises_iff,
transform_eval_raises_iff, words_special_text, email_lookahead_iff, asciiTable_special,
email_with_point, email_sixty_four, abbreviation_last, smiley_exact, projection_exact,
projection_modes_disagree, html_report_read, html_report_neat, html_not_closed,
html_took_wrong, html_took_ninety, html_tag_item, html_tag_list, html_same,
numpy_signature_partial, numpy_signature_empty, wrapped_hash_collides_iff,
wrapped_hash_injective_iff, numpy_disjoint_agree, fingerprint_key_iff,
ngrams_fingerprint_key_iff, ngrams_fingerprint_key_zero, old_new_exact_partial,
reverse_exact, nn_descent_full_random, stopword_symbol_kept, stopwords_exact_partial,
stopwords_tokens_partial, stopwords_ngrams_partial, stopwords_words, stopwords_symbol,
make_similarity_exact, pairwise_raises_iff, pairwise_modes_nested,
pairwise_connected_components_exact, pairwise_fuzzy_mode_exact, pairwise_raises_processes
