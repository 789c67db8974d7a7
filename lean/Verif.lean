import Verif.Lemmas.Agreement
import Verif.Lemmas.AlignPath
import Verif.Lemmas.BestMatchingFloat
import Verif.Lemmas.Binary64
import Verif.Lemmas.Binary64Fractions
import Verif.Lemmas.Binary64Sums
import Verif.Lemmas.Bits
import Verif.Lemmas.Blocks
import Verif.Lemmas.Buckets
import Verif.Lemmas.Chance
import Verif.Lemmas.ChanceDistinct
import Verif.Lemmas.ChanceDraws
import Verif.Lemmas.Components
import Verif.Lemmas.Crc32
import Verif.Lemmas.Dedup
import Verif.Lemmas.Dict
import Verif.Lemmas.EditDistance
import Verif.Lemmas.Fagin
import Verif.Lemmas.FaginCounts
import Verif.Lemmas.FaginThreshold
import Verif.Lemmas.Faults
import Verif.Lemmas.FuzzyClusters
import Verif.Lemmas.IntersectionIndex
import Verif.Lemmas.KeyLevenshtein
import Verif.Lemmas.Laesa
import Verif.Lemmas.LaesaRounded
import Verif.Lemmas.LeastRank
import Verif.Lemmas.Levenshtein
import Verif.Lemmas.LevenshteinMemory
import Verif.Lemmas.LimitedLevenshtein
import Verif.Lemmas.ListBasic
import Verif.Lemmas.Lte1
import Verif.Lemmas.Metrics
import Verif.Lemmas.NnDescent
import Verif.Lemmas.NnDescentChances
import Verif.Lemmas.NnDescentFull
import Verif.Lemmas.Pairwise
import Verif.Lemmas.PairwiseComponents
import Verif.Lemmas.Passjoin
import Verif.Lemmas.Ppjoin
import Verif.Lemmas.PpjoinFloat
import Verif.Lemmas.PpjoinHelpers
import Verif.Lemmas.PpjoinJoinFloat
import Verif.Lemmas.PpjoinPreprocess
import Verif.Lemmas.PpjoinYields
import Verif.Lemmas.PyMonad
import Verif.Lemmas.Quickjoin
import Verif.Lemmas.QuickjoinChances
import Verif.Lemmas.QuickjoinFloat
import Verif.Lemmas.SortedLists
import Verif.Lemmas.SuffixFilter
import Verif.Lemmas.SuperMinhash
import Verif.Lemmas.SuperMinhashFloat
import Verif.Model.AdaptiveCalls
import Verif.Model.BestMatching
import Verif.Model.BestMatchingFloat
import Verif.Model.Blocking
import Verif.Model.BlockingCalls
import Verif.Model.Cli
import Verif.Model.CliMain
import Verif.Model.CliStream
import Verif.Model.ClusteringUtils
import Verif.Model.Crc32
import Verif.Model.DefaultsFloat
import Verif.Model.Dict
import Verif.Model.EvaluationUtils
import Verif.Model.Fagin
import Verif.Model.FaginRounded
import Verif.Model.Fingerprint
import Verif.Model.GraphUtils
import Verif.Model.GuessBandsFloat
import Verif.Model.Hashjoin
import Verif.Model.HashjoinCalls
import Verif.Model.Html
import Verif.Model.IntersectionIndex
import Verif.Model.IntersectionIndexCalls
import Verif.Model.IntersectionIndexFloat
import Verif.Model.JoinPivotsTable
import Verif.Model.KeyCollision
import Verif.Model.KeyCollisionPairs
import Verif.Model.KeyLetters
import Verif.Model.KeyLevenshtein
import Verif.Model.KeyMisc
import Verif.Model.KeyMiscFloat
import Verif.Model.Laesa
import Verif.Model.LaesaCalls
import Verif.Model.LaesaRounded
import Verif.Model.Levenshtein
import Verif.Model.LevenshteinCells
import Verif.Model.LevenshteinMemory
import Verif.Model.LimitedCells
import Verif.Model.LshFloat
import Verif.Model.LshUtils
import Verif.Model.LshUtilsInt
import Verif.Model.Lte1Steps
import Verif.Model.Metrics
import Verif.Model.MetricsFloat
import Verif.Model.MetricsLookups
import Verif.Model.Minhash
import Verif.Model.MinhashCalls
import Verif.Model.MinhashClustering
import Verif.Model.MinhashClusteringFloat
import Verif.Model.MinhashClusteringNumpy
import Verif.Model.MinhashNumpy
import Verif.Model.Ngrams
import Verif.Model.NnDescent
import Verif.Model.NormalizeFloat
import Verif.Model.Pairwise
import Verif.Model.PairwiseCalls
import Verif.Model.PairwiseModes
import Verif.Model.Passjoin
import Verif.Model.PassjoinCalls
import Verif.Model.Phonetics
import Verif.Model.Ppjoin
import Verif.Model.PpjoinFloat
import Verif.Model.PpjoinJoinFloat
import Verif.Model.PpjoinYields
import Verif.Model.Projection
import Verif.Model.ProjectionCalls
import Verif.Model.ProjectionFloat
import Verif.Model.Py
import Verif.Model.Quickjoin
import Verif.Model.QuickjoinCalls
import Verif.Model.QuickjoinFloat
import Verif.Model.QuickjoinObjects
import Verif.Model.Simhash
import Verif.Model.SortedNeighborhood
import Verif.Model.SortedNeighborhoodCalls
import Verif.Model.Sparsification
import Verif.Model.SparsificationFloat
import Verif.Model.Stopwords
import Verif.Model.SuperMinhash
import Verif.Model.SuperMinhashFloat
import Verif.Model.Utils
import Verif.Model.UtilsFloat
import Verif.Model.VpTree
import Verif.Model.VpTreeQueries
import Verif.Model.WeightedSteps
import Verif.Model.WordTokenizer
import Verif.Model.Words
import Verif.Props.AdaptiveBlocks
import Verif.Props.AdaptiveCalls
import Verif.Props.Agreement
import Verif.Props.BestMatching
import Verif.Props.BestMatchingFloat
import Verif.Props.Bits
import Verif.Props.BitsInt
import Verif.Props.BlockingCalls
import Verif.Props.Blocks
import Verif.Props.BlocksShift
import Verif.Props.BlocksSwap
import Verif.Props.Cli
import Verif.Props.CliCommands
import Verif.Props.CliErrors
import Verif.Props.CliMain
import Verif.Props.CliStream
import Verif.Props.ClusteringUtils
import Verif.Props.Crc32
import Verif.Props.Crc32Standard
import Verif.Props.DefaultSizeFloat
import Verif.Props.DefaultsFloat
import Verif.Props.DistanceMetric
import Verif.Props.EvaluationUtils
import Verif.Props.Fagin
import Verif.Props.FaginRounded
import Verif.Props.Fingerprint
import Verif.Props.FingerprintAscii
import Verif.Props.FingerprintKeys
import Verif.Props.FuzzyExact
import Verif.Props.FuzzyModes
import Verif.Props.GraphUtils
import Verif.Props.GuessBandsFloat
import Verif.Props.Hashjoin
import Verif.Props.HashjoinCalls
import Verif.Props.HashtagCuts
import Verif.Props.HtmlReport
import Verif.Props.IntersectionIndex
import Verif.Props.IntersectionIndexCalls
import Verif.Props.JoinPivotsFloat
import Verif.Props.JoinPivotsTable
import Verif.Props.KeyCollision
import Verif.Props.KeyCollisionPairs
import Verif.Props.KeyCounts
import Verif.Props.KeyLetters
import Verif.Props.KeyLevenshtein
import Verif.Props.Laesa
import Verif.Props.LaesaCalls
import Verif.Props.LaesaRounded
import Verif.Props.Levenshtein
import Verif.Props.LevenshteinCells
import Verif.Props.LevenshteinMemory
import Verif.Props.LimitedCells
import Verif.Props.LsbMinhashChances
import Verif.Props.Lte1Steps
import Verif.Props.MatchProbabilityFloat
import Verif.Props.Metrics
import Verif.Props.MetricsFloat
import Verif.Props.MetricsLookups
import Verif.Props.Minhash
import Verif.Props.MinhashBands
import Verif.Props.MinhashBias
import Verif.Props.MinhashCalls
import Verif.Props.MinhashChances
import Verif.Props.MinhashClustering
import Verif.Props.MinhashClusteringNumpy
import Verif.Props.MinhashCollisions
import Verif.Props.MinhashDraws
import Verif.Props.MinhashNumpy
import Verif.Props.MinhashNumpyChances
import Verif.Props.MinhashQuality
import Verif.Props.Ngrams
import Verif.Props.NnDescent
import Verif.Props.NnDescentChances
import Verif.Props.NnDescentFloat
import Verif.Props.NnDescentHelpers
import Verif.Props.NnDescentTurn
import Verif.Props.NormalizeFloat
import Verif.Props.Pairwise
import Verif.Props.PairwiseCalls
import Verif.Props.PairwiseFuzzyExact
import Verif.Props.PairwiseModes
import Verif.Props.PairwiseYields
import Verif.Props.Passjoin
import Verif.Props.PassjoinCalls
import Verif.Props.PassjoinCount
import Verif.Props.PassjoinFuzzy
import Verif.Props.Phonetics
import Verif.Props.PlainWords
import Verif.Props.Ppjoin
import Verif.Props.PpjoinBounds
import Verif.Props.PpjoinFloat
import Verif.Props.PpjoinJoinFloat
import Verif.Props.PpjoinLengthsFloat
import Verif.Props.PpjoinOrder
import Verif.Props.PpjoinYields
import Verif.Props.Projection
import Verif.Props.ProjectionCalls
import Verif.Props.ProjectionErrors
import Verif.Props.ProjectionFloat
import Verif.Props.Quickjoin
import Verif.Props.QuickjoinCalls
import Verif.Props.QuickjoinChances
import Verif.Props.QuickjoinFloat
import Verif.Props.QuickjoinObjects
import Verif.Props.QuickjoinSimilarity
import Verif.Props.Recipes
import Verif.Props.Retouch
import Verif.Props.Rusalka
import Verif.Props.Simhash
import Verif.Props.SimhashChances
import Verif.Props.Smileys
import Verif.Props.SortedNeighborhood
import Verif.Props.SortedNeighborhoodCalls
import Verif.Props.Sparsification
import Verif.Props.SparsificationFloat
import Verif.Props.SpecialWords
import Verif.Props.Stopwords
import Verif.Props.SuffixFilter
import Verif.Props.SuperMinhash
import Verif.Props.SuperMinhashChances
import Verif.Props.SuperMinhashFloat
import Verif.Props.SuperMinhashFloatChances
import Verif.Props.Thresholds
import Verif.Props.TomlReport
import Verif.Props.Utils
import Verif.Props.UtilsFloat
import Verif.Props.VpTree
import Verif.Props.VpTreeQueries
import Verif.Props.WeightedSteps
import Verif.Props.WordOptions
import Verif.Props.WordTokenizer
import Verif.Props.Words
import Verif.Props.WordsAll
import Verif.Spec.Adaptive
import Verif.Spec.Binary64
import Verif.Spec.Bits
import Verif.Spec.Blocks
import Verif.Spec.CamelCase
import Verif.Spec.Chance
import Verif.Spec.Cologne
import Verif.Spec.Cosine
import Verif.Spec.Crc
import Verif.Spec.Cut
import Verif.Spec.Doubles
import Verif.Spec.EditDistance
import Verif.Spec.Faults
import Verif.Spec.Graph
import Verif.Spec.Greedy
import Verif.Spec.HtmlPage
import Verif.Spec.InvertedIndex
import Verif.Spec.Lists
import Verif.Spec.Logarithm
import Verif.Spec.Matching
import Verif.Spec.Memory
import Verif.Spec.Metric
import Verif.Spec.NearestNeighbors
import Verif.Spec.NnTurn
import Verif.Spec.Parts
import Verif.Spec.Pieces
import Verif.Spec.PlainText
import Verif.Spec.Positions
import Verif.Spec.Power
import Verif.Spec.Retouch
import Verif.Spec.RoundedSum
import Verif.Spec.Runs
import Verif.Spec.SetSimilarity
import Verif.Spec.Smileys
import Verif.Spec.Split
import Verif.Spec.Splits
import Verif.Spec.Stars
import Verif.Spec.Strings16
import Verif.Spec.SuperMinhash
import Verif.Spec.SuperRanks
import Verif.Spec.Tokens
import Verif.Spec.TomlDocument
import Verif.Spec.Variants
import Verif.Spec.Vectors
import Verif.Spec.WordRuns
import Verif.Spec.Words
