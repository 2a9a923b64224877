import Verif.Word
import Verif.Spec
import Verif.SelectTable
import Verif.Util
import Verif.CompactVector
import Verif.PropsCompactVector
import Verif.BitVector
import Verif.BitIter
import Verif.IntegerCodes
import Verif.PropsBitVector
import Verif.HashCompactVector
import Verif.DArray
import Verif.PropsDArray
import Verif.EliasFano
import Verif.Mphf
import Verif.MphTables
import Verif.FastEF
import Verif.IndexedCodewords
import Verif.State
import Verif.Score
import Verif.TriePointers
import Verif.Trie
import Verif.BinarySearch
import Verif.Collections
import Verif.TrieImpl
import Verif.TrieCount
import Verif.Floats
import Verif.Quantizer
import Verif.ScoreBounds
import Verif.ArpaData
import Verif.TrieProb
import Verif.Bytes
import Verif.PropsBytes
import Verif.Comparator
import Verif.Pools
import Verif.Sorter
import Verif.MphText
import Verif.MphCount
import Verif.MphProb
import Verif.Header
import Verif.Parsers
import Verif.Arpa
import Verif.FromFiles
import Verif.ScoreText
import Verif.CompactEF
import Verif.PropsCEF
import Verif.UniformPEF
import Verif.PropsPEF
import Verif.Orders
import Verif.Serialization
import Verif.SaveModels
import Verif.PropsSave
import Verif.StTrie
import Verif.PefTrie
import Verif.BuiltFits
import Verif.EndToEnd
import Verif.SortText
import Verif.SortTools
import Verif.SortArpa
import Verif.Stats
import Verif.Sizes
import Verif.PefProb
import Verif.PefSave
import Verif.Space
import Verif.PefIter
import Verif.OwnTests
import Verif.CheckModel
import Verif.Hardware
import Verif.Accept
import Verif.Python
import Verif.MphSession
import Verif.PefEndToEnd
import Verif.PefStats
import Verif.PefSizes
import Verif.Threads
import Verif.CutFiles
import Verif.Choice
import Verif.Accuracy
import Verif.Collisions
import Verif.Exact
import Verif.Perplexity
import Verif.PefTotals
import Verif.PefCollisions
import Verif.SpaceProb
import Verif.SpacePef
import Verif.SpacePefProb
import Verif.PefThreads
import Verif.HashWide
import Verif.HashWideTest
import Verif.Tools
import Verif.PrintTool
import Verif.Workflow
import Verif.Repro
import Verif.BuilderMemory
import Verif.LittleMemory
import Verif.SearchCost
import Verif.MachineSizes
import Verif.Orders
