import Verif.Model.Surf
import Verif.Model.Threads
import Verif.Model.Serialize
import Verif.Spec
import Verif.Proof.Word
import Verif.Proof.BV
import Verif.Proof.RankSelect
import Verif.Proof.Concat
import Verif.Proof.ConcatOver
import Verif.Proof.Label
import Verif.Proof.Suffix
import Verif.Proof.Trie
import Verif.Proof.Keys
import Verif.Proof.BuilderRep
import Verif.Proof.BuilderKeys
import Verif.Proof.DenseBuild
import Verif.Proof.FilterRep
import Verif.Proof.Create
import Verif.Proof.Nav
import Verif.Proof.DenseNav
import Verif.Proof.SparseNav
import Verif.Proof.Lookup
import Verif.Proof.Sem
import Verif.Proof.Built
import Verif.Proof.Order
import Verif.Proof.DenseIter
import Verif.Proof.SparseIter
import Verif.Proof.Iter
import Verif.Proof.IterKeys
import Verif.Proof.Seek
import Verif.Proof.Compare
import Verif.Proof.SeekKeys
import Verif.Proof.History
import Verif.Proof.Serialize
import Verif.Proof.SerialSize
import Verif.Proof.NumKeys
import Verif.Props.Lookup
import Verif.Props.LookupWitness
import Verif.Props.Vectors
import Verif.Props.Iter
import Verif.Props.IterWitness
import Verif.Props.Range
import Verif.Props.Popcount
import Verif.Props.RangeWitness
import Verif.Props.RangeExact
import Verif.Props.History
import Verif.Proof.TrimRep
import Verif.Proof.Trim
import Verif.Proof.TrimFilter
import Verif.Proof.SerialShift
import Verif.Props.Serialize
import Verif.Props.SerialWrap
import Verif.Props.KeySuffix
import Verif.Props.Threads
import Verif.Proof.Cutoff
import Verif.Proof.CountTrie
import Verif.Proof.CountDense
import Verif.Proof.CountLevel
import Verif.Proof.CountSparse
import Verif.Proof.Count
import Verif.Proof.CountKeys
import Verif.Proof.CountSeek
import Verif.Props.CountWitness
import Verif.Props.Count
import Verif.Props.CountAny
import Verif.Props.CountZero
import Verif.Props.Build
import Verif.Props.Ints
import Verif.Model.Bloom
import Verif.Model.Bench
import Verif.Model.Report
import Verif.Model.Arf
import Verif.Props.Bloom
import Verif.Props.Bench
import Verif.Props.SingleFF
import Verif.Props.SingleCopy
import Verif.Props.Same
import Verif.Props.Agree
import Verif.Props.CountSum
import Verif.Props.Report
import Verif.Props.Arf
import Verif.Props.MultiReport
import Verif.Proof.ConcatStrict
import Verif.Proof.StrictCreate
import Verif.Props.Strict
import Verif.Props.PrefixFree
import Verif.Model.Memory
import Verif.Props.Memory
import Verif.Model.Workload
import Verif.Props.Workload
import Verif.Props.KeyFiles
import Verif.Props.Empty
import Verif.Props.SuffixWrap
import Verif.Props.Size
import Verif.Proof.Walk
import Verif.Props.Beyond
import Verif.Props.SuffixKinds
import Verif.Props.Machines
import Verif.Props.Unsorted
import Verif.Proof.Loose
import Verif.Props.Returns
import Verif.Props.HashSuffix
import Verif.Model.Murmur
import Verif.Props.Murmur
import Verif.Axioms
