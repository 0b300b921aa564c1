import Verif.Props.IDeque
import Verif.Props.SkewList
import Verif.Props.IMap
import Verif.Props.TreeMap
import Verif.Props.Heap
import Verif.Props.Queue
import Verif.Props.MtQueue
import Verif.Props.Utf8
import Verif.Props.Str
import Verif.Props.Integer
import Verif.Props.Rational
import Verif.Props.NumUtil
import Verif.Props.Rationalize
import Verif.Props.Prime
import Verif.Props.HashTable
import Verif.Props.Base64
import Verif.Props.CharSet
import Verif.Props.CharSetIO
import Verif.Props.CharFold
import Verif.Props.C3
import Verif.Props.Toposort
import Verif.Props.RingBuffer
import Verif.Props.Lcs
import Verif.Props.Sort
import Verif.Props.Cache
import Verif.Props.Promise
import Verif.Props.LazyPair
import Verif.Props.OutPort
import Verif.Props.InPort
import Verif.Props.ListPrim
import Verif.Props.SpVec
import Verif.Props.SpTab
import Verif.Props.NumText
import Verif.Props.DynWind
import Verif.Props.Mutex
import Verif.Props.Regex
import Verif.Props.Flonum
import Verif.Props.NumCmp
import Verif.Props.Sexp
import Verif.Props.SexpGraph
import Verif.Props.SynRules
import Verif.Props.Prog
import Verif.Props.Dispatch
import Verif.Props.Bits
import Verif.Props.Equal
import Verif.Props.Hash
import Verif.Props.Csv
import Verif.Props.Digest
import Verif.Props.Comb
import Verif.Props.Lev
import Verif.Props.Dominator
import Verif.Props.QP
import Verif.Props.UriCode
import Verif.Props.Unify
import Verif.Props.UriMerge
import Verif.Props.ModSearch
import Verif.Props.Compare
import Verif.Props.Trie
import Verif.Props.GapBuffer
import Verif.Props.Temporal
import Verif.Props.Tr
