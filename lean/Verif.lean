import Verif.Prop.Permuter
import Verif.Prop.Key
import Verif.Prop.NodeVersion
import Verif.Prop.LockMachine
import Verif.Prop.Suffix
import Verif.Prop.KSearch
import Verif.Prop.Simd
import Verif.Prop.Link
import Verif.Prop.Alloc
import Verif.Prop.Internode
import Verif.Prop.TreeWitness
import Verif.Prop.Tree
import Verif.Prop.TreeShape
import Verif.Prop.Store
import Verif.Prop.LeafRace
import Verif.Prop.CasRace
import Verif.Prop.LinkRace
import Verif.Prop.ChainRace
import Verif.Prop.ChainValue
import Verif.Prop.Forest
import Verif.Prop.Whole
import Verif.Prop.TreeRace
import Verif.Prop.TreeOverrun
import Verif.Prop.TreeLoss
import Verif.Prop.TreeAlone
import Verif.Prop.IndexRace
import Verif.Prop.IndexPanic
import Verif.Prop.IndexPanic2
import Verif.Prop.WeakLeaf
import Verif.Prop.BagRace
import Verif.Prop.IndexOrder
import Verif.Prop.Clean
import Verif.Prop.Ops
import Verif.Prop.OpsBound
import Verif.Prop.OpsMiss
import Verif.Model.OpsAll
import Verif.Prop.OpsAll
import Verif.Prop.OpsLocks
import Verif.Prop.OpsQuiet
import Verif.Prop.OpsLive
import Verif.Prop.OpsFail
import Verif.Prop.OpsEnd
import Verif.Prop.OpsReturn
import Verif.Proof.OpsStuck
import Verif.Prop.OpsHandOver
import Verif.Prop.OpsCalm
import Verif.Prop.OpsProgress
import Verif.Prop.OpsLinear
import Verif.Prop.OpsSystem
import Verif.Prop.ValueRace
