import Verif.Props.Attrs
import Verif.Props.Plan
import Verif.Props.Cache
import Verif.Props.SubGraph
import Verif.Props.Store
import Verif.Props.Space
import Verif.Props.Marshal
import Verif.Props.Linearizable
import Verif.Props.GraphConc
import Verif.Props.GraphLin
import Verif.Props.Broker
import Verif.Props.BrokerSession
import Verif.Props.BrokerMore
import Verif.Props.Pipeline
import Verif.Props.Digest
import Verif.Props.EndToEnd
import Verif.Props.Stdout
import Verif.Props.Dot
import Verif.Spec.JsonText
import Verif.Spec.Unmarshal
import Verif.Lemmas.JsonText
import Verif.Lemmas.Unmarshal
import Verif.Props.Unmarshal
import Verif.Model.AttrsIface
import Verif.Spec.AttrsIface
import Verif.Lemmas.AttrsIface
import Verif.Props.AttrsIface
import Verif.Model.BrokerTime
import Verif.Spec.BrokerTime
import Verif.Lemmas.BrokerTime
import Verif.Lemmas.BrokerTimeEnd
import Verif.Props.BrokerTime
import Verif.Spec.GraphOwned
import Verif.Props.GraphAny
import Verif.Lemmas.MapVals
import Verif.Model.GraphPtr
import Verif.Spec.GraphPtr
import Verif.Lemmas.GraphPtr
import Verif.Lemmas.GraphPtrLists
import Verif.Lemmas.GraphPtrDot
import Verif.Props.GraphPtr
import Verif.Model.GraphPtrSub
import Verif.Lemmas.GraphPtrSub
import Verif.Lemmas.GraphPtrWalk
import Verif.Lemmas.GraphPtrLinks
import Verif.Spec.GraphPtrPath
import Verif.Props.GraphPtrSub
import Verif.Spec.AttrData
import Verif.Props.AttrData
import Verif.Model.AttrsConc
import Verif.Spec.AttrsConc
import Verif.Lemmas.Rely
import Verif.Props.AttrsConc
import Verif.Model.StoreHandle
import Verif.Spec.StoreHandle
import Verif.Lemmas.Erase
import Verif.Lemmas.LinFrame
import Verif.Lemmas.Commit
import Verif.Lemmas.Ordered
import Verif.Lemmas.StoreHandle
import Verif.Lemmas.StoreCommit
import Verif.Props.StoreHandle
import Verif.Model.Network
import Verif.Spec.Network
import Verif.Lemmas.Network
import Verif.Lemmas.NetworkDigest
import Verif.Props.Network
import Verif.Lemmas.DigestDrain
import Verif.Props.DigestDrain
import Verif.Model.StoreShared
import Verif.Spec.StoreShared
import Verif.Lemmas.StoreShared
import Verif.Props.StoreShared
import Verif.Spec.Parts
import Verif.Lemmas.PartsFrame
import Verif.Lemmas.PartsCommit
import Verif.Lemmas.StoreParts
import Verif.Model.BrokerLock
import Verif.Lemmas.BrokerLock
import Verif.Lemmas.BrokerSim
import Verif.Lemmas.BrokerSimStep
import Verif.Lemmas.BrokerRefine
import Verif.Lemmas.BrokerExpand
import Verif.Lemmas.BrokerDrain
import Verif.Spec.BrokerLock
import Verif.Lemmas.BrokerTouch
import Verif.Lemmas.BrokerProgress
import Verif.Props.BrokerLock
import Verif.Lemmas.BrokerFair
import Verif.Props.BrokerFair
import Verif.Model.NilUid
import Verif.Spec.NilUid
import Verif.Lemmas.Leak
import Verif.Lemmas.LeakW
import Verif.Lemmas.NilUidEval
import Verif.Lemmas.NilUid
import Verif.Props.NilUid
import Verif.Spec.FairExec
import Verif.Lemmas.Starve
import Verif.Props.Starve
import Verif.Lemmas.SectionsTwo
import Verif.Lemmas.HandleIds
import Verif.Props.HandlePanic
import Verif.Lemmas.SharedIds
import Verif.Props.SharedPanic
import Verif.Props.BrokerStmt
import Verif.Model.GraphAttrs
import Verif.Spec.GraphAttrs
import Verif.Lemmas.RelyState
import Verif.Lemmas.GraphAttrs
import Verif.Lemmas.GraphAttrsCalls
import Verif.Props.GraphAttrs
import Verif.Model.DigestLock
import Verif.Spec.DigestLock
import Verif.Lemmas.DigestLock
import Verif.Lemmas.DigestLockRun
import Verif.Props.DigestLock
import Verif.Model.Identity
import Verif.Spec.Identity
import Verif.Lemmas.Keeps
import Verif.Lemmas.Identity
import Verif.Props.Identity
import Verif.Spec.FailClean
import Verif.Lemmas.FailClean
import Verif.Props.FailClean
import Verif.Model.NilPlan
import Verif.Spec.NilPlan
import Verif.Lemmas.NilPlan
import Verif.Props.NilPlan
import Verif.Spec.NilStore
import Verif.Lemmas.NilStore
import Verif.Props.NilStore
import Verif.Lemmas.GraphAttrsLock
import Verif.Props.GraphAttrsLock
import Verif.Lemmas.NilRace
import Verif.Props.NilRace
import Verif.Spec.JsonSafe
import Verif.Lemmas.JsonSafe
import Verif.Props.JsonSafe
import Verif.Model.DotIds
import Verif.Spec.DotIds
import Verif.Lemmas.DotIds
import Verif.Lemmas.DotIdsAbsent
import Verif.Props.DotIds
