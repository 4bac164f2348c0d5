import Verif.Mem
import Verif.Model
import Verif.Containers
import Verif.Bits
import Verif.Trie
import Verif.Exec
import Verif.Rep
import Verif.Sim
import Verif.SimIns
import Verif.SimSplit
import Verif.SimDel
import Verif.SimScan
import Verif.Inv
import Verif.Spec
import Verif.Inst
import Verif.Order
import Verif.Slot
import Verif.SpecLemmas
import Verif.Examples
import Verif.Refine
import Verif.PropsRefine
import Verif.PropsFuel
import Verif.Diverge
import Verif.Api
import Verif.PropsHang
import Verif.PropsMap
import Verif.PropsSet
import Verif.Bugs
import Verif.BugsMore
import Verif.PropsShape
import Verif.PropsMisc
import Verif.PropsLaws
import Verif.PropsGuard
import Verif.PropsWorld
import Verif.Callback
import Verif.PropsCallback
import Verif.BugsCallback
import Verif.Loose
import Verif.LooseSim
import Verif.PropsLoose
import Verif.PropsLooseMore
import Verif.BugsLoose
import Verif.PropsPanic
import Verif.PropsAny
import Verif.PropsCallbackSet
import Verif.Phantom
import Verif.PhantomSim
import Verif.PropsPhantom
import Verif.Kinds
import Verif.PhantomMap
import Verif.PropsPhantomMap
import Verif.BugsRest
import Verif.Rename
import Verif.PropsRename
import Verif.PropsMixed
import Verif.PropsExpect
import Verif.Scratch
import Verif.PropsScratch
import Verif.PropsEvery
import Verif.Apart
import Verif.PropsApart
import Verif.PropsBetween
import Verif.Float
import Verif.PropsFloat
import Verif.Go
import Verif.GoLoop
import Verif.GoStringMap
import Verif.GoStringSet
import Verif.GoBytesMap
import Verif.GoBytesSet
import Verif.GoArrMap
import Verif.GoArrSet
import Verif.GoIntMap
import Verif.GoIntSet
import Verif.GoMap
import Verif.GoSet
import Verif.GoTidy
import Verif.GoSlot
import Verif.GoSplit
import Verif.GoSimRead
import Verif.GoLevel
import Verif.GoSimIns
import Verif.GoUnlink
import Verif.GoSimDel
import Verif.GoKeep
import Verif.GoBridge
import Verif.GoHist
import Verif.PropsGo
import Verif.BugsGo
import Verif.BugsDeep
import Verif.Tag
import Verif.PropsOpaque
import Verif.KeyPanic
import Verif.PropsKeyPanic
import Verif.Many
import Verif.PropsMany
import Verif.PropsEnds
import Verif.PropsAlways
import Verif.Tree
import Verif.TreeOps
import Verif.TreeDel
import Verif.PropsTree
import Verif.PropsSpace
import Verif.PropsEqual
import Verif.PropsNan
import Verif.Tests
import Verif.PropsTests
import Verif.PropsTestsMore
import Verif.PropsGoCallback
import Verif.GoWith
import Verif.GoSim
import Verif.GoCells
import Verif.GoProg
import Verif.PropsGoProg
import Verif.PropsGoPlain
import Verif.Par
import Verif.ParStringMap
import Verif.ParBytesMap
import Verif.ParArrMap
import Verif.ParIntMap
import Verif.ParMap
import Verif.ParStringSet
import Verif.ParBytesSet
import Verif.ParArrSet
import Verif.ParIntSet
import Verif.ParSet
import Verif.ParDen
import Verif.ParRead
import Verif.ParLock
import Verif.ParHist
import Verif.PropsPar
import Verif.ParNat
import Verif.ParNatMap
import Verif.ParNatMap2
import Verif.ParNatSet
import Verif.ParOwn
import Verif.ParProg
import Verif.PropsOwn
import Verif.PropsRace
import Verif.PropsEnd
import Verif.PropsCost
import Verif.CostIns
import Verif.PropsCostIns
import Verif.CostMod
import Verif.PropsCostMod
import Verif.PropsCostMean
import Verif.CostScan
import Verif.PropsCostAll
import Verif.PropsCostHit
import Verif.PropsCostHist
import Verif.PropsCostTotal
import Verif.KeyUse
import Verif.PropsKeyUse
import Verif.PropsOnce
import Verif.PropsTail
import Verif.PropsSmall
import Verif.PropsLost
import Verif.PropsUndo
import Verif.PropsLarge
import Verif.PropsSwallow
