import Verif.Float32
import Verif.Spec
import Verif.Foa.Prober
import Verif.Foa.Load
import Verif.Foa.Group
import Verif.Foa.Table
import Verif.Foa.Inv
import Verif.Foa.Ops
import Verif.Foa.Ops2
import Verif.Foa.Iter
import Verif.Foa.IterErase
import Verif.Foa.Machine
import Verif.Foa.Refine
import Verif.Props.FoaMap
import Verif.Foa.GroupTables
import Verif.Foa.GroupImpl
import Verif.Foa.GroupSim
import Verif.Foa.Layout
import Verif.Arith.PrimeFmod
import Verif.Arith.Mulx
import Verif.Props.Group
import Verif.Props.Arith
import Verif.SpecC
import Verif.Fca.Gba
import Verif.Fca.GbaInv
import Verif.Fca.GbaOps
import Verif.Fca.Table
import Verif.Fca.Cursor
import Verif.Fca.Inv
import Verif.Fca.Ops
import Verif.Fca.Ops2
import Verif.Fca.Ops3
import Verif.Fca.Ops4
import Verif.Fca.Ops5
import Verif.Fca.Equal
import Verif.Fca.Machine
import Verif.Fca.Refine
import Verif.Fca.LoadInv
import Verif.Fca.LoadBound
import Verif.Props.FcaMap
import Verif.Props.FcaExtra
import Verif.Props.FcaLoad
import Verif.Fca.LoadPolicy
import Verif.Fca.LoadProg
import Verif.Props.FcaLoadProg
import Verif.Foa.Exceptions
import Verif.Foa.ExcLemmas
import Verif.Foa.ExcOps
import Verif.Foa.ExcOps2
import Verif.SpecExc
import Verif.Foa.ExcMachine
import Verif.Foa.ExcRefine
import Verif.Props.FoaExc
import Verif.Conc.Spinlock
import Verif.Props.ConcLock
import Verif.Conc.Locking
import Verif.Props.ConcDeadlock
import Verif.Conc.Table
import Verif.Conc.TabMem
import Verif.Conc.TabAcct
import Verif.Conc.TabPc
import Verif.Conc.TabStep
import Verif.Conc.TabInv
import Verif.SpecT
import Verif.Conc.TabLin
import Verif.Conc.TabCount
import Verif.Conc.TabSweep
import Verif.Conc.TabRun
import Verif.Props.ConcTable
import Verif.Conc.TabBound
import Verif.Conc.TabLive
import Verif.Conc.TabSolo
import Verif.Conc.TabAlone
import Verif.Props.ConcProgress
import Verif.Conc.Bulk
import Verif.Conc.BulkRef
import Verif.Conc.BulkRun
import Verif.Props.ConcBulk
import Verif.SpecSer
import Verif.Foa.Serial
import Verif.Fca.Serial
import Verif.Props.Serial
import Verif.Fca.Reserve
import Verif.Props.FcaReserve
import Verif.SpecExcC
import Verif.Fca.Unlink
import Verif.Fca.Exceptions
import Verif.Fca.ExcLemmas
import Verif.Fca.ExcOps
import Verif.Fca.ExcOps2
import Verif.Fca.ExcOps3
import Verif.Fca.ExcMachine
import Verif.Fca.ExcRefine
import Verif.Props.FcaExc
import Verif.SpecFn
import Verif.Fca.Functions
import Verif.Fca.FunctionsInv
import Verif.Props.FcaFns
import Verif.SpecNode
import Verif.Node.Handle
import Verif.Node.Machine
import Verif.Node.Laws
import Verif.Node.Refine
import Verif.Node.Step
import Verif.Node.FoaCont
import Verif.Node.FcaCont
import Verif.Props.NodeHandle
import Verif.Foa.Heap
import Verif.Foa.HeapLemmas
import Verif.Props.Memory
import Verif.SpecLife
import Verif.Conc.CacheArray
import Verif.Props.ConcArray
import Verif.Conc.Weak
import Verif.Conc.WeakAcct
import Verif.Conc.WeakInv
import Verif.Conc.WeakLin
import Verif.Props.ConcWeak
import Verif.SpecTExc
import Verif.Conc.Exc
import Verif.Conc.ExcInv
import Verif.Conc.ExcLin
import Verif.Conc.ExcSweep
import Verif.Conc.ExcRun
import Verif.Props.ConcExc
import Verif.Foa.Storage
import Verif.Foa.StorageLemmas
import Verif.Props.Storage
import Verif.Conc.Multi
import Verif.Conc.MultiInv
import Verif.Conc.MultiRun
import Verif.Props.ConcMulti
import Verif.SpecStats
import Verif.Foa.Stats
import Verif.Foa.StatsArith
import Verif.Foa.StatsLemmas
import Verif.Foa.StatsRefine
import Verif.Props.Stats
import Verif.SpecReentry
import Verif.Conc.Reentry
import Verif.Conc.ReentryInv
import Verif.Props.ConcReentry
import Verif.Fca.Storage
import Verif.Fca.StorageLemmas
import Verif.Props.FcaStorage
import Verif.SpecTrack
import Verif.Serial.Track
import Verif.Foa.SerialIter
import Verif.Fca.SerialIter
import Verif.Props.SerialIter
import Verif.Props.SerialIterC
import Verif.Serial.TrackLoad
import Verif.Props.SerialAny
import Verif.SpecCost
import Verif.Foa.Work
import Verif.Fca.Work
import Verif.Props.Cost
import Verif.SpecAddr
import Verif.Props.FcaAddr
import Verif.SpecHet
import Verif.Foa.Het
import Verif.Foa.HetLemmas
import Verif.Fca.Het
import Verif.Fca.HetLemmas
import Verif.Props.Het
import Verif.Conc.Nested
import Verif.Props.ConcNested
import Verif.SpecArgs
import Verif.Obj.Insert
import Verif.Obj.Lemmas
import Verif.Props.Args
import Verif.SpecAddrO
import Verif.Foa.AddrLemmas
import Verif.Foa.AddrStep
import Verif.Props.FoaAddr
import Verif.Debug.Printers
import Verif.Props.Printers
import Verif.Fca.Asserts
import Verif.Props.FcaAsserts
import Verif.Conc.TabWhile
import Verif.Props.ConcWhile
import Verif.Foa.LoadIface
import Verif.Props.FoaLoad
import Verif.Conc.Interop
import Verif.Props.ConcInterop
import Verif.Conc.Overloads
import Verif.Props.ConcOverloads
import Verif.Conc.Nodes
import Verif.Conc.NodesTab
import Verif.Conc.NodesInv
import Verif.Conc.NodesRun
import Verif.Conc.NodesPoint
import Verif.Props.ConcNodes
import Verif.Props.ConcNodesKey
import Verif.Props.ConcNodesLife
import Verif.Conc.NodesExc
import Verif.Props.ConcNodesExc
import Verif.Conc.AssignList
import Verif.Props.ConcAssign
import Verif.Props.ConcPassStop
import Verif.Props.ConcNodesSweep
