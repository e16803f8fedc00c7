import Verif.Abs.CTJournalKeep
import Verif.Abs.CoordRefine
import Verif.Abs.Coordination
import Verif.Abs.Demo
import Verif.Abs.Machines
import Verif.Abs.MsgHistory
import Verif.Alloc.AllocationBranch
import Verif.Alloc.AllocationBranchBetree
import Verif.Alloc.AllocationBranchBetreeProof
import Verif.Alloc.AllocationBranchProof
import Verif.Alloc.BranchBuild
import Verif.Alloc.BranchDemo
import Verif.Alloc.BranchLedgerSpec
import Verif.Alloc.BranchLift
import Verif.Alloc.BranchPossible
import Verif.Alloc.BranchRuns
import Verif.Alloc.BranchSet
import Verif.Alloc.BranchWips
import Verif.Alloc.LikesBetree
import Verif.Alloc.LikesProof
import Verif.Alloc.LikesSpec
import Verif.Alloc.LikesTree
import Verif.Alloc.MiniAllocator
import Verif.Bank.Demo
import Verif.Bank.History
import Verif.Bank.Ledger
import Verif.Bank.Live
import Verif.Bank.Proof
import Verif.Bank.Refine
import Verif.Bank.Simple
import Verif.Bank.Spec
import Verif.Base.AList
import Verif.Base.Disk
import Verif.Base.MSet
import Verif.Base.PMap
import Verif.Base.Trace
import Verif.Betree.Branch
import Verif.Betree.BranchProof
import Verif.Betree.Buffer
import Verif.Betree.BufferSeq
import Verif.Betree.Filtered
import Verif.Betree.Keys
import Verif.Betree.Linked
import Verif.Betree.LinkedBranch
import Verif.Betree.LinkedBranchProof
import Verif.Betree.LinkedPossible
import Verif.Betree.LinkedProof
import Verif.Betree.MapBehaviour
import Verif.Betree.Paged
import Verif.Betree.Pivot
import Verif.Betree.Receipt
import Verif.Betree.Tree
import Verif.Disk.AsyncDisk
import Verif.Disk.Cache
import Verif.Disk.CacheDemo
import Verif.Disk.CacheSystem
import Verif.Donate.Model
import Verif.Donate.Proof
import Verif.Filesys.Demo
import Verif.Filesys.Freed
import Verif.Filesys.Model
import Verif.Filesys.Proof
import Verif.Filesys.View
import Verif.HashMap.Model
import Verif.Impl.Codec
import Verif.Impl.Implementation
import Verif.Impl.ImplementationDemo
import Verif.Impl.ImplementationProof
import Verif.Impl.ImplementationRefine
import Verif.Impl.System
import Verif.Impl.SystemDemo
import Verif.Impl.SystemProof
import Verif.Journal.Allocation
import Verif.Journal.AllocationLive
import Verif.Journal.AllocationProof
import Verif.Journal.Cached
import Verif.Journal.CachedProof
import Verif.Journal.CachedSystem
import Verif.Journal.CrashAware
import Verif.Journal.CrashAwareProof
import Verif.Journal.Index
import Verif.Journal.Linked
import Verif.Journal.Paged
import Verif.Journal.RecordCodec
import Verif.Journal.UnifiedProof
import Verif.Kv.AppSucc
import Verif.Kv.Betree
import Verif.Kv.BetreeDemo
import Verif.Kv.BetreeProof
import Verif.Kv.Bitmap
import Verif.Kv.BlockAlloc
import Verif.Kv.BlockCache
import Verif.Kv.BlockDisk
import Verif.Kv.BlockImpl
import Verif.Kv.BlockImplProof
import Verif.Kv.BlockProof
import Verif.Kv.BlockRefine
import Verif.Kv.BlockSystem
import Verif.Kv.Btree
import Verif.Kv.BtreeProof
import Verif.Kv.ByteDemo
import Verif.Kv.ByteDisk
import Verif.Kv.ByteLemmas
import Verif.Kv.ByteProof
import Verif.Kv.ByteRecover
import Verif.Kv.ByteReopen
import Verif.Kv.ByteStep
import Verif.Kv.ByteSystem
import Verif.Kv.ByteTie
import Verif.Kv.Client
import Verif.Kv.ClientProof
import Verif.Kv.Committer
import Verif.Kv.CommitterProof
import Verif.Kv.Composite
import Verif.Kv.CompositeProof
import Verif.Kv.Crc
import Verif.Kv.CrcDetect
import Verif.Kv.CrcImpl
import Verif.Kv.CrcImplProof
import Verif.Kv.CrcPoly
import Verif.Kv.DiskHandler
import Verif.Kv.DiskHandlerKept
import Verif.Kv.DiskHandlerProof
import Verif.Kv.Driven
import Verif.Kv.DrivenDemo
import Verif.Kv.DynProof
import Verif.Kv.FitRun
import Verif.Kv.Full
import Verif.Kv.FullDemo
import Verif.Kv.FullImpl
import Verif.Kv.FullImplDemo
import Verif.Kv.FullImplProof
import Verif.Kv.FullProof
import Verif.Kv.HashMap
import Verif.Kv.HashProof
import Verif.Kv.IndTable
import Verif.Kv.IndTableInit
import Verif.Kv.IndTableProof
import Verif.Kv.JournalBytes
import Verif.Kv.JournalBytesProof
import Verif.Kv.JournalCache
import Verif.Kv.JournalDemo
import Verif.Kv.JournalDisk
import Verif.Kv.JournalProof
import Verif.Kv.JournalRange
import Verif.Kv.JournalRecover
import Verif.Kv.JournalRing
import Verif.Kv.JournalView
import Verif.Kv.Journalist
import Verif.Kv.JournalistProof
import Verif.Kv.JournalistRun
import Verif.Kv.KeyOrder
import Verif.Kv.Layout
import Verif.Kv.Ledger
import Verif.Kv.LedgerProof
import Verif.Kv.LenLimits
import Verif.Kv.MapSpec
import Verif.Kv.Marshal
import Verif.Kv.MarshalProof
import Verif.Kv.Mkfs
import Verif.Kv.MkfsDemo
import Verif.Kv.MutBucket
import Verif.Kv.MutBucketProof
import Verif.Kv.Ops
import Verif.Kv.PackedFlush
import Verif.Kv.PackedFlushProof
import Verif.Kv.PackedIter
import Verif.Kv.PackedTranslate
import Verif.Kv.Pivot
import Verif.Kv.PivotBucket
import Verif.Kv.PivotDemo
import Verif.Kv.PivotFit
import Verif.Kv.PivotMap
import Verif.Kv.PivotNode
import Verif.Kv.PivotProof
import Verif.Kv.PivotStep
import Verif.Kv.Psa
import Verif.Kv.PsaProof
import Verif.Kv.Queue
import Verif.Kv.QueueProof
import Verif.Kv.SectorBytes
import Verif.Kv.SectorProof
import Verif.Kv.StatesView
import Verif.Kv.Store
import Verif.Kv.StoreDemo
import Verif.Kv.StoreProof
import Verif.Kv.SuperblockBytes
import Verif.Kv.System
import Verif.Kv.SystemDemo
import Verif.Kv.SystemProof
import Verif.Kv.TableLimits
import Verif.Kv.TreeFlush
import Verif.Kv.TreeImpl
import Verif.Kv.TreeImplProof
import Verif.Kv.TreeLimits
import Verif.Kv.TreeSucc
import Verif.Kv.Waits
import Verif.Marshal.Base
import Verif.Marshal.Int
import Verif.Marshal.KV
import Verif.Marshal.Resizable
import Verif.Marshal.Seq
import Verif.Marshal.Uniform
import Verif.Marshal.Variable
import Verif.Props.C01
import Verif.Props.C02
import Verif.Props.C03
import Verif.Props.C04
import Verif.Props.C05
import Verif.Props.C06
import Verif.Props.C07
import Verif.Props.C08
import Verif.Props.C09
import Verif.Props.C10
import Verif.Props.C11
import Verif.Props.C12
import Verif.Props.C13
import Verif.Props.C14
import Verif.Props.C15
import Verif.Props.C16
import Verif.Props.C17
import Verif.Props.C18
import Verif.Props.C19
import Verif.Props.C20
import Verif.Props.C21
import Verif.Props.C22
import Verif.Props.C23
import Verif.Props.C24
import Verif.Props.C25
import Verif.Props.C26
import Verif.Props.C27
import Verif.Props.C28
import Verif.Props.C29
import Verif.Props.C30
import Verif.Props.C31
import Verif.Props.C32
import Verif.Props.C33
import Verif.Props.C34
import Verif.Props.C35
import Verif.Props.C36
import Verif.Props.C37
import Verif.Props.C38
import Verif.Props.C39
import Verif.Props.C40
import Verif.Props.C41
import Verif.Props.C42
import Verif.Props.C43
import Verif.Props.C44
import Verif.Props.C45
import Verif.Props.C46
import Verif.Props.C47
import Verif.Props.C48
import Verif.Props.C49
import Verif.Props.C50
import Verif.Props.C51
import Verif.Props.C52
import Verif.Props.C53
import Verif.Props.C54
import Verif.Props.C55
import Verif.Props.C56
import Verif.Props.C57
import Verif.Props.C58
import Verif.Props.C59
import Verif.Props.C60
import Verif.Props.C61
import Verif.Props.C62
import Verif.Props.C63
import Verif.Props.C64
import Verif.Props.C65
import Verif.Props.C66
import Verif.Props.C67
import Verif.Props.C68
import Verif.Props.C69
import Verif.Props.C70
import Verif.Props.C71
import Verif.Props.C72
import Verif.Props.C73
import Verif.Props.C74
import Verif.Props.C75
import Verif.Props.C76
import Verif.Props.C77
import Verif.Props.C78
import Verif.Props.C79
import Verif.Props.C80
import Verif.Props.C81
import Verif.Props.C82
import Verif.Props.C83
import Verif.Props.C84
import Verif.Props.C85
import Verif.Props.C86
import Verif.Props.C87
import Verif.Props.C88
import Verif.Props.C89
import Verif.Props.C90
import Verif.Props.C91
import Verif.Props.C92
import Verif.Props.C93
import Verif.Refcounter.Model
import Verif.Scache.Inv
import Verif.Scache.Model
import Verif.Scache.Proof
import Verif.Scache.Slot
import Verif.Scache.Steps
import Verif.Spec.ClientSpec
import Verif.Spec.ClientSpecProof
import Verif.Spec.FloatingSeq
import Verif.Spec.MapSpec
import Verif.Spec.Messages
import Verif.Token.Concrete
import Verif.Token.Demo
import Verif.Token.History
import Verif.Token.MSetMap
import Verif.Token.Proof
import Verif.Token.Refine
import Verif.Token.Tokens
