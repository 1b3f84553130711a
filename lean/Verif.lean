import Verif.Props.Fill
import Verif.Props.Insert
import Verif.Props.MallocIndex
import Verif.Props.Sbrk
import Verif.Props.Addrlist
import Verif.Props.Memtable
import Verif.Props.LinearMalloc
import Verif.Props.PrivHeap
import Verif.Props.Alloca
import Verif.Props.Auxv
import Verif.Props.Lifetime
import Verif.Props.Cache
import Verif.Props.Allocsites
import Verif.Props.Metavec
import Verif.Props.Subobject
import Verif.Props.MapSeq
import Verif.Props.Munmap
import Verif.Props.Brk
import Verif.Props.PackedSeq
import Verif.Props.Bfs
import Verif.Props.Walk
import Verif.Props.TypeMemo
import Verif.Props.SmallIndex
import Verif.Props.StackFrame
import Verif.Props.StaticSym
import Verif.Props.PageIndexFails
import Verif.Props.Mmap
import Verif.Props.Join
import Verif.Props.StackClaim
import Verif.Props.LazyIndex
import Verif.Props.Syscalls
import Verif.Props.InnerType
import Verif.Props.InlineCache
import Verif.Props.CallerWrap
import Verif.Props.Unwind
import Verif.Props.MetaDso
import Verif.Props.FileLoad
import Verif.Props.FileUnload
import Verif.Props.MetavecBuild
import Verif.Props.StartScan
import Verif.Props.ExecScan
import Verif.Model.Query
import Verif.Props.Query
import Verif.Model.LdSoArena
import Verif.Model.Detour
import Verif.Model.SmallTable
import Verif.Props.LdSoArena
import Verif.Props.Detour
import Verif.Props.SmallTable
import Verif.Props.DwarfMachine
import Verif.Model.FrameTypes
import Verif.Proofs.FrameTypes
import Verif.Props.FrameTypes
import Verif.Props.CilTypes
import Verif.Props.Sizeof
import Verif.Props.AllocCalls
import Verif.Props.WalkRefs
import Verif.Props.RtTypes
import Verif.Model.MergeSites
import Verif.Model.ObjdumpMeta
import Verif.Props.MergeSites
import Verif.Props.ObjdumpMeta
import Verif.Model.StartUp
import Verif.Props.StartUp
import Verif.Model.LinkArgs
import Verif.Props.LinkArgs
import Verif.Model.TypeNames
import Verif.Props.TypeNames
import Verif.Model.Printing
import Verif.Props.Printing
import Verif.Model.MetaLoad
import Verif.Model.StackInit
import Verif.Props.MetaLoad
import Verif.Props.StackInit
import Verif.Model.SmallHeap
import Verif.Props.SmallHeap
import Verif.Model.TrapScan
import Verif.Props.TrapScan
import Verif.Model.EarlyFind
import Verif.Props.EarlyFind
import Verif.Model.StackWalk
import Verif.Props.StackWalk
import Verif.Model.WildReport
import Verif.Props.WildReport
import Verif.Model.SegMeta
import Verif.Props.SegMeta
import Verif.Model.CcArgs
import Verif.Proofs.CcArgs
import Verif.Props.CcArgs
import Verif.Model.StubGen
import Verif.Props.StubGen
import Verif.Model.ExtraSyms
import Verif.Props.ExtraSyms
import Verif.Model.ChainLd
import Verif.Props.ChainLd
import Verif.Model.MonAlloca
import Verif.Props.MonAlloca
import Verif.Model.TrapWrites
import Verif.Props.TrapWrites
import Verif.Model.CilSimp
import Verif.Props.CilSimp
import Verif.Model.HeapObj
import Verif.Props.HeapObj
import Verif.Model.SitePipe
import Verif.Props.SitePipe
import Verif.Model.StaticObj
import Verif.Props.StaticObj
import Verif.Model.FrameCompact
import Verif.Props.FrameCompact
import Verif.Model.SrcRec
import Verif.Props.SrcRec
import Verif.Model.LdFlags
import Verif.Proofs.LdFlags
import Verif.Props.LdFlags
import Verif.Model.UsedTypes
import Verif.Props.UsedTypes
import Verif.Model.StackObj
import Verif.Props.StackObj
import Verif.Props.RepoTests
import Verif.Model.CallRegexp
import Verif.Props.CallRegexp
import Verif.Model.MetaBuild
import Verif.Props.MetaBuild
import Verif.Model.PageCheck
import Verif.Props.PageCheck
import Verif.Model.Stats
import Verif.Props.Stats
import Verif.Model.ErrStream
import Verif.Props.ErrStream
import Verif.Model.AllocaObj
import Verif.Props.AllocaObj
import Verif.Model.LdSoObj
import Verif.Props.LdSoObj
import Verif.Model.FrameTrad
import Verif.Proofs.FrameTrad
import Verif.Props.FrameTrad
import Verif.Model.AllocTypes
import Verif.Props.AllocTypes
import Verif.Model.DumpPtrs
import Verif.Proofs.DumpPtrs
import Verif.Props.DumpPtrs
import Verif.Model.IfaceTypes
import Verif.Props.IfaceTypes
import Verif.Model.Symlinks
import Verif.Props.Symlinks
import Verif.Model.BitmapText
import Verif.Props.BitmapText
import Verif.Model.MemAcc
import Verif.Props.MemAcc
import Verif.Model.TwoLinks
import Verif.Props.TwoLinks
import Verif.Model.BuildSteps
import Verif.Props.BuildSteps
import Verif.Model.LdSoWalk
import Verif.Props.LdSoWalk
import Verif.Model.GoldRead
import Verif.Props.GoldRead
import Verif.Model.UsableSize
import Verif.Props.UsableSize
import Verif.Model.IfuncPos
import Verif.Props.IfuncPos
import Verif.Model.LinkInfo
import Verif.Props.LinkInfo
import Verif.Model.SectionInfo
import Verif.Props.SectionInfo
import Verif.Model.SymAddr
import Verif.Props.SymAddr
import Verif.Model.Specific
import Verif.Props.Specific
import Verif.Model.CuFiles
import Verif.Props.CuFiles
import Verif.Model.NoopGen
import Verif.Props.NoopGen
import Verif.Model.TypedAlloc
import Verif.Props.TypedAlloc
