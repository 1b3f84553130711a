import Verif.Model.FileLoad
import Verif.Model.MetavecBuild
import Verif.Model.SegMeta
import Verif.Model.Query
/-!
# Queries of static objects, from the tool that describes them to the answers

What is modelled apart elsewhere is joined here: the tool that writes a table of static objects for each segment (`MetavecBuild`), the load of a
file with its big allocations (`FileLoad`), the tables given to its segments (`SegMeta`), the page index in which a query begins (`PageIndex`), the
search of a table (`StaticSym`), and the simple queries (`Query`).

Simplifications: as in those models; a table's number is the address of its segment. The contents of a file's record are a load address, symbol tables
and words by offset. What allocators of other things find is an input.
-/
namespace Liballocs.StaticObj

open PageIndex
open FileLoad (mmapId fileId segId secId symId)
open MetavecBuild (Sym Static RelScn Tabs GRec Word)

/-- A binary: the file, what the tool reads from it, the symbol tables at run time, the length of its record and the words in it by offset, and whether
it is one of the early ones. -/
structure Bin where
  file : FileLoad.File
  symtab : List Sym
  statics : List Static
  scns : List RelScn
  tabs : Tabs
  recLen : Nat
  words : Nat → Nat
  early : Bool

/-- The program headers, as far as the tables' names go. -/
def Bin.phdrs (b : Bin) : List SegMeta.Phdr := b.file.phdrs.map (fun p => ⟨p.load, p.vaddr⟩)

/-- The records that the tool generates. -/
def Bin.recs (b : Bin) : Option (List (Nat × GRec)) := MetavecBuild.generate b.symtab b.statics b.scns

/-- The table for the segment at `v` (tools/metavector.cpp:170-184, 462-513). -/
def Bin.table (b : Bin) (recs : List (Nat × GRec)) (v : Nat) : List Word :=
  match b.file.phdrs.find? (fun p => p.load && decide (p.vaddr = v)) with
  | none => []
  | some p => MetavecBuild.segment p.vaddr (p.vaddr + p.memsz) recs

/-- The meta object, if the tool did not fail. -/
def Bin.metaObj (b : Bin) : Option SegMeta.MetaObj := b.recs.map (fun _ => SegMeta.make id b.phdrs)

/-- The segments' records once the file is loaded (src/allocators/static-file.c:240-265, 413-519). -/
def Bin.segs (b : Bin) : Option SegMeta.File :=
  match b.early with
  | true => (SegMeta.notifyLoad true b.phdrs b.metaObj).bind (fun f => SegMeta.loadEarly f b.metaObj)
  | false => SegMeta.notifyLoad false b.phdrs b.metaObj

/-- What a segment's record refers to: `metavector`, of no size if it is NULL (src/allocators/static-segment.c:52-83). -/
def Bin.tableOf (b : Bin) (s : SegMeta.Seg) : List Word :=
  match s.vec, b.recs with
  | some v, some recs => b.table recs v
  | _, _ => []

/-- What a file's record refers to (include/allocmeta.h:490-506). -/
structure FileRec where
  load : Nat
  tabs : Tabs

/-- The page index, and the records in memory: the tables of segments' records, what files' records refer to,
and words. -/
structure World where
  pi : State
  seg : Nat → List Word
  file : Nat → Option FileRec
  mem : Nat → Nat

/-- Which of the first `n` segments of a file has its record at `p`. -/
def segNum (F : FileLoad.File) (n p : Nat) : Option Nat := (List.range n).find? (fun i => decide (F.segPtr i = p))

/-- The tables of segments' records after a load. -/
def segAfter (b : Bin) (segs : List SegMeta.Seg) (old : Nat → List Word) (p : Nat) : List Word :=
  match segNum b.file segs.length p with
  | none => old p
  | some i =>
    match segs[i]? with
    | none => old p
    | some s => b.tableOf s

/-- The load of a file (src/allocators/static-file.c:413-523 and, for an early one, 240-265). -/
def load (c : Config) (w : World) (b : Bin) : Option World :=
  match FileLoad.loadFile c w.pi b.file, b.segs with
  | some s, some f => some ⟨s, segAfter b f.segs w.seg, fun p => if p = b.file.info then some ⟨b.file.laddr, b.tabs⟩ else w.file p,
      fun a => if b.file.info ≤ a ∧ a < b.file.info + b.recLen then b.words (a - b.file.info) else w.mem a⟩
  | _, _ => none

/-- The unload of the files of a name (src/allocators/static-file.c:551-575). -/
def unload (c : Config) (nameOf : Nat → Nat) (name : Nat) (w : World) : Option World :=
  match FileLoad.unloadFile c nameOf name w.pi with
  | some s => some { w with pi := s }
  | none => none

/-- Offset of `m` in a file's record (include/allocmeta.h:490-506). -/
def OFF_M : Nat := 48

/-- The big allocation of the segment for a symbol, section or segment (src/allocators/static-symbol.c:290-299); `none`: an assertion fails. -/
def segmentOf (s : State) (b : Nat) : Option Nat :=
  let x := if s.alloc b = symId then s.par b else b
  if s.alloc x = secId then (if s.alloc (s.par x) = segId then some (s.par x) else none)
  else if s.alloc x = segId then some x
  else none

/-- `get_info` of static symbols for a given big allocation (src/allocators/static-symbol.c:290-382); `ls` is the offset of `load_site` in librunt's
part of the record, `pb` the type of bytes. The outer `none`: a failed assertion, a wild pointer, or an index outside a symbol table. -/
def symbolInfo (w : World) (ls pb b obj : Nat) : Option (Option Query.Rec) :=
  (segmentOf w.pi b).bind (fun g =>
    (w.file (w.pi.priv (w.pi.par g))).bind (fun f =>
      (MetavecBuild.resolveAll f.tabs (w.seg (w.pi.priv g))).map (fun v =>
        (StaticSym.getInfo v f.load pb obj).map (fun i => ⟨i.base, i.size, i.type, w.mem (w.pi.priv (w.pi.par g) + OFF_M + ls)⟩))))

/-- `get_info` of segments (src/allocators/static-segment.c:171-185): the parent's record is taken for librunt's part of it. -/
def segmentInfo (w : World) (ls pb b : Nat) : Query.Rec :=
  ⟨w.pi.beg b, w.pi.fin b - w.pi.beg b, pb, w.mem (w.pi.priv (w.pi.par b) + ls)⟩

/-- What a query finds at an address (include/liballocs.h:630-651, include/pageindex.h:167-237): nothing, or the leaf allocator and what its `get_info`
finds, given the deepest big allocation. (Files are suballocated by segments, so the file allocator is the leaf of nothing.) -/
def find (c : Config) (w : World) (ls pb : Nat) (rest : Nat → Nat → Query.Obj) (obj : Nat) : Option Query.At :=
  match leafBig c w.pi obj, leafAllocator c w.pi obj with
  | some b, some a =>
    if a = 0 then some none
    else if a = symId then (symbolInfo w ls pb b obj).map (fun r => some (a, .table .static r))
    else if a = segId then some (some (a, .whole (segmentInfo w ls pb b)))
    else some (some (a, rest a obj))
  | _, _ => none

end Liballocs.StaticObj
