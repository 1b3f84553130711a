import Verif.Model.PageIndex
/-!
# Loading and unloading of files: file, segment and section allocators

`src/allocators/static-file.c`, `src/allocators/static-segment.c`, `src/allocators/static-section.c`, over the model of big
allocations.

Simplifications: librunt calls back for each loadable segment in the order of the program headers and then for each section in
the order of the section headers (its contract); the file's metadata pointer is stored when the big allocation is created, not
at the end of the load; a mapping with metadata has an entry for each of its addresses; the executable's program break and the
dynamic linker's own allocator (src/allocators/static-file.c:494-519) are left out; mapping sequences are left out of the
plugging of holes.
-/
namespace Liballocs.FileLoad

open PageIndex Fill

/-- The allocators: mappings, files, segments, sections, symbols. -/
def mmapId : Nat := 11
def fileId : Nat := 12
def segId : Nat := 13
def secId : Nat := 14
def symId : Nat := 15

/-- `free_file_metadata`, as a destructor. -/
def fileFree : Nat := 16

/-- A program header: is it `PT_LOAD`, `p_vaddr`, `p_memsz`. -/
structure Phdr where
  load : Bool
  vaddr : Nat
  memsz : Nat

/-- A section header: `sh_addr`, `sh_size`, and whether `SHF_ALLOC` is set. -/
structure Shdr where
  addr : Nat
  size : Nat
  alloc : Bool
  deriving DecidableEq

/-- A file being loaded: `l_addr`, the headers, its metadata, `executable_data_segment_start_addr`, and the addresses of its segments' records
(`&afile->m.segments[i]`) and section headers. -/
structure File where
  laddr : Nat
  phdrs : List Phdr
  shdrs : List Shdr
  info : Nat
  data : Nat
  segPtr : Nat → Nat
  shdrPtr : Nat → Nat

/-- One iteration of `vaddr_bounds_cb` (src/allocators/static-file.c:133-146); no lowest address yet is `(uintptr_t) -1`. -/
def boundsStep (b : Option Nat × Nat) (p : Phdr) : Option Nat × Nat :=
  if p.load then
    ((match b.1 with
      | none => some p.vaddr
      | some lo => if p.vaddr < lo then some p.vaddr else some lo),
     if p.vaddr + p.memsz > b.2 then p.vaddr + p.memsz else b.2)
  else b

/-- `vaddr_bounds_cb` (src/allocators/static-file.c:125-148). -/
def bounds (ph : List Phdr) : Option Nat × Nat := ph.foldl boundsStep (none, 0)

/-- `__liballocs_get_memory_mapping` (src/query.c:205-225), 0 for NULL. -/
def mappingOf (c : Config) (s : State) (addr : Nat) : Option Nat :=
  (topLevel c s addr).bind (fun r =>
    if r = 0 then some 0
    else (assertIf c (s.alloc r == mmapId)).bind (fun _ => if s.priv r = 0 then some 0 else some r))

/-- The check that a hole is free (src/allocators/static-file.c:311-317). -/
def holeFree (s : State) (lo hi : Nat) : Bool :=
  (List.range' (pagenum lo) (pagenum hi - pagenum lo)).all (fun q => entry s q == 0)

/-- `plug_hole_or_abort` (src/allocators/static-file.c:284-410), the effect on big allocations. -/
def plugHole (c : Config) (s : State) (m1 m2 : Nat) : Option State :=
  if s.beg m2 > s.fin m1 then
    if s.beg m2 - s.fin m1 > c.maxPages * PAGE then none
    else if holeFree s (s.fin m1) (s.beg m2) then
      let upperEnd := s.fin m2
      (deleteAt c s (s.beg m2) mmapId).bind (fun r => if r.2 then adjustEnd c r.1 m1 upperEnd else none)
    else none
  else none

/-- Setting the suballocator. -/
def setSub (s : State) (b v : Nat) : State := { s with sub := upd s.sub b v }

/-- `__static_segment_allocator_notify_define_segment` (src/allocators/static-segment.c:87-158); `i` is `loadndx`. -/
def defineSeg (c : Config) (s : State) (F : File) (i : Nat) (p : Phdr) : Option State :=
  (fromRoot c s (F.laddr + p.vaddr) fileId false).bind (fun f =>
    if f = 0 then none
    else (newBigalloc c s (F.laddr + p.vaddr) p.memsz f ⟨segId, 0, F.segPtr i, 0, 0, 0⟩).bind (fun r =>
      if F.laddr + p.vaddr = F.data then
        (adjustEnd c r.1 r.2 (r.1.fin (r.1.par r.2))).map (fun s => setSub s r.2 symId)
      else some r.1))

/-- Librunt's calls for the loadable segments, which are numbered from `i`. -/
def defineSegs (c : Config) (F : File) : State → Nat → List Phdr → Option State
  | s, _, [] => some s
  | s, i, p :: l => if p.load then (defineSeg c s F i p).bind (fun s => defineSegs c F s (i + 1) l) else defineSegs c F s i l

/-- `__static_section_allocator_notify_define_section` and `__static_section_allocator_ensure_big`
(src/allocators/static-section.c:33-75); `i` is the header's number. -/
def defineSec (c : Config) (s : State) (F : File) (i : Nat) (h : Shdr) : Option State :=
  if h.size = 0 then some s
  else (fromRoot c s (F.laddr + h.addr) secId false).bind (fun already =>
    if already ≠ 0 then some s
    else (fromRoot c s (F.laddr + h.addr) segId false).bind (fun seg =>
      if seg = 0 then none
      else (newBigalloc c s (F.laddr + h.addr) h.size seg ⟨secId, 0, F.shdrPtr i, 0, 0, 0⟩).map (fun r => setSub r.1 r.2 symId)))

/-- Librunt's calls for the sections, whose headers are numbered from `i`. -/
def defineSecs (c : Config) (F : File) : State → Nat → List Shdr → Option State
  | s, _, [] => some s
  | s, i, h :: l => (defineSec c s F i h).bind (fun s => defineSecs c F s (i + 1) l)

/-- `__static_file_allocator_notify_load` (src/allocators/static-file.c:413-523). -/
def loadFile (c : Config) (s : State) (F : File) : Option State :=
  match bounds F.phdrs with
  | (none, _) => none
  | (some lo, hi) =>
    (mappingOf c s (F.laddr + lo)).bind (fun m1 =>
      (mappingOf c s (F.laddr + hi - 1)).bind (fun m2 =>
        if m1 = 0 ∨ m2 = 0 then none
        else (if m2 = m1 then some s else plugHole c s m1 m2).bind (fun s =>
          (newBigalloc c s (s.beg m1) (F.laddr + hi - s.beg m1) m1 ⟨fileId, 0, F.info, fileFree, 0, 0⟩).bind (fun r =>
            (defineSegs c F (setSub r.1 r.2 segId) 0 F.phdrs).bind (fun s => defineSecs c F s 0 F.shdrs)))))

/-- The body of the loop of `__static_file_allocator_notify_unload`; `nameOf` gives the file name in some metadata. -/
def unloadStep (c : Config) (nameOf : Nat → Nat) (name : Nat) (s : State) (b : Nat) : Option State :=
  if inUse s b ∧ s.alloc b = fileId ∧ nameOf (s.priv b) = name then (deleteAt c s (s.beg b) fileId).map Prod.fst else some s

/-- `__static_file_allocator_notify_unload` (src/allocators/static-file.c:551-575). -/
def unloadFile (c : Config) (nameOf : Nat → Nat) (name : Nat) (s : State) : Option State :=
  (List.range c.nb).foldlM (unloadStep c nameOf name) s

/-- The search of the section headers in the section allocator's `get_info` (src/allocators/static-section.c:116-130): base and
size. -/
def sectionOf (F : File) (obj : Nat) : Option (Nat × Nat) :=
  (F.shdrs.find? (fun h => h.alloc && decide (F.laddr + h.addr ≤ obj) && decide (obj < F.laddr + h.addr + h.size))).map
    (fun h => (F.laddr + h.addr, h.size))

end Liballocs.FileLoad
