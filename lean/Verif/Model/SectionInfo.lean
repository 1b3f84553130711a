import Verif.Model.StaticObj
/-!
# What the section allocator says, and where files' records are found

`get_info` in `src/allocators/static-section.c`, and the files' records of `src/allocators/static-file.c`. A file's record has liballocs's own fields
first and librunt's `struct file_metadata` after them, at `OFF_M`. The big allocation of a file refers to the whole record; librunt is given pointers to its part.

Simplifications: a caller asks for all four outputs; a pointer is wild or not whatever is read through it; offsets of librunt's fields are inputs, since
librunt's header is not part of the repository; each field is a cell by itself.
-/
namespace Liballocs.SectionInfo

open PageIndex StaticObj
open FileLoad (fileId segId secId symId Shdr)

/-- Offsets in librunt's `struct file_metadata` of the fields that are used (src/allocators/static-section.c:89-127). -/
structure Layout where
  l : Nat
  ehdr : Nat
  shdrs : Nat
  site : Nat

/-- What can be read through pointers: `l_addr` of a link map, `e_shnum` of an ELF header, an entry of a table of section headers; `none` is a fault. -/
structure Refs where
  lAddr : Nat → Option Nat
  shnum : Nat → Option Nat
  hdr : Nat → Nat → Option Shdr

/-- The loop over section headers, from the `i`-th, with `k` left (src/allocators/static-section.c:116-131): a fault, or nothing found, or base and size. The load
address is read only for a header with `SHF_ALLOC`. -/
def scan (la : Option Nat) (hdr : Nat → Option Shdr) (obj : Nat) : Nat → Nat → Option (Option (Nat × Nat))
  | 0, _ => some none
  | k + 1, i =>
    match hdr i with
    | none => none
    | some h =>
      if h.alloc then
        match la with
        | none => none
        | some a =>
          if a + h.addr ≤ obj ∧ obj < a + h.addr + h.size then some (some (a + h.addr, h.size)) else scan la hdr obj k (i + 1)
      else scan la hdr obj k (i + 1)

/-- The search, given what is taken for librunt's part of a record (src/allocators/static-section.c:97, 116-132). -/
def search (mem : Nat → Nat) (L : Layout) (R : Refs) (fm obj : Nat) : Option (Option Query.Rec) :=
  (R.shnum (mem (fm + L.ehdr))).bind (fun n =>
    (scan (R.lAddr (mem (fm + L.l))) (R.hdr (mem (fm + L.shdrs))) obj n 0).map (fun r =>
      r.map (fun p => ⟨p.1, p.2, 0, mem (fm + L.site)⟩)))

/-- `while (b->allocated_by != &__static_file_allocator) b = BIDX(b->parent)` (src/allocators/static-section.c:96, include/pageindex.h:64); going above the top is a fault. -/
def toFile (s : State) : Nat → Nat → Option Nat
  | 0, _ => none
  | f + 1, b => if b = 0 then none else if s.alloc b = fileId then some b else toFile s f (s.par b)

/-- `get_info` of sections (src/allocators/static-section.c:77-132), given a big allocation; `pb` is the type of bytes. The outer `none` is a fault, the inner
one the error. -/
def getInfo (c : Config) (w : World) (L : Layout) (R : Refs) (pb b obj : Nat) : Option (Option Query.Rec) :=
  if b = 0 then none
  else if w.pi.alloc b = secId then
    if w.pi.par b = 0 then none
    else if w.pi.par (w.pi.par b) = 0 then none
    else some (some ⟨w.pi.beg b, w.pi.fin b - w.pi.beg b, pb, w.mem (w.pi.priv (w.pi.par (w.pi.par b)) + L.site)⟩)
  else (toFile w.pi (c.nb + 1) b).bind (fun f => search w.mem L R (w.pi.priv f) obj)

/-- `__static_file_allocator_metadata_by_addr` (src/allocators/static-file.c:200-218): a pointer to librunt's part of the record, 0 for NULL. -/
def metaByAddr (c : Config) (s : State) (addr : Nat) : Option Nat :=
  (fromRoot c s addr fileId false).bind (fun f =>
    if f = 0 then some 0
    else (assertIf c (s.priv f != 0)).map (fun _ => s.priv f + OFF_M))

/-- `__alloc_file_metadata` (src/allocators/static-file.c:160-169): the length of the record, where it is, and the memory with it cleared; `offSegs` and
`segLen` are the offset of `segments` in librunt's part and the size of one. The result is the pointer for librunt. -/
def allocMeta (malloc : Nat → Nat) (mem : Nat → Nat) (offSegs segLen nsegs : Nat) : Option (Nat × (Nat → Nat)) :=
  let len := OFF_M + offSegs + nsegs * segLen
  let p := malloc len
  if p = 0 then none
  else some (p + OFF_M, fun a => if p ≤ a ∧ a < p + len then 0 else mem a)

end Liballocs.SectionInfo
