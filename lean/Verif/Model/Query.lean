/-!
# The simple queries (src/query.c:28-110 and 145-204) over the allocators' `get_info`

Each simple query calls `__liballocs_get_alloc_info` with pointers for the outputs it wants and NULL for the others, and returns an output
variable, which may not have been written.

Simplifications: the searches by which the allocators find the object at an address are modelled elsewhere (`MallocIndex`, `SmallIndex`,
`LinearMalloc`, `StackFrame`, `StaticSym`, `PackedSeq`, `Auxv`); here their result is part of the state.  The cache consulted and filled by the
base query is left out (see `Cache`), and so is the list of unrecognised allocation sites; the word in a chunk holds a type or an
allocation site (see `Insert`), and reading and setting use the same word.
-/
namespace Liballocs.Query

/-- The errors (src/err.c): `object_of_unknown_storage`, `unindexed_heap_object`, `unindexed_alloca_object`, `unrecognised_alloc_site`,
`unrecognised_static_object`, and those of the stack walk. -/
inductive Err where
  | storage
  | heap
  | alloca
  | site
  | static
  | walk
  deriving DecidableEq

/-- Which output pointers are not NULL. -/
structure Want where
  type : Bool
  base : Bool
  size : Bool
  site : Bool

/-- The outputs; `none` is "not written". -/
structure Outs where
  type : Option Nat
  base : Option Nat
  size : Option Nat
  site : Option Nat
  deriving DecidableEq

/-- The result of a `get_info`: a crash (or failed assertion), or an error (`none` for success) and the outputs. -/
inductive Ans where
  | crash
  | ret (e : Option Err) (o : Outs)
  deriving DecidableEq

/-- `if (out) *out = v`. -/
def put (w : Bool) (v : Nat) : Option Nat := if w then some v else none

/-- How the library was built, and the type recorded for each allocation site, 0 if none. -/
structure Build where
  ndebug : Bool
  sites : Nat → Nat

/-- The word in a chunk. -/
inductive Ins where
  | site (a : Nat)
  | typed (t : Nat)
  deriving DecidableEq

structure Chunk where
  base : Nat
  size : Nat
  ins : Ins
  deriving DecidableEq

/-- An object that has one record. -/
structure Rec where
  base : Nat
  size : Nat
  type : Nat
  site : Nat
  deriving DecidableEq

/-- A small object; `size` is not known when it was found by a continuation (src/allocators/generic_small.c:672-678). -/
structure Small where
  base : Nat
  size : Option Nat
  site : Nat
  deriving DecidableEq

/-- What the leaf allocator's search found at an address. -/
inductive Obj where
  /-- generic malloc (include/generic_malloc_index.h:659-713) and alloca (src/allocators/alloca.c:50-81), with the error for "none" -/
  | chunk (e : Err) (f : Option Chunk)
  /-- the linker's malloc (src/allocators/ld-so-malloc.c:79-110); `bits` is the chunk word's own address shifted as if it were a type -/
  | linear (f : Option Chunk) (bits : Nat)
  /-- small objects (src/allocators/generic_small.c:792-846) -/
  | small (f : Option Small)
  /-- the stack, outside frames (src/allocators/stack.c:82-87) -/
  | stack
  /-- stack frames (src/allocators/stackframe.c:173-341), static symbols (static-symbol.c:358-382), sections that are not big allocations
  (static-section.c:94-132), packed sequences (packed-seq.c:304-400), start-up vectors (auxv.c:47-104), with the error for "none" -/
  | table (e : Err) (f : Option Rec)
  /-- files (static-file.c:579-593), segments (static-segment.c:171-185), sections (static-section.c:77-93), the break area (brk.c:32-42) -/
  | whole (r : Rec)
  /-- mappings (mmap.c:1574-1594); no caller: one of the library's own pools, which has no mapping sequence -/
  | mapping (base size : Nat) (caller : Option Nat)
  deriving DecidableEq

/-- `extract_and_output_alloc_site_and_type` (include/generic_malloc_index.h:734-841): the error, the type and site outputs, and the word. -/
def extract (B : Build) (w : Want) : Ins → Option Err × Option Nat × Option Nat × Ins
  | .typed t => if t = 0 then (some .site, none, put w.site 0, .typed 0) else (none, put w.type t, put w.site 0, .typed t)
  | .site a =>
    if B.sites a = 0 then (some .site, none, put w.site a, if B.ndebug then .typed 0 else .site a)
    else (none, put w.type (B.sites a), put w.site a, if B.ndebug then .typed (B.sites a) else .site a)

/-- `__generic_malloc_get_info` and `__alloca_get_info` with the chunk found (include/generic_malloc_index.h:705-712, src/allocators/alloca.c:72-81). -/
def chunkInfo (B : Build) (w : Want) (c : Chunk) : Ans × Chunk :=
  if w.type || w.site then
    (.ret (extract B w c.ins).1 ⟨(extract B w c.ins).2.1, put w.base c.base, put w.size c.size, (extract B w c.ins).2.2.1⟩,
      { c with ins := (extract B w c.ins).2.2.2 })
  else (.ret none ⟨none, put w.base c.base, put w.size c.size, none⟩, c)

/-- `linear_malloc_get_info` with the chunk found (src/allocators/ld-so-malloc.c:99-108). -/
def linearInfo (w : Want) (c : Chunk) (bits : Nat) : Ans :=
  match c.ins with
  | .typed _ => .ret none ⟨put w.type bits, put w.base c.base, put w.size c.size, none⟩
  | .site a => .ret none ⟨none, put w.base c.base, put w.size c.size, put w.site a⟩

/-- `get_info` of small objects, with the object found (src/allocators/generic_small.c:812-846). -/
def smallInfo (B : Build) (w : Want) (s : Small) : Ans :=
  .ret (if w.type && B.sites s.site == 0 then some .site else none)
    ⟨put w.type (B.sites s.site), put w.base s.base, if w.size then s.size else none, put w.site s.site⟩

/-- The allocators' `get_info` functions; see `Obj`. -/
def getInfo (B : Build) (w : Want) : Obj → Ans × Obj
  | .chunk e none => (.ret (some e) ⟨none, none, none, none⟩, .chunk e none)
  | .chunk e (some c) => ((chunkInfo B w c).1, .chunk e (some (chunkInfo B w c).2))
  | .linear none bits => (.ret (some .heap) ⟨none, none, none, none⟩, .linear none bits)
  | .linear (some c) bits => (linearInfo w c bits, .linear (some c) bits)
  | .small none => (.ret (some .heap) ⟨none, none, none, none⟩, .small none)
  | .small (some s) => (smallInfo B w s, .small (some s))
  | .stack => (.ret (some .site) ⟨none, none, none, none⟩, .stack)
  | .table e none => (.ret (some e) ⟨none, none, none, none⟩, .table e none)
  | .table e (some r) => (.ret none ⟨put w.type r.type, put w.base r.base, put w.size r.size, put w.site r.site⟩, .table e (some r))
  | .whole r => (.ret none ⟨put w.type r.type, put w.base r.base, put w.size r.size, put w.site r.site⟩, .whole r)
  | .mapping b sz (some k) => (.ret none ⟨put w.type 0, put w.base b, put w.size sz, put w.site k⟩, .mapping b sz (some k))
  | .mapping b sz none =>
    (if w.site then .crash else .ret none ⟨put w.type 0, put w.base b, put w.size sz, none⟩, .mapping b sz none)

/-- What is at an address: the leaf allocator, and what it finds. -/
abbrev At := Option (Nat × Obj)

/-- `__liballocs_get_alloc_info` (include/liballocs.h:607-659); `none` is an address in no big allocation that nobody claims. -/
def info (B : Build) (w : Want) : At → Ans × At
  | none => (.ret (some .storage) ⟨none, none, none, none⟩, none)
  | some (a, o) => ((getInfo B w o).1, some (a, (getInfo B w o).2))

/-- What a simple query returns. -/
inductive R where
  | crash
  /-- the value of a variable that was never written -/
  | garbage
  | val (v : Nat)
  deriving DecidableEq

/-- An uninitialised variable, after the call. -/
def read : Option Nat → R
  | none => .garbage
  | some v => .val v

/-- `__liballocs_get_type` (src/query.c:68-76). -/
def typeR : Ans → R
  | .crash => .crash
  | .ret (some _) _ => .val 0
  | .ret none o => read o.type

def getType (B : Build) (x : At) : R × At := (typeR (info B ⟨true, false, false, false⟩ x).1, (info B ⟨true, false, false, false⟩ x).2)

/-- `__liballocs_get_base` after its cache (src/query.c:28-50). -/
def baseR : Ans → R
  | .crash => .crash
  | .ret none o => read o.base
  | .ret (some e) o => if e = .site then read o.base else .val 0

def getBase (B : Build) (x : At) : R × At := (baseR (info B ⟨false, true, true, false⟩ x).1, (info B ⟨false, true, true, false⟩ x).2)

/-- `__liballocs_get_alloc_size` (src/query.c:172-181). -/
def sizeR : Ans → R
  | .crash => .crash
  | .ret none o => read o.size
  | .ret (some e) o => if e = .site then read o.size else .val 0

def getSize (B : Build) (x : At) : R × At := (sizeR (info B ⟨false, false, true, false⟩ x).1, (info B ⟨false, false, true, false⟩ x).2)

/-- `__liballocs_get_alloc_site` (src/query.c:161-168): the variable is NULL at first, and errors are ignored. -/
def siteR : Ans → R
  | .crash => .crash
  | .ret _ o =>
    match o.site with
    | none => .val 0
    | some v => .val v

def getSite (B : Build) (x : At) : R × At := (siteR (info B ⟨false, false, false, true⟩ x).1, (info B ⟨false, false, false, true⟩ x).2)

/-- The allocator that `__liballocs_get_alloc_info` stores: NULL if there is none. -/
def leafOf : At → Nat
  | none => 0
  | some (a, _) => a

/-- `__liballocs_get_leaf_allocator` (src/query.c:185-202). -/
def leafR (a : Nat) : Ans → R
  | .crash => .crash
  | .ret none _ => .val a
  | .ret (some e) _ => if e = .site ∨ e = .static then .val a else .val 0

def getLeaf (B : Build) (x : At) : R × At :=
  (leafR (leafOf x) (info B ⟨false, false, false, false⟩ x).1, (info B ⟨false, false, false, false⟩ x).2)

/-- The object after the allocator's `set_type`: only the mallocs have one (include/generic_malloc_index.h:715-732); the linker's ends the
program (src/allocators/ld-so-malloc.c:24-29). -/
def setInfo (t : Nat) : Obj → Option Obj
  | .chunk .heap (some c) => some (.chunk .heap (some { c with ins := .typed t }))
  | .linear _ _ => none
  | o => some o

/-- Whether the allocator has a `set_type`. -/
def hasSet : Obj → Bool
  | .chunk .heap _ => true
  | .linear _ _ => true
  | _ => false

/-- `__liballocs_set_alloc_type` (src/query.c:145-159), with its assertion; `none` ends the program. -/
def setType (B : Build) (x : At) (t : Nat) : Option At :=
  match x with
  | none => some none
  | some (a, o) =>
    if hasSet o then
      match setInfo t o with
      | none => none
      | some o' =>
        if B.ndebug then some (some (a, o'))
        else if (getType B (some (a, o'))).1 = .val t then some (getType B (some (a, o'))).2 else none
    else some (some (a, o))

/-- One query. -/
inductive Ask where
  | type
  | base
  | size
  | site
  | leaf
  | full

/-- A query's effect on what is stored. -/
def after (B : Build) (x : At) : Ask → At
  | .type => (getType B x).2
  | .base => (getBase B x).2
  | .size => (getSize B x).2
  | .site => (getSite B x).2
  | .leaf => (getLeaf B x).2
  | .full => (info B ⟨true, true, true, true⟩ x).2

end Liballocs.Query
