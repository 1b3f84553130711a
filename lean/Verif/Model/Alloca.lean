import Verif.Model.Fill
/-
Model of the stack-allocation (`alloca`) support: sizing and layout
(include/liballocs_cil_inlines.h:121-172), the downward-growing per-frame bitmap and the removal of
a frame's chunks on exit (src/allocators/alloca.c).
-/
namespace Liballocs.Alloca

/-- `PAD_TO_ALIGN` (include/liballocs_cil_inlines.h:113-115). Unbounded arithmetic: a request near
2^64 cannot be satisfied on the stack (and `BIGGEST_SANE_ALLOCA` is 32 MiB). -/
def padTo (n a : Nat) : Nat := if n % a = 0 then n else n + a - n % a

/-- `__liballocs_alloca_size` (include/liballocs_cil_inlines.h:121-139). `t` is
`ALLOCA_TRAILER_SIZE` (lines 52-58: 8, or 9 with precise sizes), `ALLOCA_HEADER_SIZE` is 8. -/
def allocaSize (t orig : Nat) : Nat :=
  let sizeWithTrailer := padTo (orig + t) 16
  padTo 8 16 + sizeWithTrailer

/-- What `__liballocs_notify_and_adjust_alloca` (include/liballocs_cil_inlines.h:141-172) computes:
the user pointer, the size it stores in the word below it, and the frame counter. -/
structure Adjusted where
  userchunk : Nat
  nonHeader : Nat
  counter : Nat
deriving DecidableEq, Repr

def adjust (allocated tweaked counter : Nat) : Adjusted :=
  let user := padTo (allocated + 8) 16
  let nonHeader := tweaked - (user - allocated)
  ⟨user, nonHeader, counter + nonHeader⟩

/-- Address of the metadata word: `insert_for_chunk` (include/malloc-meta.h) applied to the stored
size, i.e. the last 8 bytes. -/
def insertAddr (user usable : Nat) : Nat := user + (usable - 8)

/-! ### The bitmap -/

/-- A bitmap word. -/
abbrev W := BitVec 64

/-- `memmove(buf + dst, buf + src, n words)` (C library contract). -/
def memmove (buf : List W) (dst src n : Nat) : List W :=
  buf.take dst ++ (buf.drop src).take n ++ buf.drop (dst + n)

/-- `bzero(buf, n words)`. -/
def bzero (buf : List W) (n : Nat) : List W := List.replicate n 0#64 ++ buf.drop n

/-- A frame's big allocation and its `struct arena_bitmap_info`.  `bitmap = none`: not yet
allocated (`info->bitmap` and `info->bitmap_base_addr` null). -/
structure Arena where
  begin_ : Nat
  end_ : Nat
  base : Nat
  bitmap : Option (List W)
deriving DecidableEq

/-- 16 * 64: bytes covered by one bitmap word. -/
abbrev COVER : Nat := 1024

/-- `realloc_bitmap_prepend` (src/allocators/alloca.c:152-188).  `junk` is what the tail
`realloc` adds happens to contain.  `none`: failed assertion. -/
def reallocPrepend (ar : Arena) (newMin newBase : Nat) (junk : Nat → W) : Option Arena :=
  let old := ar.bitmap.getD []  -- nwords = 0 when there is no bitmap
  if old.length < newMin then
    let added := newMin - old.length
    let grown := old ++ (List.range added).map junk
    let base' := if ar.base = 0 then newBase else ar.base - added * 64 * 16
    if ar.base ≠ 0 ∧ base' ≠ newBase then none else
    let moved := match ar.bitmap with
      | some _ => memmove grown added 0 old.length
      | none => grown
    some { ar with base := base', bitmap := some (bzero moved added) }
  else some ar

/-- `ensure_arena_covers_addr` (src/allocators/alloca.c:200-243).  Pre-extending the big allocation
is abbreviated to its effect on `begin` (`Verif.Model.PageIndex` has the operation itself); the
debug-only assertion about the first chunk is not modelled, being a consequence of what is proved. -/
def ensureCovers (ar : Arena) (addr : Nat) (junk : Nat → W) : Option Arena :=
  if ar.bitmap.isSome ∧ ar.begin_ ≤ addr then some ar else
  let ar1 := if addr < ar.begin_ then { ar with begin_ := addr } else ar
  let newBase := roundDown ar1.begin_ COVER
  let newLimit := roundUp ar1.end_ COVER
  let naligns := (newLimit - newBase) / 16
  let newMin := (naligns + 63) / 64
  match reallocPrepend ar1 newMin newBase junk with
  | none => none
  | some ar2 => if ar2.base = newBase then some ar2 else none

/-- Is bit `i` of the bitmap set? -/
def bit (bm : List W) (i : Nat) : Bool :=
  match bm[i / 64]? with
  | some w => w.getLsbD (i % 64)
  | none => false

/-! ### Frame exit -/

/-- `BIGGEST_SANE_ALLOCA` (src/allocators/alloca.c:19). -/
abbrev SANE : Nat := 33554431

/-- The loop of `__liballocs_unindex_stack_objects_counted_by` (src/allocators/alloca.c:117-145).
`bits` is the bitmap, `k` the number of bits from `cur` to its end, `sz a` the size stored below
chunk `a`.  Repeated find-first-set visits the set bits in increasing order, which is how the loop
is written here.  Deleting a chunk from the index clears its bit unless the chunk had been promoted
(more than 131072 bytes, include/generic_malloc_index.h:432-528).  `none`: failed assertion. -/
def unindexLoop (sz : Nat → Nat) (base total : Nat) : (k cur done : Nat) → (Nat → Bool) → Option (Nat → Bool)
  | 0, _, _, bits => some bits
  | k + 1, cur, done, bits =>
    if bits cur then
      let bytes := sz (base + 16 * cur)
      let bits' := if 131072 < bytes then bits else fun i => if i = cur then false else bits i
      if SANE ≤ bytes then none
      else if total ≤ done + bytes then some bits'
      else unindexLoop sz base total k (cur + 1) (done + bytes) bits'
    else unindexLoop sz base total k (cur + 1) done bits

/-- The index part of `__liballocs_unindex_stack_objects_counted_by`
(src/allocators/alloca.c:90-150), `sp` at or above the bitmap's base. The deletion of the frame's
big allocation and the cache flush that follow are not part of this function's model. -/
def unindex (sz : Nat → Nat) (base nwords sp counter : Nat) (bits : Nat → Bool) : Option (Nat → Bool) :=
  if counter = 0 then some bits
  else unindexLoop sz base counter (64 * nwords - (sp - base) / 16) ((sp - base) / 16) 0 bits

end Liballocs.Alloca
