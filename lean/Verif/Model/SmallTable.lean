import Verif.Model.SmallIndex
/-!
# The rectangular table of the small-object index (src/allocators/generic_small.c)

Making the table for a chunk, and its flat layout in memory, which `SmallIndex` takes for a function from buckets to columns.

Simplifications: mapping the table succeeds; the starts bitmap, which is not used in the default build, is left out.  `next_power_of_two_ge`,
`integer_log2` and `is_power_of_two` are external; the last is taken to refuse 0, of which the code also takes the logarithm.
-/
namespace Liballocs.SmallTable
open SmallIndex (Ent)

/-- `next_power_of_two_ge` (external header). -/
def np2 (n : Nat) : Nat := if n ≤ 1 then 1 else 2 ^ (Nat.log2 (n - 1) + 1)

/-- `is_power_of_two` (external header). -/
def isPow2 (n : Nat) : Bool := decide (n ≠ 0) && decide (2 ^ Nat.log2 n = n)

/-- The geometry in `struct chunk_rec` (src/allocators/generic_small.c:86-94). -/
structure Geo where
  pow2 : Nat
  logPitch : Nat
  layerBytes : Nat
  deriving DecidableEq

/-- `LOG_PAGE_SIZE` and `PAGE_SIZE` (external header). -/
def LOGPAGE : Nat := 12

/-- The pitch guessed from the first object (src/allocators/generic_small.c:205-206). -/
def guess (avg : Nat) : Nat := Nat.log2 (np2 (if avg > 256 then 256 else avg))

/-- The pitch of a table that would not fill a page (src/allocators/generic_small.c:214-231); an `unsigned`. -/
def pagePitch (pow2 : Nat) : Nat := (8 * pow2) >>> LOGPAGE % 2 ^ 32

/-- The layer, resized to a page if smaller (src/allocators/generic_small.c:210-231). -/
def layer (pow2 lp : Nat) : Option Geo :=
  if isPow2 (8 * (pow2 >>> lp)) then
    if 8 * (pow2 >>> lp) < 2 ^ LOGPAGE then
      if isPow2 (pagePitch pow2) then some ⟨pow2, Nat.log2 (pagePitch pow2), 2 ^ LOGPAGE⟩ else none
    else some ⟨pow2, lp, 8 * (pow2 >>> lp)⟩
  else none

/-- `make_suballocated_chunk` (src/allocators/generic_small.c:189-247); `none` is a failed assertion.  The number of buckets is an `unsigned`. -/
def make (size avg : Nat) : Option Geo :=
  if size = 0 then none
  else
    match layer (np2 size) (guess avg) with
    | none => none
    | some g => if g.layerBytes / 8 % 2 ^ 32 < SmallIndex.MINU then some g else none

/-- `memrect_nbucket_of` (src/allocators/generic_small.c:125-129), for an offset from the chunk's beginning. -/
def bucketOf (g : Geo) (off : Nat) : Nat := off >>> g.logPitch

/-- `memrect_bucket_offset_of_addr` (src/allocators/generic_small.c:131-135). -/
def offsetOf (g : Geo) (off : Nat) : Nat := off % (1 <<< g.logPitch)

/-- `ENTRIES_PER_LAYER` (src/allocators/generic_small.c:137-141, 153-155), an `unsigned`. -/
def perLayer (g : Geo) : Nat := (g.pow2 >>> g.logPitch) % 2 ^ 32

/-- `NLAYERS` (src/allocators/generic_small.c:156). -/
def nlayers (g : Geo) : Nat := 1 <<< g.logPitch

/-- `BUCKET_RANGE_BASE` (src/allocators/generic_small.c:143-151, 160-162), as an offset. -/
def rangeBase (g : Geo) (bucket : Nat) : Nat := bucket <<< g.logPitch

/-- `BUCKET_RANGE_END` (src/allocators/generic_small.c:164-165). -/
def rangeEnd (g : Geo) (bucket : Nat) : Nat := rangeBase g bucket + 1 <<< g.logPitch

/-- `BUCKET_PTR_FROM_ENTRY_PTR` (src/allocators/generic_small.c:166-168). -/
def bucketPtr (g : Geo) (i : Nat) : Nat := i % perLayer g

/-- Number of entries mapped (src/allocators/generic_small.c:240-244). -/
def total (g : Geo) : Nat := g.pow2

/-- The table's memory, by entry. -/
abbrev Mem := Nat → Ent

/-- Read an entry; `none` is outside the table. -/
def load (g : Geo) (m : Mem) (i : Nat) : Option Ent := if i < total g then some (m i) else none

/-- `ENTRY_IS_NULL` (src/allocators/generic_small.c:58). -/
def isNull (e : Ent) : Bool := decide (e.discr = 0)

/-- The loops `for (i = bucket; !ENTRY_IS_NULL(i); i += ENTRIES_PER_LAYER)` (src/allocators/generic_small.c:402-404, 517-519, 550-552, 648-650,
742-744, 756-758): the entries they see.  The fuel is for the number of layers. -/
def column (g : Geo) (m : Mem) : Nat → Nat → Option (List Ent)
  | 0, _ => none
  | fuel + 1, i =>
    match load g m i with
    | none => none
    | some e => if isNull e then some [] else (column g m fuel (i + perLayer g)).map (e :: ·)

/-- The search for a free entry (src/allocators/generic_small.c:297-303, 334-338): the entry and the number of layers passed. -/
def firstFree (g : Geo) (m : Mem) : Nat → Nat → Nat → Option (Nat × Nat)
  | 0, _, _ => none
  | fuel + 1, i, n =>
    match load g m i with
    | none => none
    | some e => if isNull e then some (i, n) else firstFree g m fuel (i + perLayer g) (n + 1)

/-- `*p_ent = e`. -/
def store (m : Mem) (i : Nat) (e : Ent) : Mem := fun j => if j = i then e else m j

/-- `remove_one_entry` (src/allocators/generic_small.c:709-720). -/
def removeOne (g : Geo) : Nat → Mem → Nat → Option Mem
  | 0, _, _ => none
  | fuel + 1, m, i =>
    match load g m (i + perLayer g) with
    | none => none
    | some e => if isNull e then some (store m i e) else removeOne g fuel (store m i e) (i + perLayer g)

end Liballocs.SmallTable
