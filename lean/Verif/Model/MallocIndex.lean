import Verif.Model.Fill
/-
Model of the bitmap index of heap chunks (include/generic_malloc_index.h:146-713) together with the
hook glue that drives it (tools/stubgen.h:340-440).
-/
namespace Liballocs.MallocIndex

/-- `MALLOC_ALIGN * BITMAP_WORD_NBITS` = 16 * 64 (include/malloc-meta.h, external bitmap.h). -/
abbrev COVER : Nat := 1024

/-- `struct arena_bitmap_info` (include/generic_malloc_index.h:146-162) plus the set of big
allocations this malloc has created under the arena (promoted chunks, as (begin, size)).
Simplifications: the bitmap is a function on bit indices of which only those below `64 * nwords`
exist; statistics and trace fields are omitted; the big allocations are a list here, their own
data structure being modelled in `Verif.Model.PageIndex`. -/
structure St where
  base : Nat
  nwords : Nat
  bits : Nat → Bool
  biggestUnpromoted : Nat
  promoted : List (Nat × Nat)

/-- `ensure_arena_has_info` (include/generic_malloc_index.h:272-300): a fresh arena's index. -/
def fresh (arenaBegin : Nat) : St :=
  { base := roundDown arenaBegin COVER, nwords := 0, bits := fun _ => false,
    biggestUnpromoted := 0, promoted := [] }

/-- `ensure_has_bitmap_to` (include/generic_malloc_index.h:302-329).  The grown words are zeroed. -/
def ensureTo (s : St) (e : Nat) : St :=
  let total := (roundUp e COVER - s.base) / COVER
  if s.nwords < total then
    { s with nwords := total, bits := fun i => if i < 64 * s.nwords then s.bits i else false }
  else s

/-- `SHOULD_PROMOTE_TO_BIGALLOC` (include/generic_malloc_index.h:248-249). -/
def shouldPromote (usable : Nat) : Bool := 131072 < usable

/-- `__generic_malloc_index_insert` (include/generic_malloc_index.h:331-430).  `none` is a bitmap
access out of bounds (undefined behaviour) or a failed assertion. -/
def indexInsert (s : St) (p requested usable : Nat) : Option St :=
  let s₁ := ensureTo s (p + requested)
  if p < s₁.base then none else
  let idx := (p - s₁.base) / 16
  let s₂ := if shouldPromote usable then { s₁ with promoted := (p, requested) :: s₁.promoted }
            else { s₁ with biggestUnpromoted := max (usable - 8) s₁.biggestUnpromoted }
  if idx < 64 * s₂.nwords then
    some { s₂ with bits := fun i => if i = idx then true else s₂.bits i }
  else none

/-- The promoted chunk containing an address, if any: `__lookup_bigalloc_under(userptr, a, ...)`
(include/generic_malloc_index.h:470-471). -/
def findPromoted (s : St) (a : Nat) : Option (Nat × Nat) :=
  s.promoted.find? (fun b => decide (b.1 ≤ a) && decide (a < b.1 + b.2))

/-- `__generic_malloc_index_delete` (include/generic_malloc_index.h:432-528): a promoted chunk's
big allocation is deleted and the function returns early; otherwise the bit is cleared. -/
def indexDelete (s : St) (p : Nat) : Option St :=
  match findPromoted s p with
  | some b => some { s with promoted := s.promoted.erase b }
  | none =>
    if p < s.base then none else
    let idx := (p - s.base) / 16
    if idx < 64 * s.nwords then
      some { s with bits := fun i => if i = idx then false else s.bits i }
    else none

/-- The highest set bit in `[lo, lo + k]`: contract of the external
`bitmap_rfind_first_set_leq_l`. -/
def rfind (bits : Nat → Bool) (lo : Nat) : Nat → Option Nat
  | 0 => if bits lo then some lo else none
  | k + 1 => if bits (lo + (k + 1)) then some (lo + (k + 1)) else rfind bits lo k

/-- Outcome of a lookup. -/
inductive Res where
  | outOfBounds
  | notFound
  | found (start : Nat)
deriving DecidableEq, Repr

/-- 64-bit wrapping subtraction on addresses. -/
def wsub (a b : Nat) : Nat := (a + 2 ^ 64 - b) % 2 ^ 64

/-- Number of leading bits the NDEBUG optimisation hides
(include/generic_malloc_index.h:600-609). -/
def hidden (s : St) (ndebug : Bool) (mem : Nat) : Nat :=
  if ndebug then
    let fake := roundDown (wsub mem s.biggestUnpromoted) COVER
    if fake > s.base then 64 * ((fake - s.base) / COVER) else 0
  else 0

/-- `lookup_object_info_via_bitmap` (include/generic_malloc_index.h:581-630).  `start_idx` is a
32-bit `unsigned`.  A start index outside the bitmap is outside the external function's contract:
`outOfBounds`. -/
def lookupBitmap (s : St) (ndebug : Bool) (mem : Nat) : Res :=
  let startIdx := (wsub mem s.base / 16) % 2 ^ 32
  let h := hidden s ndebug mem
  if startIdx < h ∨ 64 * s.nwords ≤ startIdx then .outOfBounds else
  match rfind s.bits h (startIdx - h) with
  | none => .notFound
  | some i => .found (s.base + 16 * i)

/-- The start reported by `__generic_malloc_get_info` (include/generic_malloc_index.h:660-713):
the promoted big allocation containing the address if there is one, else the bitmap lookup. -/
def query (s : St) (ndebug : Bool) (mem : Nat) : Res :=
  match findPromoted s mem with
  | some b => .found b.1
  | none => lookupBitmap s ndebug mem

/-- The malloc events the hooks see (tools/stubgen.h:346-440). -/
inductive Ev where
  /-- a successful allocation: start, requested size, usable size -/
  | alloc (p requested usable : Nat)
  | free (p : Nat)
  /-- a successful realloc, in place or moved: old start, new start, requested, usable -/
  | realloc (p q requested usable : Nat)
  /-- a failed realloc; the old chunk (with the given usable size) stays -/
  | reallocFail (p requested usable : Nat)
deriving DecidableEq, Repr

/-- What the hooks do for each event: `post_successful_alloc`, `pre_nonnull_free`,
`pre_nonnull_nonzero_realloc` then `__generic_malloc_index_reinsert_after_resize`
(tools/stubgen.h:346-440, include/generic_malloc_index.h:531-578). Simplification: the final
truncation of a promoted chunk's big allocation after an in-place shrink is not modelled. -/
def exec (s : St) : Ev → Option St
  | .alloc p r u => indexInsert s p r u
  | .free p => indexDelete s p
  | .realloc p q r u => (indexDelete s p).bind (fun s' => indexInsert s' q r u)
  | .reallocFail p r u => (indexDelete s p).bind (fun s' => indexInsert s' p r u)

/-- Run a history from the left. -/
def run (s : St) : List Ev → Option St
  | [] => some s
  | e :: es => (exec s e).bind (fun s' => run s' es)

end Liballocs.MallocIndex
