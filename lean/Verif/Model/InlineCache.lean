import Verif.Model.PageIndex
/-!
# The inline cache of a type query (include/liballocs.h:690-700, src/query.c:54-63, 82-91)

With `LIBALLOCS_INLCACHE`, each place in a program that asks for an object's type keeps the allocator and the big allocation number
of an earlier answer.

Simplifications: an allocator's type for an address is a function (0 for NULL); its `get_info` fails where a parameter says so;
unindexed addresses are claimed by nobody (see `StackClaim`).
-/
namespace Liballocs.InlineCache

open PageIndex

/-- The static variables at one place: `cached_allocator`, `cached_num`. -/
structure Slot where
  alloc : Nat
  num : Nat
  deriving DecidableEq

/-- What the allocators say: the type of the object at an address, and whether `get_info` succeeds; and whether the allocator has a `get_type`
that can be called.  Only the static allocators and the packed sequences have one (src/allocators/static-section.c:140,
static-segment.c:192, static-file.c:600, static-symbol.c:431, packed-seq.c:199; not tools/stubgen.h:458-465, mmap.c:1596-1602 and the others),
and it passes NULL for the big allocation (src/liballocs_private.h:226-236), which all of them take as given: that of segments and that of files
only by an assertion (static-segment.c:176, static-file.c:584), the others by a dereference. -/
structure World where
  ty : Nat → Nat → Nat
  ok : Nat → Nat → Bool
  callable : Nat → Bool

/-- `__liballocs_get_alloc_type` (src/query.c:68-80): the type, or 0 for NULL. `none`: the lookup does not end. -/
def getType (c : Config) (w : World) (s : State) (obj : Nat) : Option Nat :=
  (leafAllocator c s obj).map (fun a => if a = 0 then 0 else if w.ok a obj then w.ty a obj else 0)

/-- `__liballocs_get_alloc_type_with_fill` (src/query.c:82-91). -/
def fill (c : Config) (w : World) (s : State) (slot : Slot) (obj : Nat) : Option (Nat × Slot) :=
  (leafAllocator c s obj).map (fun a =>
    if a = 0 then (0, slot)
    else if w.ok a obj then (w.ty a obj, ⟨a, entry s (pagenum obj)⟩)
    else (0, { slot with alloc := a }))

/-- The macro (include/liballocs.h:691-698). `DEFAULT_GET_TYPE` gives 0 if `get_info` fails. `none`: the program crashes (or the lookup does
not end). -/
def inline (c : Config) (w : World) (s : State) (slot : Slot) (obj : Nat) : Option (Nat × Slot) :=
  if slot.num ≠ 0 ∧ entry s (pagenum obj) = slot.num then
    if w.callable slot.alloc then some (if w.ok slot.alloc obj then w.ty slot.alloc obj else 0, slot) else none
  else fill c w s slot obj

/-- Queries at one place, each in the state of its time. -/
def queries (c : Config) (w : World) : Slot → List (State × Nat) → Option (List Nat)
  | _, [] => some []
  | slot, x :: xs =>
    match inline c w x.1 slot x.2 with
    | none => none
    | some (r, slot') => (queries c w slot' xs).map (r :: ·)

end Liballocs.InlineCache
