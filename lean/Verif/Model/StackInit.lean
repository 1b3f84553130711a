import Verif.Model.FileLoad
/-!
# Carving up the initial stack (src/allocators/auxv.c, src/allocators/stack.c)

When a mapping named `[stack…` is seen, a big allocation for the start-up data (argument and environment strings and vectors, the
auxiliary vector) is made over the whole of it, and one for the stack proper below that data.

Simplifications: as in `PageIndex`. Finding where the start-up data begins and ends (`__auxv_allocator_init`) is modelled
elsewhere (`Auxv`); here these are addresses.
-/
namespace Liballocs.StackInit

open PageIndex Fill
open FileLoad (setSub)

/-- The allocators concerned. -/
structure Who where
  auxv : Nat
  stack : Nat
  stackframe : Nat

/-- `__stack_allocator_notify_init_stack_region` (src/allocators/stack.c:63-80): the big allocation of the stack; it is an error
if it is not put below one of the start-up data. -/
def initRegion (c : Config) (w : Who) (s : State) (begin' end' : Nat) : Option (State × Nat) :=
  match newBigalloc c s begin' (end' - begin') 0 ⟨w.stack, 0, 0, 0, 0, 0⟩ with
  | none => none
  | some (s1, st) =>
    if s1.par st = 0 ∨ s1.alloc (s1.par st) ≠ w.auxv then none
    else some (setSub s1 st w.stackframe, st)

/-- The first call of `__auxv_allocator_notify_init_stack_mapping_sequence` (src/allocators/auxv.c:112-117, 149-175), for the
mapping's big allocation `b`: the big allocations of the start-up data and of the stack. -/
def first (c : Config) (w : Who) (s : State) (b argc : Nat) : Option (State × Nat × Nat) :=
  match newBigalloc c s (s.beg b) (s.fin b - s.beg b) 0 ⟨w.auxv, 0, 0, 0, 0, 0⟩ with
  | none => none
  | some (s1, our) =>
    match initRegion c w s1 (s.beg b) argc with
    | none => none
    | some (s2, st) => some (setSub s2 our 0, our, st)

/-- Lowering the beginning by an assignment (src/allocators/auxv.c:123). -/
def lower (s : State) (our begin' : Nat) : State :=
  if s.beg our > begin' then { s with beg := upd s.beg our begin' } else s

/-- A later call (src/allocators/auxv.c:119-147): the beginning is lowered, and the end raised to cover the strings, what was
there being cut off at its beginning. -/
def again (c : Config) (s : State) (our b asciizEnd : Nat) : Option State :=
  let s1 := lower s our (s.beg b)
  if asciizEnd > s1.fin our then
    let newEnd := roundUp asciizEnd PAGE
    let pi := entry s1 (pagenum asciizEnd)
    match (if pi ≠ 0 then truncBegin c s1 pi newEnd else some s1) with
    | none => none
    | some s2 => extend c s2 our newEnd
  else some s1

end Liballocs.StackInit
