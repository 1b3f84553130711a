import Verif.Model.FileLoad
/-!
# Arenas of the dynamic linker's malloc

`src/allocators/ld-so-malloc.c`, over the model of big allocations.

Simplifications: the end of a file recorded in its metadata (`l_addr + vaddr_end`) is the end of its big allocation, as
`Verif.Model.FileLoad` makes it; the warning for files other than the linker is left out; `ld_so_malloc_index_info` is set.
-/
namespace Liballocs.LdSoArena

open PageIndex FileLoad

/-- `__ld_so_brk_allocator` and `__ld_so_malloc_allocator` (src/allocators/ld-so-malloc.c:136-142, 314-321). -/
def brkId : Nat := 17
def ldsoId : Nat := 18

/-- The stores to a new arena (src/allocators/ld-so-malloc.c:179-182, 228-231). -/
def claim (s : State) (b index : Nat) : State := { s with sub := upd s.sub b ldsoId, subPriv := upd s.subPriv b index }

/-- A new arena from `lo` on in the mapping `m` (src/allocators/ld-so-malloc.c:167-182, 214-231). -/
def arena (c : Config) (s : State) (index lo size m : Nat) : Option (State × Nat) :=
  (newBigalloc c s lo size m ⟨brkId, 0, 0, 0, 0, 0⟩).map (fun r => (claim r.1 r.2 index, r.2))

/-- The loop over the children of a mapping of a file (src/allocators/ld-so-malloc.c:186-233); its end is an `abort()`
(line 236). -/
def files (c : Config) (s : State) (index addr : Nat) : Nat → Nat → Option (State × Nat)
  | 0, _ => none
  | f + 1, child =>
    if child = 0 then none
    else if spans s child addr then none
    else if s.alloc child = fileId then
      (assertIf c (decide (s.fin child ≤ addr))).bind (fun _ =>
        (assertIf c (decide (s.fin (s.par child) > s.fin child))).bind (fun _ =>
          arena c s index (s.fin child) (s.fin (s.par child) - s.fin child) (s.par child)))
    else files c s index addr f (s.next child)

/-- The part of `ensure_bigalloc_for_userptr` after the lookups (src/allocators/ld-so-malloc.c:160-238); `named` says of a
mapping's metadata whether it has a file name. -/
def create (c : Config) (s : State) (named : Nat → Bool) (index addr m : Nat) : Option (State × Nat) :=
  if named (s.priv m) = false then arena c s index (s.beg m) (s.fin m - s.beg m) m
  else files c s index addr (c.nb + 1) (s.first m)

/-- `ensure_bigalloc_for_userptr` (src/allocators/ld-so-malloc.c:144-238). -/
def ensure (c : Config) (named : Nat → Bool) (index : Nat) (s : State) (addr : Nat) : Option (State × Nat) :=
  (fromRoot c s addr mmapId false).bind (fun m =>
    if m = 0 then none
    else (findUnder c s addr ldsoId true (c.nb + 1) m).bind (fun b =>
      if b ≠ 0 then some (s, b) else create c s named index addr m))

/-- The loop of `__ld_so_malloc_allocator_init` over the chunks already allocated (src/allocators/ld-so-malloc.c:298-302), and
any later calls of the replaced functions that return these addresses (lines 54-71). -/
def ensureAll (c : Config) (named : Nat → Bool) (index : Nat) : State → List Nat → Option State
  | s, [] => some s
  | s, a :: l => (ensure c named index s a).bind (fun r => ensureAll c named index r.1 l)

/-- `free_creating_bigalloc`, before the original function is called (src/allocators/ld-so-malloc.c:72-78). -/
def freeHook (c : Config) (named : Nat → Bool) (index : Nat) (s : State) (ptr : Nat) : Option State :=
  (ensure c named index s ptr).map Prod.fst

end Liballocs.LdSoArena
