import Verif.Model.PageIndex
/-!
# The size of a chunk that is on the heap or on a stack (src/preload.c:71-149, src/allocators/alloca.c:23-33)

`malloc_or_alloca_usable_size` is given a chunk from `malloc` or from `alloca`. The size of the latter is in the word below it.

Simplifications: `malloc_usable_size` is a parameter, as is the memory read. Addresses are naturals below 2^64, and the
subtraction wraps.
-/
namespace Liballocs.UsableSize

open PageIndex Fill

/-- `INITIAL_STACK_MINIMUM_SIZE` (src/preload.c:116). -/
def LEAST : Nat := 81920

/-- The allocators named by the function: `__mmap_allocator`, `__global_malloc_allocator`, `__stack_allocator`. -/
structure Names where
  mmap : Nat
  heap : Nat
  stack : Nat

/-- What the function reads besides the page index: `__top_of_initial_stack`, `__stack_lim_cur` (`none` for
`RLIM_INFINITY`), `__curbrk`, the stack pointer in the function itself, and words of memory. -/
structure Env where
  top : Nat
  lim : Option Nat
  brk : Nat
  sp : Nat
  word : Nat → Nat
  msize : Nat → Nat

/-- `is_definitely_not_stack` (src/preload.c:117-124); the index is `none` while `pageindex` is null, and then reading it is a
fault. -/
def notStack (n : Names) (e : Env) (pi : Option State) (ptr : Nat) : Option Bool :=
  if ptr ≤ e.brk then some true
  else pi.map (fun s => s.alloc (entry s (pagenum ptr)) == n.mmap || s.alloc (entry s (pagenum ptr)) == n.heap)

/-- The extent taken for the initial stack's (src/preload.c:129). -/
def extent (e : Env) : Nat :=
  match e.lim with
  | none => LEAST
  | some l => l

/-- `is_definitely_stack` (src/preload.c:125-135). -/
def isStack (e : Env) (ptr : Nat) : Bool :=
  decide ((e.top + 2 ^ 64 - ptr) % 2 ^ 64 < extent e) || pagenum ptr == pagenum e.sp

/-- `__liballocs_get_allocator_upper_bound` (src/pageindex.c:593-600, include/pageindex.h:135-144), 0 for NULL. -/
def upperBound (s : State) (ptr : Nat) : Nat :=
  if entry s (pagenum ptr) = 0 then 0 else s.alloc (entry s (pagenum ptr))

/-- `__alloca_usable_size` (src/allocators/alloca.c:23-33). -/
def allocaSize (e : Env) (ptr : Nat) : Nat := e.word ((ptr + 2 ^ 64 - 8) % 2 ^ 64)

/-- `malloc_or_alloca_usable_size` (src/preload.c:75-148); `none` for a fault. -/
def usable (n : Names) (e : Env) (pi : Option State) (ptr : Nat) : Option Nat :=
  (notStack n e pi ptr).bind (fun ns =>
    if isStack e ptr then some (allocaSize e ptr)
    else if ns then some (e.msize ptr)
    else pi.map (fun s => if upperBound s ptr = n.stack then allocaSize e ptr else e.msize ptr))

end Liballocs.UsableSize
