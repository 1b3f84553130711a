import Verif.Model.PageIndex
/-!
# Addresses below a stack (src/allocators/stack.c:85-148, src/pageindex.c:464-481, 1461-1476, include/liballocs.h:608-659)

A stack grows without the library being told. When a query meets an address whose page is not indexed, the stack allocator
may claim it and extend the stack's big allocation down to it.

Simplifications: addresses are naturals, so the signed differences of the code do not wrap; the other allocator asked
(the break, src/allocators/brk.c:246-254) is a parameter. The chain of stacks goes through `allocator_private`, read here as a
slot number.
-/
namespace Liballocs.StackClaim

open PageIndex Fill

/-- `RLIM_INFINITY`, to which `-1` converts. -/
def INF : Nat := 2 ^ 64 - 1

/-- `__stack_lim_cur` and `__stack_lim_max` (src/allocators/stack.c:33-34). -/
structure Limits where
  cur : Nat
  max : Nat

/-- `guess_sane_max_stack_size` (src/allocators/stack.c:89-101). -/
def maxSize (l : Limits) : Nat :=
  if l.cur = INF ∧ l.max = INF then 16 * 1024 * 1024 else if l.cur = INF then l.max else l.cur

/-- `guess_sane_max_stack_delta` (src/allocators/stack.c:103-112). -/
def maxDelta (l : Limits) : Nat :=
  if l.cur = INF ∧ l.max = INF then 256 * 1024 else maxSize l

/-- `is_unindexed`, also `__pages_unused` (src/pageindex.c:464-481). -/
def pagesUnused (s : State) (lo hi : Nat) : Bool :=
  pagenum lo + skipZeros s (pagenum hi - pagenum lo) (pagenum lo) == pagenum hi

/-- The distance test (src/allocators/stack.c:124-132). -/
def near (l : Limits) (beg fin ptr : Nat) : Bool :=
  (decide (ptr < beg) && decide (beg - ptr < maxDelta l)) || (decide (ptr < fin) && decide (fin - ptr < maxSize l))

/-- `__stack_allocator_notify_unindexed_address` (src/allocators/stack.c:114-148) from stack `b` of the chain. -/
def claim (c : Config) (align : Nat → Nat) (l : Limits) (s : State) (ptr : Nat) : Nat → Nat → Option (State × Bool)
  | 0, _ => none
  | f + 1, b =>
    if b = 0 then some (s, false)
    else if near l (s.beg b) (s.fin b) ptr && pagesUnused s (roundUp ptr PAGE) (s.beg b) then
      (preExtendRec c align (c.nb + 1) s b (roundDown ptr PAGE)).map (fun s' => (s', true))
    else claim c align l s ptr f (s.priv b)

/-- `__liballocs_notify_unindexed_address` (src/pageindex.c:1461-1476): the stack allocator first, then the others. -/
def notify (c : Config) (align : Nat → Nat) (l : Limits) (stack : Nat) (other : State → Option (State × Bool)) (s : State) (ptr : Nat) :
    Option (State × Bool) :=
  match claim c align l s ptr (c.nb + 1) stack with
  | none => none
  | some (s', true) => some (s', true)
  | some (s', false) => other s'

/-- What a query learns first. -/
inductive Leaf
  | found (allocator big : Nat)
  | wild
  deriving DecidableEq

/-- The start of `__liballocs_get_alloc_info` (include/liballocs.h:633-653): find the allocator in charge, if need be after
asking about the address; `none` for `abort()`. -/
def leaf (c : Config) (align : Nat → Nat) (l : Limits) (stack : Nat) (other : State → Option (State × Bool)) (s : State) (ptr : Nat) :
    Option (State × Leaf) :=
  match leafAllocator c s ptr, leafBig c s ptr with
  | some a, some d =>
    if a ≠ 0 then some (s, .found a d)
    else match notify c align l stack other s ptr with
      | none => none
      | some (s', false) => some (s', .wild)
      | some (s', true) =>
        match leafAllocator c s' ptr, leafBig c s' ptr with
        | some a', some d' => if a' = 0 then none else some (s', .found a' d')
        | _, _ => none
  | _, _ => none

end Liballocs.StackClaim
