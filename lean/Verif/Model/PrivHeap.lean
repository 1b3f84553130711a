/-
Model of the wrappers around the library's private heap (src/dlmalloc-ext.c:150-274, the
`NOMMAP` instance, whose chunks are indexed by a bitmap).  The underlying allocator
(`__real_dlmalloc` etc.) is external: each event carries what it returned.
-/
namespace Liballocs.PrivHeap

/-- The one top-level mapping the heap lives in and its bitmap (src/dlmalloc-ext.c:60-148: one bit
per 16 bytes of the mapping, stored in `suballocator_private`). -/
structure St where
  begin_ : Nat
  end_ : Nat
  bits : Nat → Bool

/-- `PRIVATE_MALLOC_ALIGN` (src/liballocs_private.h:131). -/
abbrev ALIGN : Nat := 16

/-- `set_metadata` (src/dlmalloc-ext.c:150-165).  `none`: failed assertion.  The lookup of the
top-level mapping is abbreviated to a range test: the heap has exactly one. -/
def setMeta (s : St) (p : Nat) : Option St :=
  if s.begin_ ≤ p ∧ p < s.end_ ∧ (p - s.begin_) % ALIGN = 0 then
    some { s with bits := fun i => if i = (p - s.begin_) / ALIGN then true else s.bits i }
  else none

/-- `clear_metadata` (src/dlmalloc-ext.c:174-186). -/
def clearMeta (s : St) (p : Nat) : Option St :=
  if s.begin_ ≤ p ∧ p < s.end_ then
    some { s with bits := fun i => if i = (p - s.begin_) / ALIGN then false else s.bits i }
  else none

/-- A call, with the result of the underlying allocator. Address 0 is NULL. -/
inductive Ev where
  /-- `dlmalloc`, `dlcalloc`, `dlmemalign`: returned pointer -/
  | alloc (ret : Nat)
  /-- `dlfree` -/
  | free (p : Nat)
  /-- `dlrealloc` with size and returned pointer -/
  | realloc (p size ret : Nat)
  /-- `dlposix_memalign`: returned error code and the pointer stored -/
  | posixMemalign (err mem : Nat)
deriving DecidableEq, Repr

/-- The wrappers (src/dlmalloc-ext.c:192-268). -/
def exec (s : St) : Ev → Option St
  | .alloc ret => if ret ≠ 0 then setMeta s ret else some s
  | .free p => clearMeta s p
  | .realloc p size ret =>
    match (if p ≠ 0 then clearMeta s p else some s) with
    | none => none
    | some s1 =>
      if size = 0 then some s1
      else if ret ≠ 0 ∧ 0 < size then setMeta s1 ret else some s1
  | .posixMemalign err mem => if err ≠ 0 then setMeta s mem else some s

def run : St → List Ev → Option St
  | s, [] => some s
  | s, e :: es => (exec s e).bind (fun s' => run s' es)

/-- `__wrap_dlmalloc_usable_size` (src/dlmalloc-ext.c:270-274), in 64-bit arithmetic. -/
def usableSize (realUsable : BitVec 64) : BitVec 64 := realUsable - 8#64

/-- The size `__wrap_dlmalloc` asks the underlying allocator for (src/dlmalloc-ext.c:194). -/
def mallocAsk (size : BitVec 64) : BitVec 64 := size

/-- The size `__wrap_dlrealloc` asks the underlying allocator for (src/dlmalloc-ext.c:242). -/
def reallocAsk (size : BitVec 64) : BitVec 64 := size + 8#64

end Liballocs.PrivHeap
