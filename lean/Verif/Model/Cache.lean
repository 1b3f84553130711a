/-!
# The memory-range lookup cache

A fixed array of entries threaded into a most-recently-used list by index, with a validity bitmask
(include/liballocs_cil_inlines.h:189-440, src/cache.c), and the base query that uses it
(src/query.c:28-50).
-/
namespace Liballocs.Cache

/-- The payload of `struct __liballocs_memrange_cache_entry_s` (include/liballocs_cil_inlines.h:189-199);
its two link fields are kept apart in `Cache`. -/
structure Rec where
  base : Nat
  limit : Nat
  ty : Nat
  period : Nat
  depth : Int
deriving DecidableEq, Repr

/-- `struct __liballocs_memrange_cache` (include/liballocs_cil_inlines.h:204-213).  `valid i` is bit
`i - 1` of `validity`; `prev`/`next` are the link fields of `entries[i]`.  The number of usable
entries (`size_plus_one - 1`) is the parameter `N` of the functions below. -/
structure Cache where
  valid : Nat → Bool
  victim : Nat
  head : Nat
  tail : Nat
  prev : Nat → Nat
  next : Nat → Nat
  ent : Nat → Rec

/-- Pointwise update of an array. -/
def upd {α : Type} (f : Nat → α) (i : Nat) (v : α) : Nat → α := fun j => if j = i then v else f j

/-- Zero-initialised cache with `next_victim = 1` (src/cache.c:7-10). -/
def init : Cache := ⟨fun _ => false, 1, 0, 0, fun _ => 0, fun _ => 0, fun _ => ⟨0, 0, 0, 0, 0⟩⟩

/-- One of the two list walks of `__liballocs_check_cache_sanity` (include/liballocs_cil_inlines.h:228-235
and 239-246): `none` when an assertion in it fails.  An index above 32 is an invalid shift.  Since a
repeated index fails an assertion, 34 steps always suffice. -/
def walk (link : Nat → Nat) (valid : Nat → Bool) : Nat → Nat → List Nat → Option (List Nat)
  | 0, _, _ => none
  | f + 1, i, vis =>
    if i = 0 then some vis
    else if i ≤ 32 ∧ valid i = true ∧ i ∉ vis then walk link valid f (link i) (i :: vis)
    else none

/-- `visited_linear == visited_xxx` (include/liballocs_cil_inlines.h:220-227, 236, 247): the valid
entries among `1..N` are exactly the visited ones. -/
def sameSet (N : Nat) (valid : Nat → Bool) (vis : List Nat) : Bool :=
  (List.range' 1 32).all (fun i => decide (i ≤ N ∧ valid i = true) == vis.contains i)

/-- `__liballocs_check_cache_sanity` in a debug build (include/liballocs_cil_inlines.h:216-248). -/
def sane (N : Nat) (c : Cache) : Bool :=
  match walk c.next c.valid 34 c.head [], walk c.prev c.valid 34 c.tail [] with
  | some a, some b => sameSet N c.valid a && sameSet N c.valid b
  | _, _ => false

/-- An assertion of the sanity check: the failing case is `none`. -/
def assertSane (N : Nat) (c : Cache) : Option Cache := if sane N c then some c else none

/-- `__liballocs_cache_unlink` (include/liballocs_cil_inlines.h:250-267).  `none`: failed sanity
check, or an index outside the array. -/
def unlink (N : Nat) (c : Cache) (i : Nat) : Option Cache := do
  let c ← assertSane N c
  if i = 0 ∨ N < i then none
  let ourNext := c.next i
  let ourPrev := c.prev i
  if N < ourNext ∨ N < ourPrev then none
  let next := if ourPrev ≠ 0 then upd c.next ourPrev ourNext else c.next
  let prev := if ourNext ≠ 0 then upd c.prev ourNext ourPrev else c.prev
  assertSane N { c with
    valid := upd c.valid i false, victim := i, next := next, prev := prev,
    head := if c.head = i then ourNext else c.head,
    tail := if c.tail = i then ourPrev else c.tail }

/-- `__liballocs_cache_push_head_mru` (include/liballocs_cil_inlines.h:269-285). -/
def pushHead (N : Nat) (c : Cache) (i : Nat) : Option Cache := do
  let c ← assertSane N c
  if i = 0 ∨ N < i ∨ N < c.head then none
  let prev := upd c.prev i 0
  let next := upd c.next i c.head
  let prev := if c.head ≠ 0 then upd prev c.head i else prev
  assertSane N { c with
    prev := prev, next := next, head := i,
    tail := if c.tail = 0 then i else c.tail,
    valid := upd c.valid i true }

/-- `__liballocs_cache_bump_victim` (include/liballocs_cil_inlines.h:287-300). -/
def bumpVictim (N : Nat) (c : Cache) (i : Nat) : Option Cache := do
  let c ← assertSane N c
  assertSane N { c with victim := if c.victim = i ∧ 0 < N then 1 + (i + 1 - 1) % N else c.victim }

/-- `__liballocs_cache_bump_mru` (include/liballocs_cil_inlines.h:302-312). -/
def bumpMru (N : Nat) (c : Cache) (i : Nat) : Option Cache := do
  let c ← assertSane N c
  let c ← if c.head ≠ i then do
      let c ← if c.valid i = true then unlink N c i else some c
      pushHead N c i
    else some c
  assertSane N c

/-- The hit test of `__liballocs_memrange_cache_lookup` (include/liballocs_cil_inlines.h:331-342). -/
def hitTyped (obj t req : Nat) (r : Rec) : Bool :=
  decide (r.ty = t ∧ r.base ≤ obj ∧ obj < r.limit ∧
    (obj - r.base = 0 ∨ (r.period ≠ 0 ∧ (req = 0 ∨ r.period = req) ∧ (obj - r.base) % r.period = 0)))

/-- The hit test of `__liballocs_memrange_cache_lookup_notype` (include/liballocs_cil_inlines.h:371-380). -/
def hitAny (obj req : Nat) (r : Rec) : Bool :=
  decide (r.base ≤ obj ∧ obj < r.limit ∧
    ((obj - r.base = 0 ∧ req = 0) ∨
      (r.period ≠ 0 ∧ (req = 0 ∨ r.period = req) ∧ (obj - r.base) % r.period = 0)))

/-- The search loop shared by both lookups (include/liballocs_cil_inlines.h:324-329, 364-369; the
`LIBALLOCS_CACHE_LINEAR` variant is not modelled): follow the list from the head to the first valid
entry that hits.  `none`: the list does not end, or leads out of the array. -/
def search (N : Nat) (hit : Rec → Bool) (c : Cache) : Nat → Nat → Option (Option Nat)
  | 0, _ => none
  | f + 1, i =>
    if i = 0 then some none
    else if N < i then none
    else if c.valid i = true ∧ hit (c.ent i) = true then some (some i)
    else search N hit c f (c.next i)

/-- `__liballocs_memrange_cache_lookup` and `_notype` (include/liballocs_cil_inlines.h:314-390), by
hit test. -/
def lookup (N : Nat) (hit : Rec → Bool) (c : Cache) : Option (Option Rec × Cache) := do
  let c ← assertSane N c
  match ← search N hit c (N + 2) c.head with
  | some i => do
    let c ← bumpMru N c i
    return (some (c.ent i), c)
  | none => do
    let c ← assertSane N c
    return (none, c)

/-- `__builtin_ffs(~validity)` (include/liballocs_cil_inlines.h:418): one plus the index of the
lowest zero bit of the 32-bit mask, or 0 if there is none. -/
def ffsInv (valid : Nat → Bool) : Nat :=
  match (List.range' 1 32).find? (fun i => !valid i) with
  | some i => i
  | none => 0

/-- `__liballocs_cache_with_type` (include/liballocs_cil_inlines.h:407-440, without
`LIBALLOCS_CACHE_REPLACE_FIFO`).  `period` is an `unsigned short`.  `none`: a failed assertion or an
index outside the array. -/
def insert (N : Nat) (c : Cache) (r : Rec) : Option Cache := do
  let c ← assertSane N c
  let pos := ffsInv c.valid
  if N + 1 < pos then none
  let pos := if pos = N + 1 then c.tail else pos
  if pos = 0 ∨ N < pos then none
  let c := { c with ent := upd c.ent pos { r with period := r.period % 65536 } }
  let c ← bumpMru N c pos
  let c ← bumpVictim N c pos
  assertSane N c

/-- One iteration of the loop of `__liballocs_uncache_all` (src/cache.c:16-30). -/
def uncacheOne (N : Nat) (ptr size : Nat) (c : Cache) (i : Nat) : Option Cache :=
  if c.valid i = true then do
    let c ← assertSane N c
    let c ← if ptr ≤ (c.ent i).base ∧ (c.ent i).base < ptr + size then do
        let c ← unlink N c i
        pure { c with victim := i }
      else pure c
    assertSane N c
  else some c

/-- `__liballocs_uncache_all` (src/cache.c:13-32). -/
def uncache (N : Nat) (c : Cache) (ptr size : Nat) : Option Cache := do
  let c ← assertSane N c
  let c ← (List.range' 1 N).foldlM (uncacheOne N ptr size) c
  assertSane N c

/-- The calls that reach the cache. -/
inductive Op where
  | insert (r : Rec)
  | lookup (obj t req : Nat)
  | lookupAny (obj req : Nat)
  | uncache (ptr size : Nat)

/-- One call; the result of a lookup is reported. -/
def step (N : Nat) (c : Cache) : Op → Option (Option Rec × Cache)
  | .insert r => (insert N c r).map (fun c => (none, c))
  | .lookup obj t req => lookup N (hitTyped obj t req) c
  | .lookupAny obj req => lookup N (hitAny obj req) c
  | .uncache ptr size => (uncache N c ptr size).map (fun c => (none, c))

/-- A history of calls, with the results of its lookups. -/
def run (N : Nat) (c : Cache) : List Op → Option (List (Option Rec) × Cache)
  | [] => some ([], c)
  | o :: os => do
    let (r, c) ← step N c o
    let (rs, c) ← run N c os
    return (r :: rs, c)

/-! ### The base query -/

/-- What `__liballocs_get_alloc_info` finds for an address (include/liballocs.h:608-659): base, size
and whether the allocator is cacheable; `none` for an error. -/
structure Info where
  base : Nat
  size : Nat
  cacheable : Bool
deriving DecidableEq, Repr

/-- The uninterpreted-byte type. -/
def byteTy : Nat := 1

/-- `__liballocs_get_base` (src/query.c:28-50), given the current answer `info` of the full query for
this address.  Outer `none`: the cache code failed; inner `none`: a null result. -/
def getBase (N : Nat) (c : Cache) (obj : Nat) (info : Option Info) : Option (Option Nat × Cache) := do
  let (hit, c) ← lookup N (hitAny obj 0) c
  let full : Option (Option Nat × Cache) :=
    match info with
    | none => some (none, c)
    | some a =>
      if a.cacheable then do
        let c ← insert N c ⟨a.base, a.base + a.size, byteTy, 1, 0⟩
        return (some a.base, c)
      else some (some a.base, c)
  match hit with
  | some r => if r.depth = 0 then some (some r.base, c) else full
  | none => full

/-- Events seen by the base query: a query; a new leaf allocation; its release by a malloc-family
allocator, which invalidates the cache over the chunk's usable size
(include/generic_malloc_index.h:432-449); and its removal by an allocator that does not (for example
`munmap`, src/allocators/mmap.c:526-606, never calls `__liballocs_uncache_all`). -/
inductive Ev where
  | query (obj : Nat)
  | alloc (a : Info)
  | free (base usable : Nat)
  | drop (base : Nat)

/-- The full query: the live leaf allocation containing the address. -/
def ask (live : List Info) (obj : Nat) : Option Info :=
  live.find? (fun a => decide (a.base ≤ obj ∧ obj < a.base + a.size))

/-- Cache plus the live leaf allocations. -/
structure Sys where
  c : Cache
  live : List Info

/-- One event; a query reports its answer. -/
def sysStep (N : Nat) (s : Sys) : Ev → Option (Option (Option Nat) × Sys)
  | .query obj => do
    let (r, c) ← getBase N s.c obj (ask s.live obj)
    return (some r, { s with c := c })
  | .alloc a => some (none, { s with live := a :: s.live })
  | .free base usable => do
    let c ← uncache N s.c base usable
    return (none, { c := c, live := s.live.filter (fun a => a.base != base) })
  | .drop base => some (none, { s with live := s.live.filter (fun a => a.base != base) })

end Liballocs.Cache
