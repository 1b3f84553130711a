import Verif.Model.Fill
/-!
# Big allocations and the page index (src/pageindex.c, include/pageindex.h)

The table of big allocations is modelled field by field, each field a function of the slot number; pointers to big
allocations are slot numbers, 0 being NULL (macros `BIDX`, `IDXB`, include/pageindex.h:63-69). Loops and recursions
take a bound on the number of steps; running out of it is `none`, like `abort()`; the theorems show that the bounds used are
never reached.

Simplifications: addresses are unbounded naturals; the page index is fully mapped and the library is initialised
(`__pageindex_init` has run, `__liballocs_systrap_is_initialized` holds, `__liballocs_notify_unindexed_address` finds
nothing to add); `sanity_check_bigalloc` only reads and is a separate predicate (`sanityOk`), the other assertions are
active when `debug` is set; destructor callbacks are logged and have no other effect; the alignment required by
an allocator is not modelled, except by `preExtendRec`.
-/
namespace Liballocs.PageIndex

open Fill

/-- Build configuration: assertions on or off, `BIGGEST_SANE_USER_ALLOC >> LOG_PAGE_SIZE`, and `NBIGALLOCS`. -/
structure Config where
  debug : Bool
  maxPages : Nat
  nb : Nat

/-- A logged destructor call: `allocator_private_free` or `suballocator_private_free` of a slot, with the function and its
argument. -/
inductive Call
  | priv (slot fn arg : Nat)
  | sub (slot fn arg : Nat)
  deriving DecidableEq

/-- `big_allocations` (include/pageindex.h:27-60), `pageindex`, and `START`
(`__liballocs_private_nommap_malloc_bigalloc`, src/pageindex.c:812). -/
structure State where
  beg : Nat → Nat
  fin : Nat → Nat
  first : Nat → Nat
  next : Nat → Nat
  par : Nat → Nat
  prev : Nat → Nat
  alloc : Nat → Nat
  sub : Nat → Nat
  priv : Nat → Nat
  privFree : Nat → Nat
  subPriv : Nat → Nat
  subPrivFree : Nat → Nat
  pidx : PIdx
  start : Nat
  log : List Call

/-- Store to one slot's field. -/
def upd (f : Nat → Nat) (i v : Nat) : Nat → Nat := fun j => if j = i then v else f j

/-- Store through a possibly-null pointer guarded by a test: `if (p) p->field = v`. -/
def updIf (f : Nat → Nat) (i v : Nat) : Nat → Nat := if i = 0 then f else upd f i v

/-- `BIGALLOC_IN_USE` (include/pageindex.h:61). -/
def inUse (s : State) (n : Nat) : Bool := s.beg n != 0 && s.fin n != 0

/-- `pageindex[q]`. -/
def entry (s : State) (q : Nat) : Nat := (s.pidx q).toNat

/-- `if (bad) abort()`. -/
def abortIf (bad : Bool) : Option Unit := if bad then none else some ()

/-- `assert(ok)`. -/
def assertIf (c : Config) (ok : Bool) : Option Unit := if c.debug && !ok then none else some ()

/-- `find_free_bigalloc` (src/pageindex.c:450-462). -/
def findFree (c : Config) (s : State) : Option Nat := (List.range' 1 (c.nb - 1)).find? (fun i => !inUse s i)

/-- A call of `memset_bigalloc` on the pages between two page-aligned addresses, as all its callers make it (with
`PAGENUM`, `PAGE_DIST`; src/pageindex.c:540-544). -/
def setPages (c : Config) (s : State) (lo hi num old : Nat) : Option State :=
  (memsetBigalloc c.debug c.maxPages s.pidx (pagenum lo) (BitVec.ofNat 16 num) (BitVec.ofNat 16 old) (pageDist lo hi)).map
    (fun p => { s with pidx := p })

/-! ## Linking and unlinking -/

/-- `add_child` (src/pageindex.c:500-515). -/
def addChild (c : Config) (s : State) (child parent : Nat) : Option State := do
  assertIf c (s.par child == 0)
  assertIf c (s.next child == 0)
  assertIf c (s.first parent == 0 || s.prev (s.first parent) == 0)
  assertIf c (s.prev child == 0)
  some { s with
    par := upd s.par child parent
    first := upd s.first parent child
    next := upd s.next child (s.first parent)
    prev := updIf s.prev (s.first parent) child }

/-- The first part of `unlink_child`: the parent's `first_child` (src/pageindex.c:524-532). -/
def unlinkFirst (c : Config) (s : State) (child parent : Nat) : Option State :=
  if child = s.first parent then
    (assertIf c (s.prev child == 0)).map (fun _ => { s with first := upd s.first parent (s.next child) })
  else (assertIf c (s.prev child != 0)).map (fun _ => s)

/-- `unlink_child` (src/pageindex.c:517-539). -/
def unlinkChild (c : Config) (s : State) (child : Nat) : Option State := do
  abortIf (s.par child == 0)
  let s1 ← unlinkFirst c s child (s.par child)
  some { s1 with
    next := upd (updIf s1.next (s1.prev child) (s1.next child)) child 0
    prev := upd (updIf s1.prev (s1.next child) (s1.prev child)) child 0
    par := upd s1.par child 0 }

/-- The macro `search_xwards_until_p` (src/pageindex.c:813-817), from `cur`; gives the last `prev` and `cur`. -/
def search (dir : Nat → Nat) (p : Nat → Bool) : Nat → Nat → Nat → Option (Nat × Nat)
  | 0, _, _ => none
  | f + 1, prev, cur => if cur = 0 ∨ p cur = true then some (prev, cur) else search dir p f cur (dir cur)

/-- The second half of `find_toplevel_lowest_ge` and `find_toplevel_highest_lt`: the answer of the reverse search. -/
def searchBack (c : Config) (s : State) (r : Nat × Nat) : Option Nat :=
  (assertIf c (r.2 != s.start && r.1 != 0)).map (fun _ => r.1)

/-- `find_toplevel_lowest_ge` (src/pageindex.c:818-837). -/
def lowestGe (c : Config) (s : State) (addr : Nat) : Option Nat :=
  match search s.next (fun cur => decide (addr ≤ s.fin cur - 1)) (c.nb + 1) 0 s.start with
  | none => none
  | some (_, cur) =>
    if cur ≠ 0 ∧ cur ≠ s.start then some cur
    else if cur = 0 then some 0
    else (search s.prev (fun cur => !decide (addr ≤ s.fin cur - 1)) (c.nb + 1) 0 s.start).bind (searchBack c s)

/-- `find_toplevel_highest_lt` (src/pageindex.c:838-851). -/
def highestLt (c : Config) (s : State) (addr : Nat) : Option Nat :=
  match search s.prev (fun cur => decide (s.beg cur < addr)) (c.nb + 1) 0 s.start with
  | none => none
  | some (_, cur) =>
    if cur ≠ 0 ∧ cur ≠ s.start then some cur
    else if cur = 0 then some 0
    else (search s.next (fun cur => !decide (s.beg cur < addr)) (c.nb + 1) 0 s.start).bind (searchBack c s)

/-- The predecessor chosen by `add_toplevel` (src/pageindex.c:856). -/
def predFor (c : Config) (s : State) (b nx : Nat) : Option Nat :=
  if nx ≠ 0 then some (s.prev nx) else highestLt c s (s.beg b)

/-- `add_toplevel` (src/pageindex.c:852-859). -/
def addToplevel (c : Config) (s : State) (b : Nat) : Option State := do
  let nx ← lowestGe c s (s.fin b)
  let pv ← predFor c { s with next := upd s.next b nx } b nx
  some { s with
    next := updIf (upd s.next b nx) pv b
    prev := updIf (upd s.prev b pv) nx b }

/-- `unlink_toplevel` (src/pageindex.c:860-864). -/
def unlinkToplevel (s : State) (b : Nat) : State :=
  { s with
    next := updIf s.next (s.prev b) (s.next b)
    prev := updIf s.prev (s.next b) (s.prev b) }

/-! ## Creation -/

/-- The caller-supplied contents of a new big allocation. -/
structure Meta where
  alloc : Nat
  sub : Nat
  priv : Nat
  privFree : Nat
  subPriv : Nat
  subPrivFree : Nat

/-- The stores at the start of `bigalloc_init_nomemset` (src/pageindex.c:757-765). -/
def initFields (s : State) (b ptr size : Nat) (m : Meta) : State :=
  { s with
    beg := upd s.beg b ptr
    fin := upd s.fin b (ptr + size)
    priv := upd s.priv b m.priv
    privFree := upd s.privFree b m.privFree
    alloc := upd s.alloc b m.alloc
    sub := upd s.sub b m.sub
    subPriv := upd s.subPriv b m.subPriv
    subPrivFree := upd s.subPrivFree b m.subPrivFree
    first := upd s.first b 0
    next := upd s.next b 0
    prev := upd s.prev b 0 }

/-- Linking a new big allocation in (src/pageindex.c:773-788). -/
def linkIn (c : Config) (s : State) (b parent : Nat) : Option State :=
  if parent ≠ 0 then addChild c s b parent else addToplevel c s b

/-- `bigalloc_init_nomemset` (src/pageindex.c:752-792). -/
def initNomemset (c : Config) (s : State) (b ptr size parent : Nat) (m : Meta) : Option State :=
  linkIn c (initFields s b ptr size m) b parent

/-- `bigalloc_init` (src/pageindex.c:794-810). -/
def bigallocInit (c : Config) (s : State) (b ptr size parent : Nat) (m : Meta) : Option State := do
  let s1 ← initNomemset c s b ptr size parent m
  setPages c s1 (roundUp (s1.beg b) PAGE) (roundDown (s1.fin b) PAGE) b parent

/-- `bigalloc_new` (src/pageindex.c:742-750). -/
def bigallocNew (c : Config) (s : State) (ptr size parent : Nat) (m : Meta) : Option (State × Nat) := do
  let b ← findFree c s
  let s1 ← bigallocInit c s b ptr size parent { m with sub := 0, subPriv := 0, subPrivFree := 0 }
  some (s1, b)

/-! ## Lookup -/

/-- Does the slot's range contain the address? -/
def spans (s : State) (n addr : Nat) : Bool := decide (s.beg n ≤ addr) && decide (addr < s.fin n)

/-- The first of a child list that contains the address, 0 if none (src/pageindex.c:1216-1226). -/
def findKid (s : State) (addr : Nat) : Nat → Nat → Option Nat
  | 0, _ => none
  | f + 1, child => if child = 0 then some 0 else if spans s child addr then some child else findKid s addr f (s.next child)

/-- `find_deepest_bigalloc_recursive` (src/pageindex.c:1212-1231). -/
def deepestFrom (c : Config) (s : State) (addr : Nat) : Nat → Nat → Option Nat
  | 0, _ => none
  | f + 1, start =>
    match findKid s addr (c.nb + 1) (s.first start) with
    | none => none
    | some k => if k = 0 then some start else deepestFrom c s addr f k

/-- `find_deepest_bigalloc`, also `__lookup_deepest_bigalloc` (src/pageindex.c:1232-1242, 1385-1394); 0 for NULL. -/
def deepest (c : Config) (s : State) (addr : Nat) : Option Nat :=
  if entry s (pagenum addr) = 0 then some 0 else deepestFrom c s addr (c.nb + 1) (entry s (pagenum addr))

/-- The check that a parentless big allocation is page aligned (src/pageindex.c:711-724). -/
def topAligned (parent ptr size : Nat) : Option Nat :=
  if parent = 0 ∧ (roundUp ptr PAGE ≠ ptr ∨ roundUp (ptr + size - 1 + 1) PAGE ≠ ptr + size - 1 + 1) then none else some parent

/-- The choice of parent (src/pageindex.c:665-725); `maybeParent` 0 for NULL. -/
def chooseParent (c : Config) (s : State) (ptr size maybeParent : Nat) : Option Nat :=
  if maybeParent ≠ 0 then some maybeParent
  else match deepest c s ptr, deepest c s (ptr + size - 1) with
    | some d1, some d2 => if d1 ≠ d2 then none else topAligned d1 ptr size
    | _, _ => none

/-- `__liballocs_new_bigalloc` (src/pageindex.c:646-736). -/
def newBigalloc (c : Config) (s : State) (ptr size maybeParent : Nat) (m : Meta) : Option (State × Nat) := do
  abortIf (decide (size > c.maxPages * PAGE))
  let parent ← chooseParent c s ptr size maybeParent
  bigallocNew c s ptr size parent m

/-- Climbing to the top: `while (BIDX(b->parent)) b = BIDX(b->parent)` (src/pageindex.c:1165, 1294, 1381). -/
def climb (s : State) : Nat → Nat → Option Nat
  | 0, _ => none
  | f + 1, b => if s.par b = 0 then some b else climb s f (s.par b)

/-- The field compared by `find_bigalloc_recursive`. -/
def who (s : State) (bySub : Bool) (n : Nat) : Nat := if bySub then s.sub n else s.alloc n

/-- `find_bigalloc_recursive` below its start (src/pageindex.c:1168-1188); 0 for NULL. -/
def findUnder (c : Config) (s : State) (addr a : Nat) (bySub : Bool) : Nat → Nat → Option Nat
  | 0, _ => none
  | f + 1, start =>
    if who s bySub start = a then some start
    else match findKid s addr (c.nb + 1) (s.first start) with
      | none => none
      | some k => if k = 0 then some 0 else findUnder c s addr a bySub f k

/-- `find_bigalloc_recursive` from the root (src/pageindex.c:1133-1166 and below), also `__lookup_bigalloc_from_root` and
`__lookup_bigalloc_from_root_by_suballocator`. -/
def fromRoot (c : Config) (s : State) (addr a : Nat) (bySub : Bool) : Option Nat :=
  (climb s (c.nb + 1) (entry s (pagenum addr))).bind (findUnder c s addr a bySub (c.nb + 1))

/-- `find_bigalloc_under_pageindex`, also `__lookup_bigalloc_under_pageindex` (src/pageindex.c:1195-1200, 1310-1319). -/
def underPageindex (c : Config) (s : State) (addr a : Nat) : Option Nat :=
  if entry s (pagenum addr) = 0 then some 0 else findUnder c s addr a false (c.nb + 1) (entry s (pagenum addr))

/-- `__lookup_bigalloc_top_level` (src/pageindex.c:1369-1383). -/
def topLevel (c : Config) (s : State) (addr : Nat) : Option Nat :=
  if entry s (pagenum addr) = 0 then some 0 else climb s (c.nb + 1) (entry s (pagenum addr))

/-- The inner loop of `__liballocs_leaf_allocator_for` (include/pageindex.h:178-187): the last child containing the address,
else `cur`. -/
def lastKid (s : State) (addr : Nat) : Nat → Nat → Nat → Option Nat
  | 0, _, _ => none
  | f + 1, cur, child =>
    if child = 0 then some cur else lastKid s addr f (if spans s child addr then child else cur) (s.next child)

/-- The outer loop of `__liballocs_leaf_allocator_for` (include/pageindex.h:171-190). -/
def leafLoop (c : Config) (s : State) (addr : Nat) : Nat → Nat → Option Nat
  | 0, _ => none
  | f + 1, cur =>
    match lastKid s addr (c.nb + 1) cur (s.first cur) with
    | none => none
    | some k => if k = cur then some cur else leafLoop c s addr f k

/-- The deepest big allocation found by `__liballocs_leaf_allocator_for`, 0 if none. -/
def leafBig (c : Config) (s : State) (addr : Nat) : Option Nat :=
  if entry s (pagenum addr) = 0 then some 0 else leafLoop c s addr (c.nb + 1) (entry s (pagenum addr))

/-- The allocator given by `__liballocs_leaf_allocator_for` (include/pageindex.h:167-237), 0 for NULL. -/
def leafAllocator (c : Config) (s : State) (addr : Nat) : Option Nat :=
  (leafBig c s addr).map (fun d => if d = 0 then 0 else if s.sub d ≠ 0 then s.sub d else s.alloc d)

/-! ## Deletion -/

/-- The destructor calls of one big allocation (src/pageindex.c:564-568). -/
def callsOf (s : State) (b : Nat) : List Call :=
  (if s.priv b ≠ 0 ∧ s.privFree b ≠ 0 then [Call.priv b (s.privFree b) (s.priv b)] else []) ++
  (if s.subPrivFree b ≠ 0 then [Call.sub b (s.subPrivFree b) (s.subPriv b)] else [])

/-- Unlinking on deletion (src/pageindex.c:569-571). -/
def unlink (c : Config) (s : State) (b : Nat) : Option State :=
  if s.par b ≠ 0 then unlinkChild c s b else some (unlinkToplevel s b)

/-- `clear_bigalloc_nomemset` (src/pageindex.c:489-492). -/
def clear (s : State) (b : Nat) : State := { s with beg := upd s.beg b 0, fin := upd s.fin b 0 }

/-- `bigalloc_del` after its children are gone (src/pageindex.c:563-590). -/
def delSelf (c : Config) (s : State) (b : Nat) : Option State := do
  let s1 ← unlink c { s with log := s.log ++ callsOf s b } b
  let s2 ← setPages c s1 (roundUp (s1.beg b) PAGE) (roundDown (s1.fin b) PAGE) (s.par b) b
  some (clear s2 b)

/-- The loop of `bigalloc_del` over the children (src/pageindex.c:555-561), `delF` being the recursive call. -/
def delLoop (delF : State → Nat → Option State) : Nat → State → Nat → Option State
  | 0, _, _ => none
  | f + 1, s, child => if child = 0 then some s else (delF s child).bind (fun s' => delLoop delF f s' (s.next child))

/-- `bigalloc_del` (src/pageindex.c:550-591). -/
def del (c : Config) : Nat → State → Nat → Option State
  | 0, _, _ => none
  | f + 1, s, b => (delLoop (del c f) (c.nb + 1) s (s.first b)).bind (fun s' => delSelf c s' b)

/-- `bigalloc_del`, with the bound used throughout. -/
def bigallocDel (c : Config) (s : State) (b : Nat) : Option State := del c (c.nb + 1) s b

/-- `__liballocs_delete_bigalloc_at` (src/pageindex.c:1245-1257). -/
def deleteAt (c : Config) (s : State) (addr a : Nat) : Option (State × Bool) :=
  match fromRoot c s addr a false with
  | none => none
  | some b => if b = 0 then some (s, false) else (bigallocDel c s b).map (fun s' => (s', true))

/-! ## Resizing -/

/-- `__liballocs_extend_bigalloc` (src/pageindex.c:897-917). -/
def extend (c : Config) (s : State) (b newEnd : Nat) : Option State :=
  setPages c { s with fin := upd s.fin b newEnd } (roundDown (s.fin b) PAGE) (roundDown newEnd PAGE) b (s.par b)

/-- The first loop of `is_one_or_more_levels_under` (src/pageindex.c:925-928): is it one of the children? -/
def isKid (s : State) (n : Nat) : Nat → Nat → Option Bool
  | 0, _ => none
  | f + 1, child => if child = 0 then some false else if child = n then some true else isKid s n f (s.next child)

/-- The second loop of `is_one_or_more_levels_under` (src/pageindex.c:929-933). -/
def underLoop (s : State) (rec1 : Nat → Option Bool) : Nat → Nat → Option Bool
  | 0, _ => none
  | f + 1, child =>
    if child = 0 then some false
    else match rec1 child with
      | none => none
      | some true => some true
      | some false => underLoop s rec1 f (s.next child)

/-- `is_one_or_more_levels_under` (src/pageindex.c:919-935). -/
def isUnder (c : Config) (s : State) (n : Nat) : Nat → Nat → Option Bool
  | 0, _ => none
  | f + 1, b =>
    if n = b then some false
    else match isKid s n (c.nb + 1) (s.first b) with
      | none => none
      | some true => some true
      | some false => underLoop s (isUnder c s n f) (c.nb + 1) (s.first b)

/-- The end of the range re-indexed by `__liballocs_pre_extend_bigalloc` (src/pageindex.c:967-977), given the answer
to the nesting question. The question is asked only if the first condition holds. -/
def preExtendLimit (s : State) (b oldBegin : Nat) (under : Bool) : Nat :=
  if pagenum (s.fin b) > pagenum oldBegin ∧ under = false then roundUp oldBegin PAGE else roundDown oldBegin PAGE

/-- `is_one_or_more_levels_under`, if it is evaluated at all (`&&`). -/
def preExtendUnder (c : Config) (s : State) (b oldBegin : Nat) : Option Bool :=
  if pagenum (s.fin b) > pagenum oldBegin then isUnder c s (entry s (pagenum oldBegin)) (c.nb + 1) b else some false

/-- `__liballocs_pre_extend_bigalloc` (src/pageindex.c:951-984). -/
def preExtend (c : Config) (s : State) (b newBegin : Nat) : Option State :=
  if newBegin < s.beg b then
    (preExtendUnder c { s with beg := upd s.beg b newBegin } b (s.beg b)).bind (fun under =>
      setPages c { s with beg := upd s.beg b newBegin } (roundUp newBegin PAGE) (preExtendLimit s b (s.beg b) under) b (s.par b))
  else some s

/-- The bound passed up by `__liballocs_pre_extend_bigalloc_recursive` (src/pageindex.c:942-944); `align` gives
allocators' `min_alignment`. -/
def preExtendAlign (align : Nat → Nat) (s : State) (parent newBegin : Nat) : Nat :=
  if align (s.alloc parent) ≠ 0 then roundDown newBegin (align (s.alloc parent)) else newBegin

/-- `__liballocs_pre_extend_bigalloc_recursive` (src/pageindex.c:938-948). -/
def preExtendRec (c : Config) (align : Nat → Nat) : Nat → State → Nat → Nat → Option State
  | 0, _, _, _ => none
  | f + 1, s, b, newBegin =>
    if s.par b ≠ 0 then
      (preExtendRec c align f s (s.par b) (preExtendAlign align s (s.par b) newBegin)).bind (fun s' => preExtend c s' b newBegin)
    else preExtend c s b newBegin

/-- `__liballocs_truncate_bigalloc_at_end` (src/pageindex.c:1005-1033). -/
def truncEnd (c : Config) (s : State) (b newEnd : Nat) : Option State :=
  setPages c { s with fin := upd s.fin b newEnd } (roundDown newEnd PAGE) (roundDown (s.fin b) PAGE) (s.par b) b

/-- `__liballocs_truncate_bigalloc_at_beginning` (src/pageindex.c:1036-1054). -/
def truncBegin (c : Config) (s : State) (b newBegin : Nat) : Option State :=
  setPages c { s with beg := upd s.beg b newBegin } (roundUp (s.beg b) PAGE) (roundUp newBegin PAGE) (s.par b) b

/-- `__adjust_bigalloc_end` (src/pageindex.c:989-1003). -/
def adjustEnd (c : Config) (s : State) (b newEnd : Nat) : Option State :=
  if newEnd < s.fin b then truncEnd c s b newEnd else if newEnd > s.fin b then extend c s b newEnd else some s

/-! ## Splitting -/

/-- Is the child moved to the second half? The two halves cannot both contain it unless it is empty, which is an `abort()`
(src/pageindex.c:1083-1085). -/
def inSecond (s : State) (b at' child : Nat) : Bool := decide (at' ≤ s.beg child) && decide (s.fin child ≤ s.fin b)

def inFirst (s : State) (b at' child : Nat) : Bool := decide (s.beg b ≤ s.beg child) && decide (s.fin child ≤ at')

/-- One iteration of the loop over the children (src/pageindex.c:1080-1096). -/
def moveKid (c : Config) (s : State) (b nw at' child : Nat) : Option State :=
  if inFirst s b at' child && inSecond s b at' child then none
  else if inSecond s b at' child then (unlinkChild c s child).bind (fun s' => addChild c s' child nw)
  else some s

/-- The loop over the children (src/pageindex.c:1077-1099). -/
def moveKids (c : Config) (b nw at' : Nat) : Nat → State → Nat → Option State
  | 0, _, _ => none
  | f + 1, s, child =>
    if child = 0 then some s else (moveKid c s b nw at' child).bind (fun s' => moveKids c b nw at' f s' (s.next child))

/-- The loop over the page index (src/pageindex.c:1108-1114). -/
def renumber (pidx : PIdx) (lo hi old new : Nat) : PIdx :=
  fun q => if lo ≤ q ∧ q < hi ∧ (pidx q).toNat = old then BitVec.ofNat 16 new else pidx q

/-- `__liballocs_split_bigalloc_at_page_boundary` (src/pageindex.c:1057-1119). -/
def split (c : Config) (s : State) (b at' : Nat) : Option (State × Nat) := do
  let nw ← findFree c s
  let s1 ← initNomemset c s nw at' (s.fin b - at') (s.par b)
    ⟨s.alloc b, s.sub b, s.priv b, s.privFree b, s.subPriv b, s.subPrivFree b⟩
  let s2 ← moveKids c b nw at' (c.nb + 1) s1 (s1.first b)
  some ({ s2 with
    fin := upd s2.fin b at'
    pidx := renumber s2.pidx (pagenum (roundUp (s2.beg nw) PAGE)) (pagenum (roundUp (s2.fin nw) PAGE)) b nw }, nw)

/-! ## Nearest mappings, common parent, range deletion -/

/-- `__liballocs_find_mapping_at_or_above` (src/pageindex.c:866-879). -/
def mappingAtOrAbove (c : Config) (s : State) (addr : Nat) : Option Nat :=
  match highestLt c s addr with
  | none => none
  | some found =>
    if found = 0 then some 0
    else if s.fin found ≤ addr then lowestGe c s addr
    else some found

/-- `__liballocs_find_mapping_below` (src/pageindex.c:881-895). -/
def mappingBelow (c : Config) (s : State) (addr : Nat) : Option Nat :=
  match highestLt c s addr with
  | none => none
  | some found =>
    if found = 0 then some 0
    else if addr < s.fin found then highestLt c s (s.beg found)
    else some found

/-- `bigalloc_depth` (src/pageindex.c:45-50). -/
def depthOf (s : State) : Nat → Nat → Option Nat
  | 0, _ => none
  | f + 1, b => if b = 0 then some 0 else (depthOf s f (s.par b)).map (· + 1)

/-- `get_common_parent_bigalloc_recursive` (src/pageindex.c:1396-1410); `none` if out of steps. -/
def commonRec (s : State) : Nat → Nat → Nat → Nat → Nat → Option Nat
  | 0, _, _, _, _ => none
  | f + 1, b1, d1, b2, d2 =>
    if b1 = b2 then some b1
    else if d1 = 0 ∨ d2 = 0 then some 0
    else if d1 > d2 then commonRec s f (s.par b1) (d1 - 1) b2 (d2 - 1)
    else commonRec s f b1 d1 (s.par b2) (d2 - 1)

/-- `get_common_parent_bigalloc` (src/pageindex.c:1412-1419) for two big allocations. -/
def commonParent (c : Config) (s : State) (b1 b2 : Nat) : Option Nat :=
  match depthOf s (c.nb + 1) b1, depthOf s (c.nb + 1) b2 with
  | some d1, some d2 => commonRec s (2 * c.nb + 1) b1 d1 b2 d2
  | _, _ => none

/-- The zero-skipping loop of `__liballocs_delete_all_bigallocs_overlapping_range` (src/pageindex.c:1274): pages passed. -/
def skipZeros (s : State) : Nat → Nat → Nat
  | 0, _ => 0
  | k + 1, q => if entry s q = 0 then skipZeros s k (q + 1) + 1 else 0

/-- The body after skipping: delete the whole tree found (src/pageindex.c:1286-1302). -/
def delHit (c : Config) (s : State) (upTo : Nat) : Option (State × Nat) :=
  if entry s (pagenum upTo) = 0 then none
  else match climb s (c.nb + 1) (entry s (pagenum upTo)) with
    | none => none
    | some b => if s.fin b ≤ upTo then none else (bigallocDel c s b).map (fun s' => (s', s.fin b))

/-- `__liballocs_delete_all_bigallocs_overlapping_range` (src/pageindex.c:1260-1307), from `upTo`. -/
def delRange (c : Config) : Nat → State → Nat → Nat → Option State
  | 0, _, _, _ => none
  | f + 1, s, upTo, «end» =>
    if upTo < «end» then
      let upTo' := upTo + PAGE * skipZeros s (pagenum (roundUp «end» PAGE) - pagenum upTo) (pagenum upTo)
      if «end» ≤ upTo' then some s
      else (delHit c s upTo').bind (fun r => delRange c f r.1 r.2 «end»)
    else some s

/-! ## Consistency checks -/

/-- `sanity_check_bigalloc` without its recursion (src/pageindex.c:129-166): the range is not empty, the pages just before and
after it are not indexed as its own, and it lies in its parent. -/
def sanityOk (s : State) (b : Nat) : Bool :=
  !inUse s b ||
    (s.fin b != s.beg b && entry s (pagenum (s.beg b - 1)) != b && entry s (pagenum (s.fin b)) != b &&
      (s.par b == 0 || (decide (s.beg (s.par b) ≤ s.beg b) && decide (s.fin b ≤ s.fin (s.par b)))))

/-- The state before anything is created. -/
def State.init : State :=
  ⟨fun _ => 0, fun _ => 0, fun _ => 0, fun _ => 0, fun _ => 0, fun _ => 0, fun _ => 0, fun _ => 0, fun _ => 0, fun _ => 0,
    fun _ => 0, fun _ => 0, fun _ => 0#16, 0, []⟩

/-! ## Histories -/

/-- The first big allocation is that of the library's own heap; it is where searches of the top-level list start
(`create_private_nommap_malloc_heap`, src/dlmalloc-ext.c:98-99). -/
def boot (c : Config) (ptr size : Nat) (m : Meta) : Option State :=
  (newBigalloc c State.init ptr size 0 m).map (fun r => { r.1 with start := r.2 })

/-- Operations on big allocations. `setSub` is what allocators do to claim a big allocation as their arena, with stores to
its `suballocator` fields (e.g. src/allocators/generic_small.c:489, src/allocators/stack.c:79, src/dlmalloc-ext.c:114). -/
inductive Op where
  | new (ptr size parent : Nat) (m : Meta)
  | setSub (b sub subPriv subPrivFree : Nat)
  | del (b : Nat)
  | deleteAt (addr a : Nat)
  | deleteRange (lo hi : Nat)
  | extend (b newEnd : Nat)
  | preExtend (b newBegin : Nat)
  | preExtendUp (b newBegin : Nat)
  | truncEnd (b newEnd : Nat)
  | truncBegin (b newBegin : Nat)
  | split (b at' : Nat)

/-- One operation; `align` gives allocators' `min_alignment`. -/
def apply (c : Config) (align : Nat → Nat) (s : State) : Op → Option State
  | .new ptr size parent m => (newBigalloc c s ptr size parent m).map Prod.fst
  | .setSub b sub subPriv subPrivFree =>
    some { s with sub := upd s.sub b sub, subPriv := upd s.subPriv b subPriv, subPrivFree := upd s.subPrivFree b subPrivFree }
  | .del b => bigallocDel c s b
  | .deleteAt addr a => (deleteAt c s addr a).map Prod.fst
  | .deleteRange lo hi => delRange c (c.nb + 1) s lo hi
  | .extend b newEnd => extend c s b newEnd
  | .preExtend b newBegin => preExtend c s b newBegin
  | .preExtendUp b newBegin => preExtendRec c align (c.nb + 1) s b newBegin
  | .truncEnd b newEnd => truncEnd c s b newEnd
  | .truncBegin b newBegin => truncBegin c s b newBegin
  | .split b at' => (split c s b at').map Prod.fst

end Liballocs.PageIndex
