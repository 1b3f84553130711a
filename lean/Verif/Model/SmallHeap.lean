import Verif.Model.FileLoad
import Verif.Model.SmallTable
/-!
# The small-object allocator's calls (src/allocators/generic_small.c)

How the chunk whose table takes an object is found, made a big allocation if need be, and given a table.

Simplifications: the big lock is left out (one call at a time). The chunk record, which the code keeps in the big allocation's
`suballocator_private`, is in a map from big allocations; no record there stands for a null or foreign pointer, whose use is
outcome `none`, as are aborts and failed assertions. What an allocator's `get_info` answers without a big allocation is a
parameter; it is `none` for those which need one (mapping allocator: src/allocators/mmap.c:1574-1585) or have no `ensure_big`.
The allocation site, taken by the code from a thread-local variable or the caller's address, is an argument.
-/
namespace Liballocs.SmallHeap

open PageIndex
open FileLoad (setSub)

/-- A chunk record (src/allocators/generic_small.c:86-94). -/
structure Rec where
  cfg : SmallIndex.Cfg
  st : SmallIndex.St

/-- The page index and the chunk records. -/
structure World where
  pi : State
  tab : Nat → Option Rec

/-- The fixed things: the page index's configuration, debug build, the number of the small-object allocator, and what an allocator
says of an address without a big allocation: the base and size of the allocation there. -/
structure Env where
  c : Config
  dbg : Bool
  small : Nat
  info : Nat → Nat → Option (Nat × Nat)

/-- `__generic_malloc_ensure_big` (include/generic_malloc_index.h:165-187). -/
def ensureBig (e : Env) (s : State) (a base size : Nat) : Option (State × Nat) :=
  match fromRoot e.c s base a false with
  | none => none
  | some n =>
    if n ≠ 0 then some (s, n)
    else
      match deepest e.c s base with
      | none => none
      | some d => newBigalloc e.c s base size d ⟨a, 0, 0, 0, 0, 0⟩

/-- The table of a new chunk (src/allocators/generic_small.c:189-247, 490-492). -/
def freshRec (e : Env) (size avg : Nat) : Option Rec :=
  (SmallTable.make size avg).map (fun g => ⟨⟨SmallTable.nlayers g, SmallTable.perLayer g, e.dbg⟩, ⟨fun _ => [], 0⟩⟩)

/-- Replacing a chunk record. -/
def setTab (w : World) (n : Nat) (r : Rec) : World := { w with tab := fun m => if m = n then some r else w.tab m }

/-- `index_small_alloc_internal` on a chunk's record; addresses are taken from the chunk's beginning
(src/allocators/generic_small.c:250-372). -/
def indexIn (w : World) (n ptr size site : Nat) : Option World :=
  match w.tab n with
  | none => none
  | some r => (SmallIndex.index r.cfg r.st (ptr - w.pi.beg n) size site).map (fun st => setTab w n ⟨r.cfg, st⟩)

/-- The end of `__index_small_alloc` (src/allocators/generic_small.c:482-496): become the suballocator, or check that we are. -/
def place (e : Env) (w : World) (n ptr size site : Nat) : Option World :=
  if w.pi.sub n = 0 then
    match freshRec e (w.pi.fin n - w.pi.beg n) size with
    | none => none
    | some r => indexIn (setTab { w with pi := setSub w.pi n e.small } n r) n ptr size site
  else if w.pi.sub n ≠ e.small then none
  else indexIn w n ptr size site

/-- Silent deletion of what is overlapped (src/allocators/generic_small.c:456-463). -/
def clear (w : World) (n ptr size : Nat) : Option World :=
  match w.tab n with
  | none => none
  | some r =>
    (SmallIndex.unindexOverlapping r.cfg r.st (ptr - w.pi.beg n) (ptr - w.pi.beg n + size)).map (fun st => setTab w n ⟨r.cfg, st⟩)

/-- `__index_small_alloc` (src/allocators/generic_small.c:435-500). -/
def index (e : Env) (w : World) (ptr size site : Nat) : Option World :=
  match leafBig e.c w.pi ptr, leafAllocator e.c w.pi ptr with
  | some b, some a =>
    if size = 0 ∨ a = 0 then none
    else
      let n := if w.pi.alloc b = e.small then w.pi.par b else b
      if n = 0 then none
      else if a = e.small then (clear w n ptr size).bind (fun w' => place e w' n ptr size site)
      else if w.pi.sub n ≠ e.small then
        match e.info a ptr with
        | none => none
        | some (base, sz) =>
          match ensureBig e w.pi a base sz with
          | none => none
          | some (s', m) => place e { w with pi := s' } m ptr size site
      else place e w n ptr size site
  | _, _ => none

/-- The climb of `__unindex_small_alloc` (src/allocators/generic_small.c:782-785): the nearest big allocation outwards that we
suballocate. -/
def nearest (e : Env) (s : State) : Nat → Nat → Option Nat
  | 0, _ => none
  | f + 1, b => if b = 0 then none else if s.sub b = e.small then some b else nearest e s f (s.par b)

/-- `__unindex_small_alloc` (src/allocators/generic_small.c:774-790). -/
def unindex (e : Env) (w : World) (ptr : Nat) : Option World :=
  match (deepest e.c w.pi ptr).bind (nearest e w.pi (e.c.nb + 1)) with
  | none => none
  | some n =>
    match w.tab n with
    | none => none
    | some r => (SmallIndex.unindex r.cfg r.st (ptr - w.pi.beg n)).map (fun st => setTab w n ⟨r.cfg, st⟩)

/-- The object found by `get_info` (src/allocators/generic_small.c:792-830), given the big allocation `b` of the query: its start
and allocation site, or nothing. -/
def getInfo (e : Env) (w : World) (b obj : Nat) : Option (Option (Nat × Nat)) :=
  match (if w.pi.alloc b = e.small then some (w.pi.par b) else deepest e.c w.pi obj) with
  | none => none
  | some n =>
    match (if n = 0 then none else w.tab n) with
    | none => none
    | some r =>
      match SmallIndex.lookup r.cfg r.st (obj - w.pi.beg n) with
      | none => none
      | some none => some none
      | some (some h) =>
        match (r.st.cols h.k)[h.layer]? with
        | none => none
        | some ent =>
          if ent.discr < SmallIndex.MINU then none
          else if ent.discr < 2 ^ 47 then some (some (w.pi.beg n + h.start, ent.discr)) else none

end Liballocs.SmallHeap
