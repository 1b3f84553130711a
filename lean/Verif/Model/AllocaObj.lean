import Verif.Model.HeapObj
import Verif.Model.Alloca
/-!
# Stack allocations from call to query (src/allocators/alloca.c, src/allocators/stackframe.c, include/liballocs_cil_inlines.h)

What the library keeps of the frames of instrumented functions that call `alloca`: each has a big allocation of its own, with a
bitmap index in it, from its first call of `alloca` until it returns. The size of a chunk is in the word below it, and the
metadata word at its end (`Verif.Model.Insert`); both are in memory that the program writes to as well.

Simplifications.
* One stack, which is known to the library and covers all frames; one thread.
* The frames' big allocations are a list, and the chunks that are big allocations themselves are in the index
  (`MallocIndex.St.promoted`). `Verif.Model.PageIndex` has the table of big allocations itself.
* The bitmap is a function, as in `Verif.Model.MallocIndex`. That growing it downwards comes to the same as moving its words
  (`Verif.Model.Alloca`) is shown in `Verif.Props.AllocaObj`.
* The cache of earlier answers is left out (`Verif.Model.Cache`).
* The counter of a frame is not in the modelled memory.
* No precise sizes: the trailer has 8 bytes.
-/
namespace Liballocs.AllocaObj
open Detour (Mem rd wr)
open HeapObj (Build Info word setWord store)
open MallocIndex (St COVER)
open Alloca (SANE)

/-- A frame's big allocation, and its `struct arena_bitmap_info`. -/
structure Big where
  begin_ : Nat
  end_ : Nat
  ix : St

def holds (a : Nat) (b : Big) : Bool := decide (b.begin_ ≤ a) && decide (a < b.end_)

/-- The frame's big allocation at an address (`__lookup_bigalloc_from_root`, src/pageindex.c:1346-1355). -/
def bigAt (bs : List Big) (a : Nat) : Option Big := bs.find? (holds a)

/-- A new big allocation (src/allocators/stackframe.c:157-164) and its first bitmap (src/allocators/alloca.c:273-283, 219-232):
all of the frame's extent, in words of 64 bits for 16 bytes each. -/
def newBig (user bp : Nat) : Big :=
  ⟨user, bp, ⟨roundDown user COVER, ((roundUp bp COVER - roundDown user COVER) / 16 + 63) / 64, fun _ => false, 0, []⟩⟩

/-- The bitmap moved up by so many words (src/allocators/alloca.c:170-187). -/
def shift (s : St) (added : Nat) : St :=
  { s with
    base := s.base - added * 64 * 16, nwords := s.nwords + added,
    bits := fun i => if i < 64 * added then false else s.bits (i - 64 * added) }

/-- `ensure_arena_covers_addr` for a frame that has a bitmap (src/allocators/alloca.c:200-243, 152-188). `none`: failed
assertion. -/
def cover (b : Big) (addr : Nat) : Option Big :=
  if b.begin_ ≤ addr then some b
  else if b.ix.nwords < ((roundUp b.end_ COVER - roundDown addr COVER) / 16 + 63) / 64 then
    let s := shift b.ix (((roundUp b.end_ COVER - roundDown addr COVER) / 16 + 63) / 64 - b.ix.nwords)
    if s.base = roundDown addr COVER then some { b with begin_ := addr, ix := s } else none
  else if b.ix.base = roundDown addr COVER then some { b with begin_ := addr } else none

/-- `usable_size` (src/allocators/alloca.c:23-27). -/
def usableOf (m : Mem) (p : Nat) : Nat := rd m (p - 8) 8

/-- What `__alloca_get_info` is called for, and finds. -/
inductive Found
  /-- the address is in no frame that has called `alloca`: another allocator is asked -/
  | elsewhere
  /-- failed assertion, or an access outside the bitmap -/
  | ended
  | unindexed
  | chunk (q : Nat)
  deriving DecidableEq

def ofBitmap : MallocIndex.Res → Found
  | .outOfBounds => .ended
  | .notFound => .unindexed
  | .found q => .chunk q

/-- The search of `__alloca_get_info` (src/allocators/alloca.c:59-71), after that for the leaf allocator
(include/pageindex.h:167-210). In a chunk that is a big allocation there is no index, which an assertion is about. The
assertion of line 37 is about the word below the address that was asked for. -/
def locate (B : Build) (bs : List Big) (m : Mem) (a : Nat) : Found :=
  match bigAt bs a with
  | none => .elsewhere
  | some b =>
    match MallocIndex.findPromoted b.ix a with
    | some _ => if B.ndebug then .unindexed else .ended
    | none =>
      if B.ndebug = false ∧ SANE < usableOf m a then .ended
      else ofBitmap (MallocIndex.lookupBitmap b.ix B.ndebug a)

/-- An instrumented function that is running: its frame pointer, the address of its counter, and the counter. -/
structure Frame where
  bp : Nat
  ctr : Nat
  count : Nat

/-- The functions running, innermost first; the frames that are big allocations; the memory; and how many warnings there were of
a frame's chunks having more bytes than its counter says. -/
structure State where
  frames : List Frame
  bigs : List Big
  mem : Mem
  warned : Nat

def init (m : Mem) : State := ⟨[], [], m, 0⟩

inductive Res (α : Type)
  | elsewhere
  | ended
  | unindexed
  | ok (a : α)
  deriving DecidableEq

/-- `__alloca_get_info`, everything asked for (src/allocators/alloca.c:50-81): the answer and the state after it. -/
def getInfo (B : Build) (s : State) (a : Nat) : Res (Info × State) :=
  match locate B s.bigs s.mem a with
  | .elsewhere => .elsewhere
  | .ended => .ended
  | .unindexed => .unindexed
  | .chunk q =>
    let r := Insert.extract B.ndebug B.find B.idOf (word s.mem (q + (usableOf s.mem q - 8)))
    .ok (⟨q, MallocIndex.wsub (MallocIndex.wsub (usableOf s.mem q) 8) 8, r.2.site, r.2.type⟩,
      { s with mem := setWord s.mem (q + (usableOf s.mem q - 8)) r.1 })

/-- `__stackframe_allocator_find_or_create_bigalloc` (src/allocators/stackframe.c:126-170): the frame's big allocation, which is
the one that its counter is in, and the others. `none`: failed assertion. -/
def findOrCreate (bs : List Big) (ctr user bp : Nat) : Option (Big × List Big) :=
  match bigAt bs ctr with
  | some b => some (b, bs.filter (fun x => !holds ctr x))
  | none =>
    match bigAt bs user, bigAt bs (bp - 1) with
    | none, none => some (newBig user bp, bs)
    | _, _ => none

/-- The assertion of `ensure_has_bitmap_to` (include/generic_malloc_index.h:310-315) about the big allocation at an address. -/
def sameBase (bs : List Big) (a base : Nat) : Bool :=
  match bigAt bs a with
  | none => false
  | some x => roundDown x.begin_ COVER == base

/-- `__generic_malloc_index_insert` (include/generic_malloc_index.h:331-430) in the frame's index. -/
def insert (B : Build) (b : Big) (rest : List Big) (m : Mem) (user n : Nat) (site : BitVec 64) : Option (List Big × Mem) :=
  if B.ndebug = false ∧ sameBase (b :: rest) (user + n - 1) b.ix.base = false then none
  else
    match MallocIndex.indexInsert b.ix user n (usableOf m user) with
    | none => none
    | some ix => some ({ b with ix := ix } :: rest,
        setWord m (user + (usableOf m user - 8)) (Insert.indexInsert (word m (user + (usableOf m user - 8))) site))

/-- The assertion at the end of `__alloca_allocator_notify` (src/allocators/alloca.c:287-289): the new chunk is found. -/
def checked (B : Build) (user : Nat) (r : List Big × Mem) : Option (List Big × Mem) :=
  if B.ndebug = false ∧ locate B r.1 r.2 user ≠ .chunk user then none else some r

/-- `__alloca_allocator_notify` (src/allocators/alloca.c:250-290). `none`: failed assertion. -/
def notify (B : Build) (bs : List Big) (m : Mem) (user n ctr bp : Nat) (site : BitVec 64) : Option (List Big × Mem) :=
  if B.ndebug = false ∧ SANE < usableOf m user then none
  else
    match findOrCreate bs ctr user bp with
    | none => none
    | some (b, rest) =>
      match cover b user with
      | none => none
      | some b =>
        match insert B b rest m user n site with
        | none => none
        | some r => checked B user r

/-- `memset(a, 0, n)`. -/
def zero (m : Mem) (a n : Nat) : Mem := fun x => if a ≤ x ∧ x < a + n then 0 else m x

/-- What is done after `alloca` has given a block at `p` of the size asked for (include/liballocs_cil_inlines.h:141-172). -/
def adjusted (B : Build) (s : State) (f : Frame) (fs : List Frame) (p n : Nat) (site : BitVec 64) : Option State :=
  let r := Alloca.adjust p (Alloca.allocaSize 8 n) f.count
  match notify B s.bigs (wr (zero s.mem p (Alloca.allocaSize 8 n)) (r.userchunk - 8) r.nonHeader 8) r.userchunk n f.ctr f.bp site with
  | none => none
  | some (bs, m) => some { s with frames := { f with count := r.counter } :: fs, bigs := bs, mem := m }

/-- The loop of `__liballocs_unindex_stack_objects_counted_by` (src/allocators/alloca.c:117-145): from bit `cur` on, of which
there are `k`. The number of bytes unindexed; `none` is a failed assertion or an access outside the bitmap. -/
def walk (B : Build) (m : Mem) (total : Nat) : (k cur done : Nat) → St → Option Nat
  | 0, _, done, _ => some done
  | k + 1, cur, done, s =>
    if s.bits cur then
      match MallocIndex.indexDelete s (s.base + 16 * cur) with
      | none => none
      | some s' =>
        if B.ndebug = false ∧ SANE ≤ usableOf m (s.base + 16 * cur) then none
        else if total ≤ done + usableOf m (s.base + 16 * cur) then some (done + usableOf m (s.base + 16 * cur))
        else walk B m total k (cur + 1) (done + usableOf m (s.base + 16 * cur)) s'
    else walk B m total k (cur + 1) done s

/-- `__liballocs_unindex_stack_objects_counted_by` (src/allocators/alloca.c:90-150), with the stack pointer that it sees: the
frames that are left, and the number of warnings. -/
def unindex (B : Build) (bs : List Big) (m : Mem) (ctr count sp : Nat) : Option (List Big × Nat) :=
  match bigAt bs ctr with
  | none => if count = 0 then some (bs, 0) else none
  | some b =>
    if count = 0 then some (bs.filter (fun x => !holds ctr x), 0)
    else
      match cover b sp with
      | none => none
      | some b =>
        match walk B m count (64 * b.ix.nwords - (sp - b.ix.base) / 16) ((sp - b.ix.base) / 16) 0 b.ix with
        | none => none
        | some t => some (bs.filter (fun x => !holds ctr x), if count < t then 1 else 0)

/-- What may happen. -/
inductive Ev
  /-- an instrumented function is called: its frame pointer and the address of its counter -/
  | enter (bp ctr : Nat)
  /-- the innermost function has got a block for `n` bytes at `p` -/
  | alloca (p n : Nat) (site : BitVec 64)
  /-- the program writes a byte -/
  | store (a b : Nat)
  | ask (a : Nat)
  /-- the innermost function returns; the stack pointer in the library's function -/
  | leave (sp : Nat)
  /-- that many functions are left by `longjmp` -/
  | jump (k : Nat)

def leave (B : Build) (s : State) (f : Frame) (fs : List Frame) (sp : Nat) : Option State :=
  match unindex B s.bigs s.mem f.ctr f.count sp with
  | none => none
  | some (bs, w) => some { s with frames := fs, bigs := bs, warned := s.warned + w }

/-- The state after a query. -/
def asked (s : State) : Res (Info × State) → Option State
  | .elsewhere => some s
  | .unindexed => some s
  | .ended => none
  | .ok r => some r.2

def exec (B : Build) (s : State) : Ev → Option State
  | .enter bp ctr => some { s with frames := ⟨bp, ctr, 0⟩ :: s.frames }
  | .alloca p n site =>
    match s.frames with
    | [] => none
    | f :: fs => adjusted B s f fs p n site
  | .store a b => some { s with mem := store s.mem a b }
  | .ask a => asked s (getInfo B s a)
  | .leave sp =>
    match s.frames with
    | [] => none
    | f :: fs => leave B s f fs sp
  | .jump k => some { s with frames := s.frames.drop k }

def run (B : Build) (s : State) : List Ev → Option State
  | [] => some s
  | e :: es =>
    match exec B s e with
    | none => none
    | some s => run B s es

end Liballocs.AllocaObj
