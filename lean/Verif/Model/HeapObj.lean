import Verif.Model.MallocIndex
import Verif.Model.Insert
import Verif.Model.Detour
/-!
# Heap objects from allocation to query (include/generic_malloc_index.h, include/malloc-meta.h, tools/stubgen.h)

The bitmap index (`Verif.Model.MallocIndex`) and the metadata word (`Verif.Model.Insert`) put together with the memory that
the words live in. The program, the malloc and the library all write to that memory.

Simplifications.
* Memory is a function from addresses to bytes. Addresses are natural numbers.
* What the malloc's own size function says of a chunk (`sizefn`) is the usable size that it was delivered with.
* No lifetime policies (`initial_lifetime_policies` is 0). Those are modelled in `Verif.Model.Insert` and `Verif.Model.Lifetime`.
* One arena, and one thread.
* What the malloc writes of its own accord is a list of stores: as events of their own, and inside a `realloc` between the
  two hooks.
* The list of unrecognised sites and the statistics counters are left out.
-/
namespace Liballocs.HeapObj
open Detour (Mem rd wr)
open MallocIndex (St findPromoted lookupBitmap)

/-- How the library was built, and what is known of allocation sites: the type of a site (null when there is none) and its
number (src/allocsites.c). -/
structure Build where
  ndebug : Bool
  find : BitVec 64 → BitVec 64
  idOf : BitVec 64 → BitVec 15

/-- The index of the arena, what `sizefn` says of each chunk, and the memory. -/
structure State where
  ix : St
  usable : Nat → Nat
  mem : Mem

/-- Before the first allocation in an arena (include/generic_malloc_index.h:272-300). -/
def fresh (lo : Nat) (m : Mem) : State := ⟨MallocIndex.fresh lo, fun _ => 0, m⟩

/-- The metadata word at an address (include/malloc-meta.h:57-76). -/
def word (m : Mem) (a : Nat) : Insert.W := BitVec.ofNat 64 (rd m a 8)

def setWord (m : Mem) (a : Nat) (w : Insert.W) : Mem := wr m a w.toNat 8

/-- `insert_for_chunk` (include/malloc-meta.h:101-105). -/
def wordAt (s : State) (p : Nat) : Nat := p + (s.usable p - 8)

/-- A store of one byte. -/
def store (m : Mem) (a b : Nat) : Mem := fun x => if x = a then b else m x

/-- `__generic_malloc_index_insert` (include/generic_malloc_index.h:331-430) for a chunk that the malloc has delivered with
usable size `u`. -/
def insert (s : State) (p r u : Nat) (site : BitVec 64) : Option State :=
  match MallocIndex.indexInsert s.ix p r u with
  | none => none
  | some ix => some ⟨ix, fun x => if x = p then u else s.usable x,
      setWord s.mem (p + (u - 8)) (Insert.indexInsert (word s.mem (p + (u - 8))) site)⟩

/-- `__generic_malloc_index_delete` (include/generic_malloc_index.h:432-528). -/
def delete (s : State) (p : Nat) : Option State :=
  match MallocIndex.indexDelete s.ix p with
  | none => none
  | some ix => some { s with ix := ix }

/-- What a query of everything says of an object. -/
structure Info where
  base : Nat
  size : Nat
  site : BitVec 64
  type : Option (BitVec 64)
  deriving DecidableEq

inductive Res (α : Type)
  | outOfBounds
  | unindexed
  | ok (a : α)

/-- What is made of an answer of the bitmap: the base, the size and where the metadata word is
(include/generic_malloc_index.h:616-628, 688-705). -/
def ofBitmap (s : State) : MallocIndex.Res → Res (Nat × Nat × Nat)
  | .outOfBounds => .outOfBounds
  | .notFound => .unindexed
  | .found q => .ok (q, MallocIndex.wsub (MallocIndex.wsub (s.usable q) 8) 8, wordAt s q)

/-- The object that `__generic_malloc_get_info` finds (include/generic_malloc_index.h:677-706). -/
def locate (B : Build) (s : State) (a : Nat) : Res (Nat × Nat × Nat) :=
  match findPromoted s.ix a with
  | some b => .ok (b.1, b.2, b.1 + (b.2 + 8))
  | none => ofBitmap s (lookupBitmap s.ix B.ndebug a)

/-- `__generic_malloc_get_info`, everything asked for (include/generic_malloc_index.h:660-713): the answer, and the state
after it. -/
def getInfo (B : Build) (s : State) (a : Nat) : Res (Info × State) :=
  match locate B s a with
  | .outOfBounds => .outOfBounds
  | .unindexed => .unindexed
  | .ok (base, size, at_) =>
    let r := Insert.extract B.ndebug B.find B.idOf (word s.mem at_)
    .ok (⟨base, size, r.2.site, r.2.type⟩, { s with mem := setWord s.mem at_ r.1 })

/-- The word found through the bitmap is replaced (include/generic_malloc_index.h:720-731). -/
def setAt (B : Build) (s : State) (u : BitVec 64) : MallocIndex.Res → Res State
  | .outOfBounds => .outOfBounds
  | .notFound => .unindexed
  | .found q => .ok { s with mem := setWord s.mem (wordAt s q) (Insert.setType B.idOf (word s.mem (wordAt s q)) u) }

/-- `__generic_malloc_set_type` (include/generic_malloc_index.h:715-732): the bitmap is asked, never the big allocations. -/
def setType (B : Build) (s : State) (a : Nat) (u : BitVec 64) : Res State :=
  setAt B s u (lookupBitmap s.ix B.ndebug a)

/-- What may happen. -/
inductive Ev
  /-- the program or the malloc writes a byte -/
  | store (a b : Nat)
  /-- the malloc delivers a chunk: start, requested size, usable size; called from a site -/
  | alloc (p r u : Nat) (site : BitVec 64)
  | free (p : Nat)
  /-- a successful realloc: old and new start, requested and usable size, site, what the malloc writes meanwhile -/
  | realloc (p q r u : Nat) (site : BitVec 64) (ws : List (Nat × Nat))
  /-- a realloc that failed: start, requested size, site -/
  | reallocFail (p r : Nat) (site : BitVec 64)
  | ask (a : Nat)
  | setType (a : Nat) (u : BitVec 64)

/-- The hooks around a successful `realloc` (tools/stubgen.h:392-435, include/generic_malloc_index.h:531-578): the chunk is
taken out of the index before and put in after. -/
def execRealloc (s : State) (p q r u : Nat) (site : BitVec 64) (ws : List (Nat × Nat)) : Option State :=
  match delete s p with
  | none => none
  | some s => insert { s with mem := ws.foldl (fun m w => store m w.1 w.2) s.mem } q r u site

/-- The same for a failed one: the chunk is put back where it was. -/
def execFail (s : State) (p r : Nat) (site : BitVec 64) : Option State :=
  match delete s p with
  | none => none
  | some s => insert s p r (s.usable p) site

/-- The state after a query or a change of type; `none` is an access outside the bitmap. -/
def after {α : Type} (s : State) (f : α → State) : Res α → Option State
  | .outOfBounds => none
  | .unindexed => some s
  | .ok r => some (f r)

/-- What is done for an event (tools/stubgen.h:346-435). `none` is an access outside the bitmap or a failed assertion. -/
def exec (B : Build) (s : State) : Ev → Option State
  | .store a b => some { s with mem := store s.mem a b }
  | .alloc p r u site => insert s p r u site
  | .free p => delete s p
  | .realloc p q r u site ws => execRealloc s p q r u site ws
  | .reallocFail p r site => execFail s p r site
  | .ask a => after s Prod.snd (getInfo B s a)
  | .setType a u => after s id (setType B s a u)

def run (B : Build) (s : State) : List Ev → Option State
  | [] => some s
  | e :: es =>
    match exec B s e with
    | none => none
    | some s => run B s es

end Liballocs.HeapObj
