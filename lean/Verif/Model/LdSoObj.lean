import Verif.Model.LinearMalloc
import Verif.Model.LdSoArena
/-!
# Objects of the dynamic linker's own malloc

The events that the detours of `__minimal_malloc` and its like lead to (tools/stubgen.h:344-435, instantiated at allocsld/allocinstr.c:520), with the words behind the chunks, and the
query for such an object (src/allocators/ld-so-malloc.c:79-121).

Simplified: memory is words at addresses that are multiples of 8, as chunks and their trailing words are; `__current_allocsite` and `__current_allocsz` are not set, as the linker's
code is not compiled with our wrappers; the hooks between the detours and the events are libmallochooks' (outside the repository): before an allocation `pre_alloc` may change
the size, `pre_nonnull_free` may cancel the freeing, and a `realloc` of a chunk to a size that is not zero is given `pre_alloc`'s size too.
-/
namespace Liballocs.LdSoObj

open LinearMalloc LdSoArena

/-- The index and the memory. -/
structure State where
  recs : List Rec
  mem : Nat → Nat

def set (m : Nat → Nat) (a v : Nat) : Nat → Nat := fun x => if x = a then v else m x

/-- `CHUNK_SIZE_WITH_TRAILER` (include/malloc-meta.h:34-40), the size that `pre_alloc` asks for (tools/stubgen.h:362-371). -/
def modified (req : Nat) : Nat := (req + 15) / 8 * 8

/-- `real_caller_usable_size` (allocsld/allocinstr.c:438-445), which is where the trailing word is. -/
def usable (req : Nat) : Nat := modified req - 8

/-- An assignment to `initial.alloc_site`, 47 bits from the second on; the other bits stay (include/malloc-meta.h:57-64, allocsld/allocinstr.c:448). -/
def putSite (w site : Nat) : Nat := w % 2 + 2 * (site % 2 ^ 47) + w / 2 ^ 48 * 2 ^ 48

/-- `initial.alloc_site`. -/
def siteOf (w : Nat) : Nat := w / 2 % 2 ^ 47

/-- `INSERT_IS_WITH_TYPE` (include/malloc-meta.h:109): `initial.unused` is not zero. -/
def typed (w : Nat) : Bool := decide (w / 2 ^ 48 % 2 ^ 12 ≠ 0)

/-- `linear_malloc_index_insert` (allocsld/allocinstr.c:432-463). -/
def insert (st : State) (p req site : Nat) : Option State :=
  (LinearMalloc.insert st.recs p req).map fun r => ⟨r, set st.mem (p + usable req) (putSite (st.mem (p + usable req)) site)⟩

/-- `insert_for_chunk` with `ld_so_malloc_usable_size` (include/malloc-meta.h:80-105, allocsld/allocinstr.c:497-502): eight bytes are taken off a size that does not count the
trailing word. `none`: the chunk is not found, and the address is outside it. -/
def policyWord (st : State) (p : Nat) : Option Nat :=
  match usableSize st.recs p with
  | none => none
  | some u => if u < 8 then none else some (p + u - 8)

/-- The first policy's flag set, and cleared (tools/stubgen.h:358, 378; include/malloc-meta.h:108-113); the policies are the four highest bits. -/
def flagged (w : Nat) : Nat := if w / 2 ^ 60 % 2 = 0 then w + 2 ^ 60 else w
def cleared (w : Nat) : Nat := if w / 2 ^ 60 % 2 = 0 then w else w - 2 ^ 60

/-- `post_successful_alloc` (tools/stubgen.h:347-361); `pol` says whether the build has lifetime policies (467-471). -/
def alloc (pol : Bool) (st : State) (p req site : Nat) : Option State :=
  (insert st p req site).bind fun st' =>
    if pol then (policyWord st' p).map fun a => ⟨st'.recs, set st'.mem a (flagged (st'.mem a))⟩ else some st'

/-- The deletion in `pre_nonnull_free` (tools/stubgen.h:382-384). -/
def unindex (st : State) (p : Nat) : Option State := (delete st.recs p).map fun r => ⟨r, st.mem⟩

/-- `pre_nonnull_free` (tools/stubgen.h:372-386); the answer is whether the chunk is to be freed. -/
def free (pol : Bool) (st : State) (p : Nat) : Option (State × Bool) :=
  if pol then
    (policyWord st p).bind fun a =>
      if cleared (st.mem a) / 2 ^ 60 ≠ 0 then some (⟨st.recs, set st.mem a (cleared (st.mem a))⟩, false)
      else (unindex ⟨st.recs, set st.mem a (cleared (st.mem a))⟩ p).map fun st' => (st', true)
  else (unindex st p).map fun st' => (st', true)

/-- What the linker's `realloc` does to memory when it moves a chunk of some bytes: it copies them. -/
def copy (m : Nat → Nat) (p q size : Nat) : Nat → Nat := fun x => if q ≤ x ∧ x < q + size then m (p + (x - q)) else m x

/-- A reallocation that succeeds (tools/stubgen.h:392-435, allocsld/allocinstr.c:486-496), `old` being the size that was asked of the linker's malloc for the chunk. The size
recorded is the changed size less the trailing word. -/
def realloc (st : State) (p q old req site : Nat) : Option State :=
  (unindex st p).bind fun st' => insert ⟨st'.recs, if p = q then st'.mem else copy st'.mem p q old⟩ q (modified req - 8) site

/-- What a query tells; `none` for the type or site is that nothing is stored for it. -/
structure Info where
  base : Nat
  size : Nat
  type : Option Nat
  site : Option Nat
  deriving DecidableEq, Repr

/-- `linear_malloc_get_info` after its assertions (src/allocators/ld-so-malloc.c:95-110). The type is made from the address of the trailing word, not from the word.
`none`: "unindexed heap object". -/
def info (st : State) (a : Nat) : Option Info :=
  (find st.recs a).map fun r =>
    let at' := r.addr + (r.req + r.pad)
    if typed (st.mem at') then ⟨r.addr, r.req, some (at' * 8 % 2 ^ 64), none⟩ else ⟨r.addr, r.req, none, some (siteOf (st.mem at'))⟩

/-- The arena of an address (src/allocators/ld-so-malloc.c:85-90). -/
def arenaOf (s : PageIndex.State) (x : Nat) : Nat := if s.alloc x = ldsoId then s.par x else x

/-- The query (src/allocators/ld-so-malloc.c:79-121), reached by the leaf allocator of the address. `none`: another allocator answers, or an assertion fails; NULL as big allocation is
slot 0. -/
def query (c : PageIndex.Config) (s : PageIndex.State) (index : Nat) (st : State) (a : Nat) : Option (Option Info) :=
  (PageIndex.leafAllocator c s a).bind fun who =>
    if who = ldsoId then
      (PageIndex.deepest c s a).bind fun x =>
        if arenaOf s x ≠ 0 ∧ s.sub (arenaOf s x) = ldsoId ∧ s.subPriv (arenaOf s x) = index then some (info st a) else none
    else none

/-- What the linker does. -/
inductive Ev where
  | alloc (p req site : Nat)
  | free (p : Nat)
  | realloc (p q old req site : Nat)
  | write (a v : Nat)

def exec (pol : Bool) (st : State) : Ev → Option State
  | .alloc p req site => alloc pol st p req site
  | .free p => (free pol st p).map Prod.fst
  | .realloc p q old req site => realloc st p q old req site
  | .write a v => some ⟨st.recs, set st.mem a v⟩

def run (pol : Bool) : State → List Ev → Option State
  | st, [] => some st
  | st, e :: es => (exec pol st e).bind fun st' => run pol st' es

end Liballocs.LdSoObj
