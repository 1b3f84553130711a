import Verif.Model.Fill
import Verif.Model.MapSeq
/-!
# The program break (src/allocators/brk.c:51-254, src/allocators/mmap.c:1517-1572)

Simplifications: the break allocation and the mapping it is in are given by their bounds (changing
the bounds in the page index is modelled separately); addresses are naturals; failing system calls
and locks are not represented; the search for the mapping has already found it.
-/
namespace Liballocs.Brk
open MapSeq (Seq Entry Res deleteSpan sane setSlot MAXLEN)

/-- The break allocation, the mapping allocation it is in, and that mapping's sequence. -/
structure State where
  brkB : Nat
  brkE : Nat
  mapB : Nat
  mapE : Nat
  seq : Seq

/-- The state and the states passed through since the start, newest first. -/
structure Run where
  st : State
  trace : List State

/-- Move to a new state. -/
def Run.to (r : Run) (s : State) : Run := ⟨s, s :: r.trace⟩

/-- `__adjust_bigalloc_end` on the mapping (src/pageindex.c:989-1003). -/
def adjustMap (s : State) (e : Nat) : State := { s with mapE := e }

/-- The sequence update when the mapping grows (src/allocators/mmap.c:1540-1559); `none` if the new entry
would be stored past the array. -/
def growSeq (q : Seq) (newEnd : Nat) : Option Seq :=
  let last := q.slots (q.nused - 1)
  if !last.anon then
    if q.nused ≥ MAXLEN then none
    else some { setSlot { q with «end» := newEnd } q.nused ⟨last.end, newEnd, 3, 0, 0, true, 0⟩ with nused := q.nused + 1 }
  else some (setSlot { q with «end» := newEnd } (q.nused - 1) { last with «end» := newEnd })

/-- `__mmap_allocator_notify_brk` (src/allocators/mmap.c:1517-1572). -/
def mapNotify (r : Run) (new : Nat) : Option Run :=
  let newEnd := roundUp new PAGE
  if newEnd > r.st.mapE then
    match growSeq r.st.seq newEnd with
    | none => none
    | some q => if sane q then some (r.to { adjustMap r.st newEnd with seq := q }) else none
  else if newEnd < r.st.mapE then
    match deleteSpan r.st.seq newEnd (r.st.mapE - newEnd) with
    | .ret _ q => if sane q then some (r.to { adjustMap r.st newEnd with seq := q }) else none
    | _ => none
  else some r

/-- `update_brk` (src/allocators/brk.c:172-194). -/
def updateBrk (r : Run) (new : Nat) : Option Run :=
  if new < r.st.brkE then mapNotify (r.to { r.st with brkE := new }) new
  else if new > r.st.brkE then
    match mapNotify r new with
    | none => none
    | some r => some (r.to { r.st with brkE := new })
  else some r

/-- `__brk_allocator_notify_brk` (src/allocators/brk.c:220-244); `seen` is libc's `__curbrk` at that time. -/
def notify (r : Run) (seen new : Nat) : Option Run :=
  if seen < new then
    match mapNotify r new with
    | none => none
    | some r => updateBrk r new
  else
    match updateBrk r new with
    | none => none
    | some r => mapNotify r new

/-- `create_brk_bigalloc` (src/allocators/brk.c:117-170) for a mapping `[mapB, mapE)` with sequence `q`: the
allocation and the break afterwards. -/
def create (curbrk mapB mapE : Nat) (q : Seq) : Option (State × Nat) :=
  if curbrk < mapE then some (⟨curbrk, mapE, mapB, mapE, q⟩, curbrk)
  else
    -- extend the mapping to the break, then move the break by one byte
    match mapNotify ⟨⟨curbrk, curbrk, mapB, curbrk, q⟩, []⟩ (curbrk + 1) with
    | none => none
    | some r => if curbrk < r.st.mapE then some ({ r.st with brkE := r.st.mapE }, curbrk + 1) else none

/-- One event: the break becomes `new`, with libc's variable already updated or not; or the break
changed unnoticed and an unindexed address is met (src/allocators/brk.c:246-254). -/
inductive Event where
  | notified (new : Nat) (late : Bool)
  | unindexed (new : Nat)

def Event.new : Event → Nat
  | .notified n _ => n
  | .unindexed n => n

/-- The effect of an event when the break was `cur`. -/
def step (r : Run) (cur : Nat) : Event → Option Run
  | .notified new late => notify r (if late then new else cur) new
  | .unindexed new => updateBrk r new

/-- A history. -/
def runs (r : Run) (cur : Nat) : List Event → Option Run
  | [] => some r
  | e :: es => match step r cur e with
    | none => none
    | some r => runs r e.new es

end Liballocs.Brk
