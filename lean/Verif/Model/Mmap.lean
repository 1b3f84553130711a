import Verif.Model.Munmap
/-!
# Notification of `mmap` and `mremap` (src/allocators/mmap.c:636-906)

On top of the known-mappings model of `Munmap`.  Simplifications: as there; a bigalloc that would be
created or extended over another known mapping is the separate outcome `overlaid`, because the list
cannot express it; debug output is left out; a file name is a number and a missing one is `none`, as
`filename_for_fd` gives for descriptor -1.
-/
namespace Liballocs.Mmap
open MapSeq (Seq Req Res Entry augment findEntry zero MAXLEN)
open Munmap (Mapping lookup subst munmap)

/-- Outcome of a notification. -/
inductive Out where
  | ok (st : List Mapping)
  | abort
  | spin
  /-- a bigalloc laid over another one -/
  | overlaid
  /-- a read beyond the array of entries -/
  | overrun

/-- An allocated, cleared `struct mapping_sequence` (src/allocators/mmap.c:895). -/
def emptySeq : Seq := ⟨0, 0, 0, none, fun _ => zero⟩

/-- `flags & MAP_FIXED`, with `MAP_FIXED` being 0x10. -/
def isFixed (flags : Nat) : Bool := flags / 16 % 2 == 1

/-- The page-by-page search for an overlapped bigalloc (src/allocators/mmap.c:813-825). -/
def sawOverlap (st : List Mapping) (mapped mlen : Nat) : Bool :=
  (List.range (mlen / PAGE)).any (fun i => (lookup st (mapped + i * PAGE)).isSome)

/-- The choice of bigalloc to extend (src/allocators/mmap.c:859-872); a bigalloc is identified by its beginning. -/
def before (st : List Mapping) (mapped mlen : Nat) : Option Mapping :=
  match lookup st (mapped - 1) with
  | some b => some b
  | none =>
    match lookup st mapped, lookup st (mapped + mlen - 1) with
    | some b, none => some b
    | some b, some e => if b.begin = e.begin then some b else none
    | none, _ => none

/-- Does a known mapping other than the one beginning at `self` meet the range? -/
def meets (st : List Mapping) (self lo hi : Nat) : Bool :=
  st.any (fun m => m.begin != self && decide (m.begin < hi ∧ lo < m.end))

/-- Creating a new bigalloc (src/allocators/mmap.c:894-901). -/
def create (obj : Nat → Nat) (st : List Mapping) (r : Req) : Out :=
  match augment obj emptySeq r with
  | .ret true s => if st.any (fun m => decide (m.begin < r.end ∧ r.begin < m.end)) then .overlaid else .ok (st ++ [⟨r.begin, r.end, s⟩])
  | _ => .abort

/-- Recording a mapping in the preceding sequence or a new one (src/allocators/mmap.c:859-901). -/
def record (obj : Nat → Nat) (st : List Mapping) (r : Req) : Out :=
  match before st r.begin (r.end - r.begin) with
  | some b =>
    match augment obj b.seq r with
    | .ret true s =>
      if r.end > b.end then
        if meets st b.begin b.end r.end then .overlaid
        else if s.begin = b.begin ∧ s.end = r.end then .ok (subst st b [⟨b.begin, r.end, s⟩])
        else .abort
      else .ok (subst st b [⟨b.begin, b.end, s⟩])
    | .ret false s => create obj (subst st b [⟨b.begin, b.end, s⟩]) r
    | _ => .abort
  | none => create obj st r

/-- `do_mmap` (src/allocators/mmap.c:795-901). -/
def doMmap (obj : Nat → Nat) (st : List Mapping) (mapped len prot flags : Nat) (filename : Option Nat) (offset caller : Nat) : Out :=
  if mapped = 0 then .abort
  else
    let mlen := roundUp len PAGE
    if sawOverlap st mapped mlen && !isFixed flags then .abort
    else record obj st ⟨mapped, mapped + mlen, prot, flags, offset, filename, caller⟩

/-- `__mmap_allocator_notify_mmap` (src/allocators/mmap.c:902-906). -/
def notifyMmap (obj : Nat → Nat) (st : List Mapping) (mapped len prot flags : Nat) (filename : Option Nat) (offset caller : Nat) : Out :=
  doMmap obj st mapped len prot flags filename offset caller

/-- The result of `do_munmap` as an outcome here. -/
def ofMunmap : Munmap.Out → Out
  | .ok st => .ok st
  | .abort => .abort
  | .spin => .spin

/-- The loop over the entries of the moved mapping (src/allocators/mmap.c:735-752).  `seq` is read
from the state each time round because `do_mmap` may extend it; the loop ends at entry `nused`. -/
def moveLoop (obj : Nat → Nat) (old osz mapped caller : Nat) : Nat → Nat → List Mapping → Out
  | 0, _, _ => .spin
  | k + 1, i, st =>
    match lookup st old with
    | none => .abort
    | some b =>
      if i = b.seq.nused then .ok st
      else if i ≥ MAXLEN then .overrun
      else
        let e := b.seq.slots i
        let lo := max e.begin old
        let hi := min e.end (old + osz)
        if lo < hi then
          match doMmap obj st (mapped + (lo - old)) (hi - lo) e.prot e.flags b.seq.filename (e.offset + (lo - e.begin)) caller with
          | .ok st => moveLoop obj old osz mapped caller k (i + 1) st
          | o => o
        else moveLoop obj old osz mapped caller k (i + 1) st

/-- Mapping the excess of a grown move (src/allocators/mmap.c:753-767): `ent` is now one past the last
entry in use. -/
def moveExcess (obj : Nat → Nat) (st : List Mapping) (old osz mapped nsz caller : Nat) : Out :=
  if nsz > osz then
    match lookup st old with
    | none => .abort
    | some b =>
      if b.seq.nused ≥ MAXLEN then .overrun
      else
        let e := b.seq.slots b.seq.nused
        doMmap obj st (mapped + osz) (nsz - osz) e.prot e.flags b.seq.filename (e.offset + (old + osz - e.begin)) caller
  else .ok st

/-- The moving case (src/allocators/mmap.c:723-769). -/
def move (obj : Nat → Nat) (st : List Mapping) (old osz mapped nsz : Nat) (dontunmap : Bool) (caller : Nat) : Out :=
  match moveLoop obj old osz mapped caller (MAXLEN + 1) 0 st with
  | .ok st =>
    match moveExcess obj st old osz mapped nsz caller with
    | .ok st => if dontunmap then .ok st else ofMunmap (munmap st old osz)
    | o => o
  | o => o

/-- The cases of `__mmap_allocator_notify_mremap` once the old mapping is known
(src/allocators/mmap.c:672-792). -/
def remapKnown (obj : Nat → Nat) (st : List Mapping) (b : Mapping) (mapped old osz nsz : Nat) (dontunmap : Bool) (caller : Nat) : Out :=
  if b.seq.end < old + osz then .abort
  else if mapped = old ∧ nsz = osz then .ok st
  else if nsz = 0 then .abort
  else if mapped = old ∧ nsz < osz then
    match findEntry b.seq old with
    | none => .abort
    | some _ => ofMunmap (munmap st (old + nsz) (osz - nsz))
  else if mapped = old ∧ osz > 0 ∧ nsz > osz then
    match findEntry b.seq old with
    | none => .abort
    | some e => doMmap obj st (old + osz) (nsz - osz) e.prot e.flags b.seq.filename (e.offset + (old - e.begin) + osz) caller
  else if mapped = old ∧ osz = 0 then .abort
  else if osz ≠ 0 then move obj st old osz mapped nsz dontunmap caller
  else
    match findEntry b.seq old with
    | none => .abort
    | some e => doMmap obj st mapped nsz e.prot e.flags b.seq.filename (e.offset + (old - e.begin)) caller

/-- `__mmap_allocator_notify_mremap` (src/allocators/mmap.c:636-793). -/
def notifyMremap (obj : Nat → Nat) (st : List Mapping) (mapped old oldSize newSize : Nat) (dontunmap : Bool) (caller : Nat) : Out :=
  let osz := roundUp oldSize PAGE
  match lookup st old with
  | some b => remapKnown obj st b mapped old osz newSize dontunmap caller
  | none =>
    match notifyMmap obj st old osz 0 0 none 0 0 with
    | .ok st =>
      match lookup st old with
      | some b => remapKnown obj st b mapped old osz newSize dontunmap caller
      | none => .abort
    | o => o

end Liballocs.Mmap
