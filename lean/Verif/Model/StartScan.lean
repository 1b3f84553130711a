import Verif.Model.Mmap
import Verif.Model.Syscalls
/-!
# Scanning the memory map at start-up (src/allocators/mmap.c:109-445, 913-965 and 1416-1515)

The lines of `/proc/<pid>/maps` become mapping sequences, which are then reconciled with the known mappings.
Simplifications: as in `Mmap` (the known mappings are a list, all of them owned by the mmap allocator, and a bigalloc laid
over another is the outcome `overlaid`); the text after a line's numbers is classified, a name being a number; all lines
are read before any is processed; in a line the second address is not below the first.  The child allocation for the auxiliary
vector, made when the stack is first seen, is left out.
-/
namespace Liballocs.StartScan
open MapSeq (Seq Req Res Entry augment zero MAXLEN sane)
open Munmap (Mapping lookup subst)
open Mmap (Out emptySeq)

/-- The text of a line after its numbers. -/
inductive Rest where
  | empty
  | path (n : Nat)
  | stack (n : Nat)
  | heap
  | bracket
  /-- begins with some other character, like `anon_inode:` -/
  | odd
  deriving DecidableEq

/-- `struct maps_entry` (external librunt header), as used here. -/
structure Line where
  first : Nat
  second : Nat
  r : Bool
  w : Bool
  x : Bool
  p : Bool
  offset : Nat
  rest : Rest

/-- The file name of a line (src/allocators/mmap.c:1420-1444); the outer `none` is "could not classify". -/
def nameOf : Rest → Option (Option Nat)
  | .empty => some none
  | .path n => some (some (2 * n + 1))
  | .stack n => some (some (2 * n))
  | .heap => some none
  | .bracket => some none
  | .odd => none

/-- The mapping a line describes (src/allocators/mmap.c:1447-1454); `PROT_READ` is 1, `PROT_WRITE` 2, `PROT_EXEC` 4, `MAP_SHARED` 1,
`MAP_PRIVATE` 2 and `MAP_ANONYMOUS` 32. -/
def reqOf (l : Line) (name : Option Nat) : Req :=
  ⟨l.first, l.second,
    (if l.r then 1 else 0) + (if l.w then 2 else 0) + (if l.x then 4 else 0),
    (if l.p then 2 else 1) + (if name.isNone then 32 else 0),
    l.offset, name, 0⟩

/-- `extend_current` (src/allocators/mmap.c:1416-1455). -/
def extendCurrent (obj : Nat → Nat) (cur : Seq) (l : Line) : Res :=
  match nameOf l.rest with
  | none => .ret false cur
  | some n => augment obj cur (reqOf l n)

/-- The filtering and faking at the start of `add_missing_cb` (src/allocators/mmap.c:1464-1502). -/
def kept (endAddr : Nat) (l : Line) : Option Line :=
  if l.second - l.first > Syscalls.BIGGEST then none
  else if l.second - l.first = 0 ∨ l.first ≥ 2 ^ 63 then none
  else if l.rest = .heap then
    if l.first < endAddr then some { l with rest := .empty, second := endAddr } else none
  else some l

/-- `mapping_entries_equal` over `n` entries from `i` and from `j` (src/allocators/mmap.c:109-138). -/
def entriesEq (s t : Seq) (i j n : Nat) : Bool := (List.range n).all (fun k => decide (s.slots (i + k) = t.slots (j + k)))

/-- `mapping_sequence_prefix` (src/allocators/mmap.c:140-156). -/
def prefixOf (s t : Seq) : Bool :=
  decide (s.nused ≤ t.nused) &&
  (entriesEq s t 0 0 s.nused ||
    (entriesEq s t 0 0 (s.nused - 1) && s.nused == t.nused && (s.slots (s.nused - 1)).anon && (t.slots (t.nused - 1)).anon &&
      (s.slots (s.nused - 1)).begin == (t.slots (t.nused - 1)).begin &&
      decide ((s.slots (s.nused - 1)).end ≤ (t.slots (t.nused - 1)).end)))

/-- `mapping_sequence_suffix` (src/allocators/mmap.c:162-172). -/
def suffixOf (s t : Seq) : Bool := decide (s.nused ≤ t.nused) && entriesEq t s (t.nused - s.nused) 0 s.nused

/-- `mem_range_suffix` (src/allocators/mmap.c:173-177). -/
def memSuffix (s t : Seq) : Bool := s.end == t.end && decide (s.begin > t.begin)

/-- `go_ahead:` add a bigalloc with a copy of the sequence (src/allocators/mmap.c:362-369, 90-100, and the size check
src/pageindex.c:659-663). -/
def goAhead (st : List Mapping) (s : Seq) : Out :=
  if s.end - s.begin > Syscalls.BIGGEST then .abort
  else if st.any (fun m => decide (m.begin < s.end ∧ s.begin < m.end)) then .overlaid
  else .ok (st ++ [⟨s.begin, s.end, s⟩])

/-- `report_problem:` with an existing sequence (src/allocators/mmap.c:420-443): unless it holds the start `ds` of the
executable's data segment, delete whatever overlaps it and go ahead. -/
def nuke (ds : Nat) (st : List Mapping) (old s : Seq) : Out :=
  if ds ≠ 0 ∧ old.begin ≤ ds ∧ ds < old.end then .abort
  else goAhead (st.filter (fun m => !decide (m.begin < old.end ∧ old.begin < m.end))) s

/-- Drop the last `k` entries, which begin at `b` (src/allocators/mmap.c:231-235). -/
def chop (s : Seq) (k b : Nat) : Seq :=
  { s with slots := fun i => if s.nused - k ≤ i ∧ i < s.nused then zero else s.slots i, nused := s.nused - k, «end» := b }

/-- Only the end is known (src/allocators/mmap.c:202-261). -/
def onlyEnd (ds : Nat) (st : List Mapping) (e : Mapping) (s : Seq) : Out :=
  if memSuffix e.seq s then
    if suffixOf e.seq s then
      if sane (chop s e.seq.nused e.seq.begin) ∧ sane e.seq then goAhead st (chop s e.seq.nused e.seq.begin) else .abort
    else nuke ds st e.seq s
  else if s.nused = 1 ∧ e.seq.nused = 1 then
    if sane { MapSeq.setSlot e.seq 0 (s.slots 0) with begin := s.begin } then
      .ok (subst st e [⟨s.begin, e.end, { MapSeq.setSlot e.seq 0 (s.slots 0) with begin := s.begin }⟩])
    else .abort
  else nuke ds st e.seq s

/-- Only the beginning is known (src/allocators/mmap.c:262-280, and the size check src/pageindex.c:176-183). -/
def onlyBegin (st : List Mapping) (b : Mapping) (s : Seq) : Out :=
  if prefixOf b.seq s then
    if s.end - b.end > Syscalls.BIGGEST then .abort
    else if Mmap.meets st b.begin b.end s.end then .overlaid
    else .ok (subst st b [⟨b.begin, s.end, s⟩])
  else .abort

/-- Both are known and in the same mapping (src/allocators/mmap.c:281-353). -/
def within (ds : Nat) (st : List Mapping) (b : Mapping) (s : Seq) : Out :=
  if suffixOf b.seq s && suffixOf s b.seq then .ok st
  else if prefixOf s b.seq then
    if s.end = b.seq.end then .ok (subst st b [⟨b.begin, b.end, s⟩])
    else .ok (subst st b [⟨b.begin, s.end, s⟩])
  else nuke ds st b.seq s

/-- `add_mapping_sequence_bigalloc_if_absent` (src/allocators/mmap.c:178-443).  A cleared sequence ends at 0, and the page
before that is not in the page index. -/
def addIfAbsent (ds : Nat) (st : List Mapping) (s : Seq) : Out :=
  if s.nused = 0 then .abort
  else
    match lookup st s.begin, lookup st (s.end - 1) with
    | none, none => goAhead st s
    | none, some e => onlyEnd ds st e s
    | some b, none => onlyBegin st b s
    | some b, some e => if b.begin = e.begin then within ds st b s else .abort

/-- Adding the current sequence and beginning a new one (src/allocators/mmap.c:1505-1512): the known mappings and the new sequence. -/
def beginNew (obj : Nat → Nat) (ds : Nat) (st : List Mapping) (cur : Seq) (l : Line) : Except Out (List Mapping × Seq) :=
  match addIfAbsent ds st cur with
  | .ok st' =>
    match extendCurrent obj emptySeq l with
    | .ret true s => .ok (st', s)
    | _ => .error .abort
  | o => .error o

/-- `add_missing_cb` (src/allocators/mmap.c:1457-1515). -/
def addMissing (obj : Nat → Nat) (ds endAddr : Nat) (st : List Mapping) (cur : Seq) (l : Line) : Except Out (List Mapping × Seq) :=
  match kept endAddr l with
  | none => .ok (st, cur)
  | some k =>
    match extendCurrent obj cur k with
    | .ret true s => .ok (st, s)
    | .ret false s => beginNew obj ds st s k
    | .assertFail => .error .abort
    | .overrun => .error .overrun

/-- The loop of `add_missing_mappings_from_proc` and the last sequence (src/allocators/mmap.c:957-962). -/
def scanFrom (obj : Nat → Nat) (ds endAddr : Nat) (st : List Mapping) (cur : Seq) : List Line → Out
  | [] => if cur.nused > 0 then addIfAbsent ds st cur else .ok st
  | l :: ls =>
    match addMissing obj ds endAddr st cur l with
    | .ok (st', s) => scanFrom obj ds endAddr st' s ls
    | .error o => o

/-- `add_missing_mappings_from_proc` (src/allocators/mmap.c:919-965). -/
def scan (obj : Nat → Nat) (ds endAddr : Nat) (st : List Mapping) (ls : List Line) : Out :=
  scanFrom obj ds endAddr st emptySeq ls

end Liballocs.StartScan
