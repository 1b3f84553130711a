/-!
# Mapping sequences

`src/allocators/mmap.c`: a mapping sequence is an array of at most `MAX_LEN` contiguous mapping
entries.  Addresses, protection bits, flags and file offsets are naturals; file names are numbered.
Assertions are on, and a failed one is a separate outcome.
-/
namespace Liballocs.MapSeq

/-- `struct mapping_entry` (include/liballocs.h:747-756). -/
structure Entry where
  begin : Nat
  «end» : Nat
  prot : Nat
  flags : Nat
  offset : Nat
  anon : Bool
  caller : Nat
  deriving DecidableEq, Repr

/-- `MAPPING_SEQUENCE_MAX_LEN` (src/liballocs_private.h:78). -/
def MAXLEN : Nat := 8

/-- A cleared entry. -/
def zero : Entry := ⟨0, 0, 0, 0, 0, false, 0⟩

/-- `struct mapping_sequence` (src/liballocs_private.h:79-90); `slots` is the array, of which the first `nused` are live. -/
structure Seq where
  begin : Nat
  «end» : Nat
  nused : Nat
  filename : Option Nat
  slots : Nat → Entry

/-- A mapping to be recorded. -/
structure Req where
  begin : Nat
  «end» : Nat
  prot : Nat
  flags : Nat
  offset : Nat
  filename : Option Nat
  caller : Nat

/-- The entry written for a mapping. -/
def Req.entry (r : Req) : Entry := ⟨r.begin, r.end, r.prot, r.flags, r.offset, r.filename.isNone, r.caller⟩

/-- Outcomes. -/
inductive Res where
  | ret (b : Bool) (s : Seq)
  | assertFail
  | overrun

/-- `check_mapping_sequence_sanity` (src/allocators/mmap.c:1136-1149). -/
def sane (s : Seq) : Bool :=
  s.nused == 0 ||
  (s.begin == (s.slots 0).begin && s.end == (s.slots (s.nused - 1)).end &&
    (List.range s.nused).all (fun i =>
      (s.slots i).begin != 0 && (s.slots i).end != 0 && decide ((s.slots i).begin < (s.slots i).end) &&
      (i == 0 || (s.slots (i - 1)).end == (s.slots i).begin)))

/-- The macro `OVERLAPS` (src/allocators/mmap.c:1159-1161). -/
def overlaps (b1 e1 b2 e2 : Nat) : Bool := decide (b1 < e2 ∧ e1 ≥ b2)

/-- `copy_all_left_from_by` (src/allocators/mmap.c:1122-1127). -/
def copyLeft (s : Seq) (frm n : Nat) : Seq :=
  { s with
    slots := fun i => if frm - n ≤ i ∧ i < s.nused - n then s.slots (i + n) else s.slots i
    nused := s.nused - n }

/-- `copy_all_right_from_by` (src/allocators/mmap.c:1129-1134). -/
def copyRight (s : Seq) (frm n : Nat) : Seq :=
  { s with
    slots := fun i => if frm + n ≤ i ∧ i < s.nused + n then s.slots (i - n) else s.slots i
    nused := s.nused + n }

/-- Store one entry. -/
def setSlot (s : Seq) (i : Nat) (e : Entry) : Seq := { s with slots := fun j => if j = i then e else s.slots j }

/-- The search for the first overlapped entry: `i` upwards from 0; the array has `MAXLEN` entries. -/
def firstOv (s : Seq) (r : Req) : Option Nat :=
  (List.range MAXLEN).find? (fun i => overlaps (s.slots i).begin (s.slots i).end r.begin r.end)

/-- The search for the last overlapped entry: `i` downwards from `nused - 1`. -/
def lastOv (s : Seq) (r : Req) : Option Nat :=
  (List.range s.nused).reverse.find? (fun i => overlaps (s.slots i).begin (s.slots i).end r.begin r.end)

/-- `is_clean_extension` (src/allocators/mmap.c:1169). -/
def isClean (s : Seq) (r : Req) : Bool := s.end == 0 || s.end == r.begin

/-- File-name check for a clean extension (src/allocators/mmap.c:1179-1195); `obj` is
`get_highest_loaded_object_below`. -/
def nameOkClean (obj : Nat → Nat) (s : Seq) (r : Req) : Bool :=
  (r.filename.isNone && s.filename.isNone) || s.nused == 0 || (r.prot == 0 && r.filename.isNone) ||
  (r.filename.isNone && s.filename.isSome && !(s.slots (s.nused - 1)).anon &&
    ((r.caller == 0 && (s.slots (s.nused - 1)).caller == 0) || obj r.caller == obj (s.slots (s.nused - 1)).caller)) ||
  (r.filename.isSome && s.filename.isSome && r.filename == s.filename)

/-- File-name check for an overlapping mapping (src/allocators/mmap.c:1247-1295). -/
def nameOkOverlap (obj : Nat → Nat) (s : Seq) (r : Req) (f l : Nat) (bp ep : Bool) : Bool :=
  if (r.filename.isNone && s.filename.isNone) || s.nused == 0 then true
  else if r.filename.isSome && s.filename.isSome && r.filename != s.filename then false
  else
    let prec : Option Nat := if bp then some f else if f = 0 then none else some (f - 1)
    let foll : Option Nat := let k := if ep then l else l + 1
                             if k ≥ s.nused then none else some k
    let edge := (match prec with | none => false | some i => (s.slots i).anon && r.filename.isSome) ||
      (match foll with | none => false | some i => r.filename.isNone && !(s.slots i).anon)
    !edge && (r.caller == 0 || (s.slots f).caller == 0 || obj r.caller == obj (s.slots f).caller)

/-- Eliminate a partial overlap at the beginning (src/allocators/mmap.c:1327-1339). -/
def splitBegin (s : Seq) (r : Req) (f : Nat) : Seq :=
  let s := copyRight s f 1
  let s := setSlot s f { s.slots f with «end» := r.begin }
  setSlot s (f + 1) { s.slots (f + 1) with begin := r.begin }

/-- Eliminate a partial overlap at the end (src/allocators/mmap.c:1341-1351). -/
def splitEnd (s : Seq) (r : Req) (l : Nat) : Seq :=
  let s := copyRight s l 1
  let s := setSlot s (l + 1) { s.slots (l + 1) with begin := r.end }
  setSlot s l { s.slots l with «end» := r.end }

/-- Replace entries `f ..= l` by the new one (src/allocators/mmap.c:1352-1374). -/
def replace (s : Seq) (r : Req) (f l : Nat) : Seq :=
  let s := if l - f + 1 > 1 then copyLeft s (l + 1) (l - f) else s
  setSlot s f r.entry

/-- The final sanity check at `out:`. -/
def finish (b : Bool) (s : Seq) : Res := if sane s then .ret b s else .assertFail

/-- The overlapping case of `augment_sequence` (src/allocators/mmap.c:1218-1376). -/
def augmentOverlap (obj : Nat → Nat) (s : Seq) (r : Req) : Res :=
  match firstOv s r, lastOv s r with
  | some f, some l =>
    let bp := (s.slots f).begin != r.begin
    let ep := (s.slots l).end != r.end
    if !nameOkOverlap obj s r f l bp ep then finish false s
    else if MAXLEN - s.nused < bp.toNat + ep.toNat then finish false s
    else
      let s1 := if bp then splitBegin s r f else s
      let f1 := if bp then f + 1 else f
      let l1 := if bp then l + 1 else l
      let s2 := if ep then splitEnd s1 r l1 else s1
      if s2.nused > MAXLEN then .overrun
      else if l1 < f1 then .assertFail
      else finish true (replace s2 r f1 l1)
  | _, _ => .overrun

/-- `augment_sequence` (src/allocators/mmap.c:1151-1407) on an existing sequence. -/
def augment (obj : Nat → Nat) (s : Seq) (r : Req) : Res :=
  if !sane s then .assertFail
  else if (isClean s r || overlaps s.begin s.end r.begin r.end) && decide (r.begin ≥ s.begin) && s.nused != MAXLEN then
    if isClean s r then
      if !nameOkClean obj s r then finish false s
      else if s.nused ≥ MAXLEN then .overrun
      else
        let s' := { s with
          begin := if s.begin = 0 then r.begin else s.begin
          «end» := r.end
          filename := if s.filename.isNone then r.filename else s.filename
          nused := s.nused + 1 }
        finish true (setSlot s' s.nused r.entry)
    else augmentOverlap obj s r
  else finish false s

/-- One iteration of the first loop of `delete_mapping_sequence_span`
(src/allocators/mmap.c:448-492).  `none`: the abort on a split, or the assertion. -/
def delStep (addr len : Nat) (s : Seq) (i : Nat) : Option Seq :=
  let e := s.slots i
  if e.begin ≤ addr + len ∧ e.end > addr then
    if addr > e.begin ∧ addr + len < e.end then none
    else
      let lb := if addr > e.begin then addr - e.begin else 0
      let le := if addr + len > e.end then 0 else e.end - (addr + len)
      if lb = 0 ∧ le = 0 then some (setSlot s i zero)
      else
        let cur := e.end - e.begin
        if lb = 0 then
          let s := setSlot s i { e with begin := e.begin + (cur - le) }
          some (if i = 0 then { s with begin := (s.slots i).begin } else s)
        else
          let s := setSlot s i { e with «end» := e.end - (cur - lb) }
          some (if i = s.nused - 1 then { s with «end» := (s.slots i).end } else s)
  else some s

/-- The first loop, over the whole array. -/
def delLoop (addr len : Nat) (s : Seq) : List Nat → Option Seq
  | [] => some s
  | i :: is => match delStep addr len s i with
    | none => none
    | some s => delLoop addr len s is

/-- The compaction loop (src/allocators/mmap.c:494-508); one round per remaining entry. -/
def compact : Nat → Seq → Nat → Seq
  | 0, s, _ => s
  | k + 1, s, i =>
    if i < s.nused then
      if (s.slots i).begin = 0 then
        compact k { s with
          slots := fun j => if j = s.nused - 1 then zero else if i ≤ j ∧ j < s.nused - 1 then s.slots (j + 1) else s.slots j
          nused := s.nused - 1 } i
      else compact k s (i + 1)
    else s

/-- `delete_mapping_sequence_span` (src/allocators/mmap.c:444-524). -/
def deleteSpan (s : Seq) (addr len : Nat) : Res :=
  if !sane s then .assertFail
  else
    match delLoop addr len s (List.range MAXLEN) with
    | none => .assertFail
    | some s =>
      let s := compact s.nused s 0
      let s := if s.begin ≥ addr ∧ s.begin < addr + len then { s with begin := addr + len } else s
      let s := if s.end > addr ∧ s.end ≤ addr + len then { s with «end» := addr } else s
      finish true s

/-- `__mmap_allocator_find_entry` (src/allocators/mmap.c:615-626). -/
def findEntry (s : Seq) (a : Nat) : Option Entry :=
  ((List.range s.nused).map s.slots).find? (fun e => decide (a ≥ e.begin ∧ a < e.end))

end Liballocs.MapSeq
