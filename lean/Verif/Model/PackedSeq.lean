/-!
# Packed sequences (src/allocators/packed-seq.c)

Simplifications: offsets are naturals (the 32-bit `unsigned` offsets do not wrap for sequences below
2 GiB); failing `realloc` is not represented; the family's `enumerate` is any function of the offset;
a type is a number and the array fix-up `FIXUP_T` is any function of type and size; the bitmap
functions of the external `bitmap.h` are defined by their contract.  Outcomes that the C code reaches
by undefined behaviour or a failed assertion are distinct.
-/
namespace Liballocs.PackedSeq

/-- Widths of a metavector record's fields (src/allocators/packed-seq.c:51-62). -/
structure Widths where
  typeBits : Nat
  sizeBits : Nat
  deltaBits : Nat

def rec16 : Widths := ⟨4, 9, 3⟩
def rec32 : Widths := ⟨10, 18, 4⟩

/-- A sequence with its family (src/allocators/packed-seq.c:78-87, include/allocmeta.h:567-586): where it is, the
alignment in bytes (a power of two in the C code), what `enumerate` answers at an offset, the
metavector record format if any, the table of types. -/
structure Fam where
  begin : Nat
  len : Nat
  align : Nat
  enum : Nat → Option (Nat × Nat)
  mv : Option Widths
  types : List Nat
  fix : Nat → Nat → Nat

/-- A metavector record. -/
structure MRec where
  typeIdx : Nat
  sizeNalign : Nat
  delta : Nat
  deriving DecidableEq

/-- The lazily filled cache (include/allocmeta.h:567-586). -/
structure Cache where
  upTo : Nat
  nwords : Nat
  bits : Nat → Bool
  recs : List MRec

def empty : Cache := ⟨0, 0, fun _ => false, []⟩

/-- Outcomes. -/
inductive Out (α : Type) where
  | ok (a : α)
  | assertFail
  | overrun
  | spin

/-- `find_idx` (src/allocators/packed-seq.c:209-216); `(unsigned) -1` when absent. -/
def findIdx (types : List Nat) (u : Nat) : Nat :=
  match types.findIdx? (· == u) with
  | some i => i
  | none => 2 ^ 32 - 1

/-- `ROUND_UP` of an address. -/
def rup (a n : Nat) : Nat := (a + (n - 1)) / n * n

/-- `bitmap_base_addr` (src/allocators/packed-seq.c:229). -/
def base (f : Fam) : Nat := f.begin / f.align * f.align

/-- The bitmap index of an address. -/
def bidx (f : Fam) (addr : Nat) : Nat := (addr - base f) / f.align

/-- Store a record into its bit-fields (src/allocators/packed-seq.c:277-288). -/
def mkRec (w : Widths) (types : List Nat) (u sizeNalign delta : Nat) : MRec :=
  ⟨findIdx types u % 2 ^ w.typeBits, sizeNalign % 2 ^ w.sizeBits, delta % 2 ^ w.deltaBits⟩

/-- Enlarge the bitmap for a target offset (src/allocators/packed-seq.c:235-253). -/
def enlarge (f : Fam) (c : Cache) (target : Nat) : Cache :=
  let naddrs := f.begin + target + 1 - base f
  let nbits := (naddrs + (f.align - 1)) / f.align
  let nwords := (nbits + 63) / 64
  if c.nwords < nwords then { c with nwords := nwords } else c

/-- The caching loop (src/allocators/packed-seq.c:257-299), from address `cur`. -/
def cacheLoop (f : Fam) (target : Nat) : Nat → Nat → Cache → Out Cache
  | 0, _, _ => .spin
  | k + 1, cur, c =>
    match f.enum (cur - f.begin) with
    | none => .ok c
    | some (sz, u) =>
      let curEnd := cur + sz
      let next := rup curEnd f.align
      let c := match f.mv with
        | none => c
        | some w => { c with recs := c.recs ++ [mkRec w f.types u ((next - cur) / f.align) (next - curEnd)] }
      if bidx f cur ≥ 64 * c.nwords then .overrun
      else
        let i := bidx f cur
        let c := { c with bits := fun j => if j = i then true else c.bits j, upTo := next - f.begin }
        if curEnd ≥ f.begin + target then .ok c
        else cacheLoop f target k next c

/-- `ensure_cached_up_to` (src/allocators/packed-seq.c:225-302). -/
def ensure (f : Fam) (c : Cache) (offset : Nat) : Out Cache :=
  let r : Out Cache :=
    if c.upTo < offset then
      let target := min f.len (max (2 * c.upTo) offset)
      cacheLoop f target (f.len + 1) (f.begin + c.upTo) (enlarge f c target)
    else .ok c
  match r with
  | .ok c => if c.upTo ≥ offset then .ok c else .assertFail
  | o => o

/-- Greatest set bit below an index. -/
def rfind (bits : Nat → Bool) : Nat → Option Nat
  | 0 => none
  | k + 1 => if bits k then some k else rfind bits k

/-- `bitmap_rfind_first_set_leq_l`: the greatest set bit at or below an index. -/
def rfindLeq (c : Cache) (i : Nat) : Option Nat := rfind c.bits (min (i + 1) (64 * c.nwords))

/-- `bitmap_count_set_l` from 0 up to an index. -/
def countBelow (bits : Nat → Bool) : Nat → Nat
  | 0 => 0
  | k + 1 => countBelow bits k + if bits k then 1 else 0

/-- First set bit among the `k` from index `i`. -/
def findFrom (bits : Nat → Bool) : Nat → Nat → Option Nat
  | 0, _ => none
  | k + 1, i => if bits i then some i else findFrom bits k (i + 1)

/-- `bitmap_find_first_set1_geq_l`. -/
def findGeq (c : Cache) (i : Nat) : Option Nat := findFrom c.bits (64 * c.nwords - i) i

/-- What a query reports; `none` fields are NULL, a missing size is `(size_t) -1`. -/
structure Info where
  base : Option Nat
  size : Option Nat
  type : Option Nat
  deriving DecidableEq

/-- `get_info` (src/allocators/packed-seq.c:304-402); without a metavector the record's address is
computed with a shift by -1 and not used, and nothing is filled in (lines 178, 367-374).  The inner option is the error return. -/
def getInfo (f : Fam) (c : Cache) (obj : Nat) : Out (Cache × Option Info) :=
  let off := obj - f.begin
  match ensure f c (off + 1) with
  | .ok c =>
    match rfindLeq c (bidx f obj) with
    | none => .ok (c, none)
    | some i =>
      match f.mv with
      | none => .ok (c, some ⟨none, none, none⟩)
      | some _ =>
        match c.recs[countBelow c.bits i]? with
        | none => .overrun
        | some r =>
          match f.types[r.typeIdx]? with
          | none => .overrun
          | some t =>
            let sz := r.sizeNalign * f.align - r.delta
            .ok (c, some ⟨some (base f + i * f.align), some sz, some (f.fix t sz)⟩)
  | .assertFail => .assertFail
  | .overrun => .overrun
  | .spin => .spin

/-- One call of a walk's callback: the object, its (fixed-up) type, the containee coordinate. -/
structure Call where
  obj : Nat
  type : Nat
  coord : Nat
  deriving DecidableEq

/-- Whether a walk's range is exhausted (src/allocators/packed-seq.c:440-442). -/
def past (rangeEnd : Option Nat) (obj : Nat) : Bool :=
  match rangeEnd with
  | none => false
  | some e => decide (e ≤ obj)

/-- The size up to the next start (src/allocators/packed-seq.c:445-447). -/
def paddedSize (f : Fam) (obj cur : Nat) (next : Option Nat) : Nat :=
  match next with
  | none => f.begin + f.len - obj
  | some j => (j - cur) * f.align

/-- The walk loop (src/allocators/packed-seq.c:430-466): `n` is the fixed metavector index, `cb` answers non-zero to stop. -/
def walkLoop (f : Fam) (c : Cache) (n : Nat) (rangeEnd : Option Nat) (cb : Call → Nat) :
    Nat → Option Nat → Nat → List Call → Out (List Call × Nat)
  | 0, _, _, _ => .spin
  | _ + 1, none, _, acc => .ok (acc, 0)
  | k + 1, some cur, coord, acc =>
    let coord := coord + 1
    let obj := base f + cur * f.align
    if past rangeEnd obj then .ok (acc, 0)
    else
      let next := findGeq c (cur + 1)
      let padded := paddedSize f obj cur next
      let call : Out Call := match f.mv with
        | some _ =>
          match c.recs[n]? with
          | none => .overrun
          | some r => match f.types[r.typeIdx]? with
            | none => .overrun
            | some t => .ok ⟨obj, f.fix t (padded - r.delta), coord⟩
        | none => match f.types[0]? with
          | none => .overrun
          | some t => .ok ⟨obj, f.fix t padded, coord⟩
      match call with
      | .ok call => if cb call ≠ 0 then .ok (acc ++ [call], cb call) else walkLoop f c n rangeEnd cb k next coord (acc ++ [call])
      | _ => .overrun

/-- C's `x ?: d` on an optional bound. -/
def orDefault (o : Option Nat) (d : Nat) : Nat :=
  match o with
  | none => d
  | some x => x

/-- `walk_allocations` (src/allocators/packed-seq.c:404-468); range bounds are addresses. -/
def walk (f : Fam) (c : Cache) (rangeBegin rangeEnd : Option Nat) (cb : Call → Nat) : Out (Cache × (List Call × Nat)) :=
  let e := orDefault rangeEnd (f.begin + f.len)
  let b := orDefault rangeBegin f.begin
  match ensure f c (e - f.begin) with
  | .ok c =>
    let start := bidx f b
    let pre := countBelow c.bits start
    match walkLoop f c pre rangeEnd cb (64 * c.nwords + 2) (some start) pre [] with
    | .ok r => .ok (c, r)
    | .assertFail => .assertFail
    | .overrun => .overrun
    | .spin => .spin
  | .assertFail => .assertFail
  | .overrun => .overrun
  | .spin => .spin

/-- The scan of `enumerate_string8_nulterm` (src/allocators/packed-seq.c:94): bytes up to and including a NUL. -/
def scan8 : List Nat → Nat
  | [] => 0
  | b :: bs => if b = 0 then 1 else scan8 bs + 1

/-- `enumerate_string8_nulterm` (src/allocators/packed-seq.c:88-98); `t` is the array-of-char type. -/
def enum8 (bytes : List Nat) (t off : Nat) : Option (Nat × Nat) :=
  if off = bytes.length then none else some (scan8 (bytes.drop off), t)

/-- `__string8_nulterm_packed_sequence` (src/allocators/packed-seq.c:109-125) over given bytes. -/
def string8 (begin : Nat) (bytes : List Nat) (t : Nat) (fix : Nat → Nat → Nat) : Fam :=
  ⟨begin, bytes.length, 1, enum8 bytes t, none, [t], fix⟩

end Liballocs.PackedSeq
