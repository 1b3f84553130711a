import Verif.Model.FrameCompact
/-!
# The traditional form of frame descriptions, from the newer tool (tools/frametypes2.cpp)

With `--output-traditional` the newer tool writes what the older one (`FrameTypes`) does: a type for each interval in which the same variables are on the
stack, and the table `frame_vaddrs` that the stack frame allocator searches.

Simplifications: as in `FrameCompact`; which subprograms have code at an address, and the list of subprograms, come from the library
(`gather_defined_subprograms`). `find_equal_range_last` is external, too: it is taken to give the last of neighbouring intervals with the same elements,
which is the interval itself, as the interval map has joined such neighbours. Names of types stand for their texts, which end in the interval's bounds.
The debugging output, declarations of the members' types and comments are left out, and `FRAMETYPES_DEBUG` is not set. The subprograms' units have names.
-/
namespace Liballocs.FrameTrad

open FrameTypes (Seg join)
open FrameCompact (Info Flags Range keep put ins elLt offsets)

/-- The operations of an expression, as far as they are told apart (tools/frametypes2.cpp:1061-1122): reading a register, naming one, the end of a
piece, reading memory, and those that are not supported. -/
inductive Op
  | reads | names | piece | memory | odd | plain
  deriving DecidableEq, Repr

/-- What the library says: about elements, their expressions, the sizes of their pieces in bytes; the subprograms at an address; and the subprograms. -/
structure Lib where
  info : Nat → Info
  ops : Nat → List Op
  piece : Nat → Option Nat
  subAt : Nat → List Nat
  keys : List Nat

/-! ## Elements -/

/-- Whether no operation reads or names a register (tools/frametypes2.cpp:1070-1084). -/
def wholeOk (l : List Op) : Bool := l.all fun o => decide (o ≠ .reads) && decide (o ≠ .names)

/-- Whether the first piece has only supported operations (tools/frametypes2.cpp:1089-1122). -/
def firstOk : List Op → Bool
  | [] => true
  | .piece :: _ => true
  | .memory :: _ => false
  | .odd :: _ => false
  | _ :: l => firstOk l

/-- Whether an element of a variable is kept (tools/frametypes2.cpp:1048-1123). -/
def kept (f : Flags) (L : Lib) (e : Nat) : Bool :=
  keep f (L.info e) &&
    (!f.traditional || !(L.info e).isVar || (wholeOk (L.ops e) && decide ((L.info e).pieceOff = 0) && firstOk (L.ops e)))

/-- `add_local_elements` and `add_cfi_elements` (tools/frametypes2.cpp:992-1180). -/
def gather (f : Flags) (L : Lib) (locals cfi : List Range) : List (Seg Nat) :=
  match f.cfi with
  | true => cfi.foldl put ((locals.filter fun r => kept f L r.el).foldl put [])
  | false => (locals.filter fun r => kept f L r.el).foldl put []

/-! ## Subprograms -/

/-- The subprogram that an interval is ascribed to, by its beginning, if it is just one (tools/frametypes2.cpp:338-361). -/
def owner (L : Lib) (s : Seg Nat) : Option Nat :=
  match L.subAt s.lo with
  | [x] => some x
  | _ => none

/-- `frame_intervals_by_subprogram[x]` (tools/frametypes2.cpp:361). -/
def mine (L : Lib) (m : List (Seg Nat)) (x : Nat) : List (Seg Nat) :=
  join (fun a b => decide (a = b)) (m.filter fun s => decide (owner L s = some x))

/-- An interval adds its subprogram to the keys (tools/frametypes2.cpp:338-361). -/
def addOwner (L : Lib) (l : List Nat) (s : Seg Nat) : List Nat :=
  match owner L s with
  | none => l
  | some x => ins elLt x l

/-- The keys of `frame_intervals_by_subprogram`. -/
def owners (L : Lib) (m : List (Seg Nat)) : List Nat := m.foldl (addOwner L) []

/-- One element of the search for the least offset (tools/frametypes2.cpp:222-227). -/
def lower (L : Lib) (a : Int) (e : Nat) : Int :=
  match (L.info e).off with
  | none => a
  | some o => if o < a then o else a

/-- The least offset (tools/frametypes2.cpp:215-228). -/
def least (L : Lib) (m : List (Seg Nat)) : Int := (m.flatMap Seg.els).foldl (lower L) (2 ^ 63 - 1)

/-- The rest of `get_frame_offset` (tools/frametypes2.cpp:229-243). -/
def roundUp (m : Int) : Nat :=
  if m < 0 then
    if (-m).toNat % 8 = 0 then (-m).toNat / 8 % 2 ^ 32 * 8 % 2 ^ 32 else ((-m).toNat / 8 + 1) % 2 ^ 32 * 8 % 2 ^ 32
  else 0

/-- `get_frame_offset` (tools/frametypes2.cpp:200-243). -/
def frameOffset (L : Lib) (m : List (Seg Nat)) : Nat := roundUp (least L m)

/-! ## Layouts -/

/-- Why the tool may stop. -/
inductive Stop
  | assertion | undefined
  deriving DecidableEq, Repr

/-- `local_elements_by_stack_offset` (tools/frametypes2.cpp:302-318). -/
def byOff (L : Lib) (els : List Nat) : List (Int × Nat) := offsets L.info (els.filter fun e => (L.info e).isVar)

/-- A segment put into an ordered map of others. -/
def insSeg (s : Seg (Int × Nat)) : List (Seg (Int × Nat)) → List (Seg (Int × Nat))
  | [] => [s]
  | t :: m => if s.lo < t.lo then s :: t :: m else t :: insSeg s m

/-- `by_off_by_interval.insert` (tools/frametypes2.cpp:439-441): the map does not keep empty values, and joins neighbours with the same (boost). -/
def remember (L : Lib) (m : List (Seg (Int × Nat))) (s : Seg Nat) : List (Seg (Int × Nat)) :=
  match byOff L s.els with
  | [] => m
  | p :: l => join (fun a b => decide (a = b)) (insSeg ⟨s.lo, s.hi, p :: l⟩ m)

/-- `by_off_by_interval.find(interval)` (tools/frametypes2.cpp:504, 666): a segment that overlaps it (boost). -/
def lookup (m : List (Seg (Int × Nat))) (lo hi : Nat) : Option (Seg (Int × Nat)) := m.find? fun t => decide (t.lo < hi) && decide (lo < t.hi)

/-- `typename_for_vaddr_interval`, and the unit's name (tools/frametypes2.cpp:288-299, 494). -/
structure Name where
  subp : Nat
  lo : Nat
  hi : Nat
  deriving DecidableEq, Repr

/-- A type written: its size, and its members' offsets and elements. -/
structure Lay where
  size : Nat
  members : List (Nat × Nat)
  deriving DecidableEq, Repr

/-- What is written for an interval. -/
inductive Item
  | define (n : Name) (l : Lay)
  | alias (n old : Name)
  deriving DecidableEq, Repr

/-- The name that an item gives a meaning to. -/
def Item.name : Item → Name
  | .define n _ => n
  | .alias n _ => n

/-- Writing a type (tools/frametypes2.cpp:533-625); `none` is the use of a size that is not there (536-537). -/
def layout (L : Lib) (off : Nat) (bo : List (Int × Nat)) : Option Lay :=
  match bo.getLast? with
  | none => some ⟨off % 2 ^ 32, []⟩
  | some (o, e) =>
    match L.piece e with
    | none => none
    | some n => some ⟨((o + n).toNat + off) % 2 ^ 32, bo.map fun p => (((p.1 + off) % 2 ^ 32).toNat, p.2)⟩

/-- The search for an earlier interval with the same layout (tools/frametypes2.cpp:498-530). -/
def earlier (x : Nat) (m : List (Seg (Int × Nat))) (bo : List (Int × Nat)) : List (Seg Nat) → Except Stop (Option Name)
  | [] => .ok none
  | e :: l =>
    match lookup m e.lo e.hi with
    | none => .error .assertion
    | some t => if t.els = bo then .ok (some ⟨x, e.lo, e.hi⟩) else earlier x m bo l

/-- What is written for an interval, if something is on the stack there (tools/frametypes2.cpp:486-626). -/
def item (L : Lib) (x off : Nat) (m : List (Seg (Int × Nat))) (before : List (Seg Nat)) (s : Seg Nat) (bo : List (Int × Nat)) : Except Stop Item :=
  match earlier x m bo before with
  | .error e => .error e
  | .ok (some n) => .ok (.alias ⟨x, s.lo, s.hi⟩ n)
  | .ok none =>
    match layout L off bo with
    | none => .error .undefined
    | some l => .ok (.define ⟨x, s.lo, s.hi⟩ l)

/-- The loop over a subprogram's intervals (tools/frametypes2.cpp:419-630), `before` being those before. -/
def emit (L : Lib) (x off : Nat) : List (Seg Nat) → List (Seg (Int × Nat)) → List (Seg Nat) → Except Stop (List Item × List (Seg (Int × Nat)))
  | _, m, [] => .ok ([], m)
  | before, m, s :: r =>
    match byOff L s.els with
    | [] => emit L x off (before ++ [s]) (remember L m s) r
    | p :: l =>
      match item L x off (remember L m s) before s (p :: l), emit L x off (before ++ [s]) (remember L m s) r with
      | .ok i, .ok (is, m') => .ok (i :: is, m')
      | .ok _, .error e => .error e
      | .error e, _ => .error e

/-- The work for one subprogram (tools/frametypes2.cpp:386-637): in the end the map must have an interval more for each of the subprogram's. -/
def subp (L : Lib) (m : List (Seg Nat)) (x : Nat) (k : List (Seg (Int × Nat))) : Except Stop (List Item × List (Seg (Int × Nat))) :=
  match emit L x (frameOffset L (mine L m x)) [] k (mine L m x) with
  | .error e => .error e
  | .ok (is, k') => if (mine L m x).length + k.length = k'.length then .ok (is, k') else .error .assertion

/-- The loop over the subprograms (tools/frametypes2.cpp:384-650). -/
def subps (L : Lib) (m : List (Seg Nat)) : List Nat → List (Seg (Int × Nat)) → Except Stop (List Item × List (Seg (Int × Nat)))
  | [], k => .ok ([], k)
  | x :: xs, k =>
    match subp L m x k with
    | .error e => .error e
    | .ok (is, k') =>
      match subps L m xs k' with
      | .error e => .error e
      | .ok (js, k'') => .ok (is ++ js, k'')

/-! ## The table -/

/-- A record of the table. -/
structure Rec where
  lo : Nat
  hi : Nat
  off : Nat
  name : Name
  deriving DecidableEq, Repr

/-- The order of `sorted_intervals` (tools/frametypes2.cpp:653-654). -/
def recLt (a b : Rec) : Bool :=
  decide (a.lo < b.lo) ||
    (decide (a.lo = b.lo) && (decide (a.hi < b.hi) || (decide (a.hi = b.hi) && decide (a.name.subp < b.name.subp))))

/-- Inserting into `sorted_intervals`. -/
def insRec (x : Rec) : List Rec → List Rec
  | [] => [x]
  | y :: l => if recLt x y then x :: y :: l else if recLt y x then y :: insRec x l else y :: l

/-- `frame_offsets_by_subprogram[x]` (tools/frametypes2.cpp:410, 684): 0 if it is not there. -/
def offOf (L : Lib) (m : List (Seg Nat)) (x : Nat) : Nat := if x ∈ L.keys then frameOffset L (mine L m x) else 0

/-- The records of a subprogram (tools/frametypes2.cpp:659-671). -/
def records (L : Lib) (m : List (Seg Nat)) (k : List (Seg (Int × Nat))) (x : Nat) : List Rec → List (Seg Nat) → Except Stop (List Rec)
  | t, [] => .ok t
  | t, s :: r =>
    match lookup k s.lo s.hi with
    | none => .error .assertion
    | some v =>
      match v.els with
      | [] => records L m k x t r
      | _ :: _ => records L m k x (insRec ⟨s.lo, s.hi, offOf L m x, ⟨x, s.lo, s.hi⟩⟩ t) r

/-- All records (tools/frametypes2.cpp:652-672). -/
def table (L : Lib) (m : List (Seg Nat)) (k : List (Seg (Int × Nat))) : List Rec → List Nat → Except Stop (List Rec)
  | t, [] => .ok t
  | t, x :: xs =>
    match records L m k x t (mine L m x) with
    | .error e => .error e
    | .ok t' => table L m k t' xs

/-- `write_traditional_output` (tools/frametypes2.cpp:320-699). -/
def write (L : Lib) (m : List (Seg Nat)) : Except Stop (List Item × List Rec) :=
  match subps L m L.keys [] with
  | .error e => .error e
  | .ok (is, k) =>
    match table L m k [] (owners L m) with
    | .error e => .error e
    | .ok t => .ok (is, t)

/-- The tool, once it has its arguments (tools/frametypes2.cpp:1262-1288). -/
def run (f : Flags) (L : Lib) (locals cfi : List Range) : Except Stop (List Item × List Rec) := write L (gather f L locals cfi)

/-- The search of the table, contract of `bsearch_leq_generic` (src/allocators/stackframe.c:386-392). -/
def found (t : List Rec) (pc : Nat) : Option Rec := (t.filter fun r => decide (r.lo ≤ pc)).getLast?

end Liballocs.FrameTrad
