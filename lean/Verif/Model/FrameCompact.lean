import Verif.Model.FrameTypes
import Verif.Model.CcArgs
import Verif.Model.SegMeta
/-!
# Compact descriptions of stack frames (tools/frametypes2.cpp)

The newer tool lists, for the whole file, the names, types and pieces of what is in frames, and for each range of addresses what is where.

Simplifications: reading DWARF is external (`frame_element::local_elements_for` and `cfi_elements_for`), and gives elements with the intervals that
they are at; an element is a number, its place in the order of `frame_element`, and what the library says about it is a table. The output in the
traditional form is in `FrameTrad`. `boost::icl::interval_map` is as in `FrameTypes`.
-/
namespace Liballocs.FrameCompact

open FrameTypes (Seg add join)

abbrev Text := List Char

/-- What is known about an element (tools/frametypes2.cpp:689-750): a variable or parameter, or else a saved register. -/
structure Info where
  isVar : Bool
  name : Option Text
  die : Nat
  type : Option (Text × Text)
  concrete : Bool
  pointer : Bool
  reg : Nat
  inReg : Bool
  computed : Bool
  static : Bool
  off : Option Int
  pieceOff : Nat
  pieceBits : Option Nat
  bytes : Option Nat

/-- `DW_FRAME_CFA_COL3` (tools/frametypes2.cpp:718-720). -/
def CFA : Nat := 1436

/-- `is_current_cfa` (tools/frametypes2.cpp:875). -/
def Info.cfa (i : Info) : Bool := !i.isVar && decide (i.reg = CFA)

/-! ## Options -/

/-- The flags (tools/frametypes2.cpp:981-990). -/
structure Flags where
  pointers : Bool
  registers : Bool
  cfi : Bool
  computed : Bool
  incomplete : Bool
  static : Bool
  traditional : Bool
  deriving DecidableEq, Repr

/-- The flags at first (tools/frametypes2.cpp:1187). -/
def initial : Flags := ⟨false, true, true, true, false, false, false⟩

/-- `process_opt` (tools/frametypes2.cpp:1199-1220); `none` is `exit(1)`. -/
def option (f : Flags) (s : Text) : Option Flags :=
  if s = w! "--include-registers" then some { f with registers := true }
  else if s = w! "--no-include-registers" then some { f with registers := false }
  else if s = w! "--only-pointers" then some { f with pointers := true }
  else if s = w! "--no-only-pointers" then some { f with pointers := false }
  else if s = w! "--include-cfi" then some { f with cfi := true }
  else if s = w! "--no-include-cfi" then some { f with cfi := false }
  else if s = w! "--include-computed" then some { f with computed := true }
  else if s = w! "--no-include-computed" then some { f with computed := false }
  else if s = w! "--include-incomplete" then some { f with incomplete := true }
  else if s = w! "--no-include-incomplete" then some { f with incomplete := false }
  else if s = w! "--include-static" then some { f with static := true }
  else if s = w! "--no-include-static" then some { f with static := false }
  else if s = w! "--output-traditional" then
    some { f with traditional := true, computed := false, cfi := false, static := false, incomplete := false }
  else if s = w! "--no-output-traditional" then some { f with traditional := false }
  else none

/-- A lone `-` is a file name (tools/frametypes2.cpp:1232-1233). -/
def isOption : Text → Bool
  | '-' :: _ :: _ => true
  | _ => false

/-- The loop over the arguments (tools/frametypes2.cpp:1230-1236); `none` is `exit(1)`. -/
def arguments : Flags → Option Text → List Text → Option (Flags × Text)
  | _, none, [] => none
  | f, some n, [] => some (f, n)
  | f, n, a :: l =>
    match isOption a with
    | true =>
      match option f a with
      | none => none
      | some f' => arguments f' n l
    | false =>
      match n with
      | some _ => none
      | none => arguments f (some a) l

/-! ## Elements and their intervals -/

/-- The reasons for which an element of a variable is left out (tools/frametypes2.cpp:1048-1060), for output that is not traditional. -/
def keep (f : Flags) (i : Info) : Bool :=
  (f.registers || !i.inReg) && (f.computed || !i.computed) && (f.static || !i.static) &&
    (f.incomplete || !i.isVar || (i.type.isSome && i.concrete)) && (!f.pointers || (i.isVar && i.type.isSome && i.concrete && i.pointer))

/-- Inserting into a `std::set` or `std::map`: what is there already stays. -/
def ins {α : Type} (lt : α → α → Bool) (x : α) : List α → List α
  | [] => [x]
  | y :: l => if lt x y then x :: y :: l else if lt y x then y :: ins lt x l else y :: l

/-- The order of elements. -/
def elLt (a b : Nat) : Bool := decide (a < b)

/-- An element and an interval that it is at. -/
structure Range where
  lo : Nat
  hi : Nat
  el : Nat

/-- `out += make_pair(interval, singleton_set)` (tools/frametypes2.cpp:1125, 1151); an empty interval adds nothing (boost). -/
def put (m : List (Seg Nat)) (r : Range) : List (Seg Nat) :=
  if r.lo < r.hi then join (fun a b => decide (a = b)) (add (ins elLt) r.el m r.lo r.hi) else m

/-- `add_local_elements` and `add_cfi_elements` (tools/frametypes2.cpp:992-1180). -/
def gather (f : Flags) (lib : Nat → Info) (locals cfi : List Range) : List (Seg Nat) :=
  match f.cfi with
  | true => cfi.foldl put ((locals.filter fun r => keep f (lib r.el)).foldl put [])
  | false => (locals.filter fun r => keep f (lib r.el)).foldl put []

/-! ## Names, types and pieces -/

/-- `triple` (tools/frametypes2.cpp:684-751). -/
structure Triple where
  name : Text
  code : Text
  type : Text
  first : Nat
  rest : Nat
  deriving DecidableEq, Repr

/-- The "piece pair" (tools/frametypes2.cpp:740-749), of `unsigned` numbers. -/
def pieces (i : Info) : Nat × Nat :=
  match i.pieceBits, i.bytes with
  | some s, some b => (i.pieceOff % 2 ^ 32, ((8 * b - i.pieceOff - s : Int) % 2 ^ 32).toNat)
  | _, _ => (i.pieceOff % 2 ^ 32, 0)

/-- The name of a variable (tools/frametypes2.cpp:693-703). -/
def varName (i : Info) : Text :=
  match i.name with
  | some n => n
  | none => w! "__anon" ++ SegMeta.hex i.die

/-- A number in decimal, at most `k` digits. -/
def dec : Nat → Nat → Text
  | 0, _ => []
  | k + 1, n => if n < 10 then [SegMeta.digit n] else dec k (n / 10) ++ [SegMeta.digit (n % 10)]

/-- The constructor of `triple` (tools/frametypes2.cpp:687-750); `none` is a failed assertion. -/
def triple (i : Info) : Option Triple :=
  match i.isVar, i.type with
  | true, none => none
  | true, some (c, t) => some ⟨varName i, c, t, (pieces i).1, (pieces i).2⟩
  | false, _ =>
    if i.reg = CFA then none else some ⟨w! "__saved_caller_reg" ++ dec 20 i.reg, [], w! "__opaque_word", (pieces i).1, (pieces i).2⟩

/-- A triple as a list whose lexicographic order is that of the pairs. -/
def Triple.key (t : Triple) : List (List Nat) :=
  [t.name.map Char.toNat, t.code.map Char.toNat, t.type.map Char.toNat, [t.first], [t.rest]]

/-- The order of triples. -/
def tripleLt (a b : Triple) : Bool := decide (a.key < b.key)

/-- The keys of the map `m` after a list of elements (tools/frametypes2.cpp:865-898). -/
def triples (lib : Nat → Info) : List Triple → List Nat → Option (List Triple)
  | ts, [] => some ts
  | ts, e :: l =>
    match (lib e).cfa with
    | true => triples lib ts l
    | false =>
      match triple (lib e) with
      | none => none
      | some t => triples lib (ins tripleLt t ts) l

/-- The rows written (tools/frametypes2.cpp:759-776, 865-898). -/
def rows (lib : Nat → Info) (m : List (Seg Nat)) : Option (List Triple) := triples lib [] (m.flatMap Seg.els)

/-- `idx_map[t]` (tools/frametypes2.cpp:774, 966): 0 if it is not there. -/
def index (ts : List Triple) (t : Triple) : Nat :=
  match ts.findIdx? (fun u => decide (u = t)) with
  | some i => i
  | none => 0

/-! ## Layouts -/

/-- The order of offsets and elements. -/
def pairLt (a b : Int × Nat) : Bool := decide (a.1 < b.1) || (decide (a.1 = b.1) && decide (a.2 < b.2))

/-- The elements with an offset, and `std::sort` (tools/frametypes2.cpp:932-942). -/
def offsets (lib : Nat → Info) : List Nat → List (Int × Nat)
  | [] => []
  | e :: l =>
    match (lib e).off with
    | none => offsets lib l
    | some o => ins pairLt (o, e) (offsets lib l)

/-- The entries of a layout (tools/frametypes2.cpp:963-968). -/
def cells (lib : Nat → Info) (ts : List Triple) : List (Int × Nat) → Option (List (Nat × Int))
  | [] => some []
  | (o, e) :: l =>
    match triple (lib e), cells lib ts l with
    | some t, some cs => some ((index ts t, o) :: cs)
    | _, _ => none

/-- What is written for an interval: a layout, or a comment that the last continues. -/
inductive Item
  | layout (lo hi : Nat) (cells : List (Nat × Int))
  | continuing (lo hi : Nat)
  deriving DecidableEq, Repr

/-- Whether a layout is "contiguous with the last lot and identical" (tools/frametypes2.cpp:945-947). -/
def continues (prev : Option (Nat × List (Int × Nat))) (lo : Nat) (os : List (Int × Nat)) : Bool :=
  match prev with
  | none => false
  | some (hi, ps) => decide (hi = lo) && decide (os = ps)

/-- The loop over the intervals (tools/frametypes2.cpp:924-978). -/
def items (lib : Nat → Info) (ts : List Triple) : Option (Nat × List (Int × Nat)) → List (Seg Nat) → Option (List Item)
  | _, [] => some []
  | prev, s :: m =>
    match continues prev s.lo (offsets lib s.els) with
    | true => (items lib ts (some (s.hi, offsets lib s.els)) m).map (.continuing s.lo s.hi :: ·)
    | false =>
      match cells lib ts (offsets lib s.els) with
      | none => none
      | some cs => (items lib ts (some (s.hi, offsets lib s.els)) m).map (.layout s.lo s.hi cs :: ·)

/-- `write_compact_output` (tools/frametypes2.cpp:778-979). -/
def write (lib : Nat → Info) (m : List (Seg Nat)) : Option (List Triple × List Item) :=
  match rows lib m with
  | none => none
  | some ts =>
    match items lib ts none m with
    | none => none
    | some is => some (ts, is)

/-- The tool, once it has its arguments (tools/frametypes2.cpp:1262-1281). -/
def run (f : Flags) (lib : Nat → Info) (locals cfi : List Range) : Option (List Triple × List Item) := write lib (gather f lib locals cfi)

end Liballocs.FrameCompact
