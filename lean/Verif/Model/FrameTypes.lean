import Verif.Model.StackFrame
/-!
# Descriptions of stack frames (tools/frametypes.cpp)

From the location lists of a file's local variables the tool computes frame layouts and the table that `pc_to_frame_uniqtype` searches.

Simplifications: reading DWARF is external, and gives the subprograms that are not declarations, with the variables and parameters that belong to them
and have no static storage, and their location lists rewritten in terms of the frame's base; names of the types written are taken to be distinct for
distinct intervals of a file, so that an alias is resolved.  `boost::icl::interval_map` is modelled by ordered lists of segments.
-/
namespace Liballocs.FrameTypes

/-- An entry of a location list; `expr` stands for the expression. -/
structure Loc where
  lopc : Nat
  hipc : Nat
  expr : Nat
  deriving DecidableEq, Repr

/-- A variable or parameter: where its DIE is; its type and the type's size, if it has a complete type. -/
structure Var where
  die : Nat
  type : Option (Nat × Option Nat)
  locs : List Loc
  deriving DecidableEq, Repr

/-- A subprogram: `key` stands for name, source file and directory (tools/frametypes.cpp:225-232); its address ranges relative to the file. -/
structure Subp where
  die : Nat
  key : Nat
  cuBase : Option Nat
  ranges : List (Nat × Nat)
  vars : List Var
  deriving DecidableEq, Repr

/-- What the DWARF library says about expressions: the offset from the frame's base, if it is a place in memory that depends on no register
(tools/frametypes.cpp:663-799), and `std::hash<loc_expr>` (tools/frametypes.cpp:166-194). -/
structure Dwarf where
  place : Nat → Option Int
  hash : Nat → Nat

/-! ## Interval maps -/

/-- A segment of an interval map. -/
structure Seg (α : Type) where
  lo : Nat
  hi : Nat
  els : List α
  deriving DecidableEq, Repr

/-- A segment, unless empty. -/
def seg {α : Type} (lo hi : Nat) (els : List α) : List (Seg α) := if lo < hi then [⟨lo, hi, els⟩] else []

/-- `m += make_pair(right_open(lo, hi), {x})` (boost): the pieces of each segment outside and inside the interval; `ins` inserts into a set. -/
def add {α : Type} (ins : α → List α → List α) (x : α) : List (Seg α) → Nat → Nat → List (Seg α)
  | [], lo, hi => seg lo hi (ins x [])
  | s :: m, lo, hi =>
    seg lo (min hi s.lo) (ins x []) ++ seg s.lo (min lo s.hi) s.els ++ seg (max lo s.lo) (min hi s.hi) (ins x s.els) ++
      seg (max hi s.lo) s.hi s.els ++ add ins x m (max lo s.hi) hi

/-- Two neighbours with equal sets become one segment (boost). -/
def glue {α : Type} (same : List α → List α → Bool) (s : Seg α) : List (Seg α) → List (Seg α)
  | [] => [s]
  | t :: m => if decide (s.hi = t.lo) && same s.els t.els then ⟨s.lo, t.hi, s.els⟩ :: m else s :: t :: m

/-- All neighbours. -/
def join {α : Type} (same : List α → List α → Bool) : List (Seg α) → List (Seg α)
  | [] => []
  | s :: m => glue same s (join same m)

/-! ## The variables that are live -/

/-- An element of the first map's sets: a variable and an expression (tools/frametypes.cpp:298-302). -/
structure Live where
  die : Nat
  type : Option (Nat × Option Nat)
  expr : Nat
  deriving DecidableEq, Repr

/-- Inserting into `live_set_t` (tools/frametypes.cpp:122-142): elements are told apart by hash and DIE, as the library compares the hashes first. -/
def insLive (D : Dwarf) (x : Live) (l : List Live) : List Live :=
  if l.any (fun y => decide (y.die = x.die) && decide (D.hash y.expr = D.hash x.expr)) then l else l ++ [x]

/-- Equality of `live_set_t`. -/
def sameLive (a b : List Live) : Bool := a.all (fun x => decide (x ∈ b)) && b.all (fun x => decide (x ∈ a))

/-- A base address selection entry (tools/frametypes.cpp:445-461). -/
def isBase (l : Loc) : Bool := decide (l.lopc = 2 ^ 64 - 1) || decide (l.lopc = 2 ^ 32 - 1)

/-- An entry "for all vaddrs" (tools/frametypes.cpp:535-536). -/
def isAll (l : Loc) : Bool := decide (l.lopc = 0) && (decide (l.hipc = 0) || decide (l.hipc = 2 ^ 64 - 1))

/-- The assertions on intervals (tools/frametypes.cpp:558-561, 584-587). -/
def sane (lo hi : Nat) : Bool := decide (lo < hi) && decide (hi - lo < 1024 * 1024)

/-- The base address after an entry. -/
def nextBase (base : Nat) (l : Loc) : Nat := if isBase l then l.hipc else base

/-- The loop over a location list (tools/frametypes.cpp:439-596): the intervals to add, with their expressions; `none` is a failed assertion. -/
def entries (s : Subp) : Nat → Nat → List Loc → Option (List (Nat × Nat × Nat))
  | _, _, [] => some []
  | k, base, l :: ls =>
    if l.lopc = l.hipc ∧ l.hipc ≠ 0 then entries s (k + 1) (nextBase base l) ls
    else if l.hipc < l.lopc then entries s (k + 1) (nextBase base l) ls
    else
      match s.cuBase with
      | none => entries s (k + 1) (nextBase base l) ls
      | some cu =>
        if isAll l then
          if k = 0 ∧ ls = [] ∧ s.ranges.all (fun r => sane r.1 r.2) then some (s.ranges.map (fun r => (r.1, r.2, l.expr))) else none
        else if sane ((l.lopc + nextBase base l + cu) % 2 ^ 64) ((l.hipc + nextBase base l + cu) % 2 ^ 64) then
          (entries s (k + 1) (nextBase base l) ls).map
            (((l.lopc + nextBase base l + cu) % 2 ^ 64, (l.hipc + nextBase base l + cu) % 2 ^ 64, l.expr) :: ·)
        else none

/-- `subp_vaddr_intervals += …` (tools/frametypes.cpp:562-565, 588-591). -/
def addLive (D : Dwarf) (v : Var) (m : List (Seg Live)) (e : Nat × Nat × Nat) : List (Seg Live) :=
  join sameLive (add (insLive D) ⟨v.die, v.type, e.2.2⟩ m e.1 e.2.1)

/-- The first map, of the variables from the first on (tools/frametypes.cpp:397-615). -/
def liveMap (D : Dwarf) (s : Subp) : List (Seg Live) → List Var → Option (List (Seg Live))
  | m, [] => some m
  | m, v :: vs =>
    match entries s 0 0 v.locs with
    | none => none
    | some es => liveMap D s (es.foldl (addLive D v) m) vs

/-! ## The elements of the frame -/

/-- An element of the second map's sets (tools/frametypes.cpp:303-310). -/
structure El where
  off : Int
  die : Nat
  type : Nat
  size : Option Nat
  deriving DecidableEq, Repr

/-- `compare_first_signed_second_offset` (tools/frametypes.cpp:90-99). -/
def elLt (a b : El) : Bool := decide (a.off < b.off) || (decide (a.off = b.off) && decide (a.die < b.die))

/-- Inserting into a `std::set` of elements. -/
def insEl (x : El) : List El → List El
  | [] => [x]
  | y :: l => if elLt x y then x :: y :: l else if elLt y x then y :: insEl x l else y :: l

/-- The element that a live variable is (tools/frametypes.cpp:650-823): `none` is "discarded". -/
def element (D : Dwarf) (x : Live) : Option El :=
  match D.place x.expr, x.type with
  | some off, some (ty, size) => some ⟨off, x.die, ty, size⟩
  | _, _ => none

/-- `frame_intervals += …` (tools/frametypes.cpp:804-812). -/
def addEl (D : Dwarf) (lo hi : Nat) (m : List (Seg El)) (x : Live) : List (Seg El) :=
  match element D x with
  | none => m
  | some e => join (fun a b => decide (a = b)) (add insEl e m lo hi)

/-- The second map (tools/frametypes.cpp:633-824). -/
def frameMap (D : Dwarf) (live : List (Seg Live)) : List (Seg El) :=
  live.foldl (fun m s => s.els.foldl (addEl D s.lo s.hi) m) []

/-! ## Layouts -/

/-- Conversion to `signed`. -/
def i32 (x : Int) : Int := Int.bmod x (2 ^ 32)

/-- The end of the element with the highest beginning (tools/frametypes.cpp:846-876). -/
def maxOff (els : List El) : Nat :=
  match els.getLast? with
  | none => 0
  | some e =>
    match e.size with
    | none => (i32 e.off).toNat
    | some n => (i32 (e.off + (n % 2 ^ 32 : Nat))).toNat

/-- The lowest beginning, if negative (tools/frametypes.cpp:877-881). -/
def minOff (els : List El) : Int :=
  match els.head? with
  | none => 0
  | some e => min (i32 e.off) 0

/-- `overall_frame_minoff` (tools/frametypes.cpp:835-887). -/
def overall (m : List (Seg El)) : Int := m.foldl (fun o s => min o (minOff s.els)) 0

/-- `offset_to_all` (tools/frametypes.cpp:888-928); `none` is an overflow. -/
def offsetToAll (o : Int) : Option Nat :=
  if o = -2 ^ 31 then none
  else if o < 0 then some (if (-o).toNat % 8 = 0 then (-o).toNat / 8 * 8 else ((-o).toNat / 8 + 1) * 8)
  else some 0

/-- The type written for an interval: its size and its members' offsets and types. -/
structure Layout where
  size : Nat
  members : List (Nat × Nat)
  deriving DecidableEq, Repr

/-- Writing the type (tools/frametypes.cpp:990-1069). -/
def layout (off : Nat) (els : List El) : Layout :=
  ⟨(maxOff els + off) % 2 ^ 32, els.map (fun e => (((e.off + off) % 2 ^ 32).toNat, e.type))⟩

/-- Or aliasing the type of the first interval with the same elements (tools/frametypes.cpp:966-988). -/
def typeOf (off : Nat) (m : List (Seg El)) (s : Seg El) : Option Layout :=
  (m.find? (fun t => decide (t.els = s.els))).map (fun t => layout off t.els)

/-- A record of the table, with the type that it refers to. -/
structure Rec where
  lo : Nat
  hi : Nat
  die : Nat
  off : Nat
  lay : Layout
  deriving DecidableEq, Repr

/-- The records of a subprogram's intervals. -/
def recs (die off : Nat) (m : List (Seg El)) : List (Seg El) → Option (List Rec)
  | [] => some []
  | s :: r =>
    match typeOf off m s, recs die off m r with
    | some l, some rs => some (⟨s.lo, s.hi, die, off, l⟩ :: rs)
    | _, _ => none

/-- The work for one subprogram (tools/frametypes.cpp:331-1087). -/
def subpRecs (D : Dwarf) (s : Subp) : Option (List Rec) :=
  match liveMap D s [] s.vars with
  | none => none
  | some live =>
    match offsetToAll (overall (frameMap D live)) with
    | none => none
    | some off => recs s.die off (frameMap D live) (frameMap D live)

/-- `subprograms_list.insert` (tools/frametypes.cpp:262-279): the first of those with the same key stays. -/
def dedup : List Subp → List Nat → List Subp
  | [], _ => []
  | s :: r, seen => if s.key ∈ seen then dedup r seen else s :: dedup r (s.key :: seen)

/-- The order of `sorted_intervals` (tools/frametypes.cpp:1091-1105). -/
def recLt (a b : Rec) : Bool :=
  decide (a.lo < b.lo) || (decide (a.lo = b.lo) && (decide (a.hi < b.hi) || (decide (a.hi = b.hi) && decide (a.die < b.die))))

/-- Inserting into `sorted_intervals`. -/
def insRec (x : Rec) : List Rec → List Rec
  | [] => [x]
  | y :: l => if recLt x y then x :: y :: l else if recLt y x then y :: insRec x l else y :: l

/-- The loop over the subprograms. -/
def allRecs (D : Dwarf) : List Subp → Option (List Rec)
  | [] => some []
  | s :: r =>
    match subpRecs D s, allRecs D r with
    | some a, some b => some (a.foldl (fun t x => insRec x t) b)
    | _, _ => none

/-- `main`: the table `frame_vaddrs` (tools/frametypes.cpp:1106-1123). -/
def table (D : Dwarf) (subps : List Subp) : Option (List Rec) := allRecs D (dedup subps [])

/-- What is compiled into the table (tools/frametypes.cpp:1107-1121), `num` numbering the types. -/
def toEntry (num : Layout → Nat) (r : Rec) : StackFrame.Entry := ⟨r.lo, some (num r.lay), r.lay.size, r.off⟩

/-- The search of the table, contract of `bsearch_leq_generic` (src/allocators/stackframe.c:386-392). -/
def found (tbl : List Rec) (pc : Nat) : Option Rec := (tbl.filter (fun r => decide (r.lo ≤ pc))).getLast?

end Liballocs.FrameTypes
