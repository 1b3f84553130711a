import Verif.Model.FrameTypes
/-!
# Where a program's frames keep pointers (tools/dumpptrs.cpp)

From a file's debugging information the tool writes, for each subprogram and each interval of addresses in it, where pointer variables are
stored (in a register, or on the stack at an offset from the canonical frame address, CFA), and where the registers that the caller expects
preserved are saved.

Simplifications: reading DWARF and frame sections is external, and gives the subprograms that are not declarations, with their address ranges and
those variables and parameters that have no static storage, and the frame description entries (FDEs), decoded into rows.  Expressions are numbers; what
is seen of them is `Dwarf.place`.  `boost::icl::interval_map` is modelled as in `FrameTypes`.  Structures' names, which have the subprogram's name
and the interval's bounds, are left out, as are messages on the standard error stream.
-/
namespace Liballocs.DumpPtrs

open FrameTypes (Loc Seg add join isBase isAll sane)

/-- What an expression is taken for (tools/dumpptrs.cpp:650-800): a static variable (675-676); a single register operation (734-738); one that
evaluates to an offset, on a stack with only a zero and the frame's base being zero (758-764), which uses the CFA or the frame's base; and others. -/
inductive Place
  | static
  | reg (n : Nat)
  | cfa (off : Int)
  | fb (off : Int)
  | other
  deriving DecidableEq, Repr

/-- What the DWARF library says: what expressions are; the offset of the frame's base from the CFA, in a subprogram at an address (which the tool does
not ask for); and the value of the uninitialised member `reg` of a variable's element (tools/dumpptrs.cpp:285, 305-306), the same for all its elements. -/
structure Dwarf where
  place : Nat → Place
  base : Nat → Nat → Int
  junk : Nat → Nat

/-- A variable or parameter: its DIE; whether its concrete type is a pointer type; whether its DIE has the type as an attribute of its own, not only
through its abstract origin (`get_type` as against `find_type`, libdwarfpp). -/
structure Var where
  die : Nat
  ptr : Bool
  own : Bool
  locs : List Loc
  deriving DecidableEq, Repr

/-- A subprogram; `key` stands for name, source file and directory (tools/dumpptrs.cpp:150-158, 182-203). -/
structure Subp where
  die : Nat
  key : Nat
  cuBase : Option Nat
  ranges : List (Nat × Nat)
  vars : List Var
  deriving DecidableEq, Repr

/-- How a row of an FDE says that a register is recovered (tools/dumpptrs.cpp:898-947): it is in another register; it is saved at an offset from the
CFA; or another rule. -/
inductive Def
  | inReg (n : Nat)
  | atCfa (off : Int)
  | other
  deriving DecidableEq, Repr

/-- A row: addresses that it is for, and registers' rules. -/
structure Row where
  lo : Nat
  hi : Nat
  defs : List (Nat × Def)
  deriving DecidableEq, Repr

/-- A frame description entry (tools/dumpptrs.cpp:349-350, 826-837). -/
structure Fde where
  lo : Nat
  hi : Nat
  rows : List Row
  deriving DecidableEq, Repr

/-! ## Elements -/

/-- Where something is stored, `store_location` (tools/dumpptrs.cpp:257-268): a register's number and zero, or minus one and an offset. -/
structure Store where
  reg : Int
  off : Int
  deriving DecidableEq, Repr

/-- What is stored: a variable or a register of the caller (tools/dumpptrs.cpp:282-285). -/
inductive Who
  | var (die : Nat)
  | reg (col : Nat)
  deriving DecidableEq, Repr

/-- `retained_element` (tools/dumpptrs.cpp:280-308). -/
structure El where
  loc : Store
  who : Who
  deriving DecidableEq, Repr

/-- The order of pairs. -/
def storeLt (a b : Store) : Bool := decide (a.reg < b.reg) || (decide (a.reg = b.reg) && decide (a.off < b.off))

/-- `operator<` on what is stored, at the same place (tools/dumpptrs.cpp:292-293): variables and registers are not ordered. -/
def whoLt : Who → Who → Bool
  | .var d, .var e => decide (d < e)
  | .reg r, .reg q => decide (r < q)
  | _, _ => false

/-- `operator<` (tools/dumpptrs.cpp:289-294). -/
def elLt (a b : El) : Bool := storeLt a.loc b.loc || (decide (a.loc = b.loc) && whoLt a.who b.who)

/-- `operator==` on what is stored (tools/dumpptrs.cpp:298): a variable has no `reg`, so what happens to be there is compared; a register's `local_die` is
no DIE. -/
def whoEq (D : Dwarf) : Who → Who → Bool
  | .var d, .var e => decide (d = e)
  | .var _, .reg _ => false
  | .reg r, .reg q => decide (r = q)
  | .reg r, .var d => decide (r = D.junk d)

/-- `operator==` (tools/dumpptrs.cpp:295-299). -/
def elEq (D : Dwarf) (a b : El) : Bool := decide (a.loc = b.loc) && whoEq D a.who b.who

/-- Equality of sets of elements (the C++ library), by which an interval map joins neighbours. -/
def same (D : Dwarf) : List El → List El → Bool
  | [], [] => true
  | a :: l, b :: m => elEq D a b && same D l m
  | _, _ => false

/-- Inserting into a set of elements. -/
def insEl (x : El) : List El → List El
  | [] => [x]
  | y :: l => if elLt x y then x :: y :: l else if elLt y x then y :: insEl x l else y :: l

/-- `frame_intervals += …` (tools/dumpptrs.cpp:751, 807, 913-919, 931-937); an empty interval changes nothing. -/
def put (D : Dwarf) (m : List (Seg El)) (lo hi : Nat) (e : El) : List (Seg El) :=
  if lo < hi then join (same D) (add insEl e m lo hi) else m

/-! ## Variables -/

/-- An element of `live_set_t` (tools/dumpptrs.cpp:311). -/
structure Live where
  die : Nat
  ptr : Bool
  own : Bool
  expr : Nat
  deriving DecidableEq, Repr

/-- Inserting into `live_set_t`. -/
def insLive (x : Live) (l : List Live) : List Live :=
  if l.any (fun y => decide (y.die = x.die) && decide (y.expr = x.expr)) then l else l ++ [x]

/-- Equality of `live_set_t`. -/
def sameLive (a b : List Live) : Bool := a.all (fun x => decide (x ∈ b)) && b.all (fun x => decide (x ∈ a))

/-- The loop over a location list (tools/dumpptrs.cpp:491-599): the intervals to add, with their expressions; `none` is a failed assertion, or a unit
without the base address that is asked for. -/
def entries (s : Subp) : Bool → List Loc → Option (List (Nat × Nat × Nat))
  | _, [] => some []
  | first, l :: ls =>
    if isBase l then none
    else if l.lopc = l.hipc ∧ l.hipc ≠ 0 then entries s false ls
    else if l.hipc < l.lopc then entries s false ls
    else
      match s.cuBase with
      | none => none
      | some cu =>
        if isAll l then
          if first = true ∧ ls = [] ∧ s.ranges.all (fun r => sane r.1 r.2) then some (s.ranges.map (fun r => (r.1, r.2, l.expr))) else none
        else if sane ((l.lopc + cu) % 2 ^ 64) ((l.hipc + cu) % 2 ^ 64) then
          (entries s false ls).map (((l.lopc + cu) % 2 ^ 64, (l.hipc + cu) % 2 ^ 64, l.expr) :: ·)
        else none

/-- `subp_vaddr_intervals += …` (tools/dumpptrs.cpp:569-572, 594-597). -/
def addLive (v : Var) (m : List (Seg Live)) (e : Nat × Nat × Nat) : List (Seg Live) :=
  join sameLive (add insLive ⟨v.die, v.ptr, v.own, e.2.2⟩ m e.1 e.2.1)

/-- The variables that are live (tools/dumpptrs.cpp:455-608). -/
def liveMap (s : Subp) : List (Seg Live) → List Var → Option (List (Seg Live))
  | m, [] => some m
  | m, v :: vs =>
    match entries s true v.locs with
    | none => none
    | some es => liveMap s (es.foldl (addLive v) m) vs

/-- Where an expression says a variable is (tools/dumpptrs.cpp:675-804); `none` is "discarded". -/
def store : Place → Option Store
  | .reg n => some ⟨n, 0⟩
  | .cfa off => some ⟨-1, off⟩
  | .fb off => some ⟨-1, off⟩
  | _ => none

/-- The element that a live variable is (tools/dumpptrs.cpp:444-450, 648-815). -/
def element (D : Dwarf) (x : Live) : Option El :=
  if x.own && x.ptr then (store (D.place x.expr)).map (⟨·, .var x.die⟩) else none

/-- One live variable, in an interval. -/
def putLive (D : Dwarf) (lo hi : Nat) (m : List (Seg El)) (x : Live) : List (Seg El) :=
  match element D x with
  | none => m
  | some e => put D m lo hi e

/-- The loop over the intervals (tools/dumpptrs.cpp:627-817). -/
def varMap (D : Dwarf) (live : List (Seg Live)) : List (Seg El) := live.foldl (fun m s => s.els.foldl (putLive D s.lo s.hi) m) []

/-! ## Saved registers -/

/-- `is_callee_save_register` (tools/dumpptrs.cpp:112-120). -/
def calleeSave (col : Nat) : Bool :=
  decide (col = 3) || decide (col = 6) || decide (col = 12) || decide (col = 13) || decide (col = 14) || decide (col = 15)

/-- Where a rule says that a register is saved (tools/dumpptrs.cpp:898-947). -/
def saved : Def → Option Store
  | .inReg n => some ⟨n, 0⟩
  | .atCfa off => some ⟨-1, off⟩
  | .other => none

/-- `row_column_visitor` (tools/dumpptrs.cpp:891-950): the interval is the whole of the FDE's. -/
def putDef (D : Dwarf) (f : Fde) (m : List (Seg El)) (d : Nat × Def) : List (Seg El) :=
  match calleeSave d.1, saved d.2 with
  | true, some w => put D m f.lo f.hi ⟨w, .reg d.1⟩
  | _, _ => m

/-- An FDE's rows (tools/dumpptrs.cpp:821-957). -/
def putFde (D : Dwarf) (m : List (Seg El)) (f : Fde) : List (Seg El) := f.rows.foldl (fun m r => r.defs.foldl (putDef D f) m) m

/-! ## Subprograms -/

/-- Inserting into a set of subprograms. -/
def insDie (x : Nat) (l : List Nat) : List Nat := if x ∈ l then l else l ++ [x]

/-- Equality of sets of subprograms. -/
def sameDies (a b : List Nat) : Bool := a.all (fun x => decide (x ∈ b)) && b.all (fun x => decide (x ∈ a))

/-- One range of a subprogram (tools/dumpptrs.cpp:221-235). -/
def addRange (die : Nat) (m : List (Seg Nat)) (r : Nat × Nat) : List (Seg Nat) :=
  if r.1 < r.2 then join sameDies (add insDie die m r.1 r.2) else m

/-- `subprogram_intervals` (tools/dumpptrs.cpp:163-244), of subprograms whether or not they are in the list. -/
def subpMap (subps : List Subp) : List (Seg Nat) := subps.foldl (fun m s => s.ranges.foldl (addRange s.die) m) []

/-- The segments that the loop visits for an FDE (tools/dumpptrs.cpp:357-358): from that which has the FDE's first address. -/
def visited (m : List (Seg Nat)) (f : Fde) : List (Seg Nat) :=
  (m.dropWhile fun s => !(decide (s.lo ≤ f.lo) && decide (f.lo < s.hi))).takeWhile fun s => decide (s.lo < f.hi)

/-- `fdes_by_subprogram[s]` (tools/dumpptrs.cpp:347-383). -/
def fdesOf (m : List (Seg Nat)) (fdes : List Fde) (die : Nat) : List Fde :=
  fdes.flatMap fun f => (visited m f).flatMap fun t => if die ∈ t.els then [f] else []

/-- What is written: a structure for an interval, or a closing brace that is left over (tools/dumpptrs.cpp:381, 966-1086). -/
inductive Item
  | ptrs (die : Nat) (s : Seg El)
  | brace
  deriving DecidableEq, Repr

/-- The braces that the loop over the FDEs writes (tools/dumpptrs.cpp:381). -/
def braces (m : List (Seg Nat)) (fdes : List Fde) : List Item :=
  fdes.flatMap fun f => (visited m f).flatMap fun t => if t.els.length = 1 then [] else [.brace]

/-- How a place is written (tools/dumpptrs.cpp:1028-1042). -/
inductive Where
  | reg (n : Int)
  | stack (off : Int)
  deriving DecidableEq, Repr

/-- The text of `.where` and `.where_info` (tools/dumpptrs.cpp:1028-1042). -/
def shown (w : Store) : Where := if w.reg = -1 then .stack w.off else .reg w.reg

/-- The work for a subprogram (tools/dumpptrs.cpp:426-1103). -/
def subpItems (D : Dwarf) (m : List (Seg Nat)) (fdes : List Fde) (s : Subp) : Option (List Item) :=
  match liveMap s [] s.vars with
  | none => none
  | some live => some (((fdesOf m fdes s.die).foldl (putFde D) (varMap D live)).map (.ptrs s.die))

/-- The loop over the subprograms. -/
def allItems (D : Dwarf) (m : List (Seg Nat)) (fdes : List Fde) : List Subp → Option (List Item)
  | [] => some []
  | s :: r =>
    match subpItems D m fdes s, allItems D m fdes r with
    | some a, some b => some (a ++ b)
    | _, _ => none

/-- `subprograms_list.insert` (tools/dumpptrs.cpp:198-215): the first of those with the same key stays; the list's order is left out. -/
def dedup : List Subp → List Nat → List Subp
  | [], _ => []
  | s :: r, seen => if s.key ∈ seen then dedup r seen else s :: dedup r (s.key :: seen)

/-- `main` (tools/dumpptrs.cpp:124-1107). -/
def run (D : Dwarf) (subps : List Subp) (fdes : List Fde) : Option (List Item) :=
  (allItems D (subpMap subps) fdes (dedup subps [])).map (braces (subpMap subps) fdes ++ ·)

end Liballocs.DumpPtrs
