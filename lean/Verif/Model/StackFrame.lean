/-!
# Stack-frame queries (src/allocators/stackframe.c)

Simplifications: the unwinder is replaced by the chain of frames it would produce, innermost first, each with the register
values it would give, and by how unwinding ends; `bsearch_leq_generic` is modelled by its contract for a sorted vector.
A file's frame descriptions are one table (frames in files without descriptions have no description).
-/
namespace Liballocs.StackFrame

/-- A frame description (`struct frame_allocsite_entry`): where in the code it starts to apply; the frame type, if any,
and its size (`pos_maxoff`); the distance of the described area from the frame base. -/
structure Entry where
  vaddr : Nat
  type : Option Nat
  size : Nat
  off : Nat
  deriving DecidableEq

/-- The registers of a frame; the frame pointer may be unavailable. -/
structure Frame where
  ip : Nat
  sp : Nat
  bp : Option Nat
  deriving DecidableEq

/-- How unwinding ends after the last frame: `unw_step` gave 0 (or a bad register at or above main), or an error. -/
inductive Fin
  | done
  | bad
  deriving DecidableEq

/-- Outcomes of a query. -/
inductive Res
  | ok (base : Int) (size type site : Nat)
  | higherFrame
  | topOfStack
  | stepFailure
  deriving DecidableEq

/-- Contract of `bsearch_leq_generic` on a sorted table. -/
def searchLeq (tbl : List Entry) (v : Nat) : Option Entry := (tbl.filter (fun e => decide (e.vaddr ≤ v))).getLast?

/-- `pc_to_frame_uniqtype` (src/allocators/stackframe.c:373-401): type, size, offset. -/
def pcDesc (tbl : List Entry) (ip : Nat) : Option (Nat × Nat × Nat) :=
  match searchLeq tbl ip with
  | none => none
  | some e => e.type.map (fun ty => (ty, e.size, e.off))

/-- `got_higherframe_bp && obj > higherframe_bp` (lines 256, 296), for a caller found by unwinding. -/
def skips (bp : Nat) (hbp : Option Nat) (obj : Nat) : Bool :=
  match hbp with
  | none => false
  | some b => decide (bp ≤ b) && decide (b < obj)

/-- Lines 302-337: what is decided at one frame, `none` for going on. -/
def visit (tbl : List Entry) (obj ip hsp : Nat) (skip : Bool) : Option Res :=
  if skip then none
  else match pcDesc tbl ip with
    | none => none
    | some (ty, size, off) =>
      if (hsp : Int) - off ≤ obj ∧ (obj : Int) < hsp - off + size then some (.ok (hsp - off) size ty ip)
      else if (hsp : Int) - off > obj then some .higherFrame
      else none

/-- The variable `bp` keeps its value when the frame pointer is not available (line 221). -/
def bpVar (old : Nat) (bp : Option Nat) : Nat :=
  match bp with
  | some b => b
  | none => old

/-- The loop of `get_info` (lines 210-345), `top` being `BEGINNING_OF_STACK`. -/
def walk (tbl : List Entry) (top : Nat) (fin : Fin) (obj : Nat) : Nat → List Frame → Res
  | _, [] => .topOfStack
  | _, [f] =>
    match fin with
    | .bad => .stepFailure
    | .done =>
      match visit tbl obj f.ip top (decide (top < obj)) with
      | some r => r
      | none => .topOfStack
  | old, f :: g :: rest =>
    match visit tbl obj f.ip g.sp (skips (bpVar old f.bp) g.bp obj) with
    | some r => r
    | none => if g.sp = top then .topOfStack else walk tbl top fin obj (bpVar old f.bp) (g :: rest)

/-- `get_info` (src/allocators/stackframe.c:173-354). -/
def getInfo (tbl : List Entry) (top : Nat) (fin : Fin) (obj : Nat) (fs : List Frame) : Res := walk tbl top fin obj 0 fs

end Liballocs.StackFrame
