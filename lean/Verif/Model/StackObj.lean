import Verif.Model.FrameTypes
import Verif.Model.Unwind
import Verif.Model.InnerType
/-!
# Queries of local variables, from memory and loaded files (src/allocators/stackframe.c, src/query.c)

The frame query of `StackFrame` with unwinding in memory (`Unwind`) and with the descriptions of all loaded files, followed by the descent into the frame's type (`InnerType`).

Simplifications: as in those models. The file bigalloc that contains a code address is found as the lookup's contract says. The query is dispatched to this allocator because the address is in the stack;
frame types have no `make_precise` (tools/frametypes.cpp writes none).
-/
namespace Liballocs.StackObj

open StackFrame (Entry Res)

/-- A loaded file: where it is, its load address, and its `frames_info`. -/
structure LoadedFile where
  lo : Nat
  hi : Nat
  base : Nat
  frames : Option (List Entry)

/-- `init_frames_info` (src/allocators/stackframe.c:357-371): the metadata object, if it was loaded, may have the table, whose symbol has a size; `esz` is an entry's size. -/
def initFrames (esz : Nat) : Option (Option (Nat × List Entry)) → Option (List Entry)
  | none => none
  | some none => none
  | some (some (size, tbl)) => some (tbl.take (size / esz))

/-- The file of a code address (src/allocators/stackframe.c:377-379). -/
def fileAt (files : List LoadedFile) (ip : Nat) : Option LoadedFile := files.find? fun f => decide (f.lo ≤ ip ∧ ip < f.hi)

/-- `pc_to_frame_uniqtype` (src/allocators/stackframe.c:373-401): type, size, offset. -/
def describe (files : List LoadedFile) (ip : Nat) : Option (Nat × Nat × Nat) :=
  match fileAt files ip with
  | none => none
  | some f =>
    match f.frames with
    | none => none
    | some tbl => StackFrame.pcDesc tbl ((ip + (2 ^ 64 - f.base)) % 2 ^ 64)

/-- What is decided at one frame (src/allocators/stackframe.c:296-337), `none` for going on. -/
def visit (d : Nat → Option (Nat × Nat × Nat)) (obj ip hsp : Nat) (skip : Bool) : Option Res :=
  if skip then none
  else match d ip with
    | none => none
    | some (ty, size, off) =>
      if (hsp : Int) - off ≤ obj ∧ (obj : Int) < hsp - off + size then some (.ok (hsp - off) size ty ip)
      else if (hsp : Int) - off > obj then some .higherFrame
      else none

/-- The last frame, above which is the beginning of the stack (src/allocators/stackframe.c:267-274). -/
def last (d : Nat → Option (Nat × Nat × Nat)) (obj ip top : Nat) : Res :=
  match visit d obj ip top (decide (top < obj)) with
  | some r => r
  | none => .topOfStack

/-- The loop (src/allocators/stackframe.c:210-345) as in `StackFrame.walk`, stepping in memory; `none` if a step faults or there are too many. -/
def walk (mem : Unwind.Mem) (d : Nat → Option (Nat × Nat × Nat)) (top obj : Nat) : Nat → Nat → Unwind.Cursor → Option Res
  | 0, _, _ => none
  | n + 1, old, c =>
    let bp := StackFrame.bpVar old (if c.bp = 0 then none else some c.bp)
    match Unwind.step mem c with
    | .crash => none
    | .failed => some .stepFailure
    | .stop => some (last d obj c.ip top)
    | .moved g ret =>
      if 0 < ret then
        match visit d obj c.ip g.sp (StackFrame.skips bp (if g.bp = 0 then none else some g.bp) obj) with
        | some r => some r
        | none => if g.sp = top then some .topOfStack else walk mem d top obj n bp g
      else if ret = 0 then some (last d obj c.ip top) else some .stepFailure

/-- `get_info` (src/allocators/stackframe.c:173-354). -/
def getInfo (mem : Unwind.Mem) (files : List LoadedFile) (top obj fuel : Nat) (c : Unwind.Cursor) : Option Res := walk mem (describe files) top obj fuel 0 c

/-- `__liballocs_get_innermost_type` (src/query.c:101-144) of an address in the stack. -/
def innermost (env : Subobject.Env) (mem : Unwind.Mem) (files : List LoadedFile) (top obj fuel : Nat) (c : Unwind.Cursor) (depth : Nat) : InnerType.Out :=
  match getInfo mem files top obj fuel c with
  | none => .crash
  | some (.ok base size ty _) => InnerType.getInner env (fun _ => none) depth (.ok base.toNat size ty) obj 0
  | some _ => InnerType.getInner env (fun _ => none) depth .err obj 0

end Liballocs.StackObj
