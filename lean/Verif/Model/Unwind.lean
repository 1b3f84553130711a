/-!
# Unwinding by frame pointers (src/fake-libunwind.c)

Simplifications: memory is a partial map from addresses to 64-bit words (`none`: reading it faults); machine words are
natural numbers below 2^64 with wrapping made explicit. Reads are from an unchanging stack.
-/
namespace Liballocs.Unwind

/-- Words of memory by address. -/
abbrev Mem := Nat → Option Nat

/-- Machine arithmetic. -/
def wrap (n : Nat) : Nat := n % 2 ^ 64

/-- `unw_cursor_t`/`unw_context_t`: the stack pointer, frame pointer (0: not available) and instruction pointer of a frame
(include/fake-libunwind.h). -/
structure Cursor where
  sp : Nat
  bp : Nat
  ip : Nat
  deriving DecidableEq, Repr

/-- `SANE_BP_OR_NULL` (src/fake-libunwind.c:47-50). The difference of the pointers is signed: from 2^63 on it is negative. -/
def saneBp (bp sp : Nat) : Nat :=
  if sp ≤ bp ∧ (bp - sp < 0x10000 ∨ 2 ^ 63 ≤ bp - sp) then bp else 0

/-- `unw_getcontext` (src/fake-libunwind.c:53-84), called with frame address `fa`: `none` for a fault or a failed assertion. -/
def getContext (mem : Mem) (fa : Nat) : Option Cursor :=
  if fa = 0 then none
  else match mem fa, mem (wrap (fa + 8)) with
    | some bp, some ra => if bp = 0 then none else some ⟨wrap (fa + 16), saneBp bp (wrap (fa + 16)), ra⟩
    | _, _ => none

/-- Outcomes of a step: the end of the chain (0), a new cursor with the positive or negative number returned, an error (-1),
or no return at all: a failed assertion or a fault. -/
inductive Step where
  | stop
  | moved (c : Cursor) (ret : Int)
  | failed
  | crash
  deriving DecidableEq

/-- Conversion of a machine word to `int`. -/
def toInt (n : Nat) : Int := if n % 2 ^ 32 < 2 ^ 31 then ((n % 2 ^ 32 : Nat) : Int) else ((n % 2 ^ 32 : Nat) : Int) - 2 ^ 32

/-- `unw_step` (src/fake-libunwind.c:95-133). -/
def step (mem : Mem) (c : Cursor) : Step :=
  if c.bp = 0 then .stop
  else if c.bp % 8 ≠ 0 then .crash
  else match mem (wrap (c.bp + 8)), mem c.bp with
    | some ra, some bp' =>
      let sp' := wrap (c.bp + 16)
      -- the check compares the new stack pointer with itself (lines 119-123)
      if sp' ≤ wrap (sp' + (2 ^ 64 - 0x10000000)) then .failed
      else .moved ⟨sp', saneBp bp' sp', ra⟩ (toInt (wrap (sp' + (2 ^ 64 - c.sp))))
    | _, _ => .crash

/-- How a walk ends. -/
inductive Fin where
  | done
  | bad
  | crash
  deriving DecidableEq

/-- The loop of a walk to the outermost frame, as `get_info` does it (src/allocators/stackframe.c:210-345): the cursors
seen, innermost first, and how it ends; a step is taken to a frame only if its number is positive. `none`: out of steps. -/
def walk (mem : Mem) : Nat → Cursor → Option (List Cursor × Fin)
  | 0, _ => none
  | f + 1, c =>
    match step mem c with
    | .stop => some ([c], .done)
    | .failed => some ([c], .bad)
    | .crash => some ([c], .crash)
    | .moved c' ret =>
      if 0 < ret then (walk mem f c').map (fun r => (c :: r.1, r.2))
      else some ([c], if ret = 0 then .done else .bad)

end Liballocs.Unwind
