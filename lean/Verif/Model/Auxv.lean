/-
Model of queries about the process start-up area (src/allocators/auxv.c:23-104).
-/
namespace Liballocs.Auxv

/-- The pointers librunt finds in the start-up area (external; used at
src/allocators/auxv.c:23-104). Each vector is given by its first element and its terminator
element; pointer elements are 8 bytes, `Elf64_auxv_t` 16. -/
structure Layout where
  argcp : Nat
  argc : Nat
  argvStart : Nat
  argvTerm : Nat
  envStart : Nat
  envTerm : Nat
  auxvStart : Nat
  auxvTerm : Nat
  asciizStart : Nat
  asciizEnd : Nat

inductive Elem where
  | auxv | charPtr | char | intptr
deriving DecidableEq, Repr

/-- A reported type: an array of `count` elements, or (for `argc`) a single `intptr_t`. -/
structure Ty where
  elem : Elem
  count : Nat
deriving DecidableEq, Repr

structure Info where
  type : Ty
  base : Nat
  size : Nat
deriving DecidableEq, Repr

/-- `init_uniqtypes` (src/allocators/auxv.c:23-35). C pointer subtraction divides by the element
size. -/
def auxvTy (l : Layout) : Ty := ⟨.auxv, (l.auxvTerm + 16 - l.auxvStart) / 16⟩
def envTy (l : Layout) : Ty := ⟨.charPtr, (l.envTerm + 8 - l.envTerm) / 8⟩
def argvTy (l : Layout) : Ty := ⟨.charPtr, l.argc + 1⟩
def asciizTy (l : Layout) : Ty := ⟨.char, l.asciizEnd - l.asciizStart⟩

/-- `get_info` (src/allocators/auxv.c:47-104).  The allocation site output is constant and left
out. -/
def getInfo (l : Layout) (a : Nat) : Option Info :=
  if l.auxvStart ≤ a ∧ a ≤ l.auxvTerm then
    some ⟨auxvTy l, l.auxvStart, (l.auxvTerm + 16 - l.auxvStart) / 16 * 16⟩
  else if l.argvStart ≤ a ∧ a ≤ l.argvTerm then
    some ⟨argvTy l, l.argvStart, (l.argvTerm + 8 - l.argvStart) / 8 * 8⟩
  else if l.envStart ≤ a ∧ a ≤ l.envTerm then
    some ⟨envTy l, l.envStart, (l.envTerm + 8 - l.envStart) / 8 * 8⟩
  else if l.asciizStart ≤ a ∧ a ≤ l.asciizEnd then
    some ⟨asciizTy l, l.asciizStart, l.asciizEnd - l.asciizStart⟩
  else if l.argcp ≤ a ∧ a ≤ l.argcp + 8 then
    some ⟨⟨.intptr, 1⟩, l.argcp, 8⟩
  else none

end Liballocs.Auxv
