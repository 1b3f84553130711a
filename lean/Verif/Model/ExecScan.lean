import Verif.Model.Fill
/-!
# The executable's bounds, from its program headers (src/allocators/mmap.c:1012-1075)

Simplifications: the headers are a list, at a known address; addresses are naturals, with 64-bit wrap-around where a difference
can be negative; a request to map a hole is recorded, not carried out, except that one whose size has wrapped fails, as nearly
the whole address space cannot be mapped.
-/
namespace Liballocs.ExecScan

/-- The used parts of `ElfW(Phdr)`: kinds `PT_LOAD` and `PT_PHDR` are told apart from the rest. -/
inductive Kind where
  | load
  | phdr
  | other
  deriving DecidableEq

structure Phdr where
  kind : Kind
  vaddr : Nat
  memsz : Nat

/-- `executable_load_addr` (src/allocators/mmap.c:1020-1029); `at_` is the address of the header looked at, headers have 56 bytes. -/
def loadAddr (at_ : Nat) : List Phdr → Nat
  | [] => 0
  | p :: ps => if p.kind = .phdr then (at_ + 2 ^ 64 - p.vaddr) % 2 ^ 64 else loadAddr (at_ + 56) ps

/-- What the loop over the headers carries: biggest end and its segment's start, the end of the last segment (if any), and the holes mapped
(base and size), last first. -/
structure S where
  bigEnd : Nat
  bigStart : Nat
  last : Option Nat
  holes : List (Nat × Nat)

/-- Filling the hole before a segment (src/allocators/mmap.c:1048-1060); `none` is the failed assertion. -/
def fill (base : Nat) (s : S) (p : Phdr) : Option S :=
  match s.last with
  | none => some s
  | some e =>
    if roundDown p.vaddr PAGE = e then some s
    else if roundDown p.vaddr PAGE < e then none
    else some { s with holes := (base + e, roundDown p.vaddr PAGE - e) :: s.holes }

/-- Noting the segment's end (src/allocators/mmap.c:1040-1047). -/
def note (base : Nat) (s : S) (p : Phdr) : S :=
  if roundUp (base + p.vaddr + p.memsz) PAGE > s.bigEnd then
    { s with bigEnd := roundUp (base + p.vaddr + p.memsz) PAGE, bigStart := base + p.vaddr }
  else s

/-- The loop (src/allocators/mmap.c:1030-1072). -/
def loop (base : Nat) : S → List Phdr → Option S
  | s, [] => some s
  | s, p :: ps =>
    if p.kind = .load then
      match fill base (note base s p) p with
      | none => none
      | some s => loop base { s with last := some (roundUp (p.vaddr + p.memsz) PAGE) } ps
    else loop base s ps

/-- The whole: load address, end address, start of the data segment and holes mapped, in order (src/allocators/mmap.c:1012-1075). -/
def execBounds (phAddr : Nat) (ps : List Phdr) : Option (Nat × S) :=
  match loop (loadAddr phAddr ps) ⟨0, 0, none, []⟩ ps with
  | none => none
  | some s => if s.bigEnd = 0 then none else some (loadAddr phAddr ps, s)

end Liballocs.ExecScan
