import Verif.Model.PageIndex
/-!
# Reporting wild pointers (src/pageindex.c:608-639)

Simplifications: the text is the list of what is printed; an allocator is a number and its name is not looked up. The page index is set up.
-/
namespace Liballocs.WildReport
open PageIndex

/-- A line of the report: bounds, allocator and `allocator_private`. -/
structure Line where
  lo : Nat
  hi : Nat
  alloc : Nat
  priv : Nat
  deriving DecidableEq

/-- `__liballocs_print_l0_to_stream_err` (src/pageindex.c:608-623). -/
def printL0 (c : Config) (s : State) : List Line :=
  ((List.range' 1 (c.nb - 1)).filter (fun b => inUse s b && s.par b == 0)).map (fun b => ⟨s.beg b, s.fin b, s.alloc b, s.priv b⟩)

/-- `ROUND_DOWN_PTR` and `ROUND_UP_PTR` with the page size (external macros), on 64-bit words. -/
def roundDownW (p : Nat) : Nat := p / 4096 * 4096
def roundUpW (p : Nat) : Nat := (if p % 4096 = 0 then p else p / 4096 * 4096 + 4096) % 2 ^ 64

/-- `__liballocs_report_wild_address` (src/pageindex.c:626-639): the pointer and the lines, or nothing. -/
def report (c : Config) (s : State) (p : Nat) : Option (Nat × List Line) :=
  if roundDownW p = 0 ∨ roundUpW p = 0 then none else some (p, printL0 c s)

end Liballocs.WildReport
