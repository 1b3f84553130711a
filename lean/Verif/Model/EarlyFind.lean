import Verif.Model.Brk
/-!
# Looking up an address before system calls are trapped (src/pageindex.c:1121-1194)

Until then the break may have moved without notice, so an address that is not indexed is searched for downwards.

Simplifications: there is a mapping that the break allocation is in, which is at the top level; of other mappings just the indexed pages are
given. A second allocation has been made (the first is the library's own heap), so the mmap allocator is not set up from here. Page
numbers are naturals below 2^64, their difference wraps.
-/
namespace Liballocs.EarlyFind
open Brk

/-- Whether `pageindex[p]` is not 0: `others` gives the pages of other mappings. -/
def indexed (s : State) (others : Nat → Bool) (p : Nat) : Bool := (decide (s.mapB ≤ p * PAGE) && decide (p * PAGE < s.mapE)) || others p

/-- `MAX_BRK_PAGES_TO_SEARCH` (src/pageindex.c:1143). -/
def LIMIT : Nat := 128

/-- The search downwards from page `start`, now at the given page (src/pageindex.c:1144-1149). The distance is unsigned. -/
def back (idx : Nat → Bool) (start : Nat) : Nat → Nat
  | 0 => 0
  | p + 1 =>
    if idx (p + 1) then p + 1
    else if (p + 1 + 2 ^ 64 - start) % 2 ^ 64 > LIMIT then p + 1
    else back idx start p

/-- Whether an allocation of the break allocator is found from the root for `a`, on an indexed page (src/pageindex.c:1175-1190):
the one within the mapping. -/
def inBrk (s : State) (others : Nat → Bool) (a : Nat) : Bool :=
  !others (a / PAGE) && decide (s.brkB ≤ a) && decide (a < s.brkE)

/-- The beginning of `find_bigalloc_recursive` without a start (src/pageindex.c:1130-1170): whether the address's page is indexed in the end;
`early` until system calls are trapped, `cur` is what `sbrk(0)` gives. None if an assertion fails. -/
def find (early : Bool) (r : Run) (others : Nat → Bool) (cur addr : Nat) : Option (Run × Bool) :=
  if indexed r.st others (addr / PAGE) then some (r, true)
  else if !early then some (r, false)
  else
    let p := back (indexed r.st others) (addr / PAGE) (addr / PAGE)
    if indexed r.st others p && inBrk r.st others (p * PAGE + (PAGE - 1)) then
      match notify r cur cur with
      | none => none
      | some r' => some (r', indexed r'.st others (addr / PAGE))
    else some (r, false)

end Liballocs.EarlyFind
