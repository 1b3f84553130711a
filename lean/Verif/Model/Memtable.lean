/-
Model of memory-table addressing (include/memtable.h:69-304).
Simplification throughout: unbounded naturals.  The C code computes `addr - addr_begin` as a signed
64-bit difference; covered addresses are user-space addresses below 2^63, so it does not wrap.
`addr_begin = addr_end = 0` means the whole 64-bit address space.
-/
namespace Liballocs.Memtable

/-- The parameters every memtable function takes: the table's own address, entry size, coverage of
one entry, and the covered address range. -/
structure T where
  table : Nat
  es : Nat
  cov : Nat
  abegin : Nat
  aend : Nat
deriving DecidableEq, Repr

/-- `memtable_mapping_size` (include/memtable.h:69-96).  `none` is a failed assertion or the
undefined shift `1ULL << 64` (coverage 1 of the whole address space). `log2` is given the exponent
because the coverage is asserted to be a power of two. -/
def mappingSize (t : T) : Option Nat :=
  if ¬ (∃ k, k < 32 ∧ t.cov = 2 ^ k) then none else
  if t.aend = t.abegin then
    if t.cov = 1 then none else some (2 ^ 64 / t.cov * t.es)
  else if t.aend < t.abegin then none
  else if (t.aend - t.abegin) % t.cov = 0 then some ((t.aend - t.abegin) / t.cov * t.es) else none

/-- `memtable_index` (include/memtable.h:217-226). -/
def index (t : T) (i : Nat) : Nat := t.table + t.es * i

/-- `memtable_addr` (include/memtable.h:231-242).  `none` is the failed assertion. -/
def addr (t : T) (a : Nat) : Option Nat :=
  if t.abegin ≤ a ∧ (t.aend = 0 ∨ a < t.aend) then some (index t ((a - t.abegin) / t.cov)) else none

/-- `memtable_entry_range_base` (include/memtable.h:248-264). -/
def entryRangeBase (t : T) (e : Nat) : Nat := (e - t.table) / t.es * t.cov + t.abegin

/-- `memtable_addr_range_base` (include/memtable.h:271-288). -/
def addrRangeBase (t : T) (a : Nat) : Option Nat := (addr t a).map (entryRangeBase t)

/-- `memtable_addr_range_offset` (include/memtable.h:294-304). -/
def addrRangeOffset (t : T) (a : Nat) : Option Nat := (addrRangeBase t a).map (fun b => a - b)

end Liballocs.Memtable
