/-!
# Static-object lookup (src/allocators/static-symbol.c)

Simplifications: the metavector is a list of records, each already resolved to its virtual address, size and type (symbol
table entry or relocation); `bsearch_leq_generic` is modelled by its contract: for a vector sorted by address, the last
record at or below the target.
-/
namespace Liballocs.StaticSym

/-- A metavector record (include/allocmeta.h): a symbol, or a relocation target. -/
structure Rec where
  vaddr : Nat
  size : Nat
  isReloc : Bool
  type : Nat
  deriving DecidableEq

/-- Contract of `bsearch_leq_generic` on a sorted vector. -/
def searchLeq (recs : List Rec) (t : Nat) : Option Rec := (recs.filter (fun r => decide (r.vaddr ≤ t))).getLast?

/-- `NBIGALLOCS` (include/pageindex.h). -/
def NBIGALLOCS : Nat := 32768

/-- Which big allocation is looked at: the given one, else `big_allocations[PAGENUM(obj)]`
(src/allocators/static-symbol.c:289), an index of the wrong table (`none` when out of bounds). -/
def container (given : Option Nat) (obj : Nat) : Option Nat :=
  match given with
  | some b => some b
  | none => if obj / 4096 < NBIGALLOCS then some (obj / 4096) else none

/-- `do_lookup` once the segment is known (src/allocators/static-symbol.c:299-356). -/
def doLookup (recs : List Rec) (load obj : Nat) : Option Rec :=
  match searchLeq recs (obj - load) with
  | none => none
  | some r => if obj - load > r.vaddr + r.size then none else some r

/-- What a query reports. -/
structure Info where
  base : Nat
  size : Nat
  type : Nat
  deriving DecidableEq

/-- `get_info` (src/allocators/static-symbol.c:358-382), `pb` standing for the type of uninterpreted bytes. -/
def getInfo (recs : List Rec) (load pb obj : Nat) : Option Info :=
  match doLookup recs load obj with
  | none => none
  | some r =>
    some ⟨load + r.vaddr, if r.isReloc then r.vaddr + r.size else r.size, if r.isReloc then pb else r.type⟩

end Liballocs.StaticSym
