/-
Model of the linear index kept for the dynamic linker's malloc
(include/linear_malloc_index.h:17-90, allocsld/allocinstr.c:432-501).
-/
namespace Liballocs.LinearMalloc

/-- `struct linear_malloc_rec` (include/linear_malloc_index.h:16-21). -/
structure Rec where
  addr : Nat
  req : Nat
  pad : Nat
deriving DecidableEq, Repr

/-- `MAX_LINEAR_MALLOCS` (include/linear_malloc_index.h:40-48): (4096 - 48) / 16. -/
abbrev MAX : Nat := 253

/-- Conversion of a 64-bit difference to `int` (implicit in the return of
`compare_linear_mallocs`). -/
def toInt32 (x : Int) : Int := if x % 2 ^ 32 < 2 ^ 31 then x % 2 ^ 32 else x % 2 ^ 32 - 2 ^ 32

/-- `compare_linear_mallocs` (include/linear_malloc_index.h:50-61). -/
def cmp (r₁ r₂ : Rec) : Int :=
  if r₁.addr = 0 ∧ r₂.addr = 0 then 0
  else if r₁.addr = 0 then 1
  else if r₂.addr = 0 then -1
  else toInt32 ((r₁.addr : Int) - r₂.addr)

/-- One step of the sort. -/
def ins (r : Rec) : List Rec → List Rec
  | [] => [r]
  | x :: xs => if cmp r x ≤ 0 then r :: x :: xs else x :: ins r xs

/-- `qsort(recs, nrecs_used, ..., compare_linear_mallocs)`.  The C library's algorithm is not part
of the code under study: an insertion sort with the same comparison function stands for it.  For a
comparison function that is not a consistent order the result of `qsort` is unspecified; the
theorems only rely on it where the comparison is consistent. -/
def qsort : List Rec → List Rec
  | [] => []
  | x :: xs => ins x (qsort xs)

/-- `linear_malloc_index_insert` (allocsld/allocinstr.c:432-463) on the used records.  `none` is
the unchecked write past the record array.  The record keeps 32 bits of the size. -/
def insert (recs : List Rec) (p req : Nat) : Option (List Rec) :=
  if MAX ≤ recs.length then none else
  let real := (req + 15) / 8 * 8  -- CHUNK_SIZE_WITH_TRAILER(req, struct insert, void*)
  let r : Rec := ⟨p, req % 2 ^ 32, (real - 8 - req) % 256⟩
  let recs' := recs ++ [r]
  match recs.getLast? with
  | none => some recs'
  | some l => if p < l.addr then some (qsort recs') else some recs'

/-- `bsearch_leq_generic` over the used records: index of the last record at or below the address
(contract of the external macro, for sorted records). -/
def bsearchLeq (recs : List Rec) (a : Nat) : Option Nat :=
  match (recs.takeWhile (fun r => decide (r.addr ≤ a))).length with
  | 0 => none
  | n + 1 => some n

/-- `find_linear_malloc_rec` (include/linear_malloc_index.h:63-78), as an index. -/
def findIdx (recs : List Rec) (a : Nat) : Option Nat :=
  match bsearchLeq recs a with
  | none => none
  | some i =>
    match recs[i]? with
    | none => none
    | some r => if a < r.addr + r.req then some i else none

/-- The record `find_linear_malloc_rec` points to. -/
def find (recs : List Rec) (a : Nat) : Option Rec := (findIdx recs a).bind (fun i => recs[i]?)

/-- `linear_malloc_usable_size` (include/linear_malloc_index.h:80-90); `none` is `(size_t) -1`. -/
def usableSize (recs : List Rec) (p : Nat) : Option Nat :=
  match find recs p with
  | some r => if r.addr = p then some (r.req + r.pad) else none
  | none => none

/-- `linear_malloc_index_delete` (allocsld/allocinstr.c:464-485): null the record's address, sort,
drop the last.  `none` is the null dereference when nothing is found, or the failed assertion. -/
def delete (recs : List Rec) (p : Nat) : Option (List Rec) :=
  match findIdx recs p with
  | none => none
  | some i =>
    match recs[i]? with
    | none => none
    | some r =>
      let sorted := qsort (recs.set i { r with addr := 0 })
      match sorted.getLast? with
      | none => none
      | some l => if l.addr = 0 then some sorted.dropLast else none

/-- The events (tools/stubgen.h:344-435 instantiated at allocsld/allocinstr.c:520). -/
inductive Ev where
  | alloc (p req : Nat)
  | free (p : Nat)
  /-- successful realloc from `p` to `q` (possibly equal) -/
  | realloc (p q req : Nat)
deriving DecidableEq, Repr

def exec (recs : List Rec) : Ev → Option (List Rec)
  | .alloc p r => insert recs p r
  | .free p => delete recs p
  | .realloc p q r => (delete recs p).bind (fun l => insert l q r)

def run : List Rec → List Ev → Option (List Rec)
  | l, [] => some l
  | l, e :: es => (exec l e).bind (fun l' => run l' es)

end Liballocs.LinearMalloc
