/-
Model of `emulated_sbrk` (src/dlmalloc-ext.c:277-302), the program-break emulation under the
private no-mmap heap.
-/
namespace Liballocs.Sbrk

/-- The static state: `emulated_curbrk` (null until the first call). -/
structure St where
  curbrk : BitVec 64
deriving DecidableEq, Repr

/-- `emulated_sbrk(increment)` for the arena `[base, limit)` (src/dlmalloc-ext.c:280-302).
The second component is the return value: the old break, or none for `(void*) -1`. -/
def sbrk (base limit : BitVec 64) (s : St) (inc : BitVec 64) : St × Option (BitVec 64) :=
  -- line 282
  let cur := if s.curbrk = 0#64 then base else s.curbrk
  -- line 286
  let req := cur + inc
  -- lines 287-288 (`increment` is signed, the breaks are unsigned)
  let flowed := (0 < inc.toInt ∧ req.toNat < cur.toNat) ∨ (inc.toInt < 0 ∧ req.toNat > cur.toNat)
  if flowed then ({ curbrk := cur }, none) else
  -- lines 291-293
  let newBrk := if 0 < inc.toInt then (if limit.toNat < req.toNat then limit else req)
                else (if base.toNat > req.toNat then base else req)
  if newBrk = req then ({ curbrk := req }, some cur) else ({ curbrk := cur }, none)

/-- A history of calls, with the results. -/
def run (base limit : BitVec 64) : St → List (BitVec 64) → St × List (Option (BitVec 64))
  | s, [] => (s, [])
  | s, i :: is =>
    let r := sbrk base limit s i
    let r' := run base limit r.1 is
    (r'.1, r.2 :: r'.2)

end Liballocs.Sbrk
