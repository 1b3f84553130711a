/-
Model of the page-index fill routine `memset_bigalloc` (src/pageindex.c:173-254).
-/
namespace Liballocs

/-- `PAGE_SIZE` (src/liballocs_private.h:9). -/
abbrev PAGE : Nat := 4096

/-- `ROUND_DOWN(a, n)` (external vas.h macro; used throughout src/pageindex.c).
Modelled over unbounded naturals: user addresses are below 2^47, so no wrap-around occurs. -/
def roundDown (a n : Nat) : Nat := a / n * n

/-- `ROUND_UP(a, n)` (external vas.h macro).  Same simplification as `roundDown`. -/
def roundUp (a n : Nat) : Nat := (a + (n - 1)) / n * n

/-- `PAGENUM(a)` (external vas.h macro: `a >> LOG_PAGE_SIZE`). -/
def pagenum (a : Nat) : Nat := a / PAGE

/-- `PAGE_DIST(first, second)` (src/pageindex.c:540-544). -/
def pageDist (first second : Nat) : Nat :=
  if pagenum second > pagenum first then pagenum second - pagenum first else 0

namespace Fill

/-- The page index: one 16-bit entry per page (src/pageindex.c:170), as a total function
of the page number.  Simplification: the table's finite extent (2^35 entries) is not modelled. -/
abbrev PIdx := Nat → BitVec 16

/-- A single 16-bit store `*p = v`. -/
def store (m : PIdx) (i : Nat) (v : BitVec 16) : PIdx := fun j => if j = i then v else m j

/-- The doubled value `((wchar_t) num) << 16 | num` (src/pageindex.c:209). -/
def wcharVal (num : BitVec 16) : BitVec 32 := (num.zeroExtend 32 <<< 16) ||| num.zeroExtend 32

/-- One 32-bit little-endian store at entry `i`: low half to entry `i`, high half to `i+1`. -/
def storeW (m : PIdx) (i : Nat) (w : BitVec 32) : PIdx :=
  store (store m i (w.extractLsb' 0 16)) (i + 1) (w.extractLsb' 16 16)

/-- `wmemset((wchar_t *) begin, w, k)` starting at entry `i` (src/pageindex.c:238). -/
def wmemset (m : PIdx) (i : Nat) (w : BitVec 32) : Nat → PIdx
  | 0 => m
  | k + 1 => wmemset (storeW m i w) (i + 2) w k

/-- `CHECK_LOC` (src/pageindex.c:191-197): passes when checks are disabled, when `old_num` is
the wildcard `(bigalloc_num_t)-1`, or when the entry is zero or `old_num`. -/
def checkLoc (debug : Bool) (old loc : BitVec 16) : Bool :=
  !debug || old == 0xffff#16 || loc == 0#16 || loc == old

/-- The debug loop over the range (src/pageindex.c:213-237). -/
def checkRange (debug : Bool) (m : PIdx) (old : BitVec 16) (i : Nat) : Nat → Bool
  | 0 => true
  | k + 1 => checkLoc debug old (m i) && checkRange debug m old (i + 1) k

/-- The part of `memset_bigalloc` after the ragged head: debug check of the range, doubled words,
ragged tail (src/pageindex.c:206-247).  `none` is `abort()` or the failed alignment assertion (without
which the 32-bit stores would be misaligned). -/
def fillFrom (debug : Bool) (m : PIdx) (i : Nat) (num old : BitVec 16) (n : Nat) : Option PIdx :=
  -- alignment assertion (line 206)
  if n ≠ 0 ∧ i % 2 ≠ 0 then none else
  -- debug check of the range (lines 214-237)
  if old ≠ 0xffff#16 ∧ old ≠ 0#16 ∧ checkRange debug m old i n = false then none else
  -- doubled words (line 238)
  let m₂ := wmemset m i (wcharVal num) (n / 2)
  -- ragged tail (lines 241-246)
  if n % 2 = 1 then
    if checkLoc debug old (m₂ (i + (n - 1))) then some (store m₂ (i + (n - 1)) num) else none
  else some m₂

/-- `memset_bigalloc(begin, num, old_num, n)` (src/pageindex.c:173-254).
`i` is the entry index of `begin`; the table itself is 4-byte aligned, so `begin % sizeof(wchar_t)`
is nonzero exactly when `i` is odd.  `maxPages` is `BIGGEST_SANE_USER_ALLOC >> LOG_PAGE_SIZE`
(external vas.h constant).  `none` is `abort()`. -/
def memsetBigalloc (debug : Bool) (maxPages : Nat) (m : PIdx) (i : Nat) (num old : BitVec 16)
    (n : Nat) : Option PIdx :=
  if n > maxPages then none
  -- ragged head (lines 200-205)
  else if n > 0 ∧ i % 2 ≠ 0 then
    if checkLoc debug old (m i) then fillFrom debug (store m i num) (i + 1) num old (n - 1) else none
  else fillFrom debug m i num old n

end Fill
end Liballocs
