/-!
# The small-object index (src/allocators/generic_small.c)

Simplifications: addresses are offsets from the chunk's beginning (`container->begin`); the rectangular table is a
function from bucket numbers to columns, a column being the list of its non-null entries (layers are filled from 0 without
holes); a scan that runs to the null entry reads beyond the table when all layers are in use, which is outcome `none`, as
are failed assertions. The debug-build checks are made when `dbg` is set. The pitch is a number `P` (a power of two in the
code; only quotient and remainder by it are used).
-/
namespace Liballocs.SmallIndex

/-- `MINIMUM_USER_ADDRESS` (external header): 4 MiB. -/
def MINU : Nat := 2 ^ 22

/-- `struct entry` (src/allocators/generic_small.c:18-52): 48, 8 and 8 bits. -/
structure Ent where
  discr : Nat
  off : Nat
  tsz : Nat
  deriving DecidableEq

/-- `ENTRY_IS_CONTINUATION` (src/allocators/generic_small.c:55-56). -/
def Ent.isCont (e : Ent) : Bool := e.discr ≠ 0 && decide (e.discr < MINU)

/-- Pitch, number of buckets, debug build. -/
structure Cfg where
  P : Nat
  N : Nat
  dbg : Bool

/-- The table and the size of the biggest object so far (`struct chunk_rec`, src/allocators/generic_small.c:86-94). -/
structure St where
  cols : Nat → List Ent
  biggest : Nat

/-- `NLAYERS`: the column has no null entry left (src/allocators/generic_small.c:156). -/
def full (c : Cfg) (s : St) (k : Nat) : Bool := decide (c.P ≤ (s.cols k).length)

/-- The start entry with the biggest offset, and its layer (src/allocators/generic_small.c:515-531). -/
def biggestStart : List Ent → Nat → Option (Nat × Ent) → Option (Nat × Ent)
  | [], _, best => best
  | e :: es, i, best =>
    if e.isCont then biggestStart es (i + 1) best
    else match best with
      | none => biggestStart es (i + 1) (some (i, e))
      | some (j, b) => biggestStart es (i + 1) (if e.off > b.off then some (i, e) else some (j, b))

/-- `get_start_from_continuation` (src/allocators/generic_small.c:502-542) for a continuation in bucket `k`: the layer
and the address of the object's start entry, in bucket `k - 1`. -/
def startOf (c : Cfg) (s : St) (k : Nat) : Option (Nat × Nat) :=
  match k with
  | 0 => none
  | k + 1 =>
    if full c s k then none
    else (biggestStart (s.cols k) 0 none).map (fun x => (x.1, k * c.P + x.2.off))

/-- The check of one start entry against an earlier layer (src/allocators/generic_small.c:569-589). -/
def saneAgainst (e f : Ent) : Bool :=
  if f.isCont then decide (f.tsz ≠ 0)
  else !(decide (f.off + f.tsz > e.off) && decide (f.off < e.off + e.tsz))

/-- The loop of `check_bucket_sanity` over the layers (src/allocators/generic_small.c:549-592). -/
def saneFrom (c : Cfg) (s : St) (k : Nat) (seen : List Ent) : List Ent → Bool
  | [] => true
  | e :: es =>
    (if e.isCont then (startOf c s k).isSome
     else decide (e.off < c.P) && seen.all (saneAgainst e)) && saneFrom c s k (seen ++ [e]) es

/-- `check_bucket_sanity` (src/allocators/generic_small.c:544-595), nothing in release builds. -/
def check (c : Cfg) (s : St) (k : Nat) : Option Unit :=
  if c.dbg then
    if full c s k then none
    else if saneFrom c s k [] (s.cols k) then some () else none
  else some ()

/-- Result of scanning one bucket. -/
inductive Scan where
  /-- bucket and layer of the start entry, object start, reported size if any -/
  | hit (k layer start : Nat) (size : Option Nat)
  | fail
  | next
  | ub

/-- Scanning one bucket (src/allocators/generic_small.c:647-698). -/
def scan (c : Cfg) (s : St) (ptr k : Nat) (must : Bool) : List Ent → Nat → Scan
  | [], _ => if full c s k then .ub else .next
  | e :: es, i =>
    if e.isCont then
      match startOf c s k with
      | none => .ub
      | some (j, start) =>
        if start + e.discr > ptr then .hit (k - 1) j start none
        else if must then .fail
        else scan c s ptr k must es (i + 1)
    else
      if k * c.P + e.off ≤ ptr ∧ ptr < k * c.P + e.off + e.tsz then .hit k i (k * c.P + e.off) (some e.tsz)
      else scan c s ptr k must es (i + 1)

/-- A found object. -/
structure Hit where
  k : Nat
  layer : Nat
  start : Nat
  size : Option Nat
  deriving DecidableEq

/-- Continue with the bucket below, if it may hold the start (src/allocators/generic_small.c:700-706). -/
def below (c : Cfg) (s : St) (ptr k : Nat) (rest : Option (Option Hit)) : Option (Option Hit) :=
  if (k + 1) * c.P + s.biggest > ptr then rest else some none

/-- `lookup_small_alloc` (src/allocators/generic_small.c:622-707): from bucket `k` downwards. -/
def lookupFrom (c : Cfg) (s : St) (ptr : Nat) : Nat → Bool → Option (Option Hit)
  | k, must =>
    match check c s k with
    | none => none
    | some _ =>
      match scan c s ptr k must (s.cols k) 0 with
      | .ub => none
      | .hit k l st sz => some (some ⟨k, l, st, sz⟩)
      | .fail => some none
      | .next =>
        match k with
        | 0 => some none
        | k + 1 => below c s ptr k (lookupFrom c s ptr k true)

def lookup (c : Cfg) (s : St) (ptr : Nat) : Option (Option Hit) := lookupFrom c s ptr (ptr / c.P) false

/-- Write an entry in the first free layer; one whose discriminator is zero stays a null entry. -/
def push (s : St) (k : Nat) (e : Ent) : St :=
  { s with cols := fun j => if j = k then (if e.discr = 0 then s.cols k else s.cols k ++ [e]) else s.cols j }

/-- The object's size within its first bucket (src/allocators/generic_small.c:313-315). -/
def thisSize (c : Cfg) (start size : Nat) : Nat :=
  if (start + size) / c.P = start / c.P then size else c.P - start % c.P

/-- The start entry (src/allocators/generic_small.c:319-323), with its bit-field widths. -/
def startEnt (c : Cfg) (start size site : Nat) : Ent :=
  ⟨site % 2 ^ 47, start % c.P % 256, thisSize c start size % 256⟩

/-- The continuation entry (src/allocators/generic_small.c:341-354). -/
def contEnt (c : Cfg) (start size : Nat) : Ent :=
  ⟨size % 2 ^ 22, 0, (if size - thisSize c start size > c.P then 0 else size - thisSize c start size) % 256⟩

/-- Abort, or run off the table, if the condition holds. -/
def abortIf (b : Bool) : Option Unit := if b then none else some ()

/-- Recording the continuation (src/allocators/generic_small.c:328-357). -/
def addCont (c : Cfg) (s : St) (k start size : Nat) : Option St := do
  abortIf (decide (MINU ≤ k + 1))
  check c s (k + 1)
  abortIf (full c s (k + 1))
  abortIf (decide (MINU ≤ size))
  abortIf (c.dbg && !(contEnt c start size).isCont)
  check c (push s (k + 1) (contEnt c start size)) (k + 1)
  return push s (k + 1) (contEnt c start size)

/-- Does the object reach beyond its first bucket (src/allocators/generic_small.c:329)? -/
def spills (c : Cfg) (start size : Nat) : Bool := decide ((start / c.P + 1) * c.P < start + size)

/-- The continuation, if there is one to record. -/
def contStep (c : Cfg) (s : St) (start size : Nat) : Option St :=
  if spills c start size then addCont c s (start / c.P) start size else some s

/-- The debug-build lookups after insertion (src/allocators/generic_small.c:362-368). -/
def recheck (c : Cfg) (s : St) (k layer start size : Nat) : Option Unit :=
  if c.dbg then
    match lookup c s start, lookup c s (start + size - 1) with
    | some (some h), some (some h') =>
      if h.k = k ∧ h.layer = layer ∧ h'.k = k ∧ h'.layer = layer then some () else none
    | _, _ => none
  else some ()

/-- `index_small_alloc_internal` (src/allocators/generic_small.c:250-372). -/
def index (c : Cfg) (s : St) (start size site : Nat) : Option St := do
  check c s (start / c.P)
  abortIf (full c s (start / c.P))
  abortIf (decide (thisSize c start size = 0))
  check c (push s (start / c.P) (startEnt c start size site)) (start / c.P)
  let s2 ← contStep c (push s (start / c.P) (startEnt c start size site)) start size
  check c s2 (start / c.P)
  recheck c { s2 with biggest := max s2.biggest size } (start / c.P) (s.cols (start / c.P)).length start size
  return { s2 with biggest := max s2.biggest size }

/-- `remove_one_entry` (src/allocators/generic_small.c:709-720). -/
def remove (s : St) (k layer : Nat) : St :=
  { s with cols := fun j => if j = k then (s.cols k).eraseIdx layer else s.cols j }

/-- Layer of the first continuation. -/
def firstCont : List Ent → Nat → Option Nat
  | [], _ => none
  | e :: es, i => if e.isCont then some i else firstCont es (i + 1)

/-- Deleting a continuation from the next bucket (src/allocators/generic_small.c:756-769). Past the last bucket this
scans layers 1 and up of bucket 0; finding a continuation there would damage it (`none`). -/
def dropCont (c : Cfg) (s : St) (k : Nat) : Option St :=
  if k < c.N then
    match firstCont (s.cols k) 0 with
    | some i => (check c (remove s k i) k).map (fun _ => remove s k i)
    | none => if full c s k then none else some s
  else if full c s 0 then none
  else match firstCont (s.cols 0).tail 0 with
    | some _ => none
    | none => some s

/-- The same, if the removed entry had the biggest offset (src/allocators/generic_small.c:742-749). -/
def dropStep (c : Cfg) (s s1 : St) (k : Nat) (e : Ent) : Option St :=
  if (s.cols k).all (fun f => decide (f.off ≤ e.off)) then dropCont c s1 (k + 1) else some s1

/-- `unindex_small_alloc_internal_with_ent` (src/allocators/generic_small.c:736-772) for the entry at a bucket and
layer. -/
def unindexEnt (c : Cfg) (s : St) (k layer : Nat) : Option St := do
  check c s k
  let e ← (s.cols k)[layer]?
  abortIf (full c s k)
  check c (remove s k layer) k
  let s2 ← dropStep c s (remove s k layer) k e
  check c s2 k
  return s2

/-- `unindex_small_alloc_internal` (src/allocators/generic_small.c:723-734). -/
def unindex (c : Cfg) (s : St) (ptr : Nat) : Option St :=
  match lookup c s ptr with
  | some (some h) => unindexEnt c s h.k h.layer
  | _ => none

/-- Deleting the overlapping objects that start in one bucket (src/allocators/generic_small.c:402-431): on deletion the
same layer is looked at again. -/
def unindexBucket (c : Cfg) (s : St) (lo hi k : Nat) : Nat → Nat → Option St
  | 0, _ => none
  | fuel + 1, layer =>
    match (s.cols k)[layer]? with
    | none => if full c s k then none else some s
    | some e =>
      if e.isCont then unindexBucket c s lo hi k fuel (layer + 1)
      else if k * c.P + e.off < hi ∧ k * c.P + e.off + e.tsz > lo then
        match unindexEnt c s k layer with
        | none => none
        | some s' => unindexBucket c s' lo hi k fuel layer
      else unindexBucket c s lo hi k fuel (layer + 1)

/-- The loop over buckets (src/allocators/generic_small.c:392-432): from bucket `k`, `n` buckets. -/
def unindexBuckets (c : Cfg) (lo hi : Nat) : Nat → Nat → St → Option St
  | 0, _, s => some s
  | n + 1, k, s =>
    if k * c.P < hi then
      match unindexBucket c s lo hi k ((s.cols k).length + 1) 0 with
      | none => none
      | some s' => unindexBuckets c lo hi n (k + 1) s'
    else some s

/-- `unindex_all_overlapping` (src/allocators/generic_small.c:373-433). -/
def unindexOverlapping (c : Cfg) (s : St) (lo hi : Nat) : Option St :=
  match lookup c s lo with
  | none => none
  | some none => unindexBuckets c lo hi (c.N - lo / c.P) (lo / c.P) s
  | some (some h) => (unindexEnt c s h.k h.layer).bind (unindexBuckets c lo hi (c.N - lo / c.P) (lo / c.P))

end Liballocs.SmallIndex
