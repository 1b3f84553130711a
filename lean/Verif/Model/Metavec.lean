/-!
# Sorted metadata vectors

`include/metavec.h`: a sorted vector of records, a bitmap of their start addresses and a coarse
"shortcut" array.  A record is represented by its address.  The three parameters are `log2_align`
(`L`), `log2_max` (`M`) and `log2_shortcut_scale` (`S`).  32-bit index truncation is not modelled
(address ranges under 4 GB).
-/
namespace Liballocs.Metavec

/-- Loop state of `generate_meta`: output records, bitmap, shortcut entries written so far, and the
last written shortcut index. -/
structure St where
  out : List Nat
  bit : Nat → Bool
  sc : Nat → Option Nat
  lastW : Option Nat

/-- `set_bit_for_addr` (include/metavec.h:109-130): the bit number for an address. -/
def bitFor (L addr0 addr : Nat) : Nat :=
  let unit := 32 * 2 ^ L
  (addr - unit * (addr0 / unit)) / 2 ^ L

/-- Writing `v` to shortcut entries `lo ..= hi` (include/metavec.h:160-171). -/
def writeSc (sc : Nat → Option Nat) (lo hi v : Nat) : Nat → Option Nat :=
  fun i => if lo ≤ i ∧ i ≤ hi then some v else sc i

/-- One iteration of the loop of `generate_meta` for a record at `a` (include/metavec.h:150-175);
`none` is the assertion failure. -/
def step (L M S addr0 : Nat) (st : St) (a : Nat) : Option St :=
  if a = 0 then some st
  else
    let st' : St := { st with out := st.out ++ [a], bit := fun i => if i = bitFor L addr0 a then true else st.bit i }
    let first : Option Nat :=
      match st.out.getLast? with
      | none => some 0
      | some l => if l / 2 ^ S = a / 2 ^ S then none else some (1 + l / 2 ^ S - addr0 / 2 ^ S)
    match first with
    | none => some st'
    | some lo =>
      let hi := a / 2 ^ S - addr0 / 2 ^ S
      if hi < lo then none
      else some { st' with sc := writeSc st.sc lo hi (st.out.length % 2 ^ M), lastW := some hi }

/-- The loop: it stops when the output buffer of `n` records is full. -/
def loop (L M S addr0 n : Nat) (st : St) : List Nat → Option St
  | [] => some st
  | a :: as =>
    if n ≤ st.out.length then some st
    else
      match step L M S addr0 st a with
      | none => none
      | some st => loop L M S addr0 n st as

/-- `generate_meta` (include/metavec.h:131-184) on the sorted input; the sentinel fill is
include/metavec.h:176-182. -/
def generate (L M S addr0 range n : Nat) (raw : List Nat) : Option St :=
  match loop L M S addr0 n ⟨[], fun _ => false, fun _ => none, none⟩ raw with
  | none => none
  | some st =>
    let from' := match st.lastW with | none => 0 | some k => k + 1
    some { st with sc := fun i => if from' ≤ i ∧ i < range / 2 ^ S then some (2 ^ M - 1) else st.sc i }

/-- `bitmap_count_set_l` (bitmap.h, contract): set bits at positions `lo ≤ i < hi`. -/
def countSet (bit : Nat → Bool) (lo hi : Nat) : Nat := ((List.range' lo (hi - lo)).filter (fun i => bit i)).length

/-- Outcome of a lookup. -/
inductive Res where
  | idx (i : Nat)
  | notFound
  | badRead
  deriving DecidableEq

/-- `meta_idx_le_addr` (include/metavec.h:185-209).  `badRead`: a read of an unwritten shortcut entry
or outside the vector. -/
def lookup (L M S addr0 : Nat) (st : St) (addr : Nat) : Res :=
  let sidx := addr / 2 ^ S - addr0 / 2 ^ S
  if sidx = 2 ^ M - 1 then .notFound
  else
    match st.sc sidx with
    | none => .badRead
    | some start =>
      match st.out[start]? with
      | none => .badRead
      | some ea =>
        if ea ≥ addr ∧ start = 0 then .notFound
        else if ea > addr then .idx (start - 1)
        else if ea = addr then .idx start
        else
          let unit := 64 * 2 ^ L
          let base := unit * (addr0 / unit)
          .idx (start + countSet st.bit (ea - base + 1) (addr - base + 1))

end Liballocs.Metavec
