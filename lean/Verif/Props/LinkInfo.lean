import Verif.Model.LinkInfo
import Verif.Model.CcArgs
/-!
# C181 A callback can tell from its link what it has been called for
-/
namespace Liballocs.LinkInfo

open Walk CcArgs

/-! ## Specification -/

/-- Pointers leave room for the flags: the table of big allocations and the types are aligned, no type is in the table, and
entries have a size. -/
structure Fits (T : Table) (k flags : Nat) (types : Nat → Option Ty) : Prop where
  flags : flags < 2 ^ k
  base : 2 ^ k ∣ T.base
  size : 2 ^ k ∣ T.size
  pos : 0 < T.size
  apart : ∀ t, (types t).isSome → 2 ^ k ∣ t ∧ (t < T.base ∨ T.base + T.num * T.size ≤ t)

/-- The position is one a walk comes to: a big allocation in use has a number from 1 on, and a type is there. -/
def Real (T : Table) (types : Nat → Option Ty) : Pos → Prop
  | .big _ i => 0 < i ∧ i < T.num
  | .typed _ t => (types t).isSome

/-- A composite type whose members all have names. -/
def Named (ty : Ty) : Prop :=
  match ty with
  | .composite ms ns => ∃ l, ns = some l ∧ l.length = ms.length
  | _ => True

/-- The name of the subobject with number `i` from 0. -/
def nameOf (ty : Ty) (i : Nat) : Res (List Char) :=
  match ty with
  | .composite _ (some ns) => (ns[i]?).elim .fault .val
  | _ => .null

/-! ## Proofs -/

theorem strip_add {k p f : Nat} (hp : 2 ^ k ∣ p) (hf : f < 2 ^ k) : strip k (p + f) = p := by
  obtain ⟨q, rfl⟩ := hp
  unfold strip
  rw [Nat.mul_add_div (Nat.two_pow_pos k), Nat.div_eq_of_lt hf, Nat.add_zero, Nat.mul_comm]

theorem div_entry {T : Table} {k : Nat} (h1 : 2 ^ k ∣ T.base) (h2 : 2 ^ k ∣ T.size) (i : Nat) : 2 ^ k ∣ T.base + i * T.size :=
  Nat.dvd_add h1 (Nat.dvd_trans h2 (Nat.dvd_mul_left _ _))

/-- The word of a container says which of the two it is, and gives it back, whatever the flags. -/
theorem decode {T : Table} {k flags : Nat} {types : Nat → Option Ty} (h : Fits T k flags types) {p : Pos} (hp : Real T types p) :
    match p with
    | .big _ i => isBig T k (encode T flags p) = true ∧ bigOf T k (encode T flags p) = i
    | .typed _ t => isBig T k (encode T flags p) = false ∧ strip k (encode T flags p) = t := by
  cases p with
  | big b i =>
    have hs : strip k (encode T flags (.big b i)) = T.base + i * T.size := strip_add (div_entry h.base h.size i) h.flags
    obtain ⟨h1, h2⟩ := hp
    have hpos := h.pos
    refine ⟨?_, ?_⟩
    · unfold isBig
      rw [hs, Bool.and_eq_true, decide_eq_true_iff, decide_eq_true_iff]
      have ha : 1 * T.size ≤ i * T.size := Nat.mul_le_mul_right _ h1
      have hb : (i + 1) * T.size ≤ T.num * T.size := Nat.mul_le_mul_right _ h2
      rw [Nat.add_mul] at hb
      omega
    · unfold bigOf
      rw [hs, Nat.add_sub_cancel_left, Nat.mul_div_cancel _ hpos]
  | typed b t =>
    obtain ⟨h1, h2⟩ := h.apart t hp
    have hs : strip k (encode T flags (.typed b t)) = t := strip_add h1 h.flags
    refine ⟨?_, hs⟩
    unfold isBig
    rw [hs, Bool.and_eq_false_iff, decide_eq_false_iff_not, decide_eq_false_iff_not]
    omega

theorem index_succ {w i : Nat} (h : i + 1 < 2 ^ 32) : index ⟨w, i + 1⟩ = i := by
  unfold index
  dsimp only
  omega

/-- The callbacks of a walk over an object: one for each subobject, with its number. -/
theorem mem_raws {w : World} {base t : Nat} {r : Raw} (hr : r ∈ subobjRaws w base t) :
    ∃ (i : Nat) (x : Nat × Nat), (w.subobjs t)[i]? = some x ∧ r = ⟨none, base + x.1, some x.2, .typed base t, i + 1⟩ := by
  obtain ⟨⟨x, i⟩, h1, h2⟩ := List.mem_map.mp hr
  exact ⟨i, x, List.mem_zipIdx_iff_getElem?.mp h1, h2.symm⟩

/-- C181, partly: when an object that has a type is walked, each callback can tell from its link the type of the object (the
upper type), the type of the subobject (the lower type, which is what it is given as well), and, in a composite type, the name of
the member. What is missing: members without names, where asking is a fault (`nameless_fails`), and chunks of big
allocations, of which the link tells nothing (`chunk_never`). -/
theorem link_partial {T : Table} {k flags : Nat} {types : Nat → Option Ty} (h : Fits T k flags types) {w : World}
    (hw : ∀ t, w.subobjs t = subobjects types t) {base t : Nat} {ty : Ty} (ht : types t = some ty) (hn : Named ty)
    (hlen : (w.subobjs t).length < 2 ^ 32) {r : Raw} (hr : r ∈ subobjRaws w base t) :
    ∃ i, r.coord = i + 1 ∧ i < (w.subobjs t).length ∧ upper T k (linkOf T flags r) = .val t ∧
      (∃ u, r.t = some u ∧ lower T k types (linkOf T flags r) = .val u) ∧ fieldName T k types (linkOf T flags r) = nameOf ty i := by
  obtain ⟨i, x, hx, rfl⟩ := mem_raws hr
  have hi : i < (w.subobjs t).length := (List.getElem?_eq_some_iff.mp hx).1
  have hd := decode h (p := .typed base t) (by simp only [Real, ht, Option.isSome_some])
  dsimp only at hd
  have hix : ∀ v, index ⟨v, i + 1⟩ = i := fun v => index_succ (by omega)
  refine ⟨i, rfl, hi, ?_, ⟨x.2, rfl, ?_⟩, ?_⟩
  · unfold upper linkOf
    dsimp only
    rw [hd.1, hd.2]
    rfl
  · rw [hw] at hx
    unfold subobjects at hx
    rw [ht] at hx
    unfold lower linkOf
    dsimp only
    rw [hd.1, hd.2, ht]
    cases ty with
    | composite ms ns =>
      dsimp only at hx ⊢
      unfold field
      dsimp only
      rw [hd.1, hd.2, ht, hix]
      dsimp only
      rw [hx]
      rfl
    | array e n sz =>
      dsimp only at hx ⊢
      unfold element
      dsimp only
      rw [hd.1, hd.2, ht]
      rw [List.getElem?_map] at hx
      cases hj : (List.range n)[i]? with
      | none => rw [hj] at hx; cases hx
      | some j =>
        rw [hj] at hx
        rw [← Option.some.inj hx]
        rfl
    | other => dsimp only at hx; cases hx
  · unfold fieldName linkOf
    dsimp only
    rw [hd.1, hd.2, ht]
    cases ty with
    | composite ms ns =>
      obtain ⟨l, rfl, hl⟩ := hn
      dsimp only
      rw [hix]
      simp only [nameOf]
      cases l[i]? <;> simp
    | array e n sz => rfl
    | other => rfl

/-- The name is there: the one in the place of the member. -/
theorem name_there {T : Table} {k flags : Nat} {types : Nat → Option Ty} (h : Fits T k flags types) {w : World}
    (hw : ∀ t, w.subobjs t = subobjects types t) {base t : Nat} {ms : List (Nat × Nat)} {ns : List (List Char)}
    (ht : types t = some (.composite ms (some ns))) (hl : ns.length = ms.length) (hlen : ms.length < 2 ^ 32) {r : Raw}
    (hr : r ∈ subobjRaws w base t) :
    ∃ (i : Nat) (m : Nat × Nat) (n : List Char), ms[i]? = some m ∧ ns[i]? = some n ∧ r.obj = base + m.1 ∧ r.t = some m.2 ∧ fieldName T k types (linkOf T flags r) = .val n := by
  have hms : w.subobjs t = ms := by rw [hw]; unfold subobjects; rw [ht]
  obtain ⟨i, h1, h2, _, _, h5⟩ := link_partial h hw ht ⟨ns, rfl, hl⟩ (by rw [hms]; exact hlen) hr
  obtain ⟨j, x, hx, rfl⟩ := mem_raws hr
  have hij : j = i := Nat.succ.inj h1
  subst hij
  rw [hms] at hx h2
  refine ⟨j, x, ns[j]'(by omega), hx, List.getElem?_eq_getElem _, rfl, rfl, ?_⟩
  rw [h5, nameOf, List.getElem?_eq_getElem (by omega)]
  rfl

/-! ## Where it goes wrong -/

/-- Of a chunk of a big allocation, the link gives neither type nor name, though the callback is given a type for it. -/
theorem chunk_never {T : Table} {k flags : Nat} {types : Nat → Option Ty} (h : Fits T k flags types) (w : World) {b : Nat} (c : Chunk)
    (hb : 0 < b ∧ b < T.num) :
    lower T k types (linkOf T flags (chunkRaw w b c)) = .null ∧ upper T k (linkOf T flags (chunkRaw w b c)) = .null ∧
      fieldName T k types (linkOf T flags (chunkRaw w b c)) = .null := by
  have hd := decode h (p := .big (w.bigs b).begin b) hb
  dsimp only at hd
  unfold lower upper fieldName linkOf chunkRaw
  dsimp only
  rw [hd.1]
  exact ⟨rfl, rfl, rfl⟩

/-- A composite type without names, as the types of frames are (only tools/alloctypes.cpp:166 and tools/pervasive-types.cpp:122
ask for names to be written): asking for the name is a fault. -/
theorem nameless_fails {T : Table} {k flags : Nat} {types : Nat → Option Ty} (h : Fits T k flags types) {base t : Nat}
    {ms : List (Nat × Nat)} (ht : types t = some (.composite ms none)) (i : Nat) :
    fieldName T k types ⟨encode T flags (.typed base t), i⟩ = .fault := by
  have hd := decode h (p := .typed base t) (by simp only [Real, ht, Option.isSome_some])
  dsimp only at hd
  unfold fieldName
  dsimp only
  rw [hd.1, hd.2, ht]
  rfl

/-- With coordinate 0, which a container has before it is walked (src/walk.c:190), the entry before the first is asked for: a fault. -/
theorem zero_fails {T : Table} {k flags : Nat} {types : Nat → Option Ty} (h : Fits T k flags types) {base t : Nat}
    {ms : List (Nat × Nat)} {ns : Option (List (List Char))} (ht : types t = some (.composite ms ns)) (hlen : ms.length < 2 ^ 32 - 1) :
    lower T k types ⟨encode T flags (.typed base t), 0⟩ = .fault := by
  have hd := decode h (p := .typed base t) (by simp only [Real, ht, Option.isSome_some])
  dsimp only at hd
  have hi : ∀ v, index ⟨v, 0⟩ = 2 ^ 32 - 1 := fun _ => by unfold index; dsimp only
  unfold lower field
  dsimp only
  rw [hd.1, hd.2, ht, hi]
  dsimp only
  rw [List.getElem?_eq_none (by omega)]
  rfl

/-! ## Cases -/

/-- A structure of a number and an array of two, and that array. -/
def exTypes : Nat → Option Ty
  | 0x5000 => some (.composite [(0, 0x5100), (8, 0x5200)] (some [w! "len", w! "body"]))
  | 0x5100 => some .other
  | 0x5200 => some (.array 0x5100 2 4)
  | _ => none

def exTable : Table := ⟨0x1000, 64, 16⟩

def exWorld : World := ⟨fun _ => ⟨0, 0, [], 0, none, []⟩, subobjects exTypes⟩

/-- What is asked of the links in a walk over an object at 0x9000. -/
def exAsk (t : Nat) : List (Nat × Res Nat × Res Nat × Res (List Char)) :=
  (subobjRaws exWorld 0x9000 t).map (fun r =>
    (r.obj, upper exTable 3 (linkOf exTable 5 r), lower exTable 3 exTypes (linkOf exTable 5 r), fieldName exTable 3 exTypes (linkOf exTable 5 r)))

theorem case_link : exAsk 0x5000 = [(0x9000, .val 0x5000, .val 0x5100, .val (w! "len")), (0x9008, .val 0x5000, .val 0x5200, .val (w! "body"))] ∧
    exAsk 0x5200 = [(0x9000, .val 0x5200, .val 0x5100, .null), (0x9004, .val 0x5200, .val 0x5100, .null)] ∧ exAsk 0x5100 = [] := by
  refine ⟨?_, ?_, ?_⟩ <;> decide +kernel

/-- The first and the last of the table's entries, and what is beside them. -/
theorem case_table : isBig exTable 3 0x1047 = true ∧ isBig exTable 3 0x103f = false ∧ isBig exTable 3 0x13ff = true ∧ isBig exTable 3 0x1400 = false ∧
    bigOf exTable 3 0x13c5 = 15 := by decide +kernel

end Liballocs.LinkInfo
