import Verif.Model.SmallTable
/-!
# C100 The table made for a chunk has a place for every object in it
# C101 The table in memory behaves as columns of entries
-/
namespace Liballocs.SmallTable
open SmallIndex (Ent)

/-! ## Powers of two -/

theorem np2_pow (n : Nat) : ∃ k, np2 n = 2 ^ k := by
  unfold np2
  split
  · exact ⟨0, rfl⟩
  · exact ⟨_, rfl⟩

theorem np2_ge (n : Nat) : n ≤ np2 n := by
  unfold np2
  split
  · assumption
  · have := Nat.lt_log2_self (n := n - 1)
    omega

/-- `next_power_of_two_ge` is what its name says. -/
theorem np2_least (n k : Nat) (h : n ≤ 2 ^ k) : np2 n ≤ 2 ^ k := by
  unfold np2
  split
  · exact Nat.one_le_two_pow
  · rename_i hn
    apply Nat.pow_le_pow_right (by omega)
    have h0 : n - 1 ≠ 0 := by omega
    have : Nat.log2 (n - 1) < k := (Nat.log2_lt h0).2 (by omega)
    omega

theorem shr_pow (s a : Nat) : 2 ^ s >>> a = if a ≤ s then 2 ^ (s - a) else 0 := by
  rw [Nat.shiftRight_eq_div_pow]
  split
  · exact Nat.pow_div (by assumption) (by omega)
  · exact Nat.div_eq_of_lt (Nat.pow_lt_pow_right (by omega) (by omega))

theorem isPow2_pow (k : Nat) : isPow2 (2 ^ k) = true := by
  have : (2 : Nat) ^ k ≠ 0 := by have := Nat.one_le_two_pow (n := k); omega
  simp [isPow2, Nat.log2_two_pow]

theorem eight_pow (k : Nat) : 8 * 2 ^ k = 2 ^ (k + 3) := by rw [Nat.pow_add]; omega

theorem pow_lt {a b : Nat} : 2 ^ a < 2 ^ b ↔ a < b := Nat.pow_lt_pow_iff_right (by omega)

/-! ## C100 -/

theorem guess_le (avg : Nat) : guess avg ≤ 8 := by
  unfold guess
  obtain ⟨k, hk⟩ := np2_pow (if avg > 256 then 256 else avg)
  rw [hk, Nat.log2_two_pow]
  have : np2 (if avg > 256 then 256 else avg) ≤ 2 ^ 8 := np2_least _ 8 (by split <;> omega)
  rw [hk] at this
  have := (Nat.pow_le_pow_iff_right (a := 2) (by omega)).1 this
  omega

theorem pagePitch_pow {s : Nat} (hs : s ≤ 40) : pagePitch (2 ^ s) = if 9 ≤ s then 2 ^ (s - 9) else 0 := by
  unfold pagePitch LOGPAGE
  rw [eight_pow, shr_pow]
  by_cases h : 9 ≤ s
  · rw [if_pos (by omega), if_pos h, Nat.mod_eq_of_lt (pow_lt.2 (by omega)), show s + 3 - 12 = s - 9 by omega]
  · rw [if_neg (by omega), if_neg h]

theorem layer_pow {s a : Nat} (hs : s ≤ 40) (ha8 : a ≤ 8) : layer (2 ^ s) a = if 9 ≤ s then some ⟨2 ^ s, min a (s - 9), 2 ^ (s - min a (s - 9) + 3)⟩ else none := by
  unfold layer
  rw [shr_pow]
  by_cases ha : a ≤ s
  · rw [if_pos ha, eight_pow, isPow2_pow, if_pos rfl]
    by_cases h : s - a < 9
    · rw [if_pos (by show _ < 2 ^ 12; exact pow_lt.2 (by omega)), pagePitch_pow hs]
      by_cases h9 : 9 ≤ s
      · rw [if_pos h9, if_pos h9, isPow2_pow, if_pos rfl, Nat.log2_two_pow, Nat.min_eq_right (by omega : s - 9 ≤ a), show s - (s - 9) + 3 = 12 by omega]
        rfl
      · rw [if_neg h9, if_neg h9]
        rfl
    · rw [if_neg (by show ¬ _ < 2 ^ 12; rw [pow_lt]; omega), if_pos (by omega : 9 ≤ s), Nat.min_eq_left (by omega : a ≤ s - 9)]
  · rw [if_neg ha]
    rw [show isPow2 (8 * 0) = false by decide, if_neg (by simp)]
    by_cases h9 : 9 ≤ s
    · exfalso
      omega
    · rw [if_neg h9]

/-- **C100.** Exactly which chunks get a table, and its geometry: of pitch `2 ^ min a (s - 9)` if the chunk's size rounds up to `2 ^ s` and the
first object's (or 256, if it is larger) to `2 ^ a`. -/
theorem make_exact {size avg s a : Nat} (h0 : size ≠ 0) (h : np2 size = 2 ^ s) (ha : np2 (min avg 256) = 2 ^ a) (hs : s ≤ 31) :
    make size avg = if 9 ≤ s ∧ s - min a (s - 9) < 22 then some ⟨2 ^ s, min a (s - 9), 2 ^ (s - min a (s - 9) + 3)⟩ else none := by
  have hg : guess avg = a := by
    unfold guess
    rw [show (if avg > 256 then 256 else avg) = min avg 256 by split <;> omega, ha, Nat.log2_two_pow]
  have ha8 : a ≤ 8 := by rw [← hg]; exact guess_le avg
  unfold make
  rw [if_neg h0, h, hg, layer_pow (by omega) ha8]
  by_cases h9 : 9 ≤ s
  · rw [if_pos h9]
    show (if 2 ^ (s - min a (s - 9) + 3) / 8 % 2 ^ 32 < SmallIndex.MINU then _ else _) = _
    have hd : 2 ^ (s - min a (s - 9) + 3) / 8 = 2 ^ (s - min a (s - 9)) := by rw [← eight_pow]; omega
    rw [hd, Nat.mod_eq_of_lt (pow_lt.2 (by omega))]
    by_cases hb : s - min a (s - 9) < 22
    · rw [if_pos (by exact pow_lt.2 hb), if_pos (And.intro h9 hb)]
    · rw [if_neg (by show ¬ _ < 2 ^ 22; rw [pow_lt]; exact hb), if_neg (by omega)]
  · rw [if_neg h9, if_neg (by omega)]

/-- What a table is like. -/
structure Good (g : Geo) (size : Nat) : Prop where
  pos : 0 < perLayer g
  deep : 0 < nlayers g
  area : perLayer g * nlayers g = total g
  fits : size ≤ total g
  pitch : 1 <<< g.logPitch ≤ 256
  few : perLayer g < 2 ^ 22

theorem make_good {size avg : Nat} {g : Geo} (h : make size avg = some g) (hsz : size ≤ 2 ^ 31) : Good g size := by
  have h0 : size ≠ 0 := by
    intro h0
    rw [make, if_pos h0] at h
    cases h
  obtain ⟨s, hs⟩ := np2_pow size
  obtain ⟨a, ha⟩ := np2_pow (min avg 256)
  have hs31 : s ≤ 31 := by
    have := np2_least size 31 hsz
    rw [hs] at this
    exact (Nat.pow_le_pow_iff_right (a := 2) (by omega)).1 this
  rw [make_exact h0 hs ha hs31] at h
  split at h
  · rename_i hc
    cases h
    have ha8 : a ≤ 8 := by
      have := np2_least (min avg 256) 8 (by omega)
      rw [ha] at this
      exact (Nat.pow_le_pow_iff_right (a := 2) (by omega)).1 this
    have hp : perLayer ⟨2 ^ s, min a (s - 9), 2 ^ (s - min a (s - 9) + 3)⟩ = 2 ^ (s - min a (s - 9)) := by
      show (2 ^ s >>> min a (s - 9)) % 2 ^ 32 = _
      rw [shr_pow, if_pos (by omega), Nat.mod_eq_of_lt (pow_lt.2 (by omega))]
    refine ⟨?_, ?_, ?_, ?_, ?_, ?_⟩
    · rw [hp]; exact Nat.two_pow_pos _
    · show 0 < 1 <<< _
      rw [Nat.one_shiftLeft]
      exact Nat.two_pow_pos _
    · rw [hp]
      show 2 ^ (s - min a (s - 9)) * (1 <<< min a (s - 9)) = 2 ^ s
      rw [Nat.one_shiftLeft, ← Nat.pow_add, show s - min a (s - 9) + min a (s - 9) = s by omega]
    · show size ≤ 2 ^ s
      rw [← hs]
      exact np2_ge size
    · show 1 <<< min a (s - 9) ≤ 256
      rw [Nat.one_shiftLeft]
      exact Nat.pow_le_pow_right (n := 2) (i := min a (s - 9)) (j := 8) (by omega) (by omega)
    · rw [hp]; exact pow_lt.2 hc.2
  · cases h

theorem rangeBase_eq (g : Geo) (k : Nat) : rangeBase g k = k * nlayers g := by
  unfold rangeBase nlayers
  rw [Nat.shiftLeft_eq, Nat.one_shiftLeft]

theorem bucketOf_eq (g : Geo) (off : Nat) : bucketOf g off = off / nlayers g := by
  unfold bucketOf nlayers
  rw [Nat.shiftRight_eq_div_pow, Nat.one_shiftLeft]

/-- **C100.** Every byte of the chunk has its bucket in the first layer, whose range contains it, and its offset in the bucket fits its field. -/
theorem place_partial {size avg : Nat} {g : Geo} (h : make size avg = some g) (hsz : size ≤ 2 ^ 31) {off : Nat} (ho : off < size) :
    bucketOf g off < perLayer g ∧ rangeBase g (bucketOf g off) ≤ off ∧ off < rangeEnd g (bucketOf g off) ∧
      off = rangeBase g (bucketOf g off) + offsetOf g off ∧ offsetOf g off < 256 := by
  have G := make_good h hsz
  have hd := G.deep
  have hm := Nat.div_add_mod off (nlayers g)
  have hl := Nat.mod_lt off hd
  have hp : nlayers g ≤ 256 := G.pitch
  have e1 : offsetOf g off = off % nlayers g := rfl
  have e2 : rangeEnd g (bucketOf g off) = rangeBase g (bucketOf g off) + nlayers g := rfl
  rw [e2, e1, rangeBase_eq, bucketOf_eq, Nat.mul_comm (off / nlayers g)]
  refine ⟨?_, ?_, ?_, ?_, ?_⟩
  · rw [Nat.div_lt_iff_lt_mul hd, G.area]
    have := G.fits
    omega
  · omega
  · omega
  · omega
  · omega

/-- **C100.** So does the bucket in which an object of the chunk continues. -/
theorem spill_partial {size avg : Nat} {g : Geo} (h : make size avg = some g) (hsz : size ≤ 2 ^ 31) {off n : Nat} (ho : off + n ≤ size)
    (hs : rangeEnd g (bucketOf g off) < off + n) : bucketOf g off + 1 < perLayer g := by
  have G := make_good h hsz
  have e2 : rangeEnd g (bucketOf g off) = rangeBase g (bucketOf g off) + nlayers g := rfl
  rw [e2, rangeBase_eq, ← Nat.succ_mul] at hs
  apply Nat.lt_of_mul_lt_mul_right (a := nlayers g)
  rw [G.area]
  have := G.fits
  exact Nat.lt_of_lt_of_le hs (by omega)

/-- **C100.** Buckets and layers have different entries, all in the table, and the bucket can be told from the entry. -/
theorem entries_partial {size avg : Nat} {g : Geo} (h : make size avg = some g) (hsz : size ≤ 2 ^ 31) {k l : Nat} (hk : k < perLayer g) (hl : l < nlayers g) :
    k + l * perLayer g < total g ∧ bucketPtr g (k + l * perLayer g) = k ∧
      ∀ k' l', k' < perLayer g → k + l * perLayer g = k' + l' * perLayer g → k = k' ∧ l = l' := by
  have G := make_good h hsz
  refine ⟨?_, ?_, ?_⟩
  · rw [← G.area, Nat.mul_comm (perLayer g)]
    have : (l + 1) * perLayer g ≤ nlayers g * perLayer g := Nat.mul_le_mul_right _ (by omega)
    rw [Nat.succ_mul] at this
    omega
  · unfold bucketPtr
    rw [Nat.add_mul_mod_self_right, Nat.mod_eq_of_lt hk]
  · intro k' l' hk' he
    have h1 : (k + l * perLayer g) % perLayer g = (k' + l' * perLayer g) % perLayer g := by rw [he]
    rw [Nat.add_mul_mod_self_right, Nat.add_mul_mod_self_right, Nat.mod_eq_of_lt hk, Nat.mod_eq_of_lt hk'] at h1
    refine ⟨h1, ?_⟩
    subst h1
    exact Nat.eq_of_mul_eq_mul_right G.pos (by omega)

/-- **C100 fails** for chunks of at most 256 bytes: the program ends. -/
theorem small_chunk_fails {size : Nat} (avg : Nat) (h : size ≤ 256) : make size avg = none := by
  by_cases h0 : size = 0
  · simp [make, h0]
  · obtain ⟨s, hs⟩ := np2_pow size
    obtain ⟨a, ha⟩ := np2_pow (min avg 256)
    have hs8 : s ≤ 8 := by
      have := np2_least size 8 (by omega)
      rw [hs] at this
      exact (Nat.pow_le_pow_iff_right (a := 2) (by omega)).1 this
    rw [make_exact h0 hs ha (by omega), if_neg (by omega)]

/-- **C100 fails** for large chunks whose first object is small: at four million times the pitch the program ends. -/
theorem large_chunk_fails {size avg a : Nat} (ha : avg ≤ 2 ^ a) (h : 2 ^ (21 + a) < size) (hsz : size ≤ 2 ^ 31) : make size avg = none := by
  obtain ⟨s, hs⟩ := np2_pow size
  obtain ⟨b, hb⟩ := np2_pow (min avg 256)
  have hba : b ≤ a := by
    have := np2_least (min avg 256) a (by omega)
    rw [hb] at this
    exact (Nat.pow_le_pow_iff_right (a := 2) (by omega)).1 this
  have hs1 : 21 + a < s := by
    have := np2_ge size
    rw [hs] at this
    exact pow_lt.1 (Nat.lt_of_lt_of_le h this)
  have hs31 : s ≤ 31 := by
    have := np2_least size 31 hsz
    rw [hs] at this
    exact (Nat.pow_le_pow_iff_right (a := 2) (by omega)).1 this
  rw [make_exact (Nat.ne_of_gt (Nat.lt_of_le_of_lt (Nat.zero_le _) h)) hs hb hs31, if_neg (by omega)]

/-- **C100 fails** silently for a chunk of more than 2 GiB whose first object is one byte: the number of buckets is reduced to 0, which passes the
check, and all layers are one. -/
theorem huge_chunk_fails : make (2 ^ 32) 1 = some ⟨2 ^ 32, 0, 2 ^ 35⟩ ∧ perLayer ⟨2 ^ 32, 0, 2 ^ 35⟩ = 0 := by decide +kernel

/-! ## C101 -/

/-- The memory holds these columns. -/
def Rep (g : Geo) (m : Mem) (cols : Nat → List Ent) : Prop :=
  ∀ k, k < perLayer g → (cols k).length ≤ nlayers g ∧ (∀ e ∈ cols k, e.discr ≠ 0) ∧
    ∀ l, l < nlayers g →
      match (cols k)[l]? with
      | some e => m (k + l * perLayer g) = e
      | none => (m (k + l * perLayer g)).discr = 0

theorem load_in {g : Geo} {size : Nat} (G : Good g size) (m : Mem) {k l : Nat} (hk : k < perLayer g) (hl : l < nlayers g) :
    load g m (k + l * perLayer g) = some (m (k + l * perLayer g)) := by
  unfold load
  rw [if_pos]
  rw [← G.area, Nat.mul_comm (perLayer g)]
  have : (l + 1) * perLayer g ≤ nlayers g * perLayer g := Nat.mul_le_mul_right _ (by omega)
  rw [Nat.succ_mul] at this
  omega

theorem load_out {g : Geo} {size : Nat} (G : Good g size) (m : Mem) (k : Nat) : load g m (k + nlayers g * perLayer g) = none := by
  unfold load
  rw [if_neg]
  rw [← G.area, Nat.mul_comm (perLayer g)]
  omega

theorem index_inj {g : Geo} {size : Nat} (G : Good g size) {k l k' l' : Nat} (hk : k < perLayer g) (hk' : k' < perLayer g)
    (he : k + l * perLayer g = k' + l' * perLayer g) : k = k' ∧ l = l' := by
  have h1 : (k + l * perLayer g) % perLayer g = (k' + l' * perLayer g) % perLayer g := by rw [he]
  rw [Nat.add_mul_mod_self_right, Nat.add_mul_mod_self_right, Nat.mod_eq_of_lt hk, Nat.mod_eq_of_lt hk'] at h1
  refine ⟨h1, ?_⟩
  subst h1
  exact Nat.eq_of_mul_eq_mul_right G.pos (by omega)

theorem column_from {g : Geo} {size : Nat} (G : Good g size) {m : Mem} {cols : Nat → List Ent} (R : Rep g m cols) {k : Nat} (hk : k < perLayer g) (n l : Nat)
    (hn : l + n = nlayers g) (hl : l ≤ (cols k).length) :
    column g m (n + 1) (k + l * perLayer g) = if (cols k).length < nlayers g then some ((cols k).drop l) else none := by
  induction n generalizing l with
  | zero =>
    have hln : l = nlayers g := by omega
    subst hln
    rw [if_neg (by omega)]
    simp only [column, load_out G]
  | succ n ih =>
    obtain ⟨hlen, hne, hm⟩ := R k hk
    have hll : l < nlayers g := by omega
    have hml := hm l hll
    rw [column, load_in G m hk hll]
    show (if isNull (m (k + l * perLayer g)) then _ else _) = _
    cases hg : (cols k)[l]? with
    | none =>
      rw [hg] at hml
      simp only [isNull, hml, decide_true, if_true]
      have : (cols k).length ≤ l := by simpa using hg
      rw [if_pos (by omega), List.drop_eq_nil_of_le this]
    | some e =>
      rw [hg] at hml
      obtain ⟨hlt, hge⟩ := List.getElem?_eq_some_iff.1 hg
      have hmem : e ∈ cols k := by rw [← hge]; exact List.getElem_mem hlt
      have hnz := hne e hmem
      simp only at hml
      rw [hml, show isNull e = false by simp [isNull, hnz]]
      simp only [Bool.false_eq_true, if_false]
      have ih' := ih (l + 1) (by omega) (by omega)
      rw [Nat.succ_mul, ← Nat.add_assoc] at ih'
      rw [ih']
      split
      · rw [List.drop_eq_getElem_cons hlt, hge]
        rfl
      · rfl

/-- **C101.** A loop over a bucket sees its column, and runs off the table if the column is full. -/
theorem column_spec {g : Geo} {size : Nat} (G : Good g size) {m : Mem} {cols : Nat → List Ent} (R : Rep g m cols) {k : Nat} (hk : k < perLayer g) :
    column g m (nlayers g + 1) k = if (cols k).length < nlayers g then some (cols k) else none := by
  have := column_from G R hk (nlayers g) 0 (by omega) (by omega)
  simpa using this

theorem free_from {g : Geo} {size : Nat} (G : Good g size) {m : Mem} {cols : Nat → List Ent} (R : Rep g m cols) {k : Nat} (hk : k < perLayer g) (n l : Nat)
    (hn : l + n = nlayers g) (hl : l ≤ (cols k).length) :
    firstFree g m (n + 1) (k + l * perLayer g) l =
      if (cols k).length < nlayers g then some (k + (cols k).length * perLayer g, (cols k).length) else none := by
  induction n generalizing l with
  | zero =>
    have hln : l = nlayers g := by omega
    subst hln
    rw [if_neg (by omega)]
    simp only [firstFree, load_out G]
  | succ n ih =>
    obtain ⟨hlen, hne, hm⟩ := R k hk
    have hll : l < nlayers g := by omega
    have hml := hm l hll
    rw [firstFree, load_in G m hk hll]
    show (if isNull (m (k + l * perLayer g)) then _ else _) = _
    cases hg : (cols k)[l]? with
    | none =>
      rw [hg] at hml
      simp only [isNull, hml, decide_true, if_true]
      have h1 : (cols k).length ≤ l := by simpa using hg
      have h2 : (cols k).length = l := by omega
      rw [if_pos (by omega), h2]
    | some e =>
      rw [hg] at hml
      obtain ⟨hlt, hge⟩ := List.getElem?_eq_some_iff.1 hg
      have hmem : e ∈ cols k := by rw [← hge]; exact List.getElem_mem hlt
      have hnz := hne e hmem
      simp only at hml
      rw [hml, show isNull e = false by simp [isNull, hnz]]
      simp only [Bool.false_eq_true, if_false]
      have ih' := ih (l + 1) (by omega) (by omega)
      rw [Nat.succ_mul, ← Nat.add_assoc] at ih'
      exact ih'

/-- **C101.** The free entry found is the one after the column's last, if there is one. -/
theorem free_spec {g : Geo} {size : Nat} (G : Good g size) {m : Mem} {cols : Nat → List Ent} (R : Rep g m cols) {k : Nat} (hk : k < perLayer g) :
    firstFree g m (nlayers g + 1) k 0 =
      if (cols k).length < nlayers g then some (k + (cols k).length * perLayer g, (cols k).length) else none := by
  have := free_from G R hk (nlayers g) 0 (by omega) (by omega)
  simpa using this

/-- **C101.** Writing there appends to the column (an entry without a site is not there afterwards) and leaves the others alone. -/
theorem store_spec {g : Geo} {size : Nat} (G : Good g size) {m : Mem} {s : SmallIndex.St} (R : Rep g m s.cols) {k : Nat} (hk : k < perLayer g)
    (hf : (s.cols k).length < nlayers g) (e : Ent) :
    Rep g (store m (k + (s.cols k).length * perLayer g) e) (SmallIndex.push s k e).cols := by
  intro j hj
  obtain ⟨hlen, hne, hm⟩ := R j hj
  by_cases hjk : j = k
  · subst hjk
    have hc : (SmallIndex.push s j e).cols j = if e.discr = 0 then s.cols j else s.cols j ++ [e] := by simp [SmallIndex.push]
    rw [hc]
    by_cases he : e.discr = 0
    · rw [if_pos he]
      refine ⟨hlen, hne, fun l hl => ?_⟩
      have hml := hm l hl
      by_cases hll : l = (s.cols j).length
      · subst hll
        rw [List.getElem?_eq_none (Nat.le_refl _)]
        show (store m _ e _).discr = 0
        rw [store, if_pos rfl, he]
      · have : j + l * perLayer g ≠ j + (s.cols j).length * perLayer g := fun h => hll (index_inj G hj hj h).2
        have hst : store m (j + (s.cols j).length * perLayer g) e (j + l * perLayer g) = m (j + l * perLayer g) := by rw [store, if_neg this]
        rw [hst]
        exact hml
    · rw [if_neg he]
      refine ⟨by rw [List.length_append]; exact Nat.succ_le_of_lt hf, ?_, fun l hl => ?_⟩
      · intro x hx
        rcases List.mem_append.1 hx with hx | hx
        · exact hne x hx
        · rw [List.mem_singleton.1 hx]; exact he
      · have hml := hm l hl
        by_cases hll : l = (s.cols j).length
        · subst hll
          rw [List.getElem?_append_right (Nat.le_refl _), Nat.sub_self]
          show store m _ e _ = e
          rw [store, if_pos rfl]
        · have : j + l * perLayer g ≠ j + (s.cols j).length * perLayer g := fun h => hll (index_inj G hj hj h).2
          have hst : store m (j + (s.cols j).length * perLayer g) e (j + l * perLayer g) = m (j + l * perLayer g) := by rw [store, if_neg this]
          rw [hst]
          by_cases hlt : l < (s.cols j).length
          · rw [List.getElem?_append_left hlt]
            exact hml
          · rw [List.getElem?_eq_none (by rw [List.length_append]; simp; omega)]
            rw [List.getElem?_eq_none (by omega)] at hml
            exact hml
  · have hc : (SmallIndex.push s k e).cols j = s.cols j := by simp [SmallIndex.push, hjk]
    rw [hc]
    refine ⟨hlen, hne, fun l hl => ?_⟩
    have : j + l * perLayer g ≠ k + (s.cols k).length * perLayer g := fun h => hjk (index_inj G hj hk h).1
    have hst : store m (k + (s.cols k).length * perLayer g) e (j + l * perLayer g) = m (j + l * perLayer g) := by rw [store, if_neg this]
    rw [hst]
    exact hm l hl

/-- Shifting a column down from one place on. -/
theorem remove_from {g : Geo} {size : Nat} (G : Good g size) {k : Nat} (hk : k < perLayer g) (n l : Nat) (m : Mem) (c : List Ent)
    (hn : c.length = l + n + 1) (hf : c.length < nlayers g) (hne : ∀ e ∈ c, e.discr ≠ 0)
    (hm : ∀ i : Nat, l < i → i < nlayers g → match c[i]? with | some e => m (k + i * perLayer g) = e | none => (m (k + i * perLayer g)).discr = 0) :
    ∃ m', removeOne g (n + 1) m (k + l * perLayer g) = some m' ∧
      (∀ i : Nat, l ≤ i → i < nlayers g → match c[i + 1]? with | some e => m' (k + i * perLayer g) = e | none => (m' (k + i * perLayer g)).discr = 0) ∧
      ∀ x, (∀ i, l ≤ i → i < nlayers g → x ≠ k + i * perLayer g) → m' x = m x := by
  induction n generalizing l m with
  | zero =>
    have h1 := hm (l + 1) (by omega) (by omega)
    rw [List.getElem?_eq_none (by omega)] at h1
    have hld := load_in G m hk (l := l + 1) (by omega)
    rw [Nat.succ_mul, ← Nat.add_assoc] at hld h1
    refine ⟨_, by simp only [removeOne, hld]; rw [if_pos (by simpa [isNull] using h1)], ?_, ?_⟩
    · intro i hi hin
      rw [List.getElem?_eq_none (by omega)]
      show (store m _ _ _).discr = 0
      by_cases hil : i = l
      · subst hil
        rw [store, if_pos rfl]
        exact h1
      · have : k + i * perLayer g ≠ k + l * perLayer g := fun h => hil (index_inj G hk hk h).2
        rw [store, if_neg this]
        have := hm i (by omega) hin
        rw [List.getElem?_eq_none (by omega)] at this
        exact this
    · intro x hx
      rw [store, if_neg (hx l (Nat.le_refl _) (by omega))]
  | succ n ih =>
    have h1 := hm (l + 1) (by omega) (by omega)
    have hlt : l + 1 < c.length := by omega
    rw [List.getElem?_eq_getElem hlt] at h1
    simp only at h1
    have hld := load_in G m hk (l := l + 1) (by omega)
    rw [h1] at hld
    have hnz := hne _ (List.getElem_mem hlt)
    rw [Nat.succ_mul, ← Nat.add_assoc] at hld
    have hstep : removeOne g (n + 1 + 1) m (k + l * perLayer g) =
        removeOne g (n + 1) (store m (k + l * perLayer g) c[l + 1]) (k + (l + 1) * perLayer g) := by
      rw [removeOne, hld]
      show (if isNull c[l + 1] then _ else _) = _
      rw [if_neg (by simpa [isNull] using hnz), Nat.succ_mul, Nat.add_assoc]
    obtain ⟨m', hr, hm', hx'⟩ := ih (l + 1) (store m (k + l * perLayer g) c[l + 1]) (by omega) (by
      intro i hi hin
      have : k + i * perLayer g ≠ k + l * perLayer g := fun h => by have := (index_inj G hk hk h).2; omega
      have hst : store m (k + l * perLayer g) c[l + 1] (k + i * perLayer g) = m (k + i * perLayer g) := by rw [store, if_neg this]
      rw [hst]
      exact hm i (by omega) hin)
    refine ⟨m', by rw [hstep, hr], ?_, ?_⟩
    · intro i hi hin
      by_cases hil : i = l
      · subst hil
        rw [List.getElem?_eq_getElem hlt]
        show m' _ = _
        rw [hx' _ (fun j hj _ h => by have := (index_inj G hk hk h).2; omega), store, if_pos rfl]
      · exact hm' i (by omega) hin
    · intro x hx
      rw [hx' x (fun i hi hin => hx i (by omega) hin), store, if_neg (hx l (Nat.le_refl _) (by omega))]

/-- **C101.** Removing an entry closes the gap in its column and leaves the others alone. -/
theorem remove_spec {g : Geo} {size : Nat} (G : Good g size) {m : Mem} {s : SmallIndex.St} (R : Rep g m s.cols) {k l : Nat} (hk : k < perLayer g)
    (hl : l < (s.cols k).length) (hf : (s.cols k).length < nlayers g) :
    ∃ m', removeOne g (nlayers g) m (k + l * perLayer g) = some m' ∧ Rep g m' (SmallIndex.remove s k l).cols := by
  obtain ⟨hlen, hne, hm⟩ := R k hk
  obtain ⟨m', hr, hm', hx'⟩ := remove_from G hk ((s.cols k).length - l - 1) l m (s.cols k) (by omega) hf hne (fun i _ hin => hm i hin)
  have hmono : ∀ (n d : Nat) (m : Mem) (i : Nat) (m' : Mem), removeOne g n m i = some m' → removeOne g (n + d) m i = some m' := by
    intro n
    induction n with
    | zero => intro d m i m' h; cases h
    | succ n ih =>
      intro d m i m' h
      rw [Nat.add_right_comm]
      simp only [removeOne] at h ⊢
      cases hL : load g m (i + perLayer g) with
      | none => rw [hL] at h; cases h
      | some e =>
        rw [hL] at h
        simp only at h ⊢
        split
        · rename_i hn; rw [if_pos hn] at h; exact h
        · rename_i hn; rw [if_neg hn] at h; exact ih d _ _ _ h
  refine ⟨m', ?_, ?_⟩
  · have := hmono _ (nlayers g - ((s.cols k).length - l - 1 + 1)) _ _ _ hr
    rw [show (s.cols k).length - l - 1 + 1 + (nlayers g - ((s.cols k).length - l - 1 + 1)) = nlayers g by omega] at this
    exact this
  · intro j hj
    by_cases hjk : j = k
    · subst hjk
      have hc : (SmallIndex.remove s j l).cols j = (s.cols j).eraseIdx l := by simp [SmallIndex.remove]
      rw [hc]
      refine ⟨Nat.le_trans (List.length_eraseIdx_le _ _) hlen, fun e he => hne e (List.mem_of_mem_eraseIdx he), fun i hi => ?_⟩
      by_cases hil : i < l
      · rw [List.getElem?_eraseIdx_of_lt hil]
        have hst : m' (j + i * perLayer g) = m (j + i * perLayer g) :=
          hx' _ (fun i' hi' _ h => by have := (index_inj G hj hj h).2; omega)
        rw [hst]
        exact hm i hi
      · rw [List.getElem?_eraseIdx_of_ge (by omega)]
        exact hm' i (by omega) hi
    · have hc : (SmallIndex.remove s k l).cols j = s.cols j := by simp [SmallIndex.remove, hjk]
      rw [hc]
      obtain ⟨hlen', hne', hmj⟩ := R j hj
      refine ⟨hlen', hne', fun i hi => ?_⟩
      have hst : m' (j + i * perLayer g) = m (j + i * perLayer g) := hx' _ (fun i' _ _ h => hjk (index_inj G hj hk h).1)
      rw [hst]
      exact hmj i hi

/-- **C101.** A fresh mapping holds empty columns. -/
theorem fresh_rep (g : Geo) : Rep g (fun _ => ⟨0, 0, 0⟩) (fun _ => []) := by
  intro k _
  refine ⟨Nat.zero_le _, ?_, ?_⟩
  · simp
  · intro l _
    rfl

/-! ### Concrete cases -/

/-- A chunk of 64000 bytes whose first object has 24 bytes: 2048 buckets of 32 bytes. -/
example : make 64000 24 = some ⟨65536, 5, 16384⟩ := by decide +kernel

/-- A chunk of 5000 bytes: 512 buckets of 16 bytes, whatever the first object. -/
example : make 5000 200 = some ⟨8192, 4, 4096⟩ := by decide +kernel

/-- 32 MiB of 8-byte objects are too many. -/
example : make (2 ^ 25) 8 = none ∧ make (2 ^ 24) 8 ≠ none := by decide +kernel

/-- Byte 1000 of the chunk of 5000 bytes; two entries in its bucket, the first is removed. -/
example : bucketOf ⟨8192, 4, 4096⟩ 1000 = 62 ∧ offsetOf ⟨8192, 4, 4096⟩ 1000 = 8 ∧
    (firstFree ⟨8192, 4, 4096⟩ (fun i => if i = 62 then ⟨7, 0, 8⟩ else ⟨0, 0, 0⟩) 17 62 0 = some (574, 1)) ∧
    ((removeOne ⟨8192, 4, 4096⟩ 16 (fun i => if i = 62 then ⟨7, 0, 8⟩ else if i = 574 then ⟨9, 8, 8⟩ else ⟨0, 0, 0⟩) 62).map (fun m => (m 62, m 574))) =
      some (⟨9, 8, 8⟩, ⟨0, 0, 0⟩) := by decide +kernel

end Liballocs.SmallTable
