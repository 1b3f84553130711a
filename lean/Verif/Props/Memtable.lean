import Verif.Model.Memtable
/- C17: memory-table addressing round-trips. -/
namespace Liballocs.Memtable

/-- The address range a table covers. -/
def Covered (t : T) (a : Nat) : Prop :=
  if t.aend = t.abegin then t.abegin = 0 ∧ a < 2 ^ 64 else t.abegin ≤ a ∧ a < t.aend

/-- Two addresses lie in the same granule when no granule boundary `abegin + k * cov` separates
them. -/
def SameGranule (t : T) (a b : Nat) : Prop :=
  ∀ k, t.abegin + k * t.cov ≤ a ↔ t.abegin + k * t.cov ≤ b

theorem same_granule_iff (t : T) (a b : Nat) (hc : 0 < t.cov) (ha : t.abegin ≤ a)
    (hb : t.abegin ≤ b) :
    SameGranule t a b ↔ (a - t.abegin) / t.cov = (b - t.abegin) / t.cov := by
  have key : ∀ x, t.abegin ≤ x → ∀ k, t.abegin + k * t.cov ≤ x ↔ k ≤ (x - t.abegin) / t.cov := by
    intro x hx k
    rw [Nat.le_div_iff_mul_le hc]; omega
  constructor
  · intro h
    apply Nat.le_antisymm
    · rw [← key b hb, ← h, key a ha]; exact Nat.le_refl _
    · rw [← key a ha, h, key b hb]; exact Nat.le_refl _
  · intro h k
    rw [key a ha, key b hb, h]

/-- C17.  For every table that the creation routine accepts, every covered address maps to an entry
inside the table's mapping; the entry maps back to the start of the granule containing the address;
the offset is the distance from there; and two covered addresses share an entry exactly when they
are in the same granule. -/
theorem memtable_roundtrip (t : T) (size : Nat) (hes : 0 < t.es) (hs : mappingSize t = some size)
    (a b : Nat) (ha : Covered t a) (hb : Covered t b) :
    ∃ e f base, addr t a = some e ∧ addr t b = some f ∧
      t.table ≤ e ∧ e + t.es ≤ t.table + size ∧ (e - t.table) % t.es = 0 ∧
      addrRangeBase t a = some base ∧ base ≤ a ∧ a < base + t.cov ∧
      (∃ k, base = t.abegin + k * t.cov) ∧
      addrRangeOffset t a = some (a - base) ∧
      (e = f ↔ SameGranule t a b) := by
  unfold mappingSize at hs
  split at hs
  · simp at hs
  rename_i hk
  simp only [Classical.not_not] at hk
  obtain ⟨k, hk32, hk⟩ := hk
  have hc : 0 < t.cov := by rw [hk]; exact Nat.pow_pos (by decide)
  have hcov : ∀ x, Covered t x → t.abegin ≤ x ∧ (t.aend = 0 ∨ x < t.aend) ∧
      ((x - t.abegin) / t.cov + 1) * t.es ≤ size := by
    intro x hx
    unfold Covered at hx
    split at hx
    · rename_i he
      rw [if_pos he] at hs
      split at hs
      · simp at hs
      · simp only [Option.some.injEq] at hs
        refine ⟨by omega, Or.inl (by omega), ?_⟩
        rw [← hs]
        apply Nat.mul_le_mul_right
        have : (x - t.abegin) / t.cov < 2 ^ 64 / t.cov := by
          rw [Nat.div_lt_iff_lt_mul hc, Nat.div_mul_cancel]
          · omega
          · rw [hk]; exact Nat.pow_dvd_pow 2 (by omega)
        omega
    · rename_i he
      rw [if_neg he] at hs
      split at hs
      · simp at hs
      · split at hs
        · rename_i hm
          simp only [Option.some.injEq] at hs
          refine ⟨hx.1, Or.inr hx.2, ?_⟩
          rw [← hs]
          apply Nat.mul_le_mul_right
          have : (x - t.abegin) / t.cov < (t.aend - t.abegin) / t.cov := by
            rw [Nat.div_lt_iff_lt_mul hc, Nat.div_mul_cancel (Nat.dvd_of_mod_eq_zero hm)]
            omega
          omega
        · simp at hs
  obtain ⟨ha1, ha2, ha3⟩ := hcov a ha
  obtain ⟨hb1, hb2, hb3⟩ := hcov b hb
  have ea : addr t a = some (t.table + t.es * ((a - t.abegin) / t.cov)) := by
    unfold addr index; rw [if_pos ⟨ha1, ha2⟩]
  have eb : addr t b = some (t.table + t.es * ((b - t.abegin) / t.cov)) := by
    unfold addr index; rw [if_pos ⟨hb1, hb2⟩]
  have hback : entryRangeBase t (t.table + t.es * ((a - t.abegin) / t.cov)) =
      (a - t.abegin) / t.cov * t.cov + t.abegin := by
    unfold entryRangeBase
    rw [Nat.add_sub_cancel_left, Nat.mul_div_cancel_left _ hes]
  have hdm := Nat.div_add_mod (a - t.abegin) t.cov
  have hml := Nat.mod_lt (a - t.abegin) hc
  rw [Nat.mul_comm] at hdm
  refine ⟨_, _, (a - t.abegin) / t.cov * t.cov + t.abegin, ea, eb, by omega, ?_, ?_, ?_, ?_, ?_,
    ?_, ?_, ?_⟩
  · rw [Nat.add_mul, Nat.one_mul, Nat.mul_comm] at ha3; omega
  · rw [Nat.add_sub_cancel_left, Nat.mul_mod_right]
  · unfold addrRangeBase; rw [ea, Option.map_some, hback]
  · omega
  · omega
  · exact ⟨(a - t.abegin) / t.cov, by omega⟩
  · unfold addrRangeOffset addrRangeBase; rw [ea, Option.map_some, Option.map_some, hback]
  · rw [same_granule_iff t a b hc ha1 hb1]
    constructor
    · intro h
      exact Nat.eq_of_mul_eq_mul_left hes (by omega)
    · intro h; rw [h]

/-- C17, sizing: a table is accepted exactly for a power-of-two coverage below 2^32 that divides the
range (and, for the whole address space, is more than one byte), and its mapping then holds exactly
one entry per granule. -/
theorem mapping_size_exact (t : T) (size : Nat) : mappingSize t = some size ↔
    ∃ k, k < 32 ∧ t.cov = 2 ^ k ∧
      ((t.abegin = t.aend ∧ 0 < k ∧ ∃ n, n * t.cov = 2 ^ 64 ∧ size = n * t.es) ∨
        (t.abegin < t.aend ∧ ∃ n, n * t.cov = t.aend - t.abegin ∧ size = n * t.es)) := by
  unfold mappingSize
  by_cases hk : ∃ k, k < 32 ∧ t.cov = 2 ^ k
  · rw [if_neg (fun h => h hk)]
    obtain ⟨k, hk32, hk⟩ := hk
    have hc : 0 < t.cov := by rw [hk]; exact Nat.pow_pos (by decide)
    have hdiv : t.cov ∣ 2 ^ 64 := by rw [hk]; exact Nat.pow_dvd_pow 2 (by omega)
    have uniq : ∀ k', t.cov = 2 ^ k' → k' = k := fun k' h => (Nat.pow_right_inj (a := 2) (by decide)).1 (by rw [← h, ← hk])
    have hone : t.cov = 1 ↔ k = 0 := by
      rw [hk]; constructor
      · intro h; exact (Nat.pow_right_inj (a := 2) (by decide)).1 h
      · intro h; rw [h]
    by_cases he : t.aend = t.abegin
    · rw [if_pos he]
      by_cases h1 : t.cov = 1
      · rw [if_pos h1]
        constructor
        · intro h; cases h
        · rintro ⟨k', _, hk', h | h⟩
          · have := uniq k' hk'; have := hone.1 h1; omega
          · omega
      · rw [if_neg h1, Option.some.injEq]
        constructor
        · intro h
          have : k ≠ 0 := fun h => h1 (hone.2 h)
          exact ⟨k, hk32, hk, Or.inl ⟨he.symm, by omega, 2 ^ 64 / t.cov, Nat.div_mul_cancel hdiv, h.symm⟩⟩
        · rintro ⟨k', _, _, ⟨_, _, n, hn, h⟩ | h⟩
          · rw [h, ← hn, Nat.mul_div_cancel _ hc]
          · omega
    · rw [if_neg he]
      by_cases hl : t.aend < t.abegin
      · rw [if_pos hl]
        constructor
        · intro h; cases h
        · rintro ⟨k', _, _, h | h⟩ <;> omega
      · rw [if_neg hl]
        by_cases hm : (t.aend - t.abegin) % t.cov = 0
        · rw [if_pos hm, Option.some.injEq]
          constructor
          · intro h
            exact ⟨k, hk32, hk, Or.inr ⟨by omega, _, Nat.div_mul_cancel (Nat.dvd_of_mod_eq_zero hm), h.symm⟩⟩
          · rintro ⟨k', _, _, h | ⟨_, n, hn, h⟩⟩
            · omega
            · rw [h, ← hn, Nat.mul_div_cancel _ hc]
        · rw [if_neg hm]
          constructor
          · intro h; cases h
          · rintro ⟨k', _, _, h | ⟨_, n, hn, h⟩⟩
            · omega
            · exact absurd (by rw [← hn]; exact Nat.mul_mod_left n t.cov) hm
  · rw [if_pos hk]
    constructor
    · intro h; cases h
    · rintro ⟨k, h1, h2, _⟩; exact absurd ⟨k, h1, h2⟩ hk

/-- A concrete table: one 8-byte entry per 4096 bytes of a 1 MiB range. -/
example : mappingSize ⟨0x410000000000, 8, 4096, 0x10000, 0x110000⟩ = some 2048 := by
  unfold mappingSize
  rw [if_neg (by simp only [Classical.not_not]; exact ⟨12, by decide⟩)]
  decide
example : Covered ⟨0x410000000000, 8, 4096, 0x10000, 0x110000⟩ 0x12345 := by
  unfold Covered; decide

end Liballocs.Memtable
