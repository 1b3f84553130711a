import Verif.Model.Fill
/-
C01: the page-index fill writes exactly the requested entries.
-/
namespace Liballocs.Fill

/-- Specification, independent of the implementation: entry `j` after setting the `n` entries
starting at `i` to `v`. -/
def filled (m : PIdx) (i n : Nat) (v : BitVec 16) : PIdx :=
  fun j => if i ≤ j ∧ j < i + n then v else m j

theorem wcharVal_lo (v : BitVec 16) : (wcharVal v).extractLsb' 0 16 = v := by
  unfold wcharVal
  ext k hk
  have h1 : k < 32 := by omega
  simp [BitVec.getElem_extractLsb', hk, h1]

theorem wcharVal_hi (v : BitVec 16) : (wcharVal v).extractLsb' 16 16 = v := by
  unfold wcharVal
  ext k hk
  have h1 : 16 + k < 32 := by omega
  have h2 : ¬ (16 + k < 16) := by omega
  simp [BitVec.getElem_extractLsb', h1, h2]
  exact BitVec.getLsbD_eq_getElem hk

theorem wmemset_eq (m : PIdx) (i : Nat) (v : BitVec 16) (k : Nat) :
    wmemset m i (wcharVal v) k = filled m i (2 * k) v := by
  induction k generalizing m i with
  | zero => funext j; simp [wmemset, filled]; omega
  | succ k ih =>
    rw [wmemset, ih]
    funext j
    simp only [filled, storeW, store, wcharVal_lo, wcharVal_hi]
    grind

theorem fillFrom_exact {debug : Bool} {m m' : PIdx} {i n : Nat} {num old : BitVec 16}
    (h : fillFrom debug m i num old n = some m') : m' = filled m i n num := by
  unfold fillFrom at h
  simp only [wmemset_eq] at h
  have hd := Nat.div_add_mod n 2
  split at h
  · simp at h
  split at h
  · simp at h
  · split at h
    · split at h
      · injection h with h; subst h
        funext j; simp only [store, filled]; grind
      · simp at h
    · injection h with h; subst h
      funext j; simp only [filled]; grind

/-- **C01.**  Whenever the fill completes, the resulting page index is exactly the old one with the
`n` entries from `i` set to `num`: every alignment, every parity, every length. -/
theorem fill_exact (debug : Bool) (maxPages : Nat) (m m' : PIdx) (i n : Nat) (num old : BitVec 16)
    (h : memsetBigalloc debug maxPages m i num old n = some m') :
    m' = filled m i n num := by
  unfold memsetBigalloc at h
  split at h
  · simp at h
  · split at h
    · split at h
      · rw [fillFrom_exact h]
        funext j; simp only [store, filled]; grind
      · simp at h
    · exact fillFrom_exact h

theorem checkRange_true {debug : Bool} {old : BitVec 16} {m : PIdx} {k i : Nat}
    (h : ∀ j, i ≤ j → j < i + k → checkLoc debug old (m j) = true) :
    checkRange debug m old i k = true := by
  induction k generalizing i with
  | zero => rfl
  | succ k ih =>
    simp only [checkRange, Bool.and_eq_true]
    exact ⟨h i (by omega) (by omega), ih (fun j h1 h2 => h j (by omega) (by omega))⟩

theorem fillFrom_completes {debug : Bool} {m : PIdx} {i n : Nat} {num old : BitVec 16}
    (ha : n = 0 ∨ i % 2 = 0) (h : ∀ j, i ≤ j → j < i + n → checkLoc debug old (m j) = true) :
    ∃ m', fillFrom debug m i num old n = some m' := by
  unfold fillFrom
  rw [if_neg (by omega)]
  rw [wmemset_eq, checkRange_true h]
  by_cases hp : n % 2 = 1
  · have h1 : ¬ (i ≤ i + (n - 1) ∧ i + (n - 1) < i + 2 * (n / 2)) := by omega
    have c3 : checkLoc debug old (filled m i (2 * (n / 2)) num (i + (n - 1))) = true := by
      simp only [filled, h1, if_false]
      exact h _ (by omega) (by omega)
    simp [hp, c3]
  · simp [hp]

/-- **C01 (totality).**  The fill completes for every length within the sanity bound when
the entries to be overwritten hold only zero or the expected previous owner (so the debug checks
pass), or when the debug checks are compiled out. -/
theorem fill_completes (debug : Bool) (maxPages : Nat) (m : PIdx) (i n : Nat) (num old : BitVec 16)
    (hn : n ≤ maxPages)
    (hold : debug = false ∨ ∀ j, i ≤ j → j < i + n → m j = 0#16 ∨ m j = old) :
    memsetBigalloc debug maxPages m i num old n = some (filled m i n num) := by
  have chk : ∀ j, i ≤ j → j < i + n → checkLoc debug old (m j) = true := by
    intro j h1 h2
    rcases hold with h | h
    · simp [checkLoc, h]
    · rcases h j h1 h2 with h | h <;> simp [checkLoc, h]
  suffices hs : ∃ m', memsetBigalloc debug maxPages m i num old n = some m' by
    obtain ⟨m', hm'⟩ := hs
    rw [hm', fill_exact _ _ _ _ _ _ _ _ hm']
  unfold memsetBigalloc
  have hn' : ¬ n > maxPages := by omega
  rw [if_neg hn']
  split
  · rename_i hh
    rw [if_pos (chk i (by omega) (by omega))]
    apply fillFrom_completes (by omega)
    intro j h1 h2
    have : j ≠ i := by omega
    simp only [store, this, if_false]
    exact chk j (by omega) (by omega)
  · exact fillFrom_completes (by omega) chk

theorem checkRange_false {old : BitVec 16} {m : PIdx} {k i j : Nat} (hj : i ≤ j ∧ j < i + k)
    (h : checkLoc true old (m j) = false) : checkRange true m old i k = false := by
  induction k generalizing i with
  | zero => omega
  | succ k ih =>
    simp only [checkRange, Bool.and_eq_false_iff]
    by_cases c : j = i
    · left; rw [← c]; exact h
    · right; exact ih (by omega)

/-- **C01 (checking).**  With checks compiled in and a definite previous owner, a fill over any entry
that is neither zero nor the previous owner's is refused, wherever in the range that entry is. -/
theorem fill_checked (maxPages : Nat) (m : PIdx) (i n j : Nat) (num old : BitVec 16) (h0 : old ≠ 0#16) (hw : old ≠ 0xffff#16)
    (hj : i ≤ j ∧ j < i + n) (hbad : m j ≠ 0#16 ∧ m j ≠ old) : memsetBigalloc true maxPages m i num old n = none := by
  have hc : checkLoc true old (m j) = false := by simp [checkLoc, hw, hbad]
  unfold memsetBigalloc
  split
  · rfl
  · split
    · by_cases c : j = i
      · rw [← c, hc]; rfl
      · split
        · unfold fillFrom
          rw [if_neg (by omega), if_pos]
          refine ⟨hw, h0, checkRange_false (j := j) (by omega) ?_⟩
          simpa only [store, c, if_false] using hc
        · rfl
    · unfold fillFrom
      split
      · rfl
      · rw [if_pos ⟨hw, h0, checkRange_false hj hc⟩]

/-- **C01 (no expectation).**  With the wildcard for the previous owner, nothing is checked. -/
theorem fill_wildcard (debug : Bool) (maxPages : Nat) (m : PIdx) (i n : Nat) (num : BitVec 16) (hn : n ≤ maxPages) :
    memsetBigalloc debug maxPages m i num 0xffff#16 n = some (filled m i n num) := by
  have chk : ∀ (m : PIdx) j, checkLoc debug 0xffff#16 (m j) = true := by intro m j; simp [checkLoc]
  suffices hs : ∃ m', memsetBigalloc debug maxPages m i num 0xffff#16 n = some m' by
    obtain ⟨m', hm'⟩ := hs
    rw [hm', fill_exact _ _ _ _ _ _ _ _ hm']
  unfold memsetBigalloc
  rw [if_neg (by omega)]
  split
  · rw [if_pos (chk m i)]
    exact fillFrom_completes (by omega) (fun j _ _ => chk _ j)
  · exact fillFrom_completes (by omega) (fun j _ _ => chk _ j)

/-- Asking for more pages than the sanity bound is refused. -/
theorem fill_insane (debug : Bool) (maxPages : Nat) (m : PIdx) (i n : Nat) (num old : BitVec 16) (hn : maxPages < n) :
    memsetBigalloc debug maxPages m i num old n = none := by
  unfold memsetBigalloc; rw [if_pos hn]

/-- Non-vacuity: an odd start, an even number of remaining entries and a leftover at the end. -/
example : (memsetBigalloc true 100 (fun _ => 7#16) 3 9#16 7#16 4).map
    (fun m => [m 2, m 3, m 4, m 5, m 6, m 7]) = some [7, 9, 9, 9, 9, 7] := by decide

end Liballocs.Fill
