import Verif.Model.Addrlist
/- C45: address lists record exactly what was added. -/
namespace Liballocs.Addrlist

structure Inv (s : St) (l : List Nat) : Prop where
  count : s.count = l.length
  alloc : s.store.length = s.allocsz
  fits : s.count ≤ s.allocsz
  content : s.store.take s.count = l

theorem inv_add {s l} (junk : Nat) (h : Inv s l) (a : Nat) :
    ∃ s', add junk s a = some s' ∧ Inv s' (l ++ [a]) := by
  obtain ⟨h1, h2, h3, h4⟩ := h
  unfold add
  by_cases hc : s.count = s.allocsz
  · simp only [hc, if_true, grow]
    have hlen : (s.store.take ((s.allocsz + 1) * 2) ++
        List.replicate ((s.allocsz + 1) * 2 - s.store.length) junk).length = (s.allocsz + 1) * 2 := by
      simp; omega
    have hlt : s.allocsz < (s.store.take ((s.allocsz + 1) * 2) ++
        List.replicate ((s.allocsz + 1) * 2 - s.store.length) junk).length := by omega
    rw [if_pos hlt]
    refine ⟨_, rfl, ?_, ?_, ?_, ?_⟩
    · simp; omega
    · simp; omega
    · simp; omega
    · simp only
      have hs : s.store = l := by
        rw [← h4, List.take_of_length_le]; omega
      have ht : s.store.take ((s.allocsz + 1) * 2) = s.store := List.take_of_length_le (by omega)
      rw [ht, List.take_set, List.take_append, hs]
      have : l.length = s.allocsz := by omega
      rw [List.take_of_length_le (by omega)]
      have e : List.take (s.allocsz + 1 - l.length)
          (List.replicate ((s.allocsz + 1) * 2 - l.length) junk) = [junk] := by
        rw [List.take_replicate]
        have : min (s.allocsz + 1 - l.length) ((s.allocsz + 1) * 2 - l.length) = 1 := by omega
        rw [this]; rfl
      rw [e, ← this, List.set_append]
      simp
  · simp only [hc, if_false]
    have hlt : s.count < s.store.length := by omega
    rw [if_pos hlt]
    refine ⟨_, rfl, ?_, ?_, ?_, ?_⟩
    · simp; omega
    · simp; omega
    · simp; omega
    · simp only
      rw [List.take_succ_eq_append_getElem (by simp; omega)]
      rw [List.take_set_of_le (Nat.le_refl _), h4]
      simp

theorem inv_addAll {s l} (junk : Nat) (h : Inv s l) (as : List Nat) :
    ∃ s', addAll junk s as = some s' ∧ Inv s' (l ++ as) := by
  induction as generalizing s l with
  | nil => exact ⟨s, rfl, by simpa using h⟩
  | cons a as ih =>
    obtain ⟨s1, e1, h1⟩ := inv_add junk h a
    obtain ⟨s2, e2, h2⟩ := ih h1
    exact ⟨s2, by simp [addAll, e1, e2], by simpa using h2⟩

theorem scan_spec (store : List Nat) (addr n i : Nat) (h : i + n ≤ store.length) :
    ∃ r, scan store addr i n = some r ∧
      (r = 0 → ∀ j, i ≤ j → (hj : j < i + n) → store[j] ≠ addr) ∧
      (r ≠ 0 → ∃ j, r = 1 + j ∧ i ≤ j ∧ j < i + n ∧ store[j]? = some addr ∧
        ∀ k, i ≤ k → k < j → store[k]? ≠ some addr) := by
  induction n generalizing i with
  | zero => exact ⟨0, rfl, by intro _ j h1 h2; omega, by simp⟩
  | succ n ih =>
    have hi : i < store.length := by omega
    simp only [scan, List.getElem?_eq_getElem hi]
    by_cases he : store[i] = addr
    · simp only [he, if_true]
      refine ⟨1 + i, rfl, by omega, ?_⟩
      intro _
      exact ⟨i, rfl, Nat.le_refl _, by omega, by rw [List.getElem?_eq_getElem hi, he],
        by intro k h1 h2; omega⟩
    · simp only [he, if_false]
      obtain ⟨r, h1, h2, h3⟩ := ih (i + 1) (by omega)
      refine ⟨r, h1, ?_, ?_⟩
      · intro hr j hj1 hj2
        by_cases hji : j = i
        · subst hji; exact he
        · exact h2 hr j (by omega) (by omega)
      · intro hr
        obtain ⟨j, e1, e2, e3, e4, e5⟩ := h3 hr
        refine ⟨j, e1, by omega, by omega, e4, ?_⟩
        intro k hk1 hk2
        by_cases hki : k = i
        · subst hki; rw [List.getElem?_eq_getElem hi]; simpa using he
        · exact e5 k (by omega) hk2

/-- C45: for every history of additions (with duplicates or not) starting from the empty list,
nothing goes out of bounds, the storage has room for the recorded count, membership holds exactly
for the added addresses, and a positive answer is one more than the index of the first occurrence. -/
theorem addrlist_set (junk : Nat) (as : List Nat) :
    ∃ s, addAll junk empty as = some s ∧ s.count = as.length ∧ s.count ≤ s.store.length ∧
      ∀ a, ∃ r, contains s a = some r ∧ (r ≠ 0 ↔ a ∈ as) ∧
        (r ≠ 0 → as[r - 1]? = some a ∧ ∀ k, k < r - 1 → as[k]? ≠ some a) := by
  obtain ⟨s, e, h⟩ := inv_addAll (s := empty) (l := []) junk ⟨rfl, rfl, Nat.le_refl _, rfl⟩ as
  rw [List.nil_append] at h
  refine ⟨s, e, h.count, by rw [h.alloc]; exact h.fits, ?_⟩
  intro a
  obtain ⟨r, h1, h2, h3⟩ := scan_spec s.store a s.count 0 (by rw [h.alloc]; have := h.fits; omega)
  have hget : ∀ k, k < s.count → as[k]? = s.store[k]? := by
    intro k hk
    rw [← h.content, List.getElem?_take, if_pos hk]
  refine ⟨r, h1, ⟨?_, ?_⟩, ?_⟩
  · intro hr
    obtain ⟨j, _, _, e3, e4, _⟩ := h3 hr
    rw [← hget j (by omega)] at e4
    exact List.mem_of_getElem? e4
  · intro hm hr
    obtain ⟨j, hj⟩ := List.mem_iff_getElem?.1 hm
    have hjl : j < as.length := by
      rcases Nat.lt_or_ge j as.length with h' | h'
      · exact h'
      · rw [List.getElem?_eq_none h'] at hj; simp at hj
    have hjc : j < s.count := by rw [h.count]; exact hjl
    rw [hget j hjc, List.getElem?_eq_getElem (by have := h.fits; rw [h.alloc]; omega)] at hj
    exact h2 hr j (Nat.zero_le _) (by omega) (by simpa using hj)
  · intro hr
    obtain ⟨j, e1, _, e3, e4, e5⟩ := h3 hr
    have : r - 1 = j := by omega
    rw [this]
    refine ⟨by rw [hget j (by omega)]; exact e4, ?_⟩
    intro k hk
    rw [hget k (by omega)]
    exact e5 k (Nat.zero_le _) hk

example : ∃ s, addAll 7 empty [5, 9, 5, 1] = some s ∧ contains s 5 = some 1 ∧ contains s 1 = some 4 ∧
    contains s 7 = some 0 := ⟨_, rfl, by decide⟩

end Liballocs.Addrlist
