import Verif.Model.Mmap
import Verif.Props.Munmap
/-! # Notification of mmap and mremap: supporting lemmas -/
namespace Liballocs.MapSeq

/-- A mapping that starts inside the sequence and reaches past its end is refused or fails the
consistency check. -/
theorem augment_unfit (obj : Nat → Nat) {s : Seq} {r : Req} (hs : Good s) (hr : 0 < r.begin ∧ r.begin < r.end)
    (hfit : ¬ Fits s r) : augment obj s r = .ret false s ∨ augment obj s r = .assertFail := by
  have hsane : s.nused = 0 ∨ Run s := by rcases hs.2 with ⟨z, _⟩ | h; exact Or.inl z; exact Or.inr h
  simp only [Fits, not_or] at hfit
  obtain ⟨hf1, hf2, hf3⟩ := hfit
  have hrun : Run s := by rcases hsane with h | h; exact absurd h hf3; exact h
  have hp := hrun.pos
  have hlast := hrun.nonempty (s.nused - 1) (by omega)
  have hle := hrun.last
  unfold augment
  rw [(sane_iff s).2 hsane]
  simp only [Bool.not_true, Bool.false_eq_true, if_false]
  by_cases c1 : ((isClean s r || overlaps s.begin s.end r.begin r.end) && decide (r.begin ≥ s.begin) && s.nused != MAXLEN) = true
  · rw [if_pos c1]
    simp only [Bool.and_eq_true, bne_iff_ne, ne_eq, decide_eq_true_eq, Bool.or_eq_true] at c1
    obtain ⟨⟨c1a, c1b⟩, c1c⟩ := c1
    have c2 : ¬ isClean s r = true := by
      simp only [isClean, Bool.or_eq_true, beq_iff_eq, not_or]; exact ⟨by omega, hf2⟩
    rw [if_neg c2]
    have hov : overlaps s.begin s.end r.begin r.end = true := by
      rcases c1a with h | h
      · exact absurd h c2
      · exact h
    simp only [overlaps, decide_eq_true_eq] at hov
    obtain ⟨i, i1, i2, i3⟩ := hrun.locate r.begin c1b (by omega)
    have ovi : overlaps (s.slots i).begin (s.slots i).end r.begin r.end = true := by
      simp only [overlaps, decide_eq_true_eq]; omega
    have ovk : overlaps (s.slots (s.nused - 1)).begin (s.slots (s.nused - 1)).end r.begin r.end = true := by
      simp only [overlaps, decide_eq_true_eq]; omega
    obtain ⟨f, f1, f2, f3, f4⟩ := find?_range (p := fun i => overlaps (s.slots i).begin (s.slots i).end r.begin r.end)
      (show i < MAXLEN by have := hs.1; omega) ovi
    obtain ⟨l, l1, l2, l3, l4, l5⟩ := find?_range_rev (p := fun i => overlaps (s.slots i).begin (s.slots i).end r.begin r.end)
      (show s.nused - 1 < s.nused by omega) ovk
    have e1 : firstOv s r = some f := f1
    have e2 : lastOv s r = some l := l1
    have hl : l = s.nused - 1 := by omega
    have hep : ((s.slots l).end != r.end) = true := by
      rw [bne_iff_ne]; rw [hl]; omega
    unfold augmentOverlap
    rw [e1, e2]
    simp only
    rw [hep]
    cases hbp : ((s.slots f).begin != r.begin)
    all_goals
      by_cases c4 : nameOkOverlap obj s r f l ((s.slots f).begin != r.begin) true = true
      · rw [hbp] at c4
        rw [c4]
        simp only [Bool.not_true, Bool.false_eq_true, if_false]
        split
        · rw [finish_ok hsane]; exact Or.inl rfl
        · rename_i hroom
          obtain ⟨g1, g2, g3, g4, g5, g6, g7⟩ := final_slots s r f l ((s.slots f).begin != r.begin) true (by omega) l3
            _ _ _ _ _ rfl rfl rfl rfl rfl
          simp only [hbp] at g1 g2 g3 g4 g5 g6 g7
          have hM : MAXLEN = 8 := rfl
          simp only [Bool.toNat_true, Bool.toNat_false, Bool.false_eq_true, if_true, if_false] at g1 g2 g3 g4 g5 g6 g7 hroom ⊢
          rw [if_neg (by omega), if_neg (by omega)]
          right
          unfold finish
          rw [if_neg]
          intro hsn
          rcases (sane_iff _).1 hsn with h | h
          · omega
          · have hn := h.nonempty _ (Nat.sub_one_lt (by omega))
            have ht := g7 _ (Nat.sub_one_lt (by omega))
            rw [ht] at hn
            unfold target at hn
            rw [if_neg (by omega), if_neg (by simp; try omega), if_neg (by simp; omega), if_pos ⟨rfl, by simp; omega⟩] at hn
            simp only at hn
            rw [hl] at hn
            omega
      · rw [hbp] at c4
        rw [Bool.not_eq_true] at c4
        rw [c4]
        simp only [Bool.not_false, if_true]
        rw [finish_ok hsane]; exact Or.inl rfl
  · rw [if_neg c1, finish_ok hsane]; exact Or.inl rfl

end Liballocs.MapSeq

namespace Liballocs.Munmap
open MapSeq

theorem lookup_subst {st : List Mapping} {b : Mapping} (hw : Wf st) (hb : b ∈ st) (repl : List Mapping)
    (h1 : ∀ m ∈ repl, ∀ n ∈ st, n.begin ≠ b.begin → Disj n m) (a : Nat) :
    lookup (subst st b repl) a =
      if b.begin ≤ a ∧ a < b.end then lookup repl a else (lookup repl a).or (lookup st a) := by
  obtain ⟨A, B, hst, hd, hs⟩ := mem_split hw hb
  rw [hs, lookup_append, lookup_append]
  have hst' : lookup st a = (lookup A a).or ((lookup [b] a).or (lookup B a)) := by
    rw [hst, show A ++ b :: B = A ++ ([b] ++ B) from rfl, lookup_append, lookup_append]
  by_cases c : b.begin ≤ a ∧ a < b.end
  · rw [if_pos c]
    have hA : lookup A a = none := by
      rw [lookup_none]; intro m hm
      have := (hd m (by simp [hm])).1
      unfold Disj at this; omega
    have hB : lookup B a = none := by
      rw [lookup_none]; intro m hm
      have := (hd m (by simp [hm])).1
      unfold Disj at this; omega
    rw [hA, hB]
    cases lookup repl a <;> rfl
  · rw [if_neg c]
    have hb : lookup [b] a = none := by
      rw [lookup_none]; intro m hm
      rw [List.mem_singleton] at hm
      rw [hm]; exact c
    rw [hst', hb]
    cases hr : lookup repl a with
    | none => simp
    | some m =>
      obtain ⟨x1, x2, x3⟩ := lookup_mem hr
      have hA : lookup A a = none := by
        rw [lookup_none]; intro n hn
        have := h1 m x1 n (by rw [hst]; simp [hn]) (hd n (by simp [hn])).2
        unfold Disj at this; omega
      rw [hA]; rfl

theorem subst_wf' {st : List Mapping} {b : Mapping} (hw : Wf st) (hb : b ∈ st) (repl : List Mapping)
    (h0 : ∀ m ∈ repl, MWf m) (h1 : ∀ m ∈ repl, ∀ n ∈ st, n.begin ≠ b.begin → Disj n m) (h2 : repl.Pairwise Disj) :
    Wf (subst st b repl) := by
  obtain ⟨A, B, hst, hd, hs⟩ := mem_split hw hb
  rw [hs]
  have hp := List.pairwise_append.1 (hst ▸ hw.disj)
  have hpB := List.pairwise_cons.1 hp.2.1
  have hrep : ∀ m ∈ repl, ∀ n ∈ A ++ B, Disj n m := by
    intro m hm n hn
    exact h1 m hm n (by rw [hst]; simp only [List.mem_append, List.mem_cons] at hn ⊢; rcases hn with h | h <;> simp [h]) (hd n hn).2
  constructor
  · intro m hm
    rcases List.mem_append.1 hm with h | h
    · exact hw.each m (by rw [hst]; simp [h])
    · rcases List.mem_append.1 h with h | h
      · exact h0 m h
      · exact hw.each m (by rw [hst]; simp [h])
  · rw [List.pairwise_append]
    refine ⟨hp.1, ?_, ?_⟩
    · rw [List.pairwise_append]
      refine ⟨h2, hpB.2, ?_⟩
      intro m hm n hn
      have := hrep m hm n (by simp [hn])
      unfold Disj at *; omega
    · intro m hm n hn
      rcases List.mem_append.1 hn with h | h
      · exact hrep n h m (by simp [hm])
      · exact hp.2.2 m hm n (List.mem_cons_of_mem _ h)

/-- Replacing a mapping by itself changes nothing. -/
theorem subst_self {st : List Mapping} {b : Mapping} (hw : Wf st) (hb : b ∈ st) : subst st b [b] = st := by
  obtain ⟨A, B, hst, _, hs⟩ := mem_split hw hb
  rw [hs, hst]; rfl

theorem Wf.inj {st : List Mapping} (hw : Wf st) {m n : Mapping} (hm : m ∈ st) (hn : n ∈ st) {a : Nat}
    (h1 : m.begin ≤ a ∧ a < m.end) (h2 : n.begin ≤ a ∧ a < n.end) : m = n := by
  obtain ⟨A, B, hst, hd, _⟩ := mem_split hw hm
  rw [hst] at hn
  simp only [List.mem_append, List.mem_cons] at hn
  rcases hn with h | h | h
  · have := (hd n (by simp [h])).1
    unfold Disj at this; omega
  · exact h.symm
  · have := (hd n (by simp [h])).1
    unfold Disj at this; omega

theorem lookup_of_mem {st : List Mapping} (hw : Wf st) {b : Mapping} (hb : b ∈ st) {a : Nat} (h : b.begin ≤ a ∧ a < b.end) :
    lookup st a = some b := by
  cases hl : lookup st a with
  | none => exact absurd h (lookup_none.1 hl b hb)
  | some m =>
    obtain ⟨x1, x2⟩ := lookup_mem hl
    rw [hw.inj x1 hb x2 h]

end Liballocs.Munmap
