import Verif.Model.MapSeq
/-! # Mapping sequences: supporting lemmas -/
namespace Liballocs.MapSeq

/-- A run of non-empty contiguous entries from the sequence's begin to its end. -/
structure Run (s : Seq) : Prop where
  pos : 0 < s.nused
  first : s.begin = (s.slots 0).begin
  last : s.end = (s.slots (s.nused - 1)).end
  nonempty : ∀ i, i < s.nused → 0 < (s.slots i).begin ∧ (s.slots i).begin < (s.slots i).end
  contig : ∀ i, i + 1 < s.nused → (s.slots i).end = (s.slots (i + 1)).begin

theorem sane_iff (s : Seq) : sane s = true ↔ s.nused = 0 ∨ Run s := by
  unfold sane
  rw [Bool.or_eq_true, Bool.and_eq_true, Bool.and_eq_true]
  simp only [beq_iff_eq, List.all_eq_true, List.mem_range, Bool.and_eq_true, bne_iff_ne, ne_eq, decide_eq_true_eq,
    Bool.or_eq_true]
  constructor
  · rintro (h | ⟨⟨h1, h2⟩, h3⟩)
    · exact Or.inl h
    · rcases Nat.eq_zero_or_pos s.nused with h | h
      · exact Or.inl h
      · refine Or.inr ⟨h, h1, h2, ?_, ?_⟩
        · intro i hi; have := h3 i hi; omega
        · intro i hi
          have := (h3 (i + 1) hi).2
          rcases this with h | h
          · omega
          · simpa using h
  · rintro (h | h)
    · exact Or.inl h
    · refine Or.inr ⟨⟨h.first, h.last⟩, ?_⟩
      intro i hi
      obtain ⟨a, b⟩ := h.nonempty i hi
      refine ⟨by omega, ?_⟩
      rcases Nat.eq_zero_or_pos i with h' | h'
      · exact Or.inl h'
      · right
        have := h.contig (i - 1) (by omega)
        rw [this]; congr 2; omega

theorem Run.mono {s : Seq} (h : Run s) (i j : Nat) (hij : i < j) (hj : j < s.nused) :
    (s.slots i).end ≤ (s.slots j).begin := by
  induction j with
  | zero => omega
  | succ j ih =>
    have c := h.contig j hj
    rcases Nat.eq_or_lt_of_le (Nat.le_of_lt_succ hij) with e | e
    · subst e; omega
    · have := ih e (by omega)
      have := (h.nonempty j (by omega)).2
      omega

theorem Run.locate {s : Seq} (h : Run s) (a : Nat) (h1 : s.begin ≤ a) (h2 : a < s.end) :
    ∃ i, i < s.nused ∧ (s.slots i).begin ≤ a ∧ a < (s.slots i).end := by
  have key : ∀ k, k < s.nused → a < (s.slots k).end → ∃ i, i < s.nused ∧ (s.slots i).begin ≤ a ∧ a < (s.slots i).end := by
    intro k
    induction k with
    | zero => intro hk ha; exact ⟨0, hk, by have := h.first; omega, ha⟩
    | succ k ih =>
      intro hk ha
      by_cases c : (s.slots (k + 1)).begin ≤ a
      · exact ⟨k + 1, hk, c, ha⟩
      · exact ih (by omega) (by have := h.contig k hk; omega)
  have := h.pos
  exact key (s.nused - 1) (by omega) (by rw [← h.last]; exact h2)

theorem Run.unique {s : Seq} (h : Run s) {a i j : Nat} (hi : i < s.nused) (hj : j < s.nused)
    (h1 : (s.slots i).begin ≤ a ∧ a < (s.slots i).end) (h2 : (s.slots j).begin ≤ a ∧ a < (s.slots j).end) : i = j := by
  rcases Nat.lt_trichotomy i j with c | c | c
  · have := h.mono i j c hj; omega
  · exact c
  · have := h.mono j i c hi; omega

/-- What `findEntry` finds in a run. -/
theorem findEntry_run {s : Seq} (h : Run s) (a : Nat) :
    (∀ i, i < s.nused → (s.slots i).begin ≤ a → a < (s.slots i).end → findEntry s a = some (s.slots i)) ∧
    ((a < s.begin ∨ s.end ≤ a) → findEntry s a = none) := by
  unfold findEntry
  constructor
  · intro i hi h1 h2
    cases hf : ((List.range s.nused).map s.slots).find? (fun e => decide (a ≥ e.begin ∧ a < e.end)) with
    | none =>
      rw [List.find?_eq_none] at hf
      have := hf (s.slots i) (List.mem_map.2 ⟨i, List.mem_range.2 hi, rfl⟩)
      simp only [decide_eq_true_eq] at this; omega
    | some e =>
      have hm := List.mem_of_find?_eq_some hf
      have hp := List.find?_some hf
      simp only [decide_eq_true_eq] at hp
      obtain ⟨j, hj, rfl⟩ := List.mem_map.1 hm
      rw [List.mem_range] at hj
      rw [h.unique hi hj ⟨h1, h2⟩ hp]
  · intro ho
    rw [List.find?_eq_none]
    intro e he
    obtain ⟨j, hj, rfl⟩ := List.mem_map.1 he
    rw [List.mem_range] at hj
    simp only [decide_eq_true_eq]
    have a1 : s.begin ≤ (s.slots j).begin := by
      rcases Nat.eq_zero_or_pos j with e | e
      · subst e; have := h.first; omega
      · have := h.mono 0 j e hj
        have := (h.nonempty 0 (by omega)).2
        have := h.first; omega
    have a2 : (s.slots j).end ≤ s.end := by
      rcases Nat.lt_or_ge j (s.nused - 1) with e | e
      · have := h.mono j (s.nused - 1) e (by omega)
        have := (h.nonempty (s.nused - 1) (by omega)).2
        have := h.last; omega
      · have : j = s.nused - 1 := by omega
        subst this; have := h.last; omega
    omega

/-! ### The overlapped entries -/

theorem find?_range {p : Nat → Bool} {n i : Nat} (hi : i < n) (hp : p i = true) :
    ∃ f, (List.range n).find? p = some f ∧ f ≤ i ∧ p f = true ∧ ∀ j, j < f → p j = false := by
  cases hf : (List.range n).find? p with
  | none =>
    rw [List.find?_eq_none] at hf
    exact absurd hp (hf i (List.mem_range.2 hi))
  | some f =>
    refine ⟨f, rfl, ?_⟩
    rw [List.find?_range_eq_some] at hf
    obtain ⟨h1, h2, h3⟩ := hf
    have hall : ∀ j, j < f → p j = false := by
      intro j hj
      have := h3 j hj
      simpa using this
    refine ⟨?_, h1, hall⟩
    rcases Nat.lt_or_ge i f with c | c
    · rw [hall i c] at hp; cases hp
    · exact c

theorem find?_range_rev {p : Nat → Bool} {n i : Nat} (hi : i < n) (hp : p i = true) :
    ∃ l, (List.range n).reverse.find? p = some l ∧ i ≤ l ∧ l < n ∧ p l = true ∧ ∀ j, l < j → j < n → p j = false := by
  induction n with
  | zero => omega
  | succ n ih =>
    rw [List.range_succ, List.reverse_append, List.reverse_singleton, List.singleton_append, List.find?_cons]
    cases hpn : p n with
    | true =>
      exact ⟨n, rfl, by omega, by omega, hpn, fun j h1 h2 => by omega⟩
    | false =>
      have : i < n := by
        rcases Nat.lt_or_ge i n with c | c
        · exact c
        · have : i = n := by omega
          subst this; rw [hp] at hpn; cases hpn
      obtain ⟨l, h1, h2, h3, h4, h5⟩ := ih this
      refine ⟨l, h1, h2, by omega, h4, ?_⟩
      intro j hj hj'
      rcases Nat.lt_or_ge j n with c | c
      · exact h5 j hj c
      · have : j = n := by omega
        subst this; exact hpn

/-- The first and last overlapped entries of a mapping that starts inside the sequence and does not
reach past its end. -/
theorem overlapped {s : Seq} (h : Run s) (hcap : s.nused ≤ MAXLEN) {r : Req} (h1 : s.begin ≤ r.begin) (h2 : r.begin < r.end)
    (h3 : r.begin < s.end) (h4 : r.end ≤ s.end) :
    ∃ f l, firstOv s r = some f ∧ lastOv s r = some l ∧ f ≤ l ∧ l < s.nused ∧
      (s.slots f).begin ≤ r.begin ∧ r.begin ≤ (s.slots f).end ∧ (s.slots l).begin < r.end ∧ r.end ≤ (s.slots l).end ∧
      (∀ i, i < f → (s.slots i).end < r.begin) ∧ (∀ i, l < i → i < s.nused → r.end ≤ (s.slots i).begin) ∧
      (f = l → r.begin < (s.slots f).end) := by
  obtain ⟨i, i1, i2, i3⟩ := h.locate r.begin h1 h3
  obtain ⟨k, k1, k2, k3⟩ := h.locate (r.end - 1) (by omega) (by omega)
  have ovi : overlaps (s.slots i).begin (s.slots i).end r.begin r.end = true := by
    simp only [overlaps, decide_eq_true_eq]; omega
  have ovk : overlaps (s.slots k).begin (s.slots k).end r.begin r.end = true := by
    simp only [overlaps, decide_eq_true_eq]
    omega
  obtain ⟨f, f1, f2, f3, f4⟩ := find?_range (p := fun i => overlaps (s.slots i).begin (s.slots i).end r.begin r.end)
    (show i < MAXLEN by omega) ovi
  obtain ⟨l, l1, l2, l3, l4, l5⟩ := find?_range_rev (p := fun i => overlaps (s.slots i).begin (s.slots i).end r.begin r.end)
    k1 ovk
  obtain ⟨l', l1', l2', _⟩ := find?_range_rev (p := fun i => overlaps (s.slots i).begin (s.slots i).end r.begin r.end)
    i1 ovi
  have : l' = l := by rw [l1] at l1'; cases l1'; rfl
  subst this
  simp only [overlaps, decide_eq_true_eq] at f3 l4
  simp only [overlaps, decide_eq_false_iff_not] at f4 l5
  have hfb : (s.slots f).begin ≤ r.begin := by
    rcases Nat.eq_or_lt_of_le f2 with e | e
    · rw [e]; exact i2
    · have := h.mono f i e i1
      have := (h.nonempty f (by omega)).2
      omega
  have hle : r.end ≤ (s.slots l').end := by
    rcases Nat.eq_or_lt_of_le l2 with e | e
    · rw [← e]; omega
    · have := h.mono k l' e l3
      have := (h.nonempty l' l3).2
      omega
  refine ⟨f, l', f1, l1, by omega, l3, hfb, f3.2, l4.1, hle, ?_, ?_, ?_⟩
  · intro j hj
    have := f4 j hj
    have hm := h.mono j f hj (by omega)
    have := (h.nonempty j (by omega)).2
    omega
  · intro j hj hjn
    have := l5 j hj hjn
    have hm := h.mono l' j hj hjn
    omega
  · intro e
    have : i = f := by omega
    rw [← this]; exact i3

/-! ### The resulting array -/

/-- The array after recording: what each slot holds. -/
def target (s : Seq) (r : Req) (f l : Nat) (bp ep : Bool) (i : Nat) : Entry :=
  if i < f then s.slots i
  else if bp = true ∧ i = f then { s.slots f with «end» := r.begin }
  else if i = f + bp.toNat then r.entry
  else if ep = true ∧ i = f + bp.toNat + 1 then { s.slots l with begin := r.end }
  else s.slots (i + l - (f + bp.toNat + ep.toNat))

theorem splitBegin_slots (s : Seq) (r : Req) (f : Nat) (hf : f < s.nused) (i : Nat) (hi : i < s.nused + 1) :
    (splitBegin s r f).slots i =
      if i < f then s.slots i else if i = f then { s.slots f with «end» := r.begin }
      else if i = f + 1 then { s.slots f with begin := r.begin } else s.slots (i - 1) := by
  simp only [splitBegin, copyRight, setSlot]
  grind

theorem splitEnd_slots (s : Seq) (r : Req) (l : Nat) (hl : l < s.nused) (i : Nat) (hi : i < s.nused + 1) :
    (splitEnd s r l).slots i =
      if i < l then s.slots i else if i = l then { s.slots l with «end» := r.end }
      else if i = l + 1 then { s.slots l with begin := r.end } else s.slots (i - 1) := by
  simp only [splitEnd, copyRight, setSlot]
  grind

theorem replace_slots (s : Seq) (r : Req) (f l : Nat) (hfl : f ≤ l) (_hl : l < s.nused) (i : Nat) (hi : i < s.nused - (l - f)) :
    (replace s r f l).slots i =
      if i < f then s.slots i else if i = f then r.entry else s.slots (i + (l - f)) := by
  simp only [replace, copyLeft, setSlot]
  grind

theorem replace_nused (s : Seq) (r : Req) (f l : Nat) (hfl : f ≤ l) (hl : l < s.nused) :
    (replace s r f l).nused = s.nused - (l - f) ∧ (replace s r f l).begin = s.begin ∧
      (replace s r f l).end = s.end ∧ (replace s r f l).filename = s.filename := by
  simp only [replace, copyLeft, setSlot]
  grind

theorem final_slots (s : Seq) (r : Req) (f l : Nat) (bp ep : Bool) (hfl : f ≤ l) (hl : l < s.nused)
    (s1 s2 s3 : Seq) (f1 l1 : Nat)
    (h1 : s1 = if bp then splitBegin s r f else s) (hf1 : f1 = if bp then f + 1 else f)
    (hl1 : l1 = if bp then l + 1 else l) (h2 : s2 = if ep then splitEnd s1 r l1 else s1)
    (h3 : s3 = replace s2 r f1 l1) :
    f1 ≤ l1 ∧ s2.nused = s.nused + bp.toNat + ep.toNat ∧
    s3.nused + (l - f) = s.nused + bp.toNat + ep.toNat ∧ s3.begin = s.begin ∧ s3.end = s.end ∧ s3.filename = s.filename ∧
      ∀ i, i < s3.nused → s3.slots i = target s r f l bp ep i := by
  have n1 : s1.nused = s.nused + bp.toNat ∧ s1.begin = s.begin ∧ s1.end = s.end ∧ s1.filename = s.filename := by
    subst h1; cases bp <;> simp [splitBegin, setSlot, copyRight]
  have n2 : s2.nused = s1.nused + ep.toNat ∧ s2.begin = s1.begin ∧ s2.end = s1.end ∧ s2.filename = s1.filename := by
    subst h2; cases ep <;> simp [splitEnd, setSlot, copyRight]
  have e1 : ∀ i, i < s1.nused → s1.slots i = if bp = true then
      (if i < f then s.slots i else if i = f then { s.slots f with «end» := r.begin }
        else if i = f + 1 then { s.slots f with begin := r.begin } else s.slots (i - 1)) else s.slots i := by
    intro i hi
    rw [n1.1] at hi
    subst h1
    cases bp
    · rfl
    · exact splitBegin_slots s r f (by omega) i hi
  have hfl1 : f1 ≤ l1 := by subst hf1 hl1; cases bp <;> simp <;> omega
  have hl1' : l1 < s1.nused := by rw [n1.1]; subst hl1; cases bp <;> simp <;> omega
  have e2 : ∀ i, i < s2.nused → s2.slots i = if ep = true then
      (if i < l1 then s1.slots i else if i = l1 then { s1.slots l1 with «end» := r.end }
      else if i = l1 + 1 then { s1.slots l1 with begin := r.end } else s1.slots (i - 1)) else s1.slots i := by
    intro i hi
    rw [n2.1] at hi
    subst h2
    cases ep
    · rfl
    · exact splitEnd_slots s1 r l1 hl1' i hi
  have n3 := replace_nused s2 r f1 l1 hfl1 (by omega)
  rw [← h3] at n3
  have hd : l1 - f1 = l - f := by subst hf1 hl1; cases bp <;> simp
  refine ⟨hfl1, by omega, by omega, by rw [n3.2.1, n2.2.1, n1.2.1], by rw [n3.2.2.1, n2.2.2.1, n1.2.2.1],
    by rw [n3.2.2.2, n2.2.2.2, n1.2.2.2], ?_⟩
  intro i hi
  rw [n3.1] at hi
  rw [h3, replace_slots s2 r f1 l1 hfl1 (by omega) i hi, hd]
  have hbp : f1 = f + bp.toNat := by subst hf1; cases bp <;> rfl
  have hbl : l1 = l + bp.toNat := by subst hl1; cases bp <;> rfl
  unfold target
  by_cases c1 : i < f
  · rw [if_pos (by omega), if_pos c1, e2 i (by omega)]
    have : s1.slots i = s.slots i := by
      rw [e1 i (by omega)]; cases bp <;> simp [c1]
    cases ep
    · simp [this]
    · simp only [if_true]; rw [if_pos (by omega), this]
  · rw [if_neg c1]
    by_cases c2 : bp = true ∧ i = f
    · obtain ⟨rfl, rfl⟩ := c2
      simp only [Bool.toNat_true] at hbp hbl
      rw [if_pos (by omega), if_pos ⟨rfl, rfl⟩, e2 i (by omega)]
      have : s1.slots i = { s.slots i with «end» := r.begin } := by
        rw [e1 i (by omega)]; simp
      cases ep
      · simp [this]
      · simp only [if_true]; rw [if_pos (by omega), this]
    · rw [if_neg c2]
      have c3' : ¬ i < f1 := by
        rw [hbp]; cases bp
        · simpa using c1
        · simp at c2 ⊢; omega
      rw [if_neg c3', ← hbp]
      by_cases c3 : i = f1
      · rw [if_pos c3, if_pos c3]
      · rw [if_neg c3, if_neg c3, e2 (i + (l - f)) (by omega)]
        have tail : ∀ k, l1 < k → k < s1.nused → s1.slots k = s.slots (k - bp.toNat) := by
          intro k hk hk'
          rw [e1 k hk']
          cases bp
          · rfl
          · simp only [if_true, Bool.toNat_true] at *
            rw [if_neg (by omega), if_neg (by omega), if_neg (by omega)]
        cases ep
        · simp only [Bool.false_eq_true, if_false, false_and, Bool.toNat_false] at *
          rw [tail _ (by omega) (by omega)]
          congr 1; omega
        · simp only [if_true, true_and, Bool.toNat_true] at *
          rw [if_neg (by omega), if_neg (by omega)]
          by_cases c4 : i = f1 + 1
          · rw [if_pos (by omega), if_pos c4]
            have : ({ s1.slots l1 with begin := r.end } : Entry) = { s.slots l with begin := r.end } := by
              rw [e1 l1 hl1']
              cases bp
              · simp [hbl]
              · simp only [if_true, Bool.toNat_true] at *
                rw [if_neg (by omega), if_neg (by omega)]
                by_cases c5 : l1 = f + 1
                · rw [if_pos c5]
                  have : f = l := by omega
                  subst this; rfl
                · rw [if_neg c5]
                  have : l1 - 1 = l := by omega
                  rw [this]
            exact this
          · rw [if_neg (by omega), if_neg c4, tail _ (by omega) (by omega)]
            congr 1; omega

end Liballocs.MapSeq
