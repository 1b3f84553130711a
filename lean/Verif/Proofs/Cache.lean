import Verif.Model.Cache
/-! Helper lemmas for the lookup cache: the doubly-linked list threaded through the array. -/
namespace Liballocs.Cache

/-- `l` is linked in order by the array's link fields, between `p` and `q`. -/
def Seg (next prev : Nat → Nat) (p : Nat) : List Nat → Nat → Prop
  | [], _ => True
  | i :: l, q => prev i = p ∧ next i = (match l with | [] => q | j :: _ => j) ∧ Seg next prev i l q

theorem seg_frame {next prev next' prev' : Nat → Nat} {p q : Nat} {l : List Nat}
    (h : Seg next prev p l q) (hf : ∀ j ∈ l, next' j = next j ∧ prev' j = prev j) :
    Seg next' prev' p l q := by
  induction l generalizing p with
  | nil => trivial
  | cons i l ih =>
    obtain ⟨h1, h2, h3⟩ := h
    have hi := hf i (List.mem_cons_self ..)
    exact ⟨by rw [hi.2, h1], by rw [hi.1, h2], ih h3 (fun j hj => hf j (List.mem_cons_of_mem _ hj))⟩

theorem seg_append {next prev : Nat → Nat} {p q : Nat} {l m : List Nat} :
    Seg next prev p (l ++ m) q ↔
      Seg next prev p l (match m with | [] => q | j :: _ => j) ∧ Seg next prev (l.getLastD p) m q := by
  induction l generalizing p with
  | nil => simp [Seg]
  | cons i l ih =>
    simp only [List.cons_append, Seg, ih]
    cases l with
    | nil => cases m <;> simp [Seg, and_assoc]
    | cons j l => simp [List.getLastD, and_assoc]

/-- The representation invariant: `l` lists the valid entries, most recent first. -/
structure Inv (N : Nat) (c : Cache) (l : List Nat) : Prop where
  nodup : l.Nodup
  mem : ∀ i, i ∈ l ↔ c.valid i = true
  range : ∀ i ∈ l, 1 ≤ i ∧ i ≤ N
  head : c.head = l.headD 0
  tail : c.tail = l.getLastD 0
  seg : Seg c.next c.prev 0 l 0

theorem walk_next {next prev : Nat → Nat} {valid : Nat → Bool} (l vis : List Nat) (p : Nat) (f : Nat)
    (hf : l.length < f) (hs : Seg next prev p l 0) (hv : ∀ i ∈ l, 1 ≤ i ∧ i ≤ 32 ∧ valid i = true)
    (hn : (l ++ vis).Nodup) : walk next valid f (l.headD 0) vis = some (l.reverse ++ vis) := by
  induction l generalizing vis p f with
  | nil => cases f <;> simp_all [walk]
  | cons i l ih =>
    cases f with
    | zero => simp at hf
    | succ f =>
      obtain ⟨h1, h2, h3⟩ := hs
      have hvi := hv i (List.mem_cons_self ..)
      rw [List.cons_append, List.nodup_cons] at hn
      have hni : next i = l.headD 0 := by rw [h2]; cases l <;> rfl
      have hvis : i ∉ vis := fun h => hn.1 (List.mem_append_right _ h)
      show walk next valid (f + 1) i vis = _
      unfold walk
      rw [if_neg (by omega), if_pos ⟨hvi.2.1, hvi.2.2, hvis⟩, hni,
        ih (i :: vis) i f (by simpa using hf) h3 (fun j hj => hv j (List.mem_cons_of_mem _ hj))]
      · simp
      · rw [List.nodup_append] at hn ⊢
        refine ⟨hn.2.1, List.nodup_cons.2 ⟨hvis, hn.2.2.1⟩, ?_⟩
        intro a ha b hb
        rcases List.mem_cons.1 hb with h | h
        · subst h; rintro rfl; exact hn.1 (List.mem_append_left _ ha)
        · exact hn.2.2.2 a ha b h

/-- Reversing a segment swaps the two links. -/
theorem seg_reverse {next prev : Nat → Nat} {p q : Nat} {l : List Nat} (h : Seg next prev p l q) :
    Seg prev next q l.reverse p := by
  induction l generalizing p with
  | nil => trivial
  | cons i l ih =>
    obtain ⟨h1, h2, h3⟩ := h
    rw [List.reverse_cons, seg_append]
    refine ⟨ih h3, ?_, ?_, trivial⟩
    · rw [h2]
      cases l with
      | nil => rfl
      | cons j l => simp [List.getLastD_eq_getLast?]
    · simpa using h1

theorem inv_sane {N : Nat} (hN : N ≤ 31) {c : Cache} {l : List Nat} (h : Inv N c l) : sane N c = true := by
  obtain ⟨hnd, hm, hr, hh, ht, hs⟩ := h
  have hlen : l.length ≤ N := by
    have : l ⊆ List.range' 1 N := fun i hi => by
      have := hr i hi; rw [List.mem_range'_1]; omega
    have := List.Nodup.length_le_of_subset hnd this
    simpa using this
  have hv : ∀ i ∈ l, 1 ≤ i ∧ i ≤ 32 ∧ c.valid i = true := fun i hi =>
    ⟨(hr i hi).1, by have := (hr i hi).2; omega, (hm i).1 hi⟩
  have w1 := walk_next l [] 0 34 (by omega) hs hv (by simpa using hnd)
  have w2 := walk_next l.reverse [] 0 34 (by simp; omega) (seg_reverse hs)
    (fun i hi => hv i (by simpa using hi)) (by rw [List.append_nil]; exact (List.reverse_perm l).symm.nodup hnd)
  have e2 : l.reverse.headD 0 = l.getLastD 0 := by
    rcases List.eq_nil_or_concat l with e | ⟨a, x, e⟩
    · subst e; rfl
    · rw [List.concat_eq_append] at e; subst e; simp [List.getLastD_eq_getLast?]
  rw [e2] at w2
  unfold sane
  rw [hh, ht, w1, w2]
  simp only [List.append_nil, List.reverse_reverse, Bool.and_eq_true]
  have key : ∀ m : List Nat, (∀ i, i ∈ m ↔ i ∈ l) → sameSet N c.valid m = true := by
    intro m hmm
    unfold sameSet
    rw [List.all_eq_true]
    intro i hi
    rw [beq_iff_eq, Bool.eq_iff_iff, decide_eq_true_iff, List.contains_iff_mem, hmm, hm]
    constructor
    · exact fun h => h.2
    · exact fun h => ⟨(hr i ((hm i).2 h)).2, h⟩
  exact ⟨key _ (fun i => by simp), key _ (fun i => Iff.rfl)⟩

theorem assertSane_ok {N : Nat} (hN : N ≤ 31) {c : Cache} {l : List Nat} (h : Inv N c l) :
    assertSane N c = some c := by
  unfold assertSane; rw [inv_sane hN h]; rfl

theorem getLastD_mem {l : List Nat} {p : Nat} (h : l ≠ []) : l.getLastD p ∈ l := by
  rw [List.getLastD_eq_getLast?, List.getLast?_eq_some_getLast h]
  exact List.getLast_mem h

theorem unlink_ok {N : Nat} (hN : N ≤ 31) {c : Cache} {l1 l2 : List Nat} {i : Nat}
    (h : Inv N c (l1 ++ i :: l2)) :
    ∃ c', unlink N c i = some c' ∧ Inv N c' (l1 ++ l2) ∧ c'.ent = c.ent := by
  have hsane := assertSane_ok hN h
  obtain ⟨hnd, hm, hr, hh, ht, hs⟩ := h
  have hi := hr i (by simp)
  rw [seg_append] at hs
  obtain ⟨hs1, hp, hn, hs2⟩ := hs
  simp only at hs1
  have hnx : c.next i = l2.headD 0 := by rw [hn]; cases l2 <;> rfl
  have hnl : l2.headD 0 ≤ N := by
    cases l2 with
    | nil => simp
    | cons j l => simpa using (hr j (by simp)).2
  have hpl : l1.getLastD 0 ≤ N := by
    by_cases e : l1 = []
    · subst e; simp
    · exact (hr _ (List.mem_append_left _ (getLastD_mem e))).2
  -- the result satisfies the invariant
  have hinv : Inv N { c with
      valid := upd c.valid i false, victim := i,
      next := if l1.getLastD 0 ≠ 0 then upd c.next (l1.getLastD 0) (l2.headD 0) else c.next,
      prev := if l2.headD 0 ≠ 0 then upd c.prev (l2.headD 0) (l1.getLastD 0) else c.prev,
      head := if c.head = i then l2.headD 0 else c.head,
      tail := if c.tail = i then l1.getLastD 0 else c.tail } (l1 ++ l2) := by
    have hnd' := hnd
    rw [List.nodup_append, List.nodup_cons] at hnd
    obtain ⟨n1, ⟨n2, n3⟩, n4⟩ := hnd
    have hi1 : i ∉ l1 := fun h => n4 i h i (List.mem_cons_self ..) rfl
    have h12 : ∀ a ∈ l1, a ∉ l2 := fun a ha hb => n4 a ha a (List.mem_cons_of_mem _ hb) rfl
    refine ⟨?_, ?_, ?_, ?_, ?_, ?_⟩
    · rw [List.nodup_append]
      exact ⟨n1, n3, fun a ha b hb => by rintro rfl; exact h12 a ha hb⟩
    · intro j
      have := hm j
      simp only [upd]
      by_cases hj : j = i
      · subst hj; simp [hi1, n2]
      · rw [if_neg hj, ← this]; simp [hj]
    · intro j hj
      refine hr j ?_
      simp only [List.mem_append, List.mem_cons] at hj ⊢
      rcases hj with h | h
      · exact Or.inl h
      · exact Or.inr (Or.inr h)
    · show (if c.head = i then l2.headD 0 else c.head) = _
      cases l1 with
      | nil => rw [if_pos (show c.head = i from hh)]; rfl
      | cons a l1 =>
        have hh' : c.head = a := hh
        rw [hh', if_neg (by rintro rfl; simp at hi1)]; rfl
    · simp only [ht]
      cases l2 with
      | nil =>
        have : (l1 ++ [i]).getLastD 0 = i := by simp [List.getLastD_eq_getLast?]
        rw [this]; simp
      | cons b l2 =>
        have e1 : (l1 ++ i :: b :: l2).getLastD 0 = (b :: l2).getLastD 0 := by
          simp [List.getLastD_eq_getLast?, List.getLast?_append]
          simp [List.getLast?_cons]
        have e2 : (l1 ++ b :: l2).getLastD 0 = (b :: l2).getLastD 0 := by
          simp [List.getLastD_eq_getLast?, List.getLast?_append]
          simp [List.getLast?_cons]
        rw [e1, e2]
        have := getLastD_mem (l := b :: l2) (p := 0) (by simp)
        rw [if_neg (by rintro rfl; exact n2 this)]
    · simp only
      rw [seg_append]
      constructor
      · rcases List.eq_nil_or_concat l1 with e | ⟨a, x, e⟩
        · subst e; trivial
        · rw [List.concat_eq_append] at e
          subst e
          have hx : (a ++ [x]).getLastD 0 = x := by simp [List.getLastD_eq_getLast?]
          have hx0 : x ≠ 0 := by have := (hr x (by simp)).1; omega
          rw [hx, if_pos hx0]
          rw [seg_append] at hs1 ⊢
          obtain ⟨s1, s2, s3, _⟩ := hs1
          have hxa : x ∉ a := by
            rw [List.nodup_append] at n1
            exact fun h => n1.2.2 x h x (by simp) rfl
          have pv : ∀ j ∈ a ++ [x], (if l2.headD 0 ≠ 0 then upd c.prev (l2.headD 0) x else c.prev) j = c.prev j := by
            intro j hj
            split
            · rw [upd, if_neg]
              rintro rfl
              cases l2 with
              | nil => simp at *
              | cons b l2 => exact h12 _ hj (by simp)
            · rfl
          refine ⟨seg_frame s1 (fun j hj => ⟨?_, pv j (List.mem_append_left _ hj)⟩), ?_, ?_, trivial⟩
          · rw [upd, if_neg (by rintro rfl; exact hxa hj)]
          · rw [pv x (by simp)]; exact s2
          · simp only [upd, if_true]; cases l2 <;> rfl
      · cases l2 with
        | nil => trivial
        | cons b l2 =>
          obtain ⟨t1, t2, t3⟩ := hs2
          have hb0 : (b :: l2).headD 0 ≠ 0 := by have := (hr b (by simp)).1; show b ≠ 0; omega
          rw [if_pos hb0]
          show Seg (if l1.getLastD 0 ≠ 0 then upd c.next (l1.getLastD 0) b else c.next)
            (upd c.prev b (l1.getLastD 0)) (l1.getLastD 0) (b :: l2) 0
          have nx : ∀ j ∈ b :: l2, (if l1.getLastD 0 ≠ 0 then upd c.next (l1.getLastD 0) b else c.next) j = c.next j := by
            intro j hj
            split
            · rename_i hne
              rw [upd, if_neg]
              rintro rfl
              by_cases e : l1 = []
              · subst e; simp at hne
              · exact h12 _ (getLastD_mem e) hj
            · rfl
          refine ⟨by simp [upd], ?_, seg_frame t3 (fun j hj => ⟨nx j (List.mem_cons_of_mem _ hj), ?_⟩)⟩
          · rw [nx b (by simp)]; exact t2
          · rw [upd, if_neg]
            rintro rfl
            rw [List.nodup_cons] at n3
            exact n3.1 hj
  refine ⟨_, ?_, hinv, rfl⟩
  unfold unlink
  rw [hsane]
  simp only [Option.bind_eq_bind, Option.bind_some]
  rw [if_neg (by omega)]
  simp only [hnx, hp]
  rw [if_neg (by omega)]
  exact assertSane_ok hN hinv

theorem pushHead_ok {N : Nat} (hN : N ≤ 31) {c : Cache} {l : List Nat} {i : Nat}
    (h : Inv N c l) (hi : 1 ≤ i ∧ i ≤ N) (hni : i ∉ l) :
    ∃ c', pushHead N c i = some c' ∧ Inv N c' (i :: l) ∧ c'.ent = c.ent := by
  have hsane := assertSane_ok hN h
  obtain ⟨hnd, hm, hr, hh, ht, hs⟩ := h
  have hhd : l.headD 0 ≤ N := by
    cases l with
    | nil => simp
    | cons j l => simpa using (hr j (by simp)).2
  have hinv : Inv N { c with
      prev := if c.head ≠ 0 then upd (upd c.prev i 0) c.head i else upd c.prev i 0,
      next := upd c.next i c.head, head := i,
      tail := if c.tail = 0 then i else c.tail,
      valid := upd c.valid i true } (i :: l) := by
    refine ⟨List.nodup_cons.2 ⟨hni, hnd⟩, ?_, ?_, rfl, ?_, ?_⟩
    · intro j
      simp only [upd, List.mem_cons]
      by_cases hj : j = i
      · simp [hj]
      · simp [hj, hm]
    · intro j hj
      rcases List.mem_cons.1 hj with h | h
      · subst h; exact hi
      · exact hr j h
    · simp only [ht]
      cases l with
      | nil => simp
      | cons b l =>
        have := hr _ (getLastD_mem (l := b :: l) (p := 0) (by simp))
        rw [if_neg (by omega)]
        rfl
    · simp only
      rw [hh]
      cases l with
      | nil => refine ⟨by simp [upd], by simp [upd], trivial⟩
      | cons b l =>
        have hb0 : b ≠ 0 := by have := (hr b (by simp)).1; omega
        have hbi : b ≠ i := by rintro rfl; exact hni (by simp)
        rw [if_pos (show (b :: l).headD 0 ≠ 0 from hb0)]
        show Seg (upd c.next i b) (upd (upd c.prev i 0) b i) 0 (i :: b :: l) 0
        obtain ⟨t1, t2, t3⟩ := hs
        refine ⟨?_, by simp [upd], by simp [upd], ?_, ?_⟩
        · simp [upd, Ne.symm hbi]
        · rw [upd, if_neg hbi]; exact t2
        · refine seg_frame t3 (fun j hj => ⟨?_, ?_⟩)
          · rw [upd, if_neg]; rintro rfl; exact hni (List.mem_cons_of_mem _ hj)
          · rw [upd, if_neg, upd, if_neg]
            · rintro rfl; exact hni (List.mem_cons_of_mem _ hj)
            · rintro rfl; exact (List.nodup_cons.1 hnd).1 hj
  refine ⟨_, ?_, hinv, rfl⟩
  unfold pushHead
  rw [hsane]
  simp only [Option.bind_eq_bind, Option.bind_some]
  rw [if_neg (by rw [hh]; omega)]
  exact assertSane_ok hN hinv

/-- Moving a listed entry to the front. -/
theorem bumpMru_old {N : Nat} (hN : N ≤ 31) {c : Cache} {l1 l2 : List Nat} {i : Nat}
    (h : Inv N c (l1 ++ i :: l2)) :
    ∃ c', bumpMru N c i = some c' ∧ Inv N c' (i :: (l1 ++ l2)) ∧ c'.ent = c.ent := by
  have hsane := assertSane_ok hN h
  have hr := h.range i (by simp)
  have hval := (h.mem i).1 (by simp)
  unfold bumpMru
  rw [hsane]
  simp only [Option.bind_eq_bind, Option.bind_some]
  by_cases hd : c.head = i
  · have : l1 = [] := by
      cases l1 with
      | nil => rfl
      | cons a l1 =>
        have h1 := h.head
        have h2 := h.nodup
        simp only [List.cons_append, List.headD_cons] at h1
        rw [← h1, hd] at h2
        simp at h2
    subst this
    rw [if_neg (by simp [hd])]
    exact ⟨c, hsane, h, rfl⟩
  · rw [if_pos hd]
    obtain ⟨c1, e1, i1, r1⟩ := unlink_ok hN h
    have hni : i ∉ l1 ++ l2 := by
      have := h.nodup
      rw [List.nodup_append, List.nodup_cons] at this
      rw [List.mem_append]
      rintro (h' | h')
      · exact this.2.2 i h' i (by simp) rfl
      · exact this.2.1.1 h'
    obtain ⟨c2, e2, i2, r2⟩ := pushHead_ok hN i1 hr hni
    rw [if_pos hval, e1]
    simp only [Option.bind_some]
    rw [e2]
    exact ⟨c2, assertSane_ok hN i2, i2, r2.trans r1⟩

/-- Linking in an unlisted entry. -/
theorem bumpMru_new {N : Nat} (hN : N ≤ 31) {c : Cache} {l : List Nat} {i : Nat}
    (h : Inv N c l) (hi : 1 ≤ i ∧ i ≤ N) (hni : i ∉ l) :
    ∃ c', bumpMru N c i = some c' ∧ Inv N c' (i :: l) ∧ c'.ent = c.ent := by
  have hsane := assertSane_ok hN h
  have hval : ¬ c.valid i = true := fun hv => hni ((h.mem i).2 hv)
  unfold bumpMru
  rw [hsane]
  simp only [Option.bind_eq_bind, Option.bind_some]
  have hd : c.head ≠ i := by
    rw [h.head]
    cases l with
    | nil => simp; omega
    | cons a l => simp only [List.headD_cons]; rintro rfl; simp at hni
  obtain ⟨c2, e2, i2, r2⟩ := pushHead_ok hN h hi hni
  rw [if_pos hd, if_neg hval]
  rw [e2]
  exact ⟨c2, assertSane_ok hN i2, i2, r2⟩

theorem inv_ent {N : Nat} {c : Cache} {l : List Nat} (h : Inv N c l) (e : Nat → Rec) :
    Inv N { c with ent := e } l := ⟨h.nodup, h.mem, h.range, h.head, h.tail, h.seg⟩

theorem inv_victim {N : Nat} {c : Cache} {l : List Nat} (h : Inv N c l) (v : Nat) :
    Inv N { c with victim := v } l := ⟨h.nodup, h.mem, h.range, h.head, h.tail, h.seg⟩

theorem bumpVictim_ok {N : Nat} (hN : N ≤ 31) {c : Cache} {l : List Nat} {i : Nat} (h : Inv N c l) :
    ∃ c', bumpVictim N c i = some c' ∧ Inv N c' l ∧ c'.ent = c.ent := by
  unfold bumpVictim
  rw [assertSane_ok hN h]
  simp only [Option.bind_eq_bind, Option.bind_some]
  exact ⟨_, assertSane_ok hN (inv_victim h _), inv_victim h _, rfl⟩

theorem search_ok {N : Nat} {c : Cache} (hit : Rec → Bool) (l : List Nat) (p f : Nat)
    (hf : l.length < f) (hs : Seg c.next c.prev p l 0) (hr : ∀ i ∈ l, 1 ≤ i ∧ i ≤ N ∧ c.valid i = true) :
    search N hit c f (l.headD 0) = some (l.find? (fun i => hit (c.ent i))) := by
  induction l generalizing p f with
  | nil => cases f <;> simp_all [search]
  | cons i l ih =>
    cases f with
    | zero => simp at hf
    | succ f =>
      obtain ⟨h1, h2, h3⟩ := hs
      have hi := hr i (List.mem_cons_self ..)
      have hni : c.next i = l.headD 0 := by rw [h2]; cases l <;> rfl
      show search N hit c (f + 1) i = _
      unfold search
      rw [if_neg (by omega), if_neg (by omega), List.find?_cons]
      by_cases hh : hit (c.ent i) = true
      · rw [if_pos ⟨hi.2.2, hh⟩, hh]
      · rw [if_neg (fun x => hh x.2), hni, ih i f (by simpa using hf) h3 (fun j hj => hr j (List.mem_cons_of_mem _ hj))]
        simp [hh]

theorem inv_len {N : Nat} {c : Cache} {l : List Nat} (h : Inv N c l) : l.length ≤ N := by
  have : l ⊆ List.range' 1 N := fun i hi => by
    have := h.range i hi; rw [List.mem_range'_1]; omega
  have := List.Nodup.length_le_of_subset h.nodup this
  simpa using this

theorem lookup_ok {N : Nat} (hN : N ≤ 31) {c : Cache} {l : List Nat} (hit : Rec → Bool) (h : Inv N c l) :
    (lookup N hit c = some (none, c) ∧ (∀ i ∈ l, hit (c.ent i) = false)) ∨
    ∃ c' l1 i l2, l = l1 ++ i :: l2 ∧ (∀ j ∈ l1, hit (c.ent j) = false) ∧ hit (c.ent i) = true ∧
      lookup N hit c = some (some (c.ent i), c') ∧ Inv N c' (i :: (l1 ++ l2)) ∧ c'.ent = c.ent := by
  have hsane := assertSane_ok hN h
  have hs := search_ok (N := N) (c := c) hit l 0 (N + 2) (by have := inv_len h; omega) h.seg
    (fun i hi => ⟨(h.range i hi).1, (h.range i hi).2, (h.mem i).1 hi⟩)
  unfold lookup
  rw [hsane]
  simp only [Option.bind_eq_bind, Option.bind_some]
  rw [h.head, hs]
  simp only [Option.bind_some]
  cases hf : l.find? (fun i => hit (c.ent i)) with
  | none =>
    left
    rw [List.find?_eq_none] at hf
    simp only [hsane, Option.bind_some]
    exact ⟨rfl, fun i hi => by simpa using hf i hi⟩
  | some i =>
    right
    rw [List.find?_eq_some_iff_append] at hf
    obtain ⟨h1, l1, l2, rfl, h2⟩ := hf
    obtain ⟨c', e, i', r⟩ := bumpMru_old hN h
    refine ⟨c', l1, i, l2, rfl, fun j hj => by simpa using h2 j hj, h1, ?_, i', r⟩
    simp only [e, Option.bind_some, r]; rfl

theorem ffsInv_ok {N : Nat} (hN : N ≤ 31) {c : Cache} {l : List Nat} (h : Inv N c l) :
    (l.length < N → 1 ≤ ffsInv c.valid ∧ ffsInv c.valid ≤ N ∧ ffsInv c.valid ∉ l) ∧
    (l.length = N → ffsInv c.valid = N + 1) := by
  have hout : c.valid (N + 1) = false := by
    cases hv : c.valid (N + 1) with
    | false => rfl
    | true => have := (h.range _ ((h.mem _).2 hv)).2; omega
  have hmemN : N + 1 ∈ List.range' 1 32 := by rw [List.mem_range'_1]; omega
  unfold ffsInv
  cases hf : (List.range' 1 32).find? (fun i => !c.valid i) with
  | none =>
    rw [List.find?_eq_none] at hf
    have := hf (N + 1) hmemN
    simp [hout] at this
  | some i =>
    simp only
    have hi : c.valid i = false := by simpa using List.find?_some hf
    have hmi := List.mem_of_find?_eq_some hf
    rw [List.mem_range'_1] at hmi
    have hmin : ∀ j, 1 ≤ j → j < i → c.valid j = true := by
      rw [List.find?_eq_some_iff_append] at hf
      obtain ⟨_, as, bs, he, hb⟩ := hf
      intro j hj1 hji
      have hj : j ∈ List.range' 1 32 := by rw [List.mem_range'_1]; omega
      rw [he] at hj
      rcases List.mem_append.1 hj with h' | h'
      · simpa using hb j h'
      · have hp : (List.range' 1 32).Pairwise (· < ·) := List.pairwise_lt_range'
        rw [he, List.pairwise_append, List.pairwise_cons] at hp
        rcases List.mem_cons.1 h' with rfl | h''
        · omega
        · have := hp.2.1.1 j h''; omega
    have hle : i ≤ N + 1 := by
      cases Nat.lt_or_ge (N + 1) i with
      | inl hlt => have := hmin (N + 1) (by omega) hlt; rw [hout] at this; cases this
      | inr hge => exact hge
    have hnil : i ∉ l := fun hm => by have := (h.mem i).1 hm; rw [hi] at this; cases this
    constructor
    · intro hlen
      refine ⟨hmi.1, ?_, hnil⟩
      cases Nat.lt_or_ge N i with
      | inr hge => exact hge
      | inl hlt =>
        have hsub : List.range' 1 N ⊆ l := fun j hj => by
          rw [List.mem_range'_1] at hj
          exact (h.mem j).2 (hmin j hj.1 (by omega))
        have := List.Nodup.length_le_of_subset List.nodup_range' hsub
        simp at this; omega
    · intro hlen
      cases Nat.lt_or_ge i (N + 1) with
      | inr hge => omega
      | inl hlt =>
        have hsub : (i :: l) ⊆ List.range' 1 N := fun j hj => by
          rw [List.mem_range'_1]
          rcases List.mem_cons.1 hj with rfl | h'
          · omega
          · have := h.range j h'; omega
        have := List.Nodup.length_le_of_subset (List.nodup_cons.2 ⟨hnil, h.nodup⟩) hsub
        simp at this; omega

theorem insert_ok {N : Nat} (hN : N ≤ 31) (hpos : 0 < N) {c : Cache} {l : List Nat} (h : Inv N c l) (r : Rec) :
    ∃ c' i l', insert N c r = some c' ∧ Inv N c' (i :: l') ∧ i ∉ l' ∧
      l' = (if l.length < N then l else l.dropLast) ∧
      c'.ent i = { r with period := r.period % 65536 } ∧ ∀ j, j ≠ i → c'.ent j = c.ent j := by
  have hsane := assertSane_ok hN h
  obtain ⟨f1, f2⟩ := ffsInv_ok hN h
  unfold insert
  rw [hsane]
  simp only [Option.bind_eq_bind, Option.bind_some]
  by_cases hl : l.length < N
  · obtain ⟨g1, g2, g3⟩ := f1 hl
    rw [if_neg (by omega), if_neg (by omega : ¬ ffsInv c.valid = N + 1)]
    rw [if_neg (by omega)]
    obtain ⟨c1, e1, i1, r1⟩ := bumpMru_new hN
      (inv_ent h (upd c.ent (ffsInv c.valid) { r with period := r.period % 65536 })) ⟨g1, g2⟩ g3
    obtain ⟨c2, e2, i2, r2⟩ := bumpVictim_ok (i := ffsInv c.valid) hN i1
    simp only [e1, e2, Option.bind_some]
    refine ⟨c2, _, l, assertSane_ok hN i2, i2, g3, by rw [if_pos hl], ?_, ?_⟩
    · rw [r2, r1]; simp [upd]
    · intro j hj; rw [r2, r1]; simp [upd, hj]
  · have hlen : l.length = N := by have := inv_len h; omega
    have g := f2 hlen
    have hne : l ≠ [] := by rintro rfl; simp at hlen; omega
    rcases List.eq_nil_or_concat l with e | ⟨a, x, e⟩
    · exact absurd e hne
    rw [List.concat_eq_append] at e
    subst e
    have ht : c.tail = x := by rw [h.tail]; simp [List.getLastD_eq_getLast?]
    have hx := h.range x (by simp)
    rw [g, if_neg (by omega), if_pos rfl, ht, if_neg (by omega)]
    obtain ⟨c1, e1, i1, r1⟩ := bumpMru_old (l1 := a) (l2 := []) (i := x) hN
      (inv_ent h (upd c.ent x { r with period := r.period % 65536 }))
    rw [List.append_nil] at i1
    obtain ⟨c2, e2, i2, r2⟩ := bumpVictim_ok (i := x) hN i1
    rw [ht] at e1
    simp only [e1, e2, Option.bind_some]
    refine ⟨c2, x, a, assertSane_ok hN i2, i2, ?_, ?_, ?_, ?_⟩
    · have := h.nodup
      rw [List.nodup_append] at this
      exact fun hm => this.2.2 x hm x (by simp) rfl
    · rw [if_neg hl]; simp
    · rw [r2, r1]; simp [upd]
    · intro j hj; rw [r2, r1]; simp [upd, hj]

/-- Whether invalidating `[ptr, ptr + size)` drops a record. -/
def inRange (ptr size : Nat) (r : Rec) : Bool := decide (ptr ≤ r.base ∧ r.base < ptr + size)

theorem uncacheOne_ok {N : Nat} (hN : N ≤ 31) {c : Cache} {l : List Nat} (h : Inv N c l) (ptr size i : Nat) :
    ∃ c', uncacheOne N ptr size c i = some c' ∧
      Inv N c' (l.filter (fun j => !(decide (j = i) && inRange ptr size (c.ent j)))) ∧ c'.ent = c.ent := by
  unfold uncacheOne
  by_cases hv : c.valid i = true
  · rw [if_pos hv, assertSane_ok hN h]
    simp only [Option.bind_eq_bind, Option.bind_some]
    by_cases hr : ptr ≤ (c.ent i).base ∧ (c.ent i).base < ptr + size
    · rw [if_pos hr]
      obtain ⟨l1, l2, rfl⟩ := List.append_of_mem ((h.mem i).2 hv)
      obtain ⟨c1, e1, i1, r1⟩ := unlink_ok hN h
      simp only [e1, Option.bind_some, Option.pure_def]
      refine ⟨_, assertSane_ok hN (inv_victim i1 i), ?_, r1⟩
      have hnd := h.nodup
      rw [List.nodup_append, List.nodup_cons] at hnd
      have hfil : (l1 ++ i :: l2).filter (fun j => !(decide (j = i) && inRange ptr size (c.ent j))) = l1 ++ l2 := by
        rw [List.filter_append, List.filter_cons]
        have hin : inRange ptr size (c.ent i) = true := by simpa [inRange] using hr
        simp only [hin, decide_true, Bool.and_true, Bool.not_true, Bool.false_eq_true, if_false]
        congr 1 <;> rw [List.filter_eq_self]
        · intro a ha
          have : a ≠ i := by rintro rfl; exact hnd.2.2 a ha a (by simp) rfl
          simp [this]
        · intro a ha
          have : a ≠ i := by rintro rfl; exact hnd.2.1.1 ha
          simp [this]
      rw [hfil]
      exact inv_victim i1 i
    · rw [if_neg hr]
      simp only [Option.pure_def, Option.bind_some]
      refine ⟨c, assertSane_ok hN h, ?_, rfl⟩
      rw [List.filter_eq_self.2]
      · exact h
      · intro a _
        by_cases ha : a = i
        · subst ha
          have : inRange ptr size (c.ent a) = false := by
            simp only [inRange, decide_eq_false_iff_not]; exact hr
          simp [this]
        · simp [ha]
  · rw [if_neg hv]
    refine ⟨c, rfl, ?_, rfl⟩
    rw [List.filter_eq_self.2]
    · exact h
    · intro a ha
      have : a ≠ i := by rintro rfl; exact hv ((h.mem _).1 ha)
      simp [this]

theorem uncacheLoop_ok {N : Nat} (hN : N ≤ 31) (ptr size : Nat) (js : List Nat) {c : Cache} {l : List Nat}
    (h : Inv N c l) :
    ∃ c', js.foldlM (uncacheOne N ptr size) c = some c' ∧
      Inv N c' (l.filter (fun j => !(js.contains j && inRange ptr size (c.ent j)))) ∧ c'.ent = c.ent := by
  induction js generalizing c l with
  | nil =>
    refine ⟨c, rfl, ?_, rfl⟩
    rw [List.filter_eq_self.2 (fun a _ => by simp)]; exact h
  | cons i js ih =>
    obtain ⟨c1, e1, i1, r1⟩ := uncacheOne_ok hN h ptr size i
    obtain ⟨c2, e2, i2, r2⟩ := ih i1
    refine ⟨c2, ?_, ?_, r2.trans r1⟩
    · rw [List.foldlM_cons, e1]; exact e2
    · rw [List.filter_filter, r1] at i2
      have : (fun j => !(List.contains (i :: js) j && inRange ptr size (c.ent j))) =
          (fun j => !(js.contains j && inRange ptr size (c.ent j)) &&
            !(decide (j = i) && inRange ptr size (c.ent j))) := by
        funext j
        rw [List.contains_cons]
        by_cases hj : j = i
        · subst hj; simp; cases inRange ptr size (c.ent j) <;> simp
        · have : (j == i) = false := by simpa using hj
          simp [this, hj]
      rw [this]; exact i2

theorem uncache_ok {N : Nat} (hN : N ≤ 31) (ptr size : Nat) {c : Cache} {l : List Nat} (h : Inv N c l) :
    ∃ c', uncache N c ptr size = some c' ∧
      Inv N c' (l.filter (fun j => !inRange ptr size (c.ent j))) ∧ c'.ent = c.ent := by
  unfold uncache
  rw [assertSane_ok hN h]
  simp only [Option.bind_eq_bind, Option.bind_some]
  obtain ⟨c1, e1, i1, r1⟩ := uncacheLoop_ok hN ptr size (List.range' 1 N) h
  rw [e1]
  have : l.filter (fun j => !((List.range' 1 N).contains j && inRange ptr size (c.ent j))) =
      l.filter (fun j => !inRange ptr size (c.ent j)) := by
    apply List.filter_congr
    intro j hj
    have : (List.range' 1 N).contains j = true := by
      rw [List.contains_iff_mem, List.mem_range'_1]; have := h.range j hj; omega
    rw [this]; simp
  rw [this] at i1
  exact ⟨c1, assertSane_ok hN i1, i1, r1⟩

end Liballocs.Cache
