import Verif.Model.Metavec
/-! # C18: sorted metadata search -/
namespace Liballocs.Metavec

/-- The specification: the last position whose record is at or below the address. -/
def LastLe (v : List Nat) (addr : Nat) (i : Nat) : Prop :=
  (∃ a, v[i]? = some a ∧ a ≤ addr) ∧ ∀ j a, i < j → v[j]? = some a → addr < a

/-- What the loop maintains. -/
structure Inv (M S addr0 : Nat) (st : St) : Prop where
  sorted : st.out.Pairwise (· < ·)
  bits : ∀ i, st.bit i = true ↔ ∃ a ∈ st.out, i = bitFor 0 addr0 a
  ge : ∀ a ∈ st.out, addr0 ≤ a
  lastW : st.lastW = st.out.getLast?.map (fun a => a / 2 ^ S - addr0 / 2 ^ S)
  sc : ∀ l, st.out.getLast? = some l → ∀ k, k ≤ l / 2 ^ S - addr0 / 2 ^ S →
    ∃ i, st.sc k = some i ∧ (∃ a, st.out[i]? = some a ∧ k ≤ a / 2 ^ S - addr0 / 2 ^ S) ∧
      ∀ j a, j < i → st.out[j]? = some a → a / 2 ^ S - addr0 / 2 ^ S < k

theorem getLast_max {l : List Nat} (h : l.Pairwise (· < ·)) {x : Nat} (hx : l.getLast? = some x) :
    ∀ a ∈ l, a ≤ x := by
  rcases List.eq_nil_or_concat l with e | ⟨A, p, e⟩
  · subst e; simp at hx
  · rw [List.concat_eq_append] at e
    subst e
    simp only [List.getLast?_append, List.getLast?_singleton, Option.some_or, Option.some.injEq] at hx
    subst hx
    rw [List.pairwise_append] at h
    intro a ha
    rcases List.mem_append.1 ha with h' | h'
    · have := h.2.2 a h' p (by simp); omega
    · simp at h'; omega

theorem step_inv {M S addr0 : Nat} {st : St} (h : Inv M S addr0 st) {a : Nat}
    (hgt : ∀ b ∈ st.out, b < a) (hge : addr0 ≤ a) (hcap : st.out.length < 2 ^ M) :
    ∃ st', step 0 M S addr0 st a = some st' ∧ Inv M S addr0 st' ∧
      st'.out = (if a = 0 then st.out else st.out ++ [a]) := by
  obtain ⟨h1, h2, h3, h4, h5⟩ := h
  unfold step
  by_cases ha0 : a = 0
  · rw [if_pos ha0, if_pos ha0]; exact ⟨st, rfl, ⟨h1, h2, h3, h4, h5⟩, rfl⟩
  rw [if_neg ha0, if_neg ha0]
  have hsorted : (st.out ++ [a]).Pairwise (· < ·) := by
    rw [List.pairwise_append]
    exact ⟨h1, by simp, fun x hx y hy => by simp at hy; subst hy; exact hgt x hx⟩
  have hbits : ∀ i, (if i = bitFor 0 addr0 a then true else st.bit i) = true ↔
      ∃ b ∈ st.out ++ [a], i = bitFor 0 addr0 b := by
    intro i
    constructor
    · intro hi
      split at hi
      · exact ⟨a, by simp, by assumption⟩
      · obtain ⟨b, hb, e⟩ := (h2 i).1 hi; exact ⟨b, by simp [hb], e⟩
    · rintro ⟨b, hb, e⟩
      rcases List.mem_append.1 hb with hb | hb
      · split
        · rfl
        · exact (h2 i).2 ⟨b, hb, e⟩
      · simp at hb; subst hb; rw [if_pos e]
  have hge' : ∀ b ∈ st.out ++ [a], addr0 ≤ b := by
    intro b hb
    rcases List.mem_append.1 hb with hb | hb
    · exact h3 b hb
    · simp at hb; omega
  have hdiv : addr0 / 2 ^ S ≤ a / 2 ^ S := Nat.div_le_div_right hge
  have hlast : (st.out ++ [a]).getLast? = some a := by simp
  rcases List.eq_nil_or_concat st.out with e | ⟨A, l, e⟩
  · -- first record
    rw [e]
    simp only [List.getLast?_nil]
    rw [if_neg (by omega)]
    refine ⟨_, rfl, ⟨?_, ?_, ?_, ?_, ?_⟩, rfl⟩
    · simp
    · rw [e] at hbits; exact hbits
    · rw [e] at hge'; exact hge'
    · simp
    · intro l hl k hk
      have : l = a := by simpa using hl.symm
      subst this
      refine ⟨0, ?_, ⟨l, by simp, hk⟩, by omega⟩
      simp only [writeSc, List.length_nil, Nat.zero_mod]
      rw [if_pos ⟨Nat.zero_le _, hk⟩]
  · rw [List.concat_eq_append] at e
    have hl : st.out.getLast? = some l := by rw [e]; simp
    rw [hl]
    simp only
    have hla : l < a := hgt l (by rw [e]; simp)
    have hl0 : addr0 ≤ l := h3 l (by rw [e]; simp)
    have hdl : addr0 / 2 ^ S ≤ l / 2 ^ S := Nat.div_le_div_right hl0
    have hdla : l / 2 ^ S ≤ a / 2 ^ S := Nat.div_le_div_right (by omega)
    by_cases hsame : l / 2 ^ S = a / 2 ^ S
    · rw [if_pos hsame]
      refine ⟨_, rfl, ⟨hsorted, hbits, hge', ?_, ?_⟩, rfl⟩
      · simp only
        rw [h4, hl, hlast]
        simp [hsame]
      · intro l' hl' k hk
        simp only at hl'
        rw [hlast] at hl'
        cases hl'
        obtain ⟨i, i1, ⟨b, i2, i3⟩, i4⟩ := h5 l hl k (by rw [hsame]; exact hk)
        refine ⟨i, i1, ⟨b, ?_, i3⟩, ?_⟩
        · simp only
          rw [List.getElem?_append_left (List.getElem?_eq_some_iff.1 i2).1]; exact i2
        · intro j c hj hc
          have hi := (List.getElem?_eq_some_iff.1 i2).1
          simp only at hc
          rw [List.getElem?_append_left (by omega)] at hc
          exact i4 j c hj hc
    · rw [if_neg hsame]
      simp only
      rw [if_neg (by omega)]
      refine ⟨_, rfl, ⟨hsorted, hbits, hge', ?_, ?_⟩, rfl⟩
      · simp only
        rw [hlast]; rfl
      · intro l' hl' k hk
        simp only at hl'
        rw [hlast] at hl'
        cases hl'
        simp only [writeSc]
        by_cases hlo : 1 + l / 2 ^ S - addr0 / 2 ^ S ≤ k
        · rw [if_pos ⟨hlo, hk⟩]
          refine ⟨st.out.length, by rw [Nat.mod_eq_of_lt hcap], ⟨a, by simp, hk⟩, ?_⟩
          intro j c hj hc
          rw [List.getElem?_append_left hj] at hc
          have := getLast_max h1 hl c (List.mem_of_getElem? hc)
          have : c / 2 ^ S ≤ l / 2 ^ S := Nat.div_le_div_right this
          omega
        · rw [if_neg (by omega)]
          obtain ⟨i, i1, ⟨b, i2, i3⟩, i4⟩ := h5 l hl k (by omega)
          refine ⟨i, i1, ⟨b, ?_, i3⟩, ?_⟩
          · rw [List.getElem?_append_left (List.getElem?_eq_some_iff.1 i2).1]; exact i2
          · intro j c hj hc
            have hi := (List.getElem?_eq_some_iff.1 i2).1
            rw [List.getElem?_append_left (by omega)] at hc
            exact i4 j c hj hc

theorem loop_inv {M S addr0 n : Nat} {st : St} (h : Inv M S addr0 st) (raw : List Nat)
    (hs : raw.Pairwise (· < ·)) (hgt : ∀ b ∈ st.out, ∀ a ∈ raw, b < a) (hge : ∀ a ∈ raw, a = 0 ∨ addr0 ≤ a)
    (hn : n ≤ 2 ^ M) :
    ∃ st', loop 0 M S addr0 n st raw = some st' ∧ Inv M S addr0 st' ∧
      st'.out = st.out ++ (raw.filter (· ≠ 0)).take (n - st.out.length) := by
  induction raw generalizing st with
  | nil => exact ⟨st, rfl, h, by simp⟩
  | cons a raw ih =>
    unfold loop
    rw [List.pairwise_cons] at hs
    by_cases hc : n ≤ st.out.length
    · rw [if_pos hc]
      refine ⟨st, rfl, h, ?_⟩
      rw [Nat.sub_eq_zero_of_le hc]; simp
    · rw [if_neg hc]
      by_cases ha0 : a = 0
      · have e : step 0 M S addr0 st a = some st := by unfold step; rw [if_pos ha0]
        rw [e]
        obtain ⟨st', e1, e2, e3⟩ := ih h hs.2 (fun b hb c hc => hgt b hb c (by simp [hc])) (fun c hc => hge c (by simp [hc]))
        refine ⟨st', e1, e2, ?_⟩
        rw [e3]; simp [ha0]
      · obtain ⟨st1, e1, h1, o1⟩ := step_inv h (a := a) (fun b hb => hgt b hb a (by simp))
          (by rcases hge a (by simp) with h | h; exact absurd h ha0; exact h) (by omega)
        rw [e1]
        rw [if_neg ha0] at o1
        obtain ⟨st', e1, e2, e3⟩ := ih h1 hs.2
          (by
            intro b hb c hc
            rw [o1] at hb
            rcases List.mem_append.1 hb with hb | hb
            · exact hgt b hb c (by simp [hc])
            · simp at hb; subst hb; exact hs.1 c hc)
          (fun c hc => hge c (by simp [hc]))
        refine ⟨st', e1, e2, ?_⟩
        rw [e3, o1]
        have : n - st.out.length = (n - (st.out ++ [a]).length) + 1 := by simp; omega
        rw [this, List.filter_cons_of_pos (by simpa using ha0), List.take_succ_cons, List.append_assoc]
        rfl

/-- Counting set bits in a range counts the records in that range. -/
theorem countSet_eq {bit : Nat → Bool} {out : List Nat} {base : Nat} (hs : out.Pairwise (· < ·))
    (hb : ∀ i, bit i = true ↔ ∃ a ∈ out, i = a - base) (hge : ∀ a ∈ out, base ≤ a) (lo hi : Nat) :
    countSet bit lo hi = (out.filter (fun a => decide (lo ≤ a - base ∧ a - base < hi))).length := by
  unfold countSet
  apply Nat.le_antisymm
  · have : ((List.range' lo (hi - lo)).filter (fun i => bit i)).length ≤
        ((out.filter (fun a => decide (lo ≤ a - base ∧ a - base < hi))).map (fun a => a - base)).length := by
      apply List.Nodup.length_le_of_subset
      · exact (List.nodup_range' (step := 1)).filter _
      · intro i hi'
        rw [List.mem_filter, List.mem_range'_1] at hi'
        obtain ⟨a, ha, e⟩ := (hb i).1 hi'.2
        rw [List.mem_map]
        refine ⟨a, ?_, e.symm⟩
        rw [List.mem_filter]
        refine ⟨ha, ?_⟩
        rw [decide_eq_true_eq]; omega
    simpa using this
  · have : ((out.filter (fun a => decide (lo ≤ a - base ∧ a - base < hi))).map (fun a => a - base)).length ≤
        ((List.range' lo (hi - lo)).filter (fun i => bit i)).length := by
      apply List.Nodup.length_le_of_subset
      · have : ((out.filter (fun a => decide (lo ≤ a - base ∧ a - base < hi))).map (fun a => a - base)).Pairwise (· < ·) := by
          rw [List.pairwise_map]
          refine List.Pairwise.imp_of_mem ?_ (hs.filter _)
          intro a b ha hb' hab
          have := hge a (List.mem_filter.1 ha).1
          omega
        exact this.imp (fun h => Nat.ne_of_lt h)
      · intro i hi'
        obtain ⟨a, ha, e⟩ := List.mem_map.1 hi'
        rw [List.mem_filter, decide_eq_true_eq] at ha
        rw [List.mem_filter, List.mem_range'_1]
        exact ⟨by omega, (hb i).2 ⟨a, ha.1, e.symm⟩⟩
    simpa using this

/-- In a sorted list, the number of records in `(a, addr]` after position `i` of `a`. -/
theorem lastLe_count {out : List Nat} (hs : out.Pairwise (· < ·)) {i a addr : Nat} (hi : out[i]? = some a)
    (hle : a ≤ addr) :
    LastLe out addr (i + (out.filter (fun b => decide (a < b ∧ b ≤ addr))).length) := by
  induction out generalizing i a with
  | nil => simp at hi
  | cons x out ih =>
    rw [List.pairwise_cons] at hs
    cases i with
    | zero =>
      simp only [List.getElem?_cons_zero, Option.some.injEq] at hi
      subst hi
      rw [List.filter_cons_of_neg (by simp)]
      cases out with
      | nil =>
        refine ⟨⟨x, by simp, hle⟩, ?_⟩
        intro j b hj hb
        cases j with
        | zero => omega
        | succ j => simp at hb
      | cons y out =>
        by_cases hy : y ≤ addr
        · have := ih hs.2 (i := 0) (a := y) (by simp) hy
          have hxy := hs.1 y (by simp)
          have e : (List.filter (fun b => decide (x < b ∧ b ≤ addr)) (y :: out)).length =
              (List.filter (fun b => decide (y < b ∧ b ≤ addr)) (y :: out)).length + 1 := by
            rw [List.filter_cons_of_pos (by simpa using ⟨hxy, hy⟩), List.filter_cons_of_neg (by simp), List.length_cons]
            congr 2
            apply List.filter_congr
            intro b hb
            have h1 := (List.pairwise_cons.1 hs.2).1 b hb
            simp only [decide_eq_decide]; omega
          rw [e]
          obtain ⟨⟨b, b1, b2⟩, b3⟩ := this
          simp only [Nat.zero_add] at b1 b3 ⊢
          refine ⟨⟨b, by simpa using b1, b2⟩, ?_⟩
          intro j c hj hc
          cases j with
          | zero => omega
          | succ j => exact b3 j c (by omega) (by simpa using hc)
        · have e : (List.filter (fun b => decide (x < b ∧ b ≤ addr)) (y :: out)) = [] := by
            rw [List.filter_eq_nil_iff]
            intro b hb
            simp only [decide_eq_true_eq]
            rcases List.mem_cons.1 hb with h | h
            · omega
            · have := (List.pairwise_cons.1 hs.2).1 b h; omega
          rw [e]
          refine ⟨⟨x, by simp, hle⟩, ?_⟩
          intro j b hj hb
          cases j with
          | zero => simp at hj
          | succ j =>
            simp only [List.getElem?_cons_succ] at hb
            have hm := List.mem_of_getElem? hb
            rcases List.mem_cons.1 hm with h | h
            · omega
            · have := (List.pairwise_cons.1 hs.2).1 b h; omega
    | succ i =>
      simp only [List.getElem?_cons_succ] at hi
      have hx := hs.1 a (List.mem_of_getElem? hi)
      rw [List.filter_cons_of_neg (by simp; omega)]
      obtain ⟨⟨b, b1, b2⟩, b3⟩ := ih hs.2 hi hle
      have e : i + 1 + (List.filter (fun b => decide (a < b ∧ b ≤ addr)) out).length =
        (i + (List.filter (fun b => decide (a < b ∧ b ≤ addr)) out).length) + 1 := by omega
      rw [e]
      refine ⟨⟨b, by simpa using b1, b2⟩, ?_⟩
      intro j c hj hc
      cases j with
      | zero => omega
      | succ j => exact b3 j c (by omega) (by simpa using hc)

/-- C18 (partial): generate from any sorted records in the range, then look up any address of the
range up to the coarse range of the last record, other than the very first record's own address:
the answer is the last record at or below the address, and "none" exactly when all start above.
Partial: byte granularity (`log2_align = 0`), a range starting at a multiple of 64, at most `2^M`
records, and no lookup in coarse range number `2^M - 1`. -/
theorem lookup_partial (M S addr0 range n : Nat) (raw : List Nat) (hs : raw.Pairwise (· < ·))
    (hge : ∀ a ∈ raw, a = 0 ∨ addr0 ≤ a) (hal : 64 ∣ addr0) (hn : n ≤ 2 ^ M) :
    ∃ st, generate 0 M S addr0 range n raw = some st ∧ st.out = (raw.filter (· ≠ 0)).take n ∧
      ∀ addr, addr0 ≤ addr → addr / 2 ^ S - addr0 / 2 ^ S ≠ 2 ^ M - 1 →
        (∃ l, st.out.getLast? = some l ∧ addr / 2 ^ S ≤ l / 2 ^ S) → st.out.head? ≠ some addr →
        match lookup 0 M S addr0 st addr with
        | .idx i => LastLe st.out addr i
        | .notFound => ∀ a ∈ st.out, addr < a
        | .badRead => False := by
  have h0 : Inv M S addr0 ⟨[], fun _ => false, fun _ => none, none⟩ :=
    ⟨by simp, by simp, by simp, by simp, by simp⟩
  obtain ⟨st, e, hi, ho⟩ := loop_inv (n := n) h0 raw hs (by simp) hge hn
  unfold generate
  rw [e]
  simp only [List.nil_append, List.length_nil, Nat.sub_zero] at ho
  refine ⟨_, rfl, ho, ?_⟩
  simp only
  rintro addr ha hsent ⟨l, hl, hal'⟩ hne
  obtain ⟨h1, h2, h3, h4, h5⟩ := hi
  have hl0 : addr0 / 2 ^ S ≤ l / 2 ^ S :=
    Nat.div_le_div_right (h3 l (by
      rcases List.eq_nil_or_concat st.out with e | ⟨A, p, e⟩
      · rw [e] at hl; simp at hl
      · rw [List.concat_eq_append] at e; rw [e] at hl ⊢; simp at hl; simp [hl]))
  unfold lookup
  simp only
  rw [if_neg hsent, h4, hl]
  simp only [Option.map_some]
  rw [if_neg (by omega)]
  obtain ⟨i, i1, ⟨ea, i2, i3⟩, i4⟩ := h5 l hl (addr / 2 ^ S - addr0 / 2 ^ S) (by omega)
  rw [i1]
  simp only [i2]
  have hilen := (List.getElem?_eq_some_iff.1 i2).1
  have hea0 : addr0 / 2 ^ S ≤ ea / 2 ^ S := Nat.div_le_div_right (h3 ea (List.mem_of_getElem? i2))
  have hadiv : addr0 / 2 ^ S ≤ addr / 2 ^ S := Nat.div_le_div_right ha
  have hmono : ∀ j c, i < j → st.out[j]? = some c → ea < c := by
    intro j c hj hc
    obtain ⟨x1, x2⟩ := List.getElem?_eq_some_iff.1 i2
    obtain ⟨y1, y2⟩ := List.getElem?_eq_some_iff.1 hc
    rw [← x2, ← y2]; exact List.pairwise_iff_getElem.1 h1 i j x1 y1 hj
  by_cases c1 : ea ≥ addr ∧ i = 0
  · rw [if_pos c1]
    simp only
    intro a hain
    have hne' : ea ≠ addr := by
      rintro rfl
      rw [c1.2] at i2
      exact hne (by rw [List.head?_eq_getElem?]; exact i2)
    obtain ⟨j, hj⟩ := List.getElem?_of_mem hain
    rcases Nat.eq_zero_or_pos j with h | h
    · rw [h] at hj; rw [c1.2] at i2; rw [i2] at hj; cases hj; omega
    · have := hmono j a (by omega) hj; omega
  · rw [if_neg c1]
    by_cases c2 : ea > addr
    · rw [if_pos c2]
      simp only
      have hpos : 0 < i := by omega
      have hlt : i - 1 < st.out.length := by omega
      refine ⟨⟨st.out[i - 1], List.getElem?_eq_getElem hlt, ?_⟩, ?_⟩
      · have := i4 (i - 1) _ (by omega) (List.getElem?_eq_getElem hlt)
        rcases Nat.lt_or_ge addr st.out[i-1] with h | h
        · have : addr / 2 ^ S ≤ st.out[i-1] / 2 ^ S := Nat.div_le_div_right (by omega)
          omega
        · exact h
      · intro j a hj hja
        rcases Nat.lt_or_ge i j with h | h
        · have := hmono j a h hja; omega
        · have : j = i := by omega
          rw [this, i2] at hja; cases hja; omega
    · rw [if_neg c2]
      by_cases c3 : ea = addr
      · rw [if_pos c3]
        simp only
        exact ⟨⟨ea, i2, by omega⟩, fun j a hj hja => by have := hmono j a hj hja; omega⟩
      · rw [if_neg c3]
        simp only
        have hb64 : 64 * 2 ^ 0 * (addr0 / (64 * 2 ^ 0)) = addr0 := by
          simp only [Nat.pow_zero, Nat.mul_one]; exact Nat.mul_div_cancel' hal
        have hb32 : ∀ a, bitFor 0 addr0 a = a - addr0 := by
          intro a
          unfold bitFor
          simp only [Nat.pow_zero, Nat.mul_one, Nat.div_one]
          rw [Nat.mul_div_cancel' (Nat.dvd_trans (by decide) hal)]
        rw [hb64, countSet_eq h1 (by intro i; rw [h2]; simp only [hb32]) h3]
        have key := lastLe_count h1 i2 (addr := addr) (by omega)
        have e : (st.out.filter (fun b => decide (ea < b ∧ b ≤ addr))) =
            (st.out.filter (fun a => decide (ea - addr0 + 1 ≤ a - addr0 ∧ a - addr0 < addr - addr0 + 1))) := by
          apply List.filter_congr
          intro b hb
          have := h3 b hb
          have := h3 ea (List.mem_of_getElem? i2)
          simp only [decide_eq_decide]; omega
        rw [← e]
        exact key

/-- The bitmap while it is being generated, at any granularity. -/
def Marked (L addr0 : Nat) (st : St) : Prop :=
  ∀ i, st.bit i = true ↔ ∃ a ∈ st.out, i = (a - addr0 / (32 * 2 ^ L) * (32 * 2 ^ L)) / 2 ^ L

theorem step_marked {L M S addr0 : Nat} {st st' : St} {a : Nat} (h : Marked L addr0 st) (hs : step L M S addr0 st a = some st') :
    Marked L addr0 st' := by
  have hb : bitFor L addr0 a = (a - addr0 / (32 * 2 ^ L) * (32 * 2 ^ L)) / 2 ^ L := by
    unfold bitFor; simp only; rw [Nat.mul_comm (32 * 2 ^ L)]
  have key : Marked L addr0 { st with out := st.out ++ [a], bit := fun i => if i = bitFor L addr0 a then true else st.bit i } := by
    intro i
    simp only [List.mem_append, List.mem_singleton]
    by_cases c : i = bitFor L addr0 a
    · rw [if_pos c]
      exact ⟨fun _ => ⟨a, Or.inr rfl, by rw [c, hb]⟩, fun _ => rfl⟩
    · rw [if_neg c, h i]
      constructor
      · rintro ⟨x, h1, h2⟩; exact ⟨x, Or.inl h1, h2⟩
      · rintro ⟨x, h1 | h1, h2⟩
        · exact ⟨x, h1, h2⟩
        · subst h1; exact absurd (by rw [h2, hb]) c
  unfold step at hs
  split at hs
  · cases hs; exact h
  · simp only at hs
    split at hs
    · cases hs; exact key
    · split at hs
      · cases hs
      · cases hs; exact key

theorem loop_marked {L M S addr0 n : Nat} {st st' : St} (raw : List Nat) (h : Marked L addr0 st)
    (hs : loop L M S addr0 n st raw = some st') : Marked L addr0 st' := by
  induction raw generalizing st with
  | nil => cases hs; exact h
  | cons a raw ih =>
    unfold loop at hs
    split at hs
    · cases hs; exact h
    · cases h1 : step L M S addr0 st a with
      | none => rw [h1] at hs; cases hs
      | some x => rw [h1] at hs; exact ih (step_marked h h1) hs

/-- C18, bitmap: at any granularity, the generated bitmap has a bit set exactly where some record
starts in the corresponding unit. -/
theorem bitmap_exact (L M S addr0 range n : Nat) (raw : List Nat) (st : St)
    (h : generate L M S addr0 range n raw = some st) (i : Nat) :
    st.bit i = true ↔ ∃ a ∈ st.out, i = (a - addr0 / (32 * 2 ^ L) * (32 * 2 ^ L)) / 2 ^ L := by
  unfold generate at h
  split at h
  · cases h
  · rename_i x hx
    cases h
    have := loop_marked raw (st := ⟨[], fun _ => false, fun _ => none, none⟩) (by intro i; simp) hx
    exact this i

theorem step_unwritten {L M S addr0 : Nat} {st st' : St} {a k : Nat} (h : st.sc k = none)
    (hs : step L M S addr0 st a = some st') (hk : ∀ b ∈ st'.out, b / 2 ^ S - addr0 / 2 ^ S < k) : st'.sc k = none := by
  unfold step at hs
  split at hs
  · cases hs; exact h
  · simp only at hs
    split at hs
    · cases hs; exact h
    · split at hs
      · cases hs
      · cases hs
        have := hk a (by simp)
        simp only [writeSc]
        rw [if_neg (by omega)]; exact h

theorem step_out {L M S addr0 : Nat} {st st' : St} {a : Nat} (hs : step L M S addr0 st a = some st') :
    ∀ b ∈ st.out, b ∈ st'.out := by
  intro b hb
  unfold step at hs
  split at hs
  · cases hs; exact hb
  · simp only at hs
    split at hs
    · cases hs; simp [hb]
    · split at hs
      · cases hs
      · cases hs; simp [hb]

theorem loop_out {L M S addr0 n : Nat} {st st' : St} (raw : List Nat) (hs : loop L M S addr0 n st raw = some st') :
    ∀ b ∈ st.out, b ∈ st'.out := by
  induction raw generalizing st with
  | nil => cases hs; exact fun b hb => hb
  | cons a raw ih =>
    unfold loop at hs
    split at hs
    · cases hs; exact fun b hb => hb
    · cases h1 : step L M S addr0 st a with
      | none => rw [h1] at hs; cases hs
      | some x => rw [h1] at hs; exact fun b hb => ih hs b (step_out h1 b hb)

theorem loop_unwritten {L M S addr0 n k : Nat} {st st' : St} (raw : List Nat) (h : st.sc k = none)
    (hs : loop L M S addr0 n st raw = some st') (hk : ∀ b ∈ st'.out, b / 2 ^ S - addr0 / 2 ^ S < k) : st'.sc k = none := by
  induction raw generalizing st with
  | nil => cases hs; exact h
  | cons a raw ih =>
    unfold loop at hs
    split at hs
    · cases hs; exact h
    · cases h1 : step L M S addr0 st a with
      | none => rw [h1] at hs; cases hs
      | some x =>
        rw [h1] at hs
        exact ih (step_unwritten h h1 (fun b hb => hk b (loop_out raw hs b hb))) hs

/-- C18, bounds: no shortcut entry beyond both the address range and the last record's coarse range is
written. -/
theorem shortcut_bounds (L M S addr0 range n : Nat) (raw : List Nat) (st : St)
    (h : generate L M S addr0 range n raw = some st) (k : Nat) (hk : range / 2 ^ S ≤ k)
    (ho : ∀ a ∈ st.out, a / 2 ^ S - addr0 / 2 ^ S < k) : st.sc k = none := by
  unfold generate at h
  split at h
  · cases h
  · rename_i x hx
    cases h
    simp only at ho ⊢
    have := loop_unwritten (k := k) raw rfl hx ho
    rw [if_neg (by intro hh; exact absurd hh.2 (by omega))]
    exact this

/-- C18, shortcuts: every coarse range of the address range beyond the last record's has the sentinel,
and every one has some entry. -/
theorem sentinel_exact (M S addr0 range n : Nat) (raw : List Nat) (hs : raw.Pairwise (· < ·))
    (hge : ∀ a ∈ raw, a = 0 ∨ addr0 ≤ a) (hn : n ≤ 2 ^ M) :
    ∃ st, generate 0 M S addr0 range n raw = some st ∧ ∀ k, k < range / 2 ^ S →
      if (∃ a ∈ st.out, k ≤ a / 2 ^ S - addr0 / 2 ^ S) then ∃ i a, st.sc k = some i ∧ st.out[i]? = some a ∧ k ≤ a / 2 ^ S - addr0 / 2 ^ S
      else st.sc k = some (2 ^ M - 1) := by
  have h0 : Inv M S addr0 ⟨[], fun _ => false, fun _ => none, none⟩ := ⟨by simp, by simp, by simp, rfl, by simp⟩
  obtain ⟨st, e, hi, ho⟩ := loop_inv h0 raw hs (by simp) hge hn
  unfold generate
  rw [e]
  refine ⟨_, rfl, ?_⟩
  intro k hk
  simp only
  rw [hi.lastW]
  cases hl : st.out.getLast? with
  | none =>
    rw [List.getLast?_eq_none_iff] at hl
    rw [hl]
    simp [hk]
  | some l =>
    have hmax := getLast_max hi.sorted hl
    have hmem := List.mem_of_getLast? hl
    simp only [Option.map_some]
    by_cases c : k ≤ l / 2 ^ S - addr0 / 2 ^ S
    · rw [if_pos ⟨l, hmem, c⟩, if_neg (by omega)]
      obtain ⟨i, h1, ⟨a, h2, h3⟩, _⟩ := hi.sc l hl k c
      exact ⟨i, a, h1, h2, h3⟩
    · rw [if_neg, if_pos (by omega)]
      rintro ⟨a, ha, hka⟩
      have := Nat.div_le_div_right (c := 2 ^ S) (hmax a ha)
      omega

/-- Four records over three coarse ranges of 256 bytes; a lookup between the last two. -/
example : ∃ st, generate 0 16 8 0x400000 0x300000 10 [0, 0x400010, 0x400020, 0x400330, 0x400340] = some st ∧
    lookup 0 16 8 0x400000 st 0x400335 = .idx 2 ∧ lookup 0 16 8 0x400000 st 0x40020f = .idx 1 := by
  exact ⟨_, rfl, by decide +kernel, by decide +kernel⟩

/-- The first record's own address is answered with "none". -/
theorem lookup_first_fails : ∃ st, generate 0 16 8 0x400000 0x300000 10 [0x400010, 0x400020] = some st ∧
    lookup 0 16 8 0x400000 st 0x400010 = .notFound ∧ LastLe st.out 0x400010 0 := by
  refine ⟨_, rfl, by decide, ⟨0x400010, rfl, by decide⟩, ?_⟩
  intro j a hj ha
  have hm := List.mem_of_getElem? ha
  match j, hj with
  | 1, _ => have : 0x400020 = a := by injection ha
            omega
  | j + 2, _ => exact absurd ha (by simp)

/-- A lookup beyond the coarse range of the last record reads outside the vector. -/
theorem lookup_beyond_fails : ∃ st, generate 0 16 8 0x400000 0x300000 10 [0x400010, 0x400020] = some st ∧
    lookup 0 16 8 0x400000 st 0x400130 = .badRead := ⟨_, rfl, by decide⟩

/-- With 8-byte alignment the bit positions set and counted differ, and the answer is wrong: the
record at `0x400080` is the last at or below `0x400100`, but record 0 is answered. -/
theorem lookup_aligned_fails : ∃ st, generate 3 16 12 0x400000 0x300000 10 [0x400010, 0x400080] = some st ∧
    lookup 3 16 12 0x400000 st 0x400100 = .idx 0 ∧ st.out[1]? = some 0x400080 := by
  exact ⟨_, rfl, by decide +kernel, rfl⟩

end Liballocs.Metavec
