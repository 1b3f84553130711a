import Verif.Model.PackedSeq
namespace Liballocs.PackedSeq

/-! ## Specification of a laid-out sequence -/

/-- Start offset of element `i`, given the sizes: each element starts at the first aligned offset after
the one before it. -/
def start (a : Nat) (size : Nat → Nat) : Nat → Nat
  | 0 => 0
  | i + 1 => (start a size i + size i + (a - 1)) / a * a

/-- The sequence consists of `n` elements of the given sizes and types. -/
structure Laid (f : Fam) (n : Nat) (size type : Nat → Nat) : Prop where
  al : 0 < f.align
  aligned : f.align ∣ f.begin
  pos : ∀ i, i < n → 0 < size i
  enum : ∀ i, i < n → f.enum (start f.align size i) = some (size i, type i)
  stop : f.enum (start f.align size n) = none
  fits : ∀ i, i < n → start f.align size i + size i ≤ f.len
  cover : f.len ≤ start f.align size n

/-- The records fit in the bit-fields. -/
structure Storable (f : Fam) (w : Widths) (n : Nat) (size type : Nat → Nat) : Prop where
  mem : ∀ i, i < n → type i ∈ f.types
  ntypes : f.types.length ≤ 2 ^ w.typeBits
  units : ∀ i, i < n → (start f.align size (i+1) - start f.align size i) / f.align < 2 ^ w.sizeBits
  delta : ∀ i, i < n → start f.align size (i+1) - (start f.align size i + size i) < 2 ^ w.deltaBits

/-- An offset lies inside element `i`. -/
def Inside (f : Fam) (size : Nat → Nat) (i off : Nat) : Prop :=
  start f.align size i ≤ off ∧ off < start f.align size i + size i

section
variable {f : Fam} {n : Nat} {size type : Nat → Nat}

theorem le_rup {a : Nat} (ha : 0 < a) (x : Nat) : x ≤ (x + (a-1)) / a * a := by
  have h := Nat.div_add_mod (x + (a-1)) a
  have h2 := Nat.mod_lt (x + (a-1)) ha
  rw [Nat.mul_comm] at h
  omega

theorem rup_le {a : Nat} (ha : 0 < a) {x y : Nat} (hy : a ∣ y) (h : x ≤ y) : (x + (a-1)) / a * a ≤ y := by
  obtain ⟨k, rfl⟩ := hy
  have : (x + (a-1)) / a ≤ k := by
    have : (x + (a-1)) / a < k + 1 := by
      rw [Nat.div_lt_iff_lt_mul ha, Nat.add_mul, Nat.mul_comm k a]; omega
    omega
  rw [Nat.mul_comm a k]; exact Nat.mul_le_mul_right _ this

theorem start_dvd (a : Nat) (size : Nat → Nat) : ∀ i, a ∣ start a size i
  | 0 => Nat.dvd_zero _
  | _ + 1 => Nat.dvd_mul_left _ _

theorem start_succ {a : Nat} (ha : 0 < a) (size : Nat → Nat) (i : Nat) :
    start a size i + size i ≤ start a size (i+1) := le_rup ha _

theorem start_mono {a : Nat} (ha : 0 < a) (size : Nat → Nat) {i j : Nat} (h : i ≤ j) :
    start a size i ≤ start a size j := by
  induction h with
  | refl => exact Nat.le_refl _
  | step _ ih => exact Nat.le_trans ih (Nat.le_trans (Nat.le_add_right _ _) (start_succ ha _ _))

theorem Laid.lt (L : Laid f n size type) {i j : Nat} (h : i < j) (hi : i < n) :
    start f.align size i < start f.align size j := by
  have := start_succ L.al size i
  have := start_mono L.al size (show i+1 ≤ j by omega)
  have := L.pos i hi
  omega

theorem Laid.inj (L : Laid f n size type) {i j : Nat} (hi : i < n) (hj : j < n)
    (h : start f.align size i = start f.align size j) : i = j := by
  rcases Nat.lt_trichotomy i j with h1 | h1 | h1
  · have := L.lt h1 hi; omega
  · exact h1
  · have := L.lt h1 hj; omega

/-- Bitmap index of element `i`. -/
def sidx (f : Fam) (size : Nat → Nat) (i : Nat) : Nat := start f.align size i / f.align

theorem sidx_mul (size : Nat → Nat) (i : Nat) : sidx f size i * f.align = start f.align size i :=
  Nat.div_mul_cancel (start_dvd _ _ _)

theorem Laid.sidx_lt (L : Laid f n size type) {i j : Nat} (h : i < j) (hi : i < n) : sidx f size i < sidx f size j := by
  have := L.lt h hi
  rw [← sidx_mul, ← sidx_mul] at this
  exact Nat.lt_of_mul_lt_mul_right this

theorem base_eq (L : Laid f n size type) : base f = f.begin := Nat.div_mul_cancel L.aligned

theorem bidx_eq (L : Laid f n size type) (off : Nat) : bidx f (f.begin + off) = off / f.align := by
  rw [bidx, base_eq L, Nat.add_sub_cancel_left]

theorem rup_begin (L : Laid f n size type) (x : Nat) : rup (f.begin + x) f.align = f.begin + (x + (f.align-1))/f.align*f.align := by
  obtain ⟨k, hk⟩ := L.aligned
  unfold rup
  rw [Nat.add_assoc, hk, Nat.mul_add_div L.al, Nat.add_mul, Nat.mul_comm k, ]

/-- The record of element `i`. -/
def recOf (f : Fam) (w : Widths) (size type : Nat → Nat) (i : Nat) : MRec :=
  mkRec w f.types (type i) ((start f.align size (i+1) - start f.align size i) / f.align)
    (start f.align size (i+1) - (start f.align size i + size i))

/-- The cache holds exactly the first `m` elements. -/
structure Holds (f : Fam) (size type : Nat → Nat) (m : Nat) (c : Cache) : Prop where
  upTo : c.upTo = start f.align size m
  bits : ∀ j, c.bits j = true ↔ ∃ i, i < m ∧ j = sidx f size i
  room : ∀ i, i < m → sidx f size i < 64 * c.nwords
  recs : ∀ w, f.mv = some w → c.recs = (List.range m).map (recOf f w size type)

/-- No element starts just above the target after padding below it. -/
def GoodT (f : Fam) (n : Nat) (size : Nat → Nat) (t : Nat) : Prop :=
  ∀ j, j + 1 < n → start f.align size j + size j < t → start f.align size (j+1) ≤ t

/-- Adding one element to the cache. -/
def addEl (f : Fam) (size type : Nat → Nat) (m : Nat) (c : Cache) : Cache :=
  { upTo := start f.align size (m+1), nwords := c.nwords,
    bits := fun j => if j = sidx f size m then true else c.bits j,
    recs := match f.mv with | none => c.recs | some w => c.recs ++ [recOf f w size type m] }

theorem addEl_holds {m : Nat} {c : Cache} (H : Holds f size type m c)
    (hr : sidx f size m < 64 * c.nwords) : Holds f size type (m+1) (addEl f size type m c) := by
  refine ⟨rfl, ?_, ?_, ?_⟩
  · intro j
    show (if j = sidx f size m then true else c.bits j) = true ↔ _
    constructor
    · intro h
      by_cases hj : j = sidx f size m
      · exact ⟨m, by omega, hj⟩
      · rw [if_neg hj, H.bits] at h
        obtain ⟨i, h1, h2⟩ := h
        exact ⟨i, by omega, h2⟩
    · rintro ⟨i, h1, h2⟩
      by_cases hj : j = sidx f size m
      · rw [if_pos hj]
      · rw [if_neg hj, H.bits]
        exact ⟨i, by have : i ≠ m := (by rintro rfl; exact hj h2); omega, h2⟩
  · intro i hi
    by_cases h : i = m
    · subst h; exact hr
    · exact H.room i (by omega)
  · intro w hw
    have := H.recs w hw
    simp only [addEl, hw, this, List.range_succ, List.map_append, List.map_cons, List.map_nil]

theorem step_eq (L : Laid f n size type) {m t k : Nat} {c : Cache} (hm : m < n) :
    cacheLoop f t (k+1) (f.begin + start f.align size m) c =
      if sidx f size m ≥ 64 * c.nwords then .overrun
      else if start f.align size m + size m ≥ t then .ok (addEl f size type m c)
      else cacheLoop f t k (f.begin + start f.align size (m+1)) (addEl f size type m c) := by
  have e1 : f.enum (f.begin + start f.align size m - f.begin) = some (size m, type m) := by
    rw [Nat.add_sub_cancel_left]; exact L.enum m hm
  have e2 : rup (f.begin + start f.align size m + size m) f.align = f.begin + start f.align size (m+1) := by
    rw [Nat.add_assoc, rup_begin L]; rfl
  have e3 : bidx f (f.begin + start f.align size m) = sidx f size m := bidx_eq L _
  have e4 : f.begin + start f.align size (m+1) - (f.begin + start f.align size m) =
      start f.align size (m+1) - start f.align size m := by omega
  have e5 : f.begin + start f.align size (m+1) - (f.begin + start f.align size m + size m) =
      start f.align size (m+1) - (start f.align size m + size m) := by omega
  have e6 : (f.begin + start f.align size m + size m ≥ f.begin + t) ↔ start f.align size m + size m ≥ t := by omega
  rw [cacheLoop, e1]
  simp only [e2, e3, e4, e5, e6, Nat.add_sub_cancel_left]
  cases hmv : f.mv <;> simp only [addEl, hmv, recOf]

theorem loop (L : Laid f n size type) (t : Nat) (ht : t ≤ f.len) : ∀ k m c, m ≤ n → n < k + m → Holds f size type m c →
    (m < n → start f.align size m ≤ t ∨ ¬ GoodT f n size t) → (∀ x, x ≤ t → x / f.align < 64 * c.nwords) →
    (∃ c' m', cacheLoop f t k (f.begin + start f.align size m) c = .ok c' ∧ m' ≤ n ∧ Holds f size type m' c' ∧
        m ≤ m' ∧ t ≤ start f.align size m') ∨
      (cacheLoop f t k (f.begin + start f.align size m) c = .overrun ∧ ¬ GoodT f n size t) := by
  intro k
  induction k with
  | zero => intro m c h1 h2; omega
  | succ k ih =>
    intro m c hm hk H hg hw
    by_cases hmn : m = n
    · subst hmn
      left
      refine ⟨c, m, ?_, Nat.le_refl _, H, Nat.le_refl _, Nat.le_trans ht L.cover⟩
      rw [cacheLoop, Nat.add_sub_cancel_left, L.stop]
    · have hm' : m < n := by omega
      rw [step_eq L hm']
      by_cases hr : sidx f size m ≥ 64 * c.nwords
      · right
        rw [if_pos hr]
        refine ⟨rfl, fun g => ?_⟩
        rcases hg hm' with h | h
        · have := hw _ h
          unfold sidx at hr; omega
        · exact h g
      · rw [if_neg hr]
        have H' := addEl_holds (type := type) H (by omega : sidx f size m < 64 * c.nwords)
        by_cases he : start f.align size m + size m ≥ t
        · left
          rw [if_pos he]
          exact ⟨_, m+1, rfl, by omega, H', by omega, Nat.le_trans he (start_succ L.al _ _)⟩
        · rw [if_neg he]
          rcases ih (m+1) (addEl f size type m c) (by omega) (by omega) H' (by
            intro h
            by_cases hG : GoodT f n size t
            · left; exact hG m h (by omega)
            · right; exact hG) hw with ⟨c', m', h1, h2, h3, h4, h5⟩ | h
          · exact .inl ⟨c', m', h1, h2, h3, by omega, h5⟩
          · exact .inr h

theorem Laid.n_le (L : Laid f n size type) : ∀ i, i ≤ n → i ≤ start f.align size i
  | 0, _ => Nat.zero_le _
  | i+1, h => by
    have := L.n_le i (by omega)
    have := L.lt (show i < i + 1 by omega) (by omega)
    omega

theorem Laid.n_len (L : Laid f n size type) : n ≤ f.len := by
  by_cases h : n = 0
  · omega
  · have h1 := L.n_le (n-1) (by omega)
    have h2 := L.fits (n-1) (by omega)
    have h3 := L.pos (n-1) (by omega)
    omega

theorem enlarge_room (L : Laid f n size type) (c : Cache) (t x : Nat) (h : x ≤ t) :
    x / f.align < 64 * (enlarge f c t).nwords := by
  have e : (f.begin + t + 1 - base f + (f.align - 1)) / f.align = (t + 1 + (f.align-1)) / f.align := by
    rw [base_eq L]; congr 1; omega
  have h1 : x / f.align < (t + 1 + (f.align - 1)) / f.align := by
    have e2 : t + 1 + (f.align - 1) = t + f.align := by have := L.al; omega
    rw [e2, Nat.add_div_right _ L.al]
    have := Nat.div_le_div_right (c := f.align) h
    omega
  simp only [enlarge, e]
  split
  · simp only; omega
  · omega

theorem enlarge_holds {m : Nat} {c : Cache} (H : Holds f size type m c) (t : Nat) : Holds f size type m (enlarge f c t) := by
  unfold enlarge
  simp only
  split
  · refine ⟨H.upTo, H.bits, fun i hi => ?_, H.recs⟩
    have := H.room i hi
    simp only; omega
  · exact H

/-- What filling the cache achieves. -/
theorem ensure_spec (L : Laid f n size type) {m : Nat} {c : Cache} (hm : m ≤ n) (H : Holds f size type m c)
    {o : Nat} (ho : o ≤ f.len) :
    (∃ c' m', ensure f c o = .ok c' ∧ m' ≤ n ∧ Holds f size type m' c' ∧ m ≤ m' ∧ o ≤ start f.align size m') ∨
      (ensure f c o = .overrun ∧ ¬ GoodT f n size (min f.len (max (2 * c.upTo) o)) ∧ c.upTo < o) := by
  unfold ensure
  by_cases h : c.upTo < o
  · simp only [if_pos h]
    rw [H.upTo] at *
    rcases loop L (min f.len (max (2 * start f.align size m) o)) (by omega) (f.len + 1) m (enlarge f c _) hm
      (by have := L.n_len; omega) (enlarge_holds H _) (fun _ => .inl (by omega)) (fun x hx => enlarge_room L c _ x hx)
      with ⟨c', m', h1, h2, h3, h4, h5⟩ | ⟨h1, h2⟩
    · left
      refine ⟨c', m', ?_, h2, h3, h4, by omega⟩
      rw [h1]
      simp only
      rw [if_pos (by rw [h3.upTo]; omega)]
    · right
      rw [h1]
      exact ⟨rfl, h2, h⟩
  · left
    simp only [if_neg h]
    refine ⟨c, m, ?_, hm, H, Nat.le_refl _, by rw [← H.upTo]; omega⟩
    rw [if_pos (by omega)]

/-- Targets that come from inside an element, from the doubling rule or from the end are all good. -/
theorem good_target (L : Laid f n size type) {m : Nat} {o : Nat}
    (ho : o = f.len ∨ ∃ i, i < n ∧ start f.align size i < o ∧ o ≤ start f.align size i + size i) :
    GoodT f n size (min f.len (max (2 * start f.align size m) o)) := by
  intro j hj hlt
  have hle : start f.align size (j+1) ≤ f.len := by
    have := L.fits (j+1) hj; omega
  have hdvd := start_dvd f.align size (j+1)
  by_cases hc : start f.align size j + size j < 2 * start f.align size m
  · have : start f.align size (j+1) ≤ 2 * start f.align size m :=
      rup_le L.al (Nat.dvd_trans (start_dvd f.align size m) (Nat.dvd_mul_left _ _)) (by omega)
    omega
  · rcases ho with ho | ⟨i, hi, h1, h2⟩
    · omega
    · have hji : j < i := by
        apply Classical.byContradiction
        intro hji
        have : start f.align size i + size i ≤ start f.align size j + size j := by
          rcases Nat.lt_or_ge i j with h | h
          · have := start_succ L.al size i
            have := start_mono L.al size (show i+1 ≤ j by omega)
            omega
          · have : i = j := by omega
            subst this; exact Nat.le_refl _
        omega
      have := start_mono L.al size (show j+1 ≤ i by omega)
      omega

theorem empty_holds : Holds f size type 0 empty :=
  ⟨rfl, fun j => ⟨fun h => by simp [empty] at h, fun ⟨i, h, _⟩ => by omega⟩, fun i h => by omega, fun w _ => rfl⟩

/-! ## Bitmap searches -/

theorem rfind_eq {bits : Nat → Bool} {x i : Nat} (hb : bits i = true) :
    ∀ k, i < k → (∀ j, i < j → j < k → j ≤ x → bits j = false) → k ≤ x + 1 → rfind bits k = some i := by
  intro k
  induction k with
  | zero => intro h; omega
  | succ k ih =>
    intro h1 h2 h3
    rw [rfind]
    by_cases hk : k = i
    · subst hk; rw [if_pos hb]
    · rw [if_neg (by rw [h2 k (by omega) (by omega) (by omega)]; decide)]
      exact ih (by omega) (fun j a b c => h2 j a (by omega) c) (by omega)

theorem find_none {bits : Nat → Bool} : ∀ k i, (∀ j, i ≤ j → bits j = false) → findFrom bits k i = none
  | 0, _, _ => rfl
  | k+1, i, h => by
    rw [findFrom, if_neg (by rw [h i (Nat.le_refl _)]; decide)]
    exact find_none k (i+1) (fun j hj => h j (by omega))

theorem find_some {bits : Nat → Bool} {x : Nat} (hx : bits x = true) :
    ∀ k i, i ≤ x → x < i + k → (∀ j, i ≤ j → j < x → bits j = false) → findFrom bits k i = some x
  | 0, i, h1, h2, _ => by omega
  | k+1, i, h1, h2, h => by
    rw [findFrom]
    by_cases hi : i = x
    · subst hi; rw [if_pos hx]
    · rw [if_neg (by rw [h i (Nat.le_refl _) (by omega)]; decide)]
      exact find_some hx k (i+1) (by omega) (by omega) (fun j a b => h j (by omega) b)

theorem count_eq {m : Nat} {bits : Nat → Bool} {s : Nat → Nat} (hs : ∀ i j, i < j → j < m → s i < s j)
    (hb : ∀ j, bits j = true ↔ ∃ i, i < m ∧ j = s i) :
    ∀ x i, i ≤ m → (∀ k, k < i → s k < x) → (∀ k, i ≤ k → k < m → x ≤ s k) → countBelow bits x = i := by
  intro x
  induction x with
  | zero =>
    intro i hi h1 h2
    rw [countBelow]
    rcases Nat.eq_zero_or_pos i with h | h
    · exact h.symm
    · have := h1 0 h; omega
  | succ x ih =>
    intro i hi h1 h2
    rw [countBelow]
    by_cases hx : bits x = true
    · obtain ⟨k, hk, he⟩ := (hb x).mp hx
      have hki : k < i := by
        apply Classical.byContradiction
        intro h
        have := h2 k (by omega) hk; omega
      have hk1 : k = i - 1 := by
        apply Classical.byContradiction
        intro h
        have := hs k (i-1) (by omega) (by omega)
        have := h1 (i-1) (by omega)
        omega
      rw [if_pos hx, ih (i-1) (by omega) ?_ ?_]
      · omega
      · intro j hj
        have := hs j k (by omega) hk
        omega
      · intro j hj hjm
        by_cases hjk : j = k
        · subst hjk; omega
        · have := hs k j (by omega) hjm; omega
    · rw [if_neg hx]
      refine ih i hi (fun k hk => ?_) (fun k h h' => ?_)
      · have h3 := h1 k hk
        have : s k ≠ x := by
          intro he
          exact hx ((hb x).mpr ⟨k, by omega, he.symm⟩)
        omega
      · have := h2 k h h'; omega

theorem Holds.count (L : Laid f n size type) {m : Nat} (hm : m ≤ n) {c : Cache} (H : Holds f size type m c) {i : Nat} (hi : i < m) :
    countBelow c.bits (sidx f size i) = i :=
  count_eq (fun i j h hj => L.sidx_lt h (by omega)) H.bits _ i (by omega)
    (fun k hk => L.sidx_lt hk (by omega))
    (fun k h hk => by
      by_cases he : i = k
      · subst he; exact Nat.le_refl _
      · exact Nat.le_of_lt (L.sidx_lt (show i < k by omega) (by omega)))

theorem Holds.between (L : Laid f n size type) {m : Nat} (hm : m ≤ n) {c : Cache} (H : Holds f size type m c) {i j : Nat}
    (hi : i < m) (h1 : sidx f size i < j) (h2 : j < sidx f size (i+1)) : c.bits j = false := by
  rw [← Bool.not_eq_true, H.bits]
  rintro ⟨k, hk, rfl⟩
  rcases Nat.lt_trichotomy k i with h | h | h
  · have := L.sidx_lt h (by omega); omega
  · subst h; omega
  · by_cases he : k = i + 1
    · subst he; omega
    · have := L.sidx_lt (show i+1 < k by omega) (by omega); omega

end
end Liballocs.PackedSeq
