import Verif.Proofs.PackedSeq
namespace Liballocs.PackedSeq

/-! # Properties of packed sequences: queries (C33) and walks (C34) -/

/-- The caches reachable from a new sequence by any history of calls that return: queries of any address
in the sequence and walks over any range. -/
inductive Reach (f : Fam) : Cache → Prop where
  | new : Reach f empty
  | query {c c' obj r} : Reach f c → f.begin ≤ obj → obj < f.begin + f.len → getInfo f c obj = .ok (c', r) → Reach f c'
  | walk {c c' b e cb r} : Reach f c → (∀ x, e = some x → x ≤ f.begin + f.len) → walk f c b e cb = .ok (c', r) → Reach f c'

section
variable {f : Fam} {n : Nat} {size type : Nat → Nat}

theorem getInfo_cache {c c' : Cache} {obj : Nat} {r} (h : getInfo f c obj = .ok (c', r)) :
    ensure f c (obj - f.begin + 1) = .ok c' := by
  unfold getInfo at h
  simp only at h
  split at h
  · rename_i c1 h1
    rw [h1]
    split at h
    · cases h; rfl
    · split at h
      · cases h; rfl
      · split at h
        · cases h
        · split at h
          · cases h
          · cases h; rfl
  all_goals cases h

theorem walk_cache {c c' : Cache} {b e cb r} (h : walk f c b e cb = .ok (c', r)) :
    ensure f c (orDefault e (f.begin + f.len) - f.begin) = .ok c' := by
  unfold walk at h
  simp only at h
  split at h
  · rename_i c1 h1
    rw [h1]
    split at h
    · cases h; rfl
    all_goals cases h
  all_goals cases h

/-- Every reachable cache holds exactly some number of leading elements. -/
theorem reach_holds (L : Laid f n size type) {c : Cache} (h : Reach f c) : ∃ m, m ≤ n ∧ Holds f size type m c := by
  induction h with
  | new => exact ⟨0, Nat.zero_le _, empty_holds⟩
  | @query c c' obj r _ h1 h2 h3 ih =>
    obtain ⟨m, hm, H⟩ := ih
    have e := getInfo_cache h3
    rcases ensure_spec L hm H (show obj - f.begin + 1 ≤ f.len by omega) with ⟨c', m', h4, h5, h6, _⟩ | ⟨h4, _⟩
    · rw [h4] at e; cases e
      exact ⟨m', h5, h6⟩
    · rw [h4] at e; cases e
  | walk _ h1 h3 ih =>
    obtain ⟨m, hm, H⟩ := ih
    have e := walk_cache h3
    rename_i c c' b er cb r _
    rcases ensure_spec L hm H (o := orDefault er (f.begin + f.len) - f.begin) (by
      cases er with
      | none => simp only [orDefault]; omega
      | some x => have := h1 x rfl; simp only [orDefault]; omega) with ⟨c', m', h4, h5, h6, _⟩ | ⟨h4, _⟩
    · rw [h4] at e; cases e
      exact ⟨m', h5, h6⟩
    · rw [h4] at e; cases e

theorem find_type {w : Widths} (S : Storable f w n size type) {i : Nat} (hi : i < n) :
    f.types[findIdx f.types (type i) % 2 ^ w.typeBits]? = some (type i) := by
  have hm := S.mem i hi
  unfold findIdx
  cases h : f.types.findIdx? (· == type i) with
  | none =>
    rw [List.findIdx?_eq_none_iff] at h
    have := h _ hm
    simp at this
  | some k =>
    rw [List.findIdx?_eq_some_iff_getElem] at h
    obtain ⟨hk, h1, _⟩ := h
    simp only
    rw [Nat.mod_eq_of_lt (Nat.lt_of_lt_of_le hk S.ntypes), List.getElem?_eq_getElem hk]
    congr 1
    simpa using h1

/-- **C33** (partial).  In a family with a metavector whose records fit their fields, after any history of
queries and walks that returned, a query of any address inside an element succeeds and reports that
element's own start, size and type; the cache it leaves is again reachable. -/
theorem query_partial (L : Laid f n size type) {w : Widths} (hw : f.mv = some w) (S : Storable f w n size type)
    {c : Cache} (h : Reach f c) {i off : Nat} (hi : i < n) (hin : Inside f size i off) :
    ∃ c', Reach f c' ∧ getInfo f c (f.begin + off) =
      .ok (c', some ⟨some (f.begin + start f.align size i), some (size i), some (f.fix (type i) (size i))⟩) := by
  obtain ⟨m, hm, H⟩ := reach_holds L h
  have hfit := L.fits i hi
  obtain ⟨hin1, hin2⟩ := hin
  have heq : f.begin + off - f.begin = off := Nat.add_sub_cancel_left ..
  have hen : ∃ c' m', ensure f c (off + 1) = .ok c' ∧ m' ≤ n ∧ Holds f size type m' c' ∧ m ≤ m' ∧ off + 1 ≤ start f.align size m' := by
    rcases ensure_spec L hm H (show off + 1 ≤ f.len by omega) with h1 | ⟨_, h2, _⟩
    · exact h1
    · rw [H.upTo] at h2
      exact absurd (good_target L (.inr ⟨i, hi, by omega, by omega⟩)) h2
  obtain ⟨c', m', h1, h2, h3, _, h5⟩ := hen
  have him : i < m' := by
    apply Classical.byContradiction
    intro hc
    have := start_mono L.al size (show m' ≤ i by omega)
    omega
  have hq : rfindLeq c' (off / f.align) = some (sidx f size i) := by
    have hbit : c'.bits (sidx f size i) = true := (h3.bits _).mpr ⟨i, him, rfl⟩
    have hle : sidx f size i ≤ off / f.align := Nat.div_le_div_right hin1
    have hlt : off / f.align < sidx f size (i+1) := by
      rw [Nat.div_lt_iff_lt_mul L.al, sidx_mul]
      have := start_succ L.al size i; omega
    refine rfind_eq (x := off / f.align) hbit _ ?_ (fun j a b c => h3.between L h2 him a (by omega)) (by omega)
    have := h3.room i him
    omega
  have hrec : c'.recs[i]? = some (recOf f w size type i) := by
    rw [h3.recs w hw, List.getElem?_map, List.getElem?_range him]; rfl
  have hres : getInfo f c (f.begin + off) =
      .ok (c', some ⟨some (f.begin + start f.align size i), some (size i), some (f.fix (type i) (size i))⟩) := by
    unfold getInfo
    simp only [heq, h1, bidx_eq L, hq, hw, h3.count L h2 him, hrec]
    simp only [recOf, mkRec, find_type S hi, Nat.mod_eq_of_lt (S.units i hi), Nat.mod_eq_of_lt (S.delta i hi)]
    have e1 : (start f.align size (i+1) - start f.align size i) / f.align * f.align =
        start f.align size (i+1) - start f.align size i :=
      Nat.div_mul_cancel (Nat.dvd_sub (start_dvd _ _ _) (start_dvd _ _ _))
    have e2 : start f.align size (i+1) - start f.align size i -
        (start f.align size (i+1) - (start f.align size i + size i)) = size i := by
      have := start_succ L.al size i; omega
    rw [e1, e2, base_eq L, sidx_mul]
  exact ⟨c', Reach.query h (by omega) (by omega) hres, hres⟩

/-! ## Walks -/

/-- The calls a walk should make, cut at the first for which the callback answers non-zero. -/
def cut (cb : Call → Nat) : List Call → List Call × Nat
  | [] => ([], 0)
  | x :: xs => if cb x ≠ 0 then ([x], cb x) else (x :: (cut cb xs).1, (cut cb xs).2)

/-- The report of element `i`: its own start, its type at its own size, its one-based position. -/
def report (f : Fam) (size type : Nat → Nat) (i : Nat) : Call :=
  ⟨f.begin + start f.align size i, f.fix (type i) (size i), i + 1⟩

/-- The elements from the `k`-th that start before a range's end. -/
def inRange (f : Fam) (size : Nat → Nat) (n k : Nat) (e : Option Nat) : List Nat :=
  (List.range' k (n - k)).filter fun i => match e with
    | none => true
    | some e => decide (f.begin + start f.align size i < e)

theorem inRange_nil (L : Laid f n size type) {k x : Nat} (h : x ≤ f.begin + start f.align size k) :
    inRange f size n k (some x) = [] := by
  unfold inRange
  rw [List.filter_eq_nil_iff]
  intro i hi
  simp only [decide_eq_true_eq]
  rw [List.mem_range'] at hi
  obtain ⟨j, hj, rfl⟩ := hi
  have := start_mono L.al size (show k ≤ k + 1 * j by omega)
  omega

theorem inRange_cons {k : Nat} {e : Option Nat} (hk : k < n)
    (h : past e (f.begin + start f.align size k) = false) :
    inRange f size n k e = k :: inRange f size n (k+1) e := by
  unfold inRange
  rw [show n - k = (n - (k+1)) + 1 by omega, List.range'_succ, List.filter_cons]
  rw [if_pos]
  cases e with
  | none => rfl
  | some e => simp only [past, decide_eq_false_iff_not, decide_eq_true_eq] at h ⊢; omega

theorem next_some (L : Laid f n size type) {c : Cache} (H : Holds f size type n c) {k : Nat} (hk : k + 1 < n) :
    findGeq c (sidx f size k + 1) = some (sidx f size (k+1)) := by
  have h1 := L.sidx_lt (show k < k + 1 by omega) (show k < n by omega)
  have h2 := H.room (k+1) hk
  refine find_some ((H.bits _).mpr ⟨k+1, hk, rfl⟩) _ _ (by omega) (by omega) ?_
  intro j a b
  exact H.between L (Nat.le_refl _) (show k < n by omega) (by omega) b

theorem next_none (L : Laid f n size type) {c : Cache} (H : Holds f size type n c) {k : Nat} (hk : k + 1 = n) :
    findGeq c (sidx f size k + 1) = none := by
  refine find_none _ _ (fun j hj => ?_)
  rw [← Bool.not_eq_true, H.bits]
  rintro ⟨i, hi, rfl⟩
  by_cases he : i = k
  · subst he; omega
  · have := L.sidx_lt (show i < k by omega) hi; omega

theorem walkLoop_spec (L : Laid f n size type) (hmv : f.mv = none) {t : Nat} (ht : f.types[0]? = some t)
    (hty : ∀ i, i < n → type i = t) (hex : ∀ i, i < n → f.align ∣ size i) {c : Cache} (H : Holds f size type n c)
    (p : Nat) (e : Option Nat) (cb : Call → Nat) :
    ∀ d k fuel acc, n - k = d → k < n → d < fuel →
    walkLoop f c p e cb fuel (some (sidx f size k)) k acc =
      .ok (acc ++ (cut cb ((inRange f size n k e).map (report f size type))).1,
        (cut cb ((inRange f size n k e).map (report f size type))).2) := by
  intro d
  induction d with
  | zero => intro k fuel acc h1 h2; omega
  | succ d ih =>
    intro k fuel acc hd hk hf
    obtain ⟨fuel, rfl⟩ : ∃ g, fuel = g + 1 := ⟨fuel - 1, by omega⟩
    rw [walkLoop.eq_def]
    have hobj : base f + sidx f size k * f.align = f.begin + start f.align size k := by rw [base_eq L, sidx_mul]
    simp only [hobj, hmv, ht]
    by_cases hr : past e (f.begin + start f.align size k) = true
    · rw [if_pos hr]
      cases e with
      | none => cases hr
      | some x =>
        rw [inRange_nil L (by simpa [past] using hr)]
        simp [cut]
    · rw [if_neg hr]
      rw [Bool.not_eq_true] at hr
      have hst : start f.align size (k+1) = start f.align size k + size k := by
        have h1 := start_succ L.al size k
        have h2 : start f.align size (k+1) ≤ start f.align size k + size k :=
          rup_le L.al (Nat.dvd_add (start_dvd _ _ _) (hex k hk)) (Nat.le_refl _)
        omega
      have hpad : paddedSize f (f.begin + start f.align size k) (sidx f size k) (findGeq c (sidx f size k + 1)) = size k := by
        by_cases hl : k + 1 < n
        · rw [next_some L H hl]
          simp only [paddedSize]
          rw [Nat.sub_mul, sidx_mul, sidx_mul, hst]
          omega
        · have hl : k + 1 = n := by omega
          rw [next_none L H hl]
          simp only [paddedSize]
          have h1 := L.cover
          rw [← hl, hst] at h1
          have h2 := L.fits k hk
          omega
      simp only [hpad]
      have hcall : (⟨f.begin + start f.align size k, f.fix t (size k), k + 1⟩ : Call) = report f size type k := by
        rw [report, hty k hk]
      rw [hcall, inRange_cons hk hr, List.map_cons, cut]
      by_cases hcb : cb (report f size type k) ≠ 0
      · simp only [if_pos hcb]
      · simp only [if_neg hcb]
        by_cases hl : k + 1 < n
        · rw [next_some L H hl, ih (k+1) fuel _ (by omega) hl (by omega)]
          simp
        · have hl : k + 1 = n := by omega
          rw [next_none L H hl]
          obtain ⟨g, rfl⟩ : ∃ g, fuel = g + 1 := ⟨fuel - 1, by omega⟩
          have : inRange f size n (k+1) e = [] := by
            unfold inRange
            rw [hl, Nat.sub_self]; rfl
          rw [walkLoop, this]
          simp [cut]

/-- **C34** (partial).  In a family without a metavector (such as the string tables, the only family in
the code base) whose element sizes are multiples of the alignment, a walk that starts at an
element and either has no upper bound or runs when everything is already cached reports exactly the elements in
the range, once each, in order, each with its own start, type, size and position, up to the first
non-zero answer of the callback, which it returns. -/
theorem walk_partial (L : Laid f n size type) (hmv : f.mv = none) {t : Nat} (ht : f.types[0]? = some t)
    (hty : ∀ i, i < n → type i = t) (hex : ∀ i, i < n → f.align ∣ size i) {c : Cache} (h : Reach f c)
    {k : Nat} (hk : k < n) {b : Option Nat} (hb : b = some (f.begin + start f.align size k) ∨ (b = none ∧ k = 0))
    {e : Option Nat} (he : e = none ∨ (f.len ≤ c.upTo ∧ ∀ x, e = some x → x ≤ f.begin + f.len)) (cb : Call → Nat) :
    ∃ c', Reach f c' ∧ walk f c b e cb = .ok (c', cut cb ((inRange f size n k e).map (report f size type))) := by
  obtain ⟨m, hm, H⟩ := reach_holds L h
  have full : ∀ m c', m ≤ n → Holds f size type m c' → f.len ≤ start f.align size m → m = n := by
    intro m c' hm H hl
    apply Classical.byContradiction
    intro hne
    have h1 := L.fits m (by omega)
    have h2 := L.pos m (by omega)
    omega
  have hen : ∃ c', ensure f c (orDefault e (f.begin + f.len) - f.begin) = .ok c' ∧ Holds f size type n c' := by
    rcases he with rfl | ⟨h1, h2⟩
    · have e0 : f.begin + f.len - f.begin = f.len := Nat.add_sub_cancel_left ..
      simp only [orDefault, e0]
      rcases ensure_spec L hm H (Nat.le_refl f.len) with ⟨c', m', g1, g2, g3, _, g5⟩ | ⟨_, g2, _⟩
      · have := full m' c' g2 g3 g5
        subst this
        exact ⟨c', g1, g3⟩
      · rw [H.upTo] at g2
        exact absurd (good_target L (.inl rfl)) g2
    · have := full m c hm H (by rw [← H.upTo]; exact h1)
      subst this
      refine ⟨c, ?_, H⟩
      have hle : orDefault e (f.begin + f.len) - f.begin ≤ c.upTo := by
        cases e with
        | none => simp only [orDefault]; omega
        | some x => have := h2 x rfl; simp only [orDefault]; omega
      unfold ensure
      rw [if_neg (by omega)]
      simp only
      rw [if_pos hle]
  obtain ⟨c', h1, h3⟩ := hen
  have hstart : bidx f (orDefault b f.begin) = sidx f size k := by
    rcases hb with rfl | ⟨rfl, rfl⟩
    · exact bidx_eq L _
    · exact bidx_eq L 0
  have hfuel : n - k < 64 * c'.nwords + 2 := by
    have h4 := h3.room (n-1) (by omega)
    have : ∀ j, j < n → j ≤ sidx f size j := by
      intro j
      induction j with
      | zero => intro _; exact Nat.zero_le _
      | succ j ih => intro hj; have := ih (by omega); have := L.sidx_lt (show j < j + 1 by omega) (by omega); omega
    have := this (n-1) (by omega)
    omega
  have hres : walk f c b e cb = .ok (c', cut cb ((inRange f size n k e).map (report f size type))) := by
    unfold walk
    simp only [h1, hstart, h3.count L (Nat.le_refl _) hk]
    rw [walkLoop_spec L hmv ht hty hex h3 k e cb (n-k) k _ [] rfl hk hfuel]
    simp
  refine ⟨c', Reach.walk h ?_ hres, hres⟩
  intro x hx
  rcases he with rfl | ⟨_, h2⟩
  · cases hx
  · exact h2 x hx

end

/-! ## The string-table family -/

/-- The strings of a byte sequence: maximal pieces each ending at its first NUL (or at the end). -/
def strings : List Nat → List (List Nat)
  | [] => []
  | b :: bs => if b = 0 then [b] :: strings bs else
    match strings bs with
    | [] => [[b]]
    | s :: ss => (b :: s) :: ss

/-- Length of the `i`-th string. -/
def strSize (bytes : List Nat) (i : Nat) : Nat := (((strings bytes).map List.length)[i]?).getD 0

theorem strings_flatten (bytes : List Nat) : (strings bytes).flatten = bytes := by
  induction bytes with
  | nil => rfl
  | cons b bs ih =>
    rw [strings]
    split
    · simp [ih]
    · split
      · rename_i h
        rw [h] at ih
        simp at ih
        simp [← ih]
      · rename_i s ss h
        rw [h] at ih
        simp at ih
        simp [ih]

theorem strings_head {bytes : List Nat} {s : List Nat} {ss} (h : strings bytes = s :: ss) :
    scan8 bytes = s.length ∧ 0 < s.length ∧ strings (bytes.drop s.length) = ss := by
  induction bytes generalizing s ss with
  | nil => simp [strings] at h
  | cons b bs ih =>
    rw [strings] at h
    rw [scan8]
    by_cases hb : b = 0
    · rw [if_pos hb] at h ⊢
      cases h
      simp
    · rw [if_neg hb] at h ⊢
      cases hs : strings bs with
      | nil =>
        rw [hs] at h
        cases h
        have : bs = [] := by have := strings_flatten bs; rw [hs] at this; simpa using this.symm
        subst this
        simp [scan8, strings]
      | cons s' ss' =>
        rw [hs] at h
        cases h
        obtain ⟨h1, h2, h3⟩ := ih hs
        refine ⟨by simp [h1], by simp, by simpa using h3⟩

theorem strings_drop (bytes : List Nat) : ∀ i, i ≤ (strings bytes).length →
    strings (bytes.drop (start 1 (strSize bytes) i)) = (strings bytes).drop i
  | 0, _ => by simp [start]
  | i+1, h => by
    have ih := strings_drop bytes i (by omega)
    have hc : (strings bytes).drop i = (strings bytes)[i] :: (strings bytes).drop (i+1) :=
      List.drop_eq_getElem_cons (by omega)
    rw [hc] at ih
    have h3 := (strings_head ih).2.2
    rw [List.drop_drop] at h3
    rw [← h3]
    congr 2
    rw [start]
    have : strSize bytes i = ((strings bytes)[i]'(by omega)).length := by
      simp [strSize, List.getElem?_eq_getElem (show i < (strings bytes).length by omega)]
    rw [this]
    simp

theorem start_strings (bytes : List Nat) : ∀ i, i ≤ (strings bytes).length →
    start 1 (strSize bytes) i + ((strings bytes).drop i).flatten.length = bytes.length
  | 0, _ => by simp [start, strings_flatten]
  | i+1, h => by
    have ih := start_strings bytes i (by omega)
    rw [List.drop_eq_getElem_cons (show i < (strings bytes).length by omega), List.flatten_cons, List.length_append] at ih
    rw [start]
    have : strSize bytes i = ((strings bytes)[i]'(by omega)).length := by
      simp [strSize, List.getElem?_eq_getElem (show i < (strings bytes).length by omega)]
    rw [this, Nat.div_one, Nat.mul_one]
    omega

/-- The string-table family enumerates exactly the strings, whatever the bytes. -/
theorem string8_laid (begin : Nat) (bytes : List Nat) (t : Nat) (fix : Nat → Nat → Nat) :
    Laid (string8 begin bytes t fix) (strings bytes).length (strSize bytes) (fun _ => t) := by
  have key : ∀ i (h : i < (strings bytes).length), strSize bytes i = ((strings bytes)[i]).length := by
    intro i h
    simp [strSize, List.getElem?_eq_getElem h]
  have hd : ∀ i (h : i < (strings bytes).length), strings (bytes.drop (start 1 (strSize bytes) i)) =
      (strings bytes)[i] :: (strings bytes).drop (i+1) := by
    intro i h
    rw [strings_drop bytes i (by omega)]
    exact List.drop_eq_getElem_cons h
  have hl : ∀ i (h : i < (strings bytes).length), start 1 (strSize bytes) i + strSize bytes i ≤ bytes.length := by
    intro i h
    have := start_strings bytes i (by omega)
    rw [List.drop_eq_getElem_cons h, List.flatten_cons, List.length_append] at this
    rw [key i h]
    omega
  refine ⟨Nat.one_pos, Nat.one_dvd _, fun i hi => ?_, fun i hi => ?_, ?_, hl, ?_⟩
  · rw [key i hi]; exact (strings_head (hd i hi)).2.1
  · show enum8 bytes t (start 1 (strSize bytes) i) = _
    have h1 := strings_head (hd i hi)
    have h2 := hl i hi
    rw [key i hi] at *
    rw [enum8, if_neg (by omega), h1.1]
  · show enum8 bytes t (start 1 (strSize bytes) (strings bytes).length) = none
    have := start_strings bytes _ (Nat.le_refl _)
    simp at this
    rw [enum8, if_pos this]
  · show bytes.length ≤ start 1 (strSize bytes) (strings bytes).length
    have := start_strings bytes _ (Nat.le_refl _)
    simp at this
    omega

/-- Walking a whole string table, after any history, reports every string once, in order, at its own start and with the
type of an array of its own length. -/
theorem string8_walk (begin : Nat) (bytes : List Nat) (t : Nat) (fix : Nat → Nat → Nat) (hne : bytes ≠ [])
    {c : Cache} (h : Reach (string8 begin bytes t fix) c) (cb : Call → Nat) :
    ∃ c', Reach (string8 begin bytes t fix) c' ∧ walk (string8 begin bytes t fix) c none none cb =
      .ok (c', cut cb ((List.range (strings bytes).length).map fun i =>
        ⟨begin + start 1 (strSize bytes) i, fix t (strSize bytes i), i + 1⟩)) := by
  have hn : 0 < (strings bytes).length := by
    apply Nat.pos_of_ne_zero
    intro h0
    have := strings_flatten bytes
    rw [List.length_eq_zero_iff.mp h0] at this
    exact hne this.symm
  obtain ⟨c', h1, h2⟩ := walk_partial (string8_laid begin bytes t fix) rfl (t := t) rfl (fun _ _ => rfl)
    (fun _ _ => Nat.one_dvd _) h hn (b := none) (.inr ⟨rfl, rfl⟩) (e := none) (.inl rfl) cb
  refine ⟨c', h1, ?_⟩
  rw [h2]
  have : inRange (string8 begin bytes t fix) (strSize bytes) (strings bytes).length 0 none = List.range (strings bytes).length := by
    rw [inRange, List.range_eq_range']
    simp
  rw [this]
  rfl

/-! ## Concrete cases and disagreements -/

def Out.val {α : Type} : Out α → Option α
  | .ok a => some a
  | _ => none

/-- "ab\0c\0" at address 100. -/
def exStr : Fam := string8 100 [97, 98, 0, 99, 0] 7 (fun t sz => 100 * t + sz)

example : (walk exStr empty none none (fun _ => 0)).val.map (·.2) = some ([⟨100, 703, 1⟩, ⟨103, 702, 2⟩], 0) := by decide
example : strings [97, 98, 0, 99, 0] = [[97, 98, 0], [99, 0]] := by decide

/-- Three elements of alignment 4 with a metavector: 5 bytes of type 70, 4 of type 71, 3 of type 70. -/
def exRec : Fam := ⟨1000, 15, 4, fun o => if o = 0 then some (5, 70) else if o = 8 then some (4, 71) else if o = 12 then some (3, 70) else none,
  some rec16, [70, 71], fun t _ => t⟩
def exSize (i : Nat) : Nat := if i = 0 then 5 else if i = 1 then 4 else 3
def exType (i : Nat) : Nat := if i = 1 then 71 else 70

theorem exRec_laid : Laid exRec 3 exSize exType := by
  refine ⟨by decide, by decide, ?_, ?_, by decide, ?_, by decide⟩ <;> decide

theorem exRec_storable : Storable exRec rec16 3 exSize exType := by
  constructor <;> decide

example : (getInfo exRec empty 1013).val.map (·.2) = some (some ⟨some 1012, some 3, some 70⟩) := by decide
example : ∃ c', Reach exRec c' ∧ getInfo exRec empty (1000 + 13) = .ok (c', some ⟨some 1012, some 3, some 70⟩) :=
  query_partial exRec_laid rfl exRec_storable .new (i := 2) (off := 13) (by decide) ⟨by decide, by decide⟩

/-- Disagreement with C33: in a family without a metavector, which is how the string tables are
declared, no query ever reports a base, a size or a type. -/
theorem query_no_metavector_fails (f : Fam) (hmv : f.mv = none) (c c' : Cache) (obj : Nat) (r : Option Info)
    (h : getInfo f c obj = .ok (c', r)) : r = none ∨ r = some ⟨none, none, none⟩ := by
  unfold getInfo at h
  simp only at h
  split at h
  · split at h
    · cases h; exact .inl rfl
    · rw [hmv] at h
      cases h; exact .inr rfl
  all_goals cases h

example : (getInfo exStr empty 101).val.map (·.2) = some (some ⟨none, none, none⟩) := by decide

/-- Disagreement with C33: a size of 512 alignment units or more is truncated in a 16-bit record. -/
theorem query_big_fails :
    let f : Fam := ⟨4096, 600, 1, fun o => if o = 0 then some (600, 1) else none, some rec16, [1], fun t _ => t⟩
    Laid f 1 (fun _ => 600) (fun _ => 1) ∧
      (getInfo f empty 4100).val.map (·.2) = some (some ⟨some 4096, some 88, some 1⟩) := by
  refine ⟨⟨by decide, by decide, by decide, by decide, by decide, by decide, by decide⟩, by decide⟩

/-- The record formats fill 16 and 32 bits (src/allocators/packed-seq.c:51-62). -/
theorem record_widths : rec16.typeBits + rec16.sizeBits + rec16.deltaBits = 16 ∧
    rec32.typeBits + rec32.sizeBits + rec32.deltaBits = 32 := by decide

/-- C33 (partial) for the 16-bit format: at most 16 types, elements of under 512 alignment units, less
than 8 bytes of padding. -/
theorem query16_partial (f : Fam) (n : Nat) (size type : Nat → Nat) (L : Laid f n size type) (hw : f.mv = some rec16)
    (hm : ∀ i, i < n → type i ∈ f.types) (ht : f.types.length ≤ 16)
    (hu : ∀ i, i < n → (start f.align size (i+1) - start f.align size i) / f.align < 512)
    (hd : ∀ i, i < n → start f.align size (i+1) - (start f.align size i + size i) < 8)
    {c : Cache} (h : Reach f c) {i off : Nat} (hi : i < n) (hin : Inside f size i off) :
    ∃ c', Reach f c' ∧ getInfo f c (f.begin + off) =
      .ok (c', some ⟨some (f.begin + start f.align size i), some (size i), some (f.fix (type i) (size i))⟩) :=
  query_partial L hw ⟨hm, ht, hu, hd⟩ h hi hin

/-- C33 (partial) for the 32-bit format: at most 1024 types, elements of under 262144 alignment units,
less than 16 bytes of padding. -/
theorem query32_partial (f : Fam) (n : Nat) (size type : Nat → Nat) (L : Laid f n size type) (hw : f.mv = some rec32)
    (hm : ∀ i, i < n → type i ∈ f.types) (ht : f.types.length ≤ 1024)
    (hu : ∀ i, i < n → (start f.align size (i+1) - start f.align size i) / f.align < 262144)
    (hd : ∀ i, i < n → start f.align size (i+1) - (start f.align size i + size i) < 16)
    {c : Cache} (h : Reach f c) {i off : Nat} (hi : i < n) (hin : Inside f size i off) :
    ∃ c', Reach f c' ∧ getInfo f c (f.begin + off) =
      .ok (c', some ⟨some (f.begin + start f.align size i), some (size i), some (f.fix (type i) (size i))⟩) :=
  query_partial L hw ⟨hm, ht, hu, hd⟩ h hi hin

/-- Disagreement with C33: an element whose type is not in the table is stored under the last index,
whatever type that is: here the seventeenth type is reported as the sixteenth; with a shorter table the
entry read is beyond it. -/
theorem query_unlisted_fails :
    let f : Fam := ⟨4096, 8, 1, fun o => if o = 0 then some (8, 99) else none, some rec16, List.range 16, fun t _ => t⟩
    let g : Fam := { f with types := List.range 15 }
    (getInfo f empty 4100).val.map (·.2) = some (some ⟨some 4096, some 8, some 15⟩) ∧ (getInfo g empty 4100).val.isNone = true := by
  decide

/-- Disagreement with C33: an address in the padding after an element is answered with that element. -/
theorem query_padding_fails :
    (getInfo exRec empty 1006).val.map (·.2) = some (some ⟨some 1000, some 5, some 70⟩) ∧
      ∀ i, i < 3 → ¬ Inside exRec exSize i 6 := by
  unfold Inside
  decide

/-- A sequence of alignment 4 whose second element starts 64 units in, after padding. -/
def exPad : Fam := ⟨4096, 300, 4, fun o => if o = 0 then some (253, 1) else if o = 256 then some (44, 1) else none, some rec32, [1], fun t _ => t⟩

/-- Disagreement with C33: a query in padding just below a multiple of 64 units makes the caching loop set a bit past the
end of the bitmap. -/
theorem query_overrun_fails : Laid exPad 2 (fun i => if i = 0 then 253 else 44) (fun _ => 1) ∧
    getInfo exPad empty (4096 + 254) = .overrun := by
  refine ⟨⟨by decide, by decide, by decide, by decide, by decide, by decide, by decide⟩, ?_⟩
  simp [getInfo, ensure, empty, exPad, cacheLoop, enlarge, bidx, base, rup, rec32]

/-- Disagreement with C34: in a family with a metavector every element is reported with the first one's record. -/
theorem walk_metadata_fails : (walk exRec empty none none (fun _ => 0)).val.map (·.2) =
    some ([⟨1000, 70, 1⟩, ⟨1008, 70, 2⟩, ⟨1012, 70, 3⟩], 0) ∧ exType 1 = 71 := by decide

/-- Disagreement with C34: with an upper bound on a fresh cache the last element reported is given a size
reaching to the end of the whole sequence. -/
theorem walk_bounded_fails : (walk exStr empty none (some 103) (fun _ => 0)).val.map (·.2) =
    some ([⟨100, 705, 1⟩], 0) := by decide

/-- Disagreement with C34: a walk that starts in the middle of an element reports an element that starts there. -/
theorem walk_middle_fails : (walk exStr empty (some 101) none (fun _ => 0)).val.map (·.2) =
    some ([⟨101, 702, 2⟩, ⟨103, 702, 3⟩], 0) := by decide

end Liballocs.PackedSeq
