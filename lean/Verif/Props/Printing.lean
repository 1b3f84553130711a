import Verif.Model.Printing
/-! Properties of the small text routines. -/
namespace Liballocs.Printing

/-! ## Numbers -/

/-- The number a list of decimal digit characters spells; the most significant is first. -/
def spelled (l : List Int) : Int := l.foldl (fun v c => 10 * v + (c - 48)) 0

/-- A list of characters is the decimal numeral of a number: digits only, no zero in front (save for zero itself), and its
value is the number. -/
def IsDecimal (l : List Int) (v : Int) : Prop :=
  (∀ c ∈ l, 48 ≤ c ∧ c ≤ 57) ∧ l ≠ [] ∧ (l = [48] ∨ l.head? ≠ some 48) ∧ spelled l = v

private theorem spelled_fold : ∀ (l : List Int) (a : Int),
    l.foldl (fun v c => 10 * v + (c - 48)) a = a * 10 ^ l.length + spelled l
  | [], a => by simp [spelled]
  | c :: l, a => by
    unfold spelled
    simp only [List.foldl_cons, List.length_cons]
    rw [spelled_fold l, spelled_fold l (10 * 0 + (c - 48)), Int.pow_succ]
    simp only [Int.mul_zero, Int.zero_add]
    rw [Int.add_mul, Int.add_assoc]
    congr 1
    rw [Int.mul_comm 10 a, Int.mul_assoc, Int.mul_comm 10]

private theorem spelled_cons (c : Int) (l : List Int) : spelled (c :: l) = (c - 48) * 10 ^ l.length + spelled l := by
  have := spelled_fold l (c - 48)
  unfold spelled at *
  simp only [List.foldl_cons, Int.mul_zero, Int.zero_add]
  exact this

private theorem digit (n k : Nat) :
    (48 : Int) + ((n : Int).tdiv (10 ^ k)).tmod 10 = ((48 + n / 10 ^ k % 10 : Nat) : Int) := by
  have h1 : ((10 : Int) ^ k) = ((10 ^ k : Nat) : Int) := by simp
  rw [h1, ← Int.ofNat_tdiv, show (10 : Int) = ((10 : Nat) : Int) from rfl, ← Int.ofNat_tmod]
  omega

private theorem mod_split (n k : Nat) : n % 10 ^ (k + 2) = (n / 10 ^ (k + 1) % 10) * 10 ^ (k + 1) + n % 10 ^ (k + 1) := by
  rw [show k + 2 = (k + 1) + 1 from rfl, Nat.pow_succ 10 (k + 1), Nat.mod_mul, Nat.mul_comm, Nat.add_comm]

private theorem decFrom_written : ∀ (k : Nat) (n : Nat),
    (∀ c ∈ decFrom k true n, 48 ≤ c ∧ c ≤ 57) ∧ (decFrom k true n).length = k + 1
      ∧ spelled (decFrom k true n) = ((n % 10 ^ (k + 1) : Nat) : Int)
  | 0, n => by
    have := digit n 0
    simp only [Int.pow_zero, Nat.pow_zero, Nat.div_one, Int.tdiv_one] at this
    simp only [decFrom, this]
    refine ⟨?_, rfl, ?_⟩
    · intro c hc
      simp only [List.mem_singleton] at hc
      omega
    · simp [spelled]; omega
  | k + 1, n => by
    obtain ⟨h1, h2, h3⟩ := decFrom_written k n
    simp only [decFrom, digit, or_true, if_true]
    refine ⟨?_, by simp [h2], ?_⟩
    · intro c hc
      rcases List.mem_cons.1 hc with e | e
      · omega
      · exact h1 c e
    · rw [spelled_cons, h2, h3, mod_split]
      rw [show ((48 + n / 10 ^ (k + 1) % 10 : Nat) : Int) - 48 = ((n / 10 ^ (k + 1) % 10 : Nat) : Int) by omega]
      simp [Int.natCast_add, Int.natCast_mul]

private theorem decFrom_first : ∀ (k : Nat) (n : Nat), IsDecimal (decFrom k false n) ((n % 10 ^ (k + 1) : Nat) : Int)
  | 0, n => by
    obtain ⟨h1, h2, h3⟩ := decFrom_written 0 n
    refine ⟨h1, by simp [decFrom], ?_, h3⟩
    by_cases h : decFrom 0 false n = [48]
    · exact Or.inl h
    · refine Or.inr (fun e => h ?_)
      simp only [decFrom, List.head?_cons, Option.some.injEq] at e ⊢
      rw [e]
  | k + 1, n => by
    simp only [decFrom, digit]
    by_cases hd : n / 10 ^ (k + 1) % 10 = 0
    · simp only [hd, Nat.add_zero]
      have : ¬ (((48 : Nat) : Int) ≠ 48 ∨ false = true) := by simp
      rw [if_neg this]
      have ih := decFrom_first k n
      rw [mod_split, hd, Nat.zero_mul, Nat.zero_add]
      exact ih
    · have : ((48 + n / 10 ^ (k + 1) % 10 : Nat) : Int) ≠ 48 ∨ false = true := Or.inl (by omega)
      rw [if_pos this]
      obtain ⟨h1, h2, h3⟩ := decFrom_written (k + 1) n
      simp only [decFrom, digit, or_true, if_true] at h1 h2 h3
      refine ⟨h1, by simp, Or.inr ?_, h3⟩
      simp only [List.head?_cons, ne_eq, Option.some.injEq]
      omega

/-- A number that is not negative is written in decimal, whatever it is. -/
theorem decint_partial (v : Int) (h0 : 0 ≤ v) (h : v < 2 ^ 31) : IsDecimal (writeDecint v) v := by
  obtain ⟨n, rfl⟩ := Int.eq_ofNat_of_zero_le h0
  have := decFrom_first 9 n
  rw [Nat.mod_eq_of_lt (by omega)] at this
  exact this

private theorem decFrom_neg : ∀ (k : Nat) (w : Bool) (n : Nat), n % 10 ^ (k + 1) ≠ 0 → ∃ c ∈ decFrom k w (-(n : Int)), c < 48
  | 0, w, n, h => by
    refine ⟨_, by rw [decFrom]; exact List.mem_cons_self, ?_⟩
    rw [Int.neg_tmod]
    have := digit n 0
    simp only [Int.pow_zero, Nat.pow_zero, Nat.div_one, Int.tdiv_one] at this
    simp at h
    omega
  | k + 1, w, n, h => by
    simp only [decFrom]
    rw [Int.neg_tdiv, Int.neg_tmod]
    have hd := digit n (k + 1)
    by_cases hz : n / 10 ^ (k + 1) % 10 = 0
    · rw [mod_split, hz, Nat.zero_mul, Nat.zero_add] at h
      split
      · obtain ⟨c, hc, hlt⟩ := decFrom_neg k true n h
        exact ⟨c, List.mem_cons_of_mem _ hc, hlt⟩
      · exact decFrom_neg k w n h
    · rw [if_pos (Or.inl (by omega))]
      exact ⟨_, List.mem_cons_self, by omega⟩

/-- A negative number is never written in decimal: some character is not a digit, and there is no minus sign in front. -/
theorem decint_negative (v : Int) (h0 : v < 0) (h : - 2 ^ 31 ≤ v) : ∃ c ∈ writeDecint v, c < 48 := by
  obtain ⟨n, hn⟩ := Int.eq_ofNat_of_zero_le (show 0 ≤ -v by omega)
  have : v = -(n : Int) := by omega
  subst this
  exact decFrom_neg 9 false n (by rw [Nat.mod_eq_of_lt (by omega)]; omega)

/-- Minus five comes out as a plus sign. -/
theorem decint_fails : ¬ IsDecimal (writeDecint (-5)) (-5) ∧ writeDecint (-5) = [43] := by
  refine ⟨?_, by decide +kernel⟩
  intro h
  obtain ⟨c, hc, hlt⟩ := decint_negative (-5) (by decide) (by decide)
  have := h.1 c hc
  omega

/-! The process number at start-up. -/

private theorem pidFrom_seen : ∀ (k : Nat) (n : Nat),
    (pidFrom k true n).map (fun c : Nat => (c : Int)) = decFrom k true n
  | 0, n => by
    have := digit n 0
    simp only [Int.pow_zero, Nat.pow_zero, Nat.div_one, Int.tdiv_one] at this
    simp only [pidFrom, decFrom, this]
    split
    · simp
    · rename_i h
      have : n % 10 = 0 := by omega
      simp [this]
  | k + 1, n => by
    have ih := pidFrom_seen k n
    simp only [pidFrom, decFrom, digit, or_true, if_true]
    split
    · simp [ih]
    · rename_i h
      have : n / 10 ^ (k + 1) % 10 = 0 := by omega
      simp [ih, this]

private theorem pidFrom_unseen : ∀ (k : Nat) (n : Nat), n % 10 ^ (k + 1) ≠ 0 →
    (pidFrom k false n).map (fun c : Nat => (c : Int)) = decFrom k false n
  | 0, n, h => by
    have := digit n 0
    simp only [Int.pow_zero, Nat.pow_zero, Nat.div_one, Int.tdiv_one] at this
    simp only [pidFrom, decFrom, this]
    rw [if_pos (by simpa using h)]
    simp
  | k + 1, n, h => by
    simp only [pidFrom, decFrom, digit]
    by_cases hz : n / 10 ^ (k + 1) % 10 = 0
    · rw [mod_split, hz, Nat.zero_mul, Nat.zero_add] at h
      have ih := pidFrom_unseen k n h
      rw [hz]
      simpa using ih
    · have : ((48 + n / 10 ^ (k + 1) % 10 : Nat) : Int) ≠ 48 ∨ false = true := Or.inl (by omega)
      rw [if_pos this, if_pos hz]
      simp [pidFrom_seen k n]

private theorem pidFrom_zero : ∀ (k : Nat) (n : Nat), n % 10 ^ (k + 1) = 0 → pidFrom k false n = [32]
  | 0, n, h => by simp at h; simp [pidFrom, h]
  | k + 1, n, h => by
    rw [mod_split] at h
    have h1 : n % 10 ^ (k + 1) = 0 := by omega
    have h2 : n / 10 ^ (k + 1) % 10 = 0 := by
      have h3 : n / 10 ^ (k + 1) % 10 * 10 ^ (k + 1) = 0 := by omega
      rcases Nat.mul_eq_zero.1 h3 with h4 | h4
      · exact h4
      · exact absurd h4 (Nat.ne_of_gt (Nat.pow_pos (by omega)))
    simp only [pidFrom, h2]
    simpa using pidFrom_zero k n h1

/-- What is printed for a process number, exactly: the decimal numeral of its last five digits, or one space if they are zeros. -/
theorem pid_exact (p : Nat) :
    (p % 100000 ≠ 0 → IsDecimal ((printPid p).map (fun c : Nat => (c : Int))) ((p % 100000 : Nat) : Int))
    ∧ (p % 100000 = 0 → printPid p = [32]) := by
  constructor
  · intro h
    unfold printPid
    rw [pidFrom_unseen 4 p (by simpa using h)]
    exact decFrom_first 4 p
  · intro h
    exact pidFrom_zero 4 p (by simpa using h)

/-- A process number of at most five digits is printed in decimal. -/
theorem pid_partial (p : Nat) (h0 : 0 < p) (h : p < 100000) : IsDecimal ((printPid p).map (fun c : Nat => (c : Int))) p := by
  have := (pid_exact p).1 (by omega)
  rwa [Nat.mod_eq_of_lt h] at this

/-- Longer ones lose their first digits: 1234567 is printed as 34567, and 400000 as a space. -/
theorem pid_fails :
    printPid 1234567 = [51, 52, 53, 54, 55] ∧ printPid 400000 = [32]
      ∧ ¬ IsDecimal ((printPid 1234567).map (fun c : Nat => (c : Int))) 1234567 := by
  refine ⟨by decide +kernel, by decide +kernel, ?_⟩
  intro h
  have h1 : printPid 1234567 = [51, 52, 53, 54, 55] := by decide +kernel
  rw [h1] at h
  exact absurd h.2.2.2 (by decide)

/-! ## Copies of strings -/

/-- A copy of a string reads back as the string. -/
theorem strdup_exact (s : Text) (h : nul ∉ s) : strdup s = s ++ [nul] ∧ readBack (strdup s) = some s := by
  have h1 : strdup s = s ++ [nul] := by
    unfold strdup
    exact List.take_of_length_le (by simp)
  refine ⟨h1, ?_⟩
  rw [h1]
  unfold readBack
  rw [if_pos (by simp)]
  congr 1
  rw [List.takeWhile_append_of_pos (by intro c hc; simp only [bne_iff_ne, ne_eq]; intro e; exact h (e ▸ hc))]
  simp

/-- A bounded copy reads back as the first `n` characters exactly if the bound does not cut the string. -/
theorem strndup_exact (s : Text) (n : Nat) (h : nul ∉ s) :
    readBack (strndup s n) = if s.length ≤ n then some (s.take n) else none := by
  by_cases hn : s.length ≤ n
  · rw [if_pos hn]
    have : strndup s n = strdup s := by
      unfold strndup strdup
      by_cases hg : n > s.length
      · simp [hg]
      · have : n = s.length := by omega
        simp [this]
    rw [this, (strdup_exact s h).2, List.take_of_length_le hn]
  · rw [if_neg hn]
    have : strndup s n = s.take (n + 1) := by
      unfold strndup
      simp only
      rw [if_neg (by omega), List.take_append_of_le_length (by omega)]
    rw [this]
    unfold readBack
    rw [if_neg (fun hc => h (List.mem_of_mem_take hc))]

/-- The one use of the bounded copy passes the string's length, so it is a plain copy. -/
theorem strndup_whole_partial (s : Text) (h : nul ∉ s) : readBack (strndup s s.length) = some s := by
  rw [strndup_exact s _ h, if_pos (Nat.le_refl _), List.take_length]

/-- A copy bounded to fewer characters has no end mark, and one character too many. -/
theorem strndup_fails : strndup "hello".toList 3 = "hell".toList ∧ readBack (strndup "hello".toList 3) = none := by
  decide +kernel

end Liballocs.Printing
