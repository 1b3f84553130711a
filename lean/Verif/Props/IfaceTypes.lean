import Verif.Model.IfaceTypes

/-!
# C171: the interface-types tool answers for what it is asked for
-/

namespace Liballocs.IfaceTypes

open Liballocs.CcArgs (W)

/-! ## What should be -/

/-- The character `c` is the hexadecimal digit for `d`. -/
def Worth (c : Char) (d : Nat) : Prop :=
  (w! "0123456789abcdef")[d]? = some c ∨ (w! "0123456789ABCDEF")[d]? = some c

/-- Hexadecimal digits continue the number `a` to `v`. -/
inductive NumFrom : Nat → W → Nat → Prop
  | nil (a : Nat) : NumFrom a [] a
  | cons {a : Nat} {c : Char} {d v : Nat} {ds : W} : Worth c d → NumFrom (16 * a + d) ds v → NumFrom a (c :: ds) v

/-- What a user asks for. -/
inductive Item
  | name (n : W)
  | addr (a : Nat)

/-- A blank character. -/
def Blank (c : Char) : Prop := c = ' ' ∨ c = '\t' ∨ c = '\n' ∨ c = '\x0b' ∨ c = '\x0c' ∨ c = '\r'

/-- How it is written on a line: a name as it is; an address after blanks, with a sign or without, with `0x` or
without, and anything may follow. -/
inductive Means : W → Item → Prop
  | name {c : Char} {t : W} : ¬ Blank c → c ≠ '+' → c ≠ '-' → (∀ d, ¬ Worth c d) → Means (c :: t) (.name (c :: t))
  | addr {sp sg pre ds rest : W} {v : Nat} : (∀ c ∈ sp, Blank c) → sg = [] ∨ sg = w! "+" → pre = [] ∨ pre = w! "0x" ∨ pre = w! "0X" →
      NumFrom 0 ds v → 0 < v → v < 2 ^ 64 - 1 → (∀ c, rest.head? = some c → ∀ d, ¬ Worth c d) → Means (sp ++ (sg ++ (pre ++ ds ++ rest))) (.addr v)
  | minus {sp pre ds rest : W} {v : Nat} : (∀ c ∈ sp, Blank c) → pre = [] ∨ pre = w! "0x" ∨ pre = w! "0X" →
      NumFrom 0 ds v → 1 < v → v < 2 ^ 64 → (∀ c, rest.head? = some c → ∀ d, ¬ Worth c d) → Means (sp ++ '-' :: (pre ++ ds ++ rest)) (.addr (2 ^ 64 - v))

/-- A list of requests, each with its line: lines have no newlines and fit the buffer. -/
def Request (ls : List (W × Item)) : Prop := ∀ e ∈ ls, Means e.1 e.2 ∧ '\n' ∉ e.1 ∧ e.1.length ≤ 4094

/-- The text of the requests. -/
def text : List (W × Item) → W
  | [] => []
  | e :: ls => e.1 ++ '\n' :: text ls

/-- A function or a variable with static storage, that is not said to be local. -/
def Elem (d : Die) : Prop := (d.kind = .sub ∨ d.kind = .var true) ∧ d.vis ≠ some false

/-- The element is one of those asked for; everything is if nothing is asked for. -/
def Wanted (ls : List (W × Item)) (d : Die) : Prop :=
  Elem d ∧ ∃ n, d.name = some n ∧ (ls = [] ∨ (∃ l, (l, Item.name n) ∈ ls) ∨ ∃ l a i, (l, Item.addr a) ∈ ls ∧ i ∈ d.ivals ∧ i.1 ≤ a ∧ a < i.2)

/-! ## Digits -/

theorem digit_worth {c : Char} {d : Nat} : digit c = some d ↔ Worth c d := by
  constructor
  · intro h
    have hc : c = Char.ofNat c.toNat := (Char.ofNat_toNat c).symm
    unfold digit at h
    generalize c.toNat = n at h hc
    subst hc
    split at h
    · rename_i hn
      have : n = 48 ∨ n = 49 ∨ n = 50 ∨ n = 51 ∨ n = 52 ∨ n = 53 ∨ n = 54 ∨ n = 55 ∨ n = 56 ∨ n = 57 := by omega
      rcases this with h' | h' | h' | h' | h' | h' | h' | h' | h' | h' <;> subst h' <;> cases h <;> exact Or.inl rfl
    · split at h
      · rename_i hn
        have : n = 97 ∨ n = 98 ∨ n = 99 ∨ n = 100 ∨ n = 101 ∨ n = 102 := by omega
        rcases this with h' | h' | h' | h' | h' | h' <;> subst h' <;> cases h <;> exact Or.inl rfl
      · split at h
        · rename_i hn
          have : n = 65 ∨ n = 66 ∨ n = 67 ∨ n = 68 ∨ n = 69 ∨ n = 70 := by omega
          rcases this with h' | h' | h' | h' | h' | h' <;> subst h' <;> cases h <;> exact Or.inr rfl
        · cases h
  · intro h
    have hd : d < 16 := by
      rcases h with h | h
      · have := (List.getElem?_eq_some_iff.mp h).1
        exact this
      · have := (List.getElem?_eq_some_iff.mp h).1
        exact this
    have : d = 0 ∨ d = 1 ∨ d = 2 ∨ d = 3 ∨ d = 4 ∨ d = 5 ∨ d = 6 ∨ d = 7 ∨ d = 8 ∨ d = 9 ∨ d = 10 ∨ d = 11 ∨ d = 12 ∨ d = 13 ∨ d = 14 ∨ d = 15 := by omega
    rcases this with h' | h' | h' | h' | h' | h' | h' | h' | h' | h' | h' | h' | h' | h' | h' | h' <;> subst h' <;>
      rcases h with h | h <;> simp at h <;> subst h <;> rfl

theorem worth_lt {c : Char} {d : Nat} (h : Worth c d) : d < 16 := by
  rcases h with h | h <;> exact (List.getElem?_eq_some_iff.mp h).1

theorem digit_none {c : Char} : digit c = none ↔ ∀ d, ¬ Worth c d := by
  constructor
  · intro h d hw
    rw [digit_worth.mpr hw] at h
    cases h
  · intro h
    cases hd : digit c with
    | none => rfl
    | some d => exact absurd (digit_worth.mp hd) (h d)

theorem num_ge {a v : Nat} {ds : W} (h : NumFrom a ds v) : a ≤ v := by
  induction h with
  | nil => exact Nat.le_refl _
  | cons _ _ ih => omega

/-- The loop over digits computes the number, if it is not too great. -/
theorem digits_exact {a v : Nat} {ds rest : W} (h : NumFrom a ds v) (hv : v < 2 ^ 64)
    (hr : ∀ c, rest.head? = some c → ∀ d, ¬ Worth c d) (seen : Bool) :
    digits a false seen (ds ++ rest) = (v, false, seen || !ds.isEmpty) := by
  induction h generalizing seen with
  | nil a =>
    cases rest with
    | nil => simp [digits]
    | cons c t =>
      have := digit_none.mpr (hr c rfl)
      simp [digits, this]
  | cons hw hn ih =>
    rename_i a c d v ds
    have hge := num_ge hn
    have hlt := worth_lt hw
    rw [List.cons_append, digits, digit_worth.mpr hw]
    dsimp only
    rw [if_neg (show ¬ maxU / 16 < a by unfold maxU; omega)]
    rw [show (a * 16 + d) % 2 ^ 64 = 16 * a + d by omega, show (false || decide (maxU - d < a * 16)) = false by simp only [Bool.false_or, decide_eq_false_iff_not]; unfold maxU; omega]
    rw [ih hv]
    simp

/-- Without overflow the number only grows. -/
theorem digits_ge : ∀ (t : W) (a : Nat) (ov seen : Bool), a < 2 ^ 64 → (digits a ov seen t).2.1 = false → a ≤ (digits a ov seen t).1
  | [], a, ov, seen, _, _ => Nat.le_refl _
  | c :: t, a, ov, seen, ha, h => by
    rw [digits] at h ⊢
    cases hd : digit c with
    | none => exact Nat.le_refl _
    | some d =>
      rw [hd] at h
      dsimp only at h ⊢
      have hlt := worth_lt (digit_worth.mp hd)
      split at h
      · rename_i hm
        rw [if_pos hm]
        exact digits_ge t a true seen ha h
      · rename_i hm
        rw [if_neg hm]
        have hov : ∀ (t : W) (a : Nat) (seen : Bool), (digits a true seen t).2.1 = true := by
          intro t
          induction t with
          | nil => intros; rfl
          | cons c t ih =>
            intro a seen
            rw [digits]
            split
            · rfl
            · split
              · exact ih _ _
              · rw [Bool.true_or]; exact ih _ _
        cases ho : (ov || decide (maxU - d < a * 16)) with
        | true => rw [ho, hov] at h; cases h
        | false =>
          rw [ho] at h
          have hb : a * 16 ≤ maxU - d := by
            simp at ho
            exact ho.2
          have := digits_ge t _ _ _ (Nat.mod_lt _ (by decide)) h
          unfold maxU at hb
          omega

theorem digits_seen : ∀ (t : W) (a : Nat) (ov : Bool), (digits a ov true t).2.2 = true
  | [], _, _ => rfl
  | c :: t, a, ov => by
    rw [digits]
    split
    · rfl
    · split
      · exact digits_seen t _ _
      · exact digits_seen t _ _

/-! ## A line -/

theorem sp_worth {c : Char} {d : Nat} (h : Worth c d) : isSp c = false ∧ c ≠ '+' ∧ c ≠ '-' ∧ c ≠ 'x' ∧ c ≠ 'X' ∧ (c = '0' → d = 0) := by
  have hd := worth_lt h
  have : d = 0 ∨ d = 1 ∨ d = 2 ∨ d = 3 ∨ d = 4 ∨ d = 5 ∨ d = 6 ∨ d = 7 ∨ d = 8 ∨ d = 9 ∨ d = 10 ∨ d = 11 ∨ d = 12 ∨ d = 13 ∨ d = 14 ∨ d = 15 := by omega
  rcases this with h' | h' | h' | h' | h' | h' | h' | h' | h' | h' | h' | h' | h' | h' | h' | h' <;> subst h' <;>
    rcases h with h | h <;> simp at h <;> subst h <;> decide

theorem sign_none {c : Char} {t : W} (h1 : c ≠ '+') (h2 : c ≠ '-') : sign (c :: t) = (false, c :: t) := by
  unfold sign
  split <;> simp_all

theorem lead_none {c : Char} {t : W} (h : c ≠ '0') : lead (c :: t) = (false, c :: t) := by
  unfold lead
  split <;> simp_all

theorem lead_zero {t : W} (h1 : t.head? ≠ some 'x') (h2 : t.head? ≠ some 'X') : lead ('0' :: t) = (true, t) := by
  unfold lead
  split <;> simp_all

theorem sp_iff {c : Char} : isSp c = true ↔ Blank c := by
  constructor
  · intro h
    unfold isSp at h
    simp only [Bool.or_eq_true, beq_iff_eq, Bool.and_eq_true, decide_eq_true_eq] at h
    rcases h with h | h
    · exact Or.inl h
    · have hc : c = Char.ofNat c.toNat := (Char.ofNat_toNat c).symm
      generalize c.toNat = n at h hc
      subst hc
      have : n = 9 ∨ n = 10 ∨ n = 11 ∨ n = 12 ∨ n = 13 := by omega
      unfold Blank
      rcases this with h' | h' | h' | h' | h' <;> subst h' <;> decide
  · intro h
    rcases h with h | h | h | h | h | h <;> subst h <;> rfl

theorem drop_blank {sp t : W} (h : ∀ c ∈ sp, Blank c) (ht : ∀ c, t.head? = some c → isSp c = false) : (sp ++ t).dropWhile isSp = t := by
  induction sp with
  | nil =>
    cases t with
    | nil => rfl
    | cons c t => simp [List.dropWhile, ht c rfl]
  | cons c sp ih =>
    rw [List.cons_append, List.dropWhile_cons, if_pos (sp_iff.mpr (h c (by simp)))]
    exact ih (fun c hc => h c (by simp [hc]))

/-- A word that does not begin as a number does is no number. -/
theorem number_name {c : Char} {t : W} (h1 : ¬ Blank c) (h2 : c ≠ '+') (h3 : c ≠ '-') (h4 : ∀ d, ¬ Worth c d) :
    number (c :: t) = 0 := by
  have h1 : isSp c = false := by
    cases h : isSp c with
    | false => rfl
    | true => exact absurd (sp_iff.mp h) h1
  have hz : c ≠ '0' := by
    intro h
    subst h
    exact h4 0 (Or.inl rfl)
  unfold number
  rw [show (c :: t).dropWhile isSp = c :: t by simp [List.dropWhile, h1], sign_none h2 h3]
  dsimp only
  rw [lead_none hz]
  simp [digits, digit_none.mpr h4]

/-- Digits are read as the number they are, with `0x` or without, whatever is behind them. -/
theorem lead_digits {pre ds rest : W} {v : Nat} (hp : pre = [] ∨ pre = w! "0x" ∨ pre = w! "0X") (hn : NumFrom 0 ds v) (h0 : 0 < v) (hv : v < 2 ^ 64)
    (hr : ∀ c, rest.head? = some c → ∀ d, ¬ Worth c d) :
    digits 0 false (lead (pre ++ ds ++ rest)).1 (lead (pre ++ ds ++ rest)).2 = (v, false, true) ∧
    ∃ c t, pre ++ ds ++ rest = c :: t ∧ isSp c = false ∧ c ≠ '+' ∧ c ≠ '-' := by
  have hne : ds ≠ [] := by
    intro h
    subst h
    cases hn
    omega
  rcases hp with rfl | rfl | rfl
  · cases hn with
    | nil => omega
    | cons hw hn' =>
      rename_i c d ds
      obtain ⟨h1, h2, h3, -, -, h6⟩ := sp_worth hw
      rw [show ([] ++ c :: ds ++ rest : W) = c :: (ds ++ rest) from rfl]
      refine ⟨?_, c, _, rfl, h1, h2, h3⟩
      by_cases hz : c = '0'
      · have hd := h6 hz
        subst hz
        subst hd
        have hds : ds ≠ [] := by
          intro h
          subst h
          cases hn'
          omega
        have hx : (ds ++ rest).head? ≠ some 'x' ∧ (ds ++ rest).head? ≠ some 'X' := by
          cases hn' with
          | nil => exact absurd rfl hds
          | cons hw' _ =>
            obtain ⟨-, -, -, h4, h5, -⟩ := sp_worth hw'
            simp [h4, h5]
        rw [lead_zero hx.1 hx.2]
        dsimp only
        rw [digits_exact hn' hv hr]
        simp
      · rw [lead_none hz]
        dsimp only
        rw [show (c :: (ds ++ rest)) = c :: ds ++ rest from rfl, digits_exact (NumFrom.cons hw hn') hv hr]
        simp
  · refine ⟨?_, '0', 'x' :: (ds ++ rest), rfl, rfl, by decide, by decide⟩
    rw [show lead (w! "0x" ++ ds ++ rest) = (false, ds ++ rest) from rfl]
    dsimp only
    rw [digits_exact hn hv hr]
    simp [hne]
  · refine ⟨?_, '0', 'X' :: (ds ++ rest), rfl, rfl, by decide, by decide⟩
    rw [show lead (w! "0X" ++ ds ++ rest) = (false, ds ++ rest) from rfl]
    dsimp only
    rw [digits_exact hn hv hr]
    simp [hne]

theorem number_addr {sp sg pre ds rest : W} {v : Nat} (hs : ∀ c ∈ sp, Blank c) (hg : sg = [] ∨ sg = w! "+") (hp : pre = [] ∨ pre = w! "0x" ∨ pre = w! "0X")
    (hn : NumFrom 0 ds v) (h0 : 0 < v) (hv : v < 2 ^ 64) (hr : ∀ c, rest.head? = some c → ∀ d, ¬ Worth c d) :
    number (sp ++ (sg ++ (pre ++ ds ++ rest))) = v := by
  obtain ⟨hd, c, t, hct, h1, h2, h3⟩ := lead_digits hp hn h0 hv hr
  rw [hct] at hd ⊢
  unfold number
  rcases hg with rfl | rfl
  · rw [drop_blank hs (fun x hx => by cases hx; exact h1), List.nil_append, sign_none h2 h3]
    dsimp only
    rw [hd]
    rfl
  · rw [drop_blank hs (fun x hx => by cases hx; rfl), show sign (w! "+" ++ c :: t) = (false, c :: t) from rfl]
    dsimp only
    rw [hd]
    rfl

theorem number_minus {sp pre ds rest : W} {v : Nat} (hs : ∀ c ∈ sp, Blank c) (hp : pre = [] ∨ pre = w! "0x" ∨ pre = w! "0X")
    (hn : NumFrom 0 ds v) (h0 : 0 < v) (hv : v < 2 ^ 64) (hr : ∀ c, rest.head? = some c → ∀ d, ¬ Worth c d) :
    number (sp ++ '-' :: (pre ++ ds ++ rest)) = 2 ^ 64 - v := by
  obtain ⟨hd, -⟩ := lead_digits hp hn h0 hv hr
  unfold number
  rw [drop_blank hs (fun x hx => by cases hx; rfl), show sign ('-' :: (pre ++ ds ++ rest)) = (true, pre ++ ds ++ rest) from rfl]
  dsimp only
  rw [hd]
  show (2 ^ 64 - v) % 2 ^ 64 = _
  omega

/-- A word that begins with a digit other than 0 — a name that begins with one of the letters a to f
among them — is a number. -/
theorem number_hex {c : Char} {d : Nat} (t : W) (hw : Worth c d) (hd : d ≠ 0) : number (c :: t) ≠ 0 := by
  obtain ⟨h1, h2, h3, -, -, h6⟩ := sp_worth hw
  have hz : c ≠ '0' := fun h => hd (h6 h)
  have hlt := worth_lt hw
  unfold number
  rw [show (c :: t).dropWhile isSp = c :: t by simp [List.dropWhile, h1], sign_none h2 h3]
  dsimp only
  rw [lead_none hz]
  dsimp only
  have he : digits 0 false false (c :: t) = digits d (false || decide (maxU - d < 0 * 16)) true t := by
    rw [digits, digit_worth.mpr hw]
    dsimp only
    rw [if_neg (show ¬ maxU / 16 < 0 by omega), show (0 * 16 + d) % 2 ^ 64 = d by omega]
  have hs := digits_seen t d (false || decide (maxU - d < 0 * 16))
  have hge := digits_ge t d (false || decide (maxU - d < 0 * 16)) true (by omega)
  generalize digits 0 false false (c :: t) = r at he ⊢
  rw [← he] at hs hge
  rw [if_neg (by rw [hs]; decide)]
  split
  · decide
  · rename_i ho
    have := hge (by simpa using ho)
    simp only [Bool.false_eq_true, if_false]
    omega

/-! ## The input -/

theorem cut_line {l t : W} (h : '\n' ∉ l) : cut (l ++ '\n' :: t) = (l, t) := by
  induction l with
  | nil => simp [cut]
  | cons c l ih =>
    simp only [List.mem_cons, not_or] at h
    rw [List.cons_append, cut, if_neg (fun hc => h.1 hc.symm), ih h.2]

theorem lines_cons {l t : W} (h : '\n' ∉ l) (hl : l.length ≤ 4094) : lines (l ++ '\n' :: t) = l :: lines t := by
  have hc := cut_line (t := t) h
  cases hlt : l ++ '\n' :: t with
  | nil => cases l <;> cases hlt
  | cons c t' =>
    rw [lines]
    rw [← hlt, hc]
    dsimp only
    rw [if_neg (show ¬ maxLine < l.length by unfold maxLine; omega)]

theorem cut_last {l : W} (h : '\n' ∉ l) : cut l = (l, []) := by
  induction l with
  | nil => rfl
  | cons c l ih =>
    simp only [List.mem_cons, not_or] at h
    rw [cut, if_neg (fun hc => h.1 hc.symm), ih h.2]

/-- A last line without a newline is like one with it. -/
theorem lines_last {l : W} (h : '\n' ∉ l) (hl : l.length ≤ 4094) (hne : l ≠ []) : lines l = [l] := by
  cases l with
  | nil => exact absurd rfl hne
  | cons c t =>
    rw [lines, cut_last h]
    dsimp only
    rw [if_neg (show ¬ maxLine < (c :: t).length by unfold maxLine; omega), lines]

/-- The names asked for. -/
def namesOf : List (W × Item) → List W
  | [] => []
  | (_, .name n) :: ls => n :: namesOf ls
  | (_, .addr _) :: ls => namesOf ls

/-- The addresses asked for. -/
def addrsOf : List (W × Item) → List Nat
  | [] => []
  | (_, .name _) :: ls => addrsOf ls
  | (_, .addr a) :: ls => a :: addrsOf ls

theorem take_means {l : W} {i : Item} (h : Means l i) (q : Asked) :
    take q l = ⟨q.names ++ namesOf [(l, i)], q.addrs ++ addrsOf [(l, i)]⟩ := by
  cases h with
  | name h1 h2 h3 h4 =>
    unfold take
    rw [number_name h1 h2 h3 h4]
    simp [namesOf, addrsOf]
  | addr hs hg hp hn h0 hv hr =>
    unfold take
    rw [number_addr hs hg hp hn h0 (by omega) hr]
    rw [if_pos (by omega), if_pos (by unfold maxU; omega)]
    simp [namesOf, addrsOf]
  | minus hs hp hn h0 hv hr =>
    unfold take
    rw [number_minus hs hp hn (by omega) hv hr]
    rw [if_pos (by omega), if_pos (by unfold maxU; omega)]
    simp [namesOf, addrsOf]

theorem asked_from : ∀ (ls : List (W × Item)), Request ls → ∀ q : Asked,
    (lines (text ls)).foldl take q = ⟨q.names ++ namesOf ls, q.addrs ++ addrsOf ls⟩
  | [], _, q => by simp [text, lines, namesOf, addrsOf]
  | (l, i) :: ls, h, q => by
    obtain ⟨hm, hn, hl⟩ := h (l, i) (by simp)
    rw [text, lines_cons hn hl, List.foldl_cons, take_means hm, asked_from ls (fun e he => h e (by simp [he]))]
    cases i <;> simp [namesOf, addrsOf]

/-- Requests are understood as they are meant: names as names and addresses as addresses. -/
theorem asked_exact {ls : List (W × Item)} (h : Request ls) : asked (text ls) = ⟨namesOf ls, addrsOf ls⟩ := by
  unfold asked
  rw [asked_from ls h]
  simp

theorem means_ne {l : W} {i : Item} (h : Means l i) : l ≠ [] := by
  cases h with
  | name => simp
  | addr _ _ _ hn h0 _ _ =>
    cases hn with
    | nil => omega
    | cons => simp
  | minus => simp

theorem lines_text : ∀ (ls : List (W × Item)), Request ls → ∀ t : W, lines (text ls ++ t) = ls.map Prod.fst ++ lines t
  | [], _, t => by simp [text]
  | (l, i) :: ls, h, t => by
    obtain ⟨-, hn, hl⟩ := h (l, i) (by simp)
    rw [text, List.append_assoc, List.cons_append, lines_cons hn hl, lines_text ls (fun e he => h e (by simp [he]))]
    rfl

/-- The newline after the last request may be missing. -/
theorem asked_last {ls : List (W × Item)} {l : W} {i : Item} (h : Request (ls ++ [(l, i)])) : asked (text ls ++ l) = asked (text (ls ++ [(l, i)])) := by
  obtain ⟨hm, hn, hl⟩ := h (l, i) (by simp)
  have h1 := lines_text ls (fun e he => h e (by simp [he])) l
  have h2 := lines_text (ls ++ [(l, i)]) h []
  rw [List.append_nil] at h2
  unfold asked
  rw [h1, h2, lines_last hn hl (means_ne hm), lines]
  simp

theorem namesOf_mem {ls : List (W × Item)} {n : W} : n ∈ namesOf ls ↔ ∃ l, (l, Item.name n) ∈ ls := by
  induction ls with
  | nil => simp [namesOf]
  | cons e ls ih =>
    obtain ⟨l, i⟩ := e
    cases i with
    | name m => simp [namesOf, ih]; grind
    | addr a => simp [namesOf, ih]

theorem addrsOf_mem {ls : List (W × Item)} {a : Nat} : a ∈ addrsOf ls ↔ ∃ l, (l, Item.addr a) ∈ ls := by
  induction ls with
  | nil => simp [addrsOf]
  | cons e ls ih =>
    obtain ⟨l, i⟩ := e
    cases i with
    | name m => simp [addrsOf, ih]
    | addr a => simp [addrsOf, ih]; grind

theorem all_iff {ls : List (W × Item)} : (Asked.all ⟨namesOf ls, addrsOf ls⟩ = true) ↔ ls = [] := by
  unfold Asked.all
  cases ls with
  | nil => simp [namesOf, addrsOf]
  | cons e ls =>
    obtain ⟨l, i⟩ := e
    cases i <;> simp [namesOf, addrsOf]

/-! ## The choice -/

theorem element_iff {d : Die} : element d = true ↔ Elem d := by
  unfold element Elem
  cases d.kind <;> cases d.vis <;> simp

theorem meets_iff {q : Asked} {d : Die} : meets q d = true ↔ ∃ a i, a ∈ q.addrs ∧ i ∈ d.ivals ∧ i.1 ≤ a ∧ a < i.2 := by
  unfold meets
  simp only [List.any_eq_true, decide_eq_true_eq]
  grind

/-- An element is chosen if and only if it is wanted. -/
theorem choose_iff {ls : List (W × Item)} (d : Die) : (choose ⟨namesOf ls, addrsOf ls⟩ d).1 = true ↔ Wanted ls d := by
  unfold choose Wanted
  cases hn : d.name with
  | none => simp
  | some n =>
    dsimp only
    have h1 := @element_iff d
    have h2 := @all_iff ls
    have h3 := @meets_iff ⟨namesOf ls, addrsOf ls⟩ d
    have h4 := @namesOf_mem ls n
    have h5 : ∀ a, a ∈ addrsOf ls ↔ _ := fun a => @addrsOf_mem ls a
    have hkey : (element d = true ∧ (Asked.all ⟨namesOf ls, addrsOf ls⟩ || (namesOf ls).contains n || meets ⟨namesOf ls, addrsOf ls⟩ d) = true) ↔
        (Elem d ∧ ∃ m, some n = some m ∧ (ls = [] ∨ (∃ l, (l, Item.name m) ∈ ls) ∨ ∃ l a i, (l, Item.addr a) ∈ ls ∧ i ∈ d.ivals ∧ i.1 ≤ a ∧ a < i.2)) := by
      rw [h1, Bool.or_eq_true, Bool.or_eq_true, h2, h3, List.contains_iff_mem, h4]
      dsimp only
      constructor
      · rintro ⟨he, h⟩
        refine ⟨he, n, rfl, ?_⟩
        rcases h with (h | h) | ⟨a, i, ha, hi⟩
        · exact Or.inl h
        · exact Or.inr (Or.inl h)
        · obtain ⟨l, hl⟩ := (h5 a).mp ha
          exact Or.inr (Or.inr ⟨l, a, i, hl, hi⟩)
      · rintro ⟨he, m, hm, h⟩
        cases hm
        refine ⟨he, ?_⟩
        rcases h with h | h | ⟨l, a, i, hl, hi⟩
        · exact Or.inl (Or.inl h)
        · exact Or.inl (Or.inr h)
        · exact Or.inr ⟨a, i, (h5 a).mpr ⟨l, hl⟩, hi⟩
    by_cases hc : element d = true ∧ (Asked.all ⟨namesOf ls, addrsOf ls⟩ || (namesOf ls).contains n || meets ⟨namesOf ls, addrsOf ls⟩ d) = true
    · rw [if_pos hc]
      refine iff_of_true ?_ (hkey.mp hc)
      split <;> rfl
    · rw [if_neg hc]
      exact iff_of_false (by decide) (fun h => hc (hkey.mpr h))

/-- It is remembered under its name, if anything is asked for. -/
theorem choose_name {ls : List (W × Item)} (hne : ls ≠ []) (d : Die) (n : W) :
    (choose ⟨namesOf ls, addrsOf ls⟩ d).2 = some n ↔ Wanted ls d ∧ d.name = some n := by
  rw [← choose_iff]
  have ha : Asked.all ⟨namesOf ls, addrsOf ls⟩ = false := by
    cases h : Asked.all ⟨namesOf ls, addrsOf ls⟩ with
    | false => rfl
    | true => exact absurd (all_iff.mp h) hne
  unfold choose
  cases hn : d.name with
  | none => simp
  | some m =>
    dsimp only
    rw [ha]
    split <;> simp

/-! ## The types -/

section
variable {T : Types}

theorem find_some {s : List Nat} {t u : Nat} (h : find T s t = some u) : u ∈ s ∧ T.cls u = T.cls t := by
  unfold find at h
  exact ⟨List.mem_of_find?_eq_some h, by simpa using List.find?_some h⟩

theorem find_of_mem {s : List Nat} {t u : Nat} (h : u ∈ s) (hc : T.cls u = T.cls t) : ∃ v, find T s t = some v := by
  cases hf : find T s t with
  | some v => exact ⟨v, rfl⟩
  | none =>
    unfold find at hf
    have := List.find?_eq_none.mp hf u h
    simp [hc] at this

/-- What a set of types has, up to structure. -/
def Has (T : Types) (s : List Nat) (t : Nat) : Prop := ∃ u ∈ s, T.cls u = T.cls t

theorem has_ins {s : List Nat} {t x : Nat} : Has T (ins T s t) x ↔ Has T s x ∨ T.cls t = T.cls x := by
  unfold ins
  cases hf : find T s t with
  | some u =>
    obtain ⟨h1, h2⟩ := find_some hf
    dsimp only
    constructor
    · exact Or.inl
    · rintro (h | h)
      · exact h
      · exact ⟨u, h1, h2.trans h⟩
  | none =>
    unfold Has
    dsimp only
    simp only [List.mem_append, List.mem_singleton]
    grind

theorem has_inss {l : List Nat} : ∀ {s : List Nat} {x : Nat}, Has T (l.foldl (ins T) s) x ↔ Has T s x ∨ ∃ t ∈ l, T.cls t = T.cls x := by
  induction l with
  | nil => intro s x; simp
  | cons t l ih =>
    intro s x
    rw [List.foldl_cons, ih, has_ins]
    simp only [List.mem_cons]
    grind

theorem mem_ins {s : List Nat} {t x : Nat} (h : x ∈ ins T s t) : x ∈ s ∨ x = t := by
  unfold ins at h
  split at h
  · exact Or.inl h
  · simpa using h

theorem mem_inss {l : List Nat} : ∀ {s : List Nat} {x : Nat}, x ∈ l.foldl (ins T) s → x ∈ s ∨ x ∈ l := by
  induction l with
  | nil => intro s x h; exact Or.inl h
  | cons t l ih =>
    intro s x h
    rw [List.foldl_cons] at h
    rcases ih h with h | h
    · rcases mem_ins h with h | h
      · exact Or.inl h
      · exact Or.inr (by simp [h])
    · exact Or.inr (by simp [h])

theorem visit_types (q : Asked) (s : Walk) (d : Die) :
    (visit T q s d).types = if (choose q d).1 then (d.ty :: T.parts d.ty).foldl (ins T) s.types else s.types := rfl

theorem walk_has (q : Asked) : ∀ (ds : List Die) (s : Walk) (x : Nat),
    Has T (ds.foldl (visit T q) s).types x ↔ Has T s.types x ∨ ∃ d ∈ ds, (choose q d).1 = true ∧ ∃ t ∈ d.ty :: T.parts d.ty, T.cls t = T.cls x
  | [], s, x => by simp
  | d :: ds, s, x => by
    rw [List.foldl_cons, walk_has q ds, visit_types]
    simp only [List.mem_cons]
    by_cases hc : (choose q d).1 = true
    · rw [if_pos hc, has_inss]
      simp only [List.mem_cons]
      grind
    · rw [if_neg hc]
      grind

theorem walk_mem (q : Asked) : ∀ (ds : List Die) (s : Walk) (x : Nat), x ∈ (ds.foldl (visit T q) s).types →
    x ∈ s.types ∨ ∃ d ∈ ds, (choose q d).1 = true ∧ x ∈ d.ty :: T.parts d.ty
  | [], s, x, h => Or.inl h
  | d :: ds, s, x, h => by
    rw [List.foldl_cons] at h
    rcases walk_mem q ds _ x h with h | ⟨e, he, h⟩
    · rw [visit_types] at h
      by_cases hc : (choose q d).1 = true
      · rw [if_pos hc] at h
        rcases mem_inss h with h | h
        · exact Or.inl h
        · exact Or.inr ⟨d, by simp, hc, h⟩
      · rw [if_neg hc] at h
        exact Or.inl h
    · exact Or.inr ⟨e, by simp [he], h⟩

/-! ## The names -/

theorem mem_remember {m : List (W × Die)} {n : W} {d : Die} (hm : (m.map Prod.fst).Nodup) : ∀ {e : W × Die},
    e ∈ remember m n d ↔ e = (n, d) ∨ (e ∈ m ∧ e.1 ≠ n) := by
  induction m with
  | nil => intro e; simp [remember]
  | cons f m ih =>
    intro e
    simp only [List.map_cons, List.nodup_cons] at hm
    rw [remember]
    by_cases hf : f.1 = n
    · rw [if_pos hf]
      have hno : ∀ g ∈ m, g.1 ≠ n := fun g hg hgn => hm.1 (by rw [hf, ← hgn]; exact List.mem_map_of_mem hg)
      simp only [List.mem_cons]
      constructor
      · rintro (h | h)
        · exact Or.inl h
        · exact Or.inr ⟨Or.inr h, hno e h⟩
      · rintro (h | ⟨h | h, hn⟩)
        · exact Or.inl h
        · subst h; exact absurd hf hn
        · exact Or.inr h
    · rw [if_neg hf]
      simp only [List.mem_cons, ih hm.2]
      grind

theorem remember_fst {m : List (W × Die)} {n : W} {d : Die} : ∀ {x : W}, x ∈ (remember m n d).map Prod.fst → x = n ∨ x ∈ m.map Prod.fst := by
  induction m with
  | nil => intro x h; simpa [remember] using h
  | cons f m ih =>
    intro x h
    rw [remember] at h
    split at h
    · simp only [List.map_cons, List.mem_cons] at h ⊢
      grind
    · simp only [List.map_cons, List.mem_cons] at h ⊢
      rcases h with h | h
      · exact Or.inr (Or.inl h)
      · rcases ih h with h | h
        · exact Or.inl h
        · exact Or.inr (Or.inr h)

theorem remember_nodup {m : List (W × Die)} {n : W} {d : Die} (hm : (m.map Prod.fst).Nodup) : ((remember m n d).map Prod.fst).Nodup := by
  induction m with
  | nil => simp [remember]
  | cons f m ih =>
    simp only [List.map_cons, List.nodup_cons] at hm
    rw [remember]
    split
    · rename_i hf
      simp only [List.map_cons, List.nodup_cons]
      exact ⟨by rw [← hf]; exact hm.1, hm.2⟩
    · rename_i hf
      simp only [List.map_cons, List.nodup_cons]
      refine ⟨fun h => ?_, ih hm.2⟩
      rcases remember_fst h with h | h
      · exact hf h
      · exact hm.1 h

theorem visit_named (q : Asked) (s : Walk) (d : Die) :
    (visit T q s d).named = match (choose q d).2 with
      | none => s.named
      | some n => remember s.named n d := rfl

theorem walk_nodup (q : Asked) : ∀ (ds : List Die) (s : Walk), (s.named.map Prod.fst).Nodup → ((ds.foldl (visit T q) s).named.map Prod.fst).Nodup
  | [], _, h => h
  | d :: ds, s, h => by
    rw [List.foldl_cons]
    refine walk_nodup q ds _ ?_
    rw [visit_named]
    split
    · exact h
    · exact remember_nodup h

/-- Under each name the last element chosen with it is remembered. -/
theorem walk_named (q : Asked) : ∀ (ds : List Die) (s : Walk), (s.named.map Prod.fst).Nodup → ∀ (n : W) (d : Die),
    (n, d) ∈ (ds.foldl (visit T q) s).named ↔
      (∃ a b, ds = a ++ d :: b ∧ (choose q d).2 = some n ∧ ∀ e ∈ b, (choose q e).2 ≠ some n) ∨
      ((n, d) ∈ s.named ∧ ∀ e ∈ ds, (choose q e).2 ≠ some n)
  | [], s, h, n, d => by simp
  | f :: ds, s, h, n, d => by
    have hnd : ((visit T q s f).named.map Prod.fst).Nodup := walk_nodup q [f] s h
    rw [List.foldl_cons, walk_named q ds _ hnd]
    have hin : (n, d) ∈ (visit T q s f).named ↔ (d = f ∧ (choose q f).2 = some n) ∨ ((n, d) ∈ s.named ∧ (choose q f).2 ≠ some n) := by
      rw [visit_named]
      cases hc : (choose q f).2 with
      | none => simp
      | some m =>
        dsimp only
        rw [mem_remember h]
        simp only [Prod.mk.injEq, Option.some.injEq]
        constructor
        · rintro (⟨h1, h2⟩ | ⟨h1, h2⟩)
          · exact Or.inl ⟨h2, h1.symm⟩
          · exact Or.inr ⟨h1, fun h => h2 (Option.some.inj h).symm⟩
        · rintro (⟨h1, h2⟩ | ⟨h1, h2⟩)
          · exact Or.inl ⟨h2.symm, h1⟩
          · exact Or.inr ⟨h1, fun h => h2 (by rw [h])⟩
    rw [hin]
    constructor
    · rintro (⟨a, b, hab, h1, h2⟩ | ⟨⟨h1, h2⟩ | ⟨h1, h2⟩, h3⟩)
      · exact Or.inl ⟨f :: a, b, by rw [hab]; rfl, h1, h2⟩
      · subst h1
        exact Or.inl ⟨[], ds, rfl, h2, h3⟩
      · refine Or.inr ⟨h1, fun e he => ?_⟩
        rcases List.mem_cons.mp he with he | he
        · rw [he]; exact h2
        · exact h3 e he
    · rintro (⟨a, b, hab, h1, h2⟩ | ⟨h1, h2⟩)
      · cases a with
        | nil =>
          simp only [List.nil_append, List.cons.injEq] at hab
          obtain ⟨rfl, rfl⟩ := hab
          exact Or.inr ⟨Or.inl ⟨rfl, h1⟩, h2⟩
        | cons g a =>
          simp only [List.cons_append, List.cons.injEq] at hab
          exact Or.inl ⟨a, b, hab.2, h1, h2⟩
      · exact Or.inr ⟨Or.inr ⟨h1, h2 f (by simp)⟩, fun e he => h2 e (by simp [he])⟩

end

/-! ## C171 -/

/-- What is assumed of types: those of the same structure have the same name, and the name is that
of the concrete type. -/
structure Named (T : Types) : Prop where
  same : ∀ t u, T.cls t = T.cls u → T.name t = T.name u
  conc : ∀ t, T.name (T.conc t) = T.name t

/-- The types defined are just those that the elements asked for are made of. -/
theorem defined_partial {T : Types} (hT : Named T) {ls : List (W × Item)} (h : Request ls) (ds : List Die) (w : W) :
    w ∈ (run T ds (text ls)).1 ↔ ∃ d ∈ ds, Wanted ls d ∧ ∃ t ∈ d.ty :: T.parts d.ty, w = T.name t := by
  unfold run walk defined
  dsimp only
  rw [asked_exact h, List.mem_map]
  constructor
  · rintro ⟨t, ht, rfl⟩
    rcases walk_mem _ ds _ t ht with h' | ⟨d, hd, hc, hp⟩
    · cases h'
    · exact ⟨d, hd, (choose_iff d).mp hc, t, hp, rfl⟩
  · rintro ⟨d, hd, hw, t, ht, rfl⟩
    have := (walk_has (T := T) ⟨namesOf ls, addrsOf ls⟩ ds ⟨[], []⟩ t).mpr (Or.inr ⟨d, hd, (choose_iff d).mpr hw, t, ht, rfl⟩)
    obtain ⟨u, hu, hc⟩ := this
    exact ⟨u, hu, hT.same u t hc⟩

/-- For each name of an element asked for, by name or by address, there is a pointer to the type of
the last such element; there are no others. -/
theorem pointers_partial {T : Types} (hT : Named T) {ls : List (W × Item)} (h : Request ls) (hne : ls ≠ []) (ds : List Die) (n u : W) :
    (n, u) ∈ (run T ds (text ls)).2 ↔
      ∃ a d b, ds = a ++ d :: b ∧ d.name = some n ∧ Wanted ls d ∧ (∀ e ∈ b, e.name = some n → ¬ Wanted ls e) ∧ u = T.name d.ty := by
  unfold run walk pointers
  dsimp only
  rw [asked_exact h, List.mem_filterMap]
  have hnm := walk_named (T := T) ⟨namesOf ls, addrsOf ls⟩ ds ⟨[], []⟩ List.nodup_nil
  have hty : ∀ d ∈ ds, Wanted ls d → ∃ t, find T (ds.foldl (visit T ⟨namesOf ls, addrsOf ls⟩) ⟨[], []⟩).types d.ty = some t := by
    intro d hd hw
    obtain ⟨v, hv, hc⟩ := (walk_has (T := T) ⟨namesOf ls, addrsOf ls⟩ ds ⟨[], []⟩ d.ty).mpr
      (Or.inr ⟨d, hd, (choose_iff d).mpr hw, d.ty, by simp, rfl⟩)
    exact find_of_mem hv hc
  constructor
  · rintro ⟨⟨m, d⟩, he, hl⟩
    rcases (hnm m d).mp he with ⟨a, b, hab, h1, h2⟩ | ⟨h', -⟩
    · obtain ⟨hw, hdn⟩ := (choose_name hne d m).mp h1
      unfold lineOf at hl
      cases hf : find T (ds.foldl (visit T ⟨namesOf ls, addrsOf ls⟩) ⟨[], []⟩).types d.ty with
      | none => simp only [hf] at hl; cases hl
      | some t =>
        simp only [hf, Option.some.injEq, Prod.mk.injEq] at hl
        obtain ⟨rfl, rfl⟩ := hl
        exact ⟨a, d, b, hab, hdn, hw, fun e he hen hew => h2 e he ((choose_name hne e m).mpr ⟨hew, hen⟩),
          by rw [hT.conc, hT.same _ _ (find_some hf).2]⟩
    · cases h'
  · rintro ⟨a, d, b, hab, hdn, hw, hlast, rfl⟩
    refine ⟨(n, d), (hnm n d).mpr (Or.inl ⟨a, b, hab, (choose_name hne d n).mpr ⟨hw, hdn⟩, fun e he hc => ?_⟩), ?_⟩
    · obtain ⟨hew, hen⟩ := (choose_name hne e n).mp hc
      exact hlast e he hen hew
    · obtain ⟨t, ht⟩ := hty d (by rw [hab]; simp) hw
      unfold lineOf
      simp only [ht, Option.some.injEq, Prod.mk.injEq, true_and]
      rw [hT.conc, hT.same _ _ (find_some ht).2]

/-- No name has two pointers, whatever the input. -/
theorem pointers_once (T : Types) (ds : List Die) (input : W) : ((run T ds input).2.map Prod.fst).Nodup := by
  have hn := walk_nodup (T := T) (asked input) ds ⟨[], []⟩ List.nodup_nil
  unfold run pointers walk
  dsimp only
  generalize hs : ds.foldl (visit T (asked input)) ⟨[], []⟩ = s at hn
  have : ∀ l : List (W × Die), (l.map Prod.fst).Nodup → (∀ x, x ∈ (l.filterMap (lineOf T s)).map Prod.fst → x ∈ l.map Prod.fst) ∧
      ((l.filterMap (lineOf T s)).map Prod.fst).Nodup := by
    intro l
    induction l with
    | nil => intro _; simp
    | cons e l ih =>
      intro hl
      simp only [List.map_cons, List.nodup_cons] at hl
      obtain ⟨i1, i2⟩ := ih hl.2
      rw [List.filterMap_cons]
      cases he : lineOf T s e with
      | none =>
        refine ⟨fun x hx => ?_, i2⟩
        simp only [List.map_cons, List.mem_cons]
        exact Or.inr (i1 x hx)
      | some p =>
        have hp : p.1 = e.1 := by
          unfold lineOf at he
          split at he
          · cases he
          · cases he; rfl
        simp only [List.map_cons, List.nodup_cons, List.mem_cons, hp]
        refine ⟨fun x hx => ?_, fun h => hl.1 (i1 _ h), i2⟩
        rcases hx with hx | hx
        · exact Or.inl hx
        · exact Or.inr (i1 x hx)
  exact (this s.named hn).2

/-- Every pointer is to a type that is defined, whatever the input. -/
theorem pointers_defined {T : Types} (hT : Named T) (ds : List Die) (input : W) {n u : W} (h : (n, u) ∈ (run T ds input).2) :
    u ∈ (run T ds input).1 := by
  unfold run pointers defined at *
  dsimp only at *
  obtain ⟨e, -, he⟩ := List.mem_filterMap.mp h
  unfold lineOf at he
  split at he
  · cases he
  · rename_i t ht
    cases he
    rw [hT.conc]
    exact List.mem_map_of_mem (find_some ht).1

/-- If nothing is asked for, there are types for everything, and no pointers. -/
theorem all_pointers (T : Types) (ds : List Die) : (run T ds []).2 = [] := by
  have : ∀ (l : List Die) (s : Walk), s.named = [] → (l.foldl (visit T ⟨[], []⟩) s).named = [] := by
    intro l
    induction l with
    | nil => intro s h; exact h
    | cons d l ih =>
      intro s h
      rw [List.foldl_cons]
      refine ih _ ?_
      rw [visit_named]
      have : (choose ⟨[], []⟩ d).2 = none := by
        unfold choose
        split
        · rfl
        · split <;> rfl
      rw [this]
      exact h
  unfold run pointers walk
  rw [show asked [] = ⟨[], []⟩ by unfold asked; rw [lines]; rfl]
  dsimp only
  rw [this ds _ rfl]
  rfl

/-! ## Where it goes wrong -/

/-- A name that begins with one of the letters a to f, or A to F, is never looked for: the line is
taken for an address. -/
theorem hexname_never {c : Char} {d : Nat} (t : W) (hw : Worth c d) (hd : d ≠ 0) (q : Asked) : (take q (c :: t)).names = q.names := by
  unfold take
  rw [if_pos (number_hex t hw hd)]
  split <;> rfl

/-- If only one such name is asked for, no element is chosen for its name: those chosen have the
address, or everything is chosen. -/
theorem hexname_only_never {c : Char} {d : Nat} {t : W} (hw : Worth c d) (hd : d ≠ 0) (hn : '\n' ∉ c :: t) (hl : (c :: t).length ≤ 4094) (e : Die) :
    let q := asked (c :: t ++ ['\n'])
    (choose q e).1 = true → q.all = true ∨ meets q e = true := by
  intro q hc
  have hq : q = take ⟨[], []⟩ (c :: t) := by
    show asked (c :: t ++ ['\n']) = _
    unfold asked
    rw [lines_cons hn hl, lines]
    rfl
  have hnm : q.names = [] := by rw [hq, hexname_never t hw hd]
  unfold choose at hc
  split at hc
  · cases hc
  · split at hc
    · rename_i h
      rw [hnm] at h
      simp at h
      exact h.2
    · cases hc

/-! ## Cases -/

/-- Types 1, 2 and 3 are the functions' own; 4 is `int`, and 5 another `int`. -/
def types0 : Types where
  cls t := if t = 5 then 4 else t
  parts t := if t = 1 then [4] else if t = 2 then [5] else if t = 3 then [5, 6] else []
  conc t := t
  name t := match t with
    | 1 => w! "FUN_int"
    | 2 => w! "FUN_to_int"
    | 3 => w! "FUN_3"
    | 4 => w! "int"
    | 5 => w! "int"
    | 6 => w! "char"
    | _ => w! "other"

theorem types0_named : Named types0 where
  same t u h := by
    simp only [types0] at h ⊢
    by_cases h5 : t = 5 <;> by_cases u5 : u = 5
    · subst h5; subst u5; rfl
    · subst h5
      rw [if_pos rfl, if_neg u5] at h
      subst h
      rfl
    · subst u5
      rw [if_neg h5, if_pos rfl] at h
      subst h
      rfl
    · rw [if_neg h5, if_neg u5] at h
      rw [h]
  conc t := rfl

def dies0 : List Die :=
  [⟨.sub, some w! "start", none, [(0, 32)], 1⟩, ⟨.sub, some w! "malloc", none, [(32, 64)], 2⟩, ⟨.sub, some w! "free", none, [(64, 96)], 3⟩,
    ⟨.var true, some w! "total", none, [(4096, 4100)], 4⟩, ⟨.var false, some w! "local", none, [], 4⟩]

/-- `malloc` by name and `total` by an address inside of it: two pointers. -/
theorem case_run : run types0 dies0 w! "malloc\n0x1002 x\n" =
    ([w! "FUN_to_int", w! "int"], [(w! "malloc", w! "FUN_to_int"), (w! "total", w! "int")]) := by decide +kernel

theorem case_request : Request [(w! "malloc", .name w! "malloc"), (w! "0x1002 x", .addr 4098)] := by
  intro e he
  simp only [List.mem_cons, List.not_mem_nil, or_false] at he
  rcases he with rfl | rfl
  · refine ⟨Means.name (fun h => by cases sp_iff.mpr h) (by decide) (by decide) ?_, by decide, by decide⟩
    exact digit_none.mp rfl
  · refine ⟨Means.addr (sp := []) (sg := []) (pre := w! "0x") (ds := w! "1002") (rest := w! " x") (fun c h => by cases h) (Or.inl rfl) (Or.inr (Or.inl rfl)) ?_ (by decide) (by decide) ?_, by decide, by decide⟩
    · exact .cons (d := 1) (Or.inl rfl) (.cons (d := 0) (Or.inl rfl) (.cons (d := 0) (Or.inl rfl) (.cons (d := 2) (Or.inl rfl) (.nil _))))
    · intro c hc
      cases hc
      exact digit_none.mp rfl

/-- Asked for `free`, the tool answers for what is at address 15. -/
theorem free_fails : run types0 dies0 w! "free\n" = ([w! "FUN_int", w! "int"], [(w! "start", w! "FUN_int")]) := by decide +kernel

/-- An empty line is a name: nothing is chosen, where an empty input chooses everything. -/
theorem blank_fails : run types0 dies0 w! "\n" = ([], []) ∧ (run types0 dies0 []).1 = [w! "FUN_int", w! "int", w! "FUN_to_int", w! "FUN_3", w! "char"] := by
  decide +kernel

/-- A number that is too great is the greatest address, and that is not kept: everything is chosen. -/
theorem great_fails : run types0 dies0 w! "deadbeefdeadbeefd\n" = run types0 dies0 [] := by decide +kernel

/-- Of two functions of the same name (both static, in different files) only the later has a pointer. -/
theorem twin_fails : run types0 [⟨.sub, some w! "init", none, [(0, 32)], 1⟩, ⟨.sub, some w! "init", none, [(32, 64)], 2⟩] w! "init\n10\n" =
    ([w! "FUN_int", w! "int", w! "FUN_to_int"], [(w! "init", w! "FUN_to_int")]) := by decide +kernel

/-- The name is written as it is, though it may not be one of the C language. -/
theorem operator_fails : (run types0 [⟨.sub, some w! "operator+", none, [(0, 32)], 1⟩] w! "operator+\n").2 = [(w! "operator+", w! "FUN_int")] := by
  decide +kernel

/-- A line that is too long ends the reading, and all that follows is ignored. -/
theorem long_fails {l t : W} (h : '\n' ∉ l) (hl : 4094 < l.length) : lines (l ++ '\n' :: t) = [] := by
  have hc := cut_line (t := t) h
  cases hlt : l ++ '\n' :: t with
  | nil => cases l <;> cases hlt
  | cons c t' =>
    rw [lines]
    rw [← hlt, hc]
    dsimp only
    rw [if_pos (show maxLine < l.length by unfold maxLine; omega)]

end Liballocs.IfaceTypes
