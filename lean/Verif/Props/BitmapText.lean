import Verif.Model.BitmapText
import Verif.Props.MetavecBuild
/-!
# Writing a segment's bitmap as C: properties

The text is read back as a C compiler reads it: comments are taken out first, then what is left must be a list of constants with commas between them.
-/
namespace Liballocs.BitmapText

/-! ## Reading C -/

/-- Taking comments out: each becomes a space. `none`: a comment is not ended. The flag: inside a comment. -/
def strip : Bool → W → Option W
  | false, [] => some []
  | true, [] => none
  | false, [c] => some [c]
  | true, [_] => none
  | true, c :: d :: s => if c = '*' ∧ d = '/' then (strip false s).map (' ' :: ·) else strip true (d :: s)
  | false, c :: d :: s => if c = '/' ∧ d = '*' then strip true s else (strip false (d :: s)).map (c :: ·)

/-- The digits of a hexadecimal number. -/
inductive Num : W → Nat → Prop
  | nil : Num [] 0
  | dec {s : W} {n : Nat} {c : Char} : Num s n → 48 ≤ c.toNat → c.toNat < 58 → Num (s ++ [c]) (16 * n + (c.toNat - 48))
  | alpha {s : W} {n : Nat} {c : Char} : Num s n → 97 ≤ c.toNat → c.toNat < 103 → Num (s ++ [c]) (16 * n + (c.toNat - 87))

def Blanks (s : W) : Prop := ∀ c ∈ s, c = ' ' ∨ c = '\n'

/-- A hexadecimal constant with white space around it. -/
def Const (s : W) (n : Nat) : Prop := ∃ p d q, Blanks p ∧ Blanks q ∧ d ≠ [] ∧ Num d n ∧ s = p ++ '0' :: 'x' :: (d ++ q)

/-- The inside of the braces of an initialiser, and the numbers it gives. -/
inductive Inits : W → List Nat → Prop
  | none {s : W} : Blanks s → Inits s []
  | last {s : W} {n : Nat} : Const s n → Inits s [n]
  | cons {a s : W} {n : Nat} {l : List Nat} : Const a n → Inits s l → Inits (a ++ ',' :: s) (n :: l)

/-- What a C compiler makes of a text between braces. -/
def Reads (t : W) (l : List Nat) : Prop := ∃ s, strip false t = some s ∧ Inits s l

/-- The picture shows `c` for the address `a`, at the given column of a line that starts with the address rounded down to 256. -/
def Shown (t : W) (a col : Nat) (c : Char) : Prop :=
  ∃ pre line post addr rest, t = pre ++ '\n' :: (line ++ '\n' :: post) ∧ '\n' ∉ line ∧
    line = '/' :: '*' :: ' ' :: '0' :: 'x' :: (addr ++ ':' :: ' ' :: rest) ∧ Num addr (a / 256 * 256) ∧ line[col]? = some c

/-- The digit for bit `k`, counted from the least significant. -/
def bit (w k : Nat) : Char := if w / 2 ^ k % 2 = 1 then '1' else '0'

/-! ## Lemmas -/

theorem strip_true_cons {c : Char} (h : c ≠ '*') (t : W) : strip true (c :: t) = strip true t := by
  cases t with
  | nil => rfl
  | cons d t => rw [strip, if_neg (fun e => h e.1)]

theorem strip_false_cons {c : Char} (h : c ≠ '/') (t : W) : strip false (c :: t) = (strip false t).map (c :: ·) := by
  cases t with
  | nil => rfl
  | cons d t => rw [strip, if_neg (fun e => h e.1)]

theorem strip_in {s : W} (h : '*' ∉ s) (t : W) : strip true (s ++ t) = strip true t := by
  induction s with
  | nil => rfl
  | cons c s ih =>
    rw [List.cons_append, strip_true_cons (fun e => h (by rw [e]; exact List.mem_cons_self))]
    exact ih (fun m => h (List.mem_cons_of_mem _ m))

theorem strip_out {s : W} (h : '/' ∉ s) (t : W) : strip false (s ++ t) = (strip false t).map (s ++ ·) := by
  induction s with
  | nil => rw [List.nil_append]; cases strip false t <;> rfl
  | cons c s ih =>
    rw [List.cons_append, strip_false_cons (fun e => h (by rw [e]; exact List.mem_cons_self)),
      ih (fun m => h (List.mem_cons_of_mem _ m)), Option.map_map]
    rfl

theorem strip_end (t : W) : strip true ('*' :: '/' :: t) = (strip false t).map (' ' :: ·) := by
  rw [strip]; simp

theorem strip_start (t : W) : strip false ('/' :: '*' :: t) = strip true t := by
  rw [strip]; simp

theorem Num.chars {s : W} {n : Nat} (h : Num s n) : ∀ c ∈ s, 48 ≤ c.toNat := by
  induction h with
  | nil => intro c hc; cases hc
  | dec _ h1 _ ih =>
    intro c hc; rcases List.mem_append.1 hc with hc | hc
    · exact ih c hc
    · rw [List.mem_singleton.1 hc]; exact h1
  | alpha _ h1 _ ih =>
    intro c hc; rcases List.mem_append.1 hc with hc | hc
    · exact ih c hc
    · rw [List.mem_singleton.1 hc]; omega

theorem Num.not_mem {s : W} {n : Nat} (h : Num s n) (c : Char) (hc : c.toNat < 48) : c ∉ s := by
  intro m; have := h.chars c m; omega

theorem num_digit {s : W} {n d : Nat} (h : Num s n) (hd : d < 16) : Num (s ++ [SegMeta.digit d]) (16 * n + d) := by
  have ht : (SegMeta.digit d).toNat = if d < 10 then 48 + d else 87 + d := by
    have : ∀ e : Fin 16, (SegMeta.digit e.val).toNat = if e.val < 10 then 48 + e.val else 87 + e.val := by decide +kernel
    exact this ⟨d, hd⟩
  by_cases h10 : d < 10
  · rw [if_pos h10] at ht
    have := Num.dec (c := SegMeta.digit d) h (by omega) (by omega)
    rw [ht] at this
    have e : 48 + d - 48 = d := by omega
    rwa [e] at this
  · rw [if_neg h10] at ht
    have := Num.alpha (c := SegMeta.digit d) h (by omega) (by omega)
    rw [ht] at this
    have e : 87 + d - 87 = d := by omega
    rwa [e] at this

theorem num_hexN : ∀ (k n : Nat), n < 16 ^ (k + 1) → Num (SegMeta.hexN (k + 1) n) n
  | k, n, h => by
    rw [SegMeta.hexN]
    by_cases hn : n < 16
    · rw [if_pos hn]
      have := num_digit Num.nil hn
      simpa using this
    · rw [if_neg hn]
      cases k with
      | zero => simp at h; omega
      | succ k =>
        have ih := num_hexN k (n / 16) (by rw [Nat.pow_succ] at h; omega)
        have := num_digit ih (Nat.mod_lt n (by omega : 16 > 0))
        have e : 16 * (n / 16) + n % 16 = n := by omega
        rwa [e] at this

theorem hexN_ne (k n : Nat) : SegMeta.hexN (k + 1) n ≠ [] := by
  rw [SegMeta.hexN]; split <;> simp

theorem hexN_le : ∀ (j k n : Nat), n < 16 ^ j → 0 < j → j ≤ k → (SegMeta.hexN k n).length ≤ j
  | 0, _, _, _, h, _ => absurd h (by omega)
  | j + 1, 0, _, _, _, h => absurd h (by omega)
  | j + 1, k + 1, n, h, _, hk => by
    rw [SegMeta.hexN]
    by_cases hn : n < 16
    · rw [if_pos hn]; simp
    · rw [if_neg hn, List.length_append, List.length_singleton]
      cases j with
      | zero => simp at h; omega
      | succ j =>
        have := hexN_le (j + 1) k (n / 16) (by rw [Nat.pow_succ] at h; omega) (by omega) (by omega)
        omega

theorem num_zeros (m : Nat) {s : W} {n : Nat} (h : Num s n) : Num (List.replicate m '0' ++ s) n := by
  induction h with
  | nil =>
    induction m with
    | zero => exact Num.nil
    | succ m ih =>
      rw [List.append_nil] at ih ⊢
      rw [List.replicate_succ']
      exact Num.dec (c := '0') ih (by decide) (by decide)
  | dec _ h1 h2 ih => rw [← List.append_assoc]; exact Num.dec ih h1 h2
  | alpha _ h1 h2 ih => rw [← List.append_assoc]; exact Num.alpha ih h1 h2

theorem num_padHex (k : Nat) {n : Nat} (h : n < 2 ^ 64) : Num (padHex k n) n :=
  num_zeros _ (num_hexN 15 n (by omega))

theorem padHex_ne (k n : Nat) : padHex k n ≠ [] := by
  intro h
  exact hexN_ne 15 n (List.append_eq_nil_iff.1 h).2

theorem padHex_length {n : Nat} (h : n < 2 ^ 32) : (padHex 8 n).length = 8 := by
  have := hexN_le 8 16 n (by omega) (by omega) (by omega)
  rw [padHex, List.length_append, List.length_replicate]
  unfold SegMeta.hex
  omega

theorem Blanks.append {s t : W} (hs : Blanks s) (ht : Blanks t) : Blanks (s ++ t) := by
  intro c hc
  rcases List.mem_append.1 hc with h | h
  · exact hs c h
  · exact ht c h

theorem Const.blank {s : W} {n : Nat} {p : W} (hp : Blanks p) : Const s n → Const (p ++ s) n := by
  rintro ⟨p', d, q, h1, h2, h3, h4, rfl⟩
  exact ⟨p ++ p', d, q, hp.append h1, h2, h3, h4, by simp⟩

theorem Inits.blank {s : W} {l : List Nat} {p : W} (hp : Blanks p) (h : Inits s l) : Inits (p ++ s) l := by
  cases h with
  | none h => exact .none (hp.append h)
  | last h => exact .last (h.blank hp)
  | cons h1 h2 => rw [← List.append_assoc]; exact .cons (h1.blank hp) h2

theorem const_word {w : Nat} (h : w < 2 ^ 64) {q : W} (hq : Blanks q) : Const ('0' :: 'x' :: (padHex 16 w ++ q)) w :=
  ⟨[], padHex 16 w, q, (by intro c hc; cases hc), hq, padHex_ne 16 w, num_padHex 16 h, rfl⟩

theorem blanks_nil : Blanks [] := by intro c hc; cases hc

theorem blanks_sp : Blanks [' '] := by intro c hc; exact .inl (List.mem_singleton.1 hc)

theorem blanks_nl : Blanks ['\n'] := by intro c hc; exact .inr (List.mem_singleton.1 hc)

/-- Words each followed by a comma. -/
theorem words_mid {n idx : Nat} (hi : idx ≠ n) {s : W} {l : List Nat} (hs : Inits s l) :
    ∀ (ps : List Nat) (j : Nat), (∀ w ∈ ps, w < 2 ^ 64) → Inits (wordsText n idx j ps ++ s) (ps ++ l)
  | [], _, _ => hs
  | w :: ps, j, h => by
    have ih := words_mid hi hs ps (j + 1) (fun w hw => h w (List.mem_cons_of_mem _ hw))
    rw [wordsText, if_pos (.inl hi)]
    have := Inits.cons (const_word (h w List.mem_cons_self) blanks_nil) (Inits.blank blanks_sp ih)
    simpa using this

/-- The last words: the last of them has no comma. -/
theorem words_last {n : Nat} {q : W} (hq : Blanks q) :
    ∀ (ps : List Nat) (j : Nat), j + ps.length = n → (∀ w ∈ ps, w < 2 ^ 64) → Inits (wordsText n n j ps ++ q) ps
  | [], _, _, _ => .none hq
  | [w], j, hj, h => by
    have hj : j + 1 = n := hj
    rw [wordsText, if_neg (by rintro (h | h); exact h rfl; exact h hj), wordsText]
    have := Inits.last (const_word (h w List.mem_cons_self) hq)
    simpa using this
  | w :: v :: ps, j, hj, h => by
    have hj' : j + 1 + (v :: ps).length = n := by rw [← hj]; simp; omega
    have ih := words_last hq (v :: ps) (j + 1) hj' (fun w hw => h w (List.mem_cons_of_mem _ hw))
    have hne : j + 1 ≠ n := by have : (v :: ps).length = ps.length + 1 := rfl; omega
    rw [wordsText, if_pos (.inr hne)]
    have := Inits.cons (const_word (h w List.mem_cons_self) blanks_nil) (Inits.blank blanks_sp ih)
    simpa using this

theorem words_chars (n idx : Nat) (c : Char) (hc : c = '/' ∨ c = '\n') : ∀ (ps : List Nat) (j : Nat), (∀ w ∈ ps, w < 2 ^ 64) → c ∉ wordsText n idx j ps
  | [], _, _ => by intro h; cases h
  | w :: ps, j, h => by
    have ih := words_chars n idx c hc ps (j + 1) (fun w hw => h w (List.mem_cons_of_mem _ hw))
    have hp := (num_padHex 16 (h w List.mem_cons_self)).not_mem c (by rcases hc with rfl | rfl <;> decide)
    rw [wordsText]
    intro hm
    rcases List.mem_cons.1 hm with e | hm
    · rcases hc with rfl | rfl <;> cases e
    rcases List.mem_cons.1 hm with e | hm
    · rcases hc with rfl | rfl <;> cases e
    rcases List.mem_append.1 hm with hm | hm
    · exact hp hm
    rcases List.mem_append.1 hm with hm | hm
    · split at hm
      · rcases hc with rfl | rfl <;> revert hm <;> decide
      · cases hm
    · exact ih hm

/-! ### The digits of a word -/

def digs (w : Nat) : Nat → W
  | 0 => []
  | k + 1 => (if 63 - k ≠ 0 ∧ (63 - k) % 4 = 0 then [' '] else []) ++ (if w.testBit k then '1' else '0') :: digs w k

theorem bitsText_eq {span : Nat} (w : Nat) (hs : span < 2 ^ 32) : ∀ (k d : Nat), d + k ≤ span → bitsText span w k d = some (d + k, digs w k)
  | 0, _, _ => rfl
  | k + 1, d, h => by
    have e : (d + 1) % 2 ^ 32 = d + 1 := Nat.mod_eq_of_lt (by omega)
    rw [bitsText, e, if_pos (by omega), bitsText_eq w hs k (d + 1) (by omega)]
    have : d + 1 + k = d + (k + 1) := by omega
    rw [this]; rfl

theorem bitsText_lt (span w : Nat) : ∀ (k d e : Nat) (s : W), d < 2 ^ 32 → bitsText span w k d = some (e, s) → e < 2 ^ 32
  | 0, _, _, _, hd, h => by cases h; exact hd
  | k + 1, d, e, s, hd, h => by
    rw [bitsText] at h
    split at h
    · split at h
      · cases h
      · rename_i e' s' he
        cases h
        exact bitsText_lt span w k _ _ _ (Nat.mod_lt _ (by omega)) he
    · cases h

theorem testBit_bit (w k : Nat) : (if w.testBit k then '1' else '0') = bit w k := by
  unfold bit
  rw [Nat.testBit_eq_decide_div_mod_eq]
  simp

theorem digs_length (w : Nat) : ∀ k, k ≤ 64 → (digs w k).length = 79 - ((64 - k) + (63 - k) / 4)
  | 0, _ => rfl
  | k + 1, h => by
    rw [digs, List.length_append, List.length_cons, digs_length w k (by omega)]
    split
    · simp; omega
    · simp; omega

theorem digs_get (w : Nat) : ∀ k, k ≤ 64 → ∀ q, q < k → (digs w k)[(63 - q) + (63 - q) / 4 - ((64 - k) + (63 - k) / 4)]? = some (bit w q)
  | 0, _, _, h => absurd h (by omega)
  | k + 1, hk, q, hq => by
    rw [digs]
    by_cases e : q = k
    · subst e
      rw [testBit_bit]
      split
      · have : 63 - q + (63 - q) / 4 - (64 - (q + 1) + (63 - (q + 1)) / 4) = 1 := by omega
        rw [this]; rfl
      · have : 63 - q + (63 - q) / 4 - (64 - (q + 1) + (63 - (q + 1)) / 4) = 0 := by omega
        rw [this]; rfl
    · have ih := digs_get w k (by omega) q (by omega)
      split
      · have : 63 - q + (63 - q) / 4 - (64 - (k + 1) + (63 - (k + 1)) / 4) = (63 - q + (63 - q) / 4 - (64 - k + (63 - k) / 4)) + 1 + 1 := by omega
        rw [this]
        simpa using ih
      · have : 63 - q + (63 - q) / 4 - (64 - (k + 1) + (63 - (k + 1)) / 4) = (63 - q + (63 - q) / 4 - (64 - k + (63 - k) / 4)) + 1 := by omega
        rw [this]
        simpa using ih

theorem digs_chars (w : Nat) (c : Char) (hc : c ≠ ' ' ∧ c ≠ '0' ∧ c ≠ '1') : ∀ k, c ∉ digs w k
  | 0 => by intro h; cases h
  | k + 1 => by
    rw [digs]
    intro hm
    rcases List.mem_append.1 hm with hm | hm
    · split at hm
      · exact hc.1 (List.mem_singleton.1 hm)
      · cases hm
    · rcases List.mem_cons.1 hm with hm | hm
      · split at hm
        · exact hc.2.2 hm
        · exact hc.2.1 hm
      · exact digs_chars w c hc k hm

theorem line_here (w j : Nat) (l : W) (hj : j < 64) : (digs w 64 ++ ' ' :: l)[j + j / 4]? = some (bit w (63 - j)) := by
  have h := digs_get w 64 (by omega) (63 - j) (by omega)
  have e : 63 - (63 - j) + (63 - (63 - j)) / 4 - (64 - 64 + (63 - 64) / 4) = j + j / 4 := by omega
  rw [e] at h
  rw [List.getElem?_append_left (by rw [digs_length w 64 (by omega)]; omega)]
  exact h

theorem line_next (w x : Nat) (l : W) : (digs w 64 ++ ' ' :: l)[80 + x]? = l[x]? := by
  have hl := digs_length w 64 (by omega)
  rw [List.getElem?_append_right (by omega), hl]
  have : 80 + x - (79 - (64 - 64 + (63 - 64) / 4)) = x + 1 := by omega
  rw [this]; simp

/-! ### The loop -/

/-- What a piece of text that starts within a line of the picture shows for the words that it is about. -/
structure Pic (t : W) (addr : Nat) (ws : List Nat) : Prop where
  here : ∃ l post, t = l ++ '\n' :: post ∧ '\n' ∉ l ∧
    ∀ m j w, ws[m]? = some w → j < 64 → addr % 256 ≠ 0 → addr % 256 + 64 * m < 256 → l[80 * m + (j + j / 4)]? = some (bit w (63 - j))
  later : ∀ m j w, ws[m]? = some w → j < 64 → (addr % 256 = 0 ∨ 256 ≤ addr % 256 + 64 * m) →
    ∃ pre rest post, t = pre ++ '\n' :: ('/' :: '*' :: ' ' :: '0' :: 'x' :: (padHex 8 ((addr + 64 * m) / 256 * 256) ++ ':' :: ' ' :: '0' :: 'b' :: rest) ++ '\n' :: post) ∧
      '\n' ∉ rest ∧ rest[(addr + 64 * m + j) % 256 + (addr + 64 * m + j) % 256 / 4]? = some (bit w (63 - j))

theorem loop_spec (bm : List Nat) (hb : 64 * bm.length < 2 ^ 32) (hw : ∀ w ∈ bm, w < 2 ^ 64) :
    ∀ (ws done ps : List Nat) (addr : Nat), done ++ (ps ++ ws) = bm → done.length + ps.length ≠ 0 → addr % 64 = 0 → addr + 64 * ws.length ≤ 2 ^ 64 →
      ∃ t, loop bm (64 * bm.length) (done.length + ps.length) addr done.length (64 * (done.length + ps.length)) ws = some t ∧
        (∃ s, strip true t = some s ∧ Inits s (ps ++ ws)) ∧ Pic t addr ws
  | [], done, ps, addr, he, hi, ha, hm => by
    have hlen : done.length + ps.length = bm.length := by rw [← he]; simp
    have hdrop : (bm.drop done.length).take (bm.length - done.length) = ps := by
      rw [← he]; simp
    have hps : ∀ w ∈ ps, w < 2 ^ 64 := fun w h => hw w (by rw [← he]; simp [h])
    rw [hlen]
    refine ⟨' ' :: '*' :: '/' :: ' ' :: (wordsText bm.length bm.length done.length ps ++ ['\n']), ?_, ?_, ?_, ?_⟩
    · rw [loop, if_pos rfl, flush, if_pos (.inr rfl), if_pos (.inl rfl), hdrop]
      simp
    · refine ⟨' ' :: ' ' :: (wordsText bm.length bm.length done.length ps ++ ['\n']), ?_, ?_⟩
      · rw [strip_true_cons (by decide), strip_end, strip_false_cons (by decide), strip_out (words_chars _ _ _ (.inl rfl) _ _ hps)]
        rfl
      · rw [List.append_nil]
        exact Inits.blank (p := [' ', ' ']) (Blanks.append blanks_sp blanks_sp) (words_last blanks_nl ps _ hlen hps)
    · refine ⟨' ' :: '*' :: '/' :: ' ' :: wordsText bm.length bm.length done.length ps, [], by simp, ?_, ?_⟩
      · intro h
        have := words_chars bm.length bm.length '\n' (.inr rfl) ps done.length hps
        simp at h
        exact this h
      · intro m j w h; simp at h
    · intro m j w h; simp at h
  | w :: ws, done, ps, addr, he, hi, ha, hm => by
    have hlen : done.length + ps.length + (ws.length + 1) = bm.length := by rw [← he]; simp; omega
    have hw0 : w < 2 ^ 64 := hw w (by rw [← he]; simp)
    have hps : ∀ w ∈ ps, w < 2 ^ 64 := fun w h => hw w (by rw [← he]; simp [h])
    have hbits := bitsText_eq (span := 64 * bm.length) w hb 64 (64 * (done.length + ps.length)) (by omega)
    have hm' : addr + 64 + 64 * ws.length ≤ 2 ^ 64 := by have : (w :: ws).length = ws.length + 1 := rfl; omega
    have hdg : ∀ l : W, '\n' ∉ l → '\n' ∉ digs w 64 ++ ' ' :: l := by
      intro l hl h
      rcases List.mem_append.1 h with h | h
      · exact digs_chars w '\n' (by decide) 64 h
      · rcases List.mem_cons.1 h with h | h
        · cases h
        · exact hl h
    have hds : '*' ∉ digs w 64 ++ [' '] := by
      intro h
      rcases List.mem_append.1 h with h | h
      · exact digs_chars w '*' (by decide) 64 h
      · cases List.mem_singleton.1 h
    by_cases hc : addr % 256 = 0
    · have hcr : decide (done.length + ps.length ≠ 0 ∧ addr % 256 = 0) = true := by simp only [decide_eq_true_eq]; exact ⟨hi, hc⟩
      have hdrop : (bm.drop done.length).take (done.length + ps.length - done.length) = ps := by
        rw [← he]; simp
      obtain ⟨u, hu, ⟨s, hs, hsi⟩, ⟨l, post, hl, hln, hlg⟩, hlater⟩ := loop_spec bm hb hw ws (done ++ ps) [w] (addr + 64)
        (by rw [← he]; simp) (by simp) (by omega) hm'
      have e1 : (done ++ ps).length + [w].length = done.length + ps.length + 1 := by simp
      have e2 : (done ++ ps).length = done.length + ps.length := by simp
      rw [e1, e2] at hu
      have hpad := num_padHex 8 (n := addr / 256 * 256) (by omega)
      have hst : '*' ∉ '\n' :: '/' :: [] := by decide
      refine ⟨' ' :: '*' :: '/' :: ' ' :: (wordsText bm.length (done.length + ps.length) done.length ps ++ (lineStart addr ++ (digs w 64 ++ ' ' :: u))), ?_, ?_, ?_, ?_⟩
      · rw [loop]
        rw [hcr, if_pos rfl, flush, if_pos (.inl rfl), if_pos (.inr hc), hdrop]
        dsimp only
        rw [hbits]
        dsimp only
        rw [if_pos rfl]
        have e3 : 64 * (done.length + ps.length) + 64 = 64 * (done.length + ps.length + 1) := by omega
        rw [e3, hu]
        simp
      · refine ⟨' ' :: ' ' :: (wordsText bm.length (done.length + ps.length) done.length ps ++ '\n' :: s), ?_, ?_⟩
        · rw [strip_true_cons (by decide), strip_end, strip_false_cons (by decide), strip_out (words_chars _ _ _ (.inl rfl) _ _ hps)]
          rw [lineStart, List.cons_append, strip_false_cons (by decide), List.cons_append, List.cons_append, strip_start]
          have e4 : ' ' :: '0' :: 'x' :: (padHex 8 (addr / 256 * 256) ++ [':', ' ', '0', 'b']) ++ (digs w 64 ++ ' ' :: u)
              = (' ' :: '0' :: 'x' :: (padHex 8 (addr / 256 * 256) ++ [':', ' ', '0', 'b']) ++ (digs w 64 ++ [' '])) ++ u := by simp
          rw [e4, strip_in, hs]
          · rfl
          · intro h
            rcases List.mem_append.1 h with h | h
            · have := hpad.not_mem '*' (by decide)
              simp at h
              exact this h
            · exact hds h
        · refine Inits.blank (p := [' ', ' ']) (Blanks.append blanks_sp blanks_sp) ?_
          have := words_mid (n := bm.length) (idx := done.length + ps.length) (by omega) (Inits.blank blanks_nl hsi) ps done.length hps
          simpa using this
      · refine ⟨' ' :: '*' :: '/' :: ' ' :: wordsText bm.length (done.length + ps.length) done.length ps,
          '/' :: '*' :: ' ' :: '0' :: 'x' :: (padHex 8 (addr / 256 * 256) ++ [':', ' ', '0', 'b']) ++ (digs w 64 ++ ' ' :: u), ?_, ?_, ?_⟩
        · simp [lineStart]
        · intro h
          have := words_chars bm.length (done.length + ps.length) '\n' (.inr rfl) ps done.length hps
          simp at h
          exact this h
        · intro m j w _ _ h; exact absurd hc h
      · intro m j v hv hj _
        by_cases hin : 64 * m < 256
        · refine ⟨' ' :: '*' :: '/' :: ' ' :: wordsText bm.length (done.length + ps.length) done.length ps, digs w 64 ++ ' ' :: l, post, ?_, hdg l hln, ?_⟩
          · rw [hl]
            have e : (addr + 64 * m) / 256 = addr / 256 := by omega
            rw [e]
            simp [lineStart]
          · have e : (addr + 64 * m + j) % 256 + (addr + 64 * m + j) % 256 / 4 = 80 * m + (j + j / 4) := by omega
            rw [e]
            cases m with
            | zero =>
              simp only [List.getElem?_cons_zero, Option.some.injEq] at hv
              subst hv
              have := line_here w j l hj
              simpa using this
            | succ m =>
              have e5 : 80 * (m + 1) + (j + j / 4) = 80 + (80 * m + (j + j / 4)) := by omega
              rw [e5, line_next]
              exact hlg m j v (by simpa using hv) hj (by omega) (by omega)
        · cases m with
          | zero => omega
          | succ m =>
            obtain ⟨pre, rest, post', h1, h2, h3⟩ := hlater m j v (by simpa using hv) hj (by omega)
            have e6 : addr + 64 + 64 * m = addr + 64 * (m + 1) := by omega
            rw [e6] at h1 h3
            refine ⟨' ' :: '*' :: '/' :: ' ' :: (wordsText bm.length (done.length + ps.length) done.length ps ++ (lineStart addr ++ (digs w 64 ++ ' ' :: pre))), rest, post', ?_, h2, h3⟩
            rw [h1]; simp
    · have hcr : decide (done.length + ps.length ≠ 0 ∧ addr % 256 = 0) = false := by simp only [decide_eq_false_iff_not]; exact fun h => hc h.2
      obtain ⟨u, hu, ⟨s, hs, hsi⟩, ⟨l, post, hl, hln, hlg⟩, hlater⟩ := loop_spec bm hb hw ws done (ps ++ [w]) (addr + 64)
        (by rw [← he]; simp) (by simp) (by omega) hm'
      have e1 : done.length + (ps ++ [w]).length = done.length + ps.length + 1 := by simp; omega
      rw [e1] at hu
      refine ⟨digs w 64 ++ ' ' :: u, ?_, ?_, ?_, ?_⟩
      · rw [loop]
        rw [hcr, if_neg (by decide)]
        dsimp only
        rw [hbits]
        dsimp only
        rw [if_neg (by decide)]
        have e3 : 64 * (done.length + ps.length) + 64 = 64 * (done.length + ps.length + 1) := by omega
        rw [e3, hu]
        simp
      · refine ⟨s, ?_, by simpa using hsi⟩
        have e4 : digs w 64 ++ ' ' :: u = (digs w 64 ++ [' ']) ++ u := by simp
        rw [e4, strip_in hds, hs]
      · refine ⟨digs w 64 ++ ' ' :: l, post, by rw [hl]; simp, hdg l hln, ?_⟩
        intro m j v hv hj _ h2
        cases m with
        | zero =>
          simp only [List.getElem?_cons_zero, Option.some.injEq] at hv
          subst hv
          have := line_here w j l hj
          simpa using this
        | succ m =>
          have e5 : 80 * (m + 1) + (j + j / 4) = 80 + (80 * m + (j + j / 4)) := by omega
          rw [e5, line_next]
          exact hlg m j v (by simpa using hv) hj (by omega) (by omega)
      · intro m j v hv hj h
        cases m with
        | zero => omega
        | succ m =>
          obtain ⟨pre, rest, post', h1, h2, h3⟩ := hlater m j v (by simpa using hv) hj (by omega)
          have e6 : addr + 64 + 64 * m = addr + 64 * (m + 1) := by omega
          rw [e6] at h1 h3
          exact ⟨digs w 64 ++ ' ' :: pre, rest, post', by rw [h1]; simp, h2, h3⟩

theorem loop_great (bm : List Nat) {span : Nat} (hs : 2 ^ 32 ≤ span) : ∀ (ws : List Nat) (i addr printed d : Nat), d < 2 ^ 32 →
    loop bm span i addr printed d ws = none
  | [], i, addr, printed, d, hd => by rw [loop, if_neg (by omega)]
  | w :: ws, i, addr, printed, d, hd => by
    rw [loop]
    split
    · rfl
    · split
      · rfl
      · rename_i e t he
        rw [loop_great bm hs ws _ _ _ e (bitsText_lt _ _ _ _ _ _ hd he)]

def MID : W := (HEADING.drop 2).take (HEADING.length - 4)

theorem heading_eq : HEADING = '/' :: '*' :: (MID ++ ['*', '/']) := by decide +kernel

theorem mid_star : '*' ∉ MID := by decide +kernel

theorem strip_heading (t : W) : strip false (HEADING ++ t) = (strip false t).map (' ' :: ·) := by
  have e : '/' :: '*' :: (MID ++ ['*', '/']) ++ t = '/' :: '*' :: (MID ++ '*' :: '/' :: t) := by simp
  rw [heading_eq, e, strip_start, strip_in mid_star, strip_end]

theorem boundary8 {base : Nat} (h : base % 64 = 0) : toBoundary base % 8 = 0 := by unfold toBoundary; omega

/-- All about the text at once: what it reads as; the first line of the picture; the others. -/
theorem text_spec {base : Nat} (h64 : base % 64 = 0) (bm : List Nat) (hb : 64 * bm.length < 2 ^ 32) (hw : ∀ w ∈ bm, w < 2 ^ 64)
    (hm : base + 64 * bm.length ≤ 2 ^ 64) (hbase : base < 2 ^ 64) :
    ∃ t u, text base bm = some t ∧ Reads t bm ∧
      t = HEADING ++ '\n' :: '/' :: '*' :: ' ' :: '0' :: 'x' :: (padHex 8 (base / 256 * 256) ++ ':' :: ' ' :: (List.replicate (toBoundary base / 4 * 5) ' ' ++ '0' :: 'b' :: u)) ∧
      (∃ l post, u = l ++ '\n' :: post ∧ '\n' ∉ l ∧
        ∀ m j w, bm[m]? = some w → j < 64 → base % 256 + 64 * m < 256 → l[80 * m + (j + j / 4)]? = some (bit w (63 - j))) ∧
      (∀ m j w, bm[m]? = some w → j < 64 → 256 ≤ base % 256 + 64 * m →
        ∃ pre rest post, u = pre ++ '\n' :: ('/' :: '*' :: ' ' :: '0' :: 'x' :: (padHex 8 ((base + 64 * m) / 256 * 256) ++ ':' :: ' ' :: '0' :: 'b' :: rest) ++ '\n' :: post) ∧
          '\n' ∉ rest ∧ rest[(base + 64 * m + j) % 256 + (base + 64 * m + j) % 256 / 4]? = some (bit w (63 - j))) := by
  have hpad : ∀ u : W, ∀ s, strip true u = some s → strip false (HEADING ++ '\n' :: '/' :: '*' :: ' ' :: '0' :: 'x' :: (padHex 8 (base / 256 * 256) ++ ':' :: ' ' ::
      (List.replicate (toBoundary base / 4 * 5) ' ' ++ '0' :: 'b' :: u))) = some (' ' :: '\n' :: s) := by
    intro u s hs
    rw [strip_heading, strip_false_cons (by decide), strip_start]
    have hst : '*' ∉ ' ' :: '0' :: 'x' :: (padHex 8 (base / 256 * 256) ++ ':' :: ' ' :: (List.replicate (toBoundary base / 4 * 5) ' ' ++ ['0', 'b'])) := by
      intro h
      have := (num_padHex 8 (n := base / 256 * 256) (by omega)).not_mem '*' (by decide)
      simp at h
      exact this h
    have := strip_in hst u
    rw [hs] at this
    have e : ' ' :: '0' :: 'x' :: (padHex 8 (base / 256 * 256) ++ ':' :: ' ' :: (List.replicate (toBoundary base / 4 * 5) ' ' ++ '0' :: 'b' :: u))
        = ' ' :: '0' :: 'x' :: (padHex 8 (base / 256 * 256) ++ ':' :: ' ' :: (List.replicate (toBoundary base / 4 * 5) ' ' ++ ['0', 'b'])) ++ u := by simp
    rw [e, this]
    rfl
  have hbl : Blanks [' ', '\n'] := Blanks.append blanks_sp blanks_nl
  cases bm with
  | nil =>
    refine ⟨_, ' ' :: '*' :: '/' :: ' ' :: ['\n'], by rw [text, if_pos (boundary8 h64)]; rfl, ?_, rfl, ?_, ?_⟩
    · exact ⟨_, hpad _ [' ', ' ', '\n'] (by decide), .none (by intro c hc; simp only [List.mem_cons, List.not_mem_nil, or_false] at hc; rcases hc with h | h | h | h | h <;> simp [h])⟩
    · exact ⟨[' ', '*', '/', ' '], [], rfl, by decide, by intro m j w h; simp at h⟩
    · intro m j w h; simp at h
  | cons w ws =>
    obtain ⟨u, hu, ⟨s, hs, hsi⟩, ⟨l, post, hl, hln, hlg⟩, hlater⟩ := loop_spec (w :: ws) hb hw ws [] [w] (base + 64) rfl (by simp) (by omega)
      (by have : (w :: ws).length = ws.length + 1 := rfl; omega)
    have hbits := bitsText_eq (span := 64 * (w :: ws).length) w hb 64 0 (by have : (w :: ws).length = ws.length + 1 := rfl; omega)
    have hds : '*' ∉ digs w 64 ++ [' '] := by
      intro h
      rcases List.mem_append.1 h with h | h
      · exact digs_chars w '*' (by decide) 64 h
      · cases List.mem_singleton.1 h
    have hloop : loop (w :: ws) (64 * (w :: ws).length) 0 base 0 0 (w :: ws) = some (digs w 64 ++ ' ' :: u) := by
      rw [loop]
      rw [hbits]
      dsimp only
      simp only [ne_eq, not_true_eq_false, false_and, decide_false, Bool.false_eq_true, if_false]
      have e0 : ([] : List Nat).length + [w].length = 0 + 1 := rfl
      have e1 : 64 * (([] : List Nat).length + [w].length) = 0 + 64 := rfl
      rw [e1, e0] at hu
      have e2 : ([] : List Nat).length = 0 := rfl
      rw [e2] at hu
      rw [hu]
      simp
    refine ⟨_, digs w 64 ++ ' ' :: u, by rw [text, if_pos (boundary8 h64), hloop], ?_, rfl, ?_, ?_⟩
    · refine ⟨_, hpad _ s ?_, Inits.blank hbl (by simpa using hsi)⟩
      have e4 : digs w 64 ++ ' ' :: u = (digs w 64 ++ [' ']) ++ u := by simp
      rw [e4, strip_in hds, hs]
    · refine ⟨digs w 64 ++ ' ' :: l, post, by rw [hl]; simp, ?_, ?_⟩
      · intro h
        rcases List.mem_append.1 h with h | h
        · exact digs_chars w '\n' (by decide) 64 h
        · rcases List.mem_cons.1 h with h | h
          · cases h
          · exact hln h
      · intro m j v hv hj h2
        cases m with
        | zero =>
          simp only [List.getElem?_cons_zero, Option.some.injEq] at hv
          subst hv
          have := line_here w j l hj
          simpa using this
        | succ m =>
          have e5 : 80 * (m + 1) + (j + j / 4) = 80 + (80 * m + (j + j / 4)) := by omega
          rw [e5, line_next]
          exact hlg m j v (by simpa using hv) hj (by omega) (by omega)
    · intro m j v hv hj h
      cases m with
      | zero => omega
      | succ m =>
        obtain ⟨pre, rest, post', h1, h2, h3⟩ := hlater m j v (by simpa using hv) hj (by omega)
        have e6 : base + 64 + 64 * m = base + 64 * (m + 1) := by omega
        rw [e6] at h1 h3
        exact ⟨digs w 64 ++ ' ' :: pre, rest, post', by rw [h1]; simp, h2, h3⟩

/-! ## Properties -/

/-- A bitmap for less than 4 GB is written so that a C compiler reads back the same words in the same order, whatever they are and wherever the segment starts. -/
theorem reads_partial {base : Nat} (h64 : base % 64 = 0) (bm : List Nat) (hb : 64 * bm.length < 2 ^ 32) (hw : ∀ w ∈ bm, w < 2 ^ 64)
    (hm : base + 64 * bm.length ≤ 2 ^ 64) (hbase : base < 2 ^ 64) : ∃ t, text base bm = some t ∧ Reads t bm := by
  obtain ⟨t, u, h1, h2, _⟩ := text_spec h64 bm hb hw hm hbase
  exact ⟨t, h1, h2⟩

/-- For a segment of 4 GB or more the tool stops at an assertion: the count of digits is 32 bits wide. -/
theorem great_aborts (base : Nat) (bm : List Nat) (hb : 2 ^ 32 ≤ 64 * bm.length) : text base bm = none := by
  unfold text
  rw [loop_great bm hb bm 0 base 0 0 (by omega)]
  split <;> rfl

/-- After the first line of the picture, below 4 GB, the digit for each address is under its offset in the heading, in the line that names its 256 bytes. -/
theorem shown_partial {base : Nat} (h64 : base % 64 = 0) {bm : List Nat} (hb : 64 * bm.length < 2 ^ 32) (hw : ∀ w ∈ bm, w < 2 ^ 64)
    {m j w : Nat} (hv : bm[m]? = some w) (hj : j < 64) (hm : base + 64 * bm.length ≤ 2 ^ 32) (hline : base % 128 = 0 ∨ 256 ≤ base % 256 + 64 * m) :
    ∃ t, text base bm = some t ∧
      Shown t (base + 64 * m + j) (17 + (base + 64 * m + j) % 256 + (base + 64 * m + j) % 256 / 4) (bit w (63 - j)) := by
  have hlt : m < bm.length := (List.getElem?_eq_some_iff.1 hv).1
  obtain ⟨t, u, h1, _, ht, ⟨l, post, hu, hln, hlg⟩, hlater⟩ := text_spec h64 bm hb hw (by omega) (by omega)
  refine ⟨t, h1, ?_⟩
  have hn := num_padHex 8 (n := (base + 64 * m) / 256 * 256) (by omega)
  have hlen := padHex_length (n := (base + 64 * m) / 256 * 256) (by omega)
  have ea : (base + 64 * m + j) / 256 = (base + 64 * m) / 256 := by omega
  by_cases hl : 256 ≤ base % 256 + 64 * m
  · obtain ⟨pre, rest, post', g1, g2, g3⟩ := hlater m j w hv hj hl
    refine ⟨HEADING ++ '\n' :: '/' :: '*' :: ' ' :: '0' :: 'x' :: (padHex 8 (base / 256 * 256) ++ ':' :: ' ' :: (List.replicate (toBoundary base / 4 * 5) ' ' ++ '0' :: 'b' :: pre)),
      '/' :: '*' :: ' ' :: '0' :: 'x' :: (padHex 8 ((base + 64 * m) / 256 * 256) ++ ':' :: ' ' :: '0' :: 'b' :: rest), post', _, '0' :: 'b' :: rest, ?_, ?_, rfl, ?_, ?_⟩
    · rw [ht, g1]; simp
    · intro h
      have := hn.not_mem '\n' (by decide)
      simp at h
      rcases h with h | h
      · exact this h
      · exact g2 h
    · rw [ea]; exact hn
    · have e : ('/' :: '*' :: ' ' :: '0' :: 'x' :: (padHex 8 ((base + 64 * m) / 256 * 256) ++ ':' :: ' ' :: '0' :: 'b' :: rest))
          = ('/' :: '*' :: ' ' :: '0' :: 'x' :: (padHex 8 ((base + 64 * m) / 256 * 256) ++ [':', ' ', '0', 'b'])) ++ rest := by simp
      have el : ('/' :: '*' :: ' ' :: '0' :: 'x' :: (padHex 8 ((base + 64 * m) / 256 * 256) ++ [':', ' ', '0', 'b'])).length = 17 := by simp [hlen]
      rw [e, List.getElem?_append_right (by omega), el]
      have e2 : 17 + (base + 64 * m + j) % 256 + (base + 64 * m + j) % 256 / 4 - 17 = (base + 64 * m + j) % 256 + (base + 64 * m + j) % 256 / 4 := by omega
      rw [e2]; exact g3
  · have h128 : base % 128 = 0 := by omega
    have eb : (base + 64 * m) / 256 = base / 256 := by omega
    rw [eb] at hn hlen ea
    have hin : toBoundary base / 4 * 5 = base % 256 + base % 256 / 4 := by unfold toBoundary; omega
    refine ⟨HEADING, '/' :: '*' :: ' ' :: '0' :: 'x' :: (padHex 8 (base / 256 * 256) ++ ':' :: ' ' :: (List.replicate (toBoundary base / 4 * 5) ' ' ++ '0' :: 'b' :: l)), post, _,
      List.replicate (toBoundary base / 4 * 5) ' ' ++ '0' :: 'b' :: l, ?_, ?_, rfl, ?_, ?_⟩
    · rw [ht, hu]; simp
    · intro h
      have := hn.not_mem '\n' (by decide)
      simp at h
      rcases h with h | h
      · exact this h
      · exact hln h
    · rw [ea]; exact hn
    · have e : ('/' :: '*' :: ' ' :: '0' :: 'x' :: (padHex 8 (base / 256 * 256) ++ ':' :: ' ' :: (List.replicate (toBoundary base / 4 * 5) ' ' ++ '0' :: 'b' :: l)))
          = ('/' :: '*' :: ' ' :: '0' :: 'x' :: (padHex 8 (base / 256 * 256) ++ ':' :: ' ' :: (List.replicate (toBoundary base / 4 * 5) ' ' ++ ['0', 'b']))) ++ l := by simp
      have el : ('/' :: '*' :: ' ' :: '0' :: 'x' :: (padHex 8 (base / 256 * 256) ++ ':' :: ' ' :: (List.replicate (toBoundary base / 4 * 5) ' ' ++ ['0', 'b']))).length
          = 17 + toBoundary base / 4 * 5 := by simp [hlen]; omega
      rw [e, List.getElem?_append_right (by omega), el]
      have e2 : 17 + (base + 64 * m + j) % 256 + (base + 64 * m + j) % 256 / 4 - (17 + toBoundary base / 4 * 5) = 80 * m + (j + j / 4) := by rw [hin]; omega
      rw [e2]; exact hlg m j w hv hj (by omega)

/-- The heading has, at the column of each eighth byte, that byte's offset. -/
theorem heading_exact : ∀ q : Fin 32, (HEADING.drop (17 + 10 * q.val)).take 4 = '|' :: '-' :: [SegMeta.digit (q.val / 2), SegMeta.digit (q.val % 2 * 8)] := by decide +kernel

/-- When the bitmap starts 64 or 192 bytes into a line's 256, the first line is indented by what is left of the line, not by what is missing from it:
none of its digits is under its offset. The column given is where the digit of the address is. -/
theorem indent_fails {base : Nat} (h64 : base % 256 = 64 ∨ base % 256 = 192) {bm : List Nat} (hb : 64 * bm.length < 2 ^ 32) (hw : ∀ w ∈ bm, w < 2 ^ 64)
    {m j w : Nat} (hv : bm[m]? = some w) (hj : j < 64) (hm : base + 64 * bm.length ≤ 2 ^ 32) (hline : base % 256 + 64 * m < 256) :
    ∃ t col, text base bm = some t ∧ Shown t (base + 64 * m + j) col (bit w (63 - j)) ∧
      (base % 256 = 64 → col = (17 + (base + 64 * m + j) % 256 + (base + 64 * m + j) % 256 / 4) + 160) ∧
      (base % 256 = 192 → col + 160 = 17 + (base + 64 * m + j) % 256 + (base + 64 * m + j) % 256 / 4) := by
  have hlt : m < bm.length := (List.getElem?_eq_some_iff.1 hv).1
  obtain ⟨t, u, h1, _, ht, ⟨l, post, hu, hln, hlg⟩, _⟩ := text_spec (base := base) (by omega) bm hb hw (by omega) (by omega)
  have hn := num_padHex 8 (n := base / 256 * 256) (by omega)
  have hlen := padHex_length (n := base / 256 * 256) (by omega)
  have ea : (base + 64 * m + j) / 256 = base / 256 := by omega
  refine ⟨t, 17 + toBoundary base / 4 * 5 + (80 * m + (j + j / 4)), h1, ?_, ?_, ?_⟩
  · refine ⟨HEADING, '/' :: '*' :: ' ' :: '0' :: 'x' :: (padHex 8 (base / 256 * 256) ++ ':' :: ' ' :: (List.replicate (toBoundary base / 4 * 5) ' ' ++ '0' :: 'b' :: l)), post, _,
      List.replicate (toBoundary base / 4 * 5) ' ' ++ '0' :: 'b' :: l, ?_, ?_, rfl, ?_, ?_⟩
    · rw [ht, hu]; simp
    · intro h
      have := hn.not_mem '\n' (by decide)
      simp at h
      rcases h with h | h
      · exact this h
      · exact hln h
    · rw [ea]; exact hn
    · have e : ('/' :: '*' :: ' ' :: '0' :: 'x' :: (padHex 8 (base / 256 * 256) ++ ':' :: ' ' :: (List.replicate (toBoundary base / 4 * 5) ' ' ++ '0' :: 'b' :: l)))
          = ('/' :: '*' :: ' ' :: '0' :: 'x' :: (padHex 8 (base / 256 * 256) ++ ':' :: ' ' :: (List.replicate (toBoundary base / 4 * 5) ' ' ++ ['0', 'b']))) ++ l := by simp
      have el : ('/' :: '*' :: ' ' :: '0' :: 'x' :: (padHex 8 (base / 256 * 256) ++ ':' :: ' ' :: (List.replicate (toBoundary base / 4 * 5) ' ' ++ ['0', 'b']))).length
          = 17 + toBoundary base / 4 * 5 := by simp [hlen]; omega
      rw [e, List.getElem?_append_right (by omega), el]
      have e2 : 17 + toBoundary base / 4 * 5 + (80 * m + (j + j / 4)) - (17 + toBoundary base / 4 * 5) = 80 * m + (j + j / 4) := by omega
      rw [e2]; exact hlg m j w hv hj hline
  · intro h; unfold toBoundary; omega
  · intro h; unfold toBoundary; omega

theorem Num.value {s : W} {n : Nat} (h : Num s n) : n = s.foldl (fun a c => 16 * a + (if c.toNat < 58 then c.toNat - 48 else c.toNat - 87)) 0 := by
  induction h with
  | nil => rfl
  | dec _ _ h2 ih => rw [List.foldl_append, ← ih]; simp [h2]
  | alpha _ h1 _ ih => rw [List.foldl_append, ← ih]; simp; omega

theorem blank_split {p q s t : W} {c d : Char} (hp : Blanks p) (hq : Blanks q) (hc : ¬(c = ' ' ∨ c = '\n')) (hd : ¬(d = ' ' ∨ d = '\n'))
    (h : p ++ c :: s = q ++ d :: t) : p = q ∧ s = t := by
  induction p generalizing q with
  | nil =>
    cases q with
    | nil => simp at h; exact ⟨rfl, h.2⟩
    | cons b q =>
      have e : c = b := by simpa using (List.cons.inj h).1
      exact absurd (hq b List.mem_cons_self) (by rw [← e]; exact hc)
  | cons a p ih =>
    cases q with
    | nil =>
      have e : a = d := by simpa using (List.cons.inj h).1
      exact absurd (hp a List.mem_cons_self) (by rw [e]; exact hd)
    | cons b q =>
      simp only [List.cons_append, List.cons.injEq] at h
      obtain ⟨h1, h2⟩ := ih (fun c m => hp c (List.mem_cons_of_mem _ m)) (fun c m => hq c (List.mem_cons_of_mem _ m)) h.2
      exact ⟨by rw [h.1, h1], h2⟩

theorem digits_split {d e p q : W} (hd : ∀ c ∈ d, 48 ≤ c.toNat) (he : ∀ c ∈ e, 48 ≤ c.toNat) (hp : Blanks p) (hq : Blanks q) (h : d ++ p = e ++ q) : d = e := by
  have hbl : ∀ {c : Char}, c = ' ' ∨ c = '\n' → c.toNat < 48 := by rintro c (rfl | rfl) <;> decide
  induction d generalizing e with
  | nil =>
    cases e with
    | nil => rfl
    | cons b e =>
      have := hp b (by rw [List.nil_append] at h; rw [h]; exact List.mem_cons_self)
      have h1 := hbl this
      have h2 := he b List.mem_cons_self
      omega
  | cons a d ih =>
    cases e with
    | nil =>
      have := hq a (by rw [List.nil_append] at h; rw [← h]; exact List.mem_cons_self)
      have h1 := hbl this
      have h2 := hd a List.mem_cons_self
      omega
    | cons b e =>
      simp only [List.cons_append, List.cons.injEq] at h
      rw [h.1, ih (fun c m => hd c (List.mem_cons_of_mem _ m)) (fun c m => he c (List.mem_cons_of_mem _ m)) h.2]

theorem Const.det {s : W} {n m : Nat} : Const s n → Const s m → n = m := by
  rintro ⟨p, d, q, h1, h2, _, h4, rfl⟩ ⟨p', d', q', g1, g2, _, g4, e⟩
  obtain ⟨_, h⟩ := blank_split h1 g1 (by decide) (by decide) e
  simp only [List.cons.injEq, true_and] at h
  have := digits_split h4.chars g4.chars h2 g2 h
  subst this
  rw [h4.value, ← g4.value]

theorem Blanks.comma {s : W} (h : Blanks s) : ',' ∉ s := by
  intro m; rcases h _ m with e | e <;> cases e

theorem Const.comma {s : W} {n : Nat} : Const s n → ',' ∉ s := by
  rintro ⟨p, d, q, h1, h2, _, h4, rfl⟩ m
  have := h4.not_mem ',' (by decide)
  simp at m
  rcases m with m | m | m
  · exact h1.comma m
  · exact this m
  · exact h2.comma m

theorem Const.not_blank {s : W} {n : Nat} : Const s n → ¬Blanks s := by
  rintro ⟨p, d, q, _, _, _, _, rfl⟩ h
  rcases h '0' (by simp) with e | e <;> cases e

theorem comma_split {a b s t : W} (ha : ',' ∉ a) (hb : ',' ∉ b) (h : a ++ ',' :: s = b ++ ',' :: t) : a = b ∧ s = t := by
  induction a generalizing b with
  | nil =>
    cases b with
    | nil => simp at h; exact ⟨rfl, h⟩
    | cons c b =>
      have e : ',' = c := by simpa using (List.cons.inj h).1
      exact absurd (by rw [← e]; exact List.mem_cons_self) hb
  | cons c a ih =>
    cases b with
    | nil =>
      have e : c = ',' := by simpa using (List.cons.inj h).1
      exact absurd (by rw [e]; exact List.mem_cons_self) ha
    | cons d b =>
      simp only [List.cons_append, List.cons.injEq] at h
      obtain ⟨h1, h2⟩ := ih (fun m => ha (List.mem_cons_of_mem _ m)) (fun m => hb (List.mem_cons_of_mem _ m)) h.2
      exact ⟨by rw [h.1, h1], h2⟩

theorem Inits.det {s : W} {l m : List Nat} (h : Inits s l) (g : Inits s m) : l = m := by
  induction h generalizing m with
  | none hb =>
    cases g with
    | none _ => rfl
    | last gc => exact absurd hb gc.not_blank
    | cons _ _ => exact absurd (by simp) hb.comma
  | last hc =>
    cases g with
    | none gb => exact absurd gb hc.not_blank
    | last gc => rw [hc.det gc]
    | cons _ _ => exact absurd (by simp) hc.comma
  | @cons a s n l hc hi ih =>
    generalize ht : a ++ ',' :: s = t at g
    cases g with
    | none gb => exact absurd (by rw [← ht]; simp) gb.comma
    | last gc => exact absurd (by rw [← ht]; simp) gc.comma
    | cons gc gi =>
      obtain ⟨e1, e2⟩ := comma_split hc.comma gc.comma ht
      subst e1; subst e2
      rw [hc.det gc, ih gi]

/-- A text has one reading at most, so that what the compiler reads is the bitmap and nothing else. -/
theorem reads_det {t : W} {l m : List Nat} : Reads t l → Reads t m → l = m := by
  rintro ⟨s, h1, h2⟩ ⟨s', g1, g2⟩
  rw [h1] at g1
  cases g1
  exact h2.det g2

/-! ## From records to words -/

/-- Bit `k` of word `i`. -/
def Has (bm : List Nat) (i k : Nat) : Prop := ∃ w, bm[i]? = some w ∧ w.testBit k = true

theorem setBit_spec {bm : List Nat} {b : Nat} (hb : b < 64 * bm.length) (hw : ∀ w ∈ bm, w < 2 ^ 64) :
    ∃ bm', setBit bm b = some bm' ∧ bm'.length = bm.length ∧ (∀ w ∈ bm', w < 2 ^ 64) ∧
      ∀ i k, Has bm' i k ↔ Has bm i k ∨ (i = b / 64 ∧ k = 63 - b % 64) := by
  have hi : b / 64 < bm.length := by omega
  have hset : ∀ i, (bm.modify (b / 64) (· ||| 2 ^ (63 - b % 64)))[i]? = if b / 64 = i then bm[i]?.map (· ||| 2 ^ (63 - b % 64)) else bm[i]? := by
    intro i; rw [List.getElem?_modify]; split <;> simp
  refine ⟨_, by rw [setBit, if_pos hi], by simp, ?_, ?_⟩
  · intro w hm
    obtain ⟨i, hi'⟩ := List.mem_iff_getElem?.1 hm
    rw [hset] at hi'
    split at hi'
    · cases hg : bm[i]? with
      | none => rw [hg] at hi'; cases hi'
      | some v =>
        rw [hg] at hi'
        simp only [Option.map_some, Option.some.injEq] at hi'
        rw [← hi']
        exact Nat.or_lt_two_pow (hw v (List.mem_of_getElem? hg)) (Nat.pow_lt_pow_right (by omega) (by omega))
    · exact hw w (List.mem_of_getElem? hi')
  · intro i k
    unfold Has
    rw [hset]
    by_cases e : b / 64 = i
    · rw [if_pos e]
      subst e
      have hg : bm[b / 64]? = some bm[b / 64] := List.getElem?_eq_getElem hi
      rw [hg]
      simp only [Option.map_some, Option.some.injEq, exists_eq_left', Nat.testBit_or, Nat.testBit_two_pow, Bool.or_eq_true, decide_eq_true_eq, true_and]
      constructor
      · rintro (h | h)
        · exact .inl h
        · exact .inr h.symm
      · rintro (h | h)
        · exact .inl h
        · exact .inr h.symm
    · rw [if_neg e]
      constructor
      · exact .inl
      · rintro (h | h)
        · exact h
        · exact absurd h.1.symm e

theorem setBits_spec : ∀ (is bm : List Nat), (∀ b ∈ is, b < 64 * bm.length) → (∀ w ∈ bm, w < 2 ^ 64) →
    ∃ bm', setBits bm is = some bm' ∧ bm'.length = bm.length ∧ (∀ w ∈ bm', w < 2 ^ 64) ∧
      ∀ i k, Has bm' i k ↔ Has bm i k ∨ ∃ b ∈ is, i = b / 64 ∧ k = 63 - b % 64
  | [], bm, _, hw => ⟨bm, rfl, rfl, hw, by simp⟩
  | b :: is, bm, hb, hw => by
    obtain ⟨b1, h1, h2, h3, h4⟩ := setBit_spec (hb b List.mem_cons_self) hw
    obtain ⟨b2, g1, g2, g3, g4⟩ := setBits_spec is b1 (fun c hc => by rw [h2]; exact hb c (List.mem_cons_of_mem _ hc)) h3
    refine ⟨b2, by rw [setBits, h1]; exact g1, by rw [g2, h2], g3, ?_⟩
    intro i k
    rw [g4, h4]
    constructor
    · rintro ((h | h) | ⟨c, hc, h⟩)
      · exact .inl h
      · exact .inr ⟨b, List.mem_cons_self, h⟩
      · exact .inr ⟨c, List.mem_cons_of_mem _ hc, h⟩
    · rintro (h | ⟨c, hc, h⟩)
      · exact .inl (.inl h)
      · rcases List.mem_cons.1 hc with rfl | hc
        · exact .inl (.inr h)
        · exact .inr ⟨c, hc, h⟩

theorem has_zeros (n i k : Nat) : ¬Has (List.replicate n 0) i k := by
  rintro ⟨w, h, hk⟩
  rw [List.getElem?_replicate] at h
  split at h
  · cases h; simp at hk
  · cases h

/-- **C173.** From a file's records to what the compiler reads: for a segment that ends below 4 GB of its start, the tool writes an array of words with a bit for each
address of the segment, which is set just if a record starts there. -/
theorem compiled_partial {base limit : Nat} (recs : List (Nat × MetavecBuild.GRec)) (h : base < limit) (hl : limit ≤ 2 ^ 64 - 64)
    (hs : limit - base / 64 * 64 ≤ 2 ^ 32 - 64) :
    ∃ t bm, bitmapText base limit recs = some t ∧ Reads t bm ∧
      (∀ i, i < bm.length ↔ ∃ a, base ≤ a ∧ a < limit ∧ a / 64 = base / 64 + i) ∧
      ∀ i w, bm[i]? = some w → w < 2 ^ 64 ∧ ∀ j, j < 64 →
        (w / 2 ^ (63 - j) % 2 = 1 ↔ ∃ r, (base / 64 * 64 + 64 * i + j, r) ∈ recs ∧ base ≤ base / 64 * 64 + 64 * i + j ∧ base / 64 * 64 + 64 * i + j < limit) := by
  obtain ⟨is, h1, h2, h3⟩ := MetavecBuild.bits_exact base limit recs
  obtain ⟨bm, g1, g2, g3, g4⟩ := setBits_spec is (List.replicate (MetavecBuild.bitmapWords base limit) 0) (by simpa using h2)
    (by intro w hw; rw [(List.mem_replicate.1 hw).2]; omega)
  rw [List.length_replicate] at g2
  have hlen : base / 64 * 64 + 64 * MetavecBuild.bitmapWords base limit < limit + 64 := by
    unfold MetavecBuild.bitmapWords MetavecBuild.bitmapBase; omega
  obtain ⟨t, k1, k2⟩ := reads_partial (base := base / 64 * 64) (by omega) bm (by omega) g3 (by omega) (by omega)
  refine ⟨t, bm, ?_, k2, ?_, ?_⟩
  · unfold bitmapText build
    rw [h1]
    dsimp only
    rw [g1]
    exact k1
  · intro i
    rw [g2]
    exact MetavecBuild.bitmapWords_exact base limit h i
  · intro i w hw
    refine ⟨g3 w (List.mem_of_getElem? hw), ?_⟩
    intro j hj
    have e1 : (w / 2 ^ (63 - j) % 2 = 1) ↔ Has bm i (63 - j) := by
      unfold Has
      rw [hw]
      simp [Nat.testBit_eq_decide_div_mod_eq]
    rw [e1, g4]
    constructor
    · rintro (hz | ⟨b, hb, hi, hj'⟩)
      · exact absurd hz (has_zeros _ _ _)
      · obtain ⟨a, r, m1, m2, m3, m4⟩ := (h3 b).1 hb
        have ea : base / 64 * 64 + 64 * i + j = a := by omega
        rw [ea]
        exact ⟨r, m1, m2, m3⟩
    · rintro ⟨r, m1, m2, m3⟩
      refine .inr ⟨64 * i + j, (h3 _).2 ⟨_, r, m1, m2, m3, by omega⟩, by omega, by omega⟩

/-! ## Cases -/

/-- A bitmap of one word: an object at the first byte and one at the last. -/
theorem case_one : (text 0x1000 [0x8000000000000001]).map (·.drop (HEADING.length + 1)) =
    some "/* 0x00001000: 0b1000 0000 0000 0000 0000 0000 0000 0000 0000 0000 0000 0000 0000 0000 0000 0001  */ 0x8000000000000001\n".toList := by decide +kernel

/-- The first line of a bitmap that starts at 0x40 has its first digit under the heading for 0xc0, and a space under that for 0x40. -/
theorem case_indent : ((text 0x40 [0x8000000000000000]).bind fun t => (t.drop (HEADING.length + 1))[17 + 240]?) = some '1' ∧
    ((text 0x40 [0x8000000000000000]).bind fun t => (t.drop (HEADING.length + 1))[17 + 80]?) = some ' ' := by decide +kernel

/-- From 4 GB up, a line's address has nine digits, and what it shows is a column off. -/
theorem wide_fails : ((text 0x100000000 [0x8000000000000000]).bind fun t => (t.drop (HEADING.length + 1))[17]?) = some 'b' ∧
    ((text 0x100000000 [0x8000000000000000]).bind fun t => (t.drop (HEADING.length + 1))[18]?) = some '1' := by decide +kernel

/-- A segment that starts at 0x1010, with objects there, at 0x103f and at 0x1048; one at 0x1050 is beyond its end. -/
theorem case_build : build 0x1010 0x1050 [(0x1010, .reloc), (0x103f, .reloc), (0x1048, .reloc), (0x1050, .reloc)] = some [0x800000000001, 0x80000000000000] := by decide +kernel

end Liballocs.BitmapText
