import Verif.Model.MergeSites
namespace Liballocs.MergeSites

/-! ## The order -/

theorem le_refl : ∀ a : Text, le a a = true
  | [] => rfl
  | c :: s => by rw [le]; simp [le_refl s]

theorem le_total : ∀ a b : Text, le a b = true ∨ le b a = true
  | [], _ => .inl (by rw [le])
  | _ :: _, [] => .inr (by rw [le])
  | a :: s, b :: t => by
    rw [le, le]
    rcases Nat.lt_trichotomy a.toNat b.toNat with h | h | h
    · left; simp [h]
    · have e : a = b := Char.toNat_inj.mp h
      subst e
      rcases le_total s t with h' | h' <;> simp [h']
    · right; simp [h]

theorem le_antisymm : ∀ {a b : Text}, le a b = true → le b a = true → a = b
  | [], [], _, _ => rfl
  | [], _ :: _, _, h => by rw [le] at h; cases h
  | _ :: _, [], h, _ => by rw [le] at h; cases h
  | a :: s, b :: t, h, h' => by
    rw [le] at h h'
    simp only [Bool.or_eq_true, Bool.and_eq_true, decide_eq_true_eq] at h h'
    rcases h with h | ⟨e, h⟩
    · rcases h' with h' | ⟨e, _⟩
      · omega
      · rw [e] at h; omega
    · subst e
      rcases h' with h' | ⟨_, h'⟩
      · omega
      · rw [le_antisymm h h']

theorem le_trans : ∀ {a b c : Text}, le a b = true → le b c = true → le a c = true
  | [], _, _, _, _ => by rw [le]
  | _ :: _, [], _, h, _ => by rw [le] at h; cases h
  | _ :: _, _ :: _, [], _, h => by rw [le] at h; cases h
  | a :: s, b :: t, c :: u, h, h' => by
    rw [le] at h h' ⊢
    simp only [Bool.or_eq_true, Bool.and_eq_true, decide_eq_true_eq] at h h' ⊢
    rcases h with h | ⟨e, h⟩
    · rcases h' with h' | ⟨e', _⟩
      · left; omega
      · left; rw [← e']; exact h
    · subst e
      rcases h' with h' | ⟨e', h'⟩
      · exact .inl h'
      · exact .inr ⟨e', le_trans h h'⟩

theorem lt_iff (a b : Text) : lt a b = true ↔ le b a = false := by
  unfold lt
  rw [Bool.and_eq_true, Bool.not_eq_true', decide_eq_false_iff_not]
  constructor
  · rintro ⟨h1, h2⟩
    cases h : le b a with
    | false => rfl
    | true => exact absurd (le_antisymm h2 h) h1
  · intro h
    refine ⟨fun e => ?_, ?_⟩
    · subst e; rw [le_refl] at h; cases h
    · rcases le_total a b with h' | h'
      · exact h'
      · rw [h] at h'; cases h'

theorem lt_irrefl (a : Text) : lt a a = false := by simp [lt]

theorem lt_of_lt_of_le {a b c : Text} (h : lt a b = true) (h' : le b c = true) : lt a c = true := by
  rw [lt_iff] at h ⊢
  cases e : le c a with
  | false => rfl
  | true => rw [le_trans h' e] at h; cases h

theorem lt_of_le_of_lt {a b c : Text} (h : le a b = true) (h' : lt b c = true) : lt a c = true := by
  rw [lt_iff] at h' ⊢
  cases e : le c a with
  | false => rfl
  | true => rw [le_trans e h] at h'; cases h'

theorem ge_iff (a b : Text) : ge a b = true ↔ le b a = true := by
  unfold ge
  rw [Bool.not_eq_true']
  cases h : le b a with
  | true => simp only [iff_true]; cases h' : lt a b with
    | false => rfl
    | true => rw [lt_iff, h] at h'; cases h'
  | false => simp only [Bool.false_eq_true, iff_false, Bool.not_eq_false]; rw [lt_iff]; exact h

/-! ## Specification -/

/-- Positions in the sources are ordered by file, then by line. -/
def PosLe (f l f' l' : Text) : Prop := lt f f' = true ∨ (f = f' ∧ le l l' = true)

/-- A record of the sources that an instruction's range of lines takes in. -/
def InRange (o : Obj) (s : Src) : Prop := s.file = o.file ∧ le o.line s.line = true ∧ lt s.line o.lineEnd = true

instance (o : Obj) (s : Src) : Decidable (InRange o s) := by unfold InRange; infer_instance

/-- What an instruction should be printed with: the first record in its range. -/
def answer (o : Obj) (l : List Src) : Option Text := (l.find? (fun s => decide (InRange o s))).map Src.rest

/-- Sorted by file and line. -/
def SrcSorted (l : List Src) : Prop := l.Pairwise fun a b => PosLe a.file a.line b.file b.line
def ObjSorted (l : List Obj) : Prop := l.Pairwise fun a b => PosLe a.file a.line b.file b.line

/-- Ranges of lines are not the wrong way round. -/
def Proper (o : Obj) : Prop := le o.line o.lineEnd = true

theorem PosLe.trans {f l f' l' f'' l'' : Text} (h : PosLe f l f' l') (h' : PosLe f' l' f'' l'') : PosLe f l f'' l'' := by
  rcases h with h | ⟨e, h⟩
  · rcases h' with h' | ⟨e', _⟩
    · left
      exact lt_of_lt_of_le h (by unfold lt at h'; exact (Bool.and_eq_true _ _ ▸ h').2)
    · left; rw [← e']; exact h
  · rcases h' with h' | ⟨e', h'⟩
    · left; rw [e]; exact h'
    · exact .inr ⟨e.trans e', le_trans h h'⟩

/-! ## What the tests mean -/

theorem verdict_hit (o : Obj) (s : Src) : verdict o s = .hit ↔ InRange o s := by
  unfold verdict InRange
  simp only [ge_iff]
  split
  · rename_i h; simp [h]
  · rename_i h
    simp only [h, iff_false]
    split <;> simp

/-- A record is passed over just if it lies before the range. -/
theorem verdict_skip {o : Obj} (hp : Proper o) (s : Src) : verdict o s = .skip ↔ ¬ PosLe o.file o.line s.file s.line := by
  unfold verdict
  simp only [ge_iff]
  constructor
  · intro h
    split at h
    · cases h
    · rename_i h1
      split at h
      · rename_i h2
        rintro (h3 | ⟨e, h3⟩)
        · rcases h2 with h2 | ⟨e, _⟩
          · have := lt_of_lt_of_le h2 (show le o.file s.file = true by unfold lt at h3; exact (Bool.and_eq_true _ _ ▸ h3).2)
            rw [lt_irrefl] at this; cases this
          · rw [e, lt_irrefl] at h3; cases h3
        · rcases h2 with h2 | ⟨_, h4⟩
          · rw [← e, lt_irrefl] at h2; cases h2
          · exact h1 ⟨e.symm, h3, h4⟩
      · cases h
  · intro h
    have key : lt s.file o.file = true ∨ (s.file = o.file ∧ lt s.line o.line = true) := by
      by_cases hf : lt o.file s.file = true
      · exact absurd (.inl hf) h
      · have hle : le s.file o.file = true := by
          cases e : le s.file o.file with
          | true => rfl
          | false => exact absurd ((lt_iff _ _).mpr e) hf
        by_cases he : s.file = o.file
        · right
          refine ⟨he, ?_⟩
          rw [lt_iff]
          cases e : le o.line s.line with
          | false => rfl
          | true => exact absurd (.inr ⟨he.symm, e⟩) h
        · left; unfold lt; simp [he, hle]
    rw [if_neg, if_pos]
    · rcases key with k | ⟨e, k⟩
      · exact .inl k
      · exact .inr ⟨e, lt_of_lt_of_le k hp⟩
    · rintro ⟨e, h2, _⟩
      exact h (.inr ⟨e.symm, h2⟩)

/-! ## The merge -/

theorem serve_eq (o : Obj) (kept : Option Src) (l : List Src) : serve o kept l = search o (kept.toList ++ l) := by
  cases kept with
  | none => rfl
  | some s => simp only [serve, Option.toList, List.singleton_append]; rw [search]

/-- After a search, what is left is what was there without the records before the range. -/
theorem search_spec {o : Obj} (hp : Proper o) : ∀ {l : List Src}, SrcSorted l →
    (search o l).1 = answer o l ∧
    ∃ pre, l = pre ++ ((search o l).2.1.toList ++ (search o l).2.2) ∧ ∀ s ∈ pre, ¬ PosLe o.file o.line s.file s.line
  | [], _ => ⟨rfl, [], rfl, fun _ h => by cases h⟩
  | s :: l, hs => by
    have hs' := List.pairwise_cons.mp hs
    rw [search]
    cases hv : verdict o s with
    | hit =>
      refine ⟨?_, [], rfl, fun _ h => by cases h⟩
      have := (verdict_hit o s).mp hv
      simp [answer, List.find?_cons, this]
    | past =>
      refine ⟨?_, [], rfl, fun _ h => by cases h⟩
      have hge : PosLe o.file o.line s.file s.line := by
        by_cases h : PosLe o.file o.line s.file s.line
        · exact h
        · rw [(verdict_skip hp s).mpr h] at hv; cases hv
      have hno : ∀ x ∈ s :: l, ¬ InRange o x := by
        have h0 : ¬ InRange o s := fun h => by rw [(verdict_hit o s).mpr h] at hv; cases hv
        intro x hx
        rcases List.mem_cons.mp hx with rfl | hx
        · exact h0
        · rintro ⟨e1, e2, e3⟩
          have h1 := hs'.1 x hx
          -- `s` is at or after the range's start, in its file, and before `x`: so it is in range as well
          rcases hge with g | ⟨g, g'⟩
          · rcases h1 with h1 | ⟨h1, _⟩
            · have := lt_of_lt_of_le g (show le s.file x.file = true by unfold lt at h1; exact (Bool.and_eq_true _ _ ▸ h1).2)
              rw [e1, lt_irrefl] at this; cases this
            · rw [h1, e1, lt_irrefl] at g; cases g
          · rcases h1 with h1 | ⟨h1, h1'⟩
            · rw [← g, e1, lt_irrefl] at h1; cases h1
            · exact h0 ⟨g.symm, g', lt_of_le_of_lt h1' e3⟩
      symm
      show (((s :: l).find? fun s => decide (InRange o s)).map Src.rest) = none
      rw [Option.map_eq_none_iff, List.find?_eq_none]
      intro x hx
      simpa using hno x hx
    | skip =>
      obtain ⟨h1, pre, h2, h3⟩ := search_spec hp hs'.2
      have hb := (verdict_skip hp s).mp hv
      refine ⟨?_, s :: pre, ?_, ?_⟩
      · show (search o l).1 = _
        rw [h1]
        have : ¬ InRange o s := fun h => hb (.inr ⟨h.1.symm, h.2.1⟩)
        simp [answer, List.find?_cons, this]
      · show s :: l = s :: pre ++ _
        rw [List.cons_append, ← h2]
      · intro x hx
        rcases List.mem_cons.mp hx with rfl | hx
        · exact hb
        · exact h3 x hx

theorem answer_drop {o : Obj} {pre l : List Src} (h : ∀ s ∈ pre, ¬ PosLe o.file o.line s.file s.line) : answer o (pre ++ l) = answer o l := by
  unfold answer
  congr 1
  rw [List.find?_append]
  have : pre.find? (fun s => decide (InRange o s)) = none := by
    rw [List.find?_eq_none]
    intro x hx
    simp only [decide_eq_true_eq]
    exact fun hi => h x hx (.inr ⟨hi.1.symm, hi.2.1⟩)
  rw [this, Option.none_or]

theorem merge_gen : ∀ (os : List Obj) (kept : Option Src) (l : List Src), ObjSorted os → (∀ o ∈ os, Proper o) →
    SrcSorted (kept.toList ++ l) → merge os kept l = os.map fun o => (o, answer o (kept.toList ++ l))
  | [], _, _, _, _, _ => rfl
  | o :: os, kept, l, ho, hp, hs => by
    have ho' := List.pairwise_cons.mp ho
    obtain ⟨h1, pre, h2, h3⟩ := search_spec (hp o (by simp)) hs
    rw [merge, serve_eq, List.map_cons, h1]
    have hs2 : SrcSorted ((search o (kept.toList ++ l)).2.1.toList ++ (search o (kept.toList ++ l)).2.2) := by
      have := hs
      rw [h2] at this
      exact (List.pairwise_append.mp this).2.1
    rw [merge_gen os _ _ ho'.2 (fun o' h' => hp o' (by simp [h'])) hs2]
    congr 1
    apply List.map_congr_left
    intro o' ho''
    congr 1
    conv => rhs; rw [h2]
    refine (answer_drop ?_).symm
    intro s hs' hle
    exact h3 s hs' (PosLe.trans (ho'.1 o' ho'') hle)

/-- **C121** (partial: both inputs are sorted as the comparison does it).  Each instruction is printed once, in order, and with the
first record in its range of lines, if there is one. -/
theorem merge_partial (os : List Obj) (l : List Src) (ho : ObjSorted os) (hp : ∀ o ∈ os, Proper o) (hs : SrcSorted l) :
    merge os none l = os.map fun o => (o, answer o l) := merge_gen os none l ho hp hs

/-- **C121** (partial).  An instruction whose range takes in just one record is printed with that record. -/
theorem right_record_partial {os : List Obj} {l : List Src} (ho : ObjSorted os) (hp : ∀ o ∈ os, Proper o) (hs : SrcSorted l)
    {o : Obj} (hm : o ∈ os) {s : Src} (h1 : s ∈ l) (h2 : InRange o s) (h3 : ∀ s' ∈ l, InRange o s' → s'.rest = s.rest) :
    (o, some s.rest) ∈ merge os none l ∧ ∀ r, (o, r) ∈ merge os none l → r = some s.rest := by
  have ha : answer o l = some s.rest := by
    unfold answer
    cases hf : l.find? (fun s => decide (InRange o s)) with
    | none => rw [List.find?_eq_none] at hf; exact absurd (by simpa using h2) (hf s h1)
    | some s' =>
      have e1 := List.find?_some hf
      rw [decide_eq_true_eq] at e1
      rw [Option.map_some, h3 s' (List.mem_of_find?_eq_some hf) e1]
  rw [merge_partial os l ho hp hs]
  refine ⟨List.mem_map.mpr ⟨o, hm, by rw [ha]⟩, fun r hr => ?_⟩
  obtain ⟨o', _, e⟩ := List.mem_map.mp hr
  cases e
  exact ha

/-- **C121** (partial).  An instruction whose range takes in no record is printed without. -/
theorem no_record_partial {os : List Obj} {l : List Src} (ho : ObjSorted os) (hp : ∀ o ∈ os, Proper o) (hs : SrcSorted l)
    {o : Obj} (hm : o ∈ os) (h : ∀ s ∈ l, ¬ InRange o s) : ∀ r, (o, r) ∈ merge os none l ↔ r = none := by
  have ha : answer o l = none := by
    unfold answer
    rw [Option.map_eq_none_iff, List.find?_eq_none]
    intro s hs'
    simpa using h s hs'
  rw [merge_partial os l ho hp hs]
  intro r
  constructor
  · intro hr
    obtain ⟨o', _, e⟩ := List.mem_map.mp hr
    cases e
    exact ha
  · rintro rfl
    exact List.mem_map.mpr ⟨o, hm, by rw [ha]⟩

/-! ## Reading -/

/-- A field that can be read back: not empty and without blanks. -/
def Plain (t : Text) : Prop := t ≠ [] ∧ ∀ c ∈ t, blank c = false

/-- Neither begins nor ends with a blank. -/
def Trim (t : Text) : Prop := skip t = t ∧ skip t.reverse = t.reverse

/-- Fields, each followed by a tab. -/
def written : List Text → Text
  | [] => []
  | f :: fs => f ++ '\t' :: written fs

theorem skip_plain {t : Text} (h : Plain t) (s : Text) : skip (t ++ s) = t ++ s := by
  cases t with
  | nil => exact absurd rfl h.1
  | cons c t => rw [List.cons_append, skip, if_neg]; rw [h.2 c (by simp)]; exact Bool.false_ne_true

theorem field_tab : ∀ {t : Text}, (∀ c ∈ t, blank c = false) → ∀ s : Text, field (t ++ '\t' :: s) = (t, s)
  | [], _, s => by rw [List.nil_append, field, if_pos (by decide)]
  | c :: t, h, s => by
    rw [List.cons_append, field, if_neg (by rw [h c (by simp)]; exact Bool.false_ne_true), field_tab (fun d hd => h d (by simp [hd]))]

/-- **C121**.  Fields without blanks, written with tabs between them, are read back as they were. -/
theorem read_written {r : Text} (hr : Trim r) : ∀ (fs : List Text), (∀ f ∈ fs, Plain f) → readFields fs.length (written fs ++ r) = (fs, r)
  | [], _ => by
    rw [written, List.nil_append, List.length_nil, readFields, trimEnd, hr.1, hr.2, List.reverse_reverse]
  | f :: fs, h => by
    have hf := h f (by simp)
    rw [written, List.append_assoc, List.cons_append, List.length_cons, readFields, skip_plain hf, field_tab hf.2,
      read_written hr fs (fun g hg => h g (by simp [hg]))]

/-! ## Line numbers -/

/-- `k` digits of a number, least significant first. -/
def rdigs : Nat → Nat → Text
  | 0, _ => []
  | k + 1, n => Char.ofNat (48 + n % 10) :: rdigs k (n / 10)

theorem rdigs_zero : ∀ k, rdigs k 0 = List.replicate k '0'
  | 0 => rfl
  | k + 1 => by rw [rdigs, Nat.zero_div, rdigs_zero k, List.replicate_succ]

theorem rdigs_length : ∀ k n, (rdigs k n).length = k
  | 0, _ => rfl
  | k + 1, n => by rw [rdigs, List.length_cons, rdigs_length]

theorem revDigits_pad : ∀ (k fuel n : Nat), n < 10 ^ k → n < fuel → 0 < k →
    revDigits fuel n ++ List.replicate (k - (revDigits fuel n).length) '0' = rdigs k n
  | 0, _, _, _, _, h => absurd h (Nat.lt_irrefl 0)
  | _ + 1, 0, _, _, h, _ => by omega
  | k + 1, fuel + 1, n, h, hf, _ => by
    rw [revDigits]
    by_cases hn : n < 10
    · rw [if_pos hn, rdigs, Nat.mod_eq_of_lt hn, Nat.div_eq_of_lt hn, rdigs_zero]
      rfl
    · rw [if_neg hn, rdigs, List.cons_append, List.length_cons, Nat.add_sub_add_right]
      have h2 : n / 10 < 10 ^ k := by
        rw [Nat.div_lt_iff_lt_mul (by decide)]
        rw [Nat.pow_succ] at h; exact h
      have hk : 0 < k := by
        cases k with
        | zero => simp at h2; omega
        | succ k => omega
      rw [revDigits_pad k fuel (n / 10) h2 (by omega) hk]

theorem pad6_eq {n : Nat} (h : n < 10 ^ 6) : pad6 n = (rdigs 6 n).reverse := by
  rw [← revDigits_pad 6 (n + 1) n h (Nat.lt_succ_self n) (by decide), List.reverse_append, List.reverse_replicate]
  rfl

theorem digit_toNat {d : Nat} (h : d < 10) : (Char.ofNat (48 + d)).toNat = 48 + d := by
  have : ∀ d : Fin 10, (Char.ofNat (48 + d.val)).toNat = 48 + d.val := by decide
  exact this ⟨d, h⟩

theorem le_snoc : ∀ {a b : Text}, a.length = b.length → ∀ x y : Char,
    (le (a ++ [x]) (b ++ [y]) = true ↔ (le a b = true ∧ a ≠ b) ∨ (a = b ∧ x.toNat ≤ y.toNat))
  | [], [], _, x, y => by
    simp only [List.nil_append, le, Bool.or_eq_true, Bool.and_eq_true, decide_eq_true_eq, and_true, ne_eq, not_true, and_false, false_or, true_and]
    constructor
    · rintro (h | rfl) <;> omega
    · intro h
      rcases Nat.lt_or_eq_of_le h with h | h
      · exact .inl h
      · exact .inr (Char.toNat_inj.mp h)
  | [], _ :: _, h, _, _ => by simp at h
  | _ :: _, [], h, _, _ => by simp at h
  | c :: a, d :: b, h, x, y => by
    have ih := le_snoc (a := a) (b := b) (by simpa using h) x y
    simp only [List.cons_append, le, Bool.or_eq_true, Bool.and_eq_true, decide_eq_true_eq, ih, List.cons.injEq, ne_eq]
    constructor
    · rintro (h | ⟨e, ⟨h1, h2⟩ | ⟨h1, h2⟩⟩)
      · left; exact ⟨.inl h, fun e => by rw [e.1] at h; omega⟩
      · left; exact ⟨.inr ⟨e, h1⟩, fun e => h2 e.2⟩
      · right; exact ⟨⟨e, h1⟩, h2⟩
    · rintro (⟨h | ⟨e, h1⟩, h2⟩ | ⟨⟨e, h1⟩, h2⟩)
      · exact .inl h
      · exact .inr ⟨e, .inl ⟨h1, fun e' => h2 ⟨e, e'⟩⟩⟩
      · exact .inr ⟨e, .inr ⟨h1, h2⟩⟩

theorem rdigs_order : ∀ (k n m : Nat), n < 10 ^ k → m < 10 ^ k →
    (le (rdigs k n).reverse (rdigs k m).reverse = true ↔ n ≤ m) ∧ ((rdigs k n).reverse = (rdigs k m).reverse ↔ n = m)
  | 0, n, m, hn, hm => by simp at hn hm; subst hn; subst hm; simp [rdigs, le]
  | k + 1, n, m, hn, hm => by
    have hn' : n / 10 < 10 ^ k := by rw [Nat.div_lt_iff_lt_mul (by decide)]; rw [Nat.pow_succ] at hn; exact hn
    have hm' : m / 10 < 10 ^ k := by rw [Nat.div_lt_iff_lt_mul (by decide)]; rw [Nat.pow_succ] at hm; exact hm
    obtain ⟨i1, i2⟩ := rdigs_order k (n / 10) (m / 10) hn' hm'
    have e1 := digit_toNat (Nat.mod_lt n (by decide : 10 > 0))
    have e2 := digit_toNat (Nat.mod_lt m (by decide : 10 > 0))
    rw [rdigs, rdigs, List.reverse_cons, List.reverse_cons, le_snoc (by simp [rdigs_length]), i1, ne_eq, i2, e1, e2]
    refine ⟨by omega, ?_⟩
    constructor
    · intro h
      have := List.append_inj' h rfl
      have h1 := i2.mp this.1
      have h2 : (Char.ofNat (48 + n % 10)).toNat = (Char.ofNat (48 + m % 10)).toNat := by
        have := this.2
        simp only [List.cons.injEq, and_true] at this
        rw [this]
      omega
    · rintro rfl; rfl

/-- **C121** (partial: below a million).  Padded line numbers are in the order of the numbers, and different if the numbers are. -/
theorem pad_order_partial {n m : Nat} (hn : n < 1000000) (hm : m < 1000000) :
    (le (pad6 n) (pad6 m) = true ↔ n ≤ m) ∧ (lt (pad6 n) (pad6 m) = true ↔ n < m) ∧ (pad6 n = pad6 m ↔ n = m) := by
  have h1 := rdigs_order 6 n m hn hm
  have h2 := rdigs_order 6 m n hm hn
  rw [lt_iff, pad6_eq hn, pad6_eq hm]
  refine ⟨h1.1, ?_, h1.2⟩
  have := h2.1
  cases e : le (rdigs 6 m).reverse (rdigs 6 n).reverse with
  | true => have := this.mp e; simp; omega
  | false => simp only [true_iff]; rw [e] at this; simp at this; omega

/-- From a million on they are not. -/
theorem pad_order_fails : ¬ ∀ n m : Nat, n ≤ m → le (pad6 n) (pad6 m) = true := fun h => by
  have := h 999999 1000000 (by decide)
  revert this
  decide +kernel

/-! ## What ranges and records mean as numbers -/

/-- A source record and an instruction as their producers know them. -/
structure Rec where
  file : Text
  line : Nat
  rest : Text

structure Call where
  obj : Text
  func : Text
  addr : Text
  file : Text
  first : Nat
  last : Nat
  source : Text

/-- As they are written (tools/gather-srcallocs.sh:17-24, tools/objdumpmeta.awk:175). -/
def Rec.src (r : Rec) : Src := ⟨r.file, pad6 r.line, pad6 r.line, r.rest⟩
def Call.toObj (c : Call) : Obj := ⟨c.obj, c.func, c.addr, c.file, pad6 c.first, pad6 c.last⟩

/-- **C121** (partial: line numbers below a million).  A range takes in a record if the file is the same and the record's line is from the
first up to but without the last. -/
theorem inRange_partial {c : Call} {r : Rec} (h1 : c.first < 1000000) (h2 : c.last < 1000000) (h3 : r.line < 1000000) :
    InRange c.toObj r.src ↔ r.file = c.file ∧ c.first ≤ r.line ∧ r.line < c.last := by
  unfold InRange Rec.src Call.toObj
  simp only [(pad_order_partial h1 h3).1, (pad_order_partial h3 h2).2.1]

/-- The lines as text. -/
def Rec.text (r : Rec) : Text := written [r.file, pad6 r.line, pad6 r.line] ++ r.rest
def Call.text (c : Call) : Text := written [c.obj, c.func, c.addr, c.file, pad6 c.first, pad6 c.last, ['$', 'F', 'A', 'I', 'L', 'E', 'D', '$']] ++ c.source

/-- Records and instructions whose lines can be read back and compared. -/
def Rec.Good (r : Rec) : Prop := Plain r.file ∧ Trim r.rest ∧ r.line < 1000000
def Call.Good (c : Call) : Prop :=
  Plain c.obj ∧ Plain c.func ∧ Plain c.addr ∧ Plain c.file ∧ Trim c.source ∧ c.first ≤ c.last ∧ c.last < 1000000

theorem rdigs_plain : ∀ (k n : Nat), ∀ c ∈ rdigs k n, blank c = false
  | 0, _, _, h => by cases h
  | k + 1, n, c, h => by
    rw [rdigs] at h
    rcases List.mem_cons.mp h with rfl | h
    · have : ∀ d : Fin 10, blank (Char.ofNat (48 + d.val)) = false := by decide
      exact this ⟨n % 10, Nat.mod_lt _ (by decide)⟩
    · exact rdigs_plain k _ c h

theorem pad6_plain {n : Nat} (h : n < 1000000) : Plain (pad6 n) := by
  rw [pad6_eq h]
  refine ⟨fun e => ?_, fun c hc => rdigs_plain 6 n c (List.mem_reverse.mp hc)⟩
  have := congrArg List.length e
  rw [List.length_reverse, rdigs_length] at this
  cases this

theorem readSrc_text {r : Rec} (h : r.Good) : readSrc r.text = some r.src := by
  unfold readSrc Rec.text
  have := read_written h.2.1 [r.file, pad6 r.line, pad6 r.line] (by
    intro f hf
    simp only [List.mem_cons, List.not_mem_nil, or_false] at hf
    rcases hf with rfl | rfl | rfl
    · exact h.1
    · exact pad6_plain h.2.2
    · exact pad6_plain h.2.2)
  rw [show (3 : Nat) = [r.file, pad6 r.line, pad6 r.line].length from rfl, this]
  rfl

theorem readObj_text {c : Call} (h : c.Good) : readObj c.text = some c.toObj := by
  obtain ⟨h1, h2, h3, h4, h5, h6, h7⟩ := h
  unfold readObj Call.text
  have := read_written h5 [c.obj, c.func, c.addr, c.file, pad6 c.first, pad6 c.last, ['$', 'F', 'A', 'I', 'L', 'E', 'D', '$']] (by
    intro f hf
    simp only [List.mem_cons, List.not_mem_nil, or_false] at hf
    rcases hf with rfl | rfl | rfl | rfl | rfl | rfl | rfl
    · exact h1
    · exact h2
    · exact h3
    · exact h4
    · exact pad6_plain (by omega)
    · exact pad6_plain h7
    · exact ⟨by simp, by decide⟩)
  rw [show (7 : Nat) = [c.obj, c.func, c.addr, c.file, pad6 c.first, pad6 c.last, ['$', 'F', 'A', 'I', 'L', 'E', 'D', '$']].length from rfl, this]
  rfl

theorem filterMap_text {α β : Type} {f : Text → Option β} {g : α → Text} {h : α → β} : ∀ {l : List α}, (∀ a ∈ l, f (g a) = some (h a)) →
    (l.map g).filterMap f = l.map h
  | [], _ => rfl
  | a :: l, hh => by
    rw [List.map_cons, List.filterMap_cons, hh a (by simp), List.map_cons]
    exact congrArg _ (filterMap_text fun b hb => hh b (by simp [hb]))

/-- What an instruction should be printed with, in numbers: the first record of its file with a line in its range. -/
def wanted (c : Call) (rs : List Rec) : Option Text :=
  (rs.find? fun r => decide (r.file = c.file ∧ c.first ≤ r.line ∧ r.line < c.last)).map Rec.rest

theorem find_map {α β : Type} {f : α → β} {p : β → Bool} {q : α → Bool} : ∀ {l : List α}, (∀ a ∈ l, p (f a) = q a) →
    (l.map f).find? p = (l.find? q).map f
  | [], _ => rfl
  | a :: l, h => by
    rw [List.map_cons, List.find?_cons, List.find?_cons, h a (by simp)]
    cases q a with
    | true => rfl
    | false => exact find_map fun b hb => h b (by simp [hb])

theorem pairwise_map {α β : Type} {f : α → β} {R : β → β → Prop} {S : α → α → Prop} {l : List α} (h : l.Pairwise S)
    (hi : ∀ a ∈ l, ∀ b ∈ l, S a b → R (f a) (f b)) : (l.map f).Pairwise R := by
  rw [List.pairwise_map]
  exact h.imp_of_mem fun ha hb => hi _ ha _ hb

/-- **C121** (partial: fields without blanks, line numbers below a million, and both files sorted by file name and then by number).  The script
on the text of two files prints every instruction, in order, with the first record of its file that has a line in its range. -/
theorem script_partial {cs : List Call} {rs : List Rec} (hc : ∀ c ∈ cs, c.Good) (hr : ∀ r ∈ rs, r.Good)
    (sc : cs.Pairwise fun a b => lt a.file b.file = true ∨ (a.file = b.file ∧ a.first ≤ b.first))
    (sr : rs.Pairwise fun a b => lt a.file b.file = true ∨ (a.file = b.file ∧ a.line ≤ b.line)) :
    script (cs.map Call.text) (rs.map Rec.text) = cs.map fun c => (c.toObj, wanted c rs) := by
  unfold script
  rw [filterMap_text (h := Call.toObj) fun c h => readObj_text (hc c h), filterMap_text (h := Rec.src) fun r h => readSrc_text (hr r h),
    merge_partial]
  · rw [List.map_map]
    apply List.map_congr_left
    intro c h
    obtain ⟨_, _, _, _, _, h6, h7⟩ := hc c h
    show (c.toObj, answer c.toObj (rs.map Rec.src)) = _
    congr 1
    unfold answer wanted
    rw [find_map (q := fun r => decide (r.file = c.file ∧ c.first ≤ r.line ∧ r.line < c.last)), Option.map_map]
    · rfl
    · intro r h'
      exact decide_eq_decide.mpr (inRange_partial (by omega) h7 (hr r h').2.2)
  · refine pairwise_map sc fun a ha b hb h => ?_
    obtain ⟨_, _, _, _, _, a6, a7⟩ := hc a ha
    obtain ⟨_, _, _, _, _, b6, b7⟩ := hc b hb
    rcases h with h | ⟨e, h⟩
    · exact .inl h
    · exact .inr ⟨e, (pad_order_partial (by omega) (by omega)).1.mpr h⟩
  · intro o ho
    obtain ⟨c, h, rfl⟩ := List.mem_map.mp ho
    obtain ⟨_, _, _, _, _, h6, h7⟩ := hc c h
    exact (pad_order_partial (by omega) h7).1.mpr h6
  · refine pairwise_map sr fun a ha b hb h => ?_
    rcases h with h | ⟨e, h⟩
    · exact .inl h
    · exact .inr ⟨e, (pad_order_partial (hr a ha).2.2 (hr b hb).2.2).1.mpr h⟩

/-! ## Where it goes wrong -/

def t (s : String) : Text := s.toList

def callAt (a : String) (first last : Nat) : Obj := (Call.mk (t "a.out") (t "main") (t a) (t "m.c") first last []).toObj
def recAt (l : Nat) (r : String) : Src := (Rec.mk (t "m.c") l (t r)).src

/-- With two allocations on one line, both calls are given the type of the first. -/
theorem two_on_line_fails : merge [callAt "10" 7 8, callAt "20" 7 8] none [recAt 7 "malloc int", recAt 7 "malloc double"] =
    [(callAt "10" 7 8, some (t "malloc int")), (callAt "20" 7 8, some (t "malloc int"))] := by decide +kernel

/-- Records sorted in another order (here, one that takes capital letters after small ones) are missed. -/
theorem other_order_fails : merge [⟨t "a.out", t "main", t "10", t "B.c", pad6 3, pad6 4⟩, ⟨t "a.out", t "main", t "20", t "a.c", pad6 5, pad6 6⟩] none
      [⟨t "a.c", pad6 5, pad6 6, t "int"⟩, ⟨t "B.c", pad6 3, pad6 4, t "double"⟩] =
    [(⟨t "a.out", t "main", t "10", t "B.c", pad6 3, pad6 4⟩, none), (⟨t "a.out", t "main", t "20", t "a.c", pad6 5, pad6 6⟩, some (t "int"))] := by
  decide +kernel

/-- A file name with a space in it is not read back. -/
theorem space_in_name_fails : readSrc (written [t "my prog.c", pad6 7, pad6 8] ++ t "malloc int") =
    some ⟨t "my", t "prog.c", pad6 7, t "000008\tmalloc int"⟩ := by decide +kernel

/-! ## A concrete case -/

example : script [written [t "a.out", t "main", t "10", t "m.c", pad6 7, pad6 9, t "tok"] ++ t "x = malloc(4);",
      written [t "a.out", t "main", t "20", t "m.c", pad6 12, pad6 13, t "tok"] ++ t "f();"]
    [written [t "k.c", pad6 99, pad6 100] ++ t "malloc long", written [t "m.c", pad6 8, pad6 9] ++ t "malloc int", written [t "n.c", pad6 1, pad6 2] ++ t "malloc short"] =
    [(callAt "10" 7 9, some (t "malloc int")), (callAt "20" 12 13, none)] := by decide +kernel

end Liballocs.MergeSites
