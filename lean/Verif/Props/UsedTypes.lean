import Verif.Model.UsedTypes
/-! Properties of the binding of references to types. -/
namespace Liballocs.UsedTypes

/-! ## The specification -/

/-- Eight hexadecimal digits. -/
def Code (k : Text) : Prop := k.length = 8 ∧ ∀ c ∈ k, c ∈ w! "0123456789abcdef"

/-- The name of a type with its code, and without. -/
def coded (k n : Text) : Text := w! "__uniqtype_" ++ k ++ '_' :: n
def plain (n : Text) : Text := w! "__uniqtype__" ++ n

/-- A name with a code has nothing before it. -/
def Tidy (s : Text) : Prop := '=' ∉ s ∧ ((∃ a k n, Code k ∧ s = a ++ coded k n) → ∃ k n, Code k ∧ s = coded k n)

/-- The one code with which a type of this name is defined. -/
def Only (defs : List Text) (n k : Text) : Prop :=
  Code k ∧ coded k n ∈ defs ∧ (∀ k', Code k' → coded k' n ∈ defs → k' = k) ∧ ¬ ∃ b, coded k n = b ++ w! "_subobj_names"

/-! ## Names -/

theorem isHex_iff (c : Char) : isHex c = true ↔ c ∈ w! "0123456789abcdef" := by
  constructor
  · intro h
    unfold isHex at h
    rw [Bool.or_eq_true, decide_eq_true_eq, decide_eq_true_eq] at h
    have e : Char.ofNat c.toNat = c := Char.ofNat_toNat c
    have : c.toNat = 48 ∨ c.toNat = 49 ∨ c.toNat = 50 ∨ c.toNat = 51 ∨ c.toNat = 52 ∨ c.toNat = 53 ∨ c.toNat = 54 ∨ c.toNat = 55 ∨ c.toNat = 56 ∨ c.toNat = 57 ∨
        c.toNat = 97 ∨ c.toNat = 98 ∨ c.toNat = 99 ∨ c.toNat = 100 ∨ c.toNat = 101 ∨ c.toNat = 102 := by omega
    rcases this with h | h | h | h | h | h | h | h | h | h | h | h | h | h | h | h <;> (rw [h] at e; rw [← e]; decide)
  · intro h
    simp only [List.mem_cons, List.not_mem_nil, or_false] at h
    rcases h with rfl | rfl | rfl | rfl | rfl | rfl | rfl | rfl | rfl | rfl | rfl | rfl | rfl | rfl | rfl | rfl <;> decide

theorem strip_iff : ∀ {p s r : Text}, strip p s = some r ↔ s = p ++ r
  | [], s, r => by rw [strip]; exact ⟨fun h => (Option.some.inj h), fun h => (by rw [h]; rfl)⟩
  | p :: ps, [], r => by rw [strip]; exact ⟨fun h => (by cases h), fun h => (by cases h)⟩
  | p :: ps, c :: s, r => by
    rw [strip]
    by_cases h : p = c
    · rw [if_pos h, strip_iff, h]; exact ⟨fun e => (by rw [e]; rfl), fun e => (by injection e)⟩
    · rw [if_neg h]; exact ⟨fun e => (by cases e), fun e => (by injection e with e1 _; exact absurd e1.symm h)⟩

theorem codeHere_iff {s k n : Text} : codeHere s = some (k, n) ↔ Code k ∧ s = coded k n := by
  unfold codeHere coded
  constructor
  · intro h
    cases hs : strip w! "__uniqtype_" s with
    | none => rw [hs] at h; cases h
    | some r =>
      rw [hs] at h
      dsimp only at h
      by_cases hc : (r.take 8).length = 8 ∧ (r.take 8).all isHex = true
      · rw [if_pos hc] at h
        cases hd : r.drop 8 with
        | nil => rw [hd] at h; cases h
        | cons c m =>
          rw [hd] at h
          dsimp only at h
          by_cases hu : c = '_'
          · rw [if_pos hu] at h
            injection h with h
            injection h with h1 h2
            subst h1 h2
            refine ⟨⟨hc.1, fun d hd => (isHex_iff d).1 (List.all_eq_true.1 hc.2 d hd)⟩, ?_⟩
            rw [strip_iff.1 hs, List.append_assoc]
            congr 1
            rw [← hu, ← hd, List.take_append_drop]
          · rw [if_neg hu] at h; cases h
      · rw [if_neg hc] at h; cases h
  · rintro ⟨⟨h8, hx⟩, rfl⟩
    have e : strip w! "__uniqtype_" (w! "__uniqtype_" ++ k ++ '_' :: n) = some (k ++ '_' :: n) := strip_iff.2 (by simp)
    rw [e]
    have t8 : (k ++ '_' :: n).take 8 = k := by rw [← h8, List.take_left]
    have d8 : (k ++ '_' :: n).drop 8 = '_' :: n := by rw [← h8, List.drop_left]
    dsimp only
    rw [t8, d8, if_pos ⟨h8, List.all_eq_true.2 fun c hc => (isHex_iff c).2 (hx c hc)⟩]
    simp

theorem codeHere_none {s : Text} : codeHere s = none ↔ ¬ ∃ k n, Code k ∧ s = coded k n := by
  cases h : codeHere s with
  | none =>
    refine ⟨fun _ => ?_, fun _ => rfl⟩
    rintro ⟨k, n, hk⟩
    rw [codeHere_iff.2 hk] at h; cases h
  | some p =>
    obtain ⟨k, n⟩ := p
    exact ⟨fun e => (by cases e), fun e => absurd ⟨k, n, codeHere_iff.1 h⟩ e⟩

theorem codeIn_none : ∀ {s : Text}, codeIn s = none ↔ ¬ ∃ a k n, Code k ∧ s = a ++ coded k n
  | [] => by
    rw [codeIn]
    refine ⟨fun _ => ?_, fun _ => rfl⟩
    rintro ⟨a, k, n, _, h⟩
    have := congrArg List.length h
    simp [coded] at this
  | c :: s => by
    rw [codeIn]
    cases h : codeHere (c :: s) with
    | some p =>
      obtain ⟨k, n⟩ := p
      have := codeHere_iff.1 h
      exact ⟨fun e => (by cases e), fun e => absurd ⟨[], k, n, this⟩ e⟩
    | none =>
      dsimp only
      rw [Option.map_eq_none_iff, codeIn_none]
      have hn := codeHere_none.1 h
      constructor
      · rintro hs ⟨a, k, n, hk, e⟩
        cases a with
        | nil => exact hn ⟨k, n, hk, e⟩
        | cons d a => injection e with _ e; exact hs ⟨a, k, n, hk, e⟩
      · rintro hs ⟨a, k, n, hk, e⟩
        exact hs ⟨c :: a, k, n, hk, by rw [e]; rfl⟩

theorem codeIn_coded {k n : Text} (h : Code k) : codeIn (coded k n) = some ([], k, n) := by
  have e : coded k n = '_' :: (w! "_uniqtype_" ++ k ++ '_' :: n) := rfl
  have := codeHere_iff.2 ⟨h, (rfl : coded k n = coded k n)⟩
  rw [e] at this ⊢
  rw [codeIn, this]

theorem codeIn_some : ∀ {s a k n : Text}, codeIn s = some (a, k, n) → Code k ∧ s = a ++ coded k n
  | [], _, _, _, h => by rw [codeIn] at h; cases h
  | c :: s, a, k, n, h => by
    rw [codeIn] at h
    cases hc : codeHere (c :: s) with
    | some p =>
      obtain ⟨k', n'⟩ := p
      rw [hc] at h
      injection h with h; injection h with h1 h2; injection h2 with h2 h3
      subst h1 h2 h3
      exact codeHere_iff.1 hc
    | none =>
      rw [hc] at h
      dsimp only at h
      rw [Option.map_eq_some_iff] at h
      obtain ⟨⟨a', k', n'⟩, h1, h2⟩ := h
      injection h2 with h2 h3; injection h3 with h3 h4
      subst h2 h3 h4
      obtain ⟨g1, g2⟩ := codeIn_some h1
      exact ⟨g1, by rw [g2]; rfl⟩

/-- **C158 fails** A name that has something before such a code is listed too; what is before goes before the option, which is then none. -/
theorem prefixed_fails {s : Text} (h : ∃ a k n, Code k ∧ s = a ++ coded k n) (hn : ¬ ∃ k n, Code k ∧ s = coded k n) :
    ∃ a k n, a ≠ [] ∧ Code k ∧ s = a ++ coded k n ∧ redefWords s = [a ++ w! "--redefine-sym", plain n ++ '=' :: coded k n] := by
  cases hc : codeIn s with
  | none => exact absurd h (codeIn_none.1 hc)
  | some p =>
    obtain ⟨a, k, n⟩ := p
    obtain ⟨g1, g2⟩ := codeIn_some hc
    refine ⟨a, k, n, ?_, g1, g2, ?_⟩
    · intro e; exact hn ⟨k, n, g1, by rw [g2, e]; rfl⟩
    · rw [redefWords, hc]; rfl

theorem key_coded {k n : Text} (h : Code k) : key (coded k n) = n := by
  have e : coded k n = (w! "__uniqtype_" ++ k ++ ['_']) ++ n := by simp [coded]
  have l : (w! "__uniqtype_" ++ k ++ ['_']).length = 20 := by simp [h.1]
  unfold key
  rw [e, ← l, List.drop_left]

theorem coded_inj {k n k' n' : Text} (h : Code k) (h' : Code k') (e : coded k n = coded k' n') : k = k' ∧ n = n' := by
  have en : n = n' := (key_coded (n := n) h).symm.trans ((congrArg key e).trans (key_coded h'))
  subst en
  unfold coded at e
  have := List.append_cancel_right e
  exact ⟨List.append_cancel_left this, rfl⟩

theorem endsWith_iff {p s : Text} : endsWith p s = true ↔ ∃ b, s = b ++ p := by
  unfold endsWith
  rw [Option.isSome_iff_exists]
  constructor
  · rintro ⟨r, h⟩
    have := strip_iff.1 h
    exact ⟨r.reverse, by rw [← s.reverse_reverse, this]; simp⟩
  · rintro ⟨b, rfl⟩
    exact ⟨b.reverse, strip_iff.2 (by simp)⟩

private theorem short_tail {m x b : Text} {c : Char} (h : m ++ '_' :: c :: x = w! "_subobj_names".reverse ++ b) (hc : c ∈ w! "0123456789abcdef") : 12 ≤ m.length := by
  have e : (w! "_subobj_names" : Text).reverse = w! "seman_jbobus_" := rfl
  rw [e] at h
  rcases m with _ | ⟨_, _ | ⟨_, _ | ⟨_, _ | ⟨_, _ | ⟨_, _ | ⟨_, _ | ⟨_, _ | ⟨_, _ | ⟨_, _ | ⟨_, _ | ⟨_, _ | ⟨_, m⟩⟩⟩⟩⟩⟩⟩⟩⟩⟩⟩⟩
  all_goals first
    | (simp at h; done)
    | (simp only [List.cons_append, List.nil_append, List.cons.injEq] at h; obtain ⟨-, -, -, -, -, -, rfl, -⟩ := h; exact absurd hc (by decide))
    | (simp only [List.length_cons]; omega)

/-- Whether a name is of the other kind does not depend on its code. -/
theorem names_any_code {k k' n : Text} (hk' : Code k') (h : ∃ b, coded k' n = b ++ w! "_subobj_names") : ∃ b, coded k n = b ++ w! "_subobj_names" := by
  obtain ⟨b, e⟩ := h
  have hr := congrArg List.reverse e
  unfold coded at hr
  rw [List.reverse_append, List.reverse_append, List.reverse_append, List.reverse_cons] at hr
  have hk : ∃ c r, k'.reverse = c :: r ∧ c ∈ w! "0123456789abcdef" := by
    cases hh : k'.reverse with
    | nil =>
      have := congrArg List.length hh
      rw [List.length_reverse, hk'.1] at this; cases this
    | cons c r => exact ⟨c, r, rfl, hk'.2 c (List.mem_reverse.1 (by rw [hh]; exact List.mem_cons_self ..))⟩
  obtain ⟨c, r, ek, hc⟩ := hk
  rw [ek] at hr
  have hl := short_tail (m := n.reverse) (c := c) (x := r ++ (w! "__uniqtype_").reverse) (b := b.reverse) (by rw [← hr]; simp) hc
  rw [List.length_reverse] at hl
  have e2 : (w! "__uniqtype_" ++ k') ++ ('_' :: n) = b ++ w! "_subobj_names" := by rw [← e]; rfl
  obtain ⟨t, ht⟩ : ∃ t, '_' :: n = t ++ w! "_subobj_names" := by
    rcases List.append_eq_append_iff.1 e2 with ⟨t, h1, h2⟩ | ⟨t, h1, h2⟩
    · exact ⟨t, h2⟩
    · have := congrArg List.length h2
      simp only [List.length_append, List.length_cons, List.length_nil] at this
      have ht : t = [] := List.length_eq_zero_iff.1 (by omega)
      rw [ht] at h2
      exact ⟨[], by rw [h2]; rfl⟩
  exact ⟨w! "__uniqtype_" ++ k ++ t, by unfold coded; rw [ht, List.append_assoc _ t]⟩

/-! ## Sorting and counting -/

private theorem char_eq {a b : Char} (h : a.toNat = b.toNat) : a = b := by
  rw [← Char.ofNat_toNat a, h, Char.ofNat_toNat]

theorem textLt_irrefl : ∀ a : Text, textLt a a = false
  | [] => rfl
  | c :: s => by rw [textLt, if_neg (Nat.lt_irrefl _), if_neg (Nat.lt_irrefl _), textLt_irrefl]

theorem textLt_trans : ∀ {a b c : Text}, textLt a b = true → textLt b c = true → textLt a c = true
  | [], [], _, h, _ => by cases h
  | [], _ :: _, [], _, h => by cases h
  | [], _ :: _, _ :: _, _, _ => rfl
  | _ :: _, [], _, h, _ => by cases h
  | _ :: _, _ :: _, [], _, h => by cases h
  | x :: a, y :: b, z :: c, h, g => by
    rw [textLt] at h g ⊢
    by_cases h1 : x.toNat < y.toNat
    · by_cases g1 : y.toNat < z.toNat
      · rw [if_pos (Nat.lt_trans h1 g1)]
      · rw [if_neg g1] at g
        by_cases g2 : z.toNat < y.toNat
        · rw [if_pos g2] at g; cases g
        · rw [if_pos (by omega)]
    · rw [if_neg h1] at h
      by_cases h2 : y.toNat < x.toNat
      · rw [if_pos h2] at h; cases h
      · rw [if_neg h2] at h
        by_cases g1 : y.toNat < z.toNat
        · rw [if_pos (by omega)]
        · rw [if_neg g1] at g
          by_cases g2 : z.toNat < y.toNat
          · rw [if_pos g2] at g; cases g
          · rw [if_neg g2] at g
            rw [if_neg (by omega), if_neg (by omega)]
            exact textLt_trans h g

theorem textLt_total : ∀ {a b : Text}, textLt a b = false → textLt b a = false → a = b
  | [], [], _, _ => rfl
  | [], _ :: _, h, _ => by cases h
  | _ :: _, [], _, h => by cases h
  | x :: a, y :: b, h, g => by
    rw [textLt] at h g
    by_cases h1 : x.toNat < y.toNat
    · rw [if_pos h1] at h; cases h
    · rw [if_neg h1] at h
      by_cases h2 : y.toNat < x.toNat
      · rw [if_pos h2] at g; cases g
      · rw [if_neg h2] at h
        rw [if_neg h2, if_neg h1] at g
        rw [char_eq (Nat.le_antisymm (Nat.le_of_not_lt h2) (Nat.le_of_not_lt h1)), textLt_total h g]

/-- Not after. -/
private def Le (a b : Text) : Prop := textLt (key b) (key a) = false

private theorem Le.trans {a b c : Text} (h : Le a b) (g : Le b c) : Le a c := by
  unfold Le at *
  cases hx : textLt (key c) (key a) with
  | false => rfl
  | true =>
    exfalso
    cases hb : textLt (key a) (key b) with
    | true =>
      have := textLt_trans hx hb
      rw [g] at this; cases this
    | false =>
      have := textLt_total hb h
      rw [← this] at g
      rw [g] at hx; cases hx

private theorem lineLt_le {a b : Text} : (lineLt a b = true → Le a b) ∧ (lineLt a b = false → Le b a) := by
  unfold lineLt Le
  by_cases h : key a = key b
  · rw [if_pos h, h]; exact ⟨fun _ => textLt_irrefl _, fun _ => textLt_irrefl _⟩
  · rw [if_neg h]
    refine ⟨fun hl => ?_, fun hl => hl⟩
    cases hx : textLt (key b) (key a) with
    | false => rfl
    | true =>
      have := textLt_trans hl hx
      rw [textLt_irrefl] at this; cases this

private theorem ins_perm (x : Text) : ∀ l : List Text, (ins x l).Perm (x :: l)
  | [] => .refl _
  | y :: l => by
    rw [ins]
    by_cases h : lineLt y x = true
    · rw [if_pos h]; exact ((ins_perm x l).cons y).trans (.swap ..)
    · rw [if_neg h]

private theorem sort_perm : ∀ l : List Text, (sort l).Perm l
  | [] => .refl _
  | x :: l => (ins_perm x (sort l)).trans ((sort_perm l).cons x)

private theorem ins_sorted (x : Text) : ∀ l : List Text, l.Pairwise Le → (ins x l).Pairwise Le
  | [], _ => by rw [ins]; simp
  | y :: l, h => by
    rw [List.pairwise_cons] at h
    rw [ins]
    by_cases hl : lineLt y x = true
    · rw [if_pos hl, List.pairwise_cons]
      refine ⟨fun z hz => ?_, ins_sorted x l h.2⟩
      rcases List.mem_cons.1 ((ins_perm x l).mem_iff.1 hz) with rfl | hz
      · exact lineLt_le.1 hl
      · exact h.1 z hz
    · rw [if_neg hl, List.pairwise_cons]
      have hyx := lineLt_le.2 (Bool.eq_false_iff.2 hl)
      refine ⟨fun z hz => ?_, List.pairwise_cons.2 h⟩
      rcases List.mem_cons.1 hz with rfl | hz
      · exact hyx
      · exact hyx.trans (h.1 z hz)

private theorem sort_sorted : ∀ l : List Text, (sort l).Pairwise Le
  | [] => .nil
  | x :: l => ins_sorted x _ (sort_sorted l)

private def sameKey (x : Text) : Text → Bool := fun y => decide (key y = key x)

private theorem uniqC_head (x : Text) (l : List Text) : ∃ n r, uniqC (x :: l) = (n, x) :: r := by
  rw [uniqC]
  split
  · exact ⟨_, _, rfl⟩
  · split
    · exact ⟨_, _, rfl⟩
    · exact ⟨_, _, rfl⟩

private theorem uniqC_spec : ∀ l : List Text, l.Pairwise Le →
    (∀ n x, (n, x) ∈ uniqC l → x ∈ l ∧ n = l.countP (sameKey x)) ∧ (∀ x ∈ l, ∃ n y, (n, y) ∈ uniqC l ∧ key y = key x) ∧
    ((uniqC l).map fun p => key p.2).Nodup
  | [], _ => ⟨fun n x h => (by simp [uniqC] at h), fun x h => (by cases h), by simp [uniqC]⟩
  | [x], _ => by
    refine ⟨?_, ?_, ?_⟩
    · intro n y h
      simp only [uniqC, List.mem_singleton, Prod.mk.injEq] at h
      obtain ⟨rfl, rfl⟩ := h
      simp [sameKey]
    · intro y h
      rw [List.mem_singleton] at h
      subst h
      exact ⟨1, y, by simp [uniqC], rfl⟩
    · simp [uniqC]
  | x :: z :: l, hp => by
    rw [List.pairwise_cons] at hp
    obtain ⟨i1, i2, i3⟩ := uniqC_spec (z :: l) hp.2
    obtain ⟨m, r, hu⟩ := uniqC_head z l
    rw [hu] at i1 i2 i3
    have hz := i1 m z (List.mem_cons_self ..)
    have e : uniqC (x :: z :: l) = if key x = key z then (m + 1, x) :: r else (1, x) :: (m, z) :: r := by rw [uniqC, hu]
    by_cases hk : key x = key z
    · rw [if_pos hk] at e
      rw [e]
      have cx : ∀ y, key y ≠ key z → (x :: z :: l).countP (sameKey y) = (z :: l).countP (sameKey y) := by
        intro y hy
        rw [List.countP_cons_of_neg]
        simp [sameKey, hk, Ne.symm hy]
      simp only [List.map_cons, List.nodup_cons] at i3 ⊢
      refine ⟨?_, ?_, ?_, i3.2⟩
      · intro n y h
        rcases List.mem_cons.1 h with h | h
        · injection h with h1 h2
          subst h1 h2
          refine ⟨List.mem_cons_self .., ?_⟩
          rw [List.countP_cons_of_pos (by simp [sameKey])]
          have : sameKey y = sameKey z := by unfold sameKey; rw [hk]
          rw [this, ← hz.2]
        · have := i1 n y (List.mem_cons_of_mem _ h)
          refine ⟨List.mem_cons_of_mem _ this.1, ?_⟩
          rw [cx y, this.2]
          intro hy
          exact i3.1 (List.mem_map.2 ⟨(n, y), h, hy⟩)
      · intro y hy
        by_cases hyk : key y = key z
        · exact ⟨m + 1, x, List.mem_cons_self .., by rw [hk, hyk]⟩
        · have hy' : y ∈ z :: l := by
            rcases List.mem_cons.1 hy with rfl | hy
            · exact absurd hk hyk
            · exact hy
          obtain ⟨n, w, hw, hwk⟩ := i2 y hy'
          rcases List.mem_cons.1 hw with hw | hw
          · injection hw with _ hw; subst hw; exact absurd hwk.symm hyk
          · exact ⟨n, w, List.mem_cons_of_mem _ hw, hwk⟩
      · rw [hk]; exact i3.1
    · rw [if_neg hk] at e
      rw [e]
      have hne : ∀ y ∈ z :: l, key y ≠ key x := by
        intro y hy he
        rcases List.mem_cons.1 hy with rfl | hy
        · exact hk he.symm
        · have a := hp.1 z (List.mem_cons_self ..)
          have b := (List.pairwise_cons.1 hp.2).1 y hy
          unfold Le at a b
          rw [he] at b
          exact hk (textLt_total b a)
      refine ⟨?_, ?_, ?_⟩
      · intro n y h
        rcases List.mem_cons.1 h with h | h
        · injection h with h1 h2
          subst h1 h2
          refine ⟨List.mem_cons_self .., ?_⟩
          rw [List.countP_cons_of_pos (by simp [sameKey]), List.countP_eq_zero.2]
          intro w hw
          simp [sameKey, hne w hw]
        · have := i1 n y h
          refine ⟨List.mem_cons_of_mem _ this.1, ?_⟩
          rw [List.countP_cons_of_neg, this.2]
          have hc := hne y this.1
          simp [sameKey, Ne.symm hc]
      · intro y hy
        rcases List.mem_cons.1 hy with rfl | hy
        · exact ⟨1, y, List.mem_cons_self .., rfl⟩
        · obtain ⟨n, w, hw, hwk⟩ := i2 y hy
          exact ⟨n, w, List.mem_cons_of_mem _ hw, hwk⟩
      · rw [List.map_cons, List.nodup_cons]
        refine ⟨?_, i3⟩
        intro hm
        obtain ⟨⟨n, w⟩, hw, hwk⟩ := List.mem_map.1 hm
        exact hne w (i1 n w hw).1 hwk

private theorem alone_spec {l : List Text} (h : l.Pairwise Le) : (∀ x, x ∈ alone (uniqC l) ↔ x ∈ l ∧ l.countP (sameKey x) = 1) ∧ ((alone (uniqC l)).map key).Nodup := by
  obtain ⟨h1, h2, h3⟩ := uniqC_spec l h
  refine ⟨?_, ?_⟩
  · intro x
    unfold alone
    simp only [List.mem_map, List.mem_filter, decide_eq_true_eq]
    constructor
    · rintro ⟨⟨n, y⟩, ⟨hm, rfl⟩, rfl⟩
      have := h1 _ _ hm
      exact ⟨this.1, this.2.symm⟩
    · rintro ⟨hx, hc⟩
      obtain ⟨n, y, hm, hk⟩ := h2 x hx
      have hy := h1 n y hm
      have hs : sameKey y = sameKey x := by unfold sameKey; rw [hk]
      rw [hs, hc] at hy
      have : y = x := by
        -- both are in a list with one such element
        have hle : (l.filter (sameKey x)).length = 1 := by rw [← List.countP_eq_length_filter]; exact hc
        have m1 : x ∈ l.filter (sameKey x) := List.mem_filter.2 ⟨hx, by simp [sameKey]⟩
        have m2 : y ∈ l.filter (sameKey x) := List.mem_filter.2 ⟨hy.1, by simp [sameKey, hk]⟩
        obtain ⟨w, hw⟩ := List.length_eq_one_iff.1 hle
        rw [hw, List.mem_singleton] at m1 m2
        rw [m1, m2]
      subst this
      exact ⟨(n, y), ⟨hm, hy.2⟩, rfl⟩
  · unfold alone
    rw [List.map_map]
    refine List.Nodup.sublist ?_ h3
    exact (List.filter_sublist).map _

/-! ## The options -/

private theorem atEquals_eq : ∀ {a b : Text}, '=' ∉ a → atEquals (a ++ '=' :: b) = some (a, b)
  | [], b, _ => by rw [List.nil_append, atEquals, if_pos rfl]
  | c :: a, b, h => by
    rw [List.cons_append, atEquals, if_neg (fun e : c = '=' => h (by rw [e]; exact List.mem_cons_self ..)), atEquals_eq fun hm => h (List.mem_cons_of_mem _ hm)]
    rfl

private theorem parse_words {α : Type} (f g : α → Text) (w : α → List Text) : ∀ l : List α, (∀ x ∈ l, '=' ∉ f x) → (∀ x ∈ l, w x = [w! "--redefine-sym", f x ++ '=' :: g x]) →
    parse (l.flatMap w) = some (l.map fun x => (f x, g x))
  | [], _, _ => rfl
  | x :: l, h, hw => by
    rw [List.flatMap_cons, hw x (List.mem_cons_self ..)]
    show parse (_ :: _ :: _) = _
    rw [parse, if_pos rfl, atEquals_eq (h x (List.mem_cons_self ..))]
    have := parse_words f g w l (fun y hy => h y (List.mem_cons_of_mem _ hy)) (fun y hy => hw y (List.mem_cons_of_mem _ hy))
    show (match some (f x, g x), parse (l.flatMap w) with
      | some r, some rs => some (r :: rs)
      | _, _ => none) = _
    rw [this]
    rfl

private theorem clash_no : ∀ {rs : List (Text × Text)}, (rs.map Prod.fst).Nodup → (rs.map Prod.snd).Nodup → clash rs = false
  | [], _, _ => rfl
  | r :: rs, h1, h2 => by
    rw [List.map_cons, List.nodup_cons] at h1 h2
    rw [clash, clash_no h1.2 h2.2, Bool.or_false, List.any_eq_false]
    intro q hq
    rw [Bool.not_eq_true, Bool.or_eq_false_iff, decide_eq_false_iff_not, decide_eq_false_iff_not]
    exact ⟨fun e => h1.1 (List.mem_map.2 ⟨q, hq, e⟩), fun e => h2.1 (List.mem_map.2 ⟨q, hq, e⟩)⟩

private theorem rename_in : ∀ {rs : List (Text × Text)} {a b : Text}, (rs.map Prod.fst).Nodup → (a, b) ∈ rs → rename rs a = b
  | [], _, _, _, h => by cases h
  | r :: rs, a, b, hn, h => by
    rw [List.map_cons, List.nodup_cons] at hn
    rcases List.mem_cons.1 h with h | h
    · subst h; simp [rename]
    · have hne : ¬ r.1 = a := fun e => hn.1 (List.mem_map.2 ⟨(a, b), h, e.symm⟩)
      have := rename_in hn.2 h
      unfold rename at this ⊢
      rw [List.find?_cons_of_neg (by simpa using hne)]
      exact this

private theorem rename_out {rs : List (Text × Text)} {a : Text} (h : ∀ b, (a, b) ∉ rs) : rename rs a = a := by
  unfold rename
  have : rs.find? (fun r => decide (r.1 = a)) = none := by
    rw [List.find?_eq_none]
    rintro ⟨x, b⟩ hm
    simp only [decide_eq_true_eq]
    rintro rfl
    exact h b hm
  rw [this]

private theorem split_codes : ∀ {l : List Text}, (∀ s ∈ l, ∃ k n, Code k ∧ s = coded k n) → ∃ ps : List (Text × Text), (∀ p ∈ ps, Code p.1) ∧ l = ps.map fun p => coded p.1 p.2
  | [], _ => ⟨[], fun _ h => (by cases h), rfl⟩
  | s :: l, h => by
    obtain ⟨k, n, hk, e⟩ := h s (List.mem_cons_self ..)
    obtain ⟨ps, hp, el⟩ := split_codes fun t ht => h t (List.mem_cons_of_mem _ ht)
    refine ⟨(k, n) :: ps, ?_, by rw [e, el]; rfl⟩
    intro p hm
    rcases List.mem_cons.1 hm with rfl | hm
    · exact hk
    · exact hp p hm

private theorem nodup_of_key {ps : List (Text × Text)} (f : Text × Text → Text) (hf : ∀ p ∈ ps, ∀ q ∈ ps, f p = f q → p.2 = q.2) (h : (ps.map Prod.snd).Nodup) : (ps.map f).Nodup := by
  induction ps with
  | nil => exact .nil
  | cons p ps ih =>
    rw [List.map_cons, List.nodup_cons] at h ⊢
    refine ⟨?_, ih (fun a ha b hb => hf a (List.mem_cons_of_mem _ ha) b (List.mem_cons_of_mem _ hb)) h.2⟩
    intro hm
    obtain ⟨q, hq, e⟩ := List.mem_map.1 hm
    exact h.1 (List.mem_map.2 ⟨q, hq, hf q (List.mem_cons_of_mem _ hq) p (List.mem_cons_self ..) e⟩)

/-- The redefinitions: of the names that have one code. -/
theorem redefinitions_are {defs : List Text} (hn : defs.Nodup) (ht : ∀ s ∈ defs, Tidy s) :
    ∃ ps : List (Text × Text), (∀ p : Text × Text, p ∈ ps ↔ Only defs p.2 p.1) ∧ (ps.map Prod.snd).Nodup ∧ parse (redefinitions defs) = some (ps.map fun p => (plain p.2, coded p.1 p.2)) := by
  have hs := sort_sorted (defs.filter listed)
  have hm : ∀ x, x ∈ sort (defs.filter listed) ↔ x ∈ defs ∧ listed x = true := fun x => by rw [(sort_perm _).mem_iff, List.mem_filter]
  have hnd : (sort (defs.filter listed)).Nodup := (sort_perm _).nodup_iff.2 (hn.sublist List.filter_sublist)
  obtain ⟨a1, a2⟩ := alone_spec hs
  have hlist : ∀ x ∈ defs, listed x = true → ∃ k n, Code k ∧ x = coded k n := by
    intro x hx hl
    unfold listed at hl
    rw [Bool.and_eq_true] at hl
    apply (ht x hx).2
    apply Classical.byContradiction
    intro hc
    rw [codeIn_none.2 hc] at hl
    exact absurd hl.1 (by simp)
  obtain ⟨ps, hp, el⟩ := split_codes (l := alone (uniqC (sort (defs.filter listed)))) fun s h => hlist s ((hm s).1 ((a1 s).1 h).1).1 ((hm s).1 ((a1 s).1 h).1).2
  have hkey : (ps.map Prod.snd).Nodup := by
    rw [el, List.map_map] at a2
    have : ps.map (key ∘ fun p => coded p.1 p.2) = ps.map Prod.snd := by
      apply List.map_congr_left
      intro p hpm
      exact key_coded (hp p hpm)
    rwa [this] at a2
  refine ⟨ps, ?_, hkey, ?_⟩
  · rintro ⟨k, n⟩
    constructor
    · intro h
      have hk := hp _ h
      have hin : coded k n ∈ alone (uniqC (sort (defs.filter listed))) := by rw [el]; exact List.mem_map.2 ⟨(k, n), h, rfl⟩
      obtain ⟨hx, hc⟩ := (a1 _).1 hin
      have hd := (hm _).1 hx
      refine ⟨hk, hd.1, ?_, ?_⟩
      · intro k' hk' hd'
        have hl' : listed (coded k' n) = true ∨ listed (coded k' n) = false := by cases listed (coded k' n) <;> simp
        rcases hl' with hl' | hl'
        · have hx' := (hm (coded k' n)).2 ⟨hd', hl'⟩
          rw [List.countP_eq_length_filter] at hc
          obtain ⟨w, hw⟩ := List.length_eq_one_iff.1 hc
          have m1 : coded k n ∈ (sort (defs.filter listed)).filter (sameKey (coded k n)) := List.mem_filter.2 ⟨hx, by simp [sameKey]⟩
          have m2 : coded k' n ∈ (sort (defs.filter listed)).filter (sameKey (coded k n)) := List.mem_filter.2 ⟨hx', by simp [sameKey, key_coded hk, key_coded hk']⟩
          rw [hw, List.mem_singleton] at m1 m2
          exact (coded_inj hk' hk (m2.trans m1.symm)).1
        · exfalso
          unfold listed at hl'
          rw [codeIn_coded hk'] at hl'
          have he : endsWith w! "_subobj_names" (coded k' n) = true := by simpa using hl'
          have := endsWith_iff.2 (names_any_code (k := k) hk' (endsWith_iff.1 he))
          have hd := hd.2
          unfold listed at hd
          rw [this] at hd
          simp at hd
      · intro he
        have := hd.2
        unfold listed at this
        rw [endsWith_iff.2 he] at this
        simp at this
    · rintro ⟨hk, hd, hu, he⟩
      have hl : listed (coded k n) = true := by
        unfold listed
        rw [codeIn_coded hk]
        have : endsWith w! "_subobj_names" (coded k n) = false := Bool.eq_false_iff.2 fun h => he (endsWith_iff.1 h)
        rw [this]; rfl
      have hx := (hm _).2 ⟨hd, hl⟩
      have hone : ∀ y ∈ (sort (defs.filter listed)).filter (sameKey (coded k n)), y = coded k n := by
        intro y hy
        obtain ⟨hy, hs⟩ := List.mem_filter.1 hy
        have hyd := (hm y).1 hy
        obtain ⟨k', n', hk', rfl⟩ := hlist y hyd.1 hyd.2
        have : n' = n := by simpa [sameKey, key_coded hk, key_coded hk'] using hs
        subst this
        rw [hu k' hk' hyd.1]
      have hc : (sort (defs.filter listed)).countP (sameKey (coded k n)) = 1 := by
        rw [List.countP_eq_length_filter]
        have m1 : coded k n ∈ (sort (defs.filter listed)).filter (sameKey (coded k n)) := List.mem_filter.2 ⟨hx, by simp [sameKey]⟩
        have nd : ((sort (defs.filter listed)).filter (sameKey (coded k n))).Nodup := hnd.sublist List.filter_sublist
        generalize (sort (defs.filter listed)).filter (sameKey (coded k n)) = F at hone m1 nd
        match F, hone, m1, nd with
        | [], _, m1, _ => cases m1
        | [_], _, _, _ => rfl
        | a :: b :: F, hone, _, nd =>
          have ha := hone a (List.mem_cons_self ..)
          have hb := hone b (List.mem_cons_of_mem _ (List.mem_cons_self ..))
          rw [ha, hb, List.nodup_cons] at nd
          exact absurd (List.mem_cons_self ..) nd.1
      have := (a1 _).2 ⟨hx, hc⟩
      rw [el] at this
      obtain ⟨⟨k', n'⟩, hm', e⟩ := List.mem_map.1 this
      obtain ⟨rfl, rfl⟩ := coded_inj (hp _ hm') hk e
      exact hm'
  · unfold redefinitions
    rw [el, List.flatMap_map]
    apply parse_words (fun p : Text × Text => plain p.2) (fun p => coded p.1 p.2)
    · intro p hpm he
      have hin : coded p.1 p.2 ∈ alone (uniqC (sort (defs.filter listed))) := by rw [el]; exact List.mem_map.2 ⟨p, hpm, rfl⟩
      have hd := ((hm _).1 ((a1 _).1 hin).1).1
      apply (ht _ hd).1
      unfold plain at he
      unfold coded
      rw [List.mem_append] at he ⊢
      rcases he with he | he
      · exact absurd he (by decide)
      · exact .inr (List.mem_cons_of_mem _ he)
    · intro p hpm
      show redefWords _ = _
      unfold redefWords
      rw [codeIn_coded (hp p hpm)]
      rfl

/-- The references after the renaming. -/
def Bound (defs : List Text) (obj out : List Sym) : Prop :=
  out.length = obj.length ∧ ∀ (i : Nat) (s t : Sym), obj[i]? = some s → out[i]? = some t →
    t.defined = s.defined ∧ (∀ n k, s.name = plain n → Only defs n k → t.name = coded k n) ∧ ((∀ n k, s.name = plain n → ¬ Only defs n k) → t.name = s.name)

/-- A reference to a type by its plain name becomes a reference to the only definition of the type, if there is one, whatever else is generated; nothing else is renamed. -/
theorem codes_bound {defs : List Text} {obj : List Sym} (hn : defs.Nodup) (ht : ∀ s ∈ defs, Tidy s) : ∃ out, bindCodes defs obj = some out ∧ Bound defs obj out := by
  obtain ⟨ps, h1, h2, h3⟩ := redefinitions_are hn ht
  have pinj : ∀ {a b : Text}, plain a = plain b → a = b := fun h => List.append_cancel_left h
  have n1 : ((ps.map fun p => (plain p.2, coded p.1 p.2)).map Prod.fst).Nodup := by
    rw [List.map_map]
    exact nodup_of_key _ (fun p _ q _ e => pinj e) h2
  have n2 : ((ps.map fun p => (plain p.2, coded p.1 p.2)).map Prod.snd).Nodup := by
    rw [List.map_map]
    exact nodup_of_key _ (fun p hp q hq e => (coded_inj ((h1 p).1 hp).1 ((h1 q).1 hq).1 e).2) h2
  refine ⟨obj.map fun s => { s with name := rename (ps.map fun p => (plain p.2, coded p.1 p.2)) s.name }, ?_, List.length_map .., ?_⟩
  · unfold bindCodes objcopy
    rw [h3]
    dsimp only
    rw [clash_no n1 n2]
    rfl
  · intro i s t hs hto
    rw [List.getElem?_map, hs] at hto
    injection hto with hto
    subst hto
    refine ⟨rfl, ?_, ?_⟩
    · intro n k e ho
      exact rename_in n1 (List.mem_map.2 ⟨(k, n), (h1 (k, n)).2 ho, by rw [e]⟩)
    · intro hno
      apply rename_out
      intro b hb
      obtain ⟨⟨k, n⟩, hp, e⟩ := List.mem_map.1 hb
      injection e with e1 _
      exact hno n k e1.symm ((h1 _).1 hp)

/-- So such a reference is bound by linking the two, and one with several candidates or none is not. -/
theorem codes_link {defs roots : List Text} {obj : List Sym} (hn : defs.Nodup) (ht : ∀ s ∈ defs, Tidy s) {out : List Sym} (ho : bindCodes defs obj = some out) {i : Nat} {n : Text}
    (hi : obj[i]? = some ⟨plain n, false⟩) :
    (∀ k, Only defs n k → out[i]? = some ⟨coded k n, false⟩ ∧ coded k n ∉ unbound out defs roots) ∧
    ((∀ k, ¬ Only defs n k) → plain n ∉ defs → plain n ∉ roots → (∀ t ∈ obj, t.defined = true → t.name ≠ plain n) → plain n ∈ unbound out defs roots) := by
  obtain ⟨o, h1, hl, hb⟩ := codes_bound (obj := obj) hn ht
  rw [ho] at h1
  injection h1 with h1
  subst h1
  have hlt : i < obj.length := (List.getElem?_eq_some_iff.1 hi).1
  have hoi : out[i]? = some (out[i]'(hl ▸ hlt)) := List.getElem?_eq_getElem _
  obtain ⟨b1, b2, b3⟩ := hb i _ _ hi hoi
  have pinj : ∀ {a b : Text}, plain a = plain b → a = b := fun h => List.append_cancel_left h
  constructor
  · intro k hk
    refine ⟨?_, ?_⟩
    · rw [hoi]
      congr 1
      cases hh : out[i]'(hl ▸ hlt) with
      | mk a b => rw [hh] at b1 b2; dsimp only at b1 b2; rw [b1, b2 n k rfl hk]
    · unfold unbound
      intro hm
      obtain ⟨s, hs, e⟩ := List.mem_map.1 hm
      have := (List.mem_filter.1 hs).2
      rw [e] at this
      simp [hk.2.1] at this
  · intro hno hd hr hx
    have hnm := b3 fun m k e => by rw [← pinj e]; exact hno k
    unfold unbound
    refine List.mem_map.2 ⟨out[i]'(hl ▸ hlt), List.mem_filter.2 ⟨List.getElem_mem _, ?_⟩, hnm⟩
    rw [hnm, b1]
    simp only [hd, hr, decide_false, Bool.not_false, Bool.true_and, Bool.not_eq_true', List.any_eq_false, Bool.and_eq_true, decide_eq_true_eq, not_and]
    intro t htm htd hte
    obtain ⟨j, hj⟩ := List.getElem?_of_mem htm
    have hjl : j < obj.length := hl ▸ (List.getElem?_eq_some_iff.1 hj).1
    obtain ⟨c1, c2, c3⟩ := hb j _ t (List.getElem?_eq_getElem hjl) hj
    by_cases hex : ∃ m k, (obj[j]'hjl).name = plain m ∧ Only defs m k
    · obtain ⟨m, k, e, hk⟩ := hex
      have := c2 m k e hk
      rw [hte] at this
      -- a plain name is no name with a code
      have h12 := congrArg (fun l : Text => l[11]?) this
      have a1 : (plain n)[11]? = some '_' := by simp [plain]
      have a2 : ∃ c, (coded k m)[11]? = some c ∧ c ∈ w! "0123456789abcdef" := by
        cases hkk : k with
        | nil => have := hk.1.1; rw [hkk] at this; cases this
        | cons c k' => exact ⟨c, by simp [coded], hk.1.2 c (by rw [hkk]; exact List.mem_cons_self ..)⟩
      obtain ⟨c, a2, a3⟩ := a2
      rw [a1, a2] at h12
      injection h12 with h12
      subst h12
      exact absurd a3 (by decide)
    · have := c3 fun m k e ho => hex ⟨m, k, e, ho⟩
      exact hx _ (List.getElem_mem hjl) (c1 ▸ htd) (this ▸ hte)

/-! ## C++ names -/

/-- A number in decimal. -/
inductive Dec : Text → Nat → Prop
  | one {i : Nat} {c : Char} : (w! "0123456789")[i]? = some c → Dec [c] i
  | more {d : Text} {n i : Nat} {c : Char} : Dec d n → (w! "0123456789")[i]? = some c → Dec (d ++ [c]) (10 * n + i)

/-- No digits and no special characters. -/
def Quiet (s : Text) : Prop := ∀ c ∈ s, c ∉ w! "0123456789=\n\x0c"

/-- An identifier. -/
def Ident (a : Text) : Prop := a ≠ [] ∧ (∀ c ∈ a, c ∉ w! "=\n\x0c") ∧ ∀ c, a.head? = some c → c ∉ w! "0123456789"

/-- One that does not end in a digit. -/
def Fine (a : Text) : Prop := Ident a ∧ ∀ c, a.getLast? = some c → c ∉ w! "0123456789"

/-- The components of a name as they are in a symbol: each has its length before it. -/
inductive Mangled : List Text → Text → Prop
  | nil : Mangled [] []
  | cons {a d m : Text} {cs : List Text} : Fine a → Dec d a.length → Mangled cs m → Mangled (a :: cs) (d ++ a ++ m)

/-- The symbol of the static member `obj` of the template for a type that is mangled so. -/
def cxx (m : Text) : Text := w! "_ZN8uniqtypeI" ++ m ++ w! "3objE"

/-- The components with form feeds between. -/
def feeds : List Text → Text
  | [] => []
  | [a] => a
  | a :: cs => a ++ '\x0c' :: feeds cs

/-- The name made of the components. -/
def dotted : List Text → Text
  | [] => []
  | [a] => a
  | a :: cs => a ++ w! "__DOT_" ++ feeds cs

theorem isDigit_iff (c : Char) : isDigit c = true ↔ c ∈ w! "0123456789" := by
  constructor
  · intro h
    unfold isDigit at h
    rw [decide_eq_true_eq] at h
    have e : Char.ofNat c.toNat = c := Char.ofNat_toNat c
    have : c.toNat = 48 ∨ c.toNat = 49 ∨ c.toNat = 50 ∨ c.toNat = 51 ∨ c.toNat = 52 ∨ c.toNat = 53 ∨ c.toNat = 54 ∨ c.toNat = 55 ∨ c.toNat = 56 ∨ c.toNat = 57 := by omega
    rcases this with h | h | h | h | h | h | h | h | h | h <;> (rw [h] at e; rw [← e]; decide)
  · intro h
    simp only [List.mem_cons, List.not_mem_nil, or_false] at h
    rcases h with rfl | rfl | rfl | rfl | rfl | rfl | rfl | rfl | rfl | rfl <;> decide

private theorem digit_value {i : Nat} {c : Char} (h : (w! "0123456789")[i]? = some c) : isDigit c = true ∧ c.toNat - 48 = i := by
  refine ⟨(isDigit_iff c).2 (List.mem_of_getElem? h), ?_⟩
  have hi : i < 10 := (List.getElem?_eq_some_iff.1 h).1
  have : i = 0 ∨ i = 1 ∨ i = 2 ∨ i = 3 ∨ i = 4 ∨ i = 5 ∨ i = 6 ∨ i = 7 ∨ i = 8 ∨ i = 9 := by omega
  rcases this with rfl | rfl | rfl | rfl | rfl | rfl | rfl | rfl | rfl | rfl <;> (injection h with h; subst h; rfl)

theorem Dec.value {d : Text} {n : Nat} (h : Dec d n) : number d = n ∧ (∀ c ∈ d, isDigit c = true) ∧ d ≠ [] := by
  induction h with
  | one h =>
    have := digit_value h
    refine ⟨?_, ?_, by simp⟩
    · show 0 * 10 + _ = _
      rw [this.2, Nat.zero_mul, Nat.zero_add]
    · intro c hc
      rw [List.mem_singleton] at hc
      rw [hc]; exact this.1
  | more h hc ih =>
    have := digit_value hc
    refine ⟨?_, ?_, by simp⟩
    · unfold number at ih ⊢
      rw [List.foldl_append, ih.1]
      show _ * 10 + _ = _
      rw [this.2, Nat.mul_comm]
    · intro c hm
      rcases List.mem_append.1 hm with hm | hm
      · exact ih.2.1 c hm
      · rw [List.mem_singleton] at hm; rw [hm]; exact this.1

private theorem dropWhile_pre {p : Char → Bool} : ∀ {a b : Text}, (∀ c ∈ a, p c = true) → (∀ c, b.head? = some c → p c = false) → (a ++ b).dropWhile p = b ∧ (a ++ b).takeWhile p = a
  | [], [], _, _ => ⟨rfl, rfl⟩
  | [], c :: b, _, h => by
    have := h c rfl
    simp [this]
  | c :: a, b, ha, hb => by
    have := dropWhile_pre (fun d hd => ha d (List.mem_cons_of_mem _ hd)) hb
    have hc := ha c (List.mem_cons_self ..)
    simp [hc, this.1, this.2]

private theorem numRest_none {s : Text} (h : ∀ c ∈ s, isDigit c = false) : numRest s = none := by
  unfold numRest
  have : s.dropWhile (fun c => !isDigit c) = [] := by
    have := (dropWhile_pre (p := fun c => !isDigit c) (a := s) (b := []) (fun c hc => by rw [h c hc]; rfl) (fun c hc => by cases hc)).1
    rwa [List.append_nil] at this
  rw [this]

private theorem numRest_dec {pre d r : Text} {n : Nat} (hp : ∀ c ∈ pre, isDigit c = false) (hd : Dec d n) (hr : ∀ c, r.head? = some c → isDigit c = false) : numRest (pre ++ (d ++ r)) = some (n, r) := by
  obtain ⟨v1, v2, v3⟩ := hd.value
  obtain ⟨c, d', rfl⟩ := List.exists_cons_of_ne_nil v3
  have h1 := (dropWhile_pre (p := fun c => !isDigit c) (a := pre) (b := c :: d' ++ r) (fun c hc => by rw [hp c hc]; rfl) (fun x hx => by injection hx with hx; subst hx; rw [v2 c (List.mem_cons_self ..)]; rfl)).1
  have h2 := dropWhile_pre (p := isDigit) (a := c :: d') (b := r) v2 hr
  unfold numRest
  rw [h1]
  show some (number ((c :: d' ++ r).takeWhile isDigit), (c :: d' ++ r).dropWhile isDigit) = _
  rw [h2.1, h2.2, v1]

private theorem not_digit {c : Char} : isDigit c = false ↔ c ∉ w! "0123456789" := by
  rw [← isDigit_iff, Bool.not_eq_true]

private theorem head_app {a b : Text} {c : Char} (h : a ≠ []) (e : (a ++ b).head? = some c) : a.head? = some c := by
  cases a with
  | nil => exact absurd rfl h
  | cons x a => exact e

private theorem last_split {a : Text} (h : a ≠ []) (r : Text) : ∃ c, a.getLast? = some c ∧ (a ++ r).drop (a.length - 1) = c :: r := by
  obtain ⟨b, c, rfl⟩ : ∃ b c, a = b ++ [c] := ⟨a.dropLast, a.getLast h, (List.dropLast_concat_getLast h).symm⟩
  refine ⟨c, by simp, ?_⟩
  have : (b ++ [c]).length - 1 = b.length := by simp
  rw [this, List.append_assoc, List.drop_left]
  rfl

/-- The components are found, whatever comes before and after. -/
theorem chomp_finds {cs : List Text} {m : Text} (h : Mangled cs m) : ∀ {k : Nat} {pre post : Text}, (∀ c ∈ pre, c ∉ w! "0123456789") → (∀ c ∈ post, c ∉ w! "0123456789") → (pre ++ m ++ post).length < k →
    chomp k (pre ++ m ++ post) = cs := by
  induction h with
  | nil =>
    intro k pre post h1 h2 hk
    obtain ⟨k, rfl⟩ : ∃ j, k = j + 1 := ⟨k - 1, by omega⟩
    rw [chomp, numRest_none]
    intro c hc
    rw [List.append_nil] at hc
    rcases List.mem_append.1 hc with hc | hc
    · exact not_digit.2 (h1 c hc)
    · exact not_digit.2 (h2 c hc)
  | @cons a d m cs hf hd _ ih =>
    intro k pre post h1 h2 hk
    obtain ⟨k, rfl⟩ : ∃ j, k = j + 1 := ⟨k - 1, by omega⟩
    have e : pre ++ (d ++ a ++ m) ++ post = pre ++ (d ++ (a ++ (m ++ post))) := by simp [List.append_assoc]
    rw [e] at hk ⊢
    have hn := numRest_dec (pre := pre) (r := a ++ (m ++ post)) (fun c hc => not_digit.2 (h1 c hc)) hd (fun c hc => not_digit.2 (hf.1.2.2 c (head_app hf.1.1 hc)))
    rw [chomp, hn]
    obtain ⟨c, hc, hl⟩ := last_split hf.1.1 (m ++ post)
    dsimp only
    rw [hl, if_neg (by simp), List.append_assoc a, List.take_left]
    congr 1
    have ha : 0 < a.length := List.length_pos_iff.2 hf.1.1
    have hd : 0 < d.length := List.length_pos_iff.2 hd.value.2.2
    have := ih (k := k) (pre := [c]) (post := post) (fun x hx => by rw [List.mem_singleton] at hx; rw [hx]; exact hf.2 c hc) h2 (by
      simp only [List.length_append, List.length_cons, List.length_nil] at hk ⊢; omega)
    rw [← this]
    rfl

private theorem lines_last {t : Text} (h : ∀ c, t.getLast? = some c → c ≠ '\n') : value (t ++ ['\n']) = t := by
  unfold value
  rw [List.reverse_append]
  have : (['\n'] : Text).reverse = ['\n'] := rfl
  rw [this]
  show (List.dropWhile _ ('\n' :: t.reverse)).reverse = t
  rw [List.dropWhile_cons_of_pos (by simp)]
  cases hr : t.reverse with
  | nil => rw [List.reverse_eq_nil_iff] at hr; rw [hr]; rfl
  | cons c r =>
    have ht : t = r.reverse ++ [c] := by rw [← List.reverse_reverse t, hr, List.reverse_cons]
    have hc := h c (by rw [ht]; simp)
    rw [List.dropWhile_cons_of_neg (by simpa using hc), ← hr, List.reverse_reverse]

/-- The components with newlines between. -/
private def lines : List Text → Text
  | [] => []
  | [a] => a
  | a :: b :: cs => a ++ '\n' :: lines (b :: cs)

private theorem flat_lines : ∀ {cs : List Text}, cs ≠ [] → cs.flatMap (fun i => i ++ ['\n']) = lines cs ++ ['\n']
  | [], h => absurd rfl h
  | [a], _ => by simp [lines]
  | a :: b :: cs, _ => by
    rw [List.flatMap_cons, flat_lines (cs := b :: cs) (by simp), lines]
    simp

private theorem lines_end : ∀ {cs : List Text}, (∀ a ∈ cs, Ident a) → ∀ c, (lines cs).getLast? = some c → c ≠ '\n'
  | [], _, c, h => by cases h
  | [a], hi, c, h => by
    rintro rfl
    exact (hi a (List.mem_cons_self ..)).2.1 _ (List.mem_of_getLast? h) (by decide)
  | a :: b :: cs, hi, c, h => by
    have ih := lines_end (cs := b :: cs) fun x hx => hi x (List.mem_cons_of_mem _ hx)
    rw [lines] at h
    have hne : lines (b :: cs) ≠ [] := by
      have hb := (hi b (List.mem_cons_of_mem _ (List.mem_cons_self ..))).1
      cases cs with
      | nil => exact hb
      | cons x cs => rw [lines]; simp
    obtain ⟨l, hl⟩ : ∃ l, (lines (b :: cs)).getLast? = some l := by
      cases hh : (lines (b :: cs)).getLast? with
      | none => exact absurd (List.getLast?_eq_none_iff.1 hh) hne
      | some l => exact ⟨l, rfl⟩
    have : l = c := by simpa [List.getLast?_append, List.getLast?_cons, hl] using h
    subst this
    exact ih _ hl

private def nf (c : Char) : Char := if c = '\n' then '\x0c' else c

private theorem nf_same {a : Text} (h : Ident a) : a.map nf = a := by
  rw [List.map_congr_left (g := id), List.map_id]
  intro c hc
  have : c ≠ '\n' := by rintro rfl; exact h.2.1 _ hc (by decide)
  simp [nf, this]

private theorem lines_feeds : ∀ {cs : List Text}, (∀ a ∈ cs, Ident a) → (lines cs).map nf = feeds cs
  | [], _ => rfl
  | [a], h => nf_same (h a (List.mem_cons_self ..))
  | a :: b :: cs, h => by
    rw [lines, List.map_append, nf_same (h a (List.mem_cons_self ..)), List.map_cons, lines_feeds fun x hx => h x (List.mem_cons_of_mem _ hx)]
    rfl

private theorem dot_none : ∀ {a : Text}, '\x0c' ∉ a → dot a = a
  | [], _ => rfl
  | c :: a, h => by
    rw [dot, if_neg (fun e : c = '\x0c' => h (by rw [e]; exact List.mem_cons_self ..)), dot_none fun hm => h (List.mem_cons_of_mem _ hm)]

private theorem dot_at : ∀ {a b : Text}, '\x0c' ∉ a → dot (a ++ '\x0c' :: b) = a ++ w! "__DOT_" ++ b
  | [], b, _ => by rw [List.nil_append, dot, if_pos rfl]; rfl
  | c :: a, b, h => by
    rw [List.cons_append, dot, if_neg (fun e : c = '\x0c' => h (by rw [e]; exact List.mem_cons_self ..)), dot_at fun hm => h (List.mem_cons_of_mem _ hm)]
    rfl

private theorem Ident.nofeed {a : Text} (h : Ident a) : '\x0c' ∉ a := fun hm => h.2.1 _ hm (by decide)

private theorem fragment_lines {cs : List Text} (h : ∀ a ∈ cs, Ident a) : fragment (lines cs) = dotted cs := by
  have e : (lines cs ++ ['\n']).map nf = feeds cs ++ ['\x0c'] := by rw [List.map_append, lines_feeds h]; rfl
  have hd : dot (feeds cs) = dotted cs := by
    match cs, h with
    | [], _ => rfl
    | [a], h => exact dot_none (h a (List.mem_cons_self ..)).nofeed
    | a :: b :: cs, h => exact dot_at (h a (List.mem_cons_self ..)).nofeed
  have hf : fragment (lines cs) = dot (if (if ((lines cs ++ ['\n']).map nf).head? = some '\x0c' then ((lines cs ++ ['\n']).map nf).tail else (lines cs ++ ['\n']).map nf).getLast? = some '\x0c' then
      (if ((lines cs ++ ['\n']).map nf).head? = some '\x0c' then ((lines cs ++ ['\n']).map nf).tail else (lines cs ++ ['\n']).map nf).dropLast
      else (if ((lines cs ++ ['\n']).map nf).head? = some '\x0c' then ((lines cs ++ ['\n']).map nf).tail else (lines cs ++ ['\n']).map nf)) := rfl
  rw [hf, e]
  cases cs with
  | nil => rfl
  | cons a cs =>
    have ha := h a (List.mem_cons_self ..)
    have hh : (feeds (a :: cs) ++ ['\x0c']).head? ≠ some '\x0c' := by
      intro hc
      obtain ⟨x, a', rfl⟩ := List.exists_cons_of_ne_nil ha.1
      have : (feeds ((x :: a') :: cs) ++ ['\x0c']).head? = some x := by
        cases cs <;> rfl
      rw [this] at hc
      injection hc with hc
      exact ha.nofeed (by rw [hc]; exact List.mem_cons_self ..)
    rw [if_neg hh, if_pos (by simp), List.dropLast_concat, hd]

theorem middle_cxx (m : Text) : middle (cxx m) = some m := by
  unfold middle cxx
  rw [List.append_assoc, strip_iff.2 rfl]
  dsimp only
  rw [List.reverse_append, strip_iff.2 rfl, Option.map_some, List.reverse_reverse]

theorem middle_iff {s m : Text} : middle s = some m ↔ s = cxx m := by
  refine ⟨fun h => ?_, fun h => h ▸ middle_cxx m⟩
  unfold middle at h
  cases hs : strip w! "_ZN8uniqtypeI" s with
  | none => rw [hs] at h; cases h
  | some r =>
    rw [hs] at h
    dsimp only at h
    cases hr : strip (w! "3objE").reverse r.reverse with
    | none => rw [hr] at h; cases h
    | some x =>
      rw [hr] at h
      injection h with h
      have h1 := strip_iff.1 hs
      have h2 := congrArg List.reverse (strip_iff.1 hr)
      rw [List.reverse_reverse, List.reverse_append, List.reverse_reverse, h] at h2
      rw [h1, h2, cxx, List.append_assoc]

/-- The name that the symbol of a type is rewritten as: only the components of the type's name matter, of which the first two have `__DOT_` between them. -/
theorem names_made {cs : List Text} {pre m post : Text} (h : Mangled cs m) (h1 : ∀ c ∈ pre, c ∉ w! "0123456789") (h2 : ∀ c ∈ post, c ∉ w! "0123456789") :
    translate (cxx (pre ++ m ++ post)) = plain (dotted cs) := by
  have hi : ∀ a ∈ cs, Ident a := by
    clear h1 h2
    induction h with
    | nil => intro a ha; cases ha
    | cons hf _ _ ih =>
      intro x hx
      rcases List.mem_cons.1 hx with rfl | hx
      · exact hf.1
      · exact ih x hx
  unfold translate
  rw [middle_cxx]
  dsimp only
  unfold idents
  rw [chomp_finds h h1 h2 (Nat.lt_succ_self _)]
  by_cases hc : cs = []
  · subst hc; rfl
  · rw [flat_lines hc, lines_last (lines_end hi), fragment_lines hi]
    rfl

/-! ## References from C++ -/

/-- The symbols that stand for types: undefined, of the template's form. -/
def Refers (s : Sym) (m : Text) : Prop := s.defined = false ∧ s.name = cxx m

private theorem cxx_inj {m m' : Text} (h : cxx m = cxx m') : m = m' := List.append_cancel_left (List.append_cancel_right h)

private theorem isCandidate {s : Sym} {m : Text} (h : Refers s m) : (!s.defined && (strip w! "_ZN8uniqtype" s.name).isSome) = true := by
  rw [h.1, h.2]
  have : strip w! "_ZN8uniqtype" (cxx m) = some ('I' :: (m ++ w! "3objE")) := strip_iff.2 rfl
  rw [this]; rfl

private theorem words_are : ∀ {l : List Text}, l.flatMap cxxWords = (l.filter fun s => !decide (s = translate s)).flatMap fun s => [w! "--redefine-sym", s ++ '=' :: translate s]
  | [] => rfl
  | s :: l => by
    rw [List.flatMap_cons, words_are]
    unfold cxxWords
    by_cases h : s = translate s
    · rw [if_pos h, List.filter_cons_of_neg (by rw [← h]; simp), List.nil_append]
    · rw [if_neg h, List.filter_cons_of_pos (by simpa using h), List.flatMap_cons]

private theorem renamed_list (obj : List Sym) : ∀ s, s ∈ ((candidates obj).filter fun s => !decide (s = translate s)) ↔ (∃ y ∈ obj, ∃ m, Refers y m ∧ y.name = s) := by
  intro s
  unfold candidates
  rw [List.mem_filter]
  constructor
  · rintro ⟨hm, hn⟩
    obtain ⟨y, hy, rfl⟩ := List.mem_map.1 hm
    obtain ⟨hy, hc⟩ := List.mem_filter.1 hy
    have hu : y.defined = false := by
      cases hd : y.defined with
      | false => rfl
      | true => rw [hd] at hc; cases hc
    have hne : y.name ≠ translate y.name := by simpa using hn
    cases hmid : middle y.name with
    | none => exact absurd (by unfold translate; rw [hmid]) hne
    | some m => exact ⟨y, hy, m, ⟨hu, middle_iff.1 hmid⟩, rfl⟩
  · rintro ⟨y, hy, m, hr, rfl⟩
    refine ⟨List.mem_map.2 ⟨y, List.mem_filter.2 ⟨hy, isCandidate hr⟩, rfl⟩, ?_⟩
    have : y.name ≠ translate y.name := by
      unfold translate
      rw [hr.2, middle_cxx]
      intro h
      injection h with _ h
      injection h with h _
      exact absurd h (by decide)
    simpa using this

private theorem nodup_map {α β : Type} (f : α → β) : ∀ {l : List α}, l.Nodup → (∀ a ∈ l, ∀ b ∈ l, f a = f b → a = b) → (l.map f).Nodup
  | [], _, _ => .nil
  | a :: l, h, hf => by
    rw [List.nodup_cons] at h
    rw [List.map_cons, List.nodup_cons]
    refine ⟨?_, nodup_map f h.2 fun x hx y hy => hf x (List.mem_cons_of_mem _ hx) y (List.mem_cons_of_mem _ hy)⟩
    intro hm
    obtain ⟨b, hb, e⟩ := List.mem_map.1 hm
    exact h.1 (hf b (List.mem_cons_of_mem _ hb) a (List.mem_cons_self ..) e ▸ hb)

/-- What the renaming of C++ names does, if no two references get the same name: each of the references gets its name, and no other symbol changes. -/
theorem cxx_renamed {obj : List Sym} (hn : (obj.map Sym.name).Nodup) (he : ∀ s ∈ obj, '=' ∉ s.name)
    (hd : ∀ s ∈ obj, ∀ t ∈ obj, ∀ m m', Refers s m → Refers t m' → translate (cxx m) = translate (cxx m') → m = m') :
    ∃ out, bindCxx obj = some out ∧ out.length = obj.length ∧ ∀ (i : Nat) (s t : Sym), obj[i]? = some s → out[i]? = some t →
      t.defined = s.defined ∧ (∀ m, Refers s m → t.name = translate s.name) ∧ ((∀ m, ¬ Refers s m) → t.name = s.name) := by
  have hc : (candidates obj).Nodup := hn.sublist ((List.filter_sublist).map _)
  have hL := renamed_list obj
  have hcf : ((candidates obj).filter fun s => !decide (s = translate s)).Nodup := hc.sublist List.filter_sublist
  unfold bindCxx
  have hw := words_are (l := candidates obj)
  generalize (candidates obj).filter (fun s => !decide (s = translate s)) = L at hL hcf hw
  cases hL' : L with
  | nil =>
    rw [hL'] at hw
    rw [hw]
    refine ⟨obj, rfl, rfl, ?_⟩
    intro i s t h1 h2
    rw [h1] at h2
    injection h2 with h2
    subst h2
    refine ⟨rfl, ?_, fun _ => rfl⟩
    intro m hr
    have := (hL s.name).2 ⟨s, List.mem_of_getElem? h1, m, hr, rfl⟩
    rw [hL'] at this; cases this
  | cons w ws =>
    have hp := parse_words (id : Text → Text) translate _ L (fun s hs => by obtain ⟨y, hy, _, _, e⟩ := (hL s).1 hs; rw [← e]; exact he y hy) (fun _ _ => rfl)
    have n1 : ((L.map fun s => (id s, translate s)).map Prod.fst).Nodup := by
      rw [List.map_map]
      exact nodup_map _ hcf fun a _ b _ e => e
    have n2 : ((L.map fun s => (id s, translate s)).map Prod.snd).Nodup := by
      rw [List.map_map]
      refine nodup_map _ hcf ?_
      intro a ha b hb e
      obtain ⟨y, hy, m, hr, rfl⟩ := (hL a).1 ha
      obtain ⟨z, hz, m', hr', rfl⟩ := (hL b).1 hb
      have : translate (cxx m) = translate (cxx m') := by rw [← hr.2, ← hr'.2]; exact e
      rw [hr.2, hr'.2, hd y hy z hz m m' hr hr' this]
    have hne : (candidates obj).flatMap cxxWords = w! "--redefine-sym" :: (w ++ '=' :: translate w) :: ws.flatMap (fun s => [w! "--redefine-sym", s ++ '=' :: translate s]) := by
      rw [hw, hL']; rfl
    rw [hne]
    dsimp only
    rw [← hne, hw]
    refine ⟨obj.map fun s => { s with name := rename (L.map fun s => (id s, translate s)) s.name }, ?_, List.length_map .., ?_⟩
    · unfold objcopy
      rw [show (L.flatMap fun s => [w! "--redefine-sym", s ++ '=' :: translate s]) = L.flatMap (fun s => [w! "--redefine-sym", id s ++ '=' :: translate s]) from rfl, hp]
      dsimp only
      rw [clash_no n1 n2]
      rfl
    · intro i s t hs hto
      rw [List.getElem?_map, hs] at hto
      injection hto with hto
      subst hto
      refine ⟨rfl, ?_, ?_⟩
      · intro m hr
        exact rename_in n1 (List.mem_map.2 ⟨s.name, (hL _).2 ⟨s, List.mem_of_getElem? hs, m, hr, rfl⟩, rfl⟩)
      · intro hno
        apply rename_out
        intro b hb
        obtain ⟨x, hx, e⟩ := List.mem_map.1 hb
        injection e with e1 _
        have e1 : x = s.name := e1
        obtain ⟨y, hy, m, hr, e2⟩ := (hL x).1 hx
        -- one symbol of a name
        obtain ⟨j, hj⟩ := List.getElem?_of_mem hy
        have h1 : (obj.map Sym.name)[i]? = some s.name := by rw [List.getElem?_map, hs]; rfl
        have h2 : (obj.map Sym.name)[j]? = some s.name := by rw [List.getElem?_map, hj, ← e1, ← e2]; rfl
        have hi := List.getElem?_eq_some_iff.1 h1
        have hij : i = j := (List.getElem?_inj hi.1 hn).1 (h1.trans h2.symm)
        subst hij
        rw [hs] at hj
        injection hj with hj
        exact hno m (hj ▸ hr)

/-- Two references that get the same name stop the script. -/
theorem same_name_fails {obj : List Sym} {s t : Sym} {m m' : Text} (he : ∀ s ∈ obj, '=' ∉ s.name) (hs : s ∈ obj) (ht : t ∈ obj) (h1 : Refers s m) (h2 : Refers t m') (hne : m ≠ m')
    (hsame : translate (cxx m) = translate (cxx m')) : bindCxx obj = none := by
  have hL := renamed_list obj
  unfold bindCxx
  have hw := words_are (l := candidates obj)
  generalize (candidates obj).filter (fun s => !decide (s = translate s)) = L at hL hw
  have m1 := (hL s.name).2 ⟨s, hs, m, h1, rfl⟩
  have m2 := (hL t.name).2 ⟨t, ht, m', h2, rfl⟩
  have hp := parse_words (id : Text → Text) translate _ L (fun s hs => by obtain ⟨y, hy, _, _, e⟩ := (hL s).1 hs; rw [← e]; exact he y hy) (fun _ _ => rfl)
  have clashes : ∀ {l : List Text} {a b : Text}, a ∈ l → b ∈ l → a ≠ b → translate a = translate b → clash (l.map fun s => (id s, translate s)) = true := by
    intro l
    induction l with
    | nil => intro a b h; cases h
    | cons x l ih =>
      intro a b ha hb hab e
      rw [List.map_cons, clash, Bool.or_eq_true]
      rcases List.mem_cons.1 ha with rfl | ha'
      · rcases List.mem_cons.1 hb with rfl | hb'
        · exact absurd rfl hab
        · exact .inl (List.any_eq_true.2 ⟨(b, translate b), List.mem_map.2 ⟨b, hb', rfl⟩, by simp [e]⟩)
      · rcases List.mem_cons.1 hb with rfl | hb'
        · exact .inl (List.any_eq_true.2 ⟨(a, translate a), List.mem_map.2 ⟨a, ha', rfl⟩, by simp [e]⟩)
        · exact .inr (ih ha' hb' hab e)
  have hcl := clashes m1 m2 (fun e => hne (cxx_inj (by rw [← h1.2, ← h2.2, e]))) (by rw [h1.2, h2.2]; exact hsame)
  cases hL' : L with
  | nil => rw [hL'] at m1; cases m1
  | cons w ws =>
    have hne : (candidates obj).flatMap cxxWords = w! "--redefine-sym" :: (w ++ '=' :: translate w) :: ws.flatMap (fun s => [w! "--redefine-sym", s ++ '=' :: translate s]) := by
      rw [hw, hL']; rfl
    rw [hne]
    dsimp only
    rw [← hne, hw]
    unfold objcopy
    rw [show (L.flatMap fun s => [w! "--redefine-sym", s ++ '=' :: translate s]) = L.flatMap (fun s => [w! "--redefine-sym", id s ++ '=' :: translate s]) from rfl, hp]
    dsimp only
    rw [hcl]
    rfl

/-- How a class is mangled as the template's argument, whose name has these components: one, or two for a class in a namespace or class. -/
def Class (cs : List Text) (m : Text) : Prop := ∃ x, Mangled cs x ∧ ((cs.length = 1 ∧ m = x ++ w! "E") ∨ (cs.length = 2 ∧ m = 'N' :: x ++ w! "EE"))

theorem class_name {cs : List Text} {m : Text} (h : Class cs m) : translate (cxx m) = plain (dotted cs) := by
  obtain ⟨x, hx, ⟨_, rfl⟩ | ⟨_, rfl⟩⟩ := h
  · have := names_made (pre := []) (post := w! "E") hx (fun c hc => (by cases hc)) (by decide)
    exact this
  · have := names_made (pre := ['N']) (post := w! "EE") hx (by decide) (by decide)
    exact this

/-- A reference to the template's member for a class ends as a reference to the only type generated for the class, and is bound. Partial: the class's name has one component or two, none of which ends in a digit,
and no two classes of the object have the same name when written with `__DOT_`. -/
theorem template_partial {gen : List Sym → List Text} {obj : List Sym} (hn : (obj.map Sym.name).Nodup) (he : ∀ s ∈ obj, '=' ∉ s.name) (hg : ∀ o, (gen o).Nodup ∧ ∀ s ∈ gen o, Tidy s)
    (hc : ∀ s ∈ obj, ∀ m, Refers s m → ∃ cs, Class cs m)
    (hd : ∀ s ∈ obj, ∀ t ∈ obj, ∀ m m' cs cs', Refers s m → Refers t m' → Class cs m → Class cs' m' → dotted cs = dotted cs' → m = m') :
    ∃ out defs, script gen obj = some (out, defs) ∧ out.length = obj.length ∧ ∀ (i : Nat) (s t : Sym), obj[i]? = some s → out[i]? = some t →
      (∀ m cs k, Refers s m → Class cs m → Only defs (dotted cs) k → t = ⟨coded k (dotted cs), false⟩ ∧ ∀ roots, t.name ∉ unbound out defs roots) ∧
      (∀ m cs, Refers s m → Class cs m → (∀ k, ¬ Only defs (dotted cs) k) → t = ⟨plain (dotted cs), false⟩) ∧
      ((∀ m, ¬ Refers s m) → (∀ n k, s.name = plain n → ¬ Only defs n k) → t = s) := by
  have pinj : ∀ {a b : Text}, plain a = plain b → a = b := fun h => List.append_cancel_left h
  obtain ⟨o, h1, h2, h3⟩ := cxx_renamed hn he (by
    intro s hs t ht m m' hr hr' e
    obtain ⟨cs, hm⟩ := hc s hs m hr
    obtain ⟨cs', hm'⟩ := hc t ht m' hr'
    rw [class_name hm, class_name hm'] at e
    exact hd s hs t ht m m' cs cs' hr hr' hm hm' (pinj e))
  obtain ⟨g1, g2⟩ := hg o
  obtain ⟨out, b1, b2, b3⟩ := codes_bound (obj := o) g1 g2
  refine ⟨out, gen o, by unfold script; rw [h1]; dsimp only; rw [b1], b2.trans h2, ?_⟩
  intro i s t hs ht
  have hi : i < o.length := by rw [h2]; exact (List.getElem?_eq_some_iff.1 hs).1
  have hoi : o[i]? = some (o[i]'hi) := List.getElem?_eq_getElem hi
  obtain ⟨c1, c2, c3⟩ := h3 i s _ hs hoi
  obtain ⟨d1, d2, d3⟩ := b3 i _ t hoi ht
  have he' : ∀ {a : Sym} {x : Text} {b : Bool}, a.name = x → a.defined = b → a = ⟨x, b⟩ := by intro a x b h1 h2; cases a; dsimp only at h1 h2; rw [h1, h2]
  refine ⟨?_, ?_, ?_⟩
  · intro m cs k hr hm hk
    have e1 : (o[i]'hi).name = plain (dotted cs) := by rw [c2 m hr, hr.2, class_name hm]
    have e2 : o[i]'hi = ⟨plain (dotted cs), false⟩ := he' e1 (by rw [c1, hr.1])
    have et : t = ⟨coded k (dotted cs), false⟩ := he' (d2 _ k e1 hk) (by rw [d1, c1, hr.1])
    refine ⟨et, fun roots => ?_⟩
    rw [et]
    exact ((codes_link (roots := roots) g1 g2 b1 (by rw [hoi, e2])).1 k hk).2
  · intro m cs hr hm hno
    have e1 : (o[i]'hi).name = plain (dotted cs) := by rw [c2 m hr, hr.2, class_name hm]
    refine he' ?_ (by rw [d1, c1, hr.1])
    rw [d3 fun n k e hk => hno k (by rw [e1] at e; rw [pinj e]; exact hk), e1]
  · intro hno hk
    have e1 := c3 hno
    have e2 := d3 fun n k e => hk n k (by rw [← e1, e])
    cases s; cases t
    dsimp only at *
    rw [e2, e1, d1, c1]

/-! ### What it gets wrong -/

private theorem chomp_step {k : Nat} {s r : Text} {n : Nat} (h : numRest s = some (n, r)) : chomp (k + 1) s = (r ++ ['\n']).take n :: (if r.drop (n - 1) = [] then [] else chomp k (r.drop (n - 1))) := by
  rw [chomp, h]

/-- A class whose name ends in a digit other than zero gets the name of a class `E` within it. -/
theorem digit_fails {b d : Text} {c : Char} {j : Nat} (hi : Ident (b ++ [c])) (hj : (w! "0123456789")[j + 1]? = some c) (hd : Dec d (b ++ [c]).length) :
    translate (cxx (d ++ (b ++ [c]) ++ w! "E")) = plain (b ++ [c] ++ w! "__DOT_E") := by
  have hhd : ∀ x, ((b ++ [c]) ++ w! "E").head? = some x → isDigit x = false := fun x hx => not_digit.2 (hi.2.2 x (head_app hi.1 hx))
  have n1 := numRest_dec (pre := []) (r := (b ++ [c]) ++ w! "E") (fun x hx => by cases hx) hd hhd
  have n2 := numRest_dec (pre := []) (d := [c]) (r := w! "E") (fun x hx => by cases hx) (.one hj) (by intro x hx; injection hx with hx; subst hx; rfl)
  have n3 : ∀ k, chomp k (w! "E") = [] := by
    intro k
    cases k with
    | zero => rfl
    | succ k => rw [chomp, numRest_none]; intro x hx; rw [List.mem_singleton] at hx; subst hx; rfl
  have hlen : ((d ++ (b ++ [c]) ++ w! "E").length + 1) = ((d ++ (b ++ [c]) ++ w! "E").length - 1) + 1 + 1 := by
    have : 0 < (d ++ (b ++ [c]) ++ w! "E").length := by simp only [List.length_append, List.length_cons]; omega
    omega
  obtain ⟨x, hx, hl⟩ := last_split hi.1 (w! "E")
  have hxc : x = c := by simpa using hx.symm
  subst hxc
  have e2 : ∀ k, chomp (k + 1) (x :: w! "E") = [(w! "E" ++ ['\n']).take (j + 1)] := by
    intro k
    have : numRest (x :: w! "E") = some (j + 1, w! "E") := n2
    rw [chomp_step this]
    split
    · rfl
    · rw [Nat.add_sub_cancel]
      cases j with
      | zero => rw [List.drop_zero, n3]
      | succ j => rename_i h; exact absurd (by simp) h
  have e1 : chomp ((d ++ (b ++ [x]) ++ w! "E").length + 1) (d ++ (b ++ [x]) ++ w! "E") = [b ++ [x], (w! "E" ++ ['\n']).take (j + 1)] := by
    rw [hlen]
    have n1' : numRest (d ++ (b ++ [x]) ++ w! "E") = some ((b ++ [x]).length, b ++ [x] ++ w! "E") := by rw [List.append_assoc]; exact n1
    rw [chomp_step n1', hl, if_neg (by simp), e2, List.append_assoc (b ++ [x]), List.take_left]
  have e3 : idents (d ++ (b ++ [x]) ++ w! "E") = lines [b ++ [x], w! "E"] := by
    unfold idents
    rw [e1]
    have hv : value ((b ++ [x]) ++ '\n' :: w! "E" ++ ['\n']) = (b ++ [x]) ++ '\n' :: w! "E" := by
      apply lines_last
      intro y hy
      have : y = 'E' := by simpa [List.getLast?_append] using hy.symm
      rw [this]; decide
    have hv' : value ((b ++ [x]) ++ '\n' :: w! "E" ++ ['\n'] ++ ['\n']) = (b ++ [x]) ++ '\n' :: w! "E" := by
      have : ∀ t : Text, value (t ++ ['\n']) = value t := by
        intro t
        unfold value
        rw [List.reverse_append]
        show (List.dropWhile _ ('\n' :: t.reverse)).reverse = _
        rw [List.dropWhile_cons_of_pos (by simp)]
      rw [this, hv]
    cases j with
    | zero =>
      show value _ = (b ++ [x]) ++ '\n' :: w! "E"
      rw [← hv]
      congr 1
      simp
    | succ j =>
      show value _ = (b ++ [x]) ++ '\n' :: w! "E"
      rw [← hv']
      congr 1
      simp
  unfold translate
  rw [middle_cxx]
  dsimp only
  rw [e3, fragment_lines]
  · simp [plain, dotted, feeds]
  · intro a ha
    rcases List.mem_cons.1 ha with rfl | ha
    · exact hi
    · rw [List.mem_singleton] at ha
      subst ha
      exact ⟨by simp, by decide, by intro y hy; injection hy with hy; subst hy; decide⟩

/-- A name of three components or more gets a form feed in it. -/
theorem deep_fails {a b c : Text} {cs : List Text} {x : Text} (h : Mangled (a :: b :: c :: cs) x) : '\x0c' ∈ translate (cxx ('N' :: x ++ w! "EE")) := by
  have := names_made (pre := ['N']) (post := w! "EE") h (by decide) (by decide)
  rw [show 'N' :: x ++ w! "EE" = ['N'] ++ x ++ w! "EE" from rfl, this]
  unfold plain dotted feeds
  simp

/-- A pointer to a class, or a constant, gets the name of the class. -/
theorem pointer_fails {cs : List Text} {x : Text} {c : Char} (h : Mangled cs x) (hc : c ∈ w! "PKRV") : translate (cxx (c :: x ++ w! "E")) = translate (cxx (x ++ w! "E")) := by
  have h1 := names_made (pre := [c]) (post := w! "E") h (by intro d hd; rw [List.mem_singleton] at hd; subst hd; simp only [List.mem_cons, List.not_mem_nil, or_false] at hc; rcases hc with rfl | rfl | rfl | rfl <;> decide) (by decide)
  have h2 := names_made (pre := []) (post := w! "E") h (fun c hc => (by cases hc)) (by decide)
  exact h1.trans h2.symm

/-- All built-in types get one name, which is empty. -/
theorem builtin_fails {s : Text} (h : ∀ c ∈ s, c ∉ w! "0123456789") : translate (cxx s) = w! "__uniqtype__" := by
  have := names_made (pre := s) (post := []) .nil h (fun c hc => (by cases hc))
  rw [List.append_nil, List.append_nil] at this
  exact this

/-- So an object that refers to a class and to pointers to it cannot be linked. -/
theorem pointer_and_class_fail {gen : List Sym → List Text} {obj : List Sym} {cs : List Text} {x : Text} (he : ∀ s ∈ obj, '=' ∉ s.name) (h : Mangled cs x) (h1 : ⟨cxx (x ++ w! "E"), false⟩ ∈ obj)
    (h2 : ⟨cxx ('P' :: x ++ w! "E"), false⟩ ∈ obj) : script gen obj = none := by
  unfold script
  rw [same_name_fails he h2 h1 ⟨rfl, rfl⟩ ⟨rfl, rfl⟩ (fun e => by have := congrArg List.length e; simp at this) (pointer_fails h (by decide))]

/-! ## An object -/

/-- Types generated: one of a name, two of another, and the list of members of the first. -/
def someDefs : List Text := [w! "__uniqtype_01234567_node", w! "__uniqtype_89abcdef_list", w! "__uniqtype_76543210_list", w! "__uniqtype_01234567_node_subobj_names", w! "__uniqtype____uniqtype_",
  w! "__uniqtype_0a0b0c0d_geo__DOT_point"]

def someObj : List Sym := [⟨w! "main", true⟩, ⟨w! "__uniqtype__node", false⟩, ⟨w! "__uniqtype__list", false⟩, ⟨w! "_ZN8uniqtypeIN3geo5pointEE3objE", false⟩, ⟨w! "_ZN8uniqtype4makeEv", false⟩]

theorem case_bound : bindCxx someObj = some [⟨w! "main", true⟩, ⟨w! "__uniqtype__node", false⟩, ⟨w! "__uniqtype__list", false⟩, ⟨w! "__uniqtype__geo__DOT_point", false⟩, ⟨w! "_ZN8uniqtype4makeEv", false⟩] ∧
    script (fun _ => someDefs) someObj = some ([⟨w! "main", true⟩, ⟨w! "__uniqtype_01234567_node", false⟩, ⟨w! "__uniqtype__list", false⟩, ⟨w! "__uniqtype_0a0b0c0d_geo__DOT_point", false⟩, ⟨w! "_ZN8uniqtype4makeEv", false⟩], someDefs) := by
  constructor <;> decide +kernel

theorem case_tidy : someDefs.Nodup ∧ (∀ s ∈ someDefs, Tidy s) ∧ Only someDefs (w! "node") (w! "01234567") ∧ Class [w! "geo", w! "point"] (w! "N3geo5pointEE") := by
  have ht : ∀ {s : Text}, '=' ∉ s → codeIn s = none → Tidy s := fun h e => ⟨h, fun hx => absurd hx (codeIn_none.1 e)⟩
  have hc : ∀ {k n : Text}, Code k → '=' ∉ coded k n → Tidy (coded k n) := fun h e => ⟨e, fun _ => ⟨_, _, h, rfl⟩⟩
  refine ⟨by decide +kernel, ?_, ⟨⟨rfl, by decide⟩, by decide +kernel, ?_, ?_⟩, ?_⟩
  · intro s hs
    unfold someDefs at hs
    simp only [List.mem_cons, List.not_mem_nil, or_false] at hs
    rcases hs with rfl | rfl | rfl | rfl | rfl | rfl
    · exact hc (k := w! "01234567") (n := w! "node") ⟨rfl, by decide⟩ (by decide)
    · exact hc (k := w! "89abcdef") (n := w! "list") ⟨rfl, by decide⟩ (by decide)
    · exact hc (k := w! "76543210") (n := w! "list") ⟨rfl, by decide⟩ (by decide)
    · exact hc (k := w! "01234567") (n := w! "node_subobj_names") ⟨rfl, by decide⟩ (by decide)
    · exact ht (by decide) (by decide +kernel)
    · exact hc (k := w! "0a0b0c0d") (n := w! "geo__DOT_point") ⟨rfl, by decide⟩ (by decide)
  · intro k hk hm
    have := key_coded (n := w! "node") hk
    unfold someDefs at hm
    simp only [List.mem_cons, List.not_mem_nil, or_false] at hm
    rcases hm with e | e | e | e | e | e
    · exact (coded_inj hk (k' := w! "01234567") (n' := w! "node") ⟨rfl, by decide⟩ e).1
    all_goals (rw [e] at this; exact absurd this (by decide))
  · intro h
    have := endsWith_iff.2 h
    revert this
    decide +kernel
  · refine ⟨w! "3geo5point", ?_, .inr ⟨rfl, rfl⟩⟩
    have f1 : Fine (w! "geo") := ⟨⟨by simp, by decide, by intro y hy; injection hy with hy; subst hy; decide⟩, by intro y hy; injection hy with hy; subst hy; decide⟩
    have f2 : Fine (w! "point") := ⟨⟨by simp, by decide, by intro y hy; injection hy with hy; subst hy; decide⟩, by intro y hy; injection hy with hy; subst hy; decide⟩
    exact .cons (d := w! "3") f1 (.one rfl) (.cons (d := w! "5") (m := []) f2 (.one rfl) .nil)

/-- The failures. -/
theorem case_fails : translate (w! "_ZN8uniqtypeI5node2E3objE") = w! "__uniqtype__node2__DOT_E" ∧ translate (w! "_ZN8uniqtypeIN1a1b3cccEE3objE") = w! "__uniqtype__a__DOT_b\x0cccc" ∧
    translate (w! "_ZN8uniqtypeIP4nodeE3objE") = w! "__uniqtype__node" ∧ translate (w! "_ZN8uniqtypeIiE3objE") = w! "__uniqtype__" ∧
    script (fun _ => someDefs) [⟨w! "_ZN8uniqtypeI4nodeE3objE", false⟩, ⟨w! "_ZN8uniqtypeIP4nodeE3objE", false⟩] = none := by
  refine ⟨?_, ?_, ?_, ?_, ?_⟩ <;> decide +kernel

end Liballocs.UsedTypes
