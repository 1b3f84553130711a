import Verif.Model.LdFlags
/-! Regular expressions, and the language of the plugin's options. -/
namespace Liballocs.LdFlags
open Liballocs.LinkArgs (Text)

/-! ## Languages -/

/-- The language of an expression. -/
def Re.Lang : Re → Text → Prop
  | .fail, _ => False
  | .eps, s => s = []
  | .cls p, s => ∃ c, s = [c] ∧ p c = true
  | .seq a b, s => ∃ u v, s = u ++ v ∧ a.Lang u ∧ b.Lang v
  | .alt a b, s => a.Lang s ∨ b.Lang s
  | .star a, s => ∃ l : List Text, s = l.flatten ∧ ∀ x ∈ l, a.Lang x

theorem null_iff (r : Re) : r.null = true ↔ r.Lang [] := by
  induction r with
  | fail => simp [Re.null, Re.Lang]
  | eps => simp [Re.null, Re.Lang]
  | cls p => simp [Re.null, Re.Lang]
  | seq a b ha hb =>
    simp only [Re.null, Re.Lang, Bool.and_eq_true, ha, hb]
    constructor
    · rintro ⟨h1, h2⟩; exact ⟨[], [], rfl, h1, h2⟩
    · rintro ⟨u, v, h, h1, h2⟩
      have := List.append_eq_nil_iff.1 h.symm
      rw [this.1] at h1; rw [this.2] at h2; exact ⟨h1, h2⟩
  | alt a b ha hb => simp [Re.null, Re.Lang, ha, hb]
  | star a _ => simp only [Re.null, Re.Lang, true_iff]; exact ⟨[], rfl, by simp⟩

private theorem star_cons {a : Re} {c : Char} {s : Text} (l : List Text) (h : c :: s = l.flatten) (hl : ∀ x ∈ l, a.Lang x) :
    ∃ u v, s = u ++ v ∧ a.Lang (c :: u) ∧ (Re.star a).Lang v := by
  induction l with
  | nil => simp at h
  | cons x l ih =>
    cases x with
    | nil => exact ih (by simpa using h) (fun y hy => hl y (List.mem_cons_of_mem _ hy))
    | cons d u =>
      rw [List.flatten_cons, List.cons_append] at h
      injection h with h1 h2
      subst h1
      exact ⟨u, l.flatten, h2, hl _ (List.mem_cons_self ..), l, rfl, fun y hy => hl y (List.mem_cons_of_mem _ hy)⟩

theorem der_iff (c : Char) (r : Re) : ∀ s : Text, (r.der c).Lang s ↔ r.Lang (c :: s) := by
  induction r with
  | fail => intro s; simp [Re.der, Re.Lang]
  | eps => intro s; simp [Re.der, Re.Lang]
  | cls p =>
    intro s
    by_cases h : p c = true
    · simp only [Re.der, Re.Lang, h, if_true]
      constructor
      · intro e; exact ⟨c, by rw [e], h⟩
      · rintro ⟨d, e, _⟩; injection e
    · rw [Re.der, if_neg h]
      simp only [Re.Lang, false_iff]
      rintro ⟨d, e, hd⟩
      injection e with e1 _
      rw [e1] at h; exact h hd
  | seq a b ha hb =>
    intro s
    have key : (Re.seq a b).Lang (c :: s) ↔ (Re.seq (a.der c) b).Lang s ∨ (a.Lang [] ∧ b.Lang (c :: s)) := by
      simp only [Re.Lang]
      constructor
      · rintro ⟨u, v, h, h1, h2⟩
        cases u with
        | nil => rw [List.nil_append] at h; exact .inr ⟨h1, by rw [h]; exact h2⟩
        | cons d u =>
          rw [List.cons_append] at h; injection h with h3 h4; subst h3
          exact .inl ⟨u, v, h4, (ha u).2 h1, h2⟩
      · rintro (⟨u, v, h, h1, h2⟩ | ⟨h1, h2⟩)
        · exact ⟨c :: u, v, by rw [h]; rfl, (ha u).1 h1, h2⟩
        · exact ⟨[], c :: s, rfl, h1, h2⟩
    rw [key, ← null_iff, Re.der]
    by_cases h : a.null = true
    · rw [if_pos h]
      show _ ∨ _ ↔ _
      rw [hb]; simp [h]
    · rw [if_neg h]; simp [h]
  | alt a b ha hb => intro s; simp [Re.der, Re.Lang, ha, hb]
  | star a ha =>
    intro s
    show (∃ u v, s = u ++ v ∧ (a.der c).Lang u ∧ (Re.star a).Lang v) ↔ _
    constructor
    · rintro ⟨u, v, h, h1, l, h2, h3⟩
      refine ⟨(c :: u) :: l, by rw [h, h2]; rfl, ?_⟩
      intro x hx
      rcases List.mem_cons.1 hx with e | hx
      · rw [e]; exact (ha u).1 h1
      · exact h3 x hx
    · rintro ⟨l, h, hl⟩
      obtain ⟨u, v, h1, h2, h3⟩ := star_cons l h hl
      exact ⟨u, v, h1, (ha u).2 h2, h3⟩

/-- The matcher decides the language. -/
theorem accepts_iff : ∀ (s : Text) (r : Re), r.accepts s = true ↔ r.Lang s
  | [], r => null_iff r
  | c :: s, r => by rw [Re.accepts, accepts_iff s, der_iff]

/-- The longest match is in the language, and no longer one is. -/
theorem longest_some : ∀ (s : Text) (r : Re) (m t : Text), r.longest s = some (m, t) →
    s = m ++ t ∧ r.Lang m ∧ ∀ m' t', s = m' ++ t' → r.Lang m' → m'.length ≤ m.length
  | [], r, m, t, h => by
    rw [Re.longest] at h
    split at h
    next hn =>
      injection h with h; injection h with h1 h2
      subst h1 h2
      refine ⟨rfl, (null_iff r).1 hn, ?_⟩
      intro m' t' h _
      have := List.append_eq_nil_iff.1 h.symm
      rw [this.1]; exact Nat.le_refl _
    next => cases h
  | c :: s, r, m, t, h => by
    rw [Re.longest] at h
    cases hd : (r.der c).longest s with
    | some p =>
      obtain ⟨m1, t1⟩ := p
      rw [hd] at h; dsimp only at h
      injection h with h; injection h with h1 h2
      subst h1 h2
      obtain ⟨a1, a2, a3⟩ := longest_some s _ _ _ hd
      refine ⟨by rw [a1]; rfl, (der_iff c r _).1 a2, ?_⟩
      intro m' t' h hm
      cases m' with
      | nil => simp
      | cons d m' =>
        rw [List.cons_append] at h; injection h with h3 h4; subst h3
        have := a3 m' t' h4 ((der_iff c r _).2 hm)
        simpa using this
    | none =>
      rw [hd] at h; dsimp only at h
      split at h
      next hn =>
        injection h with h; injection h with h1 h2
        subst h1 h2
        refine ⟨rfl, (null_iff r).1 hn, ?_⟩
        intro m' t' h hm
        cases m' with
        | nil => simp
        | cons d m' =>
          exfalso
          rw [List.cons_append] at h; injection h with h3 h4; subst h3
          exact longest_none s _ hd m' t' h4 ((der_iff c r _).2 hm)
      next => cases h
where
  longest_none : ∀ (s : Text) (r : Re), r.longest s = none → ∀ m t, s = m ++ t → ¬ r.Lang m
  | [], r, h, m, t, hs, hm => by
    rw [Re.longest] at h
    have := List.append_eq_nil_iff.1 hs.symm
    rw [this.1] at hm
    rw [if_pos ((null_iff r).2 hm)] at h; cases h
  | c :: s, r, h, m, t, hs, hm => by
    rw [Re.longest] at h
    cases hd : (r.der c).longest s with
    | some p => rw [hd] at h; cases h
    | none =>
      rw [hd] at h; dsimp only at h
      cases m with
      | nil => rw [if_pos ((null_iff r).2 hm)] at h; cases h
      | cons d m =>
        rw [List.cons_append] at hs; injection hs with h3 h4; subst h3
        exact longest_none s _ hd m t h4 ((der_iff c r _).2 hm)

theorem longest_eq {r : Re} {m t : Text} (hm : r.Lang m) (hu : ∀ x y, t = x ++ y → r.Lang (m ++ x) → x = []) : r.longest (m ++ t) = some (m, t) := by
  cases h : r.longest (m ++ t) with
  | none => exact absurd hm (longest_some.longest_none _ _ h m t rfl)
  | some p =>
    obtain ⟨m1, t1⟩ := p
    obtain ⟨a1, a2, a3⟩ := longest_some _ _ _ _ h
    have hl := a3 m t rfl hm
    obtain ⟨x, hx⟩ : ∃ x, m1 = m ++ x := by
      refine ⟨m1.drop m.length, ?_⟩
      have := congrArg (List.take m.length) a1
      rw [List.take_left, List.take_append_of_le_length hl] at this
      conv => lhs; rw [← List.take_append_drop m.length m1, ← this]
    subst hx
    rw [List.append_assoc] at a1
    have h2 := List.append_cancel_left a1
    have := hu x t1 h2 a2
    subst this
    simp at h2 ⊢; exact h2.symm

theorem longest_none' {r : Re} {s : Text} (h : ∀ m t, s = m ++ t → ¬ r.Lang m) : r.longest s = none := by
  cases hd : r.longest s with
  | none => rfl
  | some p =>
    obtain ⟨m1, t1⟩ := p
    obtain ⟨a1, a2, _⟩ := longest_some _ _ _ _ hd
    exact absurd a2 (h _ _ a1)

/-! ## The expressions of the plugin -/

theorem lang_star_cls {p : Char → Bool} {s : Text} : (Re.star (.cls p)).Lang s ↔ ∀ c ∈ s, p c = true := by
  constructor
  · rintro ⟨l, rfl, hl⟩ c hc
    obtain ⟨x, hx, hcx⟩ := List.mem_flatten.1 hc
    obtain ⟨d, rfl, hd⟩ := hl x hx
    rw [List.mem_singleton.1 hcx]; exact hd
  · intro h
    refine ⟨s.map fun c => [c], ?_, ?_⟩
    · rw [List.flatten_eq_flatMap, List.flatMap_map]; simp
    · intro x hx
      obtain ⟨c, hc, rfl⟩ := List.mem_map.1 hx
      exact ⟨c, rfl, h c hc⟩

theorem lang_chr {c : Char} {s : Text} : (Re.chr c).Lang s ↔ s = [c] := by
  simp only [Re.chr, Re.Lang, decide_eq_true_eq]
  constructor
  · rintro ⟨d, h, rfl⟩; exact h
  · intro h; exact ⟨c, h, rfl⟩

theorem lang_opt {r : Re} {s : Text} : (Re.opt r).Lang s ↔ r.Lang s ∨ s = [] := Iff.rfl

theorem lang_ident {s : Text} : reIdent.Lang s ↔ ∃ c t, s = c :: t ∧ isIdent0 c = true ∧ ∀ d ∈ t, isIdent1 d = true := by
  constructor
  · rintro ⟨u, v, h, ⟨c, hu, hc⟩, hv⟩
    exact ⟨c, v, by rw [h, hu]; rfl, hc, lang_star_cls.1 hv⟩
  · rintro ⟨c, t, h, hc, ht⟩
    exact ⟨[c], t, h, ⟨c, rfl, hc⟩, lang_star_cls.2 ht⟩

/-- The arguments of a tuple after the first: separators and letters. -/
def argTail : List (Char × Char) → Text
  | [] => []
  | (s, c) :: l => s :: c :: argTail l

theorem lang_argTail {s : Text} : (Re.star (.seq (.cls isSep) (.cls isLetter))).Lang s ↔
    ∃ l : List (Char × Char), s = argTail l ∧ ∀ x ∈ l, isSep x.1 = true ∧ isLetter x.2 = true := by
  constructor
  · rintro ⟨l, rfl, hl⟩
    induction l with
    | nil => exact ⟨[], rfl, by simp⟩
    | cons x l ih =>
      obtain ⟨k, h1, h2⟩ := ih (fun y hy => hl y (List.mem_cons_of_mem _ hy))
      obtain ⟨u, v, hx, ⟨a, hu, ha⟩, ⟨b, hv, hb⟩⟩ := hl x (List.mem_cons_self ..)
      refine ⟨(a, b) :: k, ?_, ?_⟩
      · rw [List.flatten_cons, h1, hx, hu, hv]; rfl
      · intro y hy
        rcases List.mem_cons.1 hy with e | hy
        · rw [e]; exact ⟨ha, hb⟩
        · exact h2 y hy
  · rintro ⟨l, rfl, hl⟩
    refine ⟨l.map fun x => [x.1, x.2], ?_, ?_⟩
    · clear hl
      induction l with
      | nil => rfl
      | cons x l ih => rw [List.map_cons, List.flatten_cons, ← ih]; rfl
    · intro y hy
      obtain ⟨x, hx, rfl⟩ := List.mem_map.1 hy
      exact ⟨[x.1], [x.2], rfl, ⟨_, rfl, (hl x hx).1⟩, ⟨_, rfl, (hl x hx).2⟩⟩

/-- What may stand after the tuple. -/
def Suffix (s : Text) : Prop := s = [] ∨ (∃ c, s = [c] ∧ isLetter c = true) ∨ ∃ c, s = ['-', '>', c] ∧ isLetter c = true

theorem lang_suffix {s : Text} : reSuffix.Lang s ↔ Suffix s := by
  unfold reSuffix Suffix
  rw [lang_opt]
  constructor
  · rintro (⟨u, v, h, hu, c, hv, hc⟩ | h)
    · rcases hu with ⟨x, y, hxy, hx, hy⟩ | hu
      · rw [lang_chr] at hx hy
        exact .inr (.inr ⟨c, by rw [h, hxy, hx, hy, hv]; rfl, hc⟩)
      · exact .inr (.inl ⟨c, by rw [h, hv, hu]; rfl, hc⟩)
    · exact .inl h
  · rintro (h | ⟨c, h, hc⟩ | ⟨c, h, hc⟩)
    · exact .inr h
    · exact .inl ⟨[], [c], h, .inr rfl, c, rfl, hc⟩
    · exact .inl ⟨['-', '>'], [c], h, .inl ⟨['-'], ['>'], rfl, lang_chr.2 rfl, lang_chr.2 rfl⟩, c, rfl, hc⟩

theorem lang_tuple {s : Text} : reTuple.Lang s ↔ ∃ c l, s = '(' :: c :: (argTail l ++ [')']) ∧ isLetter c = true ∧
    ∀ x ∈ l, isSep x.1 = true ∧ isLetter x.2 = true := by
  unfold reTuple
  constructor
  · rintro ⟨u, v, h, hu, x, y, hv, ⟨c, hx, hc⟩, z, w, hy, hz, hw⟩
    rw [lang_chr] at hu hw
    obtain ⟨l, hl, hl2⟩ := lang_argTail.1 hz
    exact ⟨c, l, by rw [h, hv, hy, hu, hx, hl, hw]; rfl, hc, hl2⟩
  · rintro ⟨c, l, h, hc, hl⟩
    exact ⟨['('], _, h, lang_chr.2 rfl, [c], _, rfl, ⟨c, rfl, hc⟩, argTail l, [')'], rfl, lang_argTail.2 ⟨l, rfl, hl⟩, lang_chr.2 rfl⟩

theorem lang_entry {s : Text} : reEntry.Lang s ↔ ∃ i c1 a l c2 suf, s = i ++ c1 :: '(' :: a :: (argTail l ++ ')' :: c2 :: suf) ∧
    reIdent.Lang i ∧ isSep c1 = true ∧ isLetter a = true ∧ (∀ x ∈ l, isSep x.1 = true ∧ isLetter x.2 = true) ∧ isSep c2 = true ∧ Suffix suf := by
  unfold reEntry
  constructor
  · rintro ⟨u, v, h, hu, x, y, hv, ⟨c1, hx, hc1⟩, z, w, hy, hz, p, q, hw, ⟨c2, hp, hc2⟩, hq⟩
    obtain ⟨a, l, ht, ha, hl⟩ := lang_tuple.1 hz
    refine ⟨u, c1, a, l, c2, q, ?_, hu, hc1, ha, hl, hc2, lang_suffix.1 hq⟩
    rw [h, hv, hy, hx, ht, hw, hp]; simp
  · rintro ⟨i, c1, a, l, c2, suf, h, hi, h1, ha, hl, h2, hs⟩
    refine ⟨i, _, h, hi, [c1], _, rfl, ⟨c1, rfl, h1⟩, '(' :: a :: (argTail l ++ [')']), c2 :: suf, by simp, lang_tuple.2 ⟨a, l, rfl, ha, hl⟩,
      [c2], suf, rfl, ⟨c2, rfl, h2⟩, lang_suffix.2 hs⟩

theorem lang_ws {s : Text} : reWs.Lang s ↔ s ≠ [] ∧ ∀ c ∈ s, isBlank c = true := by
  unfold reWs
  constructor
  · rintro ⟨u, v, h, ⟨c, hu, hc⟩, hv⟩
    rw [h, hu]
    refine ⟨by simp, ?_⟩
    intro d hd
    rcases List.mem_append.1 hd with hd | hd
    · rw [List.mem_singleton.1 hd]; exact hc
    · exact lang_star_cls.1 hv d hd
  · rintro ⟨h, hb⟩
    cases s with
    | nil => exact absurd rfl h
    | cons c t => exact ⟨[c], t, rfl, ⟨c, rfl, hb c (List.mem_cons_self ..)⟩, lang_star_cls.2 fun d hd => hb d (List.mem_cons_of_mem _ hd)⟩

/-! ## What accepted options look like -/

/-- What follows a closing parenthesis. -/
def AfterClose (t : Text) : Prop := ∃ c2 suf r, t = c2 :: (suf ++ r) ∧ isSep c2 = true ∧ Suffix suf ∧ (r = [] ∨ ∃ b r', r = b :: r' ∧ isBlank b = true)

/-- What follows an opening parenthesis. -/
def AfterOpen (t : Text) : Prop := ∃ c r, t = c :: r ∧ isLetter c = true

theorem cls_paren (c : Char) : (isIdent0 c = true → c ≠ '(' ∧ c ≠ ')') ∧ (isIdent1 c = true → c ≠ '(' ∧ c ≠ ')') ∧ (isSep c = true → c ≠ '(' ∧ c ≠ ')') ∧
    (isLetter c = true → c ≠ '(' ∧ c ≠ ')') ∧ (isBlank c = true → c ≠ '(' ∧ c ≠ ')') := by
  refine ⟨?_, ?_, ?_, ?_, ?_⟩ <;> (intro h; constructor <;> (intro e; subst e; revert h; decide))

theorem ident_no {i : Text} (h : reIdent.Lang i) : ∀ c ∈ i, c ≠ '(' ∧ c ≠ ')' ∧ isSep c = false := by
  obtain ⟨c, t, rfl, hc, ht⟩ := lang_ident.1 h
  have s0 : ∀ c, isIdent0 c = true → isSep c = false := by
    intro c hc
    cases hs : isSep c with
    | false => rfl
    | true =>
      unfold isSep at hs
      rcases of_decide_eq_true hs with e | e <;> (subst e; revert hc; decide)
  have s1 : ∀ c, isIdent1 c = true → isSep c = false := by
    intro c hc
    cases hs : isSep c with
    | false => rfl
    | true =>
      unfold isSep at hs
      rcases of_decide_eq_true hs with e | e <;> (subst e; revert hc; decide)
  intro d hd
  rcases List.mem_cons.1 hd with e | hd
  · rw [e]; exact ⟨((cls_paren c).1 hc).1, ((cls_paren c).1 hc).2, s0 c hc⟩
  · have := ht d hd
    exact ⟨((cls_paren d).2.1 this).1, ((cls_paren d).2.1 this).2, s1 d this⟩

theorem argTail_no {l : List (Char × Char)} (hl : ∀ x ∈ l, isSep x.1 = true ∧ isLetter x.2 = true) : ∀ c ∈ argTail l, c ≠ '(' ∧ c ≠ ')' := by
  induction l with
  | nil => simp [argTail]
  | cons x l ih =>
    obtain ⟨s, d⟩ := x
    intro c hc
    have h1 := hl (s, d) (List.mem_cons_self ..)
    rw [argTail] at hc
    rcases List.mem_cons.1 hc with e | hc
    · rw [e]; exact (cls_paren s).2.2.1 h1.1
    · rcases List.mem_cons.1 hc with e | hc
      · rw [e]; exact (cls_paren d).2.2.2.1 h1.2
      · exact ih (fun y hy => hl y (List.mem_cons_of_mem _ hy)) c hc

theorem suffix_no {s : Text} (h : Suffix s) : ∀ c ∈ s, c ≠ '(' ∧ c ≠ ')' ∧ isBlank c = false := by
  have bl : ∀ c, isLetter c = true → isBlank c = false := by
    intro c hc
    cases hb : isBlank c with
    | false => rfl
    | true =>
      unfold isBlank at hb
      rcases of_decide_eq_true hb with e | e <;> (subst e; revert hc; decide)
  have all : ∀ c, isLetter c = true → c ≠ '(' ∧ c ≠ ')' ∧ isBlank c = false := fun c hc =>
    ⟨((cls_paren c).2.2.2.1 hc).1, ((cls_paren c).2.2.2.1 hc).2, bl c hc⟩
  intro c hc
  rcases h with rfl | ⟨d, rfl, hd⟩ | ⟨d, rfl, hd⟩
  · cases hc
  · rw [List.mem_singleton.1 hc]; exact all d hd
  · simp only [List.mem_cons, List.not_mem_nil, or_false] at hc
    rcases hc with e | e | e
    · subst e; decide
    · subst e; decide
    · subst e; exact all _ hd

/-- Splitting at a character that is not in the first part. -/
theorem split_first {c : Char} : ∀ {x x' y y' : Text}, c ∉ x → c ∉ x' → x ++ c :: y = x' ++ c :: y' → x = x' ∧ y = y'
  | [], [], y, y', _, _, h => by simpa using h
  | [], d :: x', y, y', _, h', h => by
    rw [List.nil_append, List.cons_append] at h; injection h with h1 _
    exact absurd (by rw [h1]; exact List.mem_cons_self ..) h'
  | d :: x, [], y, y', h', _, h => by
    rw [List.nil_append, List.cons_append] at h; injection h with h1 _
    exact absurd (by rw [h1]; exact List.mem_cons_self ..) h'
  | d :: x, e :: x', y, y', h1, h2, h => by
    rw [List.cons_append, List.cons_append] at h; injection h with h3 h4
    obtain ⟨a, b⟩ := split_first (fun hc => h1 (List.mem_cons_of_mem _ hc)) (fun hc => h2 (List.mem_cons_of_mem _ hc)) h4
    exact ⟨by rw [h3, a], b⟩

/-- Where a character can be, if it is in only one place of the first part. -/
theorem split_at {c : Char} {x y a b t : Text} (hx : c ∉ x) (hy : c ∉ y) (h : (x ++ c :: y) ++ t = a ++ c :: b) :
    (a = x ∧ b = y ++ t) ∨ ∃ k, a = x ++ c :: y ++ k ∧ t = k ++ c :: b := by
  by_cases ha : c ∈ a
  · right
    obtain ⟨a1, a2, rfl, hn⟩ := List.eq_append_cons_of_mem ha
    rw [List.append_assoc, List.cons_append, List.append_assoc, List.cons_append] at h
    obtain ⟨h1, h2⟩ := split_first hx hn h
    subst h1
    -- `y ++ t = a2 ++ c :: b`
    have : ∃ k, a2 = y ++ k ∧ t = k ++ c :: b := by
      rcases List.append_eq_append_iff.1 h2 with ⟨k, h3, h4⟩ | ⟨k, h3, h4⟩
      · exact ⟨k, h3, h4⟩
      · cases k with
        | nil => exact ⟨[], by simpa using h3.symm, by simpa using h4.symm⟩
        | cons d k =>
          rw [List.cons_append] at h4; injection h4 with h5 _
          exact absurd (by rw [h3, ← h5]; exact List.mem_append_right _ (List.mem_cons_self ..)) hy
    obtain ⟨k, hk, ht⟩ := this
    exact ⟨k, by rw [hk]; simp, ht⟩
  · left
    rw [List.append_assoc, List.cons_append] at h
    obtain ⟨h1, h2⟩ := split_first hx ha h
    exact ⟨h1.symm, h2.symm⟩

/-- In a text with entries, what follows parentheses. -/
def Parens (s : Text) : Prop := (∀ a b, s = a ++ ')' :: b → AfterClose b) ∧ ∀ a b, s = a ++ '(' :: b → AfterOpen b

theorem parens_entry {e t : Text} (he : reEntry.Lang e) (ht : Parens t) (hb : t = [] ∨ ∃ b r, t = b :: r ∧ isBlank b = true) : Parens (e ++ t) := by
  obtain ⟨i, c1, x, l, c2, suf, rfl, hi, h1, hx, hl, h2, hs⟩ := lang_entry.1 he
  have ni := ident_no hi
  have nl := argTail_no hl
  have ns := suffix_no hs
  constructor
  · intro a b h
    have e1 : i ++ c1 :: '(' :: x :: (argTail l ++ ')' :: c2 :: suf) = (i ++ c1 :: '(' :: x :: argTail l) ++ ')' :: (c2 :: suf) := by simp
    rw [e1] at h
    have n1 : ')' ∉ i ++ c1 :: '(' :: x :: argTail l := by
      intro hc
      simp only [List.mem_append, List.mem_cons] at hc
      rcases hc with hc | hc | hc | hc | hc
      · exact (ni _ hc).2.1 rfl
      · exact ((cls_paren c1).2.2.1 h1).2 hc.symm
      · revert hc; decide
      · exact ((cls_paren x).2.2.2.1 hx).2 hc.symm
      · exact (nl _ hc).2 rfl
    have n2 : ')' ∉ c2 :: suf := by
      intro hc
      rcases List.mem_cons.1 hc with hc | hc
      · exact ((cls_paren c2).2.2.1 h2).2 hc.symm
      · exact (ns _ hc).2.1 rfl
    rcases split_at n1 n2 h with ⟨_, hb2⟩ | ⟨k, _, hk⟩
    · exact ⟨c2, suf, t, by rw [hb2]; rfl, h2, hs, hb⟩
    · exact ht.1 _ _ hk
  · intro a b h
    have e1 : i ++ c1 :: '(' :: x :: (argTail l ++ ')' :: c2 :: suf) = (i ++ [c1]) ++ '(' :: (x :: (argTail l ++ ')' :: c2 :: suf)) := by simp
    rw [e1] at h
    have n1 : '(' ∉ i ++ [c1] := by
      intro hc
      simp only [List.mem_append, List.mem_cons, List.not_mem_nil, or_false] at hc
      rcases hc with hc | hc
      · exact (ni _ hc).1 rfl
      · exact ((cls_paren c1).2.2.1 h1).1 hc.symm
    have n2 : '(' ∉ x :: (argTail l ++ ')' :: c2 :: suf) := by
      intro hc
      simp only [List.mem_append, List.mem_cons] at hc
      rcases hc with hc | hc | hc | hc | hc
      · exact ((cls_paren x).2.2.2.1 hx).1 hc.symm
      · exact (nl _ hc).1 rfl
      · revert hc; decide
      · exact ((cls_paren c2).2.2.1 h2).1 hc.symm
      · exact (ns _ hc).1 rfl
    rcases split_at n1 n2 h with ⟨_, hb2⟩ | ⟨k, _, hk⟩
    · exact ⟨x, _, by rw [hb2]; rfl, hx⟩
    · exact ht.2 _ _ hk

theorem parens_blank {g t : Text} (hg : ∀ c ∈ g, isBlank c = true) (ht : Parens t) : Parens (g ++ t) := by
  induction g with
  | nil => exact ht
  | cons c g ih =>
    have hi := ih (fun d hd => hg d (List.mem_cons_of_mem _ hd))
    have hc := (cls_paren c).2.2.2.2 (hg c (List.mem_cons_self ..))
    constructor
    · intro a b h
      cases a with
      | nil => rw [List.nil_append, List.cons_append] at h; injection h with h1 _; exact absurd h1 hc.2
      | cons d a => rw [List.cons_append, List.cons_append] at h; injection h with _ h2; exact hi.1 _ _ h2
    · intro a b h
      cases a with
      | nil => rw [List.nil_append, List.cons_append] at h; injection h with h1 _; exact absurd h1 hc.1
      | cons d a => rw [List.cons_append, List.cons_append] at h; injection h with _ h2; exact hi.2 _ _ h2

theorem parens_nil : Parens [] := by
  constructor <;> (intro a b h; exact absurd h.symm (by simp))

/-- An accepted option has a separator after each closing parenthesis, and a letter after each opening one. -/
theorem parens_whole {s : Text} (h : reWhole.Lang s) : Parens s := by
  unfold reWhole at h
  rw [lang_opt] at h
  rcases h with ⟨e, t, rfl, he, l, rfl, hl⟩ | rfl
  · have key : ∀ l : List Text, (∀ x ∈ l, (Re.seq reWs reEntry).Lang x) → Parens l.flatten ∧ (l.flatten = [] ∨ ∃ b r, l.flatten = b :: r ∧ isBlank b = true) := by
      intro l
      induction l with
      | nil => intro _; exact ⟨parens_nil, .inl rfl⟩
      | cons x l ih =>
        intro hl
        obtain ⟨h1, h2⟩ := ih (fun y hy => hl y (List.mem_cons_of_mem _ hy))
        obtain ⟨g, f, rfl, hg, hf⟩ := hl x (List.mem_cons_self ..)
        obtain ⟨g0, gb⟩ := lang_ws.1 hg
        rw [List.flatten_cons, List.append_assoc]
        refine ⟨parens_blank gb (parens_entry hf h1 h2), .inr ?_⟩
        cases g with
        | nil => exact absurd rfl g0
        | cons b g => exact ⟨b, _, rfl, gb b (List.mem_cons_self ..)⟩
    exact parens_entry he (key l hl).1 (key l hl).2
  · exact parens_nil

end Liballocs.LdFlags
