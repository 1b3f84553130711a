import Verif.Model.FrameTypes
/-!
# Interval maps: what segments say about each address
-/
namespace Liballocs.FrameTypes

/-- What is in the map at an address. -/
def At {α : Type} (m : List (Seg α)) (pc : Nat) (x : α) : Prop := ∃ s ∈ m, s.lo ≤ pc ∧ pc < s.hi ∧ x ∈ s.els

/-- Whether an address is in the map. -/
def Dom {α : Type} (m : List (Seg α)) (pc : Nat) : Prop := ∃ s ∈ m, s.lo ≤ pc ∧ pc < s.hi

/-- Segments in order, from an address on, none empty. -/
inductive From {α : Type} : Nat → List (Seg α) → Prop
  | nil {b} : From b []
  | cons {b s m} : b ≤ s.lo → s.lo < s.hi → s.els ≠ [] → From s.hi m → From b (s :: m)

theorem From.mono {α : Type} {b c : Nat} {m : List (Seg α)} (h : From b m) (hc : c ≤ b) : From c m := by
  cases h with
  | nil => exact .nil
  | cons h1 h2 h3 h4 => exact .cons (by omega) h2 h3 h4

theorem From.low {α : Type} {b : Nat} {m : List (Seg α)} (h : From b m) : ∀ s ∈ m, b ≤ s.lo ∧ s.lo < s.hi ∧ s.els ≠ [] := by
  induction h with
  | nil => intro s hs; cases hs
  | cons h1 h2 h3 _ ih =>
    intro s hs
    rcases List.mem_cons.mp hs with rfl | hs
    · exact ⟨h1, h2, h3⟩
    · have := ih s hs; exact ⟨by omega, this.2⟩

/-- Two segments of one map that share an address are the same. -/
theorem From.unique {α : Type} {b : Nat} {m : List (Seg α)} (h : From b m) {pc : Nat} {s t : Seg α} (hs : s ∈ m) (ht : t ∈ m)
    (h1 : s.lo ≤ pc) (h2 : pc < s.hi) (h3 : t.lo ≤ pc) (h4 : pc < t.hi) : s = t := by
  induction h with
  | nil => cases hs
  | cons g1 g2 g3 g4 ih =>
    rcases List.mem_cons.mp hs with rfl | hs' <;> rcases List.mem_cons.mp ht with rfl | ht'
    · rfl
    · have := g4.low t ht'; omega
    · have := g4.low s hs'; omega
    · exact ih hs' ht'

theorem At_nil {α : Type} {pc : Nat} {x : α} : ¬ At [] pc x := by rintro ⟨s, hs, _⟩; cases hs

theorem At_cons {α : Type} {s : Seg α} {m : List (Seg α)} {pc : Nat} {x : α} :
    At (s :: m) pc x ↔ (s.lo ≤ pc ∧ pc < s.hi ∧ x ∈ s.els) ∨ At m pc x := by
  simp [At]

theorem At_append {α : Type} {l m : List (Seg α)} {pc : Nat} {x : α} : At (l ++ m) pc x ↔ At l pc x ∨ At m pc x := by
  induction l with
  | nil => simp [At_nil]
  | cons s l ih => rw [List.cons_append, At_cons, At_cons, ih, or_assoc]

theorem At_seg {α : Type} {lo hi : Nat} {els : List α} {pc : Nat} {x : α} : At (seg lo hi els) pc x ↔ lo ≤ pc ∧ pc < hi ∧ x ∈ els := by
  unfold seg
  split
  · simp [At]
  · constructor
    · intro h; exact absurd h At_nil
    · intro h; omega

theorem From.at_ge {α : Type} {b : Nat} {m : List (Seg α)} (h : From b m) {pc : Nat} {x : α} (ha : At m pc x) : b ≤ pc := by
  obtain ⟨s, hs, h1, _⟩ := ha
  have := h.low s hs
  omega

/-- Adding, in general: inside the interval, the element is inserted in what was there. -/
theorem add_at {α : Type} (ins : α → List α → List α) (x : α)
    (hi1 : ∀ (l : List α) (y : α), y ∈ ins x l → y = x ∨ y ∈ l) (hi2 : ∀ (l : List α) (y : α), y ∈ l → y ∈ ins x l) :
    ∀ (m : List (Seg α)) (b lo hi : Nat), From b m → ∀ (pc : Nat) (y : α),
      (At (add ins x m lo hi) pc y → At m pc y ∨ (lo ≤ pc ∧ pc < hi ∧ y = x)) ∧ (At m pc y → At (add ins x m lo hi) pc y)
  | [], b, lo, hi, _, pc, y => by
    refine ⟨fun h => ?_, fun h => absurd h At_nil⟩
    rw [add, At_seg] at h
    rcases hi1 _ _ h.2.2 with h1 | h1
    · exact Or.inr ⟨h.1, h.2.1, h1⟩
    · cases h1
  | s :: m, b, lo, hi, hf, pc, y => by
    cases hf with
    | cons g1 g2 g3 g4 =>
    obtain ⟨ih1, ih2⟩ := add_at ins x hi1 hi2 m s.hi (max lo s.hi) hi g4 pc y
    simp only [add, At_append, At_seg, At_cons]
    constructor
    · rintro ((((h | h) | h) | h) | h)
      · rcases hi1 _ _ h.2.2 with h1 | h1
        · exact Or.inr ⟨h.1, by omega, h1⟩
        · cases h1
      · exact Or.inl (Or.inl ⟨h.1, by omega, h.2.2⟩)
      · rcases hi1 _ _ h.2.2 with h1 | h1
        · exact Or.inr ⟨by omega, by omega, h1⟩
        · exact Or.inl (Or.inl ⟨by omega, by omega, h1⟩)
      · exact Or.inl (Or.inl ⟨by omega, h.2.1, h.2.2⟩)
      · rcases ih1 h with h1 | h1
        · exact Or.inl (Or.inr h1)
        · exact Or.inr ⟨by omega, h1.2⟩
    · rintro (h | h)
      · by_cases c1 : pc < lo
        · exact Or.inl (Or.inl (Or.inl (Or.inr ⟨h.1, by omega, h.2.2⟩)))
        · by_cases c2 : pc < hi
          · exact Or.inl (Or.inl (Or.inr ⟨by omega, by omega, hi2 _ _ h.2.2⟩))
          · exact Or.inl (Or.inr ⟨by omega, h.2.1, h.2.2⟩)
      · exact Or.inr (ih2 h)

/-- And inside the interval, something equivalent to the element is there. -/
theorem add_new {α : Type} (ins : α → List α → List α) (x : α) (P : α → Prop) (hi3 : ∀ l : List α, ∃ y ∈ ins x l, P y) :
    ∀ (m : List (Seg α)) (b lo hi : Nat), From b m → ∀ pc : Nat, lo ≤ pc → pc < hi → ∃ y : α, P y ∧ At (add ins x m lo hi) pc y
  | [], b, lo, hi, _, pc, h1, h2 => by
    obtain ⟨y, hy, hp⟩ := hi3 []
    exact ⟨y, hp, by rw [add, At_seg]; exact ⟨h1, h2, hy⟩⟩
  | s :: m, b, lo, hi, hf, pc, h1, h2 => by
    cases hf with
    | cons g1 g2 g3 g4 =>
    simp only [add, At_append, At_seg]
    by_cases c1 : pc < s.lo
    · obtain ⟨y, hy, hp⟩ := hi3 []
      exact ⟨y, hp, Or.inl (Or.inl (Or.inl (Or.inl ⟨h1, by omega, hy⟩)))⟩
    · by_cases c2 : pc < s.hi
      · obtain ⟨y, hy, hp⟩ := hi3 s.els
        exact ⟨y, hp, Or.inl (Or.inl (Or.inr ⟨by omega, by omega, hy⟩))⟩
      · obtain ⟨y, hp, hy⟩ := add_new ins x P hi3 m s.hi (max lo s.hi) hi g4 pc (by omega) h2
        exact ⟨y, hp, Or.inr hy⟩

theorem From.append {α : Type} {b c : Nat} {l m : List (Seg α)} (h1 : From b l) (h2 : ∀ s ∈ l, s.hi ≤ c) (hbc : b ≤ c) (h3 : From c m) :
    From b (l ++ m) := by
  induction h1 with
  | nil => exact h3.mono hbc
  | @cons b s l g1 g2 g3 g4 ih =>
    have h4 := h2 s (by simp)
    exact .cons g1 g2 g3 (ih (fun t ht => h2 t (by simp [ht])) h4)

theorem From_seg {α : Type} {b lo hi : Nat} {els : List α} (h : lo < hi → b ≤ lo) (he : els ≠ []) : From b (seg lo hi els) := by
  unfold seg
  split
  · rename_i h1; exact .cons (h h1) h1 he .nil
  · exact .nil

theorem seg_hi {α : Type} {lo hi c : Nat} {els : List α} (h : lo < hi → hi ≤ c) : ∀ s ∈ seg lo hi els, s.hi ≤ c := by
  intro s hs
  unfold seg at hs
  split at hs
  · rename_i h1; simp at hs; rw [hs]; exact h h1
  · cases hs

theorem From_add {α : Type} (ins : α → List α → List α) (x : α) (hne : ∀ l : List α, ins x l ≠ []) :
    ∀ (m : List (Seg α)) (b lo hi : Nat), b ≤ lo → (lo < hi ∨ lo ≤ b) → From b m → From b (add ins x m lo hi)
  | [], b, lo, hi, hb, _, _ => by rw [add]; exact From_seg (fun _ => hb) (hne _)
  | s :: m, b, lo, hi, hb, hd, hf => by
    cases hf with
    | cons g1 g2 g3 g4 =>
    have hrec := From_add ins x hne m s.hi (max lo s.hi) hi (by omega) (by omega) g4
    rw [add]
    simp only [List.append_assoc]
    refine From.append (c := s.lo) (From_seg (fun _ => hb) (hne _)) (seg_hi (fun _ => by omega)) g1 ?_
    refine From.append (c := max s.lo (min lo s.hi)) (From_seg (fun _ => by omega) g3) (seg_hi (fun _ => by omega)) (by omega) ?_
    refine From.append (c := max s.lo (min (max lo hi) s.hi)) (From_seg (fun _ => by omega) (hne _)) (seg_hi (fun _ => by omega)) (by omega) ?_
    refine From.append (c := s.hi) (From_seg (fun _ => by omega) g3) (seg_hi (fun _ => by omega)) (by omega) hrec

theorem glue_at {α : Type} (same : List α → List α → Bool) (hs : ∀ a b, same a b = true → ∀ x, x ∈ a ↔ x ∈ b) (s : Seg α) (m : List (Seg α))
    {b : Nat} (hf : From b (s :: m)) (pc : Nat) (x : α) : At (glue same s m) pc x ↔ At (s :: m) pc x := by
  cases m with
  | nil => rfl
  | cons t m =>
    rw [glue]
    split
    · rename_i h
      simp only [Bool.and_eq_true, decide_eq_true_eq] at h
      cases hf with
      | cons g1 g2 g3 g4 =>
      cases g4 with
      | cons k1 k2 k3 k4 =>
      simp only [At_cons]
      have h2 := hs _ _ h.2 x
      constructor
      · rintro (h3 | h3)
        · by_cases c : pc < s.hi
          · exact Or.inl ⟨h3.1, c, h3.2.2⟩
          · exact Or.inr (Or.inl ⟨by omega, h3.2.1, h2.mp h3.2.2⟩)
        · exact Or.inr (Or.inr h3)
      · rintro (h3 | h3 | h3)
        · exact Or.inl ⟨h3.1, by omega, h3.2.2⟩
        · exact Or.inl ⟨by omega, h3.2.1, h2.mpr h3.2.2⟩
        · exact Or.inr h3
    · rfl

theorem From_glue {α : Type} (same : List α → List α → Bool) (s : Seg α) (m : List (Seg α)) {b : Nat} (hf : From b (s :: m)) :
    From b (glue same s m) := by
  cases m with
  | nil => exact hf
  | cons t m =>
    rw [glue]
    split
    · cases hf with
      | cons g1 g2 g3 g4 =>
      cases g4 with
      | cons k1 k2 k3 k4 => exact .cons g1 (by show s.lo < t.hi; omega) g3 k4
    · exact hf

theorem From_join {α : Type} (same : List α → List α → Bool) : ∀ (m : List (Seg α)) {b : Nat}, From b m → From b (join same m)
  | [], _, h => h
  | s :: m, b, h => by
    cases h with
    | cons g1 g2 g3 g4 => exact From_glue same s _ (.cons g1 g2 g3 (From_join same m g4))

/-- Joining neighbours changes nothing at any address. -/
theorem join_at {α : Type} (same : List α → List α → Bool) (hs : ∀ a b, same a b = true → ∀ x, x ∈ a ↔ x ∈ b) :
    ∀ (m : List (Seg α)) {b : Nat}, From b m → ∀ (pc : Nat) (x : α), At (join same m) pc x ↔ At m pc x
  | [], _, _, _, _ => Iff.rfl
  | s :: m, b, h, pc, x => by
    cases h with
    | cons g1 g2 g3 g4 =>
    rw [join, glue_at same hs s _ (.cons g1 g2 g3 (From_join same m g4)), At_cons, At_cons, join_at same hs m g4]

theorem dom_at {α : Type} {m : List (Seg α)} {b : Nat} (h : From b m) {s : Seg α} (hs : s ∈ m) {pc : Nat} (h1 : s.lo ≤ pc) (h2 : pc < s.hi) :
    ∃ x : α, At m pc x := by
  have := (h.low s hs).2.2
  cases he : s.els with
  | nil => exact absurd he this
  | cons x l => exact ⟨x, s, hs, h1, h2, by rw [he]; simp⟩

/-! ## The sets -/

theorem insLive_old (D : Dwarf) (x y : Live) (l : List Live) (h : y ∈ l) : y ∈ insLive D x l := by
  unfold insLive
  split
  · exact h
  · simp [h]

theorem insLive_new (D : Dwarf) (x y : Live) (l : List Live) (h : y ∈ insLive D x l) : y = x ∨ y ∈ l := by
  unfold insLive at h
  split at h
  · exact Or.inr h
  · simp at h; exact h.symm

theorem insLive_key (D : Dwarf) (x : Live) (l : List Live) : ∃ y ∈ insLive D x l, y.die = x.die ∧ D.hash y.expr = D.hash x.expr := by
  unfold insLive
  split
  · rename_i h
    simp only [List.any_eq_true, Bool.and_eq_true, decide_eq_true_eq] at h
    exact h
  · exact ⟨x, by simp, rfl, rfl⟩

theorem insLive_ne (D : Dwarf) (x : Live) (l : List Live) : insLive D x l ≠ [] := by
  obtain ⟨y, hy, _⟩ := insLive_key D x l
  intro h
  rw [h] at hy
  cases hy

theorem sameLive_iff (a b : List Live) (h : sameLive a b = true) (x : Live) : x ∈ a ↔ x ∈ b := by
  simp only [sameLive, Bool.and_eq_true, List.all_eq_true, decide_eq_true_eq] at h
  exact ⟨h.1 x, h.2 x⟩

/-- Elements in the set's order. -/
def Ordered (l : List El) : Prop := l.Pairwise (fun a b => elLt a b = true)

theorem elLt_iff (a b : El) : elLt a b = true ↔ a.off < b.off ∨ (a.off = b.off ∧ a.die < b.die) := by simp [elLt]

theorem insEl_old (x y : El) : ∀ l : List El, y ∈ l → y ∈ insEl x l
  | [], h => by cases h
  | z :: l, h => by
    unfold insEl
    split
    · simp [h]
    · split
      · rcases List.mem_cons.mp h with rfl | h
        · simp
        · simp [insEl_old x y l h]
      · exact h

theorem insEl_new (x y : El) : ∀ l : List El, y ∈ insEl x l → y = x ∨ y ∈ l
  | [], h => by simp [insEl] at h; exact Or.inl h
  | z :: l, h => by
    unfold insEl at h
    split at h
    · simp at h; simp; exact h
    · split at h
      · rcases List.mem_cons.mp h with rfl | h
        · exact Or.inr (by simp)
        · rcases insEl_new x y l h with h | h
          · exact Or.inl h
          · exact Or.inr (by simp [h])
      · exact Or.inr h

theorem insEl_key (x : El) : ∀ l : List El, ∃ y ∈ insEl x l, y.off = x.off ∧ y.die = x.die
  | [] => ⟨x, by simp [insEl], rfl, rfl⟩
  | z :: l => by
    unfold insEl
    split
    · exact ⟨x, by simp, rfl, rfl⟩
    · split
      · obtain ⟨y, hy, h⟩ := insEl_key x l
        exact ⟨y, by simp [hy], h⟩
      · rename_i h1 h2
        rw [elLt_iff] at h1 h2
        exact ⟨z, by simp, by omega, by omega⟩

theorem insEl_ne (x : El) (l : List El) : insEl x l ≠ [] := by
  obtain ⟨y, hy, _⟩ := insEl_key x l
  intro h
  rw [h] at hy
  cases hy

theorem insEl_ordered (x : El) : ∀ l : List El, Ordered l → Ordered (insEl x l)
  | [], _ => by simp [insEl, Ordered]
  | z :: l, h => by
    have h' := List.pairwise_cons.mp h
    unfold insEl
    split
    · rename_i h1
      refine List.pairwise_cons.mpr ⟨fun y hy => ?_, h⟩
      rcases List.mem_cons.mp hy with rfl | hy
      · exact h1
      · have h2 := h'.1 y hy
        rw [elLt_iff] at *
        omega
    · split
      · rename_i h2
        refine List.pairwise_cons.mpr ⟨fun y hy => ?_, insEl_ordered x l h'.2⟩
        rcases insEl_new x y l hy with rfl | hy
        · exact h2
        · exact h'.1 y hy
      · exact h

/-! ## Adding, in both maps -/

theorem addj {α : Type} {ins : α → List α → List α} {same : List α → List α → Bool} {x : α} {P U : α → Prop}
    (h1 : ∀ (l : List α) (y : α), y ∈ ins x l → y = x ∨ y ∈ l) (h2 : ∀ (l : List α) (y : α), y ∈ l → y ∈ ins x l)
    (h3 : ∀ l : List α, ∃ y ∈ ins x l, P y) (h4 : ∀ y, U y → P y → y = x) (hx : U x)
    (hs : ∀ a b, same a b = true → ∀ x, x ∈ a ↔ x ∈ b) {m : List (Seg α)} {lo hi : Nat} (hlt : lo < hi) (hf : From 0 m)
    (hu : ∀ pc y, At m pc y → U y) :
    From 0 (join same (add ins x m lo hi)) ∧
      (∀ pc y, At (join same (add ins x m lo hi)) pc y ↔ At m pc y ∨ (lo ≤ pc ∧ pc < hi ∧ y = x)) := by
  have hne : ∀ l : List α, ins x l ≠ [] := by
    intro l he
    obtain ⟨y, hy, _⟩ := h3 l
    rw [he] at hy
    cases hy
  have hf' := From_add ins x hne m 0 lo hi (by omega) (Or.inl hlt) hf
  refine ⟨From_join same _ hf', fun pc y => ?_⟩
  rw [join_at same hs _ hf']
  obtain ⟨a1, a2⟩ := add_at ins x h1 h2 m 0 lo hi hf pc y
  refine ⟨a1, ?_⟩
  rintro (h | ⟨k1, k2, rfl⟩)
  · exact a2 h
  · obtain ⟨z, hp, hz⟩ := add_new ins y P h3 m 0 lo hi hf pc k1 k2
    have hzu : U z := by
      rcases (add_at ins y h1 h2 m 0 lo hi hf pc z).1 hz with h | h
      · exact hu pc z h
      · rw [h.2.2]; exact hx
    have hzy := h4 z hzu hp
    subst hzy
    exact hz

theorem seg_els {α : Type} {lo hi : Nat} {els : List α} {t : Seg α} (h : t ∈ seg lo hi els) : t.els = els := by
  unfold seg at h
  split at h
  · simp at h; rw [h]
  · cases h

theorem add_els {α : Type} (ins : α → List α → List α) (x : α) : ∀ (m : List (Seg α)) (lo hi : Nat), ∀ t ∈ add ins x m lo hi,
    t.els = ins x [] ∨ ∃ s ∈ m, t.els = s.els ∨ t.els = ins x s.els
  | [], lo, hi, t, h => by rw [add] at h; exact Or.inl (seg_els h)
  | s :: m, lo, hi, t, h => by
    rw [add] at h
    simp only [List.mem_append] at h
    rcases h with (((h | h) | h) | h) | h
    · exact Or.inl (seg_els h)
    · exact Or.inr ⟨s, by simp, Or.inl (seg_els h)⟩
    · exact Or.inr ⟨s, by simp, Or.inr (seg_els h)⟩
    · exact Or.inr ⟨s, by simp, Or.inl (seg_els h)⟩
    · rcases add_els ins x m _ _ t h with h | ⟨u, hu, h⟩
      · exact Or.inl h
      · exact Or.inr ⟨u, by simp [hu], h⟩

theorem glue_els {α : Type} (same : List α → List α → Bool) (s : Seg α) (m : List (Seg α)) :
    ∀ t ∈ glue same s m, ∃ u ∈ s :: m, t.els = u.els := by
  intro t ht
  cases m with
  | nil => exact ⟨t, ht, rfl⟩
  | cons v m =>
    rw [glue] at ht
    split at ht
    · rcases List.mem_cons.mp ht with rfl | ht
      · exact ⟨s, by simp, rfl⟩
      · exact ⟨t, by simp [ht], rfl⟩
    · exact ⟨t, ht, rfl⟩

theorem join_els {α : Type} (same : List α → List α → Bool) : ∀ m : List (Seg α), ∀ t ∈ join same m, ∃ s ∈ m, t.els = s.els
  | [], t, h => by cases h
  | s :: m, t, h => by
    obtain ⟨u, hu, h1⟩ := glue_els same s _ t h
    rcases List.mem_cons.mp hu with rfl | hu
    · exact ⟨u, by simp, h1⟩
    · obtain ⟨w, hw, h2⟩ := join_els same m u hu
      exact ⟨w, by simp [hw], h1.trans h2⟩

end Liballocs.FrameTypes
