import Verif.Model.FrameTrad
import Verif.Props.FrameCompact
/-!
# Lemmas on the traditional form of frame descriptions
-/
namespace Liballocs.FrameTrad

open FrameTypes (Seg join glue seg add At From)
open FrameCompact (Info Flags Range keep put ins elLt offsets pairLt)

/-- Equality of lists, as the interval maps use it. -/
abbrev eqv {α : Type} [DecidableEq α] (a b : List α) : Bool := decide (a = b)

/-- The value of an interval map at an address. -/
def Val {α : Type} (m : List (Seg α)) (pc : Nat) (v : List α) : Prop := ∃ t ∈ m, t.lo ≤ pc ∧ pc < t.hi ∧ t.els = v

/-- An address in a segment. -/
def In {α : Type} (s : Seg α) (pc : Nat) : Prop := s.lo ≤ pc ∧ pc < s.hi

theorem Val_cons {α : Type} {s : Seg α} {m : List (Seg α)} {pc : Nat} {v : List α} :
    Val (s :: m) pc v ↔ (s.lo ≤ pc ∧ pc < s.hi ∧ s.els = v) ∨ Val m pc v := by
  simp [Val]

/-! ## Joining neighbours -/

/-- No neighbours that touch have the same value. -/
def Apart {α : Type} : List (Seg α) → Prop
  | [] => True
  | [_] => True
  | s :: t :: m => ¬ (s.hi = t.lo ∧ s.els = t.els) ∧ Apart (t :: m)

theorem glue_cons {α : Type} [DecidableEq α] (s t : Seg α) (m : List (Seg α)) :
    glue eqv s (t :: m) = if s.hi = t.lo ∧ s.els = t.els then ⟨s.lo, t.hi, s.els⟩ :: m else s :: t :: m := by
  simp only [glue, eqv, Bool.and_eq_true, decide_eq_true_eq]

theorem glue_val {α : Type} [DecidableEq α] (s : Seg α) (m : List (Seg α)) {b : Nat} (hf : From b (s :: m)) (pc : Nat) (v : List α) :
    Val (glue eqv s m) pc v ↔ Val (s :: m) pc v := by
  cases m with
  | nil => rfl
  | cons t m =>
    rw [glue_cons]
    split
    · rename_i h
      cases hf with
      | cons h1 h2 h3 h4 =>
        cases h4 with
        | cons k1 k2 k3 k4 =>
          simp only [Val_cons]
          constructor
          · rintro (⟨a, b, c⟩ | h')
            · rcases Nat.lt_or_ge pc s.hi with g | g
              · exact Or.inl ⟨a, g, c⟩
              · exact Or.inr (Or.inl ⟨by omega, b, by rw [← h.2]; exact c⟩)
            · exact Or.inr (Or.inr h')
          · rintro (⟨a, b, c⟩ | ⟨a, b, c⟩ | h')
            · exact Or.inl ⟨a, by omega, c⟩
            · exact Or.inl ⟨by omega, b, by rw [h.2]; exact c⟩
            · exact Or.inr h'
    · rfl

theorem join_val {α : Type} [DecidableEq α] : ∀ (m : List (Seg α)) {b : Nat}, From b m → ∀ (pc : Nat) (v : List α), Val (join eqv m) pc v ↔ Val m pc v
  | [], _, _, _, _ => Iff.rfl
  | s :: m, b, h, pc, v => by
    cases h with
    | cons h1 h2 h3 h4 =>
      have := FrameTypes.From_join eqv m h4
      rw [join, glue_val s _ (.cons h1 h2 h3 this), Val_cons, Val_cons, join_val m h4]

theorem glue_apart {α : Type} [DecidableEq α] (s : Seg α) (m : List (Seg α)) (h : Apart m) : Apart (glue eqv s m) := by
  cases m with
  | nil => trivial
  | cons t m =>
    rw [glue_cons]
    split
    · rename_i hc
      cases m with
      | nil => trivial
      | cons u m =>
        refine ⟨?_, h.2⟩
        have := h.1
        rintro ⟨a, b⟩
        exact this ⟨a, by rw [← hc.2]; exact b⟩
    · rename_i hc
      exact ⟨hc, h⟩

theorem join_apart {α : Type} [DecidableEq α] : ∀ m : List (Seg α), Apart (join eqv m)
  | [] => trivial
  | s :: m => glue_apart s _ (join_apart m)

theorem join_fix {α : Type} [DecidableEq α] : ∀ m : List (Seg α), Apart m → join eqv m = m
  | [], _ => rfl
  | [_], _ => rfl
  | s :: t :: m, h => by
    rw [join, join_fix (t :: m) h.2]
    rw [glue_cons, if_neg h.1]

theorem glue_length {α : Type} [DecidableEq α] (s : Seg α) (m : List (Seg α)) : (glue eqv s m).length ≤ m.length + 1 := by
  cases m with
  | nil => simp [glue]
  | cons t m =>
    rw [glue_cons]
    split <;> simp

theorem join_length {α : Type} [DecidableEq α] : ∀ m : List (Seg α), (join eqv m).length ≤ m.length
  | [] => Nat.le_refl _
  | s :: m => by
    have h1 := glue_length s (join eqv m)
    have h2 := join_length m
    rw [join, List.length_cons]
    omega

/-- If joining does not make the map shorter, it does not change it. -/
theorem join_same {α : Type} [DecidableEq α] : ∀ m : List (Seg α), (join eqv m).length = m.length → join eqv m = m
  | [], _ => rfl
  | s :: m, h => by
    have h1 := glue_length s (join eqv m)
    have h2 := join_length m
    rw [join, List.length_cons] at h
    have h3 := join_same m (by omega)
    rw [join, h3]
    rw [h3] at h
    cases m with
    | nil => rfl
    | cons t m =>
      rw [glue_cons] at h ⊢
      split at h
      · simp at h
      · rename_i hc
        rw [if_neg hc]

theorem From.tail {α : Type} {b : Nat} {s : Seg α} {m : List (Seg α)} (h : From b (s :: m)) : From s.hi m := by
  cases h with
  | cons _ _ _ h4 => exact h4

/-- In an ordered map without such neighbours, no two segments that touch have the same value. -/
theorem Apart.touch {α : Type} : ∀ {m : List (Seg α)} {b : Nat}, From b m → Apart m → ∀ s ∈ m, ∀ t ∈ m, s.hi = t.lo → s.els ≠ t.els
  | [], _, _, _, s, hs, _, _, _ => by cases hs
  | [u], _, hf, _, s, hs, t, ht, h => by
    simp at hs ht
    subst hs ht
    have := (hf.low _ List.mem_cons_self).2.1
    omega
  | u :: v :: m, b, hf, ha, s, hs, t, ht, h => by
    have hft := From.tail hf
    have hlow := hft.low
    have hu := hf.low u List.mem_cons_self
    rcases List.mem_cons.mp hs with rfl | hs'
    · rcases List.mem_cons.mp ht with rfl | ht'
      · omega
      · rcases List.mem_cons.mp ht' with rfl | ht''
        · intro he
          exact ha.1 ⟨h, he⟩
        · have h1 := (From.tail hft).low t ht''
          have h2 := hlow v List.mem_cons_self
          omega
    · rcases List.mem_cons.mp ht with rfl | ht'
      · have := hlow s hs'
        omega
      · exact Apart.touch hft ha.2 s hs' t ht' h

/-! ## Inserting segments -/

theorem mem_insSeg (s t : Seg (Int × Nat)) : ∀ m : List (Seg (Int × Nat)), t ∈ insSeg s m ↔ t = s ∨ t ∈ m
  | [] => by simp [insSeg]
  | u :: m => by
    unfold insSeg
    split
    · simp
    · rw [List.mem_cons, mem_insSeg s t m, List.mem_cons]
      constructor
      · rintro (h | h | h) <;> simp [h]
      · rintro (h | h | h) <;> simp [h]

theorem insSeg_length (s : Seg (Int × Nat)) : ∀ m : List (Seg (Int × Nat)), (insSeg s m).length = m.length + 1
  | [] => rfl
  | u :: m => by
    unfold insSeg
    split
    · rfl
    · rw [List.length_cons, insSeg_length s m, List.length_cons]

theorem From_insSeg (s : Seg (Int × Nat)) (h1 : s.lo < s.hi) (h2 : s.els ≠ []) : ∀ (m : List (Seg (Int × Nat))) {b : Nat}, From b m → b ≤ s.lo →
    (∀ t ∈ m, t.hi ≤ s.lo ∨ s.hi ≤ t.lo) → From b (insSeg s m)
  | [], b, _, hb, _ => .cons hb h1 h2 .nil
  | u :: m, b, hf, hb, hd => by
    have hu := hd u List.mem_cons_self
    have hlow := hf.low u List.mem_cons_self
    unfold insSeg
    cases hf with
    | cons k1 k2 k3 k4 =>
      split
      · exact .cons hb h1 h2 (.cons (by omega) k2 k3 k4)
      · exact .cons k1 k2 k3 (From_insSeg s h1 h2 m k4 (by omega) (fun t ht => hd t (List.mem_cons_of_mem _ ht)))

/-! ## The map of layouts -/

/-- The map of layouts holds those of the intervals done. -/
structure Inv (L : Lib) (done : List (Seg Nat)) (k : List (Seg (Int × Nat))) : Prop where
  order : From 0 k
  vals : ∀ pc v, Val k pc v ↔ ∃ s ∈ done, s.lo ≤ pc ∧ pc < s.hi ∧ byOff L s.els = v ∧ v ≠ []

/-- No two intervals have an address in common. -/
def Disj (P : Seg Nat → Prop) : Prop := ∀ s, P s → ∀ t, P t → ∀ pc, s.lo ≤ pc → pc < s.hi → t.lo ≤ pc → pc < t.hi → s = t

theorem Inv.nil {L : Lib} : Inv L [] [] := ⟨.nil, fun pc v => by simp [Val]⟩

theorem Inv.apart {L : Lib} {done : List (Seg Nat)} {k : List (Seg (Int × Nat))} (h : Inv L done k) {s : Seg Nat} (hlt : s.lo < s.hi)
    (hd : ∀ t ∈ done, ∀ pc, t.lo ≤ pc → pc < t.hi → s.lo ≤ pc → pc < s.hi → False) : ∀ t ∈ k, t.hi ≤ s.lo ∨ s.hi ≤ t.lo := by
  intro t ht
  have ht' := h.order.low t ht
  rcases Nat.lt_or_ge s.lo t.hi with h1 | h1
  · rcases Nat.lt_or_ge t.lo s.hi with h2 | h2
    · exfalso
      obtain ⟨d, hd1, hd2, hd3, _⟩ := (h.vals (max s.lo t.lo) t.els).mp ⟨t, ht, by omega, by omega, rfl⟩
      exact hd d hd1 _ hd2 hd3 (by omega) (by omega)
    · exact Or.inr h2
  · exact Or.inl h1

theorem Inv.remember {L : Lib} {done : List (Seg Nat)} {k : List (Seg (Int × Nat))} (h : Inv L done k) {s : Seg Nat} (hlt : s.lo < s.hi)
    (hd : ∀ t ∈ done, ∀ pc, t.lo ≤ pc → pc < t.hi → s.lo ≤ pc → pc < s.hi → False) : Inv L (done ++ [s]) (remember L k s) := by
  unfold FrameTrad.remember
  cases hb : byOff L s.els with
  | nil =>
    refine ⟨h.order, fun pc v => ?_⟩
    rw [show Val k pc v ↔ _ from h.vals pc v]
    constructor
    · rintro ⟨t, ht, h1, h2, h3⟩
      exact ⟨t, by simp [ht], h1, h2, h3⟩
    · rintro ⟨t, ht, h1, h2, h3, h4⟩
      rcases List.mem_append.mp ht with ht | ht
      · exact ⟨t, ht, h1, h2, h3, h4⟩
      · simp at ht
        subst ht
        exact absurd (h3.symm.trans hb) h4
  | cons p l =>
    have hf := From_insSeg ⟨s.lo, s.hi, p :: l⟩ hlt (by simp) k h.order (Nat.zero_le _) (h.apart hlt hd)
    refine ⟨FrameTypes.From_join eqv _ hf, fun pc v => ?_⟩
    rw [show Val (join _ _) pc v ↔ _ from join_val _ hf pc v]
    constructor
    · rintro ⟨t, ht, h1, h2, h3⟩
      rcases (mem_insSeg _ _ _).mp ht with rfl | ht
      · exact ⟨s, by simp, h1, h2, hb.trans h3, by rw [← h3]; simp⟩
      · obtain ⟨d, k1, k2, k3, k4⟩ := (h.vals pc v).mp ⟨t, ht, h1, h2, h3⟩
        exact ⟨d, by simp [k1], k2, k3, k4⟩
    · rintro ⟨d, hd1, k2, k3, k4, k5⟩
      rcases List.mem_append.mp hd1 with hd1 | hd1
      · obtain ⟨t, ht, h1, h2, h3⟩ := (h.vals pc v).mpr ⟨d, hd1, k2, k3, k4, k5⟩
        exact ⟨t, (mem_insSeg _ _ _).mpr (Or.inr ht), h1, h2, h3⟩
      · simp at hd1
        subst hd1
        exact ⟨_, (mem_insSeg _ _ _).mpr (Or.inl rfl), k2, k3, hb.symm.trans k4⟩

theorem remember_length (L : Lib) (k : List (Seg (Int × Nat))) (s : Seg Nat) : (remember L k s).length ≤ k.length + 1 := by
  unfold remember
  split
  · omega
  · rename_i p l _
    have h1 := join_length (insSeg ⟨s.lo, s.hi, p :: l⟩ k)
    rw [insSeg_length] at h1
    exact h1

/-- A layout found is that of the interval it is sought for, among disjoint ones. -/
theorem Inv.lookup {L : Lib} {done : List (Seg Nat)} {P : Seg Nat → Prop} {k : List (Seg (Int × Nat))} (h : Inv L done k) (hdis : Disj P)
    (hsub : ∀ t ∈ done, P t) {s : Seg Nat} (hs : P s) (hlt : s.lo < s.hi) {t : Seg (Int × Nat)} (ht : lookup k s.lo s.hi = some t) :
    s ∈ done ∧ t.els = byOff L s.els ∧ byOff L s.els ≠ [] := by
  unfold FrameTrad.lookup at ht
  have h1 := List.mem_of_find?_eq_some ht
  have h2 := List.find?_some ht
  simp only [Bool.and_eq_true, decide_eq_true_eq] at h2
  have h3 := h.order.low t h1
  obtain ⟨d, hd1, hd2, hd3, hd4, hd5⟩ := (h.vals (max s.lo t.lo) t.els).mp ⟨t, h1, by omega, by omega, rfl⟩
  have := hdis d (hsub d hd1) s hs (max s.lo t.lo) hd2 hd3 (by omega) (by omega)
  subst this
  exact ⟨hd1, hd4.symm, by rw [hd4]; exact hd5⟩

/-- The layout of an interval done, if not empty, is found. -/
theorem Inv.lookup_some {L : Lib} {done : List (Seg Nat)} {k : List (Seg (Int × Nat))} (h : Inv L done k) {s : Seg Nat} (hs : s ∈ done)
    (hlt : s.lo < s.hi) (hb : byOff L s.els ≠ []) : ∃ t, FrameTrad.lookup k s.lo s.hi = some t := by
  obtain ⟨t, ht, h1, h2, h3⟩ := (h.vals s.lo _).mpr ⟨s, hs, Nat.le_refl _, hlt, rfl, hb⟩
  unfold FrameTrad.lookup
  cases hf : k.find? fun t => decide (t.lo < s.hi) && decide (s.lo < t.hi) with
  | some u => exact ⟨u, rfl⟩
  | none =>
    have := List.find?_eq_none.mp hf t ht
    simp only [Bool.and_eq_true, decide_eq_true_eq] at this
    omega

/-! ## What the output means -/

/-- The type that a name stands for: the one defined under it, or what the name it is an alias of stands for. -/
inductive Denotes (is : List Item) : Name → Lay → Prop
  | define {n l} : Item.define n l ∈ is → Denotes is n l
  | alias {n old l} : Item.alias n old ∈ is → Denotes is old l → Denotes is n l

theorem Denotes.mono {is js : List Item} (h : ∀ i ∈ is, i ∈ js) {n : Name} {l : Lay} (hd : Denotes is n l) : Denotes js n l := by
  induction hd with
  | define h1 => exact .define (h _ h1)
  | alias h1 _ ih => exact .alias (h _ h1) ih

theorem item_unique {is : List Item} (hn : (is.map Item.name).Nodup) {i j : Item} (hi : i ∈ is) (hj : j ∈ is) (h : i.name = j.name) : i = j := by
  induction is with
  | nil => cases hi
  | cons a is ih =>
    rw [List.map_cons, List.nodup_cons] at hn
    rcases List.mem_cons.mp hi with rfl | hi'
    · rcases List.mem_cons.mp hj with rfl | hj'
      · rfl
      · exact absurd (List.mem_map.mpr ⟨j, hj', h.symm⟩) hn.1
    · rcases List.mem_cons.mp hj with rfl | hj'
      · exact absurd (List.mem_map.mpr ⟨i, hi', h⟩) hn.1
      · exact ih hn.2 hi' hj'

/-- If no name is given a meaning twice, it has just one. -/
theorem Denotes.unique {is : List Item} (hn : (is.map Item.name).Nodup) {n : Name} {l l' : Lay} (h : Denotes is n l) (h' : Denotes is n l') : l = l' := by
  induction h with
  | define h1 =>
    cases h' with
    | define h2 => have := item_unique hn h1 h2 rfl; injection this
    | alias h2 _ => have := item_unique hn h1 h2 rfl; cases this
  | alias h1 _ ih =>
    cases h' with
    | define h2 => have := item_unique hn h1 h2 rfl; cases this
    | alias h2 h3 =>
      have := item_unique hn h1 h2 rfl
      injection this with _ ho
      subst ho
      exact ih h3

/-! ## A subprogram's intervals -/

theorem From_filter {α : Type} (p : Seg α → Bool) {b : Nat} {m : List (Seg α)} (h : From b m) : From b (m.filter p) := by
  induction h with
  | nil => exact .nil
  | cons h1 h2 h3 h4 ih =>
    rw [List.filter_cons]
    split
    · exact .cons h1 h2 h3 ih
    · exact ih.mono (by omega)

theorem mine_from {L : Lib} {m : List (Seg Nat)} (h : From 0 m) (x : Nat) : From 0 (mine L m x) := FrameTypes.From_join _ _ (From_filter _ h)

theorem mine_val {L : Lib} {m : List (Seg Nat)} (h : From 0 m) (x pc : Nat) (v : List Nat) :
    Val (mine L m x) pc v ↔ ∃ u ∈ m, owner L u = some x ∧ u.lo ≤ pc ∧ pc < u.hi ∧ u.els = v := by
  rw [show Val (mine L m x) pc v ↔ _ from join_val _ (From_filter _ h) pc v]
  constructor
  · rintro ⟨t, ht, h1, h2, h3⟩
    obtain ⟨k1, k2⟩ := List.mem_filter.mp ht
    exact ⟨t, k1, by simpa using k2, h1, h2, h3⟩
  · rintro ⟨t, k1, k2, h1, h2, h3⟩
    exact ⟨t, List.mem_filter.mpr ⟨k1, by simpa using k2⟩, h1, h2, h3⟩

/-- An interval of some subprogram. -/
def Mine (L : Lib) (m : List (Seg Nat)) (s : Seg Nat) : Prop := ∃ x, s ∈ mine L m x

theorem mine_eq {L : Lib} {m : List (Seg Nat)} (h : From 0 m) {x y : Nat} {s t : Seg Nat} (hs : s ∈ mine L m x) (ht : t ∈ mine L m y) {pc : Nat}
    (h1 : s.lo ≤ pc) (h2 : pc < s.hi) (h3 : t.lo ≤ pc) (h4 : pc < t.hi) : x = y ∧ s = t := by
  obtain ⟨u, hu, hu1, hu2, hu3, _⟩ := (mine_val h x pc _).mp ⟨s, hs, h1, h2, rfl⟩
  obtain ⟨v, hv, hv1, hv2, hv3, _⟩ := (mine_val h y pc _).mp ⟨t, ht, h3, h4, rfl⟩
  have := h.unique hu hv hu2 hu3 hv2 hv3
  subst this
  have hxy : x = y := by rw [hu1] at hv1; exact Option.some.inj hv1
  subst hxy
  exact ⟨rfl, (mine_from h x).unique hs ht h1 h2 h3 h4⟩

theorem mine_disj {L : Lib} {m : List (Seg Nat)} (h : From 0 m) : Disj (Mine L m) := by
  rintro s ⟨x, hs⟩ t ⟨y, ht⟩ pc h1 h2 h3 h4
  exact (mine_eq h hs ht h1 h2 h3 h4).2

/-- Two intervals with no address in common. -/
def Off (s t : Seg Nat) : Prop := ∀ pc, s.lo ≤ pc → pc < s.hi → t.lo ≤ pc → pc < t.hi → False

theorem From.pairwise {b : Nat} {m : List (Seg Nat)} (h : From b m) : m.Pairwise Off := by
  induction h with
  | nil => exact .nil
  | cons h1 h2 h3 h4 ih =>
    refine .cons (fun t ht pc k1 k2 k3 k4 => ?_) ih
    have := h4.low t ht
    omega

/-! ## The types written -/

/-- The name of an interval of a subprogram. -/
def nameOf (x : Nat) (s : Seg Nat) : Name := ⟨x, s.lo, s.hi⟩

/-- Whether something is on the stack in an interval. -/
def full (L : Lib) (s : Seg Nat) : Bool := decide (byOff L s.els ≠ [])

theorem earlier_spec {L : Lib} {done : List (Seg Nat)} {P : Seg Nat → Prop} {k : List (Seg (Int × Nat))} (h : Inv L done k) (hdis : Disj P)
    (hsub : ∀ t ∈ done, P t) {x : Nat} {bo : List (Int × Nat)} {n : Name} : ∀ l : List (Seg Nat), (∀ t ∈ l, P t ∧ t.lo < t.hi) →
    earlier x k bo l = .ok (some n) → ∃ e ∈ l, n = nameOf x e ∧ byOff L e.els = bo
  | [], _, he => by simp [earlier] at he
  | e :: l, hl, he => by
    unfold earlier at he
    cases hk : lookup k e.lo e.hi with
    | none => rw [hk] at he; cases he
    | some t =>
      rw [hk] at he
      dsimp only at he
      have hle := hl e List.mem_cons_self
      obtain ⟨_, h2, _⟩ := h.lookup hdis hsub hle.1 hle.2 hk
      split at he
      · rename_i hb
        injection he with he
        injection he with he
        exact ⟨e, List.mem_cons_self, he.symm, by rw [← h2]; exact hb⟩
      · obtain ⟨e', h3, h4⟩ := earlier_spec h hdis hsub l (fun t ht => hl t (List.mem_cons_of_mem _ ht)) he
        exact ⟨e', List.mem_cons_of_mem _ h3, h4⟩

/-- An interval's name stands for its layout. -/
def Told (L : Lib) (off x : Nat) (is : List Item) (s : Seg Nat) : Prop :=
  byOff L s.els ≠ [] → ∃ l, layout L off (byOff L s.els) = some l ∧ Denotes is (nameOf x s) l

theorem Told.mono {L : Lib} {off x : Nat} {is js : List Item} {s : Seg Nat} (h : ∀ i ∈ is, i ∈ js) (ht : Told L off x is s) : Told L off x js s := by
  intro hb
  obtain ⟨l, h1, h2⟩ := ht hb
  exact ⟨l, h1, h2.mono h⟩

theorem item_spec {L : Lib} {done : List (Seg Nat)} {P : Seg Nat → Prop} {k : List (Seg (Int × Nat))} (h : Inv L done k) (hdis : Disj P)
    (hsub : ∀ t ∈ done, P t) {x off : Nat} {before : List (Seg Nat)} (hbe : ∀ t ∈ before, P t ∧ t.lo < t.hi) {s : Seg Nat} {i : Item}
    (hi : item L x off k before s (byOff L s.els) = .ok i) {pre : List Item} (hpre : ∀ e ∈ before, Told L off x pre e) :
    i.name = nameOf x s ∧ Told L off x (pre ++ [i]) s := by
  unfold item at hi
  cases he : earlier x k (byOff L s.els) before with
  | error e => rw [he] at hi; cases hi
  | ok o =>
    rw [he] at hi
    cases o with
    | some n =>
      dsimp only at hi
      injection hi with hi
      subst hi
      obtain ⟨e, h1, h2, h3⟩ := earlier_spec h hdis hsub before hbe he
      refine ⟨rfl, fun hb => ?_⟩
      obtain ⟨l, h4, h5⟩ := hpre e h1 (by rw [h3]; exact hb)
      refine ⟨l, by rw [← h3]; exact h4, .alias (old := n) (by simp [nameOf]) ?_⟩
      rw [h2]
      exact h5.mono (fun i hi => by simp [hi])
    | none =>
      dsimp only at hi
      cases hl : layout L off (byOff L s.els) with
      | none => rw [hl] at hi; cases hi
      | some l =>
        rw [hl] at hi
        dsimp only at hi
        injection hi with hi
        subst hi
        exact ⟨rfl, fun _ => ⟨l, hl, .define (by simp [nameOf])⟩⟩

theorem emit_spec {L : Lib} {P : Seg Nat → Prop} (hdis : Disj P) {x off : Nat} : ∀ (r before : List (Seg Nat)) (k : List (Seg (Int × Nat)))
    (is : List Item) (k' : List (Seg (Int × Nat))) (done : List (Seg Nat)) (pre : List Item), emit L x off before k r = .ok (is, k') → Inv L done k →
    (∀ t ∈ done, P t) → (∀ t ∈ before, P t ∧ t.lo < t.hi) → (∀ t ∈ r, P t ∧ t.lo < t.hi) → (∀ t ∈ done, ∀ s ∈ r, Off t s) → r.Pairwise Off →
    (∀ e ∈ before, Told L off x pre e) →
    Inv L (done ++ r) k' ∧ is.map Item.name = (r.filter (full L)).map (nameOf x) ∧ ∀ s ∈ r, Told L off x (pre ++ is) s
  | [], before, k, is, k', done, pre, he, hinv, _, _, _, _, _, _ => by
    unfold emit at he
    injection he with he
    injection he with h1 h2
    subst h1 h2
    exact ⟨by simpa using hinv, rfl, fun s hs => by cases hs⟩
  | s :: r, before, k, is, k', done, pre, he, hinv, hdone, hbe, hr, hoff, hpw, hpre => by
    have hs := hr s List.mem_cons_self
    have hinv' := hinv.remember hs.2 (fun t ht pc k1 k2 k3 k4 => hoff t ht s List.mem_cons_self pc k1 k2 k3 k4)
    have hdone' : ∀ t ∈ done ++ [s], P t := by
      intro t ht
      rcases List.mem_append.mp ht with ht | ht
      · exact hdone t ht
      · simp at ht; subst ht; exact hs.1
    have hbe' : ∀ t ∈ before ++ [s], P t ∧ t.lo < t.hi := by
      intro t ht
      rcases List.mem_append.mp ht with ht | ht
      · exact hbe t ht
      · simp at ht; subst ht; exact hs
    have hr' : ∀ t ∈ r, P t ∧ t.lo < t.hi := fun t ht => hr t (List.mem_cons_of_mem _ ht)
    have hpw' := List.pairwise_cons.mp hpw
    have hoff' : ∀ t ∈ done ++ [s], ∀ u ∈ r, Off t u := by
      intro t ht u hu
      rcases List.mem_append.mp ht with ht | ht
      · exact hoff t ht u (List.mem_cons_of_mem _ hu)
      · simp at ht; subst ht; exact hpw'.1 u hu
    unfold emit at he
    split at he
    · rename_i hb
      obtain ⟨a1, a2, a3⟩ := emit_spec hdis r _ _ is k' _ pre he hinv' hdone' hbe' hr' hoff' hpw'.2 (by
        intro e he'
        rcases List.mem_append.mp he' with h | h
        · exact hpre e h
        · simp at h; subst h; intro hx; exact absurd hb hx)
      refine ⟨by simpa using a1, ?_, ?_⟩
      · rw [List.filter_cons, if_neg (by simp [full, hb])]; exact a2
      · intro t ht
        rcases List.mem_cons.mp ht with rfl | ht
        · intro hx; exact absurd hb hx
        · exact a3 t ht
    · rename_i p l hb
      split at he
      · rename_i i js k'' hi hem
        injection he with he
        injection he with h1 h2
        subst h1 h2
        rw [← hb] at hi
        obtain ⟨b1, b2⟩ := item_spec hinv' hdis hdone' hbe hi hpre
        obtain ⟨a1, a2, a3⟩ := emit_spec hdis r _ _ js k'' _ (pre ++ [i]) hem hinv' hdone' hbe' hr' hoff' hpw'.2 (by
          intro e he'
          rcases List.mem_append.mp he' with h | h
          · exact (hpre e h).mono (fun i hi => by simp [hi])
          · simp at h; subst h; exact b2)
        refine ⟨by simpa using a1, ?_, ?_⟩
        · rw [List.filter_cons, if_pos (by simp [full, hb]), List.map_cons, List.map_cons, a2, b1]
        · intro t ht
          rcases List.mem_cons.mp ht with rfl | ht
          · exact b2.mono (fun i hi => by simp at hi ⊢; rcases hi with h | h <;> simp [h])
          · exact (a3 t ht).mono (fun i hi => by simpa using hi)
      · cases he
      · cases he

theorem subps_spec {L : Lib} {m : List (Seg Nat)} (hf : From 0 m) : ∀ (xs ys : List Nat) (k : List (Seg (Int × Nat))) (is : List Item)
    (k' : List (Seg (Int × Nat))), subps L m xs k = .ok (is, k') → Inv L (ys.flatMap (mine L m)) k → xs.Nodup → (∀ x ∈ xs, x ∉ ys) →
    Inv L ((ys ++ xs).flatMap (mine L m)) k' ∧ is.map Item.name = xs.flatMap (fun x => ((mine L m x).filter (full L)).map (nameOf x)) ∧
      ∀ x ∈ xs, ∀ s ∈ mine L m x, Told L (frameOffset L (mine L m x)) x is s
  | [], ys, k, is, k', h, hinv, _, _ => by
    unfold subps at h
    injection h with h
    injection h with h1 h2
    subst h1 h2
    exact ⟨by simpa using hinv, rfl, fun x hx => by cases hx⟩
  | x :: xs, ys, k, is, k', h, hinv, hn, hy => by
    unfold subps at h
    cases h1 : subp L m x k with
    | error e => rw [h1] at h; cases h
    | ok p =>
      obtain ⟨is1, k1⟩ := p
      rw [h1] at h
      dsimp only at h
      cases h2 : subps L m xs k1 with
      | error e => rw [h2] at h; cases h
      | ok q =>
        obtain ⟨js, k2⟩ := q
        rw [h2] at h
        dsimp only at h
        injection h with h
        injection h with e1 e2
        subst e1 e2
        unfold subp at h1
        cases h3 : emit L x (frameOffset L (mine L m x)) [] k (mine L m x) with
        | error e => rw [h3] at h1; cases h1
        | ok q =>
          obtain ⟨is2, k3⟩ := q
          rw [h3] at h1
          dsimp only at h1
          split at h1
          · injection h1 with h1
            injection h1 with e1 e2
            subst e1 e2
            have hlow := (mine_from (L := L) hf x).low
            obtain ⟨a1, a2, a3⟩ := emit_spec (mine_disj (L := L) hf) (mine L m x) [] k is2 k3 _ [] h3 hinv (by
              intro t ht
              obtain ⟨y, _, hy⟩ := List.mem_flatMap.mp ht
              exact ⟨y, hy⟩) (by simp) (fun t ht => ⟨⟨x, ht⟩, (hlow t ht).2.1⟩) (by
              intro t ht s hs pc k1 k2 k3 k4
              obtain ⟨y, hy1, hy2⟩ := List.mem_flatMap.mp ht
              have := (mine_eq hf hy2 hs k1 k2 k3 k4).1
              subst this
              exact hy y List.mem_cons_self hy1) (From.pairwise (mine_from hf x)) (by simp)
            rw [List.nodup_cons] at hn
            obtain ⟨b1, b2, b3⟩ := subps_spec hf xs (ys ++ [x]) k3 js k2 h2 (by simpa using a1) hn.2 (by
              intro z hz hz'
              rcases List.mem_append.mp hz' with h | h
              · exact hy z (List.mem_cons_of_mem _ hz) h
              · simp at h; subst h; exact hn.1 hz)
            refine ⟨by simpa using b1, by rw [List.map_append, a2, b2, List.flatMap_cons], ?_⟩
            intro z hz s hs
            rcases List.mem_cons.mp hz with rfl | hz
            · exact (a3 s hs).mono (fun i hi => by simp at hi; simp [hi])
            · exact (b3 z hz s hs).mono (fun i hi => by simp [hi])
          · cases h1

end Liballocs.FrameTrad
