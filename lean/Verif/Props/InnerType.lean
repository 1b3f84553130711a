import Verif.Model.InnerType
import Verif.Props.Subobject
/-!
# C74, C90 The innermost type at an address is that of the smallest subobject there
-/
namespace Liballocs.InnerType

open Subobject

/-! ## Specification -/

/-- An object of type `u` has a direct subobject of type `w` at `off`. -/
inductive Sub (env : Env) (u : Nat) : Nat → Nat → Prop
  | elt {sz e len i} : env u = .arr sz e len → i < len → Sub env u (i * size env e) e
  | memb {sz ms off w} : env u = .comp sz ms → (off, w) ∈ ms → Sub env u off w

/-- Going down from `u` (itself below `c₀`) at offset `t` through subobjects that contain the offset, one arrives at `v` at
offset `t'`, directly below `c`. -/
inductive Down (env : Env) (u t c₀ : Nat) : Nat → Nat → Nat → Prop
  | here : Down env u t c₀ u t c₀
  | step {v t' c off w} : Down env u t c₀ v t' c → Sub env v off w → off ≤ t' → t' < off + size env w → Down env u t c₀ w (t' - off) v

/-- Nothing below `v` contains the offset. -/
def Bottom (env : Env) (v t : Nat) : Prop := ∀ off w, Sub env v off w → ¬ (off ≤ t ∧ t < off + size env w)

/-- Members lie in the object. -/
def Fits (env : Env) : Prop := ∀ u sz ms, env u = .comp sz ms → ∀ m ∈ ms, m.1 + size env m.2 ≤ sz

/-- No two members share a byte. -/
def Disjoint (env : Env) : Prop := ∀ u sz ms, env u = .comp sz ms → ∀ (i j : Nat) (a b : Nat × Nat), ms[i]? = some a → ms[j]? = some b → i ≠ j →
  a.1 + size env a.2 ≤ b.1 ∨ b.1 + size env b.2 ≤ a.1

/-- No member is empty. -/
def Solid (env : Env) : Prop := ∀ u sz ms, env u = .comp sz ms → ∀ m ∈ ms, 0 < size env m.2

/-- No padding: every byte of an object with members is a member's. -/
def NoGap (env : Env) : Prop := ∀ u sz ms, env u = .comp sz ms → ms ≠ [] → ∀ t, t < sz → ∃ m ∈ ms, m.1 ≤ t ∧ t < m.1 + size env m.2

/-! ## Proofs -/

theorem first_spec {env : Env} (hwf : WF env) (u t : Nat) :
    (first env u t = some none ∧ Bottom env u t) ∨
    ∃ v t' off, first env u t = some (some (v, t')) ∧ v < u ∧ Sub env u off v ∧ off ≤ t ∧ t' = t - off ∧
      (∀ sz e len, env u = .arr sz e len → t < off + size env v) ∧
      (∀ sz ms, env u = .comp sz ms → ∀ m ∈ ms, m.1 ≤ t → m.1 ≤ off) := by
  unfold first
  cases hu : env u with
  | other n =>
    left
    refine ⟨rfl, ?_⟩
    intro off w h
    cases h with
    | elt h _ => rw [hu] at h; cases h
    | memb h _ => rw [hu] at h; cases h
  | arr sz e len =>
    have hpos := (hwf.arrSize u sz e len hu).2
    by_cases hc : len > t / size env e
    · right
      simp only [Nat.pos_iff_ne_zero.mp hpos, ne_eq, not_false_iff, hc, and_self, if_true]
      have h1 := Nat.div_add_mod t (size env e)
      have h2 := Nat.mod_lt t hpos
      rw [Nat.mul_comm] at h1
      refine ⟨e, _, t / size env e * size env e, rfl, hwf.arrLt u sz e len hu, .elt hu hc, by omega, by omega, ?_, ?_⟩
      · intro _ _ _ _; omega
      · intro _ _ h; cases h
    · left
      simp only [Nat.pos_iff_ne_zero.mp hpos, ne_eq, not_false_iff, hc, and_false, if_false, true_and]
      intro off w h
      cases h with
      | memb h _ => rw [hu] at h; cases h
      | elt h hi =>
        rename_i i
        rw [hu] at h
        injection h with _ he hl
        subst he hl
        rintro ⟨h1, h2⟩
        apply hc
        have h3 : t / size env e < i + 1 := (Nat.div_lt_iff_lt_mul hpos).mpr (by rw [Nat.add_mul]; omega)
        omega
  | comp sz ms =>
    simp only
    rcases firstMember_spec (hwf.compSorted u sz ms hu) t with ⟨h1, h2⟩ | ⟨lo, g, h1, h2, h3, h4, h5⟩
    · left
      rw [h1]
      refine ⟨rfl, ?_⟩
      intro off w h
      cases h with
      | elt h _ => rw [hu] at h; cases h
      | memb h hm =>
        rw [hu] at h
        cases h
        have := h2 _ hm
        intro hc
        exact absurd hc.1 (by omega)
    · right
      rw [h1]
      simp only [h2]
      have hmem : g ∈ ms := List.mem_of_getElem? h2
      unfold isNear at h3
      simp only [decide_eq_true_eq] at h3
      refine ⟨g.2, _, g.1, rfl, hwf.compLt u sz ms hu g hmem, .memb hu hmem, h3.1, rfl, ?_, ?_⟩
      · intro _ _ _ h; cases h
      · intro _ _ h
        cases h
        exact h3.2

theorem Down.cons {env : Env} {u t c₀ off w v t' c : Nat} (hs : Sub env u off w) (h1 : off ≤ t) (h2 : t < off + size env w)
    (h : Down env w (t - off) u v t' c) : Down env u t c₀ v t' c := by
  induction h with
  | here => exact .step .here hs h1 h2
  | step _ a b d ih => exact .step ih a b d

theorem Down.front {env : Env} {u t c₀ v t' c : Nat} (h : Down env u t c₀ v t' c) :
    (v = u ∧ t' = t ∧ c = c₀) ∨ ∃ off w, Sub env u off w ∧ off ≤ t ∧ t < off + size env w ∧ Down env w (t - off) u v t' c := by
  induction h with
  | here => exact Or.inl ⟨rfl, rfl, rfl⟩
  | step _ a b d ih =>
    right
    rcases ih with ⟨e1, e2, e3⟩ | ⟨off, w, h1, h2, h3, h4⟩
    · subst e1 e2 e3
      exact ⟨_, _, a, b, d, .here⟩
    · exact ⟨off, w, h1, h2, h3, .step h4 a b d⟩

theorem sub_lt {env : Env} (hwf : WF env) {u off w : Nat} (h : Sub env u off w) : w < u := by
  cases h with
  | elt h _ => exact hwf.arrLt _ _ _ _ h
  | memb h hm => exact hwf.compLt _ _ _ h _ hm

theorem sub_fits {env : Env} (hwf : WF env) (hf : Fits env) {u off w : Nat} (h : Sub env u off w) : off + size env w ≤ size env u := by
  cases h with
  | elt h hi =>
    rename_i sz len i
    rw [show size env u = sz by unfold size; rw [h]; rfl, (hwf.arrSize _ _ _ _ h).1]
    have := Nat.mul_le_mul_right (size env w) (Nat.succ_le_of_lt hi)
    rw [Nat.succ_mul] at this
    exact this
  | memb h hm =>
    rename_i sz ms
    rw [show size env u = sz by unfold size; rw [h]; rfl]
    exact hf _ _ _ h _ hm

theorem descend_spec {env : Env} (hwf : WF env) (hf : Fits env) : ∀ (f u t c : Nat), u < f →
    ∃ v t' c', descend env f u t c = some (v, t', c') ∧ Bottom env v t' ∧ (t' < size env v → t < size env u ∧ Down env u t c v t' c') := by
  intro f
  induction f with
  | zero => intro u t c h; omega
  | succ f ih =>
    intro u t c hlt
    rw [descend]
    rcases first_spec hwf u t with ⟨e, hb⟩ | ⟨v, t', off, e, hv, hs, ho, ht, _, _⟩
    · rw [e]
      exact ⟨u, t, c, rfl, hb, fun h => ⟨h, .here⟩⟩
    · rw [e]
      obtain ⟨v2, t2, c2, e2, hb2, h2⟩ := ih v t' u (by omega)
      refine ⟨v2, t2, c2, e2, hb2, ?_⟩
      intro h
      obtain ⟨h3, h4⟩ := h2 h
      have hin : t < off + size env v := by omega
      have := sub_fits hwf hf hs
      subst ht
      exact ⟨by omega, .cons hs ho hin h4⟩

theorem sub_unique {env : Env} (hwf : WF env) (hd : Disjoint env) {u t o1 w1 o2 w2 : Nat} (h1 : Sub env u o1 w1) (h2 : Sub env u o2 w2)
    (a1 : o1 ≤ t ∧ t < o1 + size env w1) (a2 : o2 ≤ t ∧ t < o2 + size env w2) : o1 = o2 ∧ w1 = w2 := by
  cases h1 with
  | elt e1 i1 =>
    cases h2 with
    | memb e2 _ => rw [e1] at e2; cases e2
    | elt e2 i2 =>
      rename_i sz len i sz' len' j
      rw [e1] at e2
      injection e2 with _ he _
      subst he
      refine ⟨?_, rfl⟩
      have hpos := (hwf.arrSize _ _ _ _ e1).2
      have hi : t / size env w1 = i := by
        apply Nat.le_antisymm
        · exact Nat.lt_succ_iff.mp ((Nat.div_lt_iff_lt_mul hpos).mpr (by rw [Nat.succ_mul]; omega))
        · exact (Nat.le_div_iff_mul_le hpos).mpr a1.1
      have hj : t / size env w1 = j := by
        apply Nat.le_antisymm
        · exact Nat.lt_succ_iff.mp ((Nat.div_lt_iff_lt_mul hpos).mpr (by rw [Nat.succ_mul]; omega))
        · exact (Nat.le_div_iff_mul_le hpos).mpr a2.1
      rw [← hi, ← hj]
  | memb e1 m1 =>
    cases h2 with
    | elt e2 _ => rw [e1] at e2; cases e2
    | memb e2 m2 =>
      rw [e1] at e2
      injection e2 with _ he
      subst he
      obtain ⟨i, hi⟩ := List.getElem?_of_mem m1
      obtain ⟨j, hj⟩ := List.getElem?_of_mem m2
      by_cases hij : i = j
      · subst hij
        rw [hi] at hj
        injection hj with hj
        injection hj with h1 h2
        exact ⟨h1, h2⟩
      · have := hd _ _ _ e1 i j _ _ hi hj hij
        simp only at this
        omega

theorem down_unique {env : Env} (hwf : WF env) (hd : Disjoint env) : ∀ (n u : Nat), u ≤ n → ∀ t c₀ v1 t1 c1 v2 t2 c2,
    Down env u t c₀ v1 t1 c1 → Bottom env v1 t1 → Down env u t c₀ v2 t2 c2 → Bottom env v2 t2 → v1 = v2 ∧ t1 = t2 ∧ c1 = c2 := by
  intro n
  induction n with
  | zero =>
    intro u hu t c₀ v1 t1 c1 v2 t2 c2 h1 _ h2 _
    rcases h1.front with ⟨a, b, c⟩ | ⟨off, w, hs, _⟩
    · rcases h2.front with ⟨a', b', c'⟩ | ⟨off, w, hs, _⟩
      · exact ⟨a.trans a'.symm, b.trans b'.symm, c.trans c'.symm⟩
      · have := sub_lt hwf hs; omega
    · have := sub_lt hwf hs; omega
  | succ n ih =>
    intro u hu t c₀ v1 t1 c1 v2 t2 c2 h1 b1 h2 b2
    rcases h1.front with ⟨a, b, c⟩ | ⟨off, w, hs, x1, x2, x3⟩
    · rcases h2.front with ⟨a', b', c'⟩ | ⟨off, w, hs, y1, y2, _⟩
      · exact ⟨a.trans a'.symm, b.trans b'.symm, c.trans c'.symm⟩
      · subst a b
        exact absurd ⟨y1, y2⟩ (b1 _ _ hs)
    · rcases h2.front with ⟨a', b', _⟩ | ⟨off', w', hs', y1, y2, y3⟩
      · subst a' b'
        exact absurd ⟨x1, x2⟩ (b2 _ _ hs)
      · obtain ⟨e1, e2⟩ := sub_unique hwf hd hs hs' ⟨x1, x2⟩ ⟨y1, y2⟩
        subst e1 e2
        have := sub_lt hwf hs
        exact ih w (by omega) _ _ _ _ _ _ _ _ x3 b1 y3 b2

theorem descend_inside {env : Env} (hwf : WF env) (hd : Disjoint env) (hg : NoGap env) (hso : Solid env) : ∀ (f u t c v t' c' : Nat),
    t < size env u → descend env f u t c = some (v, t', c') → t' < size env v := by
  intro f
  induction f with
  | zero => intro u t c v t' c' _ h; cases h
  | succ f ih =>
    intro u t c v t' c' ht h
    rw [descend] at h
    rcases first_spec hwf u t with ⟨e, _⟩ | ⟨w, t1, off, e, hv, hs, ho, h1, harr, hcomp⟩
    · rw [e] at h
      injection h with h
      injection h with h1 h2
      injection h2 with h2 _
      subst h1 h2
      exact ht
    · rw [e] at h
      refine ih w t1 u v t' c' ?_ h
      cases hs with
      | elt he hi => have := harr _ _ _ he; omega
      | memb he hm =>
        rename_i sz ms
        have hsz : size env u = sz := by unfold size; rw [he]; rfl
        obtain ⟨m, hmm, m1, m2⟩ := hg u sz ms he (List.ne_nil_of_mem hm) t (by omega)
        have h3 := hcomp _ _ he m hmm m1
        obtain ⟨i, hi⟩ := List.getElem?_of_mem hm
        obtain ⟨j, hj⟩ := List.getElem?_of_mem hmm
        by_cases hij : i = j
        · subst hij
          rw [hi] at hj
          injection hj with hj
          subst hj
          simp only at m1 m2
          omega
        · have h4 := hd _ _ _ he i j _ _ hi hj hij
          have h5 := hso _ _ _ he _ hm
          simp only at h4 h5
          omega

/-! ## The property -/

/-- The type looked into: the allocation's, made precise if it can be. -/
def Looked (precise : Nat → Option (Nat → Nat → Nat → Nat)) (obj start sz u u' : Nat) : Prop :=
  (precise u = none ∧ u' = u) ∨ ∃ f, precise u = some f ∧ u' = f obj start sz

theorem getInner_eq {env : Env} {precise : Nat → Option (Nat → Nat → Nat → Nat)} {fuel start sz u u' t skip v t' c : Nat} (hu : u ≠ 0) (hu' : u' ≠ 0)
    (hl : Looked precise (start + t) start sz u u') (ht : t < 2 ^ 32) (e : descend env fuel u' t 0 = some (v, t', c)) :
    getInner env precise fuel (.ok start sz u) (start + t) skip = .ret (if skip = 0 then v else if skip = 1 then c else 0) := by
  unfold getInner
  simp only [hu, if_false]
  rcases hl with ⟨h1, h2⟩ | ⟨f, h1, h2⟩
  · simp only [h1]
    subst h2
    simp only [hu, if_false, Nat.add_sub_cancel_left, Nat.mod_eq_of_lt ht, e]
  · simp only [h1, ← h2, hu', if_false, Nat.add_sub_cancel_left, Nat.mod_eq_of_lt ht, e]

/-- For any types and address: the answer is a type at the bottom, and if the object it stands for contains the address, it was
reached through objects that all contain the address; with `skip_at_bottom` 1 the answer is the type directly around it. -/
theorem inner_partial {env : Env} (hwf : WF env) (hf : Fits env) {precise : Nat → Option (Nat → Nat → Nat → Nat)} {fuel start sz u u' t : Nat} (hu : u ≠ 0)
    (hu' : u' ≠ 0) (hl : Looked precise (start + t) start sz u u') (hfu : u' < fuel) (ht : t < 2 ^ 32) :
    ∃ v t' c, (∀ skip, getInner env precise fuel (.ok start sz u) (start + t) skip = .ret (if skip = 0 then v else if skip = 1 then c else 0)) ∧
      Bottom env v t' ∧ (t' < size env v → Down env u' t 0 v t' c) := by
  obtain ⟨v, t', c, e, hb, hd⟩ := descend_spec hwf hf fuel u' t 0 hfu
  exact ⟨v, t', c, fun skip => getInner_eq hu hu' hl ht e, hb, fun h => (hd h).2⟩

/-- For types without padding, unions and empty members: the answer is the type of the one innermost subobject that contains the address. -/
theorem inner_exact_partial {env : Env} (hwf : WF env) (hf : Fits env) (hdj : Disjoint env) (hg : NoGap env) (hso : Solid env)
    {precise : Nat → Option (Nat → Nat → Nat → Nat)} {fuel start sz u u' t : Nat} (hu : u ≠ 0)
    (hu' : u' ≠ 0) (hl : Looked precise (start + t) start sz u u') (hfu : u' < fuel) (ht : t < 2 ^ 32) (hin : t < size env u') :
    ∃ v t' c, (∀ skip, getInner env precise fuel (.ok start sz u) (start + t) skip = .ret (if skip = 0 then v else if skip = 1 then c else 0)) ∧
      ∀ v2 t2 c2, (Down env u' t 0 v2 t2 c2 ∧ Bottom env v2 t2) ↔ (v2 = v ∧ t2 = t' ∧ c2 = c) := by
  obtain ⟨v, t', c, e, hb, hd⟩ := descend_spec hwf hf fuel u' t 0 hfu
  have hi := descend_inside hwf hdj hg hso fuel u' t 0 v t' c hin e
  refine ⟨v, t', c, fun skip => getInner_eq hu hu' hl ht e, ?_⟩
  intro v2 t2 c2
  constructor
  · rintro ⟨h1, h2⟩
    exact down_unique hwf hdj u' u' (Nat.le_refl _) _ _ _ _ _ _ _ _ h1 h2 (hd hi).2 hb
  · rintro ⟨rfl, rfl, rfl⟩
    exact ⟨(hd hi).2, hb⟩

/-- An address of no allocation has no inner type. -/
theorem inner_err (env : Env) (precise : Nat → Option (Nat → Nat → Nat → Nat)) (fuel obj skip : Nat) : getInner env precise fuel .err obj skip = .ret 0 := rfl

/-! ## Concrete cases and what goes wrong -/

/-- 1: a 4-byte and 2: a 1-byte type, 3: a pair of the former, 4: four such pairs, 5: a byte and, aligned, a 4-byte, 6: a union of a
byte and a 4-byte, 7: triples of the 4-byte type, 8: 2^30 triples. -/
def exEnv : Env
  | 1 => .other 4
  | 2 => .other 1
  | 3 => .comp 8 [(0, 1), (4, 1)]
  | 4 => .arr 32 3 4
  | 5 => .comp 8 [(0, 2), (4, 1)]
  | 6 => .comp 4 [(0, 2), (0, 1)]
  | 7 => .comp 9 [(0, 1), (4, 1), (8, 2)]
  | 8 => .arr (9 * 2 ^ 30) 7 (2 ^ 30)
  | _ => .other 0

example : getInner exEnv (fun _ => none) 10 (.ok 1000 32 4) 1021 0 = .ret 1 ∧ getInner exEnv (fun _ => none) 10 (.ok 1000 32 4) 1021 1 = .ret 3 := by decide +kernel

/-- Types 1, 3 and 4 only. -/
def tidyEnv : Env
  | 1 => .other 4
  | 3 => .comp 8 [(0, 1), (4, 1)]
  | 4 => .arr 32 3 4
  | _ => .other 0

theorem tidy_comp {u sz : Nat} {ms : List (Nat × Nat)} (h : tidyEnv u = .comp sz ms) : u = 3 ∧ sz = 8 ∧ ms = [(0, 1), (4, 1)] := by
  unfold tidyEnv at h
  split at h <;> simp_all

theorem tidy_arr {u sz e len : Nat} (h : tidyEnv u = .arr sz e len) : u = 4 ∧ sz = 32 ∧ e = 3 ∧ len = 4 := by
  unfold tidyEnv at h
  split at h <;> simp_all

/-- The hypotheses of `inner_exact_partial` hold for them. -/
theorem tidy_fits : WF tidyEnv ∧ Fits tidyEnv ∧ Disjoint tidyEnv ∧ NoGap tidyEnv ∧ Solid tidyEnv := by
  refine ⟨⟨?_, ?_, ?_, ?_⟩, ?_, ?_, ?_, ?_⟩
  · intro u sz e len h; obtain ⟨rfl, rfl, rfl, rfl⟩ := tidy_arr h; decide
  · intro u sz e len h; obtain ⟨rfl, rfl, rfl, rfl⟩ := tidy_arr h; decide
  · intro u sz ms h; obtain ⟨rfl, rfl, rfl⟩ := tidy_comp h; decide
  · intro u sz ms h; obtain ⟨rfl, rfl, rfl⟩ := tidy_comp h; decide
  · intro u sz ms h; obtain ⟨rfl, rfl, rfl⟩ := tidy_comp h; decide
  · intro u sz ms h i j a b hi hj hij
    obtain ⟨rfl, rfl, rfl⟩ := tidy_comp h
    have hi' : i < 2 := by have := (List.getElem?_eq_some_iff.mp hi).1; simpa using this
    have hj' : j < 2 := by have := (List.getElem?_eq_some_iff.mp hj).1; simpa using this
    have s1 : size tidyEnv 1 = 4 := rfl
    rcases (show i = 0 ∧ j = 1 ∨ i = 1 ∧ j = 0 by omega) with ⟨rfl, rfl⟩ | ⟨rfl, rfl⟩ <;> simp at hi hj <;> subst hi hj <;> simp [s1]
  · intro u sz ms h _ t ht
    obtain ⟨rfl, rfl, rfl⟩ := tidy_comp h
    have s1 : size tidyEnv 1 = 4 := rfl
    by_cases h4 : t < 4
    · exact ⟨(0, 1), by decide, Nat.zero_le _, by simp [s1, h4]⟩
    · exact ⟨(4, 1), by decide, by simp; omega, by simp [s1]; omega⟩
  · intro u sz ms h; obtain ⟨rfl, rfl, rfl⟩ := tidy_comp h; decide

/-- An address in padding is said to be inside the member before it. -/
theorem inner_padding_fails : getInner exEnv (fun _ => none) 10 (.ok 1000 8 5) 1002 0 = .ret 2 ∧
    ¬ ∃ t c, Down exEnv 5 2 0 2 t c := by
  refine ⟨by decide +kernel, ?_⟩
  rintro ⟨t, c, h⟩
  rcases h.front with ⟨h1, _⟩ | ⟨off, w, hs, h1, h2, _⟩
  · cases h1
  · cases hs with
    | elt h _ => cases h
    | memb h hm =>
      cases h
      simp only [List.mem_cons, Prod.mk.injEq, List.not_mem_nil, or_false] at hm
      rcases hm with ⟨rfl, rfl⟩ | ⟨rfl, rfl⟩
      · simp [size, exEnv, Desc.size] at h2
      · omega

/-- The third byte of a union of a byte and a 4-byte type is said to be in the byte. -/
theorem inner_union_fails : getInner exEnv (fun _ => none) 10 (.ok 1000 4 6) 1002 0 = .ret 2 ∧ Down exEnv 6 2 0 1 2 6 := by
  refine ⟨by decide +kernel, ?_⟩
  exact .step .here (.memb (off := 0) rfl (by decide)) (by decide) (by decide)

/-- Beyond four gigabytes the offset wraps: the byte that ends a triple is said to be in a 4-byte member. -/
theorem inner_big_fails : ∃ t, getInner exEnv (fun _ => none) 10 (.ok 1000 (9 * 2 ^ 30) 8) (1000 + t) 0 = .ret 1 ∧ Down exEnv 8 t 0 2 0 7 := by
  refine ⟨2 ^ 32 + 4, by decide +kernel, ?_⟩
  have h1 : Down exEnv 8 (2 ^ 32 + 4) 0 7 (2 ^ 32 + 4 - 477218588 * 9) 8 :=
    .step .here (Sub.elt (env := exEnv) (u := 8) (sz := 9 * 2 ^ 30) (e := 7) (len := 2 ^ 30) (i := 477218588) rfl (by decide)) (by decide) (by decide)
  have h2 : Down exEnv 8 (2 ^ 32 + 4) 0 2 (2 ^ 32 + 4 - 477218588 * 9 - 8) 7 :=
    .step h1 (.memb (off := 8) rfl (by decide)) (by decide) (by decide)
  exact h2

/-- An allocation without a type, such as a plain mapping, ends the program. -/
theorem inner_untyped_fails (env : Env) (precise : Nat → Option (Nat → Nat → Nat → Nat)) (fuel start sz obj skip : Nat) :
    getInner env precise fuel (.ok start sz 0) obj skip = .crash := rfl

/-! ## C90: allocations typed as flexible arrays -/

/-- `mk` gives the array types of element type `e`. -/
def Arrays (env : Env) (e : Nat) (mk : Nat → Nat) : Prop := ∀ len, mk len ≠ 0 ∧ env (mk len) = .arr (len * size env e) e len

theorem flex_len {esz start sz t : Nat} (mk : Nat → Nat) (ht : t ≤ sz) (hsz : sz < 2 ^ 64) (hl : (sz - t) / esz < 2 ^ 31 - 1) :
    flexPrecise esz mk (start + t) start sz = mk ((sz - t) / esz) := by
  unfold flexPrecise
  have h1 : (start + sz + 2 ^ 64 - (start + t)) % 2 ^ 64 = sz - t := by omega
  simp only
  rw [h1, Nat.mod_eq_of_lt (by omega), if_pos hl]

/-- From 2^31 - 1 elements on the query ends the program instead. -/
theorem flex_long_fails {esz start sz t : Nat} (mk : Nat → Nat) (ht : t ≤ sz) (hsz : sz < 2 ^ 64) (h1 : 2 ^ 31 - 1 ≤ (sz - t) / esz)
    (h2 : (sz - t) / esz < 2 ^ 32) (env : Env) (precise : Nat → Option (Nat → Nat → Nat → Nat)) (fuel u skip : Nat) (hu : u ≠ 0)
    (hp : precise u = some (flexPrecise esz mk)) : getInner env precise fuel (.ok start sz u) (start + t) skip = .crash := by
  have h : flexPrecise esz mk (start + t) start sz = 0 := by
    unfold flexPrecise
    have h1 : (start + sz + 2 ^ 64 - (start + t)) % 2 ^ 64 = sz - t := by omega
    simp only
    rw [h1, Nat.mod_eq_of_lt h2, if_neg (by omega)]
  unfold getInner
  simp only [hp, h]
  simp [hu]

/-- And from 2^32 elements on the length is cut to 32 bits: of 2^32 one-byte elements none is left. -/
theorem flex_wrap_fails (mk : Nat → Nat) : flexPrecise 1 mk 4096 4096 (2 ^ 32) = mk 0 := by
  unfold flexPrecise; simp

/-- What the query answers in an allocation typed as a flexible array, exactly: with at least as many whole elements from the address to
the end as before it, plus one, what there is in the element at the address; otherwise an array type. -/
theorem flex_answer {env : Env} {e : Nat} {mk : Nat → Nat} (ha : Arrays env e mk) (he : 0 < size env e)
    {precise : Nat → Option (Nat → Nat → Nat → Nat)} {fuel start sz u t skip : Nat} (hu : u ≠ 0) (hp : precise u = some (flexPrecise (size env e) mk))
    (ht : t < sz) (hsz : sz < 2 ^ 32) (hl : (sz - t) / size env e < 2 ^ 31 - 1) :
    getInner env precise (fuel + 1) (.ok start sz u) (start + t) skip =
      if t / size env e < (sz - t) / size env e then
        match descend env fuel e (t % size env e) (mk ((sz - t) / size env e)) with
        | none => .crash
        | some (v, _, c) => .ret (if skip = 0 then v else if skip = 1 then c else 0)
      else .ret (if skip = 0 then mk ((sz - t) / size env e) else 0) := by
  obtain ⟨h0, hm⟩ := ha ((sz - t) / size env e)
  have hne : size env e ≠ 0 := Nat.pos_iff_ne_zero.mp he
  unfold getInner
  simp only [hu, if_false, hp, flex_len mk (Nat.le_of_lt ht) (show sz < 2 ^ 64 by omega) hl, h0, Nat.add_sub_cancel_left, Nat.mod_eq_of_lt (show t < 2 ^ 32 by omega)]
  rw [descend]
  unfold first
  rw [hm]
  by_cases hc : t / size env e < (sz - t) / size env e
  · simp only [hne, ne_eq, not_false_iff, true_and, gt_iff_lt, hc, if_true]
    cases descend env fuel e (t % size env e) (mk ((sz - t) / size env e)) <;> rfl
  · simp only [hne, ne_eq, not_false_iff, true_and, gt_iff_lt, hc, if_false]
    by_cases hs : skip = 0
    · simp [hs]
    · by_cases hs' : skip = 1 <;> simp [hs, hs']

/-- **C90 (partial).** In the first half of an allocation typed as a flexible array, the query finds the innermost type: the one
innermost subobject of the element that contains the address. Partial: only where at least as many whole elements lie from the address to the end
as end by it, plus one. -/
theorem flex_inner_partial {env : Env} (hwf : WF env) (hf : Fits env) (hdj : Disjoint env) (hg : NoGap env) (hso : Solid env)
    {e : Nat} {mk : Nat → Nat} (ha : Arrays env e mk) (he : 0 < size env e)
    {precise : Nat → Option (Nat → Nat → Nat → Nat)} {fuel start sz u t : Nat} (hu : u ≠ 0) (hp : precise u = some (flexPrecise (size env e) mk))
    (ht : t < sz) (hsz : sz < 2 ^ 32) (hl : (sz - t) / size env e < 2 ^ 31 - 1) (hfu : e < fuel) (hhalf : t / size env e < (sz - t) / size env e) :
    ∃ v t' c, (∀ skip, getInner env precise (fuel + 1) (.ok start sz u) (start + t) skip = .ret (if skip = 0 then v else if skip = 1 then c else 0)) ∧
      ∀ v2 t2 c2, (Down env e (t % size env e) (mk ((sz - t) / size env e)) v2 t2 c2 ∧ Bottom env v2 t2) ↔ (v2 = v ∧ t2 = t' ∧ c2 = c) := by
  obtain ⟨v, t', c, h1, hb, hd⟩ := descend_spec hwf hf fuel e (t % size env e) (mk ((sz - t) / size env e)) hfu
  have hi := descend_inside hwf hdj hg hso fuel e _ _ v t' c (Nat.mod_lt _ he) h1
  refine ⟨v, t', c, ?_, ?_⟩
  · intro skip
    rw [flex_answer ha he hu hp ht hsz hl, if_pos hhalf, h1]
  · intro v2 t2 c2
    constructor
    · rintro ⟨h1, h2⟩
      exact down_unique hwf hdj e e (Nat.le_refl _) _ _ _ _ _ _ _ _ h1 h2 (hd hi).2 hb
    · rintro ⟨rfl, rfl, rfl⟩
      exact ⟨(hd hi).2, hb⟩

/-- **C90 fails** in the second half of every such allocation: the query answers an array type, not the element's or anything in
it, and, asked for what is directly around the innermost object, null. -/
theorem flex_inner_fails {env : Env} {e : Nat} {mk : Nat → Nat} (ha : Arrays env e mk) (he : 0 < size env e)
    {precise : Nat → Option (Nat → Nat → Nat → Nat)} {fuel start sz u t : Nat} (hu : u ≠ 0) (hp : precise u = some (flexPrecise (size env e) mk))
    (ht : t < sz) (hsz : sz < 2 ^ 32) (hl : (sz - t) / size env e < 2 ^ 31 - 1) (hhalf : sz ≤ 2 * t) :
    (∃ len, getInner env precise (fuel + 1) (.ok start sz u) (start + t) 0 = .ret (mk len)) ∧
      getInner env precise (fuel + 1) (.ok start sz u) (start + t) 1 = .ret 0 := by
  have h : ¬ t / size env e < (sz - t) / size env e := by
    have := Nat.div_le_div_right (c := size env e) (show sz - t ≤ t by omega)
    omega
  refine ⟨⟨(sz - t) / size env e, ?_⟩, ?_⟩ <;> rw [flex_answer ha he hu hp ht hsz hl, if_neg h]
  · rfl
  · rfl

/-- 1: a 4-byte type, 2: a pair of it, 3: flexible array of pairs, 10 + n: array of n pairs. -/
def flexEnv : Env := fun n =>
  if n = 1 then .other 4 else if n = 2 then .comp 8 [(0, 1), (4, 1)] else if 10 ≤ n then .arr ((n - 10) * 8) 2 (n - 10) else .other 0

theorem flexEnv_arrays : Arrays flexEnv 2 (· + 10) := by
  intro len
  refine ⟨by simp, ?_⟩
  show flexEnv (len + 10) = .arr (len * 8) 2 len
  unfold flexEnv
  rw [if_neg (by omega), if_neg (by omega), if_pos (by omega), Nat.add_sub_cancel]

/-- Four pairs at 1000: the second member of the second pair is found, that of the fourth is not. -/
example : getInner flexEnv (fun u => if u = 3 then some (flexPrecise 8 (· + 10)) else none) 20 (.ok 1000 32 3) 1012 0 = .ret 1 ∧
    getInner flexEnv (fun u => if u = 3 then some (flexPrecise 8 (· + 10)) else none) 20 (.ok 1000 32 3) 1012 1 = .ret 2 ∧
    getInner flexEnv (fun u => if u = 3 then some (flexPrecise 8 (· + 10)) else none) 20 (.ok 1000 32 3) 1028 0 = .ret 10 := by decide +kernel

end Liballocs.InnerType
