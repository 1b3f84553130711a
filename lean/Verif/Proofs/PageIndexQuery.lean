import Verif.Proofs.PageIndexSplit
/-!
# Queries on the forest: nearest mappings, roots, lookups by allocator, common ancestors
-/
namespace Liballocs.PageIndex

open Fill

/-! ## Nearest top-level mappings -/

/-- `r` is the lowest top-level big allocation ending above the address, 0 if there is none. -/
def NextTop (s : State) (addr r : Nat) : Prop :=
  (r = 0 ∧ ∀ n, Live s n → s.par n = 0 → s.fin n ≤ addr) ∨
  (Live s r ∧ s.par r = 0 ∧ addr < s.fin r ∧ ∀ n, Live s n → s.par n = 0 → addr < s.fin n → s.beg r ≤ s.beg n)

/-- `r` is the highest top-level big allocation beginning below the address, 0 if there is none. -/
def PrevTop (s : State) (addr r : Nat) : Prop :=
  (r = 0 ∧ ∀ n, Live s n → s.par n = 0 → addr ≤ s.beg n) ∨
  (Live s r ∧ s.par r = 0 ∧ s.beg r < addr ∧ ∀ n, Live s n → s.par n = 0 → s.beg n < addr → s.fin n ≤ s.fin r)

/-- `r` is the highest top-level big allocation ending at or below the address, 0 if there is none. -/
def BelowTop (s : State) (addr r : Nat) : Prop :=
  (r = 0 ∧ ∀ n, Live s n → s.par n = 0 → addr < s.fin n) ∨
  (Live s r ∧ s.par r = 0 ∧ s.fin r ≤ addr ∧ ∀ n, Live s n → s.par n = 0 → s.fin n ≤ addr → s.fin n ≤ s.fin r)

namespace Inv

variable {c : Config} {s : State} {kids : Nat → List Nat} {rank : Nat → Nat} (h : Inv c s kids rank)
include h

theorem tops {x : Nat} (hx : x ∈ kids 0) : Live s x ∧ s.par x = 0 ∧ s.beg x < s.fin x :=
  ⟨((h.mem _ _).mp hx).1, ((h.mem _ _).mp hx).2, h.pos x ((h.mem _ _).mp hx).1⟩

theorem lowestGe_next (addr : Nat) : ∃ r, lowestGe c s addr = some r ∧ NextTop s addr r := by
  obtain ⟨A, B, e, hA, hB⟩ := cut_list (P := fun x => addr < s.fin x) (kids 0) (by
    apply List.Pairwise.imp_of_mem _ h.sorted
    intro x y hx hy hxy hlt
    have := h.tops hy
    omega)
  have ht := h.topList
  rw [e] at ht
  refine ⟨hd B 0, lowestGe_spec ht (fun x hx => by have := hA x hx; omega) hB, ?_⟩
  have hmem : ∀ n, Live s n → s.par n = 0 → n ∈ A ∨ n ∈ B := by
    intro n hn hp
    have := (h.mem n 0).mpr ⟨hn, hp⟩
    rw [e] at this
    exact List.mem_append.mp this
  cases B with
  | nil =>
    left
    refine ⟨rfl, ?_⟩
    intro n hn hp
    rcases hmem n hn hp with hm | hm
    · have := hA n hm; omega
    · simp at hm
  | cons y B =>
    right
    have hy : y ∈ kids 0 := by rw [e]; simp
    obtain ⟨h1, h2, h3⟩ := h.tops hy
    refine ⟨h1, h2, hB y List.mem_cons_self, ?_⟩
    intro n hn hp hlt
    show s.beg y ≤ s.beg n
    rcases hmem n hn hp with hm | hm
    · have := hA n hm; omega
    · rcases List.mem_cons.mp hm with rfl | hm
      · omega
      · have hs := h.sorted
        rw [e, List.pairwise_append] at hs
        have := (List.pairwise_cons.mp hs.2.1).1 n hm
        omega

theorem highestLt_prev (addr : Nat) : ∃ r, highestLt c s addr = some r ∧ PrevTop s addr r := by
  obtain ⟨A, B, e, hA, hB⟩ := cut_list (P := fun x => addr ≤ s.beg x) (kids 0) (by
    apply List.Pairwise.imp_of_mem _ h.sorted
    intro x y hx hy hxy hlt
    have := h.tops hx
    omega)
  have ht := h.topList
  rw [e] at ht
  refine ⟨lst 0 A, highestLt_spec ht (fun x hx => by have := hA x hx; omega) hB, ?_⟩
  have hmem : ∀ n, Live s n → s.par n = 0 → n ∈ A ∨ n ∈ B := by
    intro n hn hp
    have := (h.mem n 0).mpr ⟨hn, hp⟩
    rw [e] at this
    exact List.mem_append.mp this
  rcases List.eq_nil_or_concat A with rfl | ⟨A', y, hAy⟩
  · left
    refine ⟨rfl, ?_⟩
    intro n hn hp
    rcases hmem n hn hp with hm | hm
    · simp at hm
    · exact hB n hm
  · right
    rw [List.concat_eq_append] at hAy
    subst hAy
    have el : lst 0 (A' ++ [y]) = y := by rw [lst_append]; rfl
    have hy : y ∈ kids 0 := by rw [e]; simp
    obtain ⟨h1, h2, h3⟩ := h.tops hy
    rw [el]
    refine ⟨h1, h2, by have := hA y (by simp); omega, ?_⟩
    intro n hn hp hlt
    rcases hmem n hn hp with hm | hm
    · rcases List.mem_append.mp hm with hm | hm
      · have hs := h.sorted
        rw [e, List.append_assoc, List.pairwise_append] at hs
        have := hs.2.2 n hm y (by simp)
        omega
      · simp only [List.mem_singleton] at hm
        subst hm; omega
    · have := hB n hm; omega

/-- The query for the mapping at or above an address, if something begins below the address or nothing ends above it. -/
theorem atOrAbove_next {addr : Nat} (hb : (∃ n, Live s n ∧ s.par n = 0 ∧ s.beg n < addr) ∨ ∀ n, Live s n → s.par n = 0 → s.fin n ≤ addr) :
    ∃ r, mappingAtOrAbove c s addr = some r ∧ NextTop s addr r := by
  obtain ⟨p, e1, hp⟩ := h.highestLt_prev addr
  unfold mappingAtOrAbove
  rw [e1]
  rcases hp with ⟨rfl, hno⟩ | ⟨h1, h2, h3, h4⟩
  · simp only [if_true]
    refine ⟨0, rfl, Or.inl ⟨rfl, ?_⟩⟩
    rcases hb with ⟨n, hn, hn0, hlt⟩ | hall
    · have := hno n hn hn0; omega
    · exact hall
  · simp only [h.ne0 h1, if_false]
    by_cases hf : s.fin p ≤ addr
    · rw [if_pos hf]; exact h.lowestGe_next addr
    · rw [if_neg hf]
      refine ⟨p, rfl, Or.inr ⟨h1, h2, by omega, ?_⟩⟩
      intro n hn hn0 hlt
      by_cases e : n = p
      · subst e; omega
      · have := h.disj n p hn h1 (by rw [hn0, h2]) e
        have := h.pos n hn
        omega

/-- Whatever the query finds is right. -/
theorem atOrAbove_sound (addr : Nat) : ∃ r, mappingAtOrAbove c s addr = some r ∧ (r ≠ 0 → NextTop s addr r) := by
  obtain ⟨p, e1, hp⟩ := h.highestLt_prev addr
  rcases hp with ⟨rfl, hno⟩ | ⟨h1, h2, h3, _⟩
  · refine ⟨0, ?_, fun e => absurd rfl e⟩
    unfold mappingAtOrAbove
    rw [e1]
    simp
  · obtain ⟨r, e, hr⟩ := h.atOrAbove_next (Or.inl ⟨p, h1, h2, h3⟩)
    exact ⟨r, e, fun _ => hr⟩

/-- The query for the mapping below an address. -/
theorem below_prev (addr : Nat) : ∃ r, mappingBelow c s addr = some r ∧ BelowTop s addr r := by
  obtain ⟨p, e1, hp⟩ := h.highestLt_prev addr
  unfold mappingBelow
  rw [e1]
  rcases hp with ⟨rfl, hno⟩ | ⟨h1, h2, h3, h4⟩
  · simp only [if_true]
    refine ⟨0, rfl, Or.inl ⟨rfl, ?_⟩⟩
    intro n hn hn0
    have := hno n hn hn0
    have := h.pos n hn
    omega
  · simp only [h.ne0 h1, if_false]
    by_cases hf : addr < s.fin p
    · rw [if_pos hf]
      obtain ⟨r, e2, hr⟩ := h.highestLt_prev (s.beg p)
      refine ⟨r, e2, ?_⟩
      have hbefore : ∀ n, Live s n → s.par n = 0 → s.fin n ≤ addr → s.beg n < s.beg p := by
        intro n hn hn0 hle
        have := h.pos n hn
        by_cases e : n = p
        · subst e; omega
        · have := h.disj n p hn h1 (by rw [hn0, h2]) e
          omega
      rcases hr with ⟨rfl, hno⟩ | ⟨r1, r2, r3, r4⟩
      · left
        refine ⟨rfl, ?_⟩
        intro n hn hn0
        by_cases hle : s.fin n ≤ addr
        · have := hbefore n hn hn0 hle
          have := hno n hn hn0
          omega
        · omega
      · right
        refine ⟨r1, r2, ?_, ?_⟩
        · have hrp : r ≠ p := fun e => by subst e; omega
          have := h.disj r p r1 h1 (by rw [r2, h2]) hrp
          have := h.pos r r1
          have := h.pos p h1
          omega
        · intro n hn hn0 hle
          exact r4 n hn hn0 (hbefore n hn hn0 hle)
    · rw [if_neg hf]
      refine ⟨p, rfl, Or.inr ⟨h1, h2, by omega, ?_⟩⟩
      intro n hn hn0 hle
      have := h.pos n hn
      exact h4 n hn hn0 (by omega)

end Inv

/-! ## Depths and roots -/

/-- Number of big allocations from this one to the top. -/
inductive Depth (s : State) : Nat → Nat → Prop
  | null : Depth s 0 0
  | node {n d : Nat} : n ≠ 0 → Depth s (s.par n) d → Depth s n (d + 1)

theorem Depth.unique {s : State} {n d1 : Nat} (h1 : Depth s n d1) : ∀ {d2}, Depth s n d2 → d1 = d2 := by
  induction h1 with
  | null => intro d2 h2; cases h2 with
    | null => rfl
    | node h0 _ => exact absurd rfl h0
  | node h0 _ ih => intro d2 h2; cases h2 with
    | null => exact absurd rfl h0
    | node _ h2 => rw [ih h2]

theorem Depth.pos {s : State} {n d : Nat} (h : Depth s n d) (hn : n ≠ 0) : 0 < d := by
  cases h with
  | null => exact absurd rfl hn
  | node => omega

theorem Depth.zero {s : State} {n : Nat} (h : Depth s n 0) : n = 0 := by
  cases h; rfl

theorem Depth.par {s : State} {n d : Nat} (h : Depth s n (d + 1)) : n ≠ 0 ∧ Depth s (s.par n) d := by
  cases h with
  | node h0 h => exact ⟨h0, h⟩

namespace Links

variable {c : Config} {s : State} {kids : Nat → List Nat} {rank : Nat → Nat} (h : Links c s kids rank)
include h

theorem exists_depth {n : Nat} (hl : Live s n) : ∃ d l, Depth s n d ∧ Path s n l ∧ d = l.length ∧ d < c.nb := by
  have : ∃ d l, Depth s n d ∧ Path s n l ∧ d = l.length := by
    induction hk : rank n using Nat.strongRecOn generalizing n with
    | ind k ih =>
      by_cases hp : s.par n = 0
      · exact ⟨1, [n], Depth.node (h.ne0 hl) (by rw [hp]; exact Depth.null), Path.top, rfl⟩
      · have := h.rank n hl hp
        obtain ⟨d, l, h1, h2, h3⟩ := ih _ (by omega) (h.parLive _ hl hp) rfl
        exact ⟨d + 1, n :: l, Depth.node (h.ne0 hl) h1, Path.step hp h2, by simp [h3]⟩
  obtain ⟨d, l, h1, h2, h3⟩ := this
  exact ⟨d, l, h1, h2, h3, h3 ▸ h.path_length h2 hl⟩

omit h in
theorem depthOf_spec {n d : Nat} (hd : Depth s n d) : ∀ f, d < f → depthOf s f n = some d := by
  induction hd with
  | null =>
    intro f hf
    cases f with
    | zero => omega
    | succ f => simp [depthOf]
  | node h0 _ ih =>
    intro f hf
    cases f with
    | zero => omega
    | succ f => rw [depthOf, if_neg h0, ih f (by omega)]; rfl

/-- Climbing reaches the root. -/
theorem climb_spec {n d : Nat} (hd : Depth s n d) : ∀ f, d ≤ f → Live s n → ∃ r, climb s f n = some r ∧ Live s r ∧ s.par r = 0 ∧ Anc s r n := by
  induction hd with
  | null => intro f _ hl; exact absurd rfl (h.ne0 hl)
  | @node n d h0 _ ih =>
    intro f hf hl
    cases f with
    | zero => omega
    | succ f =>
      rw [climb]
      by_cases hp : s.par n = 0
      · rw [if_pos hp]; exact ⟨n, rfl, hl, hp, Anc.refl⟩
      · rw [if_neg hp]
        obtain ⟨r, h1, h2, h3, h4⟩ := ih f (by omega) (h.parLive n hl hp)
        exact ⟨r, h1, h2, h3, Anc.step hp h4⟩

theorem climb_live {n : Nat} (hl : Live s n) : ∃ r, climb s (c.nb + 1) n = some r ∧ Live s r ∧ s.par r = 0 ∧ Anc s r n := by
  obtain ⟨d, _, h1, _, _, h2⟩ := h.exists_depth hl
  exact h.climb_spec h1 (c.nb + 1) (by omega) hl

theorem anc_depth {x n dx dn : Nat} (ha : Anc s x n) (hx : Depth s x dx) (hn : Depth s n dn) : dx ≤ dn ∧ (dx = dn → x = n) := by
  induction ha generalizing dn with
  | refl => have := hx.unique hn; exact ⟨by omega, fun _ => rfl⟩
  | step hp _ ih =>
    cases hn with
    | null => exact absurd h.zero.2.2.1 hp
    | node h0 hn => have := (ih hn).1; exact ⟨by omega, fun e => by omega⟩

/-! ## Common ancestors -/

/-- `r` is the nearest common ancestor. -/
def Nearest (s : State) (b1 b2 r : Nat) : Prop :=
  Anc s r b1 ∧ Anc s r b2 ∧ ∀ x, Anc s x b1 → Anc s x b2 → Anc s x r

omit h in
theorem common_self (s : State) (f b d1 d2 : Nat) : commonRec s (f + 1) b d1 b d2 = some b := by
  rw [commonRec, if_pos rfl]

/-- When the first is deeper, the second is never moved. -/
theorem common_first : ∀ (d2 f b1 d1 b2 : Nat), d2 < f → d2 < d1 → Depth s b1 d1 → Live s b1 →
    ∃ r, commonRec s f b1 d1 b2 d2 = some r ∧ (r = 0 ∨ (r = b2 ∧ Anc s b2 b1)) ∧
      ∀ D2, Depth s b2 D2 → Anc s b2 b1 → d1 ≤ D2 + d2 → r = b2 := by
  intro d2
  induction d2 with
  | zero =>
    intro f b1 d1 b2 hf hlt hd hl
    cases f with
    | zero => omega
    | succ f =>
      by_cases e : b1 = b2
      · subst e
        exact ⟨b1, common_self s f b1 d1 0, Or.inr ⟨rfl, Anc.refl⟩, fun _ _ _ _ => rfl⟩
      · refine ⟨0, by rw [commonRec, if_neg e, if_pos (Or.inr rfl)], Or.inl rfl, ?_⟩
        intro D2 hD ha hle
        have := h.anc_depth ha hD hd
        exact absurd (this.2 (by omega)).symm e
  | succ d2 ih =>
    intro f b1 d1 b2 hf hlt hd hl
    cases f with
    | zero => omega
    | succ f =>
      by_cases e : b1 = b2
      · subst e
        exact ⟨b1, common_self s f b1 d1 _, Or.inr ⟨rfl, Anc.refl⟩, fun _ _ _ _ => rfl⟩
      · obtain ⟨k, rfl⟩ : ∃ k, d1 = k + 1 := ⟨d1 - 1, by omega⟩
        obtain ⟨_, hd'⟩ := hd.par
        have hp0 : s.par b1 ≠ 0 := by
          intro e'
          rw [e'] at hd'
          have := hd'.unique Depth.null
          omega
        rw [commonRec, if_neg e, if_neg (by omega), if_pos (by omega)]
        obtain ⟨r, h1, h2, h3⟩ := ih f (s.par b1) k b2 (by omega) (by omega) hd' (h.parLive b1 hl hp0)
        refine ⟨r, h1, ?_, ?_⟩
        · rcases h2 with h2 | ⟨h2, h4⟩
          · exact Or.inl h2
          · exact Or.inr ⟨h2, Anc.step hp0 h4⟩
        · intro D2 hD ha hle
          apply h3 D2 hD
          · cases ha with
            | refl => exact absurd rfl e
            | step _ ha => exact ha
          · omega

/-- When the second is at least as deep, it is moved up until it is less deep than the first. -/
theorem common_second {b1 d1 : Nat} (hd1 : Depth s b1 d1) (hl1 : Live s b1) : ∀ (d2 f b2 : Nat), 2 * d2 < f → d1 ≤ d2 → Depth s b2 d2 → Live s b2 →
    ∃ r, commonRec s f b1 d1 b2 d2 = some r ∧ (r = 0 ∨ Nearest s b1 b2 r) ∧
      ((Anc s b1 b2 → r = b1) ∧ (¬ Anc s b1 b2 → Anc s (s.par b1) b2 → r = s.par b1)) := by
  intro d2
  have h10 := h.ne0 hl1
  induction d2 with
  | zero =>
    intro f b2 hf hle hd hl
    have := hd1.pos h10
    omega
  | succ d2 ih =>
    intro f b2 hf hle hd hl
    cases f with
    | zero => omega
    | succ f =>
      by_cases e : b1 = b2
      · subst e
        exact ⟨b1, common_self s f b1 d1 _, Or.inr ⟨Anc.refl, Anc.refl, fun x h1 _ => h1⟩, fun _ => rfl, fun hn => absurd Anc.refl hn⟩
      · have hpos := hd1.pos h10
        obtain ⟨h20, hd'⟩ := hd.par
        rw [commonRec, if_neg e, if_neg (by omega), if_neg (by omega)]
        have hup : ∀ x, Anc s x b1 → Anc s x b2 → s.par b2 ≠ 0 ∧ Anc s x (s.par b2) := by
          intro x hx1 hx2
          cases hx2 with
          | refl =>
            obtain ⟨h3, h4⟩ := h.anc_depth hx1 hd hd1
            exact absurd (h4 (by omega)).symm e
          | step hp ha => exact ⟨hp, ha⟩
        have hback : ∀ x, s.par b2 ≠ 0 → Anc s x (s.par b2) → Anc s x b2 := fun x hp ha => Anc.step hp ha
        by_cases hd12 : d1 ≤ d2
        · have hp0 : s.par b2 ≠ 0 := by
            intro e'
            rw [e'] at hd'
            have := hd'.unique Depth.null
            omega
          obtain ⟨r, h1, h2, h3, h4⟩ := ih f (s.par b2) (by omega) hd12 hd' (h.parLive b2 hl hp0)
          refine ⟨r, h1, ?_, ?_, ?_⟩
          · rcases h2 with h2 | ⟨h5, h6, h7⟩
            · exact Or.inl h2
            · exact Or.inr ⟨h5, hback r hp0 h6, fun x hx1 hx2 => h7 x hx1 (hup x hx1 hx2).2⟩
          · intro ha; exact h3 (hup b1 Anc.refl ha).2
          · intro hna hpa
            apply h4 (fun ha => hna (hback b1 hp0 ha))
            cases hpa with
            | refl =>
              -- `b2` would be the parent of `b1`
              exfalso
              have h5 := hd1.unique (Depth.node h10 hd)
              omega
            | step _ ha => exact ha
        · have e1 : d1 = d2 + 1 := by omega
          obtain ⟨g, rfl⟩ : ∃ g, f = g + 1 := ⟨f - 1, by omega⟩
          have hno : ¬ Anc s b1 b2 := by
            intro ha
            exact e ((h.anc_depth ha hd1 hd).2 e1)
          by_cases hz : d2 = 0
          · subst hz
            have hb2 : s.par b2 = 0 := hd'.zero
            have hb1 : s.par b1 = 0 := by
              subst e1
              exact hd1.par.2.zero
            refine ⟨0, ?_, Or.inl rfl, fun ha => absurd ha hno, fun _ _ => hb1.symm⟩
            rw [hb2, commonRec, if_neg h10, if_pos (Or.inr rfl)]
          · have hp0 : s.par b2 ≠ 0 := by
              intro e'
              rw [e'] at hd'
              have := hd'.unique Depth.null
              omega
            obtain ⟨r, h1, h2, h3⟩ := h.common_first d2 (g + 1) b1 d1 (s.par b2) (by omega) (by omega) hd1 hl1
            refine ⟨r, h1, ?_, fun ha => absurd ha hno, ?_⟩
            · rcases h2 with h2 | ⟨rfl, h4⟩
              · exact Or.inl h2
              · exact Or.inr ⟨h4, Anc.step hp0 Anc.refl, fun x hx1 hx2 => (hup x hx1 hx2).2⟩
            · intro _ hpa
              subst e1
              have hpd := hd1.par.2
              cases hpa with
              | refl => have := hpd.unique hd; omega
              | step _ ha =>
                have h5 := (h.anc_depth ha hpd hd').2 rfl
                rw [h5]
                apply h3 d2 hd'
                · have hp1 : s.par b1 ≠ 0 := by rw [h5]; exact hp0
                  rw [← h5]
                  exact Anc.step hp1 Anc.refl
                · omega

/-- The common-parent query: what it finds is the nearest common ancestor; and it finds it in the cases shown. -/
theorem commonParent_spec {b1 b2 d1 d2 : Nat} (hl1 : Live s b1) (hl2 : Live s b2) (hd1 : Depth s b1 d1) (hd2 : Depth s b2 d2) :
    ∃ r, commonParent c s b1 b2 = some r ∧ (r = 0 ∨ Nearest s b1 b2 r) ∧
      (Anc s b1 b2 → r = b1) ∧ (d1 ≤ d2 → ¬ Anc s b1 b2 → Anc s (s.par b1) b2 → r = s.par b1) ∧
      (Anc s b2 b1 → d1 ≤ 2 * d2 → r = b2) := by
  obtain ⟨e1, _, h1, _, _, h1b⟩ := h.exists_depth hl1
  obtain ⟨e2, _, h2, _, _, h2b⟩ := h.exists_depth hl2
  obtain rfl := h1.unique hd1
  obtain rfl := h2.unique hd2
  unfold commonParent
  rw [depthOf_spec hd1 _ (by omega), depthOf_spec hd2 _ (by omega)]
  simp only
  by_cases hle : e1 ≤ e2
  · obtain ⟨r, h3, h4, h5, h6⟩ := h.common_second hd1 hl1 e2 (2 * c.nb + 1) b2 (by omega) hle hd2 hl2
    refine ⟨r, h3, h4, h5, fun _ => h6, ?_⟩
    intro ha _
    have := h.anc_depth ha hd2 hd1
    have e := this.2 (by omega)
    subst e
    exact h5 Anc.refl
  · obtain ⟨r, h3, h4, h5⟩ := h.common_first e2 (2 * c.nb + 1) b1 e1 b2 (by omega) (by omega) hd1 hl1
    refine ⟨r, h3, ?_, ?_, fun hh => absurd hh hle, ?_⟩
    · rcases h4 with h4 | ⟨rfl, h6⟩
      · exact Or.inl h4
      · exact Or.inr ⟨h6, Anc.refl, fun x _ hx => hx⟩
    · intro ha
      have := (h.anc_depth ha hd1 hd2).1
      omega
    · intro ha hle2
      exact h5 e2 hd2 ha (by omega)

end Links

/-! ## Lookups by allocator -/

namespace Inv

variable {c : Config} {s : State} {kids : Nat → List Nat} {rank : Nat → Nat} (h : Inv c s kids rank)
include h

/-- The outermost big allocation at or below `n` that contains the address and has the given allocator, 0 if there is none. -/
def Outermost (s : State) (addr a : Nat) (bySub : Bool) (n r : Nat) : Prop :=
  (r = 0 ∧ ∀ x, Live s x → Has s x addr → Anc s n x → who s bySub x ≠ a) ∨
  (Live s r ∧ Has s r addr ∧ Anc s n r ∧ who s bySub r = a ∧ ∀ x, Live s x → Has s x addr → Anc s n x → who s bySub x = a → Anc s r x)

theorem findUnder_spec (addr a : Nat) (bySub : Bool) : ∀ (f n : Nat) (l : List Nat), Live s n → Has s n addr → Path s n l → c.nb ≤ f + l.length →
    ∃ r, findUnder c s addr a bySub f n = some r ∧ Outermost s addr a bySub n r := by
  intro f
  induction f with
  | zero =>
    intro n l hl _ hp hf
    have := h.path_length hp hl
    omega
  | succ f ih =>
    intro n l hl ha hp hf
    have hn0 := h.ne0 hl
    rw [findUnder]
    by_cases hw : who s bySub n = a
    · rw [if_pos hw]
      exact ⟨n, rfl, Or.inr ⟨hl, ha, Anc.refl, hw, fun x _ _ hx _ => hx⟩⟩
    · rw [if_neg hw]
      rcases h.findKid_first addr n hl with ⟨h1, h2⟩ | ⟨k, hk, hkp, hka, h3⟩
      · rw [h1]
        refine ⟨0, by simp, Or.inl ⟨rfl, ?_⟩⟩
        intro x hx hxa hnx
        rcases anc_cases hnx with e | ⟨j, hj, _, hjx⟩
        · exact e ▸ hw
        · exact absurd (h.anc_has hjx hx hxa) (h2 j (h.anc_live hjx hx) hj)
      · rw [h3]
        simp only [h.ne0 hk, if_false]
        obtain ⟨r, h4, h5⟩ := ih k (k :: l) hk hka (path_cons hp hkp hn0) (by simp; omega)
        refine ⟨r, h4, ?_⟩
        have hnk : Anc s n k := Anc.step (by rw [hkp]; exact hn0) (hkp ▸ Anc.refl)
        have hdown : ∀ x, Live s x → Has s x addr → Anc s n x → who s bySub x = a → Anc s k x := by
          intro x hx hxa hnx hwx
          rcases anc_cases hnx with e | ⟨j, hj, _, hjx⟩
          · subst e; exact absurd hwx hw
          · have hjl := h.anc_live hjx hx
            have hja := h.anc_has hjx hx hxa
            by_cases e : j = k
            · exact e ▸ hjx
            · exact absurd (h.disj j k hjl hk (by rw [hj, hkp]) e) (fun hd => disj_of_has hd hja hka)
        rcases h5 with ⟨rfl, h6⟩ | ⟨h6, h7, h8, h9, h10⟩
        · left
          refine ⟨rfl, ?_⟩
          intro x hx hxa hnx hwx
          exact h6 x hx hxa (hdown x hx hxa hnx hwx) hwx
        · right
          exact ⟨h6, h7, hnk.trans h8, h9, fun x hx hxa hnx hwx => h10 x hx hxa (hdown x hx hxa hnx hwx) hwx⟩

/-- The lookup from the root finds the outermost container with the allocator. -/
theorem fromRoot_spec (addr a : Nat) (bySub : Bool) (ha : a ≠ 0) :
    ∃ r, fromRoot c s addr a bySub = some r ∧
      ((r = 0 ∧ ∀ x, Live s x → Has s x addr → who s bySub x ≠ a) ∨
       (Live s r ∧ Has s r addr ∧ who s bySub r = a ∧ ∀ x, Live s x → Has s x addr → who s bySub x = a → Anc s r x)) := by
  have ho := h.owner (pagenum addr)
  unfold fromRoot
  by_cases he : entry s (pagenum addr) = 0
  · rw [he] at ho ⊢
    have hno := h.no_has_of_unowned ho
    refine ⟨0, ?_, Or.inl ⟨rfl, fun x hx hxa => absurd hxa (hno x hx)⟩⟩
    have e1 : climb s (c.nb + 1) 0 = some 0 := by rw [climb, if_pos h.zero.2.2.1]
    have e2 : who s bySub 0 ≠ a := by
      unfold who
      cases bySub
      · simp only [Bool.false_eq_true, if_false, h.zero.2.2.2.1]; exact Ne.symm ha
      · simp only [if_true, h.zero.2.2.2.2]; exact Ne.symm ha
    rw [e1, Option.bind_some, findUnder, if_neg e2, h.zero.2.1]
    simp [findKid]
  · rcases ho with ⟨h0, _⟩ | ⟨_, hl, hcov, _⟩
    · exact absurd h0 he
    · have hao := covers_has hcov rfl
      obtain ⟨r0, e1, hr, hr0, hra⟩ := h.climb_live hl
      have hrh := h.anc_has hra hl hao
      obtain ⟨r, e2, h2⟩ := h.findUnder_spec addr a bySub (c.nb + 1) r0 [r0] hr hrh Path.top (by simp; omega)
      rw [e1, Option.bind_some]
      have hall : ∀ x, Live s x → Has s x addr → Anc s r0 x := by
        intro x hx hxa
        rcases h.laminar hr hx hrh hxa with e | e
        · exact e
        · cases e with
          | refl => exact Anc.refl
          | step hp _ => exact absurd hr0 hp
      refine ⟨r, e2, ?_⟩
      rcases h2 with ⟨rfl, h3⟩ | ⟨h3, h4, _, h5, h6⟩
      · left; exact ⟨rfl, fun x hx hxa => h3 x hx hxa (hall x hx hxa)⟩
      · right; exact ⟨h3, h4, h5, fun x hx hxa hw => h6 x hx hxa (hall x hx hxa) hw⟩

/-- The lookup of the top-level big allocation. -/
theorem topLevel_spec (addr : Nat) :
    ∃ r, topLevel c s addr = some r ∧
      ((r = 0 ∧ ∀ x, Live s x → ¬ Has s x addr) ∨ (Live s r ∧ s.par r = 0 ∧ Has s r addr)) := by
  have ho := h.owner (pagenum addr)
  unfold topLevel
  by_cases he : entry s (pagenum addr) = 0
  · rw [if_pos he]
    rw [he] at ho
    exact ⟨0, rfl, Or.inl ⟨rfl, h.no_has_of_unowned ho⟩⟩
  · rw [if_neg he]
    rcases ho with ⟨h0, _⟩ | ⟨_, hl, hcov, _⟩
    · exact absurd h0 he
    · obtain ⟨r0, e1, hr, hr0, hra⟩ := h.climb_live hl
      exact ⟨r0, e1, Or.inr ⟨hr, hr0, h.anc_has hra hl (covers_has hcov rfl)⟩⟩

omit h in
/-- The leaf search visits the whole child list; at most one child contains the address. -/
theorem lastKid_spec (addr : Nat) : ∀ (l : List Nat) (f p cur : Nat), 0 ∉ l → Seg s.next s.prev p l 0 → l.length < f →
    (∀ x y, x ∈ l → y ∈ l → Has s x addr → Has s y addr → x = y) →
    (lastKid s addr f cur (hd l 0) = some cur ∧ ∀ x ∈ l, ¬ Has s x addr) ∨
    (∃ k, k ∈ l ∧ Has s k addr ∧ lastKid s addr f cur (hd l 0) = some k)
  | [], f, p, cur, _, _, hf, _ => by
    cases f with
    | zero => simp at hf
    | succ f => left; simp [lastKid, hd]
  | x :: l, f, p, cur, h0, hs, hf, hu => by
    cases f with
    | zero => simp at hf
    | succ f =>
      obtain ⟨_, h2, h3⟩ := hs
      have hx0 : x ≠ 0 := fun e => h0 (by simp [e])
      have hh : hd (x :: l) 0 = x := rfl
      rw [hh]
      simp only [lastKid]
      rw [if_neg hx0, h2]
      have hu' : ∀ y z, y ∈ l → z ∈ l → Has s y addr → Has s z addr → y = z :=
        fun y z hy hz => hu y z (List.mem_cons_of_mem _ hy) (List.mem_cons_of_mem _ hz)
      by_cases hc : spans s x addr = true
      · have hxa : Has s x addr := by simpa [spans, Has] using hc
        rw [if_pos hc]
        right
        rcases lastKid_spec addr l f x x (fun e => h0 (List.mem_cons_of_mem _ e)) h3 (by simp at hf; omega) hu' with ⟨h4, _⟩ | ⟨k, h4, h5, h6⟩
        · exact ⟨x, List.mem_cons_self, hxa, h4⟩
        · exact ⟨k, List.mem_cons_of_mem _ h4, h5, h6⟩
      · have hxa : ¬ Has s x addr := by simpa [spans, Has] using hc
        rw [if_neg hc]
        rcases lastKid_spec addr l f x cur (fun e => h0 (List.mem_cons_of_mem _ e)) h3 (by simp at hf; omega) hu' with ⟨h4, h5⟩ | ⟨k, h4, h5, h6⟩
        · left
          refine ⟨h4, ?_⟩
          intro y hy
          rcases List.mem_cons.mp hy with rfl | hy
          · exact hxa
          · exact h5 y hy
        · right; exact ⟨k, List.mem_cons_of_mem _ h4, h5, h6⟩

theorem leafLoop_eq (addr : Nat) : ∀ (f n : Nat), Live s n → leafLoop c s addr f n = deepestFrom c s addr f n := by
  intro f
  induction f with
  | zero => intro n _; rfl
  | succ f ih =>
    intro n hn
    have hlen := h.kids_length n
    have huniq : ∀ x y, x ∈ kids n → y ∈ kids n → Has s x addr → Has s y addr → x = y := by
      intro x y hx hy hxa hya
      obtain ⟨h1, h2⟩ := (h.mem _ _).mp hx
      obtain ⟨h3, h4⟩ := (h.mem _ _).mp hy
      by_cases e : x = y
      · exact e
      · exact absurd (h.disj x y h1 h3 (by rw [h2, h4]) e) (fun hd => disj_of_has hd hxa hya)
    rw [leafLoop, deepestFrom, h.firstKid n hn]
    rcases lastKid_spec (s := s) addr (kids n) (c.nb + 1) 0 n (h.zero_not_mem n) (h.seg n) (by omega) huniq with ⟨h1, h2⟩ | ⟨k, h1, h2, h3⟩
    · rcases findKid_spec (s := s) addr (kids n) (c.nb + 1) 0 (h.zero_not_mem n) (h.seg n) (by omega) with ⟨h4, _⟩ | ⟨j, h4, h5, _⟩
      · rw [h1, h4]; simp
      · exact absurd h5 (h2 j h4)
    · rcases findKid_spec (s := s) addr (kids n) (c.nb + 1) 0 (h.zero_not_mem n) (h.seg n) (by omega) with ⟨_, h5⟩ | ⟨j, h4, h5, h6⟩
      · exact absurd h2 (h5 k h1)
      · obtain rfl := huniq j k h4 h1 h5 h2
        obtain ⟨h7, h8⟩ := (h.mem _ _).mp h1
        have hjn : j ≠ n := fun e => by subst e; exact h.par_ne h7 h8
        rw [h3, h6]
        simp only [hjn, if_false, h.ne0 h7]
        exact ih j h7

/-- The leaf search finds the deepest big allocation. -/
theorem leafBig_eq (addr : Nat) : leafBig c s addr = deepest c s addr := by
  unfold leafBig deepest
  by_cases he : entry s (pagenum addr) = 0
  · rw [if_pos he, if_pos he]
  · rw [if_neg he, if_neg he]
    rcases h.owner (pagenum addr) with ⟨h0, _⟩ | ⟨_, hl, _, _⟩
    · exact absurd h0 he
    · exact h.leafLoop_eq addr (c.nb + 1) _ hl

/-- The run-time sanity check never fires. -/
theorem sanity (b : Nat) : sanityOk s b = true := by
  unfold sanityOk
  by_cases hb : Live s b
  · have hu := live_iff.mpr hb
    have hpos := h.pos b hb
    have hown : ∀ q, entry s q = b → Covers s b q := by
      intro q e
      rcases h.owner q with ⟨e', _⟩ | ⟨_, _, hc, _⟩
      · exact absurd (e.symm.trans e') (h.ne0 hb)
      · rw [e] at hc; exact hc
    have hb1 := hb.1
    have e1 : entry s (pagenum (s.beg b - 1)) ≠ b := by
      intro e
      have := hown _ e
      unfold Covers pagenum PAGE at this
      omega
    have e2 : entry s (pagenum (s.fin b)) ≠ b := by
      intro e
      have := hown _ e
      unfold Covers pagenum PAGE at this
      omega
    have e3 : s.par b = 0 ∨ (s.beg (s.par b) ≤ s.beg b ∧ s.fin b ≤ s.fin (s.par b)) := by
      by_cases hp : s.par b = 0
      · exact Or.inl hp
      · exact Or.inr (h.nest b hb hp)
    have e4 : s.fin b ≠ s.beg b := by omega
    simp only [hu, Bool.not_true, Bool.false_or, Bool.and_eq_true, Bool.or_eq_true, bne_iff_ne, beq_iff_eq, decide_eq_true_eq, ne_eq]
    exact ⟨⟨⟨e4, e1⟩, e2⟩, e3⟩
  · have : inUse s b = false := by
      cases hu : inUse s b with
      | false => rfl
      | true => exact absurd (live_iff.mp hu) hb
    simp [this]

end Inv

end Liballocs.PageIndex
