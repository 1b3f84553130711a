import Verif.Proofs.PageIndexQuery
/-!
# Deletion of everything overlapping a range, and deletion by address
-/
namespace Liballocs.PageIndex

open Fill

theorem nodup_subset_length : ∀ {l m : List Nat}, l.Nodup → (∀ x ∈ l, x ∈ m) → l.length ≤ m.length
  | [], _, _, _ => by simp
  | x :: l, m, hn, hs => by
    have hxm := hs x List.mem_cons_self
    rw [List.nodup_cons] at hn
    have := nodup_subset_length (l := l) (m := m.erase x) hn.2 (by
      intro y hy
      have hyx : y ≠ x := fun e => hn.1 (e ▸ hy)
      exact (List.mem_erase_of_ne hyx).mpr (hs y (List.mem_cons_of_mem _ hy)))
    rw [List.length_erase_of_mem hxm] at this
    have := List.length_pos_of_mem hxm
    simp only [List.length_cons]
    omega

theorem skipZeros_spec (s : State) : ∀ k q, skipZeros s k q ≤ k ∧ (∀ j, j < skipZeros s k q → entry s (q + j) = 0) ∧
    (skipZeros s k q < k → entry s (q + skipZeros s k q) ≠ 0) := by
  intro k
  induction k with
  | zero => intro q; simp [skipZeros]
  | succ k ih =>
    intro q
    by_cases e : entry s q = 0
    · have hz : skipZeros s (k + 1) q = skipZeros s k (q + 1) + 1 := by rw [skipZeros, if_pos e]
      obtain ⟨h1, h2, h3⟩ := ih (q + 1)
      rw [hz]
      refine ⟨by omega, ?_, ?_⟩
      · intro j hj
        cases j with
        | zero => exact e
        | succ j =>
          have := h2 j (by omega)
          rwa [show q + 1 + j = q + (j + 1) by omega] at this
      · intro hlt
        have := h3 (by omega)
        rwa [show q + 1 + skipZeros s k (q + 1) = q + (skipZeros s k (q + 1) + 1) by omega] at this
    · have hz : skipZeros s (k + 1) q = 0 := by rw [skipZeros, if_neg e]
      rw [hz]
      exact ⟨by omega, fun j hj => by omega, fun _ => e⟩

/-- A top-level big allocation overlaps the range. -/
def Overlaps (s : State) (lo hi r : Nat) : Prop := lo < hi ∧ Live s r ∧ s.par r = 0 ∧ lo < s.fin r ∧ s.beg r < hi

namespace Inv

variable {c : Config} {s : State} {kids : Nat → List Nat} {rank : Nat → Nat} (h : Inv c s kids rank)
include h

/-- A page-aligned range overlapped by a top-level big allocation has a page in it that is indexed. -/
theorem overlap_page {lo hi r : Nat} (hlo : lo % PAGE = 0) (hr : Overlaps s lo hi r) :
    ∃ q, pagenum lo ≤ q ∧ q * PAGE < hi ∧ entry s q ≠ 0 := by
  obtain ⟨hlt, hl, hp, h1, h2⟩ := hr
  obtain ⟨h3, h4⟩ := h.top r hl hp
  have hpos := h.pos r hl
  have key : ∀ q, Covers s r q → entry s q ≠ 0 := by
    intro q hc e
    rcases h.owner q with ⟨_, hn⟩ | ⟨h0, _⟩
    · exact hn r hl hc
    · exact h0 e
  by_cases hb : lo ≤ s.beg r
  · refine ⟨pagenum (s.beg r), ?_, ?_, key _ ?_⟩
    · unfold pagenum PAGE at *; omega
    · unfold pagenum PAGE at *; omega
    · unfold Covers pagenum PAGE at *; omega
  · refine ⟨pagenum lo, Nat.le_refl _, ?_, key _ ?_⟩
    · unfold pagenum PAGE at *; omega
    · unfold Covers pagenum PAGE at *; omega

end Inv

theorem delRange_spec {c : Config} {rank : Nat → Nat} : ∀ (f : Nat) {s : State} {kids : Nat → List Nat} (upTo hi : Nat), Inv c s kids rank →
    upTo % PAGE = 0 → ¬ Overlaps s upTo hi s.start → (kids 0).length < f →
    ∃ s' kids' roots order, delRange c f s upTo hi = some s' ∧ Inv c s' kids' rank ∧ Deleted s s' roots order ∧
      ∀ r, r ∈ roots ↔ Overlaps s upTo hi r := by
  intro f
  induction f with
  | zero => intro s kids upTo hi _ _ _ hf; omega
  | succ f ih =>
    intro s kids upTo hi h hup hst hf
    rw [delRange]
    by_cases hlt : upTo < hi
    · rw [if_pos hlt]
      obtain ⟨z1, z2, z3⟩ := skipZeros_spec s (pagenum (roundUp hi PAGE) - pagenum upTo) (pagenum upTo)
      generalize skipZeros s (pagenum (roundUp hi PAGE) - pagenum upTo) (pagenum upTo) = z at *
      simp only
      by_cases hend : hi ≤ upTo + PAGE * z
      · rw [if_pos hend]
        refine ⟨s, kids, [], [], rfl, h, Deleted.nil s, ?_⟩
        intro r
        refine ⟨fun hm => absurd hm (by simp), ?_⟩
        intro hr
        obtain ⟨q, h1, h2, h3⟩ := h.overlap_page hup hr
        exfalso
        apply h3
        have := z2 (q - pagenum upTo) (by unfold pagenum PAGE at *; omega)
        rwa [show pagenum upTo + (q - pagenum upTo) = q by omega] at this
      · rw [if_neg hend]
        have hne := z3 (by unfold pagenum roundUp PAGE at *; omega)
        have hpg : pagenum (upTo + PAGE * z) = pagenum upTo + z := by unfold pagenum PAGE at *; omega
        have hu' : (upTo + PAGE * z) % PAGE = 0 := by unfold PAGE at *; omega
        generalize hu : upTo + PAGE * z = u at *
        rw [← hpg] at hne
        rcases h.owner (pagenum u) with ⟨e0, _⟩ | ⟨_, hl, hcov, _⟩
        · exact absurd e0 hne
        · obtain ⟨b, e1, hb, hb0, hba⟩ := h.climb_live hl
          have hbh := h.anc_has hba hl (Inv.covers_has hcov rfl)
          have hover : Overlaps s upTo hi b := ⟨hlt, hb, hb0, by have := hbh.2; omega, by have := hbh.1; omega⟩
          have hsb : s.start ≠ b := fun e => hst (e ▸ hover)
          obtain ⟨s1, kids1, o1, e2, h1, hd1⟩ := bigallocDel_spec h hb hsb
          have hno : ∀ r, s.par r = 0 → r ≠ b → r ∉ o1 := by
            intro r hr hrb hm
            obtain ⟨_, k, hk, hka⟩ := (hd1.mem r).mp hm
            simp only [List.mem_singleton] at hk
            subst hk
            cases hka with
            | refl => exact hrb rfl
            | step hp _ => exact hp hr
          have hbo : b ∈ o1 := (hd1.mem b).mpr ⟨hb, b, by simp, Anc.refl⟩
          -- top-level survivors
          have htop : ∀ r, (Live s1 r ∧ s1.par r = 0) ↔ (Live s r ∧ s.par r = 0 ∧ r ≠ b) := by
            intro r
            rw [hd1.live]
            constructor
            · rintro ⟨⟨h3, h4⟩, h5⟩
              rw [hd1.par r h4] at h5
              exact ⟨h3, h5, fun e => h4 (e ▸ hbo)⟩
            · rintro ⟨h3, h4, h5⟩
              have := hno r h4 h5
              exact ⟨⟨h3, this⟩, by rw [hd1.par r this]; exact h4⟩
          have hov : ∀ r, Overlaps s1 (s.fin b) hi r ↔ Overlaps s upTo hi r ∧ r ≠ b := by
            intro r
            constructor
            · rintro ⟨hfb, h3, h4, h5, h6⟩
              obtain ⟨h7, h8, h9⟩ := (htop r).mp ⟨h3, h4⟩
              have hn := hno r h8 h9
              rw [hd1.fin r hn] at h5
              rw [hd1.beg r hn] at h6
              exact ⟨⟨hlt, h7, h8, by have := hbh.2; omega, h6⟩, h9⟩
            · rintro ⟨⟨_, h3, h4, h5, h6⟩, h7⟩
              have hn := hno r h4 h7
              obtain ⟨h8, h9⟩ := (htop r).mpr ⟨h3, h4, h7⟩
              suffices hs : s.fin b < hi ∧ s.fin b < s.fin r from
                ⟨hs.1, h8, h9, by rw [hd1.fin r hn]; exact hs.2, by rw [hd1.beg r hn]; exact h6⟩
              rcases h.disj r b h3 hb (by rw [h4, hb0]) h7 with h10 | h10
              · -- it would lie in the skipped part
                exfalso
                have hrp := h.pos r h3
                have hbl := hbh.1
                by_cases huu : upTo < u
                · have hz0 : z ≠ 0 := fun e => by subst e; unfold PAGE at *; omega
                  obtain ⟨q, q1, q2, q3⟩ := h.overlap_page hup ⟨huu, h3, h4, h5, (by omega : s.beg r < u)⟩
                  apply q3
                  have := z2 (q - pagenum upTo) (by unfold pagenum PAGE at *; omega)
                  rwa [show pagenum upTo + (q - pagenum upTo) = q by omega] at this
                · have : u = upTo := by omega
                  omega
              · have := h.pos r h3; omega
          have hlen : (kids1 0).length < f := by
            have hsub : ∀ x ∈ kids1 0, x ∈ (kids 0).erase b := by
              intro x hx
              obtain ⟨h3, h4, h5⟩ := (htop x).mp ((h1.mem _ _).mp hx)
              exact (List.mem_erase_of_ne h5).mpr ((h.mem _ _).mpr ⟨h3, h4⟩)
            have := nodup_subset_length (h1.nodup 0) hsub
            have hbk : b ∈ kids 0 := (h.mem _ _).mpr ⟨hb, hb0⟩
            rw [List.length_erase_of_mem hbk] at this
            have := List.length_pos_of_mem hbk
            omega
          obtain ⟨s2, kids2, roots, o2, e3, h2, hd2, hr2⟩ := ih (s.fin b) hi h1 (h.top b hb hb0).2
            (by rw [hd1.start]; intro ho; exact hst ((hov _).mp ho).1) hlen
          refine ⟨s2, kids2, [b] ++ roots, o1 ++ o2, ?_, h2, Deleted.comp h.toLinks hd1 hd2, ?_⟩
          · have hfu : ¬ s.fin b ≤ u := by have := hbh.2; omega
            unfold delHit
            rw [if_neg hne, e1]
            simp only [hfu, if_false, e2, Option.map_some, Option.bind_some]
            exact e3
          · intro r
            simp only [List.singleton_append, List.mem_cons]
            rw [hr2, hov]
            constructor
            · rintro (rfl | ⟨h3, _⟩)
              · exact hover
              · exact h3
            · intro h3
              by_cases e : r = b
              · exact Or.inl e
              · exact Or.inr ⟨h3, e⟩
    · rw [if_neg hlt]
      refine ⟨s, kids, [], [], rfl, h, Deleted.nil s, ?_⟩
      intro r
      refine ⟨fun hm => absurd hm (by simp), ?_⟩
      rintro ⟨h1, _⟩
      exact absurd h1 hlt

end Liballocs.PageIndex
