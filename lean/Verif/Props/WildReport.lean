import Verif.Model.WildReport
import Verif.Props.PageIndexFails
/-! Properties of the report on wild pointers. -/
namespace Liballocs.WildReport
open PageIndex

/-! ## The listing -/

private theorem mem_printL0 {c : Config} {s : State} {l : Line} :
    l ∈ printL0 c s ↔ ∃ b, 0 < b ∧ b < c.nb ∧ Live s b ∧ s.par b = 0 ∧ l = ⟨s.beg b, s.fin b, s.alloc b, s.priv b⟩ := by
  unfold printL0
  simp only [List.mem_map, List.mem_filter, List.mem_range'_1, Bool.and_eq_true, beq_iff_eq, live_iff]
  constructor
  · rintro ⟨b, ⟨⟨h1, h2⟩, h3, h4⟩, rfl⟩
    exact ⟨b, by omega, by omega, h3, h4, rfl⟩
  · rintro ⟨b, h1, h2, h3, h4, rfl⟩
    exact ⟨b, ⟨⟨by omega, by omega⟩, h3, h4⟩, rfl⟩

private theorem root_of {c : Config} {s : State} {kids rank} (h : Inv c s kids rank) : ∀ (k n : Nat), rank n < k → Live s n →
    ∃ r, Live s r ∧ s.par r = 0 ∧ s.beg r ≤ s.beg n ∧ s.fin n ≤ s.fin r
  | 0, _, hk, _ => absurd hk (Nat.not_lt_zero _)
  | k + 1, n, hk, hn => by
    by_cases hp : s.par n = 0
    · exact ⟨n, hn, hp, Nat.le_refl _, Nat.le_refl _⟩
    · obtain ⟨r, h1, h2, h3, h4⟩ := root_of h k (s.par n) (by have := h.rank n hn hp; omega) (h.parLive n hn hp)
      have := h.nest n hn hp
      exact ⟨r, h1, h2, by omega, by omega⟩

/-- After any history, every allocation there is lies within one of the ranges listed; each range listed is an allocation that is within no other;
and no two lines overlap, so that nothing is listed twice. -/
theorem listing_exact {c : Config} {align : Nat → Nat} {s : State} (hr : Reach c align s) :
    (∀ n, Live s n → ∃ l ∈ printL0 c s, l.lo ≤ s.beg n ∧ s.fin n ≤ l.hi) ∧
    (∀ l ∈ printL0 c s, ∃ n, Live s n ∧ s.par n = 0 ∧ l.lo = s.beg n ∧ l.hi = s.fin n ∧ l.alloc = s.alloc n ∧ l.priv = s.priv n) ∧
    (printL0 c s).Pairwise (fun a b => a.hi ≤ b.lo ∨ b.hi ≤ a.lo) := by
  obtain ⟨_, kids, rank, h⟩ := reach_good hr
  refine ⟨?_, ?_, ?_⟩
  · intro n hn
    obtain ⟨r, h1, h2, h3, h4⟩ := root_of h (rank n + 1) n (Nat.lt_succ_self _) hn
    exact ⟨_, mem_printL0.2 ⟨r, Nat.pos_of_ne_zero (h.toLinks.ne0 h1), h.lt r h1, h1, h2, rfl⟩, h3, h4⟩
  · intro l hl
    obtain ⟨b, _, _, h3, h4, rfl⟩ := mem_printL0.1 hl
    exact ⟨b, h3, h4, rfl, rfl, rfl, rfl⟩
  · unfold printL0
    rw [List.pairwise_map]
    refine List.Pairwise.imp_of_mem ?_ (List.Pairwise.filter _ (List.nodup_range' (step := 1)))
    intro a b ha hb hne
    simp only [List.mem_filter, Bool.and_eq_true, beq_iff_eq, live_iff] at ha hb
    exact h.disj a b ha.2.1 hb.2.1 (by rw [ha.2.2, hb.2.2]) hne

/-! ## C138 -/

/-- **C138 (partial).** A pointer outside the first and the last page is reported, with the whole listing; one in them is not. Partial: but for the first
address of the last page. -/
theorem report_iff_partial (c : Config) (s : State) (p : Nat) (h64 : p < 2 ^ 64) (hne : p ≠ 2 ^ 64 - 4096) :
    report c s p = if p < 4096 ∨ 2 ^ 64 - 4096 ≤ p then none else some (p, printL0 c s) := by
  unfold report
  have : (roundDownW p = 0 ∨ roundUpW p = 0) ↔ (p < 4096 ∨ 2 ^ 64 - 4096 ≤ p) := by
    unfold roundDownW roundUpW
    constructor
    · rintro (h | h)
      · left; omega
      · split at h <;> omega
    · rintro (h | h)
      · left; omega
      · right; rw [if_neg (by omega)]; omega
  simp only [this]

/-- **C138 fails** at the first address of the last page: it is reported. Rounding up does not change it. -/
theorem last_page_fails (c : Config) (s : State) : report c s (2 ^ 64 - 4096) = some (2 ^ 64 - 4096, printL0 c s) := by
  unfold report
  rw [if_neg (by decide)]

/-- Two mappings and the library's heap; what is nested in the first is not listed. -/
example : after dbg (nested ++ [mk 0x30000 0x40000]) (fun s => report dbg s 0x50000) =
    some (0x50000, [⟨0x1000000, 0x1010000, 1, 0⟩, ⟨0x10000, 0x20000, 2, 7⟩, ⟨0x30000, 0x40000, 2, 7⟩]) := by decide +kernel

end Liballocs.WildReport
