import Verif.Proofs.Munmap
/-! # C24: notification of munmap -/
namespace Liballocs.Munmap
open MapSeq

/-- An address is known to be mapped. -/
def Mapped (st : List Mapping) (a : Nat) : Prop := ∃ m ∈ st, m.begin ≤ a ∧ a < m.end

theorem attrAt_none_iff {st : List Mapping} (hw : Wf st) (a : Nat) : attrAt st a = none ↔ ¬ Mapped st a := by
  unfold Mapped
  constructor
  · rintro h ⟨m, hm, h1, h2⟩
    have hmw := hw.each m hm
    rw [attrAt_of_mem hw hm a ⟨h1, h2⟩] at h
    have hrun : Run m.seq := by rcases hmw.inv.1.2 with ⟨z, _⟩ | h; exact absurd z hmw.ne; exact h
    obtain ⟨i, i1, i2, i3⟩ := hrun.locate a (by rw [hmw.sb]; exact h1) (by rw [hmw.se]; exact h2)
    rw [(findEntry_run hrun a).1 i i1 i2 i3] at h
    cases h
  · intro h
    have : lookup st a = none := by
      rw [lookup_none]; intro m hm hc; exact h ⟨m, hm, hc⟩
    unfold attrAt; rw [this]

theorem loop_ok (addr eff : Nat) (haa : addr % PAGE = 0) (hea : eff % PAGE = 0) (k cur rem : Nat) (st : List Mapping) (hw : Wf st)
    (hca : cur % PAGE = 0) (hra : rem % PAGE = 0) (hsum : cur + rem = addr + eff)
    (hin : cur = addr ∨ ∀ m ∈ st, ¬ (m.begin < cur ∧ cur < m.end))
    (hk : 2 * (rem / PAGE) + (if (lookup st cur).isSome then 1 else 0) < k) :
    ∃ st', loop addr eff k cur rem st = .ok st' ∧ Wf st' ∧
      ∀ a, attrAt st' a = if cur ≤ a ∧ a < cur + rem then none else attrAt st a := by
  induction k generalizing cur rem st with
  | zero => omega
  | succ k ih =>
    rw [loop]
    by_cases c : cur < addr + eff
    · rw [if_pos c]
      have hP : PAGE = 4096 := rfl
      have hrem : PAGE ≤ rem := by simp only [PAGE] at *; omega
      cases hl : lookup st cur with
      | none =>
        simp only
        have hnone := lookup_none.1 hl
        have hpage : ∀ m ∈ st, ¬ (m.begin < cur + PAGE ∧ cur < m.end) := by
          intro m hm hc
          have hmw := hw.each m hm
          have := hmw.ba
          have := hnone m hm
          simp only [PAGE] at *; omega
        obtain ⟨st', e1, e2, e3⟩ := ih (cur + PAGE) (rem - PAGE) st hw (by simp only [PAGE] at *; omega) (by simp only [PAGE] at *; omega) (by omega)
          (Or.inr (fun m hm hc => hpage m hm ⟨hc.1, by omega⟩))
          (by
            rw [hl] at hk
            have : rem / PAGE = (rem - PAGE) / PAGE + 1 := by simp only [PAGE] at *; omega
            simp at hk
            split <;> omega)
        refine ⟨st', e1, e2, ?_⟩
        intro a
        rw [e3]
        by_cases ca : cur ≤ a ∧ a < cur + PAGE
        · rw [if_neg (by omega), if_pos (by omega), attrAt_none_iff hw]
          rintro ⟨m, hm, h1, h2⟩
          exact hpage m hm ⟨by omega, by omega⟩
        · by_cases cb : cur + PAGE ≤ a ∧ a < cur + PAGE + (rem - PAGE)
          · rw [if_pos cb, if_pos (by omega)]
          · rw [if_neg cb, if_neg (by omega)]
      | some b =>
        simp only
        obtain ⟨hb, hb1, hb2⟩ := lookup_mem hl
        have hbw := hw.each b hb
        rw [hl] at hk
        simp only [Option.isSome_some, if_true] at hk
        by_cases c1 : cur = b.begin
        · rw [if_pos c1]
          by_cases c2 : cur + rem ≥ b.end
          · rw [if_pos c2]
            obtain ⟨d1, d2⟩ := del_ok hw hb
            have hbe := hbw.ea
            have hblt := hbw.lt
            obtain ⟨st', e1, e2, e3⟩ := ih b.end (rem - (b.end - cur)) (subst st b []) d1 hbe (by simp only [PAGE] at *; omega) (by omega)
              (Or.inr (by
                intro m hm hc
                have hn : attrAt (subst st b []) (b.end - 1) = none := by rw [d2, if_pos (by omega)]
                rw [attrAt_none_iff d1] at hn
                exact hn ⟨m, hm, by omega, by omega⟩))
              (by
                have hle : b.end - cur ≥ PAGE := by simp only [PAGE] at *; omega
                have : rem / PAGE ≥ (rem - (b.end - cur)) / PAGE + 1 := by simp only [PAGE] at *; omega
                split <;> omega)
            refine ⟨st', e1, e2, ?_⟩
            intro a
            rw [e3, d2]
            by_cases ca : b.begin ≤ a ∧ a < b.end
            · rw [if_neg (by omega), if_pos ca, if_pos (by omega)]
            · by_cases cb : b.end ≤ a ∧ a < b.end + (rem - (b.end - cur))
              · rw [if_pos cb, if_pos (by omega)]
              · rw [if_neg cb, if_neg ca, if_neg (by omega)]
          · rw [if_neg c2]
            subst c1
            exact pre_ok hw hb (by omega) hra (by omega)
        · rw [if_neg c1]
          have hlt : b.begin < cur := by omega
          have hcur : cur = addr := by
            rcases hin with h | h
            · exact h
            · exact absurd ⟨hlt, hb2⟩ (h b hb)
          by_cases c2 : cur + rem ≥ b.end
          · rw [if_pos c2]
            obtain ⟨st1, p1, p2, p3⟩ := post_ok hw hb hlt hb2 hca
            rw [p1]
            simp only
            have hbe := hbw.ea
            have hn : ¬ Mapped st1 (b.end - 1) := by
              rw [← attrAt_none_iff p2, p3, if_pos (by omega)]
            obtain ⟨st', e1, e2, e3⟩ := ih (cur + (b.end - cur)) (rem - (b.end - cur)) st1 p2 (by simp only [PAGE] at *; omega)
              (by simp only [PAGE] at *; omega) (by omega)
              (Or.inr (by
                intro m hm hc
                exact hn ⟨m, hm, by omega, by omega⟩))
              (by
                have hle : b.end - cur ≥ PAGE := by simp only [PAGE] at *; omega
                have : rem / PAGE ≥ (rem - (b.end - cur)) / PAGE + 1 := by simp only [PAGE] at *; omega
                split <;> omega)
            refine ⟨st', e1, e2, ?_⟩
            intro a
            rw [e3, p3]
            by_cases ca : cur ≤ a ∧ a < b.end
            · rw [if_neg (by omega), if_pos ca, if_pos (by omega)]
            · by_cases cb : cur + (b.end - cur) ≤ a ∧ a < cur + (b.end - cur) + (rem - (b.end - cur))
              · rw [if_pos cb, if_pos (by omega)]
              · rw [if_neg cb, if_neg ca, if_neg (by omega)]
          · rw [if_neg c2]
            have hre : rem = eff := by omega
            obtain ⟨st1, p1, p2, p3⟩ := hole_ok hw hb (addr := addr) (eff := eff) (by omega) (by omega) (by omega) haa hea
            rw [p1]
            simp only
            have hn : lookup st1 cur = none := by
              have := (attrAt_none_iff p2 cur).1 (by rw [p3, if_pos (by omega)])
              rw [lookup_none]; intro m hm hc; exact this ⟨m, hm, hc⟩
            obtain ⟨st', e1, e2, e3⟩ := ih cur rem st1 p2 hca hra hsum (Or.inl hcur) (by rw [hn]; simp; omega)
            refine ⟨st', e1, e2, ?_⟩
            intro a
            rw [e3, p3]
            by_cases ca : cur ≤ a ∧ a < cur + rem
            · rw [if_pos ca, if_pos ca]
            · rw [if_neg ca, if_neg (by omega), if_neg ca]
    · rw [if_neg c]
      refine ⟨st, rfl, hw, ?_⟩
      intro a
      rw [if_neg (by omega)]

/-- C24: notification of `munmap(addr, len)` with a page-aligned address always completes, keeps the
mappings well formed, and afterwards an address is known mapped exactly if it was before and is outside
the page-rounded range, with the attributes it had. -/
theorem munmap_correct (st : List Mapping) (addr len : Nat) (hw : Wf st) (ha : addr % PAGE = 0) :
    ∃ st', munmap st addr len = .ok st' ∧ Wf st' ∧
      ∀ a, (Mapped st' a ↔ Mapped st a ∧ ¬ (addr ≤ a ∧ a < addr + (len + 4095) / 4096 * 4096)) ∧
        (Mapped st' a → attrAt st' a = attrAt st a) := by
  have hru : roundUp len PAGE = (len + 4095) / 4096 * 4096 := rfl
  have hP : PAGE = 4096 := rfl
  obtain ⟨st', e1, e2, e3⟩ := loop_ok addr (roundUp len PAGE) ha (by rw [hru, hP]; omega)
    (2 * (roundUp len PAGE / PAGE) + 2) addr (roundUp len PAGE) st hw ha (by rw [hru, hP]; omega) rfl (Or.inl rfl)
    (by split <;> omega)
  refine ⟨st', e1, e2, ?_⟩
  intro a
  have h := e3 a
  rw [hru] at h
  have hN1 := attrAt_none_iff e2 a
  have hN2 := attrAt_none_iff hw a
  by_cases c : addr ≤ a ∧ a < addr + (len + 4095) / 4096 * 4096
  · rw [if_pos c] at h
    have := hN1.1 h
    exact ⟨⟨fun h => absurd h this, fun h => absurd c h.2⟩, fun h => absurd h this⟩
  · rw [if_neg c] at h
    refine ⟨?_, fun _ => h⟩
    constructor
    · intro hm
      refine ⟨?_, c⟩
      apply Classical.byContradiction
      intro hn
      exact hN1.1 (h.trans (hN2.2 hn)) hm
    · rintro ⟨hm, _⟩
      apply Classical.byContradiction
      intro hn
      exact hN2.1 (h.symm.trans (hN1.2 hn)) hm

/-- The example sequence as one mapping, and a second mapping above a gap. -/
def ex : List Mapping := [⟨0x1000, 0x8000, exSeq⟩, ⟨0xa000, 0xc000, ofList [⟨0xa000, 0xc000, 3, 0x22, 0, true, 0⟩] none⟩]

theorem ex_wf : Wf ex := by
  constructor
  · intro m hm
    simp only [ex, List.mem_cons, List.not_mem_nil, or_false] at hm
    rcases hm with rfl | rfl
    · exact ⟨by decide, by decide, by decide, exSeq_inv, by decide, rfl, rfl⟩
    · refine ⟨by decide, by decide, by decide, ⟨⟨by decide, Or.inr ((sane_iff _).1 (by decide) |>.resolve_left (by decide))⟩, ?_⟩, by decide, rfl, rfl⟩
      intro i hi
      cases i with
      | zero => right; decide
      | succ i => left; rfl
  · rw [ex, List.pairwise_cons]
    refine ⟨?_, List.pairwise_singleton _ _⟩
    intro m hm
    rw [List.mem_singleton] at hm
    subst hm; left; decide

/-- Observed bounds after a notification. -/
def Out.bounds : Out → Option (List (Nat × Nat))
  | .ok st => some (st.map (fun m => (m.begin, m.end)))
  | _ => none

/-- A hole in the first mapping; a range across the gap, cutting both. -/
example : (munmap ex 0x4000 0x1800).bounds = some [(0x1000, 0x4000), (0x6000, 0x8000), (0xa000, 0xc000)] ∧
    (munmap ex 0x6000 0x4001).bounds = some [(0x1000, 0x6000), (0xb000, 0xc000)] := by decide +kernel

end Liballocs.Munmap
