import Verif.Model.StackInit
import Verif.Proofs.FileLoad
import Verif.Props.PageIndexFails
/-! Properties of the carving up of the initial stack. -/
namespace Liballocs.StackInit

open PageIndex Fill
open FileLoad (setSub setSub_spec)

/-- Nothing has been made within the mapping: whatever is live covers it or is apart from it. -/
def Untouched (s : State) (b : Nat) : Prop :=
  ∀ n, Live s n → (s.beg n ≤ s.beg b ∧ s.fin b ≤ s.fin n) ∨ s.fin n ≤ s.beg b ∨ s.fin b ≤ s.beg n

/-- Two slots are free. -/
def TwoFree (c : Config) (s : State) : Prop :=
  ∃ x y, x ≠ y ∧ x ≠ 0 ∧ y ≠ 0 ∧ x < c.nb ∧ y < c.nb ∧ ¬ Live s x ∧ ¬ Live s y

/-- The first `[stack]` mapping is carved up: addresses from its beginning to the argument count are the stack's, from there to its
end the start-up data's, and all other lookups are as before. The stack's big allocation is managed in frames; the start-up
data's has no suballocator; both are new and nothing else changes. -/
theorem first_exact {c : Config} {align : Nat → Nat} {s : State} (hr : Reach c align s) (w : Who) {b argc : Nat} (hb : Live s b)
    (hu : Untouched s b) (hlo : s.beg b < argc) (hhi : argc ≤ s.fin b) (hsm : s.fin b - s.beg b ≤ c.maxPages * PAGE)
    (hfree : TwoFree c s) :
    ∃ s' our st, first c w s b argc = some (s', our, st) ∧ Reach c align s' ∧ ¬ Live s our ∧ ¬ Live s st ∧ our ≠ st
      ∧ (∀ n, Live s' n ↔ Live s n ∨ n = our ∨ n = st)
      ∧ DeepestAt s (s.beg b) (s'.par our) ∧ s'.par st = our
      ∧ (s'.beg our = s.beg b ∧ s'.fin our = s.fin b ∧ s'.beg st = s.beg b ∧ s'.fin st = argc)
      ∧ s'.alloc our = w.auxv ∧ s'.alloc st = w.stack ∧ s'.sub our = 0 ∧ s'.sub st = w.stackframe
      ∧ (∀ n, Live s n → s'.beg n = s.beg n ∧ s'.fin n = s.fin n ∧ s'.par n = s.par n ∧ s'.alloc n = s.alloc n ∧ s'.sub n = s.sub n)
      ∧ (∀ a, s.beg b ≤ a → a < argc → deepest c s' a = some st)
      ∧ (∀ a, argc ≤ a → a < s.fin b → deepest c s' a = some our)
      ∧ (∀ a, a < s.beg b ∨ s.fin b ≤ a → deepest c s' a = deepest c s a) := by
  obtain ⟨x, y, hxy, hx0, hy0, hxn, hyn, hx, hy⟩ := hfree
  have ho1 : NewOk c s (s.beg b) (s.fin b - s.beg b) 0 := by
    refine ⟨hb.1, by omega, hsm, ⟨x, hx0, hxn, hx⟩, fun e => absurd rfl e, fun _ => ⟨?_, ?_⟩⟩
    · intro n hn
      have := hu n hn
      omega
    · intro h
      exact absurd ⟨Nat.le_refl _, by omega⟩ (h b hb)
  obtain ⟨s1, our, p, e1, hr1, hn1, _, hd1, ha1, hl1, hin1, hout1⟩ := create_correct hr (m := ⟨w.auxv, 0, 0, 0, 0, 0⟩) ho1
  have hend : s.beg b + (s.fin b - s.beg b) = s.fin b := by omega
  rw [hend] at ha1 hin1 hout1
  have hour1 : Live s1 our := (hl1 our).2 (Or.inr rfl)
  have hbo : s1.beg our = s.beg b := by rw [ha1.beg, upd_same]
  have hfo : s1.fin our = s.fin b := by rw [ha1.fin, upd_same]
  have hold1 : ∀ n, Live s n → n ≠ our := fun n hn e => hn1 (e ▸ hn)
  have ho2 : NewOk c s1 (s.beg b) (argc - s.beg b) 0 := by
    refine ⟨hb.1, by omega, by omega, ?_, fun e => absurd rfl e, fun _ => ⟨?_, ?_⟩⟩
    · by_cases hxo : x = our
      · exact ⟨y, hy0, hyn, fun h => by
          rcases (hl1 y).1 h with h | h
          · exact hy h
          · exact hxy (hxo.trans h.symm)⟩
      · exact ⟨x, hx0, hxn, fun h => by
          rcases (hl1 x).1 h with h | h
          · exact hx h
          · exact hxo h⟩
    · intro n hn
      rcases (hl1 n).1 hn with h | h
      · have := hu n h
        rw [ha1.beg, ha1.fin, upd_ne (hold1 n h), upd_ne (hold1 n h)]
        omega
      · subst h
        rw [hbo, hfo]; omega
    · intro h
      exact absurd ⟨by omega, by omega⟩ (h our hour1)
  obtain ⟨s2, st, q, e2, hr2, hn2, _, hd2, ha2, hl2, hin2, hout2⟩ := create_correct hr1 (m := ⟨w.stack, 0, 0, 0, 0, 0⟩) ho2
  have hend2 : s.beg b + (argc - s.beg b) = argc := by omega
  rw [hend2] at ha2 hin2 hout2
  have hne : our ≠ st := fun e => hn2 (e ▸ hour1)
  have hq : q = our := by
    have h1 := hin1 (s.beg b) (Nat.le_refl _) (by omega)
    obtain ⟨_, kids, rank, h⟩ := reach_good hr1
    have h2 := (h.deepest_iff _ _).mpr (hd2 rfl)
    rw [h1] at h2
    exact (Option.some.inj h2).symm
  subst hq
  have hpar : s2.par st = q := by rw [ha2.par, upd_same]
  have halloc : s2.alloc q = w.auxv := by rw [ha2.alloc, upd_ne hne, ha1.alloc, upd_same]
  have hq0 : q ≠ 0 := by
    obtain ⟨_, kids, rank, h⟩ := reach_good hr1
    exact h.ne0 hour1
  have hl2st : Live s2 st := (hl2 st).2 (Or.inr rfl)
  have hl2q : Live s2 q := (hl2 q).2 (Or.inl hour1)
  obtain ⟨hr3, hd3⟩ := setSub_spec hr2 (v := w.stackframe) hl2st
  have hl3q : Live (setSub s2 st w.stackframe) q := hl2q
  obtain ⟨hr4, hd4⟩ := setSub_spec hr3 (v := 0) hl3q
  refine ⟨setSub (setSub s2 st w.stackframe) q 0, q, st, ?_, hr4, hn1, ?_, hne, ?_, ?_, hpar, ?_, halloc, ?_, ?_, ?_, ?_, ?_, ?_, ?_⟩
  · unfold first
    rw [e1]
    simp only
    unfold initRegion
    rw [e2]
    simp only
    rw [if_neg (by rw [hpar, halloc]; simp [hq0])]
  · intro h
    exact hn2 ((hl1 st).2 (Or.inl h))
  · intro n
    have : Live (setSub (setSub s2 st w.stackframe) q 0) n ↔ Live s2 n := Iff.rfl
    rw [this, hl2, hl1, or_assoc]
  · have : (setSub (setSub s2 st w.stackframe) q 0).par q = p := by
      show s2.par q = p
      rw [ha2.par, upd_ne hne, ha1.par, upd_same]
    rw [this]
    exact hd1 rfl
  · show s2.beg q = _ ∧ s2.fin q = _ ∧ s2.beg st = _ ∧ s2.fin st = _
    rw [ha2.beg, ha2.fin, upd_ne hne, upd_ne hne, upd_same, upd_same]
    exact ⟨hbo, hfo, rfl, rfl⟩
  · show s2.alloc st = w.stack
    rw [ha2.alloc, upd_same]
  · simp [setSub, upd]
  · show upd (upd s2.sub st w.stackframe) q 0 st = w.stackframe
    rw [upd_ne hne.symm, upd_same]
  · intro n hn
    have h1 := hold1 n hn
    have h2 : n ≠ st := fun e => hn2 (e ▸ (hl1 n).2 (Or.inl hn))
    refine ⟨?_, ?_, ?_, ?_, ?_⟩
    · show s2.beg n = _
      rw [ha2.beg, upd_ne h2, ha1.beg, upd_ne h1]
    · show s2.fin n = _
      rw [ha2.fin, upd_ne h2, ha1.fin, upd_ne h1]
    · show s2.par n = _
      rw [ha2.par, upd_ne h2, ha1.par, upd_ne h1]
    · show s2.alloc n = _
      rw [ha2.alloc, upd_ne h2, ha1.alloc, upd_ne h1]
    · show upd (upd s2.sub st w.stackframe) q 0 n = _
      rw [upd_ne h1, upd_ne h2, ha2.sub, upd_ne h2, ha1.sub, upd_ne h1]
  · intro a h1 h2
    rw [hd4, hd3]
    exact hin2 a h1 h2
  · intro a h1 h2
    rw [hd4, hd3, hout2 a (by omega)]
    exact hin1 a (by omega) h2
  · intro a h
    rw [hd4, hd3, hout2 a (by omega)]
    exact hout1 a (by omega)

/-! ## Later calls -/

/-- A later call for a mapping above, with the strings within the start-up data's range, changes nothing. -/
theorem again_same (c : Config) (s : State) (our b e : Nat) (h1 : s.beg our ≤ s.beg b) (h2 : e ≤ s.fin our) :
    again c s our b e = some s := by
  have : lower s our (s.beg b) = s := by unfold lower; rw [if_neg (by omega)]
  unfold again
  simp only [this]
  rw [if_neg (by omega)]

private theorem setPages_keeps {c : Config} {s s' : State} {lo hi n o : Nat} (h : setPages c s lo hi n o = some s') :
    s'.beg = s.beg ∧ s'.fin = s.fin ∧ s'.par = s.par := by
  unfold setPages at h
  obtain ⟨x, _, rfl⟩ := Option.map_eq_some_iff.1 h
  exact ⟨rfl, rfl, rfl⟩

/-- If the strings end beyond the start-up data's range, a later call makes that range end after its parent, which ended with it
(or before): the child is no longer inside its parent. -/
theorem again_end_fails {c : Config} {s s' : State} {our b e : Nat} (hp : s.fin (s.par our) ≤ s.fin our)
    (hne : s.par our ≠ our) (he : s.fin our < e) (h : again c s our b e = some s') :
    s'.par our = s.par our ∧ s'.fin (s'.par our) < s'.fin our := by
  have hl : (lower s our (s.beg b)).fin = s.fin ∧ (lower s our (s.beg b)).par = s.par := by
    unfold lower; split <;> exact ⟨rfl, rfl⟩
  unfold again at h
  simp only at h
  rw [if_pos (by rw [hl.1]; exact he)] at h
  generalize hs1 : lower s our (s.beg b) = s1 at *
  have key : ∀ s2, s2.fin = s1.fin → s2.par = s1.par → extend c s2 our (roundUp e PAGE) = some s' →
      s'.par our = s.par our ∧ s'.fin (s'.par our) < s'.fin our := by
    intro s2 hf hpar hx
    unfold extend at hx
    obtain ⟨_, h2, h3⟩ := setPages_keeps hx
    simp only at h2 h3
    rw [h3, h2, hf, hpar, hl.1, hl.2, upd_same, upd_ne hne]
    refine ⟨rfl, ?_⟩
    have : e ≤ roundUp e PAGE := by
      unfold roundUp PAGE; omega
    omega
  split at h
  · cases h
  · rename_i s2 h2
    split at h2
    · unfold truncBegin at h2
      obtain ⟨_, g2, g3⟩ := setPages_keeps h2
      exact key s2 g2 g3 h
    · cases h2
      exact key s1 rfl rfl h

/-- What was at the strings' last page is cut off at its beginning, up to the new end; if nothing was there, no beginning changes. -/
theorem again_cut {c : Config} {s s' : State} {our b e : Nat} (hb : s.beg our ≤ s.beg b) (he : s.fin our < e)
    (h : again c s our b e = some s') :
    s'.fin = upd s.fin our (roundUp e PAGE) ∧
      s'.beg = (if entry s (pagenum e) = 0 then s.beg else upd s.beg (entry s (pagenum e)) (roundUp e PAGE)) := by
  have hl : lower s our (s.beg b) = s := by unfold lower; rw [if_neg (by omega)]
  unfold again at h
  simp only [hl] at h
  rw [if_pos he] at h
  have key : ∀ s2, s2.fin = s.fin → extend c s2 our (roundUp e PAGE) = some s' →
      s'.fin = upd s.fin our (roundUp e PAGE) ∧ s'.beg = s2.beg := by
    intro s2 hf hx
    unfold extend at hx
    obtain ⟨h1, h2, _⟩ := setPages_keeps hx
    rw [h1, h2]
    simp only [hf, and_self]
  by_cases hpi : entry s (pagenum e) = 0
  · rw [if_pos hpi]
    rw [if_neg (by simp [hpi])] at h
    exact key s rfl h
  · rw [if_neg hpi]
    rw [if_pos hpi] at h
    split at h
    · cases h
    · rename_i s2 h2
      unfold truncBegin at h2
      obtain ⟨g1, g2, _⟩ := setPages_keeps h2
      obtain ⟨k1, k2⟩ := key s2 g2 h
      exact ⟨k1, by rw [k2, g1]⟩

/-- So what comes out is no state that the forest's invariants allow. -/
theorem again_end_unreachable {c : Config} {align : Nat → Nat} {s s' : State} {our b e : Nat} (hp : s.fin (s.par our) ≤ s.fin our)
    (hne : s.par our ≠ our) (h0 : s.par our ≠ 0) (he : s.fin our < e) (h : again c s our b e = some s') (hl : Live s' our) :
    ¬ Reach c align s' := by
  intro hr
  obtain ⟨h1, h2⟩ := again_end_fails hp hne he h
  have := (forest_partial hr).2.1 our hl (by rw [h1]; exact h0)
  omega

/-- A later call for a mapping below makes the start-up data's range begin before its parent. -/
theorem again_begin_fails {c : Config} {s s' : State} {our b e : Nat} (hp : s.beg our ≤ s.beg (s.par our))
    (hne : s.par our ≠ our) (hb : s.beg b < s.beg our) (he : e ≤ s.fin our) (h : again c s our b e = some s') :
    s'.par our = s.par our ∧ s'.beg our < s'.beg (s'.par our) ∧ s'.pidx = s.pidx := by
  unfold again lower at h
  rw [if_pos hb] at h
  simp only at h
  rw [if_neg (by omega)] at h
  cases h
  refine ⟨rfl, ?_, rfl⟩
  show upd s.beg our (s.beg b) our < upd s.beg our (s.beg b) (s.par our)
  rw [upd_same, upd_ne hne]
  omega

/-- A stack at [0x40000, 0x50000) with the argument count at 0x4f010, and another mapping below. -/
private def ex : Option (State × Nat × Nat) :=
  (run rel [mk 0x20000 0x30000, mk 0x40000 0x50000]).bind (fun s => first rel ⟨11, 12, 13⟩ s 3 0x4f010)

example : (ex.bind (fun r => (deepest rel r.1 0x4f00f).bind (fun x => some (x, r.1.alloc x, r.1.sub x)))) = some (5, 12, 13) := by
  decide +kernel
example : (ex.bind (fun r => (deepest rel r.1 0x4f010).bind (fun x => some (x, r.1.alloc x, r.1.sub x)))) = some (4, 11, 0) := by
  decide +kernel

/-- After a second call, for the mapping at 0x20000, an address there is in the start-up data's range but is not found to be; and
the range overlaps whatever lies between. -/
theorem lowered_fails :
    (ex.bind (fun r => (again rel r.1 r.2.1 2 0x50000).bind (fun s' =>
      some (s'.beg r.2.1, deepest rel s' 0x20000, deepest rel s' 0x38000, liveHas s' r.2.1 0x38000, liveHas s' r.2.1 0x20000))))
      = some (0x20000, some 2, some 0, true, true) := by decide +kernel

/-- With a mapping [0x50000, 0x60000) above, into which the strings reach: after a second call the mapping that the top-level
lookup gives for 0x50000 ends there. -/
theorem raised_fails :
    ((run rel [mk 0x40000 0x50000, mk 0x50000 0x60000]).bind (fun s => (first rel ⟨11, 12, 13⟩ s 2 0x4f010).bind (fun r =>
      (again rel r.1 r.2.1 2 0x50ff0).bind (fun s' =>
        some (s'.fin r.2.1, s'.beg 3, deepest rel s' 0x50000, topLevel rel s' 0x50000, s'.fin 2))))) =
      some (0x51000, 0x51000, some 4, some 2, 0x50000) := by decide +kernel

end Liballocs.StackInit
