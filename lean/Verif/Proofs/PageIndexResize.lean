import Verif.Proofs.PageIndexDel
/-!
# Moving the ends of a big allocation
-/
namespace Liballocs.PageIndex

open Fill

instance (s : State) (n q : Nat) : Decidable (Covers s n q) := by unfold Covers; infer_instance

/-- Links do not depend on anything but the links and which slots are in use. -/
theorem Links.frame {c : Config} {s s' : State} {kids rank} (h : Links c s kids rank) (hlive : ∀ n, Live s' n ↔ Live s n)
    (h0 : s'.beg 0 = 0) (hfirst : s'.first = s.first) (hnext : s'.next = s.next) (hprev : s'.prev = s.prev) (hpar : s'.par = s.par)
    (halloc : s'.alloc 0 = 0) (hsub : s'.sub 0 = 0) (hstart : s'.start = s.start) : Links c s' kids rank := by
  refine { nbOk := h.nbOk, zero := ?_, lt := ?_, dead := ?_, mem := ?_, nodup := h.nodup, seg := ?_, firstKid := ?_, parLive := ?_, rank := ?_, start := ?_ }
  · rw [hfirst, hpar]; exact ⟨h0, h.zero.2.1, h.zero.2.2.1, halloc, hsub⟩
  · intro n hn; exact h.lt n ((hlive n).mp hn)
  · intro n hn; rw [hpar]; exact h.dead n (fun e => hn ((hlive n).mpr e))
  · intro x p; rw [hlive, hpar]; exact h.mem x p
  · rw [hnext, hprev]; exact h.seg
  · intro p hp; rw [hfirst]; exact h.firstKid p ((hlive p).mp hp)
  · intro x hx; rw [hpar, hlive]; exact h.parLive x ((hlive x).mp hx)
  · intro x hx; rw [hpar]; exact h.rank x ((hlive x).mp hx)
  · rw [hstart]; exact h.start

/-- The new range of a big allocation is admissible: not empty, overlapping the old one, inside the parent, around the children,
apart from the siblings, aligned at top level. -/
structure Resizable (c : Config) (s : State) (b lo hi : Nat) : Prop where
  nonzero : lo ≠ 0
  pos : lo < hi
  small : hi ≤ lo + c.maxPages * PAGE
  meets : lo < s.fin b ∧ s.beg b < hi
  inside : s.par b ≠ 0 → s.beg (s.par b) ≤ lo ∧ hi ≤ s.fin (s.par b)
  around : ∀ d, Live s d → s.par d = b → lo ≤ s.beg d ∧ s.fin d ≤ hi
  apart : ∀ d, Live s d → s.par d = s.par b → d ≠ b → s.fin d ≤ lo ∨ hi ≤ s.beg d
  aligned : s.par b = 0 → lo % PAGE = 0 ∧ hi % PAGE = 0

/-- `s'` is `s` with another range for one slot. -/
structure Resized (s s' : State) (b lo hi : Nat) : Prop where
  beg : s'.beg = upd s.beg b lo
  fin : s'.fin = upd s.fin b hi
  first : s'.first = s.first
  next : s'.next = s.next
  par : s'.par = s.par
  prev : s'.prev = s.prev
  alloc : s'.alloc = s.alloc
  sub : s'.sub = s.sub
  priv : s'.priv = s.priv
  privFree : s'.privFree = s.privFree
  subPriv : s'.subPriv = s.subPriv
  subPrivFree : s'.subPrivFree = s.subPrivFree
  start : s'.start = s.start
  log : s'.log = s.log

theorem Resized.live {s s' : State} {b lo hi : Nat} (h : Resized s s' b lo hi) (hb : Live s b) (hlo : lo ≠ 0) (hhi : hi ≠ 0) :
    ∀ n, Live s' n ↔ Live s n := by
  intro n
  unfold Live
  rw [h.beg, h.fin]
  by_cases hn : n = b
  · subst hn; simp only [upd_same]; exact ⟨fun _ => hb, fun _ => ⟨hlo, hhi⟩⟩
  · simp [upd_ne hn]

theorem inv_resize {c : Config} {s s' : State} {kids rank} (h : Inv c s kids rank) {b lo hi : Nat} (hb : Live s b)
    (hr : Resizable c s b lo hi) (hs : Resized s s' b lo hi)
    (hent : ∀ q, entry s' q =
      if (lo ≤ q * PAGE ∧ (q + 1) * PAGE ≤ hi) ∧ ¬ Covers s b q then b
      else if Covers s b q ∧ ¬ (lo ≤ q * PAGE ∧ (q + 1) * PAGE ≤ hi) then s.par b else entry s q) : Inv c s' kids rank := by
  have hpos := hr.pos
  have hb0 := h.ne0 hb
  have hlive := hs.live hb hr.nonzero (by omega)
  have hB : ∀ n, n ≠ b → s'.beg n = s.beg n := fun n hn => by rw [hs.beg, upd_ne hn]
  have hF : ∀ n, n ≠ b → s'.fin n = s.fin n := fun n hn => by rw [hs.fin, upd_ne hn]
  have hBb : s'.beg b = lo := by rw [hs.beg, upd_same]
  have hFb : s'.fin b = hi := by rw [hs.fin, upd_same]
  have hC : ∀ n q, n ≠ b → (Covers s' n q ↔ Covers s n q) := by
    intro n q hn; unfold Covers; rw [hB n hn, hF n hn]
  have hCb : ∀ q, Covers s' b q ↔ lo ≤ q * PAGE ∧ (q + 1) * PAGE ≤ hi := by
    intro q; unfold Covers; rw [hBb, hFb]
  have hpb := h.par_ne hb
  refine ⟨?_, ?_, ?_, ?_, ?_, ?_, ?_, ?_⟩
  · refine h.toLinks.frame hlive ?_ hs.first hs.next hs.prev hs.par ?_ ?_ hs.start
    · rw [hB 0 (Ne.symm hb0)]; exact h.zero.1
    · rw [hs.alloc]; exact h.zero.2.2.2.1
    · rw [hs.sub]; exact h.zero.2.2.2.2
  · intro n hn
    rw [hlive] at hn
    by_cases e : n = b
    · subst e; rw [hBb, hFb]; exact hpos
    · rw [hB n e, hF n e]; exact h.pos n hn
  · intro n hn
    rw [hlive] at hn
    by_cases e : n = b
    · subst e; rw [hBb, hFb]; exact hr.small
    · rw [hB n e, hF n e]; exact h.small n hn
  · intro n hn hn0
    rw [hlive] at hn
    rw [hs.par] at hn0 ⊢
    by_cases e : n = b
    · subst e
      rw [hBb, hFb, hB _ hpb, hF _ hpb]
      exact hr.inside hn0
    · rw [hB n e, hF n e]
      by_cases e2 : s.par n = b
      · rw [e2, hBb, hFb]; exact hr.around n hn e2
      · rw [hB _ e2, hF _ e2]; exact h.nest n hn hn0
  · intro x y hx hy hxy hne
    rw [hlive] at hx hy
    rw [hs.par] at hxy
    by_cases e1 : x = b
    · subst e1
      rw [hBb, hFb, hB y (Ne.symm hne), hF y (Ne.symm hne)]
      have := hr.apart y hy hxy.symm (Ne.symm hne)
      omega
    · by_cases e2 : y = b
      · subst e2
        rw [hBb, hFb, hB x e1, hF x e1]
        have := hr.apart x hx hxy e1
        omega
      · rw [hB x e1, hF x e1, hB y e2, hF y e2]
        exact h.disj x y hx hy hxy hne
  · intro n hn hn0
    rw [hlive] at hn
    rw [hs.par] at hn0
    by_cases e : n = b
    · subst e; rw [hBb, hFb]; exact hr.aligned hn0
    · rw [hB n e, hF n e]; exact h.top n hn hn0
  · apply List.Pairwise.imp_of_mem _ h.sorted
    intro x y hx hy hxy
    obtain ⟨hx, hx0⟩ := (h.mem _ _).mp hx
    obtain ⟨hy, hy0⟩ := (h.mem _ _).mp hy
    have p1 := h.pos x hx
    have p2 := h.pos y hy
    have hne : x ≠ y := by
      intro e
      subst e
      omega
    by_cases e1 : x = b
    · subst e1
      rw [hFb, hB y (Ne.symm hne)]
      have := hr.apart y hy (by rw [hy0, hx0]) (Ne.symm hne)
      have := hr.meets
      omega
    · rw [hF x e1]
      by_cases e2 : y = b
      · subst e2
        rw [hBb]
        have := hr.apart x hx (by rw [hy0, hx0]) e1
        have := hr.meets
        omega
      · rw [hB y e2]; exact hxy
  · intro q
    rw [hent]
    by_cases h1 : Covers s b q <;> by_cases h2 : lo ≤ q * PAGE ∧ (q + 1) * PAGE ≤ hi
    · -- covered before and after
      rw [if_neg (by simp [h1]), if_neg (by simp [h2])]
      have hall : ∀ n, Covers s' n q ↔ Covers s n q := by
        intro n
        by_cases e : n = b
        · subst e; rw [hCb]; exact ⟨fun _ => h1, fun _ => h2⟩
        · exact hC n q e
      have := h.owner q
      unfold Owner at this ⊢
      simp only [hlive, hall, hs.par]
      exact this
    · -- lost
      rw [if_neg (by simp [h1]), if_pos ⟨h1, h2⟩]
      have hkid : ∀ k, Live s k → s.par k = b → ¬ Covers s k q := by
        intro k hk hkp hc
        have := hr.around k hk hkp
        unfold Covers at hc
        exact h2 ⟨by omega, by omega⟩
      by_cases hp0 : s.par b = 0
      · left
        refine ⟨hp0, ?_⟩
        intro n hn hc
        rw [hlive] at hn
        by_cases e : n = b
        · subst e; exact h2 ((hCb q).mp hc)
        · rw [hC n q e] at hc
          obtain ⟨r, hrl, hr0, hrn⟩ := h.exists_root hn
          have hrc := h.anc_covers hrn hn hc
          have hrb : r = b := by
            by_cases e : r = b
            · exact e
            · exact absurd (h.disj r b hrl hb (by rw [hr0, hp0]) e)
                (fun hd => Inv.disj_of_has hd (Inv.covers_has_page hrc) (Inv.covers_has_page h1))
          subst hrb
          rcases Inv.anc_cases hrn with e' | ⟨k, hk1, _, hkn⟩
          · exact e e'.symm
          · exact hkid k (h.anc_live hkn hn) hk1 (h.anc_covers hkn hn hc)
      · right
        have hpl := h.parLive b hb hp0
        refine ⟨hp0, (hlive _).mpr hpl, (hC _ q hpb).mpr (h.anc_covers (Anc.step hp0 Anc.refl) hb h1), ?_⟩
        intro n hn hnp hc
        rw [hlive] at hn
        rw [hs.par] at hnp
        by_cases e : n = b
        · subst e; exact h2 ((hCb q).mp hc)
        · rw [hC n q e] at hc
          exact Inv.disj_of_has (h.disj n b hn hb hnp e) (Inv.covers_has_page hc) (Inv.covers_has_page h1)
    · -- gained
      rw [if_pos ⟨h2, h1⟩]
      right
      refine ⟨hb0, (hlive b).mpr hb, (hCb q).mpr h2, ?_⟩
      intro n hn hnp hc
      rw [hlive] at hn
      rw [hs.par] at hnp
      have e : n ≠ b := fun e => by
        subst e
        exact h.par_ne hb hnp
      rw [hC n q e] at hc
      have hn0 : s.par n ≠ 0 := by rw [hnp]; exact hb0
      have := h.anc_covers (Anc.step hn0 Anc.refl) hn hc
      rw [hnp] at this
      exact h1 this
    · -- not covered
      rw [if_neg (by simp [h2]), if_neg (by simp [h1])]
      have hall : ∀ n, Covers s' n q ↔ Covers s n q := by
        intro n
        by_cases e : n = b
        · subst e; rw [hCb]; exact ⟨fun e => absurd e h2, fun e => absurd e h1⟩
        · exact hC n q e
      have := h.owner q
      unfold Owner at this ⊢
      simp only [hlive, hall, hs.par]
      exact this

/-- The pages gained belonged to the parent. -/
theorem gained_entry {c : Config} {s : State} {kids rank} (h : Inv c s kids rank) {b lo hi : Nat} (hb : Live s b)
    (hr : Resizable c s b lo hi) {q : Nat} (h1 : lo ≤ q * PAGE) (h2 : (q + 1) * PAGE ≤ hi) (h3 : ¬ Covers s b q) :
    entry s q = s.par b := by
  apply h.owner_unique (h.owner q)
  by_cases hp0 : s.par b = 0
  · left
    refine ⟨hp0, ?_⟩
    intro n hn hc
    obtain ⟨r, hrl, hr0, hrn⟩ := h.exists_root hn
    have hrc := h.anc_covers hrn hn hc
    by_cases e : r = b
    · exact h3 (e ▸ hrc)
    · have := hr.apart r hrl (by rw [hr0, hp0]) e
      unfold Covers at hrc
      unfold PAGE at *
      omega
  · right
    have := hr.inside hp0
    refine ⟨hp0, h.parLive b hb hp0, ⟨by omega, by omega⟩, ?_⟩
    intro n hn hnp hc
    by_cases e : n = b
    · exact h3 (e ▸ hc)
    · have := hr.apart n hn hnp e
      unfold Covers at hc
      unfold PAGE at *
      omega

/-- The pages lost by the new range belonged to the slot itself. -/
theorem lost_entry {c : Config} {s : State} {kids rank} (h : Inv c s kids rank) {b lo hi : Nat} (hb : Live s b)
    (hr : Resizable c s b lo hi) {q : Nat} (h1 : Covers s b q) (h2 : ¬ (lo ≤ q * PAGE ∧ (q + 1) * PAGE ≤ hi)) :
    entry s q = b := by
  apply h.owner_unique (h.owner q)
  right
  refine ⟨h.ne0 hb, hb, h1, ?_⟩
  intro n hn hnp hc
  have := hr.around n hn hnp
  unfold Covers at hc
  exact h2 ⟨by omega, by omega⟩

theorem par_lt {c : Config} {s : State} {kids rank} (h : Inv c s kids rank) {b : Nat} (hb : Live s b) : s.par b < 65536 := by
  have hnb := h.nbOk
  by_cases hp0 : s.par b = 0
  · omega
  · have := h.lt _ (h.parLive b hb hp0); omega

theorem round_le (a : Nat) : roundDown a PAGE ≤ a := by unfold roundDown PAGE; omega
theorem le_round (a : Nat) : a ≤ roundUp a PAGE := by unfold roundUp PAGE; omega

/-- Growing at the end. Either the old range reached back to the page boundary below its end, or no page boundary is
crossed. -/
theorem extend_spec {c : Config} {s : State} {kids rank} (h : Inv c s kids rank) {b newEnd : Nat} (hb : Live s b)
    (hge : s.fin b ≤ newEnd) (hr : Resizable c s b (s.beg b) newEnd)
    (hpage : s.beg b ≤ roundDown (s.fin b) PAGE ∨ newEnd < roundDown (s.fin b) PAGE + PAGE) :
    ∃ s', extend c s b newEnd = some s' ∧ Resized s s' b (s.beg b) newEnd ∧ Inv c s' kids rank := by
  have hlt := h.lt b hb
  have hnb := h.nbOk
  have hbpos := h.pos b hb
  have hsm := hr.small
  have hq : ∀ q, s.fin b < (q + 1) * PAGE → (q + 1) * PAGE ≤ newEnd → s.beg b ≤ q * PAGE := by
    intro q h1 h2
    unfold roundDown PAGE at hpage
    unfold PAGE at *
    omega
  obtain ⟨pi, e, hpi⟩ := setPages_spec c { s with fin := upd s.fin b newEnd } (roundDown (s.fin b) PAGE) (roundDown newEnd PAGE) b (s.par b)
    (by omega) (by unfold pageDist pagenum roundDown PAGE at *; split <;> omega) (by
      right
      intro q h1 h2
      right
      rw [le_page_down] at h1
      rw [lt_page_down] at h2
      exact gained_entry h hb hr (hq q h1 h2) h2 (fun hc => by unfold Covers at hc; omega))
  refine ⟨_, e, ?_, ?_⟩
  · constructor <;> first | rfl | (simp only [upd_id])
  · apply inv_resize h hb hr
    · constructor <;> first | rfl | (simp only [upd_id])
    · intro q
      show (pi q).toNat = _
      rw [hpi q]
      simp only [le_page_down, lt_page_down]
      by_cases h1 : s.fin b < (q + 1) * PAGE ∧ (q + 1) * PAGE ≤ newEnd
      · rw [if_pos h1, if_pos ⟨⟨hq q h1.1 h1.2, h1.2⟩, fun hc => by unfold Covers at hc; omega⟩]
      · rw [if_neg h1, if_neg (fun hh => by unfold Covers at hh; omega), if_neg (fun hh => by unfold Covers at hh; omega)]
        rfl

/-- Shrinking at the end. -/
theorem truncEnd_spec {c : Config} {s : State} {kids rank} (h : Inv c s kids rank) {b newEnd : Nat} (hb : Live s b)
    (hle : newEnd ≤ s.fin b) (hr : Resizable c s b (s.beg b) newEnd)
    (hpage : s.beg b ≤ roundDown newEnd PAGE ∨ s.fin b < roundDown newEnd PAGE + PAGE) :
    ∃ s', truncEnd c s b newEnd = some s' ∧ Resized s s' b (s.beg b) newEnd ∧ Inv c s' kids rank := by
  have hbpos := h.pos b hb
  have hsm := h.small b hb
  have hrp := hr.pos
  have hq : ∀ q, newEnd < (q + 1) * PAGE → (q + 1) * PAGE ≤ s.fin b → s.beg b ≤ q * PAGE := by
    intro q h1 h2
    unfold roundDown PAGE at hpage
    unfold PAGE at *
    omega
  obtain ⟨pi, e, hpi⟩ := setPages_spec c { s with fin := upd s.fin b newEnd } (roundDown newEnd PAGE) (roundDown (s.fin b) PAGE) (s.par b) b
    (par_lt h hb) (by unfold pageDist pagenum roundDown PAGE at *; split <;> omega) (by
      right
      intro q h1 h2
      right
      rw [le_page_down] at h1
      rw [lt_page_down] at h2
      exact lost_entry h hb hr ⟨hq q h1 h2, h2⟩ (by omega))
  refine ⟨_, e, ?_, ?_⟩
  · constructor <;> first | rfl | (simp only [upd_id])
  · apply inv_resize h hb hr
    · constructor <;> first | rfl | (simp only [upd_id])
    · intro q
      show (pi q).toNat = _
      rw [hpi q]
      simp only [le_page_down, lt_page_down]
      by_cases h1 : newEnd < (q + 1) * PAGE ∧ (q + 1) * PAGE ≤ s.fin b
      · rw [if_pos h1, if_neg (fun hh => by omega), if_pos ⟨⟨hq q h1.1 h1.2, h1.2⟩, fun hc => by omega⟩]
      · rw [if_neg h1, if_neg (fun hh => by unfold Covers at hh; omega), if_neg (fun hh => by unfold Covers at hh; omega)]
        rfl

/-- Shrinking at the beginning. -/
theorem truncBegin_spec {c : Config} {s : State} {kids rank} (h : Inv c s kids rank) {b newBegin : Nat} (hb : Live s b)
    (hle : s.beg b ≤ newBegin) (hr : Resizable c s b newBegin (s.fin b))
    (hpage : roundUp newBegin PAGE ≤ s.fin b ∨ roundUp newBegin PAGE ≤ s.beg b + PAGE - 1) :
    ∃ s', truncBegin c s b newBegin = some s' ∧ Resized s s' b newBegin (s.fin b) ∧ Inv c s' kids rank := by
  have hbpos := h.pos b hb
  have hsm := h.small b hb
  have hrp := hr.pos
  have hq : ∀ q, s.beg b ≤ q * PAGE → q * PAGE < newBegin → (q + 1) * PAGE ≤ s.fin b := by
    intro q h1 h2
    unfold roundUp PAGE at hpage
    unfold PAGE at *
    omega
  obtain ⟨pi, e, hpi⟩ := setPages_spec c { s with beg := upd s.beg b newBegin } (roundUp (s.beg b) PAGE) (roundUp newBegin PAGE) (s.par b) b
    (par_lt h hb) (by unfold pageDist pagenum roundUp PAGE at *; split <;> omega) (by
      right
      intro q h1 h2
      right
      rw [le_page_up] at h1
      rw [lt_page_up] at h2
      exact lost_entry h hb hr ⟨h1, hq q h1 h2⟩ (by omega))
  refine ⟨_, e, ?_, ?_⟩
  · constructor <;> first | rfl | (simp only [upd_id])
  · apply inv_resize h hb hr
    · constructor <;> first | rfl | (simp only [upd_id])
    · intro q
      show (pi q).toNat = _
      rw [hpi q]
      simp only [le_page_up, lt_page_up]
      by_cases h1 : s.beg b ≤ q * PAGE ∧ q * PAGE < newBegin
      · rw [if_pos h1, if_neg (fun hh => by omega), if_pos ⟨⟨h1.1, hq q h1.1 h1.2⟩, fun hc => by omega⟩]
      · rw [if_neg h1, if_neg (fun hh => by unfold Covers at hh; omega), if_neg (fun hh => by unfold Covers at hh; omega)]
        rfl

end Liballocs.PageIndex
