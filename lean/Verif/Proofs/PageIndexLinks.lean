import Verif.Proofs.PageIndexTree
import Verif.Props.Fill
/-!
# Inserting and removing leaves; filling pages; the top-level list
-/
namespace Liballocs.PageIndex

open Fill

/-! ## Pages -/

theorem le_page_up {b q : Nat} : pagenum (roundUp b PAGE) ≤ q ↔ b ≤ q * PAGE := by
  unfold pagenum roundUp PAGE; omega

theorem lt_page_down {e q : Nat} : q < pagenum (roundDown e PAGE) ↔ (q + 1) * PAGE ≤ e := by
  unfold pagenum roundDown PAGE; omega

theorem lt_page_up {b q : Nat} : q < pagenum (roundUp b PAGE) ↔ q * PAGE < b := by
  unfold pagenum roundUp PAGE; omega

theorem le_page_down {e q : Nat} : pagenum (roundDown e PAGE) ≤ q ↔ e < (q + 1) * PAGE := by
  unfold pagenum roundDown PAGE; omega

theorem pageDist_range {lo hi q : Nat} : (pagenum lo ≤ q ∧ q < pagenum lo + pageDist lo hi) ↔ (pagenum lo ≤ q ∧ q < pagenum hi) := by
  unfold pageDist; split <;> omega

theorem pageDist_up_down {b e m : Nat} (h : e ≤ b + m * PAGE) : pageDist (roundUp b PAGE) (roundDown e PAGE) ≤ m := by
  unfold pageDist pagenum roundUp roundDown PAGE at *
  split <;> omega

/-- Filling pages. -/
theorem setPages_spec (c : Config) (s : State) (lo hi num old : Nat) (hnum : num < 65536)
    (hlen : pageDist lo hi ≤ c.maxPages)
    (hold : c.debug = false ∨ ∀ q, pagenum lo ≤ q → q < pagenum hi → entry s q = 0 ∨ entry s q = old) :
    ∃ p, setPages c s lo hi num old = some { s with pidx := p } ∧
      ∀ q, (p q).toNat = if pagenum lo ≤ q ∧ q < pagenum hi then num else entry s q := by
  have hf := fill_completes c.debug c.maxPages s.pidx (pagenum lo) (pageDist lo hi) (BitVec.ofNat 16 num) (BitVec.ofNat 16 old) hlen
    (by
      rcases hold with h | h
      · exact Or.inl h
      · right
        intro j h1 h2
        obtain ⟨h3, h4⟩ := pageDist_range.mp ⟨h1, h2⟩
        rcases h j h3 h4 with e | e
        · left
          unfold entry at e
          exact BitVec.eq_of_toNat_eq (by simpa using e)
        · right
          unfold entry at e
          apply BitVec.eq_of_toNat_eq
          rw [BitVec.toNat_ofNat, ← e]
          exact (Nat.mod_eq_of_lt (s.pidx j).isLt).symm)
  refine ⟨filled s.pidx (pagenum lo) (pageDist lo hi) (BitVec.ofNat 16 num), ?_, ?_⟩
  · unfold setPages
    rw [hf]
    rfl
  · intro q
    simp only [filled, pageDist_range]
    split
    · rw [BitVec.toNat_ofNat]; exact Nat.mod_eq_of_lt hnum
    · rfl

/-! ## Inserting a leaf -/

theorem upd_upd (f : Nat → Nat) (i v w : Nat) : upd (upd f i v) i w = upd f i w := by
  funext j; unfold upd; split <;> rfl

theorem upd_id (f : Nat → Nat) (i : Nat) : upd f i (f i) = f := by
  funext j; unfold upd; split
  · rename_i e; rw [e]
  · rfl

/-- The effect of linking a free slot in as a child of `p` (or as a top-level one if `p = 0`) between `pre` and `post`. -/
structure Linked (s s' : State) (b p : Nat) (pre post : List Nat) : Prop where
  par : s'.par = upd s.par b p
  next : s'.next = updIf (upd s.next b (hd post 0)) (lst 0 pre) b
  prev : s'.prev = updIf (upd s.prev b (lst 0 pre)) (hd post 0) b
  first : s'.first = if p = 0 then upd s.first b 0 else upd (upd s.first b 0) p (hd (pre ++ b :: post) 0)

theorem links_insert {c : Config} {s s' : State} {kids rank} (h : Links c s kids rank) {b p : Nat} {pre post : List Nat}
    (r : Nat) (hr : p ≠ 0 → rank p < r) (hb0 : b ≠ 0) (hblt : b < c.nb) (hbd : ¬ Live s b) (hp : p = 0 ∨ Live s p) (hk : kids p = pre ++ post)
    (hl : Linked s s' b p pre post) (hlive : ∀ n, Live s' n ↔ Live s n ∨ n = b)
    (hbeg : s'.beg 0 = 0) (ha : s'.alloc 0 = 0) (hsub : s'.sub 0 = 0)
    (hst : (s'.start = s.start ∧ s.start ≠ 0) ∨ (p = 0 ∧ s'.start = b)) :
    Links c s' (fun x => if x = p then pre ++ b :: post else kids x) (upd rank b r) := by
  have hpb : p ≠ b := by
    rcases hp with rfl | hp
    · exact fun e => hb0 e.symm
    · exact fun e => hbd (e ▸ hp)
  have hbk : ∀ x, b ∉ kids x := fun x hm => hbd ((h.mem _ _).mp hm).1
  have hpar : ∀ n, n ≠ b → s'.par n = s.par n := fun n hn => by rw [hl.par, upd_ne hn]
  have hparb : s'.par b = p := by rw [hl.par, upd_same]
  have nz : ∀ x y, y ∈ kids x → y ≠ 0 := fun x y hy e => h.zero_not_mem x (e ▸ hy)
  refine { nbOk := h.nbOk, zero := ?_, lt := ?_, dead := ?_, mem := ?_, nodup := ?_, seg := ?_, firstKid := ?_, parLive := ?_, rank := ?_, start := ?_ }
  · refine ⟨hbeg, ?_, ?_, ha, hsub⟩
    · rw [hl.first]
      split
      · rw [upd_ne (Ne.symm hb0)]; exact h.zero.2.1
      · rename_i hp0
        rw [upd_ne (Ne.symm hp0), upd_ne (Ne.symm hb0)]; exact h.zero.2.1
    · rw [hpar 0 (Ne.symm hb0)]; exact h.zero.2.2.1
  · intro n hn
    rcases (hlive n).mp hn with hn | rfl
    · exact h.lt n hn
    · exact hblt
  · intro n hn
    have h1 : ¬ Live s n := fun e => hn ((hlive n).mpr (Or.inl e))
    have h2 : n ≠ b := fun e => hn ((hlive n).mpr (Or.inr e))
    rw [hpar n h2]; exact h.dead n h1
  · intro x y
    by_cases hxb : x = b
    · subst hxb
      rw [hparb]
      by_cases hy : y = p
      · subst hy; simp [hlive]
      · simp only [hy, if_false]
        constructor
        · intro hm; exact absurd hm (hbk y)
        · intro hh; exact absurd hh.2.symm hy
    · rw [hpar x hxb, hlive]
      by_cases hy : y = p
      · subst hy
        simp only [if_true]
        have := h.mem x y
        rw [hk] at this
        simp only [List.mem_append, List.mem_cons, hxb, false_or, or_false] at this ⊢
        exact this
      · simp only [hy, if_false, hxb, or_false]
        exact h.mem x y
  · intro x
    by_cases hx : x = p
    · simp only [hx, if_true]
      have h1 := h.nodup p
      have h2 := hbk p
      rw [hk] at h1 h2
      exact (List.perm_middle.nodup_iff).mpr (List.nodup_cons.mpr ⟨h2, h1⟩)
    · simp only [hx, if_false]; exact h.nodup x
  · intro x
    by_cases hx : x = p
    · simp only [hx, if_true]
      have h1 := h.seg p
      have h2 := h.zero_not_mem p
      have h3 := h.nodup p
      have h4 := hbk p
      rw [hk] at h1 h2 h3 h4
      rw [hl.next, hl.prev]
      exact seg_insert h2 h3 hb0 h4 h1
    · simp only [hx, if_false]
      apply seg_congr _ (h.seg x)
      intro y hy
      have hyb : y ≠ b := fun e => hbk x (e ▸ hy)
      have hyp : y ∉ kids p := by
        intro hm
        exact hx (((h.mem _ _).mp hy).2.symm.trans ((h.mem _ _).mp hm).2)
      rw [hk] at hyp
      rw [hl.next, hl.prev]
      rw [updIf_ne (ne_lst (nz x y hy) (fun e => hyp (List.mem_append_left _ e))), upd_ne hyb]
      rw [updIf_ne (ne_hd (nz x y hy) (fun e => hyp (List.mem_append_right _ e))), upd_ne hyb]
      exact ⟨rfl, rfl⟩
  · intro x hx
    rw [hl.first]
    by_cases hxb : x = b
    · subst hxb
      have hbe : kids x = [] := by
        cases hkx : kids x with
        | nil => rfl
        | cons y l =>
          have hy : y ∈ kids x := by rw [hkx]; simp
          obtain ⟨hyl, hyp⟩ := (h.mem _ _).mp hy
          have := h.parLive y hyl (by rw [hyp]; exact hb0)
          rw [hyp] at this
          exact absurd this hbd
      rw [if_neg (Ne.symm hpb), hbe]
      split
      · rw [upd_same]; rfl
      · rw [upd_ne (Ne.symm hpb), upd_same]; rfl
    · have hxl : Live s x := by
        rcases (hlive x).mp hx with e | e
        · exact e
        · exact absurd e hxb
      have hf := h.firstKid x hxl
      by_cases hxp : x = p
      · subst hxp
        have hx0 := h.ne0 hxl
        rw [if_neg hx0, upd_same, if_pos rfl]
      · rw [if_neg hxp]
        split
        · rw [upd_ne hxb]; exact hf
        · rw [upd_ne hxp, upd_ne hxb]; exact hf
  · intro x hx hx0
    by_cases hxb : x = b
    · subst hxb
      rw [hparb] at hx0 ⊢
      rcases hp with e | e
      · exact absurd e hx0
      · exact (hlive p).mpr (Or.inl e)
    · rw [hpar x hxb] at hx0 ⊢
      have hxl : Live s x := ((hlive x).mp hx).resolve_right hxb
      exact (hlive _).mpr (Or.inl (h.parLive x hxl hx0))
  · intro x hx hx0
    by_cases hxb : x = b
    · subst hxb
      rw [hparb, upd_same, upd_ne hpb]; omega
    · rw [hpar x hxb] at hx0 ⊢
      have hxl : Live s x := ((hlive x).mp hx).resolve_right hxb
      have hpl := h.parLive x hxl hx0
      have : s.par x ≠ b := fun e => hbd (e ▸ hpl)
      rw [upd_ne this, upd_ne hxb]
      exact h.rank x hxl hx0
  · left
    rcases hst with ⟨h1, h2⟩ | ⟨h1, h2⟩
    · rw [h1]
      have h3 : s.start ∈ kids 0 := by
        rcases h.start with e | e
        · exact e
        · exact absurd e.2 h2
      by_cases hp0 : 0 = p
      · subst hp0
        rw [hk] at h3
        simp only [if_true]
        rcases List.mem_append.mp h3 with e | e
        · exact List.mem_append_left _ e
        · exact List.mem_append_right _ (List.mem_cons_of_mem _ e)
      · simp only [hp0, if_false]; exact h3
    · rw [h2]; subst h1; simp

/-! ## Removing a leaf -/

/-- The effect of taking a slot out of its list and freeing it. -/
structure Unlinked (s s' : State) (b : Nat) (pre post : List Nat) : Prop where
  par : s'.par = upd s.par b 0
  next : ∀ x, x ≠ b → s'.next x = updIf s.next (s.prev b) (s.next b) x
  prev : ∀ x, x ≠ b → s'.prev x = updIf s.prev (s.next b) (s.prev b) x
  first : s'.first = if s.par b = 0 then s.first else upd s.first (s.par b) (hd (pre ++ post) 0)

theorem links_remove {c : Config} {s s' : State} {kids rank} (h : Links c s kids rank) {b : Nat} {pre post : List Nat}
    (hb : Live s b) (hleaf : kids b = []) (hk : kids (s.par b) = pre ++ b :: post)
    (hl : Unlinked s s' b pre post) (hlive : ∀ n, Live s' n ↔ Live s n ∧ n ≠ b)
    (hbeg : s'.beg 0 = 0) (ha : s'.alloc 0 = 0) (hsub : s'.sub 0 = 0)
    (hst : s'.start = s.start) (hne : s.start ≠ b) :
    Links c s' (fun x => if x = s.par b then pre ++ post else kids x) rank := by
  have hb0 := h.ne0 hb
  have hpb : s.par b ≠ b := h.par_ne hb
  have hpar : ∀ n, n ≠ b → s'.par n = s.par n := fun n hn => by rw [hl.par, upd_ne hn]
  have nz : ∀ x y, y ∈ kids x → y ≠ 0 := fun x y hy e => h.zero_not_mem x (e ▸ hy)
  have hparb : ∀ x, Live s x → s.par x ≠ b := by
    intro x hx e
    have := (h.mem x b).mpr ⟨hx, e⟩
    rw [hleaf] at this; simp at this
  have hnd := h.nodup (s.par b)
  have hz := h.zero_not_mem (s.par b)
  have hsg := h.seg (s.par b)
  rw [hk] at hnd hz hsg
  obtain ⟨hn1, hn2, hd12⟩ := List.nodup_append.mp hnd
  obtain ⟨hb2, hn2'⟩ := List.nodup_cons.mp hn2
  have hb1 : b ∉ pre := fun e => hd12 b e b List.mem_cons_self rfl
  refine { nbOk := h.nbOk, zero := ?_, lt := ?_, dead := ?_, mem := ?_, nodup := ?_, seg := ?_, firstKid := ?_, parLive := ?_, rank := ?_, start := ?_ }
  · refine ⟨hbeg, ?_, ?_, ha, hsub⟩
    · rw [hl.first]
      split
      · exact h.zero.2.1
      · rename_i hp0
        rw [upd_ne (Ne.symm hp0)]; exact h.zero.2.1
    · rw [hpar 0 (Ne.symm hb0)]; exact h.zero.2.2.1
  · intro n hn; exact h.lt n ((hlive n).mp hn).1
  · intro n hn
    by_cases hnb : n = b
    · rw [hnb, hl.par, upd_same]
    · rw [hpar n hnb]
      exact h.dead n (fun e => hn ((hlive n).mpr ⟨e, hnb⟩))
  · intro x y
    by_cases hxb : x = b
    · subst hxb
      have : ¬ Live s' x := fun e => ((hlive x).mp e).2 rfl
      simp only [this, false_and, iff_false]
      split
      · simp only [List.mem_append, not_or]; exact ⟨hb1, hb2⟩
      · rename_i hy
        intro hm
        exact hy ((h.mem _ _).mp hm).2.symm
    · rw [hpar x hxb, hlive]
      split
      · rename_i hy
        subst hy
        have := h.mem x (s.par b)
        rw [hk] at this
        simp only [List.mem_append, List.mem_cons, hxb, false_or] at this
        simp only [List.mem_append, ne_eq, hxb, not_false_eq_true, and_true]
        exact this
      · simp only [ne_eq, hxb, not_false_eq_true, and_true]
        exact h.mem x y
  · intro x
    split
    · exact List.nodup_append.mpr ⟨hn1, hn2', fun a ha b hb => hd12 a ha b (List.mem_cons_of_mem _ hb)⟩
    · exact h.nodup x
  · intro x
    split
    · apply seg_congr _ (seg_remove hz hnd hsg)
      intro y hy
      have hyb : y ≠ b := by
        intro e; subst e
        rcases List.mem_append.mp hy with e | e
        · exact hb1 e
        · exact hb2 e
      exact ⟨hl.next y hyb, hl.prev y hyb⟩
    · rename_i hx
      apply seg_congr _ (h.seg x)
      intro y hy
      have hyp : y ∉ kids (s.par b) := by
        intro hm
        exact hx (((h.mem _ _).mp hy).2.symm.trans ((h.mem _ _).mp hm).2)
      have hyb : y ≠ b := by
        intro e
        apply hyp
        rw [e, hk]; simp
      rw [hk] at hyp
      obtain ⟨e1, e2⟩ := seg_at hsg
      rw [hl.next y hyb, hl.prev y hyb, e1, e2]
      refine ⟨updIf_ne (ne_lst (nz x y hy) (fun e => hyp (List.mem_append_left _ e))), updIf_ne (ne_hd (nz x y hy) ?_)⟩
      exact fun e => hyp (List.mem_append_right _ (List.mem_cons_of_mem _ e))
  · intro x hx
    obtain ⟨hxl, hxb⟩ := (hlive x).mp hx
    have hf := h.firstKid x hxl
    rw [hl.first]
    by_cases hxp : x = s.par b
    · have := h.ne0 hxl
      rw [if_neg (show ¬ s.par b = 0 by rw [← hxp]; exact this), if_pos hxp, hxp, upd_same]
    · rw [if_neg hxp]
      by_cases hp0 : s.par b = 0
      · rw [if_pos hp0]; exact hf
      · rw [if_neg hp0, upd_ne hxp]; exact hf
  · intro x hx hx0
    obtain ⟨hxl, hxb⟩ := (hlive x).mp hx
    rw [hpar x hxb] at hx0 ⊢
    exact (hlive _).mpr ⟨h.parLive x hxl hx0, hparb x hxl⟩
  · intro x hx hx0
    obtain ⟨hxl, hxb⟩ := (hlive x).mp hx
    rw [hpar x hxb] at hx0 ⊢
    exact h.rank x hxl hx0
  · rw [hst]
    rcases h.start with e | e
    · left
      split
      · rename_i h0
        rw [h0, hk] at e
        rcases List.mem_append.mp e with e | e
        · exact List.mem_append_left _ e
        · rcases List.mem_cons.mp e with e | e
          · exact absurd e hne
          · exact List.mem_append_right _ e
      · exact e
    · right
      refine ⟨?_, e.2⟩
      split
      · rename_i h0
        have := e.1
        rw [h0, hk] at this
        simp at this
      · exact e.1

end Liballocs.PageIndex
