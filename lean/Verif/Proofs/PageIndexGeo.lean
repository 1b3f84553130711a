import Verif.Proofs.PageIndexLinks
/-!
# Ranges and page ownership under insertion and removal; the search of the top-level list
-/
namespace Liballocs.PageIndex

open Fill

/-- A range may be given to a new child of `p` (top level if `p = 0`): it lies inside `p`, apart from its other children. -/
structure Fits (c : Config) (s : State) (p lo hi : Nat) : Prop where
  nonzero : lo ≠ 0
  pos : lo < hi
  small : hi ≤ lo + c.maxPages * PAGE
  inside : p ≠ 0 → s.beg p ≤ lo ∧ hi ≤ s.fin p
  apart : ∀ d, Live s d → s.par d = p → s.fin d ≤ lo ∨ hi ≤ s.beg d
  aligned : p = 0 → lo % PAGE = 0 ∧ hi % PAGE = 0

/-- The pages of a range that fits belong to the parent. -/
theorem Fits.entry {c : Config} {s : State} {kids rank} (h : Inv c s kids rank) {p lo hi : Nat} (hp : p = 0 ∨ Live s p)
    (hf : Fits c s p lo hi) {q : Nat} (h1 : lo ≤ q * PAGE) (h2 : (q + 1) * PAGE ≤ hi) : PageIndex.entry s q = p := by
  apply h.owner_unique (h.owner q)
  rcases hp with rfl | hp
  · left
    refine ⟨rfl, ?_⟩
    intro n hn hc
    obtain ⟨r, hr, hr0, hrn⟩ := h.exists_root hn
    have hrc := h.anc_covers hrn hn hc
    have := hf.apart r hr hr0
    have := h.pos r hr
    unfold Covers at hrc
    unfold PAGE at *
    omega
  · right
    have hp0 := h.ne0 hp
    have := hf.inside hp0
    refine ⟨hp0, hp, ?_, ?_⟩
    · unfold Covers; omega
    · intro n hn hnp hc
      have := hf.apart n hn hnp
      unfold Covers at hc
      unfold PAGE at *
      omega

theorem geo_insert {c : Config} {s s' : State} {kids rank} (h : Inv c s kids rank) {b p lo hi : Nat} {pre post : List Nat}
    (hbd : ¬ Live s b) (hb0 : b ≠ 0) (hp : p = 0 ∨ Live s p) (hk : kids p = pre ++ post) (hf : Fits c s p lo hi)
    (hbeg : s'.beg = upd s.beg b lo) (hfin : s'.fin = upd s.fin b hi) (hpar : s'.par = upd s.par b p)
    (hent : ∀ q, entry s' q = if lo ≤ q * PAGE ∧ (q + 1) * PAGE ≤ hi then b else entry s q)
    (hsort : p = 0 → (∀ x ∈ pre, s.fin x ≤ lo) ∧ (∀ x ∈ post, hi ≤ s.beg x)) :
    Geo c s' (fun x => if x = p then pre ++ b :: post else kids x) := by
  have hlive : ∀ n, Live s' n ↔ Live s n ∨ n = b := by
    intro n
    unfold Live
    rw [hbeg, hfin]
    by_cases hn : n = b
    · subst hn
      simp only [upd_same, or_true, iff_true]
      have := hf.nonzero; have := hf.pos
      omega
    · simp [upd_ne hn, hn]
  have hB : ∀ n, n ≠ b → s'.beg n = s.beg n := fun n hn => by rw [hbeg, upd_ne hn]
  have hF : ∀ n, n ≠ b → s'.fin n = s.fin n := fun n hn => by rw [hfin, upd_ne hn]
  have hP : ∀ n, n ≠ b → s'.par n = s.par n := fun n hn => by rw [hpar, upd_ne hn]
  have hBb : s'.beg b = lo := by rw [hbeg, upd_same]
  have hFb : s'.fin b = hi := by rw [hfin, upd_same]
  have hPb : s'.par b = p := by rw [hpar, upd_same]
  have hne : ∀ n, Live s n → n ≠ b := fun n hn e => hbd (e ▸ hn)
  have hpb : p ≠ b := by
    rcases hp with rfl | hp
    · exact fun e => hb0 e.symm
    · exact hne p hp
  have hparb : ∀ n, Live s n → s.par n ≠ b := by
    intro n hn e
    have := h.parLive n hn (by rw [e]; exact hb0)
    exact hbd (e ▸ this)
  have hC : ∀ n q, n ≠ b → (Covers s' n q ↔ Covers s n q) := by
    intro n q hn; unfold Covers; rw [hB n hn, hF n hn]
  refine ⟨?_, ?_, ?_, ?_, ?_, ?_, ?_⟩
  · intro n hn
    rcases (hlive n).mp hn with hn | rfl
    · rw [hB n (hne n hn), hF n (hne n hn)]; exact h.pos n hn
    · rw [hBb, hFb]; exact hf.pos
  · intro n hn
    rcases (hlive n).mp hn with hn | rfl
    · rw [hB n (hne n hn), hF n (hne n hn)]; exact h.small n hn
    · rw [hBb, hFb]; exact hf.small
  · intro n hn hn0
    rcases (hlive n).mp hn with hn | rfl
    · have hnb := hne n hn
      rw [hP n hnb] at hn0 ⊢
      rw [hB n hnb, hF n hnb, hB _ (hparb n hn), hF _ (hparb n hn)]
      exact h.nest n hn hn0
    · rw [hPb] at hn0 ⊢
      rw [hBb, hFb, hB p hpb, hF p hpb]
      exact hf.inside hn0
  · intro x y hx hy hxy hne'
    rcases (hlive x).mp hx with hx | rfl <;> rcases (hlive y).mp hy with hy | rfl
    · have h1 := hne x hx; have h2 := hne y hy
      rw [hP x h1, hP y h2] at hxy
      rw [hB x h1, hF x h1, hB y h2, hF y h2]
      exact h.disj x y hx hy hxy hne'
    · have h1 := hne x hx
      rw [hP x h1, hPb] at hxy
      rw [hB x h1, hF x h1, hBb, hFb]
      have := hf.apart x hx hxy
      omega
    · have h1 := hne y hy
      rw [hP y h1, hPb] at hxy
      rw [hB y h1, hF y h1, hBb, hFb]
      have := hf.apart y hy hxy.symm
      omega
    · exact absurd rfl hne'
  · intro x hx hx0
    rcases (hlive x).mp hx with hx | rfl
    · have h1 := hne x hx
      rw [hP x h1] at hx0
      rw [hB x h1, hF x h1]
      exact h.top x hx hx0
    · rw [hPb] at hx0
      rw [hBb, hFb]
      exact hf.aligned hx0
  · have hold : (kids 0).Pairwise (fun a b => s'.fin a ≤ s'.beg b) := by
      apply List.Pairwise.imp_of_mem _ h.sorted
      intro x y hx hy hxy
      rw [hF x (hne x ((h.mem _ _).mp hx).1), hB y (hne y ((h.mem _ _).mp hy).1)]
      exact hxy
    by_cases h0 : 0 = p
    · subst h0
      simp only [if_true]
      rw [hk] at hold
      obtain ⟨h1, h2⟩ := hsort rfl
      rw [List.pairwise_append] at hold ⊢
      obtain ⟨o1, o2, o3⟩ := hold
      have m1 : ∀ x ∈ pre, x ≠ b := by
        intro x hx
        exact hne x ((h.mem x 0).mp (by rw [hk]; exact List.mem_append_left _ hx)).1
      have m2 : ∀ x ∈ post, x ≠ b := by
        intro x hx
        exact hne x ((h.mem x 0).mp (by rw [hk]; exact List.mem_append_right _ hx)).1
      refine ⟨o1, ?_, ?_⟩
      · rw [List.pairwise_cons]
        refine ⟨?_, o2⟩
        intro x hx
        rw [hFb, hB x (m2 x hx)]
        exact h2 x hx
      · intro x hx y hy
        rcases List.mem_cons.mp hy with rfl | hy
        · rw [hBb, hF x (m1 x hx)]; exact h1 x hx
        · exact o3 x hx y hy
    · simp only [h0, if_false]; exact hold
  · intro q
    rw [hent]
    split
    · rename_i hq
      right
      refine ⟨hb0, (hlive b).mpr (Or.inr rfl), ?_, ?_⟩
      · unfold Covers; rw [hBb, hFb]; exact hq
      · intro n hn hnp
        rcases (hlive n).mp hn with hn | rfl
        · rw [hP n (hne n hn)] at hnp
          exact absurd hnp (hparb n hn)
        · exact absurd (hPb.symm.trans hnp) hpb
    · rename_i hq
      have hbq : ¬ Covers s' b q := by unfold Covers; rw [hBb, hFb]; exact hq
      rcases h.owner q with ⟨e, ho⟩ | ⟨e, hl, hcv, hch⟩
      · left
        refine ⟨e, ?_⟩
        intro n hn
        rcases (hlive n).mp hn with hn | rfl
        · rw [hC n q (hne n hn)]; exact ho n hn
        · exact hbq
      · right
        refine ⟨e, (hlive _).mpr (Or.inl hl), (hC _ q (hne _ hl)).mpr hcv, ?_⟩
        intro n hn hnp
        rcases (hlive n).mp hn with hn | rfl
        · rw [hP n (hne n hn)] at hnp
          rw [hC n q (hne n hn)]
          exact hch n hn hnp
        · exact hbq

/-- The pages of a leaf are its own. -/
theorem leaf_entry {c : Config} {s : State} {kids rank} (h : Inv c s kids rank) {b : Nat} (hb : Live s b)
    (hleaf : ∀ n, Live s n → s.par n ≠ b) {q : Nat} (hq : Covers s b q) : entry s q = b := by
  apply h.owner_unique (h.owner q)
  right
  exact ⟨h.ne0 hb, hb, hq, fun n hn hnp => absurd hnp (hleaf n hn)⟩

theorem geo_remove {c : Config} {s s' : State} {kids rank} (h : Inv c s kids rank) {b : Nat} {pre post : List Nat}
    (hb : Live s b) (hleaf : ∀ n, Live s n → s.par n ≠ b) (hk : kids (s.par b) = pre ++ b :: post)
    (hbeg : s'.beg = upd s.beg b 0) (hfin : s'.fin = upd s.fin b 0) (hpar : s'.par = upd s.par b 0)
    (hent : ∀ q, entry s' q = if s.beg b ≤ q * PAGE ∧ (q + 1) * PAGE ≤ s.fin b then s.par b else entry s q) :
    Geo c s' (fun x => if x = s.par b then pre ++ post else kids x) := by
  have hlive : ∀ n, Live s' n ↔ Live s n ∧ n ≠ b := by
    intro n
    unfold Live
    rw [hbeg, hfin]
    by_cases hn : n = b
    · subst hn; simp [upd_same]
    · simp [upd_ne hn, hn]
  have hB : ∀ n, n ≠ b → s'.beg n = s.beg n := fun n hn => by rw [hbeg, upd_ne hn]
  have hF : ∀ n, n ≠ b → s'.fin n = s.fin n := fun n hn => by rw [hfin, upd_ne hn]
  have hP : ∀ n, n ≠ b → s'.par n = s.par n := fun n hn => by rw [hpar, upd_ne hn]
  have hC : ∀ n q, n ≠ b → (Covers s' n q ↔ Covers s n q) := by
    intro n q hn; unfold Covers; rw [hB n hn, hF n hn]
  refine ⟨?_, ?_, ?_, ?_, ?_, ?_, ?_⟩
  · intro n hn
    obtain ⟨hn, hnb⟩ := (hlive n).mp hn
    rw [hB n hnb, hF n hnb]; exact h.pos n hn
  · intro n hn
    obtain ⟨hn, hnb⟩ := (hlive n).mp hn
    rw [hB n hnb, hF n hnb]; exact h.small n hn
  · intro n hn hn0
    obtain ⟨hn, hnb⟩ := (hlive n).mp hn
    rw [hP n hnb] at hn0 ⊢
    rw [hB n hnb, hF n hnb, hB _ (hleaf n hn), hF _ (hleaf n hn)]
    exact h.nest n hn hn0
  · intro x y hx hy hxy hne'
    obtain ⟨hx, h1⟩ := (hlive x).mp hx
    obtain ⟨hy, h2⟩ := (hlive y).mp hy
    rw [hP x h1, hP y h2] at hxy
    rw [hB x h1, hF x h1, hB y h2, hF y h2]
    exact h.disj x y hx hy hxy hne'
  · intro x hx hx0
    obtain ⟨hx, h1⟩ := (hlive x).mp hx
    rw [hP x h1] at hx0
    rw [hB x h1, hF x h1]
    exact h.top x hx hx0
  · have hold : ∀ l : List Nat, l.Sublist (kids 0) → (∀ x ∈ l, x ≠ b) → l.Pairwise (fun a b => s'.fin a ≤ s'.beg b) := by
      intro l hl hlb
      apply List.Pairwise.imp_of_mem _ (h.sorted.sublist hl)
      intro x y hx hy hxy
      rw [hF x (hlb x hx), hB y (hlb y hy)]
      exact hxy
    by_cases h0 : 0 = s.par b
    · simp only [h0, if_true]
      have hnd := h.nodup (s.par b)
      rw [hk] at hnd
      obtain ⟨hn1, hn2, hd12⟩ := List.nodup_append.mp hnd
      obtain ⟨hb2, hn2'⟩ := List.nodup_cons.mp hn2
      apply hold
      · rw [h0, hk]
        exact List.Sublist.append_left (List.sublist_cons_self _ _) _
      · intro x hx e
        subst e
        rcases List.mem_append.mp hx with e | e
        · exact hd12 x e x List.mem_cons_self rfl
        · exact hb2 e
    · simp only [h0, if_false]
      apply hold _ (List.Sublist.refl _)
      intro x hx e
      subst e
      exact h0 ((h.mem _ _).mp hx).2.symm
  · intro q
    rw [hent]
    split
    · rename_i hq
      have hcb : Covers s b q := hq
      by_cases hp0 : s.par b = 0
      · left
        refine ⟨hp0, ?_⟩
        intro n hn hc
        obtain ⟨hn, hnb⟩ := (hlive n).mp hn
        rw [hC n q hnb] at hc
        obtain ⟨r, hr, hr0, hrn⟩ := h.exists_root hn
        have hrc := h.anc_covers hrn hn hc
        have hrb : r = b := by
          by_cases e : r = b
          · exact e
          · exact absurd (h.disj r b hr hb (by rw [hr0, hp0]) e)
              (fun hd => Inv.disj_of_has hd (Inv.covers_has_page hrc) (Inv.covers_has_page hcb))
        subst hrb
        rcases Inv.anc_cases hrn with e | ⟨k, hk1, _, hkn⟩
        · exact hnb e.symm
        · exact hleaf k (h.anc_live hkn hn) hk1
      · right
        have hpl := h.parLive b hb hp0
        have hpb := h.par_ne hb
        refine ⟨hp0, (hlive _).mpr ⟨hpl, hpb⟩, ?_, ?_⟩
        · rw [hC _ q hpb]
          exact h.anc_covers (Anc.step hp0 Anc.refl) hb hcb
        · intro n hn hnp hc
          obtain ⟨hn, hnb⟩ := (hlive n).mp hn
          rw [hC n q hnb] at hc
          rw [hP n hnb] at hnp
          exact Inv.disj_of_has (h.disj n b hn hb hnp hnb) (Inv.covers_has_page hc) (Inv.covers_has_page hcb)
    · rename_i hq
      rcases h.owner q with ⟨e, ho⟩ | ⟨e, hl, hcv, hch⟩
      · left
        refine ⟨e, ?_⟩
        intro n hn
        obtain ⟨hn, hnb⟩ := (hlive n).mp hn
        rw [hC n q hnb]; exact ho n hn
      · right
        have hmb : entry s q ≠ b := fun e => hq (e ▸ hcv)
        refine ⟨e, (hlive _).mpr ⟨hl, hmb⟩, (hC _ q hmb).mpr hcv, ?_⟩
        intro n hn hnp
        obtain ⟨hn, hnb⟩ := (hlive n).mp hn
        rw [hP n hnb] at hnp
        rw [hC n q hnb]
        exact hch n hn hnp

/-! ## Searching the top-level list -/

/-- A search along a list stops at the first node satisfying the predicate. -/
theorem search_spec {dir other : Nat → Nat} {P : Nat → Bool} : ∀ (l1 l2 : List Nat) (f prev p : Nat), 0 ∉ l1 ++ l2 →
    Seg dir other p (l1 ++ l2) 0 → (∀ x ∈ l1, P x = false) → (∀ x ∈ l2, P x = true) → l1.length < f →
    search dir P f prev (hd (l1 ++ l2) 0) = some (lst prev l1, hd l2 0)
  | [], [], f, prev, p, _, _, _, _, hf => by
    cases f with
    | zero => simp at hf
    | succ f => simp [search, hd, lst]
  | [], x :: l2, f, prev, p, _, _, _, h2, hf => by
    cases f with
    | zero => simp at hf
    | succ f =>
      have := h2 x List.mem_cons_self
      simp [search, hd, lst, this]
  | x :: l1, l2, f, prev, p, h0, hs, h1, h2, hf => by
    cases f with
    | zero => simp at hf
    | succ f =>
      obtain ⟨_, h4, h5⟩ := hs
      have hx := h1 x List.mem_cons_self
      have hx0 : x ≠ 0 := fun e => h0 (by simp [e])
      have hh : hd (x :: l1 ++ l2) 0 = x := rfl
      rw [hh, search, if_neg (by simp [hx0, hx]), h4]
      exact search_spec l1 l2 f x x (fun e => h0 (List.mem_cons_of_mem _ e)) h5
        (fun y hy => h1 y (List.mem_cons_of_mem _ hy)) h2 (by simp at hf; omega)

theorem hd_reverse (l : List Nat) (d : Nat) : hd l.reverse d = lst d l := by
  induction l generalizing d with
  | nil => rfl
  | cons x l ih =>
    rw [List.reverse_cons, hd_append]
    show hd l.reverse x = lst x l
    exact ih x

theorem lst_reverse (l : List Nat) (d : Nat) : lst d l.reverse = hd l d := by
  have := hd_reverse l.reverse d
  rw [List.reverse_reverse] at this
  exact this.symm

/-- A list read backwards. -/
theorem seg_reverse {nx pv : Nat → Nat} : ∀ (l : List Nat) (p n : Nat), Seg nx pv p l n → Seg pv nx n l.reverse p
  | [], _, _, _ => trivial
  | x :: l, p, n, ⟨h1, h2, h3⟩ => by
    rw [List.reverse_cons, seg_append]
    refine ⟨seg_reverse l x n h3, ?_, h1, trivial⟩
    rw [lst_reverse, h2]

/-- What the searches need to know of the top-level list. -/
structure TopList (c : Config) (s : State) (l : List Nat) : Prop where
  zero : 0 ∉ l
  nodup : l.Nodup
  len : l.length ≤ c.nb
  seg : Seg s.next s.prev 0 l 0
  start : s.start ∈ l ∨ (l = [] ∧ s.start = 0)
  pos : ∀ x ∈ l, 0 < s.fin x

theorem seg_suffix {nx pv : Nat → Nat} {l1 l2 : List Nat} {p n : Nat} (h : Seg nx pv p (l1 ++ l2) n) : Seg nx pv (lst p l1) l2 n := by
  rw [seg_append] at h; exact h.2

theorem lowestGe_spec {c : Config} {s : State} {A B : List Nat} {addr : Nat} (h : TopList c s (A ++ B))
    (hA : ∀ x ∈ A, s.fin x ≤ addr) (hB : ∀ x ∈ B, addr < s.fin x) : lowestGe c s addr = some (hd B 0) := by
  have hlen := h.len
  have hA' : ∀ x ∈ A, decide (addr ≤ s.fin x - 1) = false := by
    intro x hx
    have := hA x hx
    have := h.pos x (List.mem_append_left _ hx)
    simp; omega
  have hB' : ∀ x ∈ B, decide (addr ≤ s.fin x - 1) = true := by
    intro x hx
    have := hB x hx
    simp; omega
  unfold lowestGe
  rcases h.start with hst | ⟨he, hst⟩
  · rcases List.mem_append.mp hst with hst | hst
    · -- the start is below: search forwards
      obtain ⟨A1, A2, rfl⟩ := List.append_of_mem hst
      have hseg : Seg s.next s.prev (lst 0 A1) ((s.start :: A2) ++ B) 0 := by
        apply seg_suffix (l1 := A1)
        have := h.seg
        simpa using this
      have hz : 0 ∉ (s.start :: A2) ++ B := by
        intro e
        apply h.zero
        simp only [List.append_assoc]
        exact List.mem_append_right _ e
      have := search_spec (P := fun cur => decide (addr ≤ s.fin cur - 1)) (s.start :: A2) B (c.nb + 1) 0 _ hz hseg
        (fun x hx => hA' x (List.mem_append_right _ hx)) hB' (by simp at hlen ⊢; omega)
      have hh : hd ((s.start :: A2) ++ B) 0 = s.start := rfl
      rw [hh] at this
      rw [this]
      simp only
      cases B with
      | nil => simp [hd]
      | cons y B =>
        have hy0 : y ≠ 0 := fun e => h.zero (by simp [e])
        have hys : y ≠ s.start := by
          intro e
          have h1 := hA s.start (by simp)
          have h2 := hB y (by simp)
          rw [e] at h2; omega
        simp [hd, hy0, hys]
    · -- the start is above: search backwards
      obtain ⟨B1, B2, rfl⟩ := List.append_of_mem hst
      have hs0 : s.start ≠ 0 := fun e => h.zero (by simp [e])
      have hst' := hB' s.start hst
      rw [search, if_pos (Or.inr hst')]
      simp only [ne_eq, not_true_eq_false, and_false, if_false, hs0]
      have hrev := seg_reverse _ _ _ h.seg
      have e1 : (A ++ (B1 ++ s.start :: B2)).reverse = B2.reverse ++ ((s.start :: B1.reverse) ++ A.reverse) := by simp
      rw [e1] at hrev
      have hseg := seg_suffix hrev
      have hz : 0 ∉ (s.start :: B1.reverse) ++ A.reverse := by
        intro e
        apply h.zero
        have : 0 ∈ (A ++ (B1 ++ s.start :: B2)).reverse := by rw [e1]; exact List.mem_append_right _ e
        exact List.mem_reverse.mp this
      have := search_spec (P := fun cur => !decide (addr ≤ s.fin cur - 1)) (s.start :: B1.reverse) A.reverse (c.nb + 1) 0 _ hz hseg
        (fun x hx => by
          have : x ∈ B1 ++ s.start :: B2 := by
            rcases List.mem_cons.mp hx with rfl | hx
            · simp
            · exact List.mem_append_left _ (List.mem_reverse.mp hx)
          rw [hB' x this]; rfl)
        (fun x hx => by rw [hA' x (List.mem_reverse.mp hx)]; rfl)
        (by simp at hlen ⊢; omega)
      have hh : hd ((s.start :: B1.reverse) ++ A.reverse) 0 = s.start := rfl
      rw [hh] at this
      rw [this]
      have e2 : lst 0 (s.start :: B1.reverse) = hd (B1 ++ s.start :: B2) 0 := by
        show lst s.start B1.reverse = _
        rw [lst_reverse]
        cases B1 <;> rfl
      have hne : hd (B1 ++ s.start :: B2) 0 ≠ 0 := by
        intro e
        rcases @hd_mem_or (B1 ++ s.start :: B2) 0 with ⟨_, e'⟩ | hm
        · simp at e'
        · exact h.zero (List.mem_append_right _ (e ▸ hm))
      have hne2 : hd A.reverse 0 ≠ s.start := by
        intro e
        rcases @hd_mem_or A.reverse 0 with ⟨e', _⟩ | hm
        · exact hs0 (e.symm.trans e')
        · rw [e] at hm
          have := hA' _ (List.mem_reverse.mp hm)
          rw [hst'] at this; cases this
      simp [searchBack, assertIf, e2, hne, hne2]
  · obtain ⟨rfl, rfl⟩ := List.append_eq_nil_iff.mp he
    rw [hst]
    simp [search, hd]

theorem highestLt_spec {c : Config} {s : State} {A B : List Nat} {addr : Nat} (h : TopList c s (A ++ B))
    (hA : ∀ x ∈ A, s.beg x < addr) (hB : ∀ x ∈ B, addr ≤ s.beg x) : highestLt c s addr = some (lst 0 A) := by
  have hlen := h.len
  have hA' : ∀ x ∈ A, decide (s.beg x < addr) = true := by
    intro x hx
    simpa using hA x hx
  have hB' : ∀ x ∈ B, decide (s.beg x < addr) = false := by
    intro x hx
    have := hB x hx
    simp; omega
  unfold highestLt
  rcases h.start with hst | ⟨he, hst⟩
  · rcases List.mem_append.mp hst with hst | hst
    · -- the start is below: search forwards
      obtain ⟨A1, A2, rfl⟩ := List.append_of_mem hst
      have hs0 : s.start ≠ 0 := fun e => h.zero (by simp [e])
      have hst' := hA' s.start hst
      rw [search, if_pos (Or.inr hst')]
      simp only [ne_eq, not_true_eq_false, and_false, if_false, hs0]
      have hseg : Seg s.next s.prev (lst 0 A1) ((s.start :: A2) ++ B) 0 := by
        apply seg_suffix (l1 := A1)
        have := h.seg
        simpa using this
      have hz : 0 ∉ (s.start :: A2) ++ B := by
        intro e
        apply h.zero
        simp only [List.append_assoc]
        exact List.mem_append_right _ e
      have := search_spec (P := fun cur => !decide (s.beg cur < addr)) (s.start :: A2) B (c.nb + 1) 0 _ hz hseg
        (fun x hx => by rw [hA' x (List.mem_append_right _ hx)]; rfl) (fun x hx => by rw [hB' x hx]; rfl)
        (by simp at hlen ⊢; omega)
      have hh : hd ((s.start :: A2) ++ B) 0 = s.start := rfl
      rw [hh] at this
      rw [this]
      have e2 : lst 0 (s.start :: A2) = lst 0 (A1 ++ s.start :: A2) := by
        rw [lst_append]; rfl
      have hne : lst 0 (A1 ++ s.start :: A2) ≠ 0 := by
        intro e
        rcases @lst_mem_or (A1 ++ s.start :: A2) 0 with ⟨_, e'⟩ | hm
        · simp at e'
        · exact h.zero (List.mem_append_left _ (e ▸ hm))
      have hne2 : hd B 0 ≠ s.start := by
        intro e
        rcases @hd_mem_or B 0 with ⟨e', _⟩ | hm
        · exact hs0 (e.symm.trans e')
        · rw [e] at hm
          have := hB' _ hm
          rw [hst'] at this; cases this
      simp [searchBack, assertIf, e2, hne, hne2]
    · -- the start is above: search backwards
      obtain ⟨B1, B2, rfl⟩ := List.append_of_mem hst
      have hrev := seg_reverse _ _ _ h.seg
      have e1 : (A ++ (B1 ++ s.start :: B2)).reverse = B2.reverse ++ ((s.start :: B1.reverse) ++ A.reverse) := by simp
      rw [e1] at hrev
      have hseg := seg_suffix hrev
      have hz : 0 ∉ (s.start :: B1.reverse) ++ A.reverse := by
        intro e
        apply h.zero
        have : 0 ∈ (A ++ (B1 ++ s.start :: B2)).reverse := by rw [e1]; exact List.mem_append_right _ e
        exact List.mem_reverse.mp this
      have := search_spec (P := fun cur => decide (s.beg cur < addr)) (s.start :: B1.reverse) A.reverse (c.nb + 1) 0 _ hz hseg
        (fun x hx => by
          apply hB'
          rcases List.mem_cons.mp hx with rfl | hx
          · simp
          · exact List.mem_append_left _ (List.mem_reverse.mp hx))
        (fun x hx => hA' x (List.mem_reverse.mp hx))
        (by simp at hlen ⊢; omega)
      have hh : hd ((s.start :: B1.reverse) ++ A.reverse) 0 = s.start := rfl
      rw [hh] at this
      rw [this]
      simp only [hd_reverse]
      rcases @lst_mem_or A 0 with ⟨e, e'⟩ | hm
      · rw [e]; simp
      · have hy0 : lst 0 A ≠ 0 := fun e => h.zero (List.mem_append_left _ (e ▸ hm))
        have hys : lst 0 A ≠ s.start := by
          intro e
          have h1 := hA' _ hm
          have h2 := hB' s.start hst
          rw [e, h2] at h1; cases h1
        simp [hy0, hys]
  · obtain ⟨rfl, rfl⟩ := List.append_eq_nil_iff.mp he
    rw [hst]
    simp [search, lst]

end Liballocs.PageIndex
