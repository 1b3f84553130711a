import Verif.Proofs.PageIndexNew
/-!
# Deleting a big allocation and everything under it
-/
namespace Liballocs.PageIndex

open Fill

/-- `s'` is `s` without the subtrees of `roots`; `order` lists the slots removed, in the order of removal. -/
structure Deleted (s s' : State) (roots order : List Nat) : Prop where
  mem : ∀ n, n ∈ order ↔ Live s n ∧ ∃ k ∈ roots, Anc s k n
  nodup : order.Nodup
  live : ∀ n, Live s' n ↔ Live s n ∧ n ∉ order
  beg : ∀ n, n ∉ order → s'.beg n = s.beg n
  fin : ∀ n, n ∉ order → s'.fin n = s.fin n
  par : ∀ n, n ∉ order → s'.par n = s.par n
  alloc : s'.alloc = s.alloc
  sub : s'.sub = s.sub
  priv : s'.priv = s.priv
  privFree : s'.privFree = s.privFree
  subPriv : s'.subPriv = s.subPriv
  subPrivFree : s'.subPrivFree = s.subPrivFree
  log : s'.log = s.log ++ order.flatMap (callsOf s)
  leavesFirst : order.Pairwise (fun x y => ¬ Anc s x y)
  start : s'.start = s.start

theorem Deleted.nil (s : State) : Deleted s s [] [] := by
  constructor <;> simp

/-- Survivors keep their ancestors. -/
theorem Deleted.anc {c : Config} {s s' : State} {kids rank} (h : Links c s kids rank) {roots order : List Nat}
    (hd : Deleted s s' roots order) {x n : Nat} (hn : Live s n) (hno : n ∉ order) : Anc s' x n ↔ Anc s x n := by
  have up : ∀ n, Live s n → n ∉ order → s.par n ≠ 0 → Live s (s.par n) ∧ s.par n ∉ order := by
    intro n hn hno h0
    refine ⟨h.parLive n hn h0, ?_⟩
    intro hm
    obtain ⟨_, k, hk, hka⟩ := (hd.mem _).mp hm
    exact hno ((hd.mem n).mpr ⟨hn, k, hk, Anc.step h0 hka⟩)
  constructor
  · intro ha
    induction ha with
    | refl => exact Anc.refl
    | step hp _ ih =>
      rw [hd.par _ hno] at hp ih
      obtain ⟨h1, h2⟩ := up _ hn hno hp
      exact Anc.step hp (ih h1 h2)
  · intro ha
    induction ha with
    | refl => exact Anc.refl
    | step hp _ ih =>
      obtain ⟨h1, h2⟩ := up _ hn hno hp
      exact Anc.step (by rw [hd.par _ hno]; exact hp) (by rw [hd.par _ hno]; exact ih h1 h2)

theorem Deleted.comp {c : Config} {s s1 s2 : State} {kids rank} (h : Links c s kids rank) {r1 r2 o1 o2 : List Nat}
    (h1 : Deleted s s1 r1 o1) (h2 : Deleted s1 s2 r2 o2) : Deleted s s2 (r1 ++ r2) (o1 ++ o2) := by
  have hcalls : callsOf s1 = callsOf s := by
    funext n
    unfold callsOf
    rw [h1.priv, h1.privFree, h1.subPriv, h1.subPrivFree]
  have hmem : ∀ n, n ∈ o1 ++ o2 ↔ Live s n ∧ ∃ k ∈ r1 ++ r2, Anc s k n := by
    intro n
    rw [List.mem_append]
    constructor
    · rintro (hm | hm)
      · obtain ⟨hl, k, hk, ha⟩ := (h1.mem n).mp hm
        exact ⟨hl, k, List.mem_append_left _ hk, ha⟩
      · obtain ⟨hl, k, hk, ha⟩ := (h2.mem n).mp hm
        obtain ⟨hl, hno⟩ := (h1.live n).mp hl
        exact ⟨hl, k, List.mem_append_right _ hk, (h1.anc h hl hno).mp ha⟩
    · rintro ⟨hl, k, hk, ha⟩
      by_cases hno : n ∈ o1
      · exact Or.inl hno
      · right
        rcases List.mem_append.mp hk with hk | hk
        · exact absurd ((h1.mem n).mpr ⟨hl, k, hk, ha⟩) hno
        · exact (h2.mem n).mpr ⟨(h1.live n).mpr ⟨hl, hno⟩, k, hk, (h1.anc h hl hno).mpr ha⟩
  have hsplit : ∀ n, n ∉ o1 ++ o2 → n ∉ o1 ∧ n ∉ o2 := by
    intro n hn
    exact ⟨fun e => hn (List.mem_append_left _ e), fun e => hn (List.mem_append_right _ e)⟩
  refine ⟨hmem, ?_, ?_, ?_, ?_, ?_, h2.alloc.trans h1.alloc, h2.sub.trans h1.sub, h2.priv.trans h1.priv, h2.privFree.trans h1.privFree,
    h2.subPriv.trans h1.subPriv, h2.subPrivFree.trans h1.subPrivFree, ?_, ?_, h2.start.trans h1.start⟩
  · rw [List.nodup_append]
    refine ⟨h1.nodup, h2.nodup, ?_⟩
    intro x hx y hy e
    subst e
    exact ((h1.live x).mp ((h2.mem x).mp hy).1).2 hx
  · intro n
    rw [h2.live, h1.live, List.mem_append]
    constructor
    · rintro ⟨⟨a, b⟩, d⟩; exact ⟨a, fun e => e.elim b d⟩
    · rintro ⟨a, b⟩; exact ⟨⟨a, fun e => b (Or.inl e)⟩, fun e => b (Or.inr e)⟩
  · intro n hn; rw [h2.beg n (hsplit n hn).2, h1.beg n (hsplit n hn).1]
  · intro n hn; rw [h2.fin n (hsplit n hn).2, h1.fin n (hsplit n hn).1]
  · intro n hn; rw [h2.par n (hsplit n hn).2, h1.par n (hsplit n hn).1]
  · rw [h2.log, h1.log, hcalls, List.flatMap_append, List.append_assoc]
  · rw [List.pairwise_append]
    refine ⟨h1.leavesFirst, ?_, ?_⟩
    · apply List.Pairwise.imp_of_mem _ h2.leavesFirst
      intro x y _ hy hxy ha
      obtain ⟨hl, hno⟩ := (h1.live y).mp ((h2.mem y).mp hy).1
      exact hxy ((h1.anc h hl hno).mpr ha)
    · intro x hx y hy ha
      obtain ⟨hl, hno⟩ := (h1.live y).mp ((h2.mem y).mp hy).1
      obtain ⟨_, k, hk, hka⟩ := (h1.mem x).mp hx
      exact hno ((h1.mem y).mpr ⟨hl, k, hk, hka.trans ha⟩)

/-- Replacing the roots by others with the same subtrees. -/
theorem Deleted.roots {s s' : State} {r1 r2 order : List Nat} (h : Deleted s s' r1 order)
    (hr : ∀ n, Live s n → ((∃ k ∈ r1, Anc s k n) ↔ ∃ k ∈ r2, Anc s k n)) : Deleted s s' r2 order :=
  { h with
    mem := by
      intro n
      rw [h.mem]
      constructor
      · rintro ⟨hl, hk⟩; exact ⟨hl, (hr n hl).mp hk⟩
      · rintro ⟨hl, hk⟩; exact ⟨hl, (hr n hl).mpr hk⟩ }

/-! ## Deleting a leaf -/

theorem unlink_spec {c : Config} {s : State} {kids rank} (h : Links c s kids rank) {b : Nat} {pre post : List Nat} (lg : List Call)
    (hb : Live s b) (hk : kids (s.par b) = pre ++ b :: post) :
    ∃ nx pv pr fi, unlink c { s with log := lg } b = some { s with log := lg, next := nx, prev := pv, par := pr, first := fi } ∧
      Unlinked s { s with log := lg, next := nx, prev := pv, par := pr, first := fi } b pre post := by
  have hsg := h.seg (s.par b)
  rw [hk] at hsg
  obtain ⟨hpv, hnx⟩ := seg_at hsg
  unfold unlink
  by_cases hp0 : s.par b = 0
  · rw [if_neg (by simp [hp0])]
    refine ⟨_, _, _, _, rfl, ?_, fun _ _ => rfl, fun _ _ => rfl, ?_⟩
    · show s.par = _
      rw [← hp0, upd_id]
    · rw [if_pos hp0]
  · have hpl := h.parLive b hb hp0
    have hfk := h.firstKid _ hpl
    rw [hk] at hfk
    have hz : 0 ∉ pre ++ b :: post := hk ▸ h.zero_not_mem (s.par b)
    have hnd : (pre ++ b :: post).Nodup := hk ▸ h.nodup (s.par b)
    rw [if_pos hp0]
    unfold unlinkChild
    have hab : abortIf (s.par b == 0) = some () := by simp [abortIf, hp0]
    simp only [hab, Option.bind_eq_bind, Option.bind_some]
    unfold unlinkFirst
    cases pre with
    | nil =>
      have e1 : b = s.first (s.par b) := by rw [hfk]; rfl
      have e2 : (s.prev b == 0) = true := by simp [hpv, lst]
      simp only [← e1, if_true, assertIf, e2, Bool.not_true, Bool.and_false, Bool.false_eq_true, if_false, Option.map_some, Option.bind_some]
      refine ⟨_, _, _, _, rfl, rfl, ?_, ?_, ?_⟩
      · intro x hx; exact upd_ne hx
      · intro x hx; exact upd_ne hx
      · simp only [hp0, if_false, List.nil_append]
        rw [hnx]
    | cons y pre =>
      have hyb : b ≠ y := by
        intro e
        have := (List.nodup_cons.mp hnd).1
        exact this (by rw [e]; simp)
      have e0 : s.first (s.par b) = y := by rw [hfk]; rfl
      have e1 : ¬ b = s.first (s.par b) := by rw [e0]; exact hyb
      have hpb : s.prev b ≠ 0 := by
        rw [hpv]
        intro e
        rcases @lst_mem_or (y :: pre) 0 with ⟨_, e'⟩ | hm
        · simp at e'
        · rw [e] at hm
          exact hz (List.mem_append_left _ hm)
      have e2 : (s.prev b != 0) = true := by simp [hpb]
      simp only [e1, if_false, assertIf, e2, Bool.not_true, Bool.and_false, Bool.false_eq_true, Option.map_some, Option.bind_some]
      refine ⟨_, _, _, _, rfl, rfl, ?_, ?_, ?_⟩
      · intro x hx; exact upd_ne hx
      · intro x hx; exact upd_ne hx
      · simp only [hp0, if_false]
        have : hd (y :: pre ++ post) 0 = s.first (s.par b) := by rw [e0]; rfl
        rw [this, upd_id]

theorem delSelf_spec {c : Config} {s : State} {kids rank} (h : Inv c s kids rank) {b : Nat} (hb : Live s b) (hleaf : kids b = [])
    (hst : s.start ≠ b) :
    ∃ s' kids', delSelf c s b = some s' ∧ Inv c s' kids' rank ∧ Deleted s s' [b] [b] ∧
      ∀ x, kids' x = (kids x).filter (fun y => decide (y ∉ [b])) := by
  have hb0 := h.ne0 hb
  have hlt := h.lt b hb
  have hnb := h.nbOk
  have hno : ∀ n, Live s n → s.par n ≠ b := by
    intro n hn e
    have := (h.mem n b).mpr ⟨hn, e⟩
    rw [hleaf] at this; simp at this
  obtain ⟨pre, post, hk⟩ := List.append_of_mem ((h.mem b (s.par b)).mpr ⟨hb, rfl⟩)
  obtain ⟨nx, pv, pr, fi, e1, hl⟩ := unlink_spec h.toLinks (s.log ++ callsOf s b) hb hk
  have hparlt : s.par b < 65536 := by
    by_cases hp0 : s.par b = 0
    · omega
    · have := h.lt _ (h.parLive b hb hp0); omega
  obtain ⟨pi, e2, hpi⟩ := setPages_spec c { s with log := s.log ++ callsOf s b, next := nx, prev := pv, par := pr, first := fi }
    (roundUp (s.beg b) PAGE) (roundDown (s.fin b) PAGE) (s.par b) b hparlt (pageDist_up_down (h.small b hb)) (by
      right
      intro q h1 h2
      right
      exact leaf_entry h hb hno ⟨le_page_up.mp h1, lt_page_down.mp h2⟩)
  unfold delSelf
  simp only [e1, Option.bind_eq_bind, Option.bind_some, e2]
  have hlive : ∀ n, Live (clear { s with log := s.log ++ callsOf s b, next := nx, prev := pv, par := pr, first := fi, pidx := pi } b) n ↔
      Live s n ∧ n ≠ b := by
    intro n
    unfold Live clear
    by_cases hn : n = b
    · subst hn; simp [upd_same]
    · simp [upd_ne hn, hn]
  have hent : ∀ q, (pi q).toNat = if s.beg b ≤ q * PAGE ∧ (q + 1) * PAGE ≤ s.fin b then s.par b else entry s q := by
    intro q
    rw [hpi q]
    simp only [le_page_up, lt_page_down]
    rfl
  refine ⟨_, (fun x => if x = s.par b then pre ++ post else kids x), rfl, ⟨?_, ?_⟩, ?_, ?_⟩
  · refine links_remove h.toLinks hb hleaf hk ⟨hl.par, hl.next, hl.prev, hl.first⟩ hlive ?_ h.zero.2.2.2.1 h.zero.2.2.2.2 rfl hst
    show upd s.beg b 0 0 = 0
    rw [upd_ne (Ne.symm hb0)]; exact h.zero.1
  · exact geo_remove h hb hno hk rfl rfl hl.par hent
  · refine ⟨?_, by simp, ?_, ?_, ?_, ?_, rfl, rfl, rfl, rfl, rfl, rfl, ?_, by simp, rfl⟩
    · intro n
      simp only [List.mem_singleton, exists_eq_left]
      constructor
      · rintro rfl; exact ⟨hb, Anc.refl⟩
      · rintro ⟨hn, ha⟩
        rcases Inv.anc_cases ha with e | ⟨k, hk1, _, hkn⟩
        · exact e.symm
        · exact absurd hk1 (hno k (h.anc_live hkn hn))
    · intro n; rw [hlive]; simp
    · intro n hn; exact upd_ne (by simpa using hn)
    · intro n hn; exact upd_ne (by simpa using hn)
    · intro n hn
      show pr n = s.par n
      have : pr = upd s.par b 0 := hl.par
      rw [this, upd_ne (by simpa using hn)]
    · simp [clear]
  · intro x
    have hfil : ∀ l : List Nat, b ∉ l → l.filter (fun y => decide (y ∉ [b])) = l := by
      intro l hl
      rw [List.filter_eq_self]
      intro a ha
      have : a ≠ b := fun e => hl (e ▸ ha)
      simpa using this
    have hnd := h.nodup (s.par b)
    rw [hk] at hnd
    obtain ⟨hn1, hn2, hd12⟩ := List.nodup_append.mp hnd
    obtain ⟨hb2, hn2'⟩ := List.nodup_cons.mp hn2
    have hb1 : b ∉ pre := fun e => hd12 b e b List.mem_cons_self rfl
    by_cases hx : x = s.par b
    · subst hx
      simp only [if_true]
      rw [hk, List.filter_append, List.filter_cons_of_neg (by simp), hfil pre hb1, hfil post hb2]
    · simp only [hx, if_false]
      rw [hfil]
      intro e
      exact hx ((h.mem _ _).mp e).2.symm

/-! ## Deleting a subtree -/

theorem Path.congr {s s' : State} {n : Nat} {l : List Nat} (hp : Path s n l) (h : ∀ x ∈ l, s'.par x = s.par x) : Path s' n l := by
  induction hp with
  | top => exact Path.top
  | @step n l h0 hp ih =>
    have e := h n List.mem_cons_self
    exact Path.step (by rw [e]; exact h0) (by rw [e]; exact ih (fun x hx => h x (List.mem_cons_of_mem _ hx)))

/-- What deleting a subtree achieves. -/
def DelOk (c : Config) (delF : State → Nat → Option State) (s : State) (b : Nat) (kids : Nat → List Nat) (rank : Nat → Nat) : Prop :=
  ∃ s' kids' order, delF s b = some s' ∧ Inv c s' kids' rank ∧ Deleted s s' [b] order ∧
    ∀ x, x = 0 ∨ Live s' x → kids' x = (kids x).filter (fun y => decide (y ∉ [b]))

theorem delLoop_spec {c : Config} (delF : State → Nat → Option State) {b : Nat} {up : List Nat} {rank : Nat → Nat}
    (hdel : ∀ s kids child, Inv c s kids rank → Live s child → Path s child (child :: up) → s.start ≠ child → DelOk c delF s child kids rank) :
    ∀ (l : List Nat) (g : Nat) (s : State) (kids : Nat → List Nat), Inv c s kids rank → Live s b → kids b = l → Path s b up → l.length < g →
      ∃ s' kids' order, delLoop delF g s (hd l 0) = some s' ∧ Inv c s' kids' rank ∧ Deleted s s' l order ∧ Live s' b ∧ kids' b = [] ∧
        ∀ x, x = 0 ∨ Live s' x → kids' x = (kids x).filter (fun y => decide (y ∉ l)) := by
  intro l
  induction l with
  | nil =>
    intro g s kids h hb hk hp hg
    cases g with
    | zero => simp at hg
    | succ g =>
      refine ⟨s, kids, [], by simp [delLoop, hd], h, Deleted.nil s, hb, hk, ?_⟩
      intro x _
      exact (List.filter_eq_self.mpr (by simp)).symm
  | cons k l ih =>
    intro g s kids h hb hk hp hg
    cases g with
    | zero => simp at hg
    | succ g =>
      have hkm : k ∈ kids b := by rw [hk]; exact List.mem_cons_self
      obtain ⟨hkl, hkp⟩ := (h.mem _ _).mp hkm
      have hb0 := h.ne0 hb
      have hk0 := h.ne0 hkl
      have hst : s.start ≠ k := by
        intro e
        rcases h.start with hs | ⟨_, hs⟩
        · have := ((h.mem _ _).mp hs).2
          rw [e, hkp] at this
          exact hb0 this
        · exact hk0 (e ▸ hs)
      obtain ⟨s1, kids1, o1, e1, h1, hd1, hk1⟩ := hdel s kids k h hkl (Inv.path_cons hp hkp hb0) hst
      have hbno : b ∉ o1 := by
        intro hm
        obtain ⟨_, k', hk', ha⟩ := (hd1.mem b).mp hm
        simp only [List.mem_singleton] at hk'
        subst hk'
        have h2 := h.anc_rank ha hb
        have h3 := h.rank k' hkl (by rw [hkp]; exact hb0)
        rw [hkp] at h3
        rcases h2 with e | e
        · subst e; omega
        · omega
      have hb1 : Live s1 b := (hd1.live b).mpr ⟨hb, hbno⟩
      have hnd := h.nodup b
      rw [hk] at hnd
      obtain ⟨hkn, hnd'⟩ := List.nodup_cons.mp hnd
      have hk1b : kids1 b = l := by
        rw [hk1 b (Or.inr hb1), hk, List.filter_cons_of_neg (by simp), List.filter_eq_self]
        intro a ha
        have : a ≠ k := fun e => hkn (e ▸ ha)
        simpa using this
      have hp1 : Path s1 b up := by
        apply hp.congr
        intro x hx
        apply hd1.par
        intro hm
        obtain ⟨_, k', hk', ha⟩ := (hd1.mem x).mp hm
        simp only [List.mem_singleton] at hk'
        subst hk'
        exact hbno ((hd1.mem b).mpr ⟨hb, k', by simp, ha.trans (h.path_anc hp x hx)⟩)
      obtain ⟨s2, kids2, o2, e2, h2, hd2, hb2, hk2b, hk2⟩ := ih g s1 kids1 h1 hb1 hk1b hp1 (by simp at hg; omega)
      have hsg := h.seg b
      rw [hk] at hsg
      refine ⟨s2, kids2, o1 ++ o2, ?_, h2, hd1.comp h.toLinks hd2, hb2, hk2b, ?_⟩
      · have hh : hd (k :: l) 0 = k := rfl
        rw [hh, delLoop, if_neg hk0, e1, Option.bind_some, hsg.2.1]
        exact e2
      · intro x hx
        have hx1 : x = 0 ∨ Live s1 x := by
          rcases hx with e | e
          · exact Or.inl e
          · exact Or.inr ((hd2.live x).mp e).1
        rw [hk2 x hx, hk1 x hx1, List.filter_filter]
        apply List.filter_congr
        intro y _
        by_cases h1 : y = k <;> by_cases h2 : y ∈ l <;> simp [h1, h2]

theorem del_spec {c : Config} {rank : Nat → Nat} : ∀ (f : Nat) (s : State) (kids : Nat → List Nat) (b : Nat) (l : List Nat),
    Inv c s kids rank → Live s b → Path s b l → s.start ≠ b → c.nb ≤ f + l.length → DelOk c (del c f) s b kids rank := by
  intro f
  induction f with
  | zero =>
    intro s kids b l h hb hp _ hf
    have := h.path_length hp hb
    omega
  | succ f ih =>
    intro s kids b l h hb hp hst hf
    have hlen := h.kids_length b
    obtain ⟨s1, kids1, o1, e1, h1, hd1, hb1, hk1b, hk1⟩ := delLoop_spec (del c f) (b := b) (up := l)
      (fun s kids child hi hc hpa hs => ih s kids child (child :: l) hi hc hpa hs (by simp; omega))
      (kids b) (c.nb + 1) s kids h hb rfl hp (by omega)
    obtain ⟨s2, kids2, e2, h2, hd2, hk2⟩ := delSelf_spec h1 hb1 hk1b (by rw [hd1.start]; exact hst)
    refine ⟨s2, kids2, o1 ++ [b], ?_, h2, ?_, ?_⟩
    · rw [del, h.firstKid b hb, e1, Option.bind_some]
      exact e2
    · apply (hd1.comp h.toLinks hd2).roots
      intro n hn
      constructor
      · rintro ⟨k, hk, ha⟩
        refine ⟨b, by simp, ?_⟩
        rcases List.mem_append.mp hk with hk | hk
        · obtain ⟨hkl, hkp⟩ := (h.mem _ _).mp hk
          exact (Anc.step (by rw [hkp]; exact h.ne0 hb) (hkp ▸ Anc.refl)).trans ha
        · simp only [List.mem_singleton] at hk
          exact hk ▸ ha
      · rintro ⟨k, hk, ha⟩
        exact ⟨k, List.mem_append_right _ hk, ha⟩
    · intro x hx
      have hx1 : x = 0 ∨ Live s1 x := by
        rcases hx with e | e
        · exact Or.inl e
        · exact Or.inr ((hd2.live x).mp e).1
      have hxb : x ≠ b := by
        rcases hx with e | e
        · exact e ▸ Ne.symm (h.ne0 hb)
        · intro e'; subst e'
          exact ((hd2.live x).mp e).2 (by simp)
      rw [hk2 x, hk1 x hx1, List.filter_filter]
      apply List.filter_congr
      intro y hy
      have hyb : y ∉ kids b := by
        intro hm
        exact hxb (((h.mem _ _).mp hy).2.symm.trans ((h.mem _ _).mp hm).2)
      simp [hyb]

/-- Deleting a big allocation deletes exactly its subtree, running each removed slot's destructors once, leaves first. -/
theorem bigallocDel_spec {c : Config} {s : State} {kids rank} (h : Inv c s kids rank) {b : Nat} (hb : Live s b) (hst : s.start ≠ b) :
    ∃ s' kids' order, bigallocDel c s b = some s' ∧ Inv c s' kids' rank ∧ Deleted s s' [b] order := by
  obtain ⟨s', kids', o, e, h1, h2, _⟩ := del_spec (c.nb + 1) s kids b [b] h hb Path.top hst (by simp; omega)
  exact ⟨s', kids', o, e, h1, h2⟩

end Liballocs.PageIndex
