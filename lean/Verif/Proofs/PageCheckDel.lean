import Verif.Proofs.PageCheckOps
/-!
# Proofs that no check made on deletion, splitting or resizing fails
-/
namespace Liballocs.PageIndex

open Fill

/-! ## Unlinking -/

theorem depth_zero {s : State} {d : Nat} (h : Depth s 0 d) : d = 0 := h.unique Depth.null

theorem Depth.unlinked {s s' : State} {b n d : Nat} (hd : Depth s n d) (h : s'.par = upd s.par b 0) (hb : ¬ Anc s b n) : Depth s' n d := by
  induction hd with
  | null => exact Depth.null
  | @node n d h0 hd' ih =>
    have hn : n ≠ b := fun e => hb (e ▸ Anc.refl)
    refine Depth.node h0 ?_
    rw [h, upd_ne hn]
    by_cases hp : s.par n = 0
    · rw [hp] at hd' ⊢
      rw [depth_zero hd']
      exact Depth.null
    · exact ih (fun ha => hb (Anc.step hp ha))

/-- What is not below the one unlinked is as the check wants it. -/
theorem unlinked_part {c : Config} {s s' : State} {kids rank} (h : Links c s kids rank) (he : Edges s) {b : Nat} {pre post : List Nat}
    (hk : kids (s.par b) = pre ++ b :: post) (hu : Unlinked s s' b pre post) (hbeg : s'.beg = s.beg) (hfin : s'.fin = s.fin)
    (hpi : s'.pidx = s.pidx) :
    Part c s' (fun x => if x = s.par b then pre ++ post else kids x) (fun x => Live s x ∧ ¬ Anc s b x) := by
  have hent : ∀ q, entry s' q = entry s q := by intro q; unfold entry; rw [hpi]
  have hne : ∀ x, ¬ Anc s b x → x ≠ b := fun x hx e => hx (e ▸ Anc.refl)
  have hpar : ∀ x, x ≠ b → s'.par x = s.par x := fun x hx => by rw [hu.par, upd_ne hx]
  have hnd := h.nodup (s.par b)
  have hz := h.zero_not_mem (s.par b)
  have hsg := h.seg (s.par b)
  have hlen := h.kids_length (s.par b)
  rw [hk] at hnd hz hsg hlen
  obtain ⟨hn1, hn2, hd12⟩ := List.nodup_append.mp hnd
  obtain ⟨hb2, hn2'⟩ := List.nodup_cons.mp hn2
  have hb1 : b ∉ pre := fun e => hd12 b e b List.mem_cons_self rfl
  have hpre : ∀ x ∈ pre, x ∈ kids (s.par b) := fun x hx => by rw [hk]; exact List.mem_append_left _ hx
  have hpost : ∀ x ∈ post, x ∈ kids (s.par b) := fun x hx => by rw [hk]; exact List.mem_append_right _ (List.mem_cons_of_mem _ hx)
  have hpp : ∀ x ∈ pre ++ post, x ∈ kids (s.par b) ∧ x ≠ b := by
    intro x hx
    rcases List.mem_append.mp hx with e | e
    · exact ⟨hpre x e, fun e' => hb1 (e' ▸ e)⟩
    · exact ⟨hpost x e, fun e' => hb2 (e' ▸ e)⟩
  have hbm : b ∈ kids (s.par b) := by rw [hk]; simp
  have hdis : ∀ x y z, x ∈ kids y → x ∈ kids z → y = z := fun x y z h1 h2 => ((h.mem _ _).mp h1).2.symm.trans ((h.mem _ _).mp h2).2
  have nz : ∀ x y, y ∈ kids x → y ≠ 0 := fun x y hy e => h.zero_not_mem x (e ▸ hy)
  obtain ⟨ep, en⟩ := seg_at hsg
  refine ⟨?_, ?_, ?_, ?_, ?_, ?_, ?_, fun x hx => h.ne0 hx.1⟩
  · intro x hx
    apply sanityOk_intro
    · rw [hbeg, hfin]; have := he.pos x hx.1; omega
    · rw [hent, hbeg]; exact he.low x hx.1
    · rw [hent, hfin]; exact he.high x hx.1
    · rw [hpar x (hne x hx.2), hbeg, hfin]; exact he.nest x hx.1
  · intro x hx
    obtain ⟨d, _, h1, _, _, h2⟩ := h.exists_depth hx.1
    exact ⟨d, h1.unlinked hu.par hx.2, h2⟩
  · intro x hx
    have hx0 := h.ne0 hx.1
    rw [hu.first]
    by_cases e : x = s.par b
    · rw [if_neg (by rw [← e]; exact hx0), e, upd_same]
      simp
    · rw [if_neg e]
      split
      · exact h.firstKid x hx.1
      · rw [upd_ne e]; exact h.firstKid x hx.1
  · intro x hx
    by_cases e : x = s.par b
    · simp only [e, if_true]
      apply seg_congr _ (seg_remove hz hnd hsg)
      intro y hy
      exact ⟨hu.next y (hpp y hy).2, hu.prev y (hpp y hy).2⟩
    · simp only [e, if_false]
      apply seg_congr _ (h.seg x)
      intro y hy
      have hyb : y ≠ b := fun e' => e (hdis y _ _ hy (e' ▸ hbm))
      have h1 : y ∉ kids (s.par b) := fun e' => e (hdis y _ _ hy e')
      have h3 := nz _ _ hy
      refine ⟨?_, ?_⟩
      · rw [hu.next y hyb, updIf_ne]
        rw [ep]; exact ne_lst h3 (fun e' => h1 (hpre y e'))
      · rw [hu.prev y hyb, updIf_ne]
        rw [en]; exact ne_hd h3 (fun e' => h1 (hpost y e'))
  · intro x _
    by_cases e : x = s.par b
    · simp only [e, if_true]
      simp only [List.length_append, List.length_cons] at hlen ⊢
      omega
    · simp only [e, if_false]; exact h.kids_length x
  · intro x _
    by_cases e : x = s.par b
    · simp only [e, if_true]
      intro hm
      exact nz _ _ (hpp 0 hm).1 rfl
    · simp only [e, if_false]; exact h.zero_not_mem x
  · intro x y hx hy
    have hy' : y ∈ kids x ∧ y ≠ b := by
      by_cases e : x = s.par b
      · simp only [e, if_true] at hy
        rw [e]; exact hpp y hy
      · simp only [e, if_false] at hy
        exact ⟨hy, fun e' => e (hdis y _ _ hy (e' ▸ hbm))⟩
    obtain ⟨h1, h2⟩ := (h.mem y x).mp hy'.1
    refine ⟨⟨h1, ?_⟩, by rw [hpar y hy'.2]; exact h2⟩
    intro ha
    cases ha with
    | refl => exact hy'.2 rfl
    | step _ ha => rw [h2] at ha; exact hx.2 ha

theorem Links.relog {c : Config} {s : State} {kids rank} (h : Links c s kids rank) (lg : List Call) : Links c { s with log := lg } kids rank :=
  { nbOk := h.nbOk, zero := h.zero, lt := h.lt, dead := h.dead, mem := h.mem, nodup := h.nodup, seg := h.seg, firstKid := h.firstKid,
    parLive := h.parLive, rank := h.rank, start := h.start }

theorem Edges.relog {s : State} (h : Edges s) (lg : List Call) : Edges { s with log := lg } :=
  ⟨h.pos, h.nest, h.low, h.high⟩

theorem Links.par_not_below {c : Config} {s : State} {kids rank} (h : Links c s kids rank) {b x : Nat} (hx : Live s x) (hr : rank x < rank b) :
    ¬ Anc s b x := by
  intro ha
  rcases h.anc_rank ha hx with e | e
  · rw [e] at hr; omega
  · omega

/-- The checks made while a child is unlinked. -/
theorem unlinkChildC_eq {c : Config} {s : State} {kids rank} (h : Links c s kids rank) (he : Edges s) {b : Nat} {pre post : List Nat} (lg : List Call)
    (hb : Live s b) (hp0 : s.par b ≠ 0) (hk : kids (s.par b) = pre ++ b :: post) :
    ∃ s1, unlinkChildC c { s with log := lg } b = some s1 ∧ unlinkChild c { s with log := lg } b = some s1 ∧
      Unlinked s s1 b pre post ∧ s1.beg = s.beg ∧ s1.fin = s.fin ∧ s1.pidx = s.pidx := by
  obtain ⟨nx, pv, pr, fi, e1, hu⟩ := unlink_spec h lg hb hk
  have e1' : unlinkChild c { s with log := lg } b = some { s with log := lg, next := nx, prev := pv, par := pr, first := fi } := by
    unfold unlink at e1
    rw [if_pos hp0] at e1
    exact e1
  refine ⟨_, ?_, e1', hu, rfl, rfl, rfl⟩
  have hl' := (h.relog lg)
  have he' := (he.relog lg)
  have hab : abortIf (({ s with log := lg } : State).par b == 0) = some () := by simp [abortIf, hp0]
  have hpl := h.parLive b hb hp0
  have hchk : checkOne c { s with log := lg, next := nx, prev := pv, par := pr, first := fi } (s.par b) = some () :=
    checkOne_ok (unlinked_part h he hk hu rfl rfl rfl) ⟨hpl, h.par_not_below hpl (h.rank b hb hp0)⟩
  unfold unlinkChildC
  rw [bind_check hab, bind_check (hl'.check he' b), bind_check (hl'.check he' _), e1', Option.bind_some]
  exact bind_check hchk

/-! ## Deletion -/

theorem delSelfC_eq {c : Config} {s : State} {kids rank} (h : Inv c s kids rank) {b : Nat} (hb : Live s b) (hleaf : kids b = [])
    (hst : s.start ≠ b) : delSelfC c s b = delSelf c s b := by
  have hb0 := h.ne0 hb
  have hlt := h.lt b hb
  have hed := h.edges
  obtain ⟨pre, post, hk⟩ := List.append_of_mem ((h.mem b (s.par b)).mpr ⟨hb, rfl⟩)
  have hun : ∃ s1, unlinkC c { s with log := s.log ++ callsOf s b } b = some s1 ∧ unlink c { s with log := s.log ++ callsOf s b } b = some s1 ∧
      Unlinked s s1 b pre post ∧ s1.beg = s.beg ∧ s1.fin = s.fin ∧ s1.pidx = s.pidx := by
    unfold unlinkC unlink
    by_cases hp0 : s.par b = 0
    · obtain ⟨nx, pv, pr, fi, e1, hu⟩ := unlink_spec h.toLinks (s.log ++ callsOf s b) hb hk
      unfold unlink at e1
      have hn : ¬ ({ s with log := s.log ++ callsOf s b } : State).par b ≠ 0 := by simp [hp0]
      rw [if_neg hn] at e1 ⊢
      rw [if_neg hn]
      exact ⟨_, e1, e1, hu, rfl, rfl, rfl⟩
    · have hn : ({ s with log := s.log ++ callsOf s b } : State).par b ≠ 0 := hp0
      rw [if_pos hn, if_pos hn]
      exact unlinkChildC_eq h.toLinks hed _ hb hp0 hk
  obtain ⟨s1, e1, e2, hu, hbeg, hfin, hpi⟩ := hun
  have hent : ∀ q, entry s1 q = entry s q := by intro q; unfold entry; rw [hpi]
  have hpar0 : s1.par b = 0 := by rw [hu.par, upd_same]
  have hpart : Part c s1 (fun _ => []) (fun x => x = b) := by
    refine ⟨?_, ?_, ?_, fun x _ => trivial, fun x _ => by simp, fun x _ => by simp, fun x y _ hy => by simp at hy, fun x hx => by rw [hx]; exact hb0⟩
    · rintro x rfl
      apply sanityOk_intro
      · rw [hbeg, hfin]; have := hed.pos x hb; omega
      · rw [hent, hbeg]; exact hed.low x hb
      · rw [hent, hfin]; exact hed.high x hb
      · intro e; exact absurd hpar0 e
    · rintro x rfl
      refine ⟨1, Depth.node hb0 ?_, by omega⟩
      rw [hpar0]; exact Depth.null
    · rintro x rfl
      have hfk : s.first x = 0 := by rw [h.firstKid x hb, hleaf]; rfl
      rw [hu.first]
      show _ = 0
      split
      · exact hfk
      · rw [upd_ne (Ne.symm (h.par_ne hb))]; exact hfk
  obtain ⟨s', _, e3, h3, hd3, _⟩ := delSelf_spec h hb hleaf hst
  have e4 := e3
  unfold delSelf at e4
  simp only [Option.bind_eq_bind] at e4
  rw [e2, Option.bind_some] at e4
  rw [e3]
  unfold delSelfC
  rw [e1, Option.bind_some, bind_check (checkOne_ok hpart rfl)]
  cases hsp : setPages c s1 (roundUp (s1.beg b) PAGE) (roundDown (s1.fin b) PAGE) (s.par b) b with
  | none => rw [hsp] at e4; cases e4
  | some s2 =>
    rw [hsp, Option.bind_some] at e4
    rw [Option.bind_some]
    have hin : inUse (clear s2 b) b = false := by
      rw [Option.some.inj e4]
      cases hi : inUse s' b with
      | false => rfl
      | true => exact absurd ((hd3.live b).mp (live_iff.mp hi)).2 (by simp)
    rw [hin, ← e4]
    simp [assertIf]

theorem delLoopC_eq {c : Config} {delF delG : State → Nat → Option State} {b : Nat} {up : List Nat} {rank : Nat → Nat}
    (hdel : ∀ s kids child, Inv c s kids rank → Live s child → Path s child (child :: up) → s.start ≠ child →
      DelOk c delF s child kids rank ∧ delG s child = delF s child) :
    ∀ (l : List Nat) (g : Nat) (s : State) (kids : Nat → List Nat), Inv c s kids rank → Live s b → kids b = l → Path s b up →
      delLoop delG g s (hd l 0) = delLoop delF g s (hd l 0) := by
  intro l
  induction l with
  | nil =>
    intro g s kids h hb hk hp
    cases g with
    | zero => rfl
    | succ g => simp [delLoop, hd]
  | cons k l ih =>
    intro g s kids h hb hk hp
    cases g with
    | zero => rfl
    | succ g =>
      have hkm : k ∈ kids b := by rw [hk]; exact List.mem_cons_self
      obtain ⟨hkl, hkp⟩ := (h.mem _ _).mp hkm
      have hb0 := h.ne0 hb
      have hk0 := h.ne0 hkl
      have hst : s.start ≠ k := by
        intro e
        rcases h.start with hs | ⟨_, hs⟩
        · have := ((h.mem _ _).mp hs).2
          rw [e, hkp] at this
          exact hb0 this
        · exact hk0 (e ▸ hs)
      obtain ⟨⟨s1, kids1, o1, e1, h1, hd1, hk1⟩, e1'⟩ := hdel s kids k h hkl (Inv.path_cons hp hkp hb0) hst
      have hbno : b ∉ o1 := by
        intro hm
        obtain ⟨_, k', hk', ha⟩ := (hd1.mem b).mp hm
        simp only [List.mem_singleton] at hk'
        subst hk'
        have h2 := h.anc_rank ha hb
        have h3 := h.rank k' hkl (by rw [hkp]; exact hb0)
        rw [hkp] at h3
        rcases h2 with e | e
        · subst e; omega
        · omega
      have hb1 : Live s1 b := (hd1.live b).mpr ⟨hb, hbno⟩
      have hnd := h.nodup b
      rw [hk] at hnd
      obtain ⟨hkn, hnd'⟩ := List.nodup_cons.mp hnd
      have hk1b : kids1 b = l := by
        rw [hk1 b (Or.inr hb1), hk, List.filter_cons_of_neg (by simp), List.filter_eq_self]
        intro a ha
        have : a ≠ k := fun e => hkn (e ▸ ha)
        simpa using this
      have hp1 : Path s1 b up := by
        apply hp.congr
        intro x hx
        apply hd1.par
        intro hm
        obtain ⟨_, k', hk', ha⟩ := (hd1.mem x).mp hm
        simp only [List.mem_singleton] at hk'
        subst hk'
        exact hbno ((hd1.mem b).mpr ⟨hb, k', by simp, ha.trans (h.path_anc hp x hx)⟩)
      have hsg := h.seg b
      rw [hk] at hsg
      have hh : hd (k :: l) 0 = k := rfl
      rw [hh, delLoop, delLoop, if_neg hk0, if_neg hk0, e1', e1, Option.bind_some, Option.bind_some, hsg.2.1]
      exact ih g s1 kids1 h1 hb1 hk1b hp1

theorem delC_eq {c : Config} {rank : Nat → Nat} : ∀ (f : Nat) (s : State) (kids : Nat → List Nat) (b : Nat) (l : List Nat),
    Inv c s kids rank → Live s b → Path s b l → s.start ≠ b → c.nb ≤ f + l.length → delC c f s b = del c f s b := by
  intro f
  induction f with
  | zero => intro s kids b l _ _ _ _ _; rfl
  | succ f ih =>
    intro s kids b l h hb hp hst hf
    have hlen := h.kids_length b
    obtain ⟨s1, kids1, o1, e1, h1, hd1, hb1, hk1b, _⟩ := delLoop_spec (del c f) (b := b) (up := l)
      (fun s kids child hi hc hpa hs => del_spec f s kids child (child :: l) hi hc hpa hs (by simp; omega))
      (kids b) (c.nb + 1) s kids h hb rfl hp (by omega)
    have e2 := delLoopC_eq (delF := del c f) (delG := delC c f) (b := b) (up := l)
      (fun s kids child hi hc hpa hs => ⟨del_spec f s kids child (child :: l) hi hc hpa hs (by simp; omega),
        ih s kids child (child :: l) hi hc hpa hs (by simp; omega)⟩)
      (kids b) (c.nb + 1) s kids h hb rfl hp
    rw [delC, del, bind_check (h.check b), h.firstKid b hb, e2, e1, Option.bind_some, Option.bind_some]
    exact delSelfC_eq h1 hb1 hk1b (by rw [hd1.start]; exact hst)

theorem bigallocDelC_eq {c : Config} {s : State} {kids rank} (h : Inv c s kids rank) {b : Nat} (hb : Live s b) (hst : s.start ≠ b) :
    bigallocDelC c s b = bigallocDel c s b := delC_eq (c.nb + 1) s kids b [b] h hb Path.top hst (by simp; omega)

theorem deleteAtC_eq {c : Config} {s : State} {kids rank} (h : Inv c s kids rank) {addr a : Nat} (ha : a ≠ 0)
    (hst : ¬ (Has s s.start addr ∧ s.alloc s.start = a)) : deleteAtC c s addr a = deleteAt c s addr a := by
  obtain ⟨r, e, hr⟩ := h.fromRoot_spec addr a false ha
  unfold deleteAtC deleteAt
  rw [e]
  rcases hr with ⟨rfl, h1⟩ | ⟨h1, h2, h3, h4⟩
  · simp
  · have h3 : s.alloc r = a := h3
    dsimp only
    rw [bigallocDelC_eq h h1 (fun e' => hst (by rw [e']; exact ⟨h2, h3⟩))]

theorem delRangeC_eq {c : Config} {rank : Nat → Nat} : ∀ (f : Nat) {s : State} {kids : Nat → List Nat} (upTo hi : Nat), Inv c s kids rank →
    upTo % PAGE = 0 → ¬ Overlaps s upTo hi s.start → delRangeC c f s upTo hi = delRange c f s upTo hi := by
  intro f
  induction f with
  | zero => intro s kids upTo hi _ _ _; rfl
  | succ f ih =>
    intro s kids upTo hi h hup hst
    rw [delRangeC, delRange]
    by_cases hlt : upTo < hi
    · rw [if_pos hlt, if_pos hlt]
      obtain ⟨z1, z2, z3⟩ := skipZeros_spec s (pagenum (roundUp hi PAGE) - pagenum upTo) (pagenum upTo)
      generalize skipZeros s (pagenum (roundUp hi PAGE) - pagenum upTo) (pagenum upTo) = z at *
      simp only
      by_cases hend : hi ≤ upTo + PAGE * z
      · rw [if_pos hend, if_pos hend]
      · rw [if_neg hend, if_neg hend]
        have hne := z3 (by unfold pagenum roundUp PAGE at *; omega)
        have hpg : pagenum (upTo + PAGE * z) = pagenum upTo + z := by unfold pagenum PAGE at *; omega
        have hle : upTo ≤ upTo + PAGE * z := by omega
        generalize hu : upTo + PAGE * z = u at *
        rw [← hpg] at hne
        rcases h.owner (pagenum u) with ⟨e0, _⟩ | ⟨_, hl, hcov, _⟩
        · exact absurd e0 hne
        · obtain ⟨b, e1, hb, hb0, hba⟩ := h.climb_live hl
          have hu' : u % PAGE = 0 := by unfold PAGE at *; omega
          have hbh := h.anc_has hba hl (Inv.covers_has hcov rfl)
          have hover : Overlaps s upTo hi b := ⟨hlt, hb, hb0, by have := hbh.2; omega, by have := hbh.1; omega⟩
          have hsb : s.start ≠ b := fun e => hst (e ▸ hover)
          obtain ⟨s1, kids1, o1, e2, h1, hd1⟩ := bigallocDel_spec h hb hsb
          unfold delHitC delHit
          rw [if_neg hne, if_neg hne, e1]
          dsimp only
          rw [bigallocDelC_eq h hb hsb, e2]
          have hfu : ¬ s.fin b ≤ u := by have := hbh.2; omega
          rw [if_neg hfu]
          simp only [Option.map_some, Option.bind_some]
          apply ih _ _ h1 (h.top b hb hb0).2
          rw [hd1.start]
          rintro ⟨a1, a2, a3, a4, a5⟩
          obtain ⟨b1, b2⟩ := (hd1.live _).mp a2
          rw [hd1.par _ b2] at a3
          rw [hd1.fin _ b2] at a4
          rw [hd1.beg _ b2] at a5
          exact hst ⟨hlt, b1, a3, by omega, a5⟩
    · rw [if_neg hlt, if_neg hlt]

/-! ## Resizing -/

theorem preExtendC_eq {c : Config} {s : State} {kids rank} (h : Inv c s kids rank) {b newBegin : Nat} {s' : State} {kids' rank'}
    (e : preExtend c s b newBegin = some s') (h' : Inv c s' kids' rank') : preExtendC c s b newBegin = some s' := by
  unfold preExtendC
  rw [bind_check (h.check b), e]
  exact thenCheck_ok h' b

end Liballocs.PageIndex
