import Verif.Proofs.PageCheckDel
/-!
# Proofs that no check made on growing with the parents or on splitting fails, and that operations are as without checks
-/
namespace Liballocs.PageIndex

open Fill

theorem preExtendRecC_eq {c : Config} {align : Nat → Nat} {s : State} {kids rank} (h : Inv c s kids rank) : ∀ (f b newBegin : Nat) (below : List Nat),
    Live s b → (∀ x ∈ below, x < c.nb) → (b :: below).Nodup → (∀ x ∈ below, Anc s b x ∧ Live s x) → c.nb < f + (b :: below).length →
    RecOk c align s b newBegin → preExtendRecC c align f s b newBegin = preExtendRec c align f s b newBegin := by
  intro f
  induction f with
  | zero => intro b newBegin below _ _ _ _ _ _; rfl
  | succ f ih =>
    intro b newBegin below hb hbl hnd hanc hf hrec
    obtain ⟨s', e, hinv, _⟩ := preExtendRec_spec h (f + 1) b newBegin below hb hbl hnd hanc hf hrec
    rw [e]
    rw [preExtendRec] at e
    rw [preExtendRecC]
    cases hrec with
    | top hp0 hstep =>
      rw [if_neg (by simp [hp0])] at e ⊢
      exact preExtendC_eq h e hinv
    | up hp0 hstep hup =>
      rw [if_pos hp0] at e ⊢
      have hpl := h.parLive b hb hp0
      have hab : Anc s (s.par b) b := Anc.step hp0 Anc.refl
      have hnab : ∀ x, Anc s b x → Live s x → s.par b ≠ x := by
        intro x hx hxl e
        have h1 := h.anc_rank hx hxl
        have h2 := h.rank b hb hp0
        rw [e] at h2
        rcases h1 with e' | e'
        · rw [e'] at h2; omega
        · omega
      have a1 : ∀ x ∈ b :: below, x < c.nb := by
        intro x hx
        rcases List.mem_cons.mp hx with rfl | hx
        · exact h.lt x hb
        · exact hbl x hx
      have a2 : (s.par b :: b :: below).Nodup := by
        rw [List.nodup_cons]
        refine ⟨?_, hnd⟩
        intro hm
        rcases List.mem_cons.mp hm with e | hm
        · exact h.par_ne hb e
        · exact hnab _ (hanc _ hm).1 (hanc _ hm).2 rfl
      have a3 : ∀ x ∈ b :: below, Anc s (s.par b) x ∧ Live s x := by
        intro x hx
        rcases List.mem_cons.mp hx with rfl | hx
        · exact ⟨hab, hb⟩
        · exact ⟨hab.trans (hanc x hx).1, (hanc x hx).2⟩
      have a4 : c.nb < f + (s.par b :: b :: below).length := by simp at hf ⊢; omega
      obtain ⟨s1, e1, h1, _⟩ := preExtendRec_spec h f (s.par b) (preExtendAlign align s (s.par b) newBegin) (b :: below) hpl a1 a2 a3 a4 hup
      rw [ih (s.par b) (preExtendAlign align s (s.par b) newBegin) (b :: below) hpl a1 a2 a3 a4 hup]
      rw [e1, Option.bind_some] at e ⊢
      exact preExtendC_eq h1 e hinv

/-! ## Splitting -/

/-- The checks made while a child is moved. -/
theorem moveC_eq {c : Config} {s : State} {kids rank} (h : Links c s kids rank) (he : Edges s) {k nw : Nat} {pre post : List Nat}
    (hk : Live s k) (hb0 : s.par k ≠ 0) (hnw : Live s nw) (hnk : nw ≠ k) (hnb : nw ≠ s.par k) (hrk : rank nw < rank k)
    (hl : kids (s.par k) = pre ++ k :: post) (hin : s.beg nw ≤ s.beg k ∧ s.fin k ≤ s.fin nw) :
    ∃ s', (unlinkChildC c s k).bind (fun s' => addChildC c s' k nw) = some s' ∧
      (unlinkChild c s k).bind (fun s' => addChild c s' k nw) = some s' ∧ Relinked s s' ∧ Edges s' ∧
      Links c s' (fun x => if x = s.par k then pre ++ post else if x = nw then k :: kids nw else kids x) rank := by
  obtain ⟨s', e, hrl, hpar, hlk⟩ := move_spec h hk hb0 hnw hnk hnb hrk hl
  obtain ⟨s1, e1, e2, hu, hbeg, hfin, hpi⟩ := unlinkChildC_eq h he s.log hk hb0 hl
  have e1' : unlinkChildC c s k = some s1 := e1
  have e2' : unlinkChild c s k = some s1 := e2
  have hed : Edges s' := by
    have hent : ∀ q, entry s' q = entry s q := by intro q; unfold entry; rw [hrl.pidx]
    refine ⟨?_, ?_, ?_, ?_⟩
    · intro n hn
      rw [hrl.live] at hn
      rw [hrl.beg, hrl.fin]; exact he.pos n hn
    · intro n hn hp
      rw [hrl.live] at hn
      rw [hpar] at hp ⊢
      rw [hrl.beg, hrl.fin]
      by_cases hnk' : n = k
      · rw [hnk', upd_same]; exact hin
      · rw [upd_ne hnk'] at hp ⊢; exact he.nest n hn hp
    · intro n hn
      rw [hrl.live] at hn
      rw [hent, hrl.beg]; exact he.low n hn
    · intro n hn
      rw [hrl.live] at hn
      rw [hent, hrl.fin]; exact he.high n hn
  refine ⟨s', ?_, e, hrl, hed, hlk⟩
  have hchk : checkOne c s1 nw = some () :=
    checkOne_ok (unlinked_part h he hl hu hbeg hfin hpi) ⟨hnw, h.par_not_below hnw hrk⟩
  rw [e2', Option.bind_some] at e
  rw [e1', Option.bind_some]
  unfold addChildC
  rw [bind_check hchk, e, Option.bind_some, bind_check (hlk.check hed k), bind_check (hlk.check hed nw)]

theorem moveKidsC_eq {c : Config} {b nw at' : Nat} {rank : Nat → Nat} (hb0 : b ≠ 0) (hnb : nw ≠ b) : ∀ (rest done : List Nat) (f : Nat) (s : State)
    (kids : Nat → List Nat), Links c s kids rank → Edges s → Live s nw → kids b = done ++ rest → rank nw ≤ rank b →
    s.beg nw = at' → s.fin nw = s.fin b → moveKidsC c b nw at' f s (hd rest 0) = moveKids c b nw at' f s (hd rest 0) := by
  intro rest
  induction rest with
  | nil =>
    intro done f s kids h he hnw hk hr h1 h2
    cases f with
    | zero => rfl
    | succ f => simp [moveKids, moveKidsC, hd]
  | cons k rest ih =>
    intro done f s kids h he hnw hk hr h1 h2
    cases f with
    | zero => rfl
    | succ f =>
      obtain ⟨hkl, hkp⟩ := (h.mem k b).mp (by rw [hk]; simp)
      have hk0 := h.ne0 hkl
      have hrk := h.rank k hkl (by rw [hkp]; exact hb0)
      rw [hkp] at hrk
      have hsg := h.seg b
      rw [hk] at hsg
      have hnx := (seg_at hsg).2
      have hh : hd (k :: rest) 0 = k := rfl
      rw [hh, moveKids, moveKidsC, if_neg hk0, if_neg hk0]
      unfold moveKid moveKidC
      by_cases hbo : (inFirst s b at' k && inSecond s b at' k) = true
      · rw [if_pos hbo, if_pos hbo]; rfl
      · rw [if_neg hbo, if_neg hbo]
        by_cases hs : inSecond s b at' k = true
        · rw [if_pos hs, if_pos hs]
          have hs' := hs
          unfold inSecond at hs'
          simp only [Bool.and_eq_true, decide_eq_true_eq] at hs'
          obtain ⟨s1, e1, e2, hrl, hed, hlk⟩ := moveC_eq h he (k := k) (nw := nw) (pre := done) (post := rest) hkl (by rw [hkp]; exact hb0) hnw
            (fun e => by rw [e] at hr; omega) (by rw [hkp]; exact hnb) (by omega) (by rw [hkp]; exact hk) (by rw [h1, h2]; exact hs')
          rw [e1, e2, Option.bind_some, Option.bind_some, hnx]
          rw [hkp] at hlk
          exact ih done f s1 _ hlk hed ((hrl.live nw).mpr hnw) (by simp) hr (by rw [hrl.beg]; exact h1) (by rw [hrl.fin]; exact h2)
        · rw [if_neg hs, if_neg hs, Option.bind_some, Option.bind_some, hnx]
          exact ih (done ++ [k]) f s kids h he hnw (by rw [hk]; simp) hr h1 h2

theorem splitC_eq {c : Config} {s : State} {kids rank} (h : Inv c s kids rank) (hst : s.start ≠ 0) {b at' : Nat} (hb : Live s b)
    (ho : SplitOk c s b at') : splitC c s b at' = split c s b at' := by
  have hlo := ho.lo
  have hhi := ho.hi
  have hb0 := h.ne0 hb
  obtain ⟨s', nw, e, hnw0, hnwlt, hnwd, _, kids', rank', hinv⟩ := split_spec h hb ho
  have hbn : b ≠ nw := fun e => hnwd (e ▸ hb)
  have hp : s.par b = 0 ∨ Live s (s.par b) := by
    by_cases e : s.par b = 0
    · exact Or.inl e
    · exact Or.inr (h.parLive b hb e)
  have hpbb := h.par_ne hb
  have hsz : at' + (s.fin b - at') = s.fin b := by omega
  have hcut : ∃ A B, Place s kids (s.par b) at' (s.fin b - at') A B := by
    have hpos : at' ≠ 0 ∧ 0 < s.fin b - at' := by omega
    have hins : s.par b ≠ 0 → s.beg (s.par b) ≤ at' ∧ at' + (s.fin b - at') ≤ s.fin (s.par b) := by
      intro hp0
      have := h.nest b hb hp0
      omega
    by_cases hp0 : s.par b = 0
    · obtain ⟨A, B, e, hA, hB⟩ := cut_list (P := fun x => s.fin b < s.fin x) (kids 0) (by
        apply List.Pairwise.imp_of_mem _ h.sorted
        intro x y hx hy hxy hlt
        have := h.pos y ((h.mem _ _).mp hy).1
        omega)
      refine ⟨A, B, by rw [hp0]; exact e, fun hne => absurd hp0 hne, fun _ => ?_, fun _ => ?_, hpos, hins⟩
      · intro x hx
        have hfx := hA x hx
        obtain ⟨hxl, hx0⟩ := (h.mem x 0).mp (by rw [e]; exact List.mem_append_left _ hx)
        refine ⟨by omega, ?_⟩
        by_cases exb : x = b
        · rw [exb]; exact hlo
        · have := h.disj x b hxl hb (by rw [hx0, hp0]) exb
          have := h.pos x hxl
          omega
      · intro x hx
        have hfx := hB x hx
        obtain ⟨hxl, hx0⟩ := (h.mem x 0).mp (by rw [e]; exact List.mem_append_right _ hx)
        refine ⟨by omega, ?_⟩
        have exb : x ≠ b := fun exb => by rw [exb] at hfx; omega
        have := h.disj x b hxl hb (by rw [hx0, hp0]) exb
        have := h.pos x hxl
        have := h.pos b hb
        omega
    · exact ⟨[], kids (s.par b), rfl, fun _ => rfl, fun e => absurd e hp0, fun e => absurd e hp0, hpos, hins⟩
  obtain ⟨A, B, hpl⟩ := hcut
  rw [e]
  unfold split at e
  simp only [Option.bind_eq_bind] at e
  unfold splitC
  rw [findFreeC_eq h]
  have hff : (List.range' 1 (c.nb - 1)).find? (fun i => !inUse s i) = findFree c s := rfl
  rw [hff]
  cases hfr : findFree c s with
  | none => rw [hfr] at e; cases e
  | some nw' =>
    rw [hfr, Option.bind_some] at e
    obtain ⟨hn0, hnlt, hnd⟩ := findFree_some hfr
    have hbn' : b ≠ nw' := fun e => hnd (e ▸ hb)
    obtain ⟨s1, e1, e2, hed1, hlk1, hst1, hbeg1, hfin1⟩ := initNomemsetC_eq
      (m := ⟨s.alloc b, s.sub b, s.priv b, s.privFree b, s.subPriv b, s.subPrivFree b⟩) h (Or.inl hst) (rank b) (h.rank b hb) hn0 hnlt hnd hp hpl
    rw [if_neg hst, ← hst1] at hlk1
    have hlk1 : Links c s1 (fun x => if x = s.par b then A ++ nw' :: B else kids x) (upd rank nw' (rank b)) := hlk1
    rw [hsz] at hfin1
    rw [e2, Option.bind_some] at e
    rw [Option.bind_some, e1, Option.bind_some]
    have hlive : ∀ n, Live s1 n ↔ Live s n ∨ n = nw' := by
      intro n
      unfold Live
      rw [hbeg1, hfin1]
      by_cases hn : n = nw'
      · subst hn; simp only [upd_same, or_true, iff_true]; omega
      · simp [upd_ne hn, hn]
    have hfirst : s1.first b = hd (kids b) 0 := by
      rw [hlk1.firstKid b ((hlive b).mpr (Or.inl hb))]
      simp only [Ne.symm hpbb, if_false]
    rw [hfirst] at e ⊢
    rw [moveKidsC_eq hb0 (Ne.symm hbn') (kids b) [] (c.nb + 1) s1 _ hlk1 hed1 ((hlive nw').mpr (Or.inr rfl))
      (by simp only [Ne.symm hpbb, if_false]; rfl) (by rw [upd_same, upd_ne hbn']; exact Nat.le_refl _) (by rw [hbeg1, upd_same])
      (by rw [hfin1, upd_same, upd_ne hbn'])]
    cases hm : moveKids c b nw' at' (c.nb + 1) s1 (hd (kids b) 0) with
    | none => rw [hm] at e; cases e
    | some s2 =>
      rw [hm, Option.bind_some] at e
      have e' := Option.some.inj e
      have es := congrArg Prod.fst e'
      have en : nw' = nw := congrArg Prod.snd e'
      subst en
      dsimp only at es
      rw [Option.bind_some, es, thenCheck_ok hinv b, thenCheck_ok hinv nw', Option.bind_some]

/-- Every operation does with its checks what it does without. -/
theorem applyC_eq {c : Config} {align : Nat → Nat} {s : State} {op : Op} (hg : Good c s) (ha : Allowed c align s op) :
    applyC c align s op = apply c align s op := by
  obtain ⟨hst, kids, rank, h⟩ := hg
  cases op with
  | new ptr size parent m => unfold applyC apply; dsimp only; rw [newBigallocC_eq h ha (Or.inl hst)]
  | setSub b x y z => rfl
  | del b => exact bigallocDelC_eq h ha.1 (Ne.symm ha.2)
  | deleteAt addr a => unfold applyC apply; dsimp only; rw [deleteAtC_eq h ha.1 ha.2]
  | deleteRange lo hi => exact delRangeC_eq (c.nb + 1) lo hi h ha.1 ha.2
  | extend b newEnd =>
    obtain ⟨s', e, h1, h2⟩ := extend_spec h ha.1 ha.2.1 ha.2.2.1 ha.2.2.2
    unfold applyC apply extendC
    dsimp only
    rw [e]; exact thenCheck_ok h2 b
  | preExtend b newBegin =>
    obtain ⟨s', e, h1, h2⟩ := preExtend_spec h ha.1 ha.2
    unfold applyC apply
    dsimp only
    rw [e]; exact preExtendC_eq h e h2
  | preExtendUp b newBegin =>
    exact preExtendRecC_eq h (c.nb + 1) b newBegin [] ha.1 (by simp) (by simp) (by simp)
      (by simp only [List.length_cons, List.length_nil]; omega) ha.2
  | truncEnd b newEnd =>
    obtain ⟨s', e, h1, h2⟩ := truncEnd_spec h ha.1 ha.2.1 ha.2.2.1 ha.2.2.2
    unfold applyC apply truncEndC
    dsimp only
    rw [e, thenCheck_ok h2 b]; exact thenCheck_ok h2 b
  | truncBegin b newBegin =>
    obtain ⟨s', e, h1, h2⟩ := truncBegin_spec h ha.1 ha.2.1 ha.2.2.1 ha.2.2.2
    unfold applyC apply truncBeginC
    dsimp only
    rw [e]; exact thenCheck_ok h2 b
  | split b at' => unfold applyC apply; dsimp only; rw [splitC_eq h hst ha.1 ha.2]

theorem bootC_eq {c : Config} {ptr size : Nat} {m : Meta} (ho : BootOk c ptr size) : bootC c ptr size m = boot c ptr size m := by
  have hd : ∀ n, ¬ Live State.init n := fun n hl => hl.1 rfl
  unfold bootC boot
  rw [newBigallocC_eq (inv_init ho.nb.2) ⟨ho.nonzero, ho.pos, ho.small, ⟨1, by omega, by have := ho.nb; omega, hd 1⟩,
    fun e => absurd rfl e, fun _ => ⟨fun n hl => absurd hl (hd n), fun _ => ho.aligned⟩⟩ (Or.inr hd)]

end Liballocs.PageIndex
