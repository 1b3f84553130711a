import Verif.Proofs.PageIndexPre
/-!
# Splitting a big allocation
-/
namespace Liballocs.PageIndex

open Fill

/-- `s'` differs from `s` in links only. -/
structure Relinked (s s' : State) : Prop where
  beg : s'.beg = s.beg
  fin : s'.fin = s.fin
  alloc : s'.alloc = s.alloc
  sub : s'.sub = s.sub
  priv : s'.priv = s.priv
  privFree : s'.privFree = s.privFree
  subPriv : s'.subPriv = s.subPriv
  subPrivFree : s'.subPrivFree = s.subPrivFree
  pidx : s'.pidx = s.pidx
  start : s'.start = s.start
  log : s'.log = s.log

theorem Relinked.refl (s : State) : Relinked s s := by constructor <;> rfl

theorem Relinked.trans {s1 s2 s3 : State} (h1 : Relinked s1 s2) (h2 : Relinked s2 s3) : Relinked s1 s3 :=
  ⟨h2.beg.trans h1.beg, h2.fin.trans h1.fin, h2.alloc.trans h1.alloc, h2.sub.trans h1.sub, h2.priv.trans h1.priv, h2.privFree.trans h1.privFree,
    h2.subPriv.trans h1.subPriv, h2.subPrivFree.trans h1.subPrivFree, h2.pidx.trans h1.pidx, h2.start.trans h1.start, h2.log.trans h1.log⟩

theorem Relinked.live {s s' : State} (h : Relinked s s') (n : Nat) : Live s' n ↔ Live s n := by
  unfold Live; rw [h.beg, h.fin]

instance (s : State) (n : Nat) : Decidable (Live s n) := by unfold Live; infer_instance

/-- Moving a child from one parent to another. -/
theorem move_spec {c : Config} {s : State} {kids rank} (h : Links c s kids rank) {k nw : Nat} {pre post : List Nat}
    (hk : Live s k) (hb0 : s.par k ≠ 0) (hnw : Live s nw) (hnk : nw ≠ k) (hnb : nw ≠ s.par k) (hrk : rank nw < rank k)
    (hl : kids (s.par k) = pre ++ k :: post) :
    ∃ s', (unlinkChild c s k).bind (fun s' => addChild c s' k nw) = some s' ∧ Relinked s s' ∧ s'.par = upd s.par k nw ∧
      Links c s' (fun x => if x = s.par k then pre ++ post else if x = nw then k :: kids nw else kids x) rank := by
  have hk0 := h.ne0 hk
  have hnw0 := h.ne0 hnw
  have hbl := h.parLive k hk hb0
  have hkb : s.par k ≠ k := h.par_ne hk
  -- unlinking
  obtain ⟨nx, pv, pr, fi, e1, hu⟩ := unlink_spec h s.log hk hl
  have e1' : unlinkChild c s k = some { s with next := nx, prev := pv, par := pr, first := fi } := by
    unfold unlink at e1
    rw [if_pos hb0] at e1
    exact e1
  -- `next` and `prev` of the child itself
  have hself : nx k = 0 ∧ pv k = 0 := by
    unfold unlinkChild at e1'
    have hab : abortIf (s.par k == 0) = some () := by simp [abortIf, hb0]
    rw [hab] at e1'
    simp only [Option.bind_eq_bind, Option.bind_some] at e1'
    cases hf : unlinkFirst c s k (s.par k) with
    | none => rw [hf] at e1'; cases e1'
    | some s1 =>
      rw [hf] at e1'
      simp only [Option.bind_some, Option.some.injEq] at e1'
      have h1 := congrArg State.next e1'
      have h2 := congrArg State.prev e1'
      simp only at h1 h2
      rw [← h1, ← h2]
      simp [upd_same]
  have hpr : pr = upd s.par k 0 := hu.par
  have hfi : fi = upd s.first (s.par k) (hd (pre ++ post) 0) := by
    have := hu.first
    simpa only [hb0, if_false] using this
  have hnx : ∀ x, x ≠ k → nx x = updIf s.next (s.prev k) (s.next k) x := hu.next
  have hpv : ∀ x, x ≠ k → pv x = updIf s.prev (s.next k) (s.prev k) x := hu.prev
  have hfn : fi nw = hd (kids nw) 0 := by
    rw [hfi, upd_ne hnb, h.firstKid nw hnw]
  -- the lists
  have hnd := h.nodup (s.par k)
  have hz := h.zero_not_mem (s.par k)
  have hsg := h.seg (s.par k)
  rw [hl] at hnd hz hsg
  obtain ⟨hn1, hn2, hd12⟩ := List.nodup_append.mp hnd
  obtain ⟨hk2, hn2'⟩ := List.nodup_cons.mp hn2
  have hk1 : k ∉ pre := fun e => hd12 k e k List.mem_cons_self rfl
  have hpre : ∀ x ∈ pre, x ∈ kids (s.par k) := fun x hx => by rw [hl]; exact List.mem_append_left _ hx
  have hpost : ∀ x ∈ post, x ∈ kids (s.par k) := fun x hx => by rw [hl]; exact List.mem_append_right _ (List.mem_cons_of_mem _ hx)
  have hkk : k ∈ kids (s.par k) := (h.mem _ _).mpr ⟨hk, rfl⟩
  have hdis : ∀ x a b, x ∈ kids a → x ∈ kids b → a = b := fun x a b h1 h2 => ((h.mem _ _).mp h1).2.symm.trans ((h.mem _ _).mp h2).2
  have nz : ∀ x y, y ∈ kids x → y ≠ 0 := fun x y hy e => h.zero_not_mem x (e ▸ hy)
  obtain ⟨ep, en⟩ := seg_at hsg
  have hkn : k ∉ kids nw := fun e => hnb (hdis k _ _ e hkk)
  have hprev0 : hd (kids nw) 0 = 0 ∨ pv (hd (kids nw) 0) = 0 := by
    rcases @hd_mem_or (kids nw) 0 with ⟨e, _⟩ | hm
    · exact Or.inl e
    · right
      have hxk : hd (kids nw) 0 ≠ k := fun e => hkn (e ▸ hm)
      rw [hpv _ hxk, updIf_ne]
      · have hsn := h.seg nw
        cases hkn' : kids nw with
        | nil => rw [hkn'] at hm; simp at hm
        | cons y l => rw [hkn'] at hsn; exact hsn.1
      · rw [en]
        apply ne_hd (nz _ _ hm)
        intro hm'
        exact hnb (hdis _ _ _ hm (hpost _ hm'))
  refine ⟨{ s with
    par := upd s.par k nw
    first := upd fi nw k
    next := upd nx k (hd (kids nw) 0)
    prev := updIf pv (hd (kids nw) 0) k }, ?_, ⟨rfl, rfl, rfl, rfl, rfl, rfl, rfl, rfl, rfl, rfl, rfl⟩, rfl, ?_⟩
  · rw [e1', Option.bind_some]
    unfold addChild
    have h3 : (hd (kids nw) 0 == 0 || pv (hd (kids nw) 0) == 0) = true := by
      rcases hprev0 with e | e <;> simp [e]
    simp only [hfn, hself.1, hself.2, assertIf, h3]
    rw [hpr]
    simp [upd_same, upd_upd]
  · have hparne : ∀ n, n ≠ k → upd s.par k nw n = s.par n := fun n hn => upd_ne hn
    have hmemo : ∀ x, x ∉ kids (s.par k) → x ∉ kids nw → x ≠ 0 → x ≠ k →
        upd nx k (hd (kids nw) 0) x = s.next x ∧ updIf pv (hd (kids nw) 0) k x = s.prev x := by
      intro x h1 h2 h3 h4
      constructor
      · rw [upd_ne h4, hnx x h4, updIf_ne]
        rw [ep]
        exact ne_lst h3 (fun e => h1 (hpre x e))
      · rw [updIf_ne (ne_hd h3 h2), hpv x h4, updIf_ne]
        rw [en]
        exact ne_hd h3 (fun e => h1 (hpost x e))
    refine { nbOk := h.nbOk, zero := ?_, lt := ?_, dead := ?_, mem := ?_, nodup := ?_, seg := ?_, firstKid := ?_, parLive := ?_, rank := ?_, start := ?_ }
    · refine ⟨h.zero.1, ?_, ?_, h.zero.2.2.2.1, h.zero.2.2.2.2⟩
      · show upd fi nw k 0 = 0
        rw [upd_ne (Ne.symm hnw0), hfi, upd_ne (Ne.symm hb0)]; exact h.zero.2.1
      · show upd s.par k nw 0 = 0
        rw [upd_ne (Ne.symm hk0)]; exact h.zero.2.2.1
    · exact h.lt
    · intro n hn
      show upd s.par k nw n = 0
      rw [upd_ne (fun e => hn (by rw [e]; exact hk))]
      exact h.dead n hn
    · intro x y
      show _ ↔ Live s x ∧ upd s.par k nw x = y
      by_cases hx : x = k
      · subst hx
        rw [upd_same]
        by_cases hy : y = s.par x
        · subst hy
          simp only [if_true]
          constructor
          · intro hm
            rcases List.mem_append.mp hm with e | e
            · exact absurd e hk1
            · exact absurd e hk2
          · intro hh; exact absurd hh.2 hnb
        · rw [if_neg hy]
          by_cases hy2 : y = nw
          · subst hy2; simp [hk]
          · rw [if_neg hy2]
            constructor
            · intro hm; exact absurd (hdis x _ _ hm hkk) hy
            · intro hh; exact absurd hh.2.symm hy2
      · rw [upd_ne hx]
        by_cases hy : y = s.par k
        · subst hy
          simp only [if_true]
          rw [← h.mem, hl]
          simp [hx]
        · rw [if_neg hy]
          by_cases hy2 : y = nw
          · subst hy2
            simp only [if_true, List.mem_cons, hx, false_or]
            exact h.mem x y
          · rw [if_neg hy2]; exact h.mem x y
    · intro y
      by_cases hy : y = s.par k
      · simp only [hy, if_true]
        rw [List.nodup_append]
        exact ⟨hn1, hn2', fun a ha b hb => hd12 a ha b (List.mem_cons_of_mem _ hb)⟩
      · simp only [hy, if_false]
        by_cases hy2 : y = nw
        · simp only [hy2, if_true]
          exact List.nodup_cons.mpr ⟨hkn, h.nodup nw⟩
        · simp only [hy2, if_false]; exact h.nodup y
    · intro y
      show Seg (upd nx k (hd (kids nw) 0)) (updIf pv (hd (kids nw) 0) k) 0 _ 0
      by_cases hy : y = s.par k
      · simp only [hy, if_true]
        apply seg_congr _ (seg_remove hz hnd hsg)
        intro x hx
        have hxk : x ≠ k := by
          rcases List.mem_append.mp hx with e | e
          · exact fun e' => hk1 (e' ▸ e)
          · exact fun e' => hk2 (e' ▸ e)
        have hxm : x ∈ kids (s.par k) := by
          rcases List.mem_append.mp hx with e | e
          · exact hpre x e
          · exact hpost x e
        have hxn : x ∉ kids nw := fun e => hnb (hdis x _ _ e hxm)
        refine ⟨?_, ?_⟩
        · rw [upd_ne hxk, hnx x hxk]
        · rw [updIf_ne (ne_hd (nz _ _ hxm) hxn), hpv x hxk]
      · simp only [hy, if_false]
        by_cases hy2 : y = nw
        · simp only [hy2, if_true]
          refine ⟨?_, ?_, ?_⟩
          · rw [updIf_ne (ne_hd hk0 hkn)]; exact hself.2
          · rw [upd_same]
          · apply seg_congr _ (seg_set_start k (h.zero_not_mem nw) (h.nodup nw) (h.seg nw))
            intro x hx
            have hxk : x ≠ k := fun e => hkn (e ▸ hx)
            have hxb : x ∉ kids (s.par k) := fun e => hnb (hdis x _ _ hx e)
            refine ⟨?_, ?_⟩
            · rw [upd_ne hxk, hnx x hxk, updIf_ne]
              rw [ep]
              exact ne_lst (nz _ _ hx) (fun e => hxb (hpre x e))
            · apply updIf_congr
              rw [hpv x hxk, updIf_ne]
              rw [en]
              exact ne_hd (nz _ _ hx) (fun e => hxb (hpost x e))
        · simp only [hy2, if_false]
          apply seg_congr _ (h.seg y)
          intro x hx
          exact hmemo x (fun e => hy (hdis x _ _ hx e)) (fun e => hy2 (hdis x _ _ hx e)) (nz _ _ hx) (fun e => hy (hdis x _ _ hx (e ▸ hkk)))
    · intro y hy
      show upd fi nw k y = _
      by_cases hy1 : y = s.par k
      · simp only [hy1, if_true]
        rw [upd_ne (Ne.symm hnb), hfi, upd_same]
      · simp only [hy1, if_false]
        by_cases hy2 : y = nw
        · simp only [hy2, if_true, upd_same]; rfl
        · simp only [hy2, if_false]
          rw [upd_ne hy2, hfi, upd_ne hy1]
          exact h.firstKid y hy
    · intro x hx
      show upd s.par k nw x ≠ 0 → Live s (upd s.par k nw x)
      by_cases e : x = k
      · rw [e, upd_same]; exact fun _ => hnw
      · rw [upd_ne e]; exact h.parLive x hx
    · intro x hx
      show upd s.par k nw x ≠ 0 → rank (upd s.par k nw x) < rank x
      by_cases e : x = k
      · rw [e, upd_same]; exact fun _ => hrk
      · rw [upd_ne e]; exact h.rank x hx
    · show s.start ∈ (if 0 = s.par k then pre ++ post else if 0 = nw then k :: kids nw else kids 0) ∨ _
      rw [if_neg (Ne.symm hb0), if_neg (Ne.symm hnw0)]
      exact h.start

/-- The loop over the children: those in the second half are moved. -/
theorem moveKids_spec {c : Config} {b nw at' : Nat} {rank : Nat → Nat} (hb0 : b ≠ 0) (hnb : nw ≠ b) : ∀ (rest done : List Nat) (f : Nat) (s : State)
    (kids : Nat → List Nat), Links c s kids rank → Live s nw → kids b = done ++ rest → rank nw ≤ rank b → rest.length < f →
    (∀ x ∈ rest, s.beg x < s.fin x) →
    ∃ s' kids', moveKids c b nw at' f s (hd rest 0) = some s' ∧ Relinked s s' ∧ Links c s' kids' rank ∧
      (∀ x, s'.par x = if x ∈ rest ∧ inSecond s b at' x = true then nw else s.par x) ∧
      (∀ x, x ≠ b → x ≠ nw → kids' x = kids x) := by
  intro rest
  induction rest with
  | nil =>
    intro done f s kids h hnw hk hr hf hpos
    cases f with
    | zero => simp at hf
    | succ f => exact ⟨s, kids, by simp [moveKids, hd], Relinked.refl s, h, by simp, fun _ _ _ => rfl⟩
  | cons k rest ih =>
    intro done f s kids h hnw hk hr hf hpos
    cases f with
    | zero => simp at hf
    | succ f =>
      obtain ⟨hkl, hkp⟩ := (h.mem k b).mp (by rw [hk]; simp)
      have hk0 := h.ne0 hkl
      have hrk := h.rank k hkl (by rw [hkp]; exact hb0)
      rw [hkp] at hrk
      have hsg := h.seg b
      rw [hk] at hsg
      have hnx := (seg_at hsg).2
      have hnd := h.nodup b
      rw [hk] at hnd
      obtain ⟨hn1, hn2, hd12⟩ := List.nodup_append.mp hnd
      obtain ⟨hk2, hn2'⟩ := List.nodup_cons.mp hn2
      have hkpos := hpos k List.mem_cons_self
      have hh : hd (k :: rest) 0 = k := rfl
      rw [hh, moveKids, if_neg hk0]
      have hboth : (inFirst s b at' k && inSecond s b at' k) = false := by
        unfold inFirst inSecond
        simp only [Bool.and_eq_false_iff, decide_eq_false_iff_not]
        omega
      unfold moveKid
      rw [hboth]
      simp only [Bool.false_eq_true, if_false]
      by_cases hs : inSecond s b at' k = true
      · rw [if_pos hs]
        obtain ⟨s1, e1, hrl, hpar, hlk⟩ := move_spec h (k := k) (nw := nw) (pre := done) (post := rest) hkl (by rw [hkp]; exact hb0) hnw
          (fun e => by rw [e] at hr; omega) (by rw [hkp]; exact hnb) (by omega) (by rw [hkp]; exact hk)
        rw [e1, Option.bind_some, hnx]
        rw [hkp] at hlk
        obtain ⟨s2, kids2, e2, hrl2, hlk2, hpar2, hk2'⟩ := ih done f s1 _ hlk ((hrl.live nw).mpr hnw) (by simp) hr (by simp at hf; omega)
          (fun x hx => by rw [hrl.beg, hrl.fin]; exact hpos x (List.mem_cons_of_mem _ hx))
        refine ⟨s2, kids2, e2, hrl.trans hrl2, hlk2, ?_, ?_⟩
        · intro x
          have hin : inSecond s1 b at' x = inSecond s b at' x := by unfold inSecond; rw [hrl.beg, hrl.fin]
          rw [hpar2, hin, hpar]
          by_cases hx : x = k
          · subst hx
            rw [upd_same]
            simp [hs]
          · rw [upd_ne hx]
            simp [hx]
        · intro x h1 h2
          rw [hk2' x h1 h2]
          simp [h1, h2]
      · rw [if_neg hs, Option.bind_some, hnx]
        obtain ⟨s2, kids2, e2, hrl2, hlk2, hpar2, hk2'⟩ := ih (done ++ [k]) f s kids h hnw (by rw [hk]; simp) hr (by simp at hf; omega)
          (fun x hx => hpos x (List.mem_cons_of_mem _ hx))
        refine ⟨s2, kids2, e2, hrl2, hlk2, ?_, hk2'⟩
        intro x
        rw [hpar2]
        by_cases hx : x = k
        · subst hx
          simp [hs, hk2]
        · simp [hx]

/-- The boundary may be used to split: it is a page boundary strictly inside, and cuts no child. -/
structure SplitOk (c : Config) (s : State) (b at' : Nat) : Prop where
  room : ∃ n, n ≠ 0 ∧ n < c.nb ∧ ¬ Live s n
  lo : s.beg b < at'
  hi : at' < s.fin b
  aligned : at' % PAGE = 0
  uncut : ∀ d, Live s d → s.par d = b → s.fin d ≤ at' ∨ at' ≤ s.beg d

/-- `s'` is `s` with `b` ending at the boundary and a new slot for the rest, taking the children that lie there. -/
structure SplitInto (s s' : State) (b nw at' : Nat) : Prop where
  beg : s'.beg = upd s.beg nw at'
  fin : s'.fin = upd (upd s.fin nw (s.fin b)) b at'
  par : ∀ n, n ≠ nw → s'.par n = if Live s n ∧ s.par n = b ∧ at' ≤ s.beg n then nw else s.par n
  parNew : s'.par nw = s.par b
  alloc : s'.alloc = upd s.alloc nw (s.alloc b)
  sub : s'.sub = upd s.sub nw (s.sub b)
  priv : s'.priv = upd s.priv nw (s.priv b)
  privFree : s'.privFree = upd s.privFree nw (s.privFree b)
  subPriv : s'.subPriv = upd s.subPriv nw (s.subPriv b)
  subPrivFree : s'.subPrivFree = upd s.subPrivFree nw (s.subPrivFree b)
  start : s'.start = s.start
  log : s'.log = s.log

theorem geo_split {c : Config} {s s' : State} {kids kids' : Nat → List Nat} {rank} (h : Inv c s kids rank) {b nw at' : Nat} {A B : List Nat}
    (hb : Live s b) (ho : SplitOk c s b at') (hnw0 : nw ≠ 0) (hnwd : ¬ Live s nw) (hs : SplitInto s s' b nw at')
    (hk : kids (s.par b) = A ++ B) (hk0 : s.par b = 0 → kids' 0 = A ++ nw :: B) (hk0' : s.par b ≠ 0 → kids' 0 = kids 0)
    (hA : s.par b = 0 → ∀ x ∈ A, s.fin x ≤ s.fin b) (hB : s.par b = 0 → ∀ x ∈ B, s.fin b < s.fin x)
    (hent : ∀ q, entry s' q = if at' ≤ q * PAGE ∧ entry s q = b then nw else entry s q) : Geo c s' kids' := by
  have hlo := ho.lo
  have hhi := ho.hi
  have hb0 := h.ne0 hb
  have hbn : b ≠ nw := fun e => hnwd (e ▸ hb)
  have hlive : ∀ n, Live s' n ↔ Live s n ∨ n = nw := by
    intro n
    unfold Live
    rw [hs.beg, hs.fin]
    by_cases e1 : n = nw
    · subst e1
      rw [upd_same, upd_ne (Ne.symm hbn), upd_same]
      simp only [or_true, iff_true]
      omega
    · rw [upd_ne e1]
      by_cases e2 : n = b
      · subst e2
        rw [upd_same]
        have hb1 := hb.1
        have hb2 := hb.2
        simp only [e1, or_false]
        omega
      · rw [upd_ne e2, upd_ne e1]
        simp [e1]
  have hne : ∀ n, Live s n → n ≠ nw := fun n hn e => hnwd (e ▸ hn)
  have hBg : ∀ n, n ≠ nw → s'.beg n = s.beg n := fun n hn => by rw [hs.beg, upd_ne hn]
  have hFn : ∀ n, n ≠ nw → n ≠ b → s'.fin n = s.fin n := fun n h1 h2 => by rw [hs.fin, upd_ne h2, upd_ne h1]
  have hBnw : s'.beg nw = at' := by rw [hs.beg, upd_same]
  have hFnw : s'.fin nw = s.fin b := by rw [hs.fin, upd_ne (Ne.symm hbn), upd_same]
  have hFb : s'.fin b = at' := by rw [hs.fin, upd_same]
  have hparnw : ∀ n, Live s n → s.par n ≠ nw := by
    intro n hn e
    have := h.parLive n hn (by rw [e]; exact hnw0)
    exact hnwd (e ▸ this)
  -- a live slot's new parent
  have hpar : ∀ n, Live s n → (s.par n = b ∧ at' ≤ s.beg n ∧ s'.par n = nw) ∨ (s.par n = b ∧ s.fin n ≤ at' ∧ s'.par n = b) ∨
      (s.par n ≠ b ∧ s'.par n = s.par n) := by
    intro n hn
    rw [hs.par n (hne n hn)]
    by_cases hp : s.par n = b
    · have hu := ho.uncut n hn hp
      have := h.pos n hn
      by_cases h2 : at' ≤ s.beg n
      · left; exact ⟨hp, h2, by rw [if_pos ⟨hn, hp, h2⟩]⟩
      · right; left; exact ⟨hp, by omega, by rw [if_neg (fun hh => h2 hh.2.2)]; exact hp⟩
    · right; right
      exact ⟨hp, by rw [if_neg (fun hh => hp hh.2.1)]⟩
  have hbpar : s'.par b = s.par b := by
    rcases hpar b hb with ⟨e, _⟩ | ⟨e, _⟩ | ⟨_, e⟩
    · exact absurd e (h.par_ne hb)
    · exact absurd e (h.par_ne hb)
    · exact e
  have hpbn : s.par b ≠ nw := hparnw b hb
  have hpbb := h.par_ne hb
  have hnestb : s.par b ≠ 0 → s.beg (s.par b) ≤ s.beg b ∧ s.fin b ≤ s.fin (s.par b) := h.nest b hb
  -- siblings of the split one
  have hsib : ∀ d, Live s d → s.par d = s.par b → d ≠ b → s.fin d ≤ s.beg b ∨ s.fin b ≤ s.beg d := fun d hd hp hdb => h.disj d b hd hb hp hdb
  have hnestk : ∀ d, Live s d → s.par d = b → s.beg b ≤ s.beg d ∧ s.fin d ≤ s.fin b := by
    intro d hd hdp
    have := h.nest d hd (by rw [hdp]; exact hb0)
    rw [hdp] at this
    exact this
  have hCb : ∀ q, Covers s' b q → Covers s b q := by
    intro q; unfold Covers; rw [hBg b hbn, hFb]; omega
  have hCnw : ∀ q, Covers s' nw q → Covers s b q := by
    intro q; unfold Covers; rw [hBnw, hFnw]; omega
  have hC : ∀ n q, n ≠ nw → n ≠ b → (Covers s' n q ↔ Covers s n q) := by
    intro n q h1 h2; unfold Covers; rw [hBg n h1, hFn n h1 h2]
  have hsmallb := h.small b hb
  refine ⟨?_, ?_, ?_, ?_, ?_, ?_, ?_⟩
  · intro n hn
    rcases (hlive n).mp hn with hn | rfl
    · have e1 := hne n hn
      by_cases e2 : n = b
      · subst e2; rw [hBg n e1, hFb]; exact hlo
      · rw [hBg n e1, hFn n e1 e2]; exact h.pos n hn
    · rw [hBnw, hFnw]; exact hhi
  · intro n hn
    rcases (hlive n).mp hn with hn | rfl
    · have e1 := hne n hn
      by_cases e2 : n = b
      · subst e2; rw [hBg n e1, hFb]; omega
      · rw [hBg n e1, hFn n e1 e2]; exact h.small n hn
    · rw [hBnw, hFnw]; omega
  · intro n hn hn0
    rcases (hlive n).mp hn with hn | rfl
    · have e1 := hne n hn
      rcases hpar n hn with ⟨hp, h2, e⟩ | ⟨hp, h2, e⟩ | ⟨hp, e⟩
      · have e2 : n ≠ b := fun e' => by rw [e'] at hp; exact hpbb hp
        rw [e, hBnw, hFnw, hBg n e1, hFn n e1 e2]
        exact ⟨h2, (hnestk n hn hp).2⟩
      · have e2 : n ≠ b := fun e' => by rw [e'] at hp; exact hpbb hp
        rw [e, hBg b hbn, hFb, hBg n e1, hFn n e1 e2]
        exact ⟨(hnestk n hn hp).1, h2⟩
      · rw [e] at hn0 ⊢
        have e3 := hparnw n hn
        rw [hBg n e1, hBg _ e3, hFn _ e3 hp]
        have := h.nest n hn hn0
        by_cases e2 : n = b
        · subst e2; rw [hFb]; omega
        · rw [hFn n e1 e2]; exact this
    · rw [hs.parNew] at hn0 ⊢
      rw [hBnw, hFnw, hBg _ hpbn, hFn _ hpbn hpbb]
      have := hnestb hn0
      omega
  · -- siblings stay apart
    have key : ∀ x y, Live s x → Live s y → s'.par x = s'.par y → x ≠ y → s'.fin x ≤ s'.beg y ∨ s'.fin y ≤ s'.beg x := by
      intro x y hx hy hxy hxy'
      have hold : s.par x = s.par y := by
        rcases hpar x hx with ⟨p1, _, e1⟩ | ⟨p1, _, e1⟩ | ⟨p1, e1⟩ <;> rcases hpar y hy with ⟨p2, _, e2⟩ | ⟨p2, _, e2⟩ | ⟨p2, e2⟩
        · rw [p1, p2]
        · rw [p1, p2]
        · rw [e1, e2] at hxy; exact absurd hxy.symm (hparnw y hy)
        · rw [p1, p2]
        · rw [p1, p2]
        · rw [p1, ← e2, ← hxy, e1]
        · rw [e1, e2] at hxy; exact absurd hxy (hparnw x hx)
        · rw [p2, ← e1, hxy, e2]
        · rw [← e1, hxy, e2]
      have hd := h.disj x y hx hy hold hxy'
      have f1 : s'.fin x ≤ s.fin x := by
        by_cases e : x = b
        · rw [e, hFb]; omega
        · rw [hFn x (hne x hx) e]; omega
      have f2 : s'.fin y ≤ s.fin y := by
        by_cases e : y = b
        · rw [e, hFb]; omega
        · rw [hFn y (hne y hy) e]; omega
      rw [hBg x (hne x hx), hBg y (hne y hy)]
      omega
    have keyn : ∀ x, Live s x → s'.par x = s.par b → s'.fin x ≤ at' ∨ s.fin b ≤ s'.beg x := by
      intro x hx hxp
      by_cases e : x = b
      · rw [e, hFb]; omega
      · have hold : s.par x = s.par b := by
          rcases hpar x hx with ⟨p1, _, e1⟩ | ⟨p1, _, e1⟩ | ⟨p1, e1⟩
          · rw [e1] at hxp; exact absurd hxp.symm hpbn
          · rw [e1] at hxp; exact absurd hxp.symm hpbb
          · rw [← e1]; exact hxp
        rw [hFn x (hne x hx) e, hBg x (hne x hx)]
        have := hsib x hx hold e
        omega
    intro x y hx hy hxy hxy'
    rcases (hlive x).mp hx with hx | rfl <;> rcases (hlive y).mp hy with hy | rfl
    · exact key x y hx hy hxy hxy'
    · rw [hs.parNew] at hxy
      rw [hBnw, hFnw]
      exact keyn x hx hxy
    · rw [hs.parNew] at hxy
      rw [hBnw, hFnw]
      have := keyn y hy hxy.symm
      omega
    · exact absurd rfl hxy'
  · intro n hn hn0
    rcases (hlive n).mp hn with hn | rfl
    · have e1 := hne n hn
      rcases hpar n hn with ⟨_, _, e⟩ | ⟨_, _, e⟩ | ⟨_, e⟩
      · rw [e] at hn0; exact absurd hn0 hnw0
      · rw [e] at hn0; exact absurd hn0 hb0
      · rw [e] at hn0
        have := h.top n hn hn0
        rw [hBg n e1]
        by_cases e2 : n = b
        · subst e2; rw [hFb]; exact ⟨this.1, ho.aligned⟩
        · rw [hFn n e1 e2]; exact this
    · rw [hs.parNew] at hn0
      rw [hBnw, hFnw]
      exact ⟨ho.aligned, (h.top b hb hn0).2⟩
  · have hfle : ∀ x, Live s x → s'.fin x ≤ s.fin x := by
      intro x hx
      by_cases e : x = b
      · rw [e, hFb]; omega
      · rw [hFn x (hne x hx) e]; omega
    have hold : (kids 0).Pairwise (fun a b => s'.fin a ≤ s'.beg b) := by
      apply List.Pairwise.imp_of_mem _ h.sorted
      intro x y hx hy hxy
      obtain ⟨hx, _⟩ := (h.mem _ _).mp hx
      obtain ⟨hy, _⟩ := (h.mem _ _).mp hy
      rw [hBg y (hne y hy)]
      have := hfle x hx
      omega
    by_cases hp0 : s.par b = 0
    · rw [hk0 hp0]
      rw [hp0] at hk
      rw [hk] at hold
      rw [List.pairwise_append] at hold ⊢
      obtain ⟨o1, o2, o3⟩ := hold
      have mA : ∀ x ∈ A, Live s x ∧ s.par x = 0 := fun x hx => (h.mem _ _).mp (by rw [hk]; exact List.mem_append_left _ hx)
      have mB : ∀ x ∈ B, Live s x ∧ s.par x = 0 := fun x hx => (h.mem _ _).mp (by rw [hk]; exact List.mem_append_right _ hx)
      refine ⟨o1, ?_, ?_⟩
      · rw [List.pairwise_cons]
        refine ⟨?_, o2⟩
        intro x hx
        obtain ⟨h1, h2⟩ := mB x hx
        rw [hFnw, hBg x (hne x h1)]
        have h3 := hB hp0 x hx
        have h4 : x ≠ b := fun e => by rw [e] at h3; omega
        have := hsib x h1 (by rw [h2, hp0]) h4
        have := h.pos b hb
        omega
      · intro x hx y hy
        rcases List.mem_cons.mp hy with rfl | hy
        · obtain ⟨h1, h2⟩ := mA x hx
          rw [hBnw]
          by_cases e : x = b
          · rw [e, hFb]; omega
          · rw [hFn x (hne x h1) e]
            have := hsib x h1 (by rw [h2, hp0]) e
            have := hA hp0 x hx
            have := h.pos x h1
            omega
        · exact o3 x hx y hy
    · rw [hk0' hp0]; exact hold
  · intro q
    rw [hent]
    have hal := ho.aligned
    rcases h.owner q with ⟨e, hno⟩ | ⟨e, hl, hcv, hch⟩
    · rw [if_neg (fun hh => hb0 (hh.2.symm.trans e))]
      left
      refine ⟨e, ?_⟩
      intro n hn hc
      rcases (hlive n).mp hn with hn | rfl
      · by_cases e2 : n = b
        · subst e2; exact hno n hn (hCb q hc)
        · exact hno n hn ((hC n q (hne n hn) e2).mp hc)
      · exact hno b hb (hCnw q hc)
    · by_cases hm : entry s q = b
      · rw [hm] at hcv hch
        by_cases hq : at' ≤ q * PAGE
        · rw [if_pos ⟨hq, hm⟩]
          right
          refine ⟨hnw0, (hlive nw).mpr (Or.inr rfl), ?_, ?_⟩
          · unfold Covers at hcv ⊢
            rw [hBnw, hFnw]; omega
          · intro n hn hnp hc
            rcases (hlive n).mp hn with hn | rfl
            · rcases hpar n hn with ⟨p1, _, _⟩ | ⟨_, _, e1⟩ | ⟨_, e1⟩
              · have e2 : n ≠ b := fun e' => by rw [e'] at p1; exact hpbb p1
                exact hch n hn p1 ((hC n q (hne n hn) e2).mp hc)
              · rw [hnp] at e1; exact hbn e1.symm
              · rw [hnp] at e1; exact hparnw n hn e1.symm
            · rw [hs.parNew] at hnp; exact hpbn hnp
        · rw [if_neg (fun hh => hq hh.1), hm]
          right
          refine ⟨hb0, (hlive b).mpr (Or.inl hb), ?_, ?_⟩
          · unfold Covers at hcv ⊢
            rw [hBg b hbn, hFb]
            unfold PAGE at *
            omega
          · intro n hn hnp hc
            rcases (hlive n).mp hn with hn | rfl
            · rcases hpar n hn with ⟨_, _, e1⟩ | ⟨p1, _, e1⟩ | ⟨p1, e1⟩
              · rw [hnp] at e1; exact hbn e1
              · have e2 : n ≠ b := fun e' => by rw [e'] at p1; exact hpbb p1
                exact hch n hn p1 ((hC n q (hne n hn) e2).mp hc)
              · rw [hnp] at e1; exact p1 e1.symm
            · rw [hs.parNew] at hnp; exact hpbb hnp
      · rw [if_neg (fun hh => hm hh.2)]
        right
        have hmn := hne _ hl
        refine ⟨e, (hlive _).mpr (Or.inl hl), (hC _ q hmn hm).mpr hcv, ?_⟩
        intro n hn hnp hc
        rcases (hlive n).mp hn with hn | rfl
        · rcases hpar n hn with ⟨_, _, e1⟩ | ⟨_, _, e1⟩ | ⟨_, e1⟩
          · rw [hnp] at e1; exact hmn e1
          · rw [hnp] at e1; exact hm e1
          · rw [hnp] at e1
            by_cases e2 : n = b
            · rw [e2] at hc hn e1
              exact hch b hb e1.symm (hCb q hc)
            · exact hch n hn e1.symm ((hC n q (hne n hn) e2).mp hc)
        · rw [hs.parNew] at hnp
          exact hch b hb hnp (hCnw q hc)

theorem split_spec {c : Config} {s : State} {kids rank} (h : Inv c s kids rank) {b at' : Nat} (hb : Live s b) (ho : SplitOk c s b at') :
    ∃ s' nw, split c s b at' = some (s', nw) ∧ nw ≠ 0 ∧ nw < c.nb ∧ ¬ Live s nw ∧ SplitInto s s' b nw at' ∧ ∃ kids' rank', Inv c s' kids' rank' := by
  have hlo := ho.lo
  have hhi := ho.hi
  have hb0 := h.ne0 hb
  have hnbk := h.nbOk
  obtain ⟨nw, enw⟩ : ∃ nw, findFree c s = some nw := by
    cases hff : findFree c s with
    | some n => exact ⟨n, rfl⟩
    | none =>
      obtain ⟨n, h1, h2, h3⟩ := ho.room
      exact absurd (findFree_none hff n h1 h2) h3
  obtain ⟨hnw0, hnwlt, hnwd⟩ := findFree_some enw
  have hbn : b ≠ nw := fun e => hnwd (e ▸ hb)
  have hp : s.par b = 0 ∨ Live s (s.par b) := by
    by_cases e : s.par b = 0
    · exact Or.inl e
    · exact Or.inr (h.parLive b hb e)
  have hpbn : s.par b ≠ nw := by
    intro e
    have := h.parLive b hb (by rw [e]; exact hnw0)
    exact hnwd (e ▸ this)
  have hpbb := h.par_ne hb
  have hst : s.start ≠ 0 := by
    rcases h.start with hs | ⟨he, _⟩
    · exact h.ne0 ((h.mem _ _).mp hs).1
    · obtain ⟨r, hr, hr0, _⟩ := h.exists_root hb
      have := (h.mem _ _).mpr ⟨hr, hr0⟩
      rw [he] at this; simp at this
  -- where the new one goes
  have hcut : ∃ A B, kids (s.par b) = A ++ B ∧ (s.par b ≠ 0 → A = []) ∧
      (s.par b = 0 → (∀ x ∈ A, s.fin x ≤ s.fin b ∧ s.beg x < at') ∧ (∀ x ∈ B, s.fin b < s.fin x)) := by
    by_cases hp0 : s.par b = 0
    · obtain ⟨A, B, e, hA, hB⟩ := cut_list (P := fun x => s.fin b < s.fin x) (kids 0) (by
        apply List.Pairwise.imp_of_mem _ h.sorted
        intro x y hx hy hxy hlt
        have := h.pos y ((h.mem _ _).mp hy).1
        omega)
      refine ⟨A, B, by rw [hp0]; exact e, fun hne => absurd hp0 hne, fun _ => ⟨?_, hB⟩⟩
      intro x hx
      have hfx := hA x hx
      obtain ⟨hxl, hx0⟩ := (h.mem x 0).mp (by rw [e]; exact List.mem_append_left _ hx)
      refine ⟨by omega, ?_⟩
      by_cases exb : x = b
      · rw [exb]; exact hlo
      · have := h.disj x b hxl hb (by rw [hx0, hp0]) exb
        have := h.pos x hxl
        omega
    · exact ⟨[], kids (s.par b), rfl, fun _ => rfl, fun e => absurd e hp0⟩
  obtain ⟨A, B, hk, hA0, hAB⟩ := hcut
  have hsz : at' + (s.fin b - at') = s.fin b := by omega
  obtain ⟨nx, pv, pr, fi, e1, hl⟩ := initNomemset_linked (sz := s.fin b - at')
    (m := ⟨s.alloc b, s.sub b, s.priv b, s.privFree b, s.subPriv b, s.subPrivFree b⟩) h.toLinks hnw0 hnwd hp hk hA0
    (fun h0 x hx => by rw [hsz]; exact (hAB h0).1 x hx) (fun h0 x hx => by rw [hsz]; exact (hAB h0).2 x hx)
  simp only [initFields, hsz] at e1 hl
  generalize hs1 : ({ s with
    beg := upd s.beg nw at', fin := upd s.fin nw (s.fin b), first := fi, next := nx, par := pr, prev := pv, alloc := upd s.alloc nw (s.alloc b),
    sub := upd s.sub nw (s.sub b), priv := upd s.priv nw (s.priv b), privFree := upd s.privFree nw (s.privFree b),
    subPriv := upd s.subPriv nw (s.subPriv b), subPrivFree := upd s.subPrivFree nw (s.subPrivFree b) } : State) = s1 at e1 hl
  have hbeg1 : s1.beg = upd s.beg nw at' := by rw [← hs1]
  have hfin1 : s1.fin = upd s.fin nw (s.fin b) := by rw [← hs1]
  have hlive1 : ∀ n, Live s1 n ↔ Live s n ∨ n = nw := by
    intro n
    unfold Live
    rw [hbeg1, hfin1]
    by_cases e : n = nw
    · subst e; simp only [upd_same, or_true, iff_true]; omega
    · simp [upd_ne e, e]
  have hlk1 := links_insert h.toLinks (rank b) (h.rank b hb) hnw0 hnwlt hnwd hp hk hl hlive1 (by rw [hbeg1, upd_ne (Ne.symm hnw0)]; exact h.zero.1)
    (by rw [← hs1]; show upd s.alloc nw (s.alloc b) 0 = 0; rw [upd_ne (Ne.symm hnw0)]; exact h.zero.2.2.2.1)
    (by rw [← hs1]; show upd s.sub nw (s.sub b) 0 = 0; rw [upd_ne (Ne.symm hnw0)]; exact h.zero.2.2.2.2)
    (Or.inl ⟨by rw [← hs1], hst⟩)
  have hlenb := hlk1.kids_length b
  simp only [Ne.symm hpbb, if_false] at hlenb
  have hkl : ∀ x ∈ kids b, Live s x ∧ s.par x = b := fun x hx => (h.mem _ _).mp hx
  have hne : ∀ n, Live s n → n ≠ nw := fun n hn e => hnwd (e ▸ hn)
  obtain ⟨s2, kids2, e2, hrl, hlk2, hpar2, hkids2⟩ := moveKids_spec (at' := at') hb0 (Ne.symm hbn) (kids b) [] (c.nb + 1) s1 _ hlk1
    ((hlive1 nw).mpr (Or.inr rfl)) (by simp only [Ne.symm hpbb, if_false]; rfl)
    (by
      rw [upd_same, upd_ne hbn]
      exact Nat.le_refl _) (by omega)
    (by
      intro x hx
      have hxn := hne x (hkl x hx).1
      rw [hbeg1, hfin1, upd_ne hxn, upd_ne hxn]
      exact h.pos x (hkl x hx).1)
  have hsp : SplitInto s { s2 with
      fin := upd s2.fin b at'
      pidx := renumber s2.pidx (pagenum (roundUp (s2.beg nw) PAGE)) (pagenum (roundUp (s2.fin nw) PAGE)) b nw } b nw at' := by
    refine ⟨?_, ?_, ?_, ?_, ?_, ?_, ?_, ?_, ?_, ?_, ?_, ?_⟩
    · show s2.beg = _
      rw [hrl.beg, hbeg1]
    · show upd s2.fin b at' = _
      rw [hrl.fin, hfin1]
    · intro n hn
      show s2.par n = _
      rw [hpar2, hl.par, upd_ne hn]
      by_cases hm : n ∈ kids b
      · obtain ⟨h1, h2⟩ := hkl n hm
        have hnb : n ≠ b := fun e => by rw [e] at h2; exact hpbb h2
        have hin : inSecond s1 b at' n = decide (at' ≤ s.beg n) := by
          unfold inSecond
          rw [hbeg1, hfin1, upd_ne hn, upd_ne hn, upd_ne hbn]
          have := h.nest n h1 (by rw [h2]; exact hb0)
          rw [h2] at this
          simp [this.2]
        rw [hin]
        simp [hm, h1, h2]
      · rw [if_neg (fun hh => hm hh.1), if_neg]
        rintro ⟨h1, h2, _⟩
        exact hm ((h.mem _ _).mpr ⟨h1, h2⟩)
    · show s2.par nw = _
      rw [hpar2, hl.par, upd_same, if_neg]
      intro hh
      exact hnwd (hkl nw hh.1).1
    · show s2.alloc = _
      rw [hrl.alloc, ← hs1]
    · show s2.sub = _
      rw [hrl.sub, ← hs1]
    · show s2.priv = _
      rw [hrl.priv, ← hs1]
    · show s2.privFree = _
      rw [hrl.privFree, ← hs1]
    · show s2.subPriv = _
      rw [hrl.subPriv, ← hs1]
    · show s2.subPrivFree = _
      rw [hrl.subPrivFree, ← hs1]
    · show s2.start = _
      rw [hrl.start, ← hs1]
    · show s2.log = _
      rw [hrl.log, ← hs1]
  have hfirst : s1.first b = hd (kids b) 0 := by
    rw [hlk1.firstKid b ((hlive1 b).mpr (Or.inl hb))]
    simp only [Ne.symm hpbb, if_false]
  refine ⟨_, nw, ?_, hnw0, hnwlt, hnwd, hsp, kids2, upd rank nw (rank b), ?_, ?_⟩
  · unfold split
    simp only [enw, Option.bind_eq_bind, Option.bind_some, e1, hfirst, e2]
  · refine hlk2.frame ?_ ?_ rfl rfl rfl rfl hlk2.zero.2.2.2.1 hlk2.zero.2.2.2.2 rfl
    · intro n
      unfold Live
      show s2.beg n ≠ 0 ∧ upd s2.fin b at' n ≠ 0 ↔ _
      by_cases e : n = b
      · subst e
        rw [upd_same, hrl.fin, hfin1, upd_ne hbn]
        have := hb.2
        constructor
        · rintro ⟨h1, _⟩; exact ⟨h1, this⟩
        · rintro ⟨h1, _⟩; exact ⟨h1, by omega⟩
      · rw [upd_ne e]
    · exact hlk2.zero.1
  · refine geo_split h hb ho hnw0 hnwd hsp hk ?_ ?_ (fun h0 x hx => ((hAB h0).1 x hx).1) (fun h0 => (hAB h0).2) ?_
    · intro hp0
      rw [hkids2 0 (Ne.symm hb0) (Ne.symm hnw0)]
      simp [hp0]
    · intro hp0
      rw [hkids2 0 (Ne.symm hb0) (Ne.symm hnw0)]
      simp [Ne.symm hp0]
    · intro q
      have hpx : s2.pidx = s.pidx := by rw [hrl.pidx, ← hs1]
      have hbnw : s2.beg nw = at' := by rw [hrl.beg, hbeg1, upd_same]
      have hfnw : s2.fin nw = s.fin b := by rw [hrl.fin, hfin1, upd_same]
      show (renumber s2.pidx _ _ b nw q).toNat = _
      unfold renumber
      rw [hbnw, hfnw, hpx]
      simp only [le_page_up, lt_page_up]
      have hiff : (at' ≤ q * PAGE ∧ q * PAGE < s.fin b ∧ (s.pidx q).toNat = b) ↔ (at' ≤ q * PAGE ∧ entry s q = b) := by
        constructor
        · rintro ⟨h1, _, h2⟩; exact ⟨h1, h2⟩
        · rintro ⟨h1, h2⟩
          refine ⟨h1, ?_, h2⟩
          rcases h.owner q with ⟨e, _⟩ | ⟨_, _, hc, _⟩
          · exact absurd (h2.symm.trans e) hb0
          · rw [h2] at hc
            unfold Covers at hc
            unfold PAGE at *
            omega
      by_cases hc : at' ≤ q * PAGE ∧ entry s q = b
      · rw [if_pos hc, if_pos (hiff.mpr hc), BitVec.toNat_ofNat]
        apply Nat.mod_eq_of_lt
        omega
      · rw [if_neg hc, if_neg (fun hh => hc (hiff.mp hh))]
        rfl

end Liballocs.PageIndex
