import Verif.Proofs.PageCheck
/-!
# Proofs that no check made by an operation on the table of big allocations fails
-/
namespace Liballocs.PageIndex

open Fill

theorem bind_check {α : Type} {o : Option Unit} {f : Unit → Option α} (h : o = some ()) : o.bind f = f () := by rw [h]; rfl

theorem sanityOk_intro {s : State} {b : Nat} (h1 : s.fin b ≠ s.beg b) (h2 : entry s (pagenum (s.beg b - 1)) ≠ b)
    (h3 : entry s (pagenum (s.fin b)) ≠ b) (h4 : s.par b ≠ 0 → s.beg (s.par b) ≤ s.beg b ∧ s.fin b ≤ s.fin (s.par b)) : sanityOk s b = true := by
  unfold sanityOk
  have e3 : s.par b = 0 ∨ (s.beg (s.par b) ≤ s.beg b ∧ s.fin b ≤ s.fin (s.par b)) := by
    by_cases hp : s.par b = 0
    · exact Or.inl hp
    · exact Or.inr (h4 hp)
  simp only [Bool.and_eq_true, Bool.or_eq_true, bne_iff_ne, beq_iff_eq, decide_eq_true_eq, ne_eq]
  exact Or.inr ⟨⟨⟨h1, h2⟩, h3⟩, e3⟩

/-- What the check of the entries needs: no page outside a big allocation is given as its own. -/
structure Edges (s : State) : Prop where
  pos : ∀ n, Live s n → s.beg n < s.fin n
  nest : ∀ n, Live s n → s.par n ≠ 0 → s.beg (s.par n) ≤ s.beg n ∧ s.fin n ≤ s.fin (s.par n)
  low : ∀ n, Live s n → entry s (pagenum (s.beg n - 1)) ≠ n
  high : ∀ n, Live s n → entry s (pagenum (s.fin n)) ≠ n

theorem Edges.ok {s : State} (h : Edges s) {n : Nat} (hn : Live s n) : sanityOk s n = true :=
  sanityOk_intro (by have := h.pos n hn; omega) (h.low n hn) (h.high n hn) (h.nest n hn)

theorem sanityOk_elim {s : State} {b : Nat} (hb : Live s b) (h : sanityOk s b = true) :
    entry s (pagenum (s.beg b - 1)) ≠ b ∧ entry s (pagenum (s.fin b)) ≠ b := by
  unfold sanityOk at h
  rw [live_iff.mpr hb] at h
  simp only [Bool.not_true, Bool.false_or, Bool.and_eq_true, bne_iff_ne, ne_eq] at h
  exact ⟨h.1.1.2, h.1.2⟩

theorem Inv.edges {c : Config} {s : State} {kids rank} (h : Inv c s kids rank) : Edges s :=
  ⟨h.pos, h.nest, fun n hn => (sanityOk_elim hn (h.sanity n)).1, fun n hn => (sanityOk_elim hn (h.sanity n)).2⟩

theorem Inv.entry_live {c : Config} {s : State} {kids rank} (h : Inv c s kids rank) (q : Nat) : entry s q = 0 ∨ Live s (entry s q) := by
  rcases h.owner q with ⟨e, _⟩ | ⟨_, hl, _⟩
  · exact Or.inl e
  · exact Or.inr hl

theorem Links.check {c : Config} {s : State} {kids rank} (h : Links c s kids rank) (he : Edges s) (x : Nat) : checkOne c s x = some () := by
  by_cases hx : Live s x
  · exact checkOne_ok (h.part (fun y hy => he.ok hy)) hx
  · exact checkOne_free hx

/-- The place where searches of the top-level list start is of no concern to the check of one big allocation. -/
theorem Links.check_restart {c : Config} {s : State} {kids rank} {b : Nat} (h : Links c { s with start := b } kids rank) (he : Edges s) (x : Nat) :
    checkOne c s x = some () := by
  have he' : Edges { s with start := b } := ⟨he.pos, he.nest, he.low, he.high⟩
  by_cases hx : Live s x
  · have hp := h.part (fun y hy => he'.ok hy)
    have hp' : Part c s kids (Live s) := by
      refine ⟨fun y hy => hp.ok y hy, ?_, fun y hy => hp.firstKid y hy, fun y hy => hp.seg y hy, fun y hy => hp.len y hy, fun y hy => hp.zero y hy,
        fun y z hy hz => hp.kid y z hy hz, fun y hy => hp.ne0 y hy⟩
      intro y hy
      obtain ⟨d, h1, h2⟩ := hp.depth y hy
      exact ⟨d, h1.congr rfl, h2⟩
    exact checkOne_ok hp' hx
  · exact checkOne_free hx

theorem thenCheck_ok {c : Config} {s : State} {kids rank} (h : Inv c s kids rank) (b : Nat) : thenCheck c b (some s) = some s := by
  unfold thenCheck
  rw [Option.bind_some, h.check b]; rfl

/-! ## Creation -/

theorem findFreeC_eq {c : Config} {s : State} {kids rank} (h : Inv c s kids rank) : ∀ l : List Nat,
    findFreeC c s l = l.find? (fun i => !inUse s i) := by
  intro l
  induction l with
  | nil => rfl
  | cons p l ih =>
    rw [findFreeC, bind_check (h.check p)]
    cases hu : inUse s p with
    | true => rw [List.find?_cons_of_neg (by simp [hu])]; exact ih
    | false => rw [List.find?_cons_of_pos (by simp [hu])]; rfl

/-- The parent is checked when the new slot is filled in but not linked. -/
theorem parent_check {c : Config} {s : State} {kids rank} (h : Inv c s kids rank) {b lo sz p : Nat} {m : Meta}
    (hbd : ¬ Live s b) (hp : Live s p) : checkOne c (initFields s b lo sz m) p = some () := by
  have hne : ∀ x, Live s x → x ≠ b := fun x hx e => hbd (e ▸ hx)
  have hpart : Part c (initFields s b lo sz m) kids (Live s) := by
    refine ⟨?_, ?_, ?_, ?_, fun x _ => h.kids_length x, fun x _ => h.zero_not_mem x, fun x y _ hy => (h.mem y x).mp hy, fun x hx => h.ne0 hx⟩
    · intro x hx
      have hxb := hne x hx
      have hed := h.edges
      apply sanityOk_intro
      · simp only [initFields, upd_ne hxb]; have := h.pos x hx; omega
      · simp only [initFields, upd_ne hxb]; exact hed.low x hx
      · simp only [initFields, upd_ne hxb]; exact hed.high x hx
      · intro hp0
        have hpx := hne _ (h.parLive x hx hp0)
        simp only [initFields, upd_ne hxb, upd_ne hpx]
        exact h.nest x hx hp0
    · intro x hx
      obtain ⟨d, _, h1, _, _, h2⟩ := h.exists_depth hx
      exact ⟨d, h1.congr rfl, h2⟩
    · intro x hx
      simp only [initFields, upd_ne (hne x hx)]
      exact h.firstKid x hx
    · intro x hx
      apply seg_congr _ (h.seg x)
      intro y hy
      have := hne y ((h.mem y x).mp hy).1
      simp only [initFields, upd_ne this, and_self]
  exact checkOne_ok hpart hp

/-- Where the new one goes: between those that begin before it and those that begin after. -/
structure Place (s : State) (kids : Nat → List Nat) (p lo sz : Nat) (A B : List Nat) : Prop where
  eq : kids p = A ++ B
  child : p ≠ 0 → A = []
  left : p = 0 → ∀ x ∈ A, s.fin x ≤ lo + sz ∧ s.beg x < lo
  right : p = 0 → ∀ x ∈ B, lo + sz < s.fin x ∧ lo < s.beg x
  pos : lo ≠ 0 ∧ 0 < sz
  inside : p ≠ 0 → s.beg p ≤ lo ∧ lo + sz ≤ s.fin p

theorem initNomemsetC_eq {c : Config} {s : State} {kids rank} (h : Inv c s kids rank) {b lo sz p : Nat} {m : Meta} {A B : List Nat}
    (hst : s.start ≠ 0 ∨ p = 0)
    (r : Nat) (hr : p ≠ 0 → rank p < r) (hb0 : b ≠ 0) (hblt : b < c.nb) (hbd : ¬ Live s b) (hp : p = 0 ∨ Live s p)
    (hpl : Place s kids p lo sz A B) :
    ∃ s1, initNomemsetC c s b lo sz p m = some s1 ∧ initNomemset c s b lo sz p m = some s1 ∧ Edges s1 ∧
      Links c { s1 with start := if s.start = 0 then b else s.start } (fun x => if x = p then A ++ b :: B else kids x) (upd rank b r) ∧
      s1.start = s.start ∧ s1.beg = upd s.beg b lo ∧ s1.fin = upd s.fin b (lo + sz) := by
  obtain ⟨nx, pv, pr, fi, e, hl⟩ := initNomemset_linked (m := m) h.toLinks hb0 hbd hp hpl.eq hpl.child hpl.left
    (fun h0 x hx => (hpl.right h0 x hx).1)
  generalize hs1 : ({ initFields s b lo sz m with next := nx, prev := pv, par := pr, first := fi } : State) = s1 at e hl
  have hbeg : s1.beg = upd s.beg b lo := by rw [← hs1]; rfl
  have hfin : s1.fin = upd s.fin b (lo + sz) := by rw [← hs1]; rfl
  have hent : ∀ q, entry s1 q = entry s q := by intro q; rw [← hs1]; rfl
  have hpos := hpl.pos
  have hlive : ∀ n, Live s1 n ↔ Live s n ∨ n = b := by
    intro n
    unfold Live
    rw [hbeg, hfin]
    by_cases hn : n = b
    · subst hn; simp only [upd_same, or_true, iff_true]; omega
    · simp [upd_ne hn, hn]
  have hstart : s1.start = s.start := by rw [← hs1]; rfl
  have hlk := links_insert (s' := { s1 with start := if s.start = 0 then b else s.start }) (b := b) (p := p) h.toLinks r hr hb0 hblt hbd hp hpl.eq
    ⟨hl.par, hl.next, hl.prev, hl.first⟩ hlive
    (by show s1.beg 0 = 0; rw [hbeg, upd_ne (Ne.symm hb0)]; exact h.zero.1)
    (by rw [← hs1]; show upd s.alloc b m.alloc 0 = 0; rw [upd_ne (Ne.symm hb0)]; exact h.zero.2.2.2.1)
    (by rw [← hs1]; show upd s.sub b m.sub 0 = 0; rw [upd_ne (Ne.symm hb0)]; exact h.zero.2.2.2.2)
    (by
      by_cases hs0 : s.start = 0
      · right
        refine ⟨?_, by simp [hs0]⟩
        rcases hst with h0 | h0
        · exact absurd hs0 h0
        · exact h0
      · left; exact ⟨by simp [hs0], hs0⟩)
  have hne : ∀ x, Live s x → x ≠ b := fun x hx e => hbd (e ▸ hx)
  have hpar : ∀ n, n ≠ b → s1.par n = s.par n := fun n hn => by rw [hl.par, upd_ne hn]
  have hparb : s1.par b = p := by rw [hl.par, upd_same]
  have hed := h.edges
  have hnoent : ∀ q, entry s q ≠ b := by
    intro q e
    rcases h.entry_live q with h1 | h1
    · exact hb0 (e.symm.trans h1)
    · exact hbd (e ▸ h1)
  have hed1 : Edges s1 := by
    refine ⟨?_, ?_, ?_, ?_⟩
    · intro n hn
      rcases (hlive n).mp hn with h1 | rfl
      · rw [hbeg, hfin, upd_ne (hne n h1), upd_ne (hne n h1)]; exact h.pos n h1
      · rw [hbeg, hfin, upd_same, upd_same]; omega
    · intro n hn hp0
      rcases (hlive n).mp hn with h1 | rfl
      · rw [hpar n (hne n h1)] at hp0 ⊢
        have h2 := hne _ (h.parLive n h1 hp0)
        rw [hbeg, hfin, upd_ne (hne n h1), upd_ne (hne n h1), upd_ne h2, upd_ne h2]
        exact h.nest n h1 hp0
      · rw [hparb] at hp0 ⊢
        have h2 : p ≠ n := by
          rcases hp with h3 | h3
          · exact absurd h3 hp0
          · exact hne p h3
        rw [hbeg, hfin, upd_same, upd_same, upd_ne h2, upd_ne h2]
        exact hpl.inside hp0
    · intro n hn
      rw [hent]
      rcases (hlive n).mp hn with h1 | rfl
      · rw [hbeg, upd_ne (hne n h1)]; exact hed.low n h1
      · exact hnoent _
    · intro n hn
      rw [hent]
      rcases (hlive n).mp hn with h1 | rfl
      · rw [hfin, upd_ne (hne n h1)]; exact hed.high n h1
      · exact hnoent _
  have htop : topCheck c s1 = some () := by
    by_cases hs0 : s.start = 0
    · unfold topCheck
      rw [if_pos (by rw [hstart]; exact hs0)]
    have hlk : Links c s1 (fun x => if x = p then A ++ b :: B else kids x) (upd rank b r) := by
      rw [if_neg hs0, ← hstart] at hlk
      exact hlk
    apply topCheck_ok (l := if 0 = p then A ++ b :: B else kids 0)
    refine ⟨hlk.topList, ?_, fun x => hlk.mem x 0, fun x hx => hlk.lt x ((hlk.mem x 0).mp hx).1⟩
    have hsort := h.tops_ok.sorted
    have hm0 : ∀ x ∈ kids 0, x ≠ b := fun x hx => hne x ((h.mem _ _).mp hx).1
    by_cases hp0 : 0 = p
    · rw [if_pos hp0]
      subst hp0
      have hk := hpl.eq
      rw [hk] at hsort
      obtain ⟨s1', s2', s3'⟩ := List.pairwise_append.mp hsort
      have hA : ∀ x ∈ A, s1.beg x = s.beg x := fun x hx => by
        rw [hbeg, upd_ne (hm0 x (by rw [hk]; exact List.mem_append_left _ hx))]
      have hB : ∀ x ∈ B, s1.beg x = s.beg x := fun x hx => by
        rw [hbeg, upd_ne (hm0 x (by rw [hk]; exact List.mem_append_right _ hx))]
      have hbb : s1.beg b = lo := by rw [hbeg, upd_same]
      rw [List.pairwise_append, List.pairwise_cons]
      refine ⟨s1'.imp_of_mem (fun hx hy hxy => by rw [hA _ hx, hA _ hy]; exact hxy), ⟨?_, ?_⟩, ?_⟩
      · intro x hx; rw [hbb, hB x hx]; exact (hpl.right rfl x hx).2
      · exact s2'.imp_of_mem (fun hx hy hxy => by rw [hB _ hx, hB _ hy]; exact hxy)
      · intro x hx y hy
        rcases List.mem_cons.mp hy with rfl | hy
        · rw [hbb, hA x hx]; exact (hpl.left rfl x hx).2
        · rw [hA x hx, hB y hy]; exact s3' x hx y hy
    · rw [if_neg hp0]
      exact hsort.imp_of_mem (fun hx hy hxy => by rw [hbeg, upd_ne (hm0 _ hx), upd_ne (hm0 _ hy)]; exact hxy)
  have hct : checkTops c s1 b = some () := by
    unfold checkTops
    split
    · exact htop
    · rfl
  refine ⟨s1, ?_, e, hed1, hlk, hstart, hbeg, hfin⟩
  unfold initNomemset linkIn at e
  unfold initNomemsetC addChildC
  by_cases hp0 : p = 0
  · rw [if_neg (by simp [hp0])] at e ⊢
    rw [e, Option.bind_some, bind_check (hlk.check_restart hed1 b), bind_check hct]
  · rw [if_pos hp0] at e ⊢
    have hpl' : Live s p := by
      rcases hp with h3 | h3
      · exact absurd h3 hp0
      · exact h3
    rw [bind_check (parent_check h hbd hpl'), e, Option.bind_some, bind_check (hlk.check_restart hed1 b), bind_check (hlk.check_restart hed1 p), Option.bind_some,
      bind_check (hlk.check_restart hed1 b), bind_check hct]

theorem Fits.place {c : Config} {s : State} {kids rank} (h : Inv c s kids rank) {p lo sz : Nat} (hf : Fits c s p lo (lo + sz)) :
    ∃ A B, Place s kids p lo sz A B := by
  obtain ⟨A, B, hk, hA0, hAB⟩ := hf.cut h
  have hpos := hf.pos
  exact ⟨A, B, hk, hA0, fun h0 x hx => by have := (hAB h0).1 x hx; omega, fun h0 x hx => by have := (hAB h0).2 x hx; omega,
    ⟨hf.nonzero, by omega⟩, hf.inside⟩

theorem newBigallocC_eq {c : Config} {s : State} {kids rank} (h : Inv c s kids rank) {ptr size mp : Nat} {m : Meta}
    (ho : NewOk c s ptr size mp) (hst : s.start ≠ 0 ∨ ∀ n, ¬ Live s n) : newBigallocC c s ptr size mp m = newBigalloc c s ptr size mp m := by
  obtain ⟨s', b, p, e, hb0, hblt, hbd, hp, hf, hmp, hdp, hadd, kids', rank', hinv, hboot⟩ := newBigalloc_spec (m := m) h ho
  have hst' : s.start ≠ 0 ∨ p = 0 := by
    rcases hst with h0 | h0
    · exact Or.inl h0
    · rcases hp with h1 | h1
      · exact Or.inr h1
      · exact absurd h1 (h0 p)
  have hend : checkOne c s' b = some () := by
    rcases hst' with h0 | h0
    · exact (hinv h0).check b
    · have hi := hboot h0
      have he := hi.edges
      exact hi.toLinks.check_restart ⟨he.pos, he.nest, he.low, he.high⟩ b
  rw [e]
  unfold newBigalloc at e
  unfold newBigallocC
  simp only [Option.bind_eq_bind] at e
  cases ha : abortIf (decide (size > c.maxPages * PAGE)) with
  | none => rw [ha] at e; cases e
  | some u =>
    rw [ha, Option.bind_some] at e
    rw [Option.bind_some]
    cases hc : chooseParent c s ptr size mp with
    | none => rw [hc] at e; cases e
    | some p' =>
      rw [hc, Option.bind_some] at e
      rw [Option.bind_some]
      have hpp : p' = p := by
        by_cases hmp0 : mp = 0
        · have h1 := hdp hmp0
          unfold chooseParent at hc
          rw [if_neg (by simp [hmp0]), h1] at hc
          cases h2 : deepest c s (ptr + size - 1) with
          | none => rw [h2] at hc; cases hc
          | some d2 =>
            rw [h2] at hc
            dsimp only at hc
            split at hc
            · cases hc
            · unfold topAligned at hc
              split at hc
              · cases hc
              · exact (Option.some.inj hc).symm
        · unfold chooseParent at hc
          rw [if_pos hmp0] at hc
          rw [hmp hmp0]
          exact (Option.some.inj hc).symm
      subst hpp
      have hci : checkIf c s p' = some () := by
        unfold checkIf
        split
        · rfl
        · exact h.check p'
      rw [bind_check hci]
      unfold bigallocNew at e
      simp only [Option.bind_eq_bind] at e
      unfold bigallocNewC
      rw [findFreeC_eq h]
      have hff : (List.range' 1 (c.nb - 1)).find? (fun i => !inUse s i) = findFree c s := rfl
      rw [hff]
      cases hfr : findFree c s with
      | none => rw [hfr] at e; cases e
      | some b' =>
        rw [hfr, Option.bind_some] at e
        obtain ⟨hb0', hblt', hbd'⟩ := findFree_some hfr
        rw [Option.bind_some]
        obtain ⟨A, B, hpl⟩ := hf.place h
        obtain ⟨s1, e1, e2, _⟩ := initNomemsetC_eq (m := { m with sub := 0, subPriv := 0, subPrivFree := 0 }) h (rank := rank) hst' (rank p' + 1)
          (fun _ => by omega) hb0' hblt' hbd' hp hpl
        unfold bigallocInit at e
        simp only [Option.bind_eq_bind] at e
        unfold bigallocInitC
        rw [e2, Option.bind_some] at e
        rw [e1, Option.bind_some]
        cases hsp : setPages c s1 (roundUp (s1.beg b') PAGE) (roundDown (s1.fin b') PAGE) b' p' with
        | none => rw [hsp] at e; cases e
        | some s2 =>
          rw [hsp, Option.bind_some] at e
          have e' := Option.some.inj e
          have es : s2 = s' := congrArg Prod.fst e'
          have eb : b' = b := congrArg Prod.snd e'
          subst es eb
          rw [Option.bind_some, bind_check hend, Option.bind_some, Option.bind_some, bind_check hend]

end Liballocs.PageIndex
