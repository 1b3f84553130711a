import Verif.Model.FileLoad
import Verif.Props.PageIndex
/-!
# Loading of files: the steps
-/
namespace Liballocs.FileLoad

open PageIndex Fill

/-! ## Bounds -/

theorem bounds_fold : ∀ (l : List Phdr) (lo : Option Nat) (hi : Nat),
    let r := l.foldl boundsStep (lo, hi)
    (r.1 = none ↔ lo = none ∧ ∀ p ∈ l, p.load = false) ∧
    (∀ v, r.1 = some v → (lo = some v ∨ ∃ p ∈ l, p.load = true ∧ p.vaddr = v) ∧
      (∀ w, lo = some w → v ≤ w) ∧ ∀ p ∈ l, p.load = true → v ≤ p.vaddr) ∧
    hi ≤ r.2 ∧ (r.2 = hi ∨ ∃ p ∈ l, p.load = true ∧ p.vaddr + p.memsz = r.2) ∧ ∀ p ∈ l, p.load = true → p.vaddr + p.memsz ≤ r.2
  | [], lo, hi => by
    simp
    intro v hv
    exact ⟨hv, fun w hw => by rw [hv] at hw; cases hw; omega⟩
  | p :: l, lo, hi => by
    rw [List.foldl_cons]
    by_cases hp : p.load = true
    · have e : boundsStep (lo, hi) p = ((match lo with
          | none => some p.vaddr
          | some lo => if p.vaddr < lo then some p.vaddr else some lo), if p.vaddr + p.memsz > hi then p.vaddr + p.memsz else hi) := by
        cases lo <;> simp [boundsStep, hp]
      rw [e]
      generalize hlo' : (match lo with
          | none => some p.vaddr
          | some lo => if p.vaddr < lo then some p.vaddr else some lo) = lo'
      generalize hhi' : (if p.vaddr + p.memsz > hi then p.vaddr + p.memsz else hi) = hi'
      have hlo1 : ∃ v, lo' = some v ∧ v ≤ p.vaddr ∧ (∀ w, lo = some w → v ≤ w) ∧ (lo = some v ∨ v = p.vaddr) := by
        cases lo with
        | none => exact ⟨p.vaddr, hlo'.symm, by omega, by simp, Or.inr rfl⟩
        | some w =>
          simp only at hlo'
          by_cases hw : p.vaddr < w
          · rw [if_pos hw] at hlo'
            exact ⟨p.vaddr, hlo'.symm, by omega, fun x hx => by cases hx; omega, Or.inr rfl⟩
          · rw [if_neg hw] at hlo'
            exact ⟨w, hlo'.symm, by omega, fun x hx => by cases hx; omega, Or.inl rfl⟩
      have hhi1 : hi ≤ hi' ∧ p.vaddr + p.memsz ≤ hi' ∧ (hi' = hi ∨ p.vaddr + p.memsz = hi') := by
        rw [← hhi']
        split <;> omega
      obtain ⟨v', hv', h1, h2, h3⟩ := hlo1
      obtain ⟨h4, h5, h6⟩ := hhi1
      obtain ⟨i1, i2, i3, i4, i5⟩ := bounds_fold l lo' hi'
      refine ⟨?_, ?_, by omega, ?_, ?_⟩
      · rw [i1, hv']
        simp [hp]
      · intro v hv
        obtain ⟨j1, j2, j3⟩ := i2 v hv
        have := j2 v' hv'
        refine ⟨?_, fun w hw => Nat.le_trans this (h2 w hw), ?_⟩
        · rcases j1 with j1 | ⟨q, hq, hl, hqv⟩
          · rw [hv'] at j1
            cases j1
            rcases h3 with h3 | h3
            · exact Or.inl h3
            · exact Or.inr ⟨p, List.mem_cons_self, hp, h3.symm⟩
          · exact Or.inr ⟨q, List.mem_cons_of_mem _ hq, hl, hqv⟩
        · intro q hq hl
          rcases List.mem_cons.mp hq with rfl | hq
          · omega
          · exact j3 q hq hl
      · rcases i4 with i4 | ⟨q, hq, hl, hqv⟩
        · rcases h6 with h6 | h6
          · left; omega
          · exact Or.inr ⟨p, List.mem_cons_self, hp, by omega⟩
        · exact Or.inr ⟨q, List.mem_cons_of_mem _ hq, hl, hqv⟩
      · intro q hq hl
        rcases List.mem_cons.mp hq with rfl | hq
        · omega
        · exact i5 q hq hl
    · have e : boundsStep (lo, hi) p = (lo, hi) := by simp [boundsStep, hp]
      rw [e]
      obtain ⟨i1, i2, i3, i4, i5⟩ := bounds_fold l lo hi
      refine ⟨?_, ?_, i3, ?_, ?_⟩
      · rw [i1]; simp [hp]
      · intro v hv
        obtain ⟨j1, j2, j3⟩ := i2 v hv
        refine ⟨?_, j2, ?_⟩
        · rcases j1 with j1 | ⟨q, hq, hl, hqv⟩
          · exact Or.inl j1
          · exact Or.inr ⟨q, List.mem_cons_of_mem _ hq, hl, hqv⟩
        · intro q hq hl
          rcases List.mem_cons.mp hq with rfl | hq
          · exact absurd hl hp
          · exact j3 q hq hl
      · rcases i4 with i4 | ⟨q, hq, hl, hqv⟩
        · exact Or.inl i4
        · exact Or.inr ⟨q, List.mem_cons_of_mem _ hq, hl, hqv⟩
      · intro q hq hl
        rcases List.mem_cons.mp hq with rfl | hq
        · exact absurd hl hp
        · exact i5 q hq hl

/-! ## Lookups -/

theorem fromRoot_unique {c : Config} {align : Nat → Nat} {s : State} (hr : Reach c align s) {addr a f : Nat} (ha : a ≠ 0)
    (hf : Live s f) (hfa : Has s f addr) (hal : s.alloc f = a) (hu : ∀ x, Live s x → Has s x addr → s.alloc x = a → x = f) :
    fromRoot c s addr a false = some f := by
  obtain ⟨r, e, h1⟩ := (lookup_by_allocator hr addr a ha).1
  rcases h1 with ⟨_, h2⟩ | ⟨h2, h3, h4, _⟩
  · exact absurd hal (h2 f hf hfa)
  · rw [e, hu r h2 h3 h4]

theorem fromRoot_none {c : Config} {align : Nat → Nat} {s : State} (hr : Reach c align s) {addr a : Nat} (ha : a ≠ 0)
    (hu : ∀ x, Live s x → Has s x addr → s.alloc x ≠ a) : fromRoot c s addr a false = some 0 := by
  obtain ⟨r, e, h1⟩ := (lookup_by_allocator hr addr a ha).1
  rcases h1 with ⟨h0, _⟩ | ⟨h2, h3, h4, _⟩
  · rw [e, h0]
  · exact absurd h4 (hu r h2 h3)

theorem topLevel_unique {c : Config} {align : Nat → Nat} {s : State} (hr : Reach c align s) {addr m : Nat}
    (hm : Live s m) (hp : s.par m = 0) (ha : Has s m addr) : topLevel c s addr = some m := by
  obtain ⟨r, e, h1⟩ := lookup_top_level hr addr
  rw [e]
  rcases h1 with ⟨_, h2⟩ | ⟨h2, h3, h4⟩
  · exact absurd ha (h2 m hm)
  · by_cases h5 : r = m
    · rw [h5]
    · have := (forest_partial hr).2.2.1 r m h2 hm (by omega) h5
      unfold Has at ha h4
      omega

/-- Setting a suballocator changes nothing else. -/
theorem setSub_spec {c : Config} {align : Nat → Nat} {s : State} (hr : Reach c align s) {b v : Nat} (hb : Live s b) :
    Reach c align (setSub s b v) ∧ ∀ a, deepest c (setSub s b v) a = deepest c s a := by
  have h1 : Reach c align (setSub s b v) := by
    refine Reach.step (op := .setSub b v (s.subPriv b) (s.subPrivFree b)) hr hb ?_
    simp only [apply, setSub]
    rw [show upd s.subPriv b (s.subPriv b) = s.subPriv from by funext j; simp [upd]; intro e; rw [e],
      show upd s.subPrivFree b (s.subPrivFree b) = s.subPrivFree from by funext j; simp [upd]; intro e; rw [e]]
  refine ⟨h1, ?_⟩
  intro a
  obtain ⟨r, e, hd, _⟩ := lookup_deepest_partial hr a
  obtain ⟨_, kids, rank, h⟩ := reach_good h1
  rw [e, h.deepest_iff]
  have hanc : ∀ x y, Anc s x y → Anc (setSub s b v) x y := by
    intro x y hxy
    induction hxy with
    | refl => exact Anc.refl
    | step h2 _ ih => exact Anc.step h2 ih
  rcases hd with ⟨h0, h2⟩ | ⟨h2, h3, h4⟩
  · exact Or.inl ⟨h0, h2⟩
  · exact Or.inr ⟨h2, h3, fun n hn hna => hanc _ _ (h4 n hn hna)⟩

/-! ## Room -/

/-- There are at least `k` unused slots. -/
def Room (c : Config) (s : State) (k : Nat) : Prop :=
  ∃ l : List Nat, l.Nodup ∧ k ≤ l.length ∧ ∀ b ∈ l, b ≠ 0 ∧ b < c.nb ∧ ¬ Live s b

theorem Room.some {c : Config} {s : State} {k : Nat} (h : Room c s (k + 1)) : ∃ b, b ≠ 0 ∧ b < c.nb ∧ ¬ Live s b := by
  obtain ⟨l, _, h2, h3⟩ := h
  match l, h2 with
  | b :: _, _ => exact ⟨b, h3 b List.mem_cons_self⟩

theorem Room.less {c : Config} {s s' : State} {k b : Nat} (h : Room c s (k + 1)) (hl : ∀ n, Live s' n ↔ Live s n ∨ n = b) : Room c s' k := by
  obtain ⟨l, h1, h2, h3⟩ := h
  refine ⟨l.erase b, h1.erase b, ?_, ?_⟩
  · have := List.length_erase (l := l) (a := b)
    rw [this]
    split <;> omega
  · intro x hx
    have hx' : x ∈ l := List.mem_of_mem_erase hx
    obtain ⟨h4, h5, h6⟩ := h3 x hx'
    refine ⟨h4, h5, ?_⟩
    rw [hl]
    rintro (h7 | h7)
    · exact h6 h7
    · subst h7
      exact (h1.not_mem_erase) hx

theorem Room.same {c : Config} {s s' : State} {k : Nat} (h : Room c s k) (hl : ∀ n, Live s' n ↔ Live s n) : Room c s' k := by
  obtain ⟨l, h1, h2, h3⟩ := h
  refine ⟨l, h1, h2, fun b hb => ?_⟩
  rw [hl]
  exact h3 b hb

/-! ## Stages -/

/-- A big allocation with this range, allocator, private pointer, suballocator, destructor and parent. -/
structure Made (s : State) (p kind pv sub pf : Nat) (d : Nat × Nat) (n : Nat) : Prop where
  live : Live s n
  beg : s.beg n = d.1
  fin : s.fin n = d.2
  alloc : s.alloc n = kind
  par : s.par n = p
  sub : s.sub n = sub
  privFree : s.privFree n = pf
  subPrivFree : s.subPrivFree n = 0
  priv : s.priv n = pv

/-- A big allocation is as in another state. -/
structure Kept (s s' : State) (n : Nat) : Prop where
  live : Live s' n
  beg : s'.beg n = s.beg n
  fin : s'.fin n = s.fin n
  par : s'.par n = s.par n
  alloc : s'.alloc n = s.alloc n
  sub : s'.sub n = s.sub n
  priv : s'.priv n = s.priv n
  privFree : s'.privFree n = s.privFree n
  subPriv : s'.subPriv n = s.subPriv n
  subPrivFree : s'.subPrivFree n = s.subPrivFree n

theorem Kept.trans {s s1 s2 : State} {n : Nat} (h1 : Kept s s1 n) (h2 : Kept s1 s2 n) : Kept s s2 n :=
  ⟨h2.live, by rw [h2.beg, h1.beg], by rw [h2.fin, h1.fin], by rw [h2.par, h1.par], by rw [h2.alloc, h1.alloc], by rw [h2.sub, h1.sub],
    by rw [h2.priv, h1.priv], by rw [h2.privFree, h1.privFree], by rw [h2.subPriv, h1.subPriv], by rw [h2.subPrivFree, h1.subPrivFree]⟩

theorem Made.kept {s s' : State} {p kind pv sub pf : Nat} {d : Nat × Nat} {n : Nat} (hm : Made s p kind pv sub pf d n) (hk : Kept s s' n) :
    Made s' p kind pv sub pf d n :=
  ⟨hk.live, by rw [hk.beg, hm.beg], by rw [hk.fin, hm.fin], by rw [hk.alloc, hm.alloc], by rw [hk.par, hm.par], by rw [hk.sub, hm.sub],
    by rw [hk.privFree, hm.privFree], by rw [hk.subPrivFree, hm.subPrivFree], by rw [hk.priv, hm.priv]⟩

/-- `newBigalloc` followed by a store of the suballocator: what was there is kept. -/
theorem added_kept {s s' : State} {b p lo hi v : Nat} {m : Meta} (ha : Added s s' b p lo hi m) (hlive : ∀ n, Live s' n ↔ Live s n ∨ n = b)
    (hb : ¬ Live s b) {n : Nat} (hn : Live s n) : Kept s (FileLoad.setSub s' b v) n := by
  have hne : n ≠ b := fun e => hb (e ▸ hn)
  refine ⟨(hlive n).mpr (Or.inl hn), ?_, ?_, ?_, ?_, ?_, ?_, ?_, ?_, ?_⟩
  · show s'.beg n = _; rw [ha.beg, upd_ne hne]
  · show s'.fin n = _; rw [ha.fin, upd_ne hne]
  · show s'.par n = _; rw [ha.par, upd_ne hne]
  · show s'.alloc n = _; rw [ha.alloc, upd_ne hne]
  · show upd s'.sub b v n = _; rw [upd_ne hne, ha.sub, upd_ne hne]
  · show s'.priv n = _; rw [ha.priv, upd_ne hne]
  · show s'.privFree n = _; rw [ha.privFree, upd_ne hne]
  · show s'.subPriv n = _; rw [ha.subPriv, upd_ne hne]
  · show s'.subPrivFree n = _; rw [ha.subPrivFree, upd_ne hne]

/-- `s` is `base` with big allocations of one kind added for the ranges in `items`, below parents in `base`. -/
structure Stage (c : Config) (align : Nat → Nat) (base : State) (kind : Nat) (V : Nat × Nat → Nat) (P : Nat × Nat → Nat → Nat → Prop) (s : State)
    (items : List (Nat × Nat)) : Prop where
  reach : Reach c align s
  old : ∀ n, Live base n → Kept base s n
  new : ∀ n, Live s n → ¬ Live base n → ∃ d ∈ items, ∃ p v, P d p v ∧ Live base p ∧ Made s p kind v (V d) 0 d n
  made : ∀ d ∈ items, ∃ n, ¬ Live base n ∧ (∃ p v, P d p v ∧ Live base p ∧ Made s p kind v (V d) 0 d n) ∧
    ∀ a, d.1 ≤ a → a < d.2 → deepest c s a = some n
  look : ∀ a, (∀ d ∈ items, ¬ (d.1 ≤ a ∧ a < d.2)) → deepest c s a = deepest c base a
  log : s.log = base.log
  start : s.start = base.start

theorem Stage.nil {c : Config} {align : Nat → Nat} {base : State} {kind : Nat} {V : Nat × Nat → Nat} {P : Nat × Nat → Nat → Nat → Prop}
    (hr : Reach c align base) : Stage c align base kind V P base [] where
  reach := hr
  old n hn := ⟨hn, rfl, rfl, rfl, rfl, rfl, rfl, rfl, rfl, rfl⟩
  new n h1 h2 := absurd h1 h2
  made d hd := by simp at hd
  look a _ := rfl
  log := rfl
  start := rfl

theorem Stage.perm {c : Config} {align : Nat → Nat} {base s : State} {kind : Nat} {V : Nat × Nat → Nat} {P : Nat × Nat → Nat → Nat → Prop}
    {l l' : List (Nat × Nat)} (h : Stage c align base kind V P s l) (hl : ∀ d, d ∈ l' ↔ d ∈ l) : Stage c align base kind V P s l' where
  reach := h.reach
  old := h.old
  new n h1 h2 := by
    obtain ⟨d, hd, r⟩ := h.new n h1 h2
    exact ⟨d, (hl d).mpr hd, r⟩
  made d hd := h.made d ((hl d).mp hd)
  look a ha := h.look a (fun d hd => ha d ((hl d).mpr hd))
  log := h.log
  start := h.start

/-- Adding one, and storing its suballocator. -/
theorem Stage.add {c : Config} {align : Nat → Nat} {base s : State} {kind : Nat} {V : Nat × Nat → Nat} {P : Nat × Nat → Nat → Nat → Prop}
    {l : List (Nat × Nat)} (h : Stage c align base kind V P s l) {lo sz p k : Nat} {m : Meta} (hm : m.alloc = kind) (hm1 : m.privFree = 0)
    (hlo : lo ≠ 0) (hsz : 0 < sz)
    (hsmall : sz ≤ c.maxPages * PAGE) (hroom : Room c s (k + 1)) (hp : Live base p) (hp0 : p ≠ 0) (hP : P (lo, lo + sz) p m.priv)
    (hin : base.beg p ≤ lo ∧ lo + sz ≤ base.fin p)
    (hkids : ∀ d, Live base d → base.par d = p → base.fin d ≤ lo ∨ lo + sz ≤ base.beg d)
    (hitems : ∀ d ∈ l, d.2 ≤ lo ∨ lo + sz ≤ d.1) :
    ∃ s' b, newBigalloc c s lo sz p m = some (s', b) ∧
      Stage c align base kind V P (FileLoad.setSub s' b (V (lo, lo + sz))) ((lo, lo + sz) :: l) ∧
      Room c (FileLoad.setSub s' b (V (lo, lo + sz))) k ∧ s'.par b = p ∧ s'.fin b = lo + sz ∧ s'.fin p = base.fin p ∧
      (0 = V (lo, lo + sz) → FileLoad.setSub s' b (V (lo, lo + sz)) = s') := by
  obtain ⟨hpl, hpb, hpf, _⟩ := h.old p hp
  have ho : NewOk c s lo sz p := by
    refine ⟨hlo, hsz, hsmall, hroom.some, fun _ => ⟨hpl, by omega, by omega, ?_⟩, fun e => absurd e hp0⟩
    intro d hd hdp
    by_cases hdb : Live base d
    · obtain ⟨_, e1, e2, e3, _⟩ := h.old d hdb
      rw [e1, e2]
      exact hkids d hdb (by rw [← e3]; exact hdp)
    · obtain ⟨x, hx, q, _, _, _, hmx⟩ := h.new d hd hdb
      rw [hmx.beg, hmx.fin]
      exact hitems x hx
  obtain ⟨s', b, q, e, hr', hb, hq, _, ha, hlive, hl1, hl2⟩ := create_correct (m := m) h.reach ho
  obtain rfl := hq hp0
  have hbl : Live s' b := (hlive b).mpr (Or.inr rfl)
  obtain ⟨hr2, hd2⟩ := setSub_spec (v := V (lo, lo + sz)) hr' hbl
  have hlive2 : ∀ n, Live (FileLoad.setSub s' b (V (lo, lo + sz))) n ↔ Live s n ∨ n = b := hlive
  have hmade : Made (FileLoad.setSub s' b (V (lo, lo + sz))) q kind m.priv (V (lo, lo + sz)) 0 (lo, lo + sz) b := by
    refine ⟨hbl, ?_, ?_, ?_, ?_, upd_same _ _ _, ?_, ?_, ?_⟩
    · show s'.beg b = _; rw [ha.beg, upd_same]
    · show s'.fin b = _; rw [ha.fin, upd_same]
    · show s'.alloc b = _; rw [ha.alloc, upd_same]; exact hm
    · show s'.par b = _; rw [ha.par, upd_same]
    · show s'.privFree b = _; rw [ha.privFree, upd_same]; exact hm1
    · show s'.subPrivFree b = _; rw [ha.subPrivFree, upd_same]
    · show s'.priv b = _; rw [ha.priv, upd_same]
  have hkept : ∀ {n}, Live s n → Kept s (FileLoad.setSub s' b (V (lo, lo + sz))) n := fun hn => added_kept ha hlive hb hn
  refine ⟨s', b, e, ?_, hroom.less hlive2, by rw [ha.par, upd_same], by rw [ha.fin, upd_same],
    by rw [ha.fin, upd_ne (fun e : q = b => hb (e ▸ hpl)), hpf], ?_⟩
  · constructor
    · exact hr2
    · exact fun n hn => (h.old n hn).trans (hkept (h.old n hn).live)
    · intro n hn hnb
      rcases (hlive2 n).mp hn with hn | rfl
      · obtain ⟨d, hd, x, v, hx, hxl, hmx⟩ := h.new n hn hnb
        exact ⟨d, List.mem_cons_of_mem _ hd, x, v, hx, hxl, hmx.kept (hkept hn)⟩
      · exact ⟨_, List.mem_cons_self, q, m.priv, hP, hp, hmade⟩
    · intro d hd
      rcases List.mem_cons.mp hd with rfl | hd
      · exact ⟨b, fun hbb => hb (h.old b hbb).1, ⟨q, m.priv, hP, hp, hmade⟩, fun a h1 h2 => by rw [hd2]; exact hl1 a h1 h2⟩
      · obtain ⟨n, hn, ⟨x, v, hx, hxl, hmx⟩, hlk⟩ := h.made d hd
        refine ⟨n, hn, ⟨x, v, hx, hxl, hmx.kept (hkept hmx.live)⟩, ?_⟩
        intro a h1 h2
        have := hitems d hd
        rw [hd2, hl2 a (by omega), hlk a h1 h2]
    · intro a hna
      rw [hd2, hl2 a (hna _ List.mem_cons_self), h.look a (fun d hd => hna d (List.mem_cons_of_mem _ hd))]
    · show s'.log = _
      rw [ha.log, h.log]
    · show s'.start = _
      rw [ha.start, h.start]
  · intro hv
    have : s'.sub b = V (lo, lo + sz) := by rw [ha.sub, upd_same]; exact hv
    unfold FileLoad.setSub
    rw [← this, upd_id]

end Liballocs.FileLoad
