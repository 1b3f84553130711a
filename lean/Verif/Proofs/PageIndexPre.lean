import Verif.Proofs.PageIndexResize
/-!
# Growing a big allocation downwards
-/
namespace Liballocs.PageIndex

open Fill

theorem isKid_spec {s : State} {n : Nat} : ∀ (l : List Nat) (f p : Nat), 0 ∉ l → Seg s.next s.prev p l 0 → l.length < f →
    isKid s n f (hd l 0) = some (decide (n ∈ l))
  | [], f, _, _, _, hf => by
    cases f with
    | zero => simp at hf
    | succ f => simp [isKid, hd]
  | x :: l, f, p, h0, hs, hf => by
    cases f with
    | zero => simp at hf
    | succ f =>
      obtain ⟨_, h2, h3⟩ := hs
      have hx0 : x ≠ 0 := fun e => h0 (by simp [e])
      have hh : hd (x :: l) 0 = x := rfl
      rw [hh, isKid, if_neg hx0]
      by_cases e : x = n
      · rw [if_pos e]; simp [e]
      · rw [if_neg e, h2, isKid_spec l f x (fun e => h0 (List.mem_cons_of_mem _ e)) h3 (by simp at hf; omega)]
        simp [Ne.symm e]

theorem underLoop_spec {s : State} {rec1 : Nat → Option Bool} {P : Nat → Prop} [DecidablePred P] : ∀ (l : List Nat) (f p : Nat), 0 ∉ l →
    Seg s.next s.prev p l 0 → l.length < f → (∀ k ∈ l, rec1 k = some (decide (P k))) →
    underLoop s rec1 f (hd l 0) = some (decide (∃ k ∈ l, P k))
  | [], f, _, _, _, hf, _ => by
    cases f with
    | zero => simp at hf
    | succ f => simp [underLoop, hd]
  | x :: l, f, p, h0, hs, hf, hr => by
    cases f with
    | zero => simp at hf
    | succ f =>
      obtain ⟨_, h2, h3⟩ := hs
      have hx0 : x ≠ 0 := fun e => h0 (by simp [e])
      have hh : hd (x :: l) 0 = x := rfl
      rw [hh, underLoop, if_neg hx0, hr x List.mem_cons_self]
      by_cases e : P x
      · simp [e]
      · simp only [e, decide_false]
        rw [h2, underLoop_spec l f x (fun e => h0 (List.mem_cons_of_mem _ e)) h3 (by simp at hf; omega)
          (fun k hk => hr k (List.mem_cons_of_mem _ hk))]
        simp [e]

open Classical in
/-- The nesting question is answered rightly. -/
theorem isUnder_spec {c : Config} {s : State} {kids rank} (h : Links c s kids rank) {n : Nat} : ∀ (f b : Nat) (l : List Nat), Live s b →
    Path s b l → c.nb ≤ f + l.length → isUnder c s n f b = some (decide (Live s n ∧ Anc s b n ∧ n ≠ b)) := by
  intro f
  induction f with
  | zero =>
    intro b l hb hp hf
    have := h.path_length hp hb
    omega
  | succ f ih =>
    intro b l hb hp hf
    have hlen := h.kids_length b
    have hb0 := h.ne0 hb
    rw [isUnder]
    by_cases e : n = b
    · rw [if_pos e]; simp [e]
    · rw [if_neg e, h.firstKid b hb, isKid_spec (kids b) (c.nb + 1) 0 (h.zero_not_mem b) (h.seg b) (by omega)]
      have hkid : ∀ k ∈ kids b, Live s k ∧ s.par k = b := fun k hk => (h.mem _ _).mp hk
      by_cases hm : n ∈ kids b
      · obtain ⟨h1, h2⟩ := hkid n hm
        simp only [hm, decide_true]
        have : Live s n ∧ Anc s b n ∧ n ≠ b := ⟨h1, Anc.step (by rw [h2]; exact hb0) (h2 ▸ Anc.refl), e⟩
        simp [this]
      · simp only [hm, decide_false]
        rw [underLoop_spec (P := fun k => Live s n ∧ Anc s k n ∧ n ≠ k) (kids b) (c.nb + 1) 0 (h.zero_not_mem b) (h.seg b) (by omega)]
        · congr 1
          rw [decide_eq_decide]
          constructor
          · rintro ⟨k, hk, h1, h2, _⟩
            obtain ⟨h3, h4⟩ := hkid k hk
            exact ⟨h1, (Anc.step (by rw [h4]; exact hb0) (h4 ▸ Anc.refl)).trans h2, e⟩
          · rintro ⟨h1, h2, _⟩
            rcases Inv.anc_cases h2 with e' | ⟨k, hk1, _, hkn⟩
            · exact absurd e'.symm e
            · have hkl := h.anc_live hkn h1
              have hkm := (h.mem _ _).mpr ⟨hkl, hk1⟩
              exact ⟨k, hkm, h1, hkn, fun e' => hm (e' ▸ hkm)⟩
        · intro k hk
          obtain ⟨h3, h4⟩ := hkid k hk
          exact ih k (k :: l) h3 (Inv.path_cons hp h4 hb0) (by simp; omega)

/-- Growing downwards. -/
theorem preExtend_spec {c : Config} {s : State} {kids rank} (h : Inv c s kids rank) {b newBegin : Nat} (hb : Live s b)
    (hr : newBegin < s.beg b → Resizable c s b newBegin (s.fin b)) :
    ∃ s', preExtend c s b newBegin = some s' ∧ Resized s s' b (min newBegin (s.beg b)) (s.fin b) ∧ Inv c s' kids rank := by
  unfold preExtend
  by_cases hlt : newBegin < s.beg b
  · rw [if_pos hlt]
    have hr := hr hlt
    have hbpos := h.pos b hb
    have hsm := hr.small
    have hrp := hr.pos
    have hbl := h.lt b hb
    have hnb := h.nbOk
    have hb0 := h.ne0 hb
    have hl1 : ∀ n, Live { s with beg := upd s.beg b newBegin } n ↔ Live s n := by
      intro n
      unfold Live
      by_cases hn : n = b
      · subst hn; simp only [upd_same]; exact ⟨fun _ => hb, fun _ => ⟨hr.nonzero, by omega⟩⟩
      · simp [upd_ne hn]
    have hlk : Links c { s with beg := upd s.beg b newBegin } kids rank := by
      refine h.toLinks.frame hl1 ?_ rfl rfl rfl rfl h.zero.2.2.2.1 h.zero.2.2.2.2 rfl
      show upd s.beg b newBegin 0 = 0
      rw [upd_ne (Ne.symm hb0)]; exact h.zero.1
    -- whatever the answer, the right pages are filled
    have hlim : ∃ u, preExtendUnder c { s with beg := upd s.beg b newBegin } b (s.beg b) = some u ∧
        ∀ q, (newBegin ≤ q * PAGE ∧ q < pagenum (preExtendLimit s b (s.beg b) u)) ↔
          ((newBegin ≤ q * PAGE ∧ (q + 1) * PAGE ≤ s.fin b) ∧ ¬ Covers s b q) := by
      unfold preExtendUnder
      by_cases hpg : pagenum (s.fin b) > pagenum (s.beg b)
      · rw [if_pos hpg]
        have hu := isUnder_spec hlk (n := entry { s with beg := upd s.beg b newBegin } (pagenum (s.beg b))) (c.nb + 1) b [b]
          ((hl1 b).mpr hb) Path.top (by simp; omega)
        refine ⟨_, hu, ?_⟩
        intro q
        by_cases hun : Live { s with beg := upd s.beg b newBegin } (entry { s with beg := upd s.beg b newBegin } (pagenum (s.beg b))) ∧
            Anc { s with beg := upd s.beg b newBegin } b (entry { s with beg := upd s.beg b newBegin } (pagenum (s.beg b))) ∧
            entry { s with beg := upd s.beg b newBegin } (pagenum (s.beg b)) ≠ b
        · -- the page belongs to something under `b`, so `b` starts on a page boundary
          obtain ⟨u1, u2, u3⟩ := hun
          have e1 : entry s (pagenum (s.beg b)) = entry { s with beg := upd s.beg b newBegin } (pagenum (s.beg b)) := rfl
          have hanc : Anc s b (entry s (pagenum (s.beg b))) := by
            rw [e1]
            clear hu
            generalize entry { s with beg := upd s.beg b newBegin } (pagenum (s.beg b)) = n at u2
            induction u2 with
            | refl => exact Anc.refl
            | step hp _ ih => exact Anc.step hp ih
          have hlv : Live s (entry s (pagenum (s.beg b))) := (hl1 _).mp u1
          have hcov : Covers s (entry s (pagenum (s.beg b))) (pagenum (s.beg b)) := by
            rcases h.owner (pagenum (s.beg b)) with ⟨e, _⟩ | ⟨_, _, hc, _⟩
            · exact absurd e (h.ne0 hlv)
            · exact hc
          have hcb := h.anc_covers hanc hlv hcov
          unfold preExtendLimit
          rw [if_neg (by simp [u1, u2, u3])]
          rw [lt_page_down]
          unfold Covers at hcb ⊢
          unfold pagenum PAGE at *
          omega
        · unfold preExtendLimit
          rw [if_pos ⟨hpg, by simp only [hun, decide_false]⟩]
          rw [lt_page_up]
          unfold Covers
          unfold pagenum PAGE at *
          omega
      · rw [if_neg hpg]
        refine ⟨false, rfl, ?_⟩
        intro q
        unfold preExtendLimit
        rw [if_neg (by simp [hpg])]
        rw [lt_page_down]
        unfold Covers
        unfold pagenum PAGE at *
        omega
    obtain ⟨u, eu, hlim⟩ := hlim
    rw [eu, Option.bind_some]
    have hlen : pageDist (roundUp newBegin PAGE) (preExtendLimit s b (s.beg b) u) ≤ c.maxPages := by
      have hx : ∀ q, pagenum (roundUp newBegin PAGE) ≤ q → q < pagenum (preExtendLimit s b (s.beg b) u) → (q + 1) * PAGE ≤ s.fin b := by
        intro q h1 h2
        exact ((hlim q).mp ⟨le_page_up.mp h1, h2⟩).1.2
      unfold pageDist
      split
      · rename_i hc
        have := hx (pagenum (preExtendLimit s b (s.beg b) u) - 1) (by omega) (by omega)
        have h3 := @le_page_up newBegin (pagenum (roundUp newBegin PAGE))
        have h4 := h3.mp (Nat.le_refl _)
        have e5 : pagenum (preExtendLimit s b (s.beg b) u) - 1 + 1 = pagenum (preExtendLimit s b (s.beg b) u) := by omega
        rw [e5] at this
        unfold PAGE at *
        omega
      · omega
    obtain ⟨pi, e, hpi⟩ := setPages_spec c { s with beg := upd s.beg b newBegin } (roundUp newBegin PAGE) (preExtendLimit s b (s.beg b) u) b
      (s.par b) (by omega) hlen (by
        right
        intro q h1 h2
        right
        rw [le_page_up] at h1
        obtain ⟨⟨h3, h4⟩, h5⟩ := (hlim q).mp ⟨h1, h2⟩
        exact gained_entry h hb hr h3 h4 h5)
    have hmin : min newBegin (s.beg b) = newBegin := by omega
    rw [hmin]
    refine ⟨_, e, ?_, ?_⟩
    · constructor <;> first | rfl | (simp only [upd_id])
    · apply inv_resize h hb hr
      · constructor <;> first | rfl | (simp only [upd_id])
      · intro q
        show (pi q).toNat = _
        rw [hpi q]
        simp only [le_page_up, hlim q]
        split
        · rfl
        · rw [if_neg]
          · rfl
          · unfold Covers
            omega
  · rw [if_neg hlt]
    have hmin : min newBegin (s.beg b) = s.beg b := by omega
    rw [hmin]
    refine ⟨s, rfl, ?_, h⟩
    constructor <;> first | rfl | (simp only [upd_id])

/-- What growing one big allocation downwards needs besides room in the parent. -/
structure StepOk (c : Config) (s : State) (b newBegin : Nat) : Prop where
  nonzero : newBegin ≠ 0
  small : s.fin b ≤ newBegin + c.maxPages * PAGE
  apart : newBegin < s.beg b → ∀ d, Live s d → s.par d = s.par b → d ≠ b → s.fin d ≤ newBegin ∨ s.fin b ≤ s.beg d
  aligned : newBegin < s.beg b → s.par b = 0 → newBegin % PAGE = 0

/-- The same for a big allocation and all above it, at the bounds requested of each. -/
inductive RecOk (c : Config) (align : Nat → Nat) (s : State) : Nat → Nat → Prop
  | top {b newBegin : Nat} : s.par b = 0 → StepOk c s b newBegin → RecOk c align s b newBegin
  | up {b newBegin : Nat} : s.par b ≠ 0 → StepOk c s b newBegin →
      RecOk c align s (s.par b) (preExtendAlign align s (s.par b) newBegin) → RecOk c align s b newBegin

theorem preExtendAlign_le (align : Nat → Nat) (s : State) (p a : Nat) : preExtendAlign align s p a ≤ a := by
  unfold preExtendAlign
  split
  · unfold roundDown; exact Nat.div_mul_le_self _ _
  · omega

/-- `m` is the beginning asked of `n` when `b` is to begin at `newBegin`: `newBegin` itself for `b`; one level up, the largest
multiple of the alignment of the parent's allocator that is not above it, if that allocator has one. -/
inductive Asked (align : Nat → Nat) (s : State) : Nat → Nat → Nat → Nat → Prop
  | self {b newBegin : Nat} : Asked align s b newBegin b newBegin
  | aligned {b newBegin q n m : Nat} : s.par b ≠ 0 → q * align (s.alloc (s.par b)) ≤ newBegin →
      newBegin < (q + 1) * align (s.alloc (s.par b)) →
      Asked align s (s.par b) (q * align (s.alloc (s.par b))) n m → Asked align s b newBegin n m
  | unaligned {b newBegin n m : Nat} : s.par b ≠ 0 → align (s.alloc (s.par b)) = 0 →
      Asked align s (s.par b) newBegin n m → Asked align s b newBegin n m

theorem asked_cases {align : Nat → Nat} {s : State} {b newBegin n m : Nat} (h : Asked align s b newBegin n m) :
    (n = b ∧ m = newBegin) ∨
    (s.par b ≠ 0 ∧ Asked align s (s.par b) (preExtendAlign align s (s.par b) newBegin) n m) := by
  cases h with
  | self => exact Or.inl ⟨rfl, rfl⟩
  | aligned hp h1 h2 h =>
    rename_i q
    refine Or.inr ⟨hp, ?_⟩
    have h0 : align (s.alloc (s.par b)) ≠ 0 := by
      intro e; rw [e] at h1 h2; simp at h2
    have : newBegin / align (s.alloc (s.par b)) = q := by
      apply Nat.div_eq_of_lt_le
      · exact h1
      · exact h2
    unfold preExtendAlign roundDown
    rw [if_pos h0, this]; exact h
  | unaligned hp h1 h =>
    refine Or.inr ⟨hp, ?_⟩
    unfold preExtendAlign
    rw [if_neg (by simp [h1])]; exact h

theorem asked_anc {align : Nat → Nat} {s : State} {b newBegin n m : Nat} (h : Asked align s b newBegin n m) : Anc s n b := by
  induction h with
  | self => exact .refl
  | aligned hp _ _ _ ih => exact .step hp ih
  | unaligned hp _ _ ih => exact .step hp ih

/-- Every container is asked for some beginning. -/
theorem asked_exists (align : Nat → Nat) {s : State} {n b : Nat} (h : Anc s n b) (newBegin : Nat) :
    ∃ m, Asked align s b newBegin n m := by
  induction h generalizing newBegin with
  | refl => exact ⟨_, .self⟩
  | @step k hp _ ih =>
    by_cases h0 : align (s.alloc (s.par k)) = 0
    · obtain ⟨m, hm⟩ := ih newBegin
      exact ⟨m, .unaligned hp h0 hm⟩
    · obtain ⟨m, hm⟩ := ih (newBegin / align (s.alloc (s.par k)) * align (s.alloc (s.par k)))
      refine ⟨m, .aligned hp (Nat.div_mul_le_self _ _) ?_ hm⟩
      rw [Nat.add_mul, Nat.one_mul]
      have := Nat.mod_lt newBegin (Nat.pos_of_ne_zero h0)
      have := Nat.div_add_mod newBegin (align (s.alloc (s.par k)))
      rw [Nat.mul_comm] at this
      omega

/-- `s'` is `s` with lower beginnings for some slots above `b` (itself included). -/
structure Lowered (s s' : State) (b : Nat) : Prop where
  beg : ∀ n, ¬ Anc s n b → s'.beg n = s.beg n
  le : ∀ n, s'.beg n ≤ s.beg n
  fin : s'.fin = s.fin
  first : s'.first = s.first
  next : s'.next = s.next
  par : s'.par = s.par
  prev : s'.prev = s.prev
  alloc : s'.alloc = s.alloc
  sub : s'.sub = s.sub
  priv : s'.priv = s.priv
  privFree : s'.privFree = s.privFree
  subPriv : s'.subPriv = s.subPriv
  subPrivFree : s'.subPrivFree = s.subPrivFree
  start : s'.start = s.start
  log : s'.log = s.log
  live : ∀ n, Live s' n ↔ Live s n

theorem lowered_self {s s' : State} {b a : Nat} (hb : Live s b) (ha : a ≠ 0) (h : Resized s s' b (min a (s.beg b)) (s.fin b)) : Lowered s s' b := by
  refine ⟨?_, ?_, ?_, h.first, h.next, h.par, h.prev, h.alloc, h.sub, h.priv, h.privFree, h.subPriv, h.subPrivFree, h.start, h.log, ?_⟩
  · intro n hn
    rw [h.beg, upd_ne]
    intro e
    exact hn (e ▸ Anc.refl)
  · intro n
    rw [h.beg]
    unfold upd
    split
    · rename_i e; subst e; omega
    · omega
  · rw [h.fin, upd_id]
  · have hb1 := hb.1
    have hb2 := hb.2
    apply h.live hb <;> omega

theorem anc_same {s s' : State} (h : s'.par = s.par) {m n : Nat} : Anc s' m n ↔ Anc s m n := by
  constructor
  · intro ha
    induction ha with
    | refl => exact Anc.refl
    | step hp _ ih => rw [h] at hp ih; exact Anc.step hp ih
  · intro ha
    induction ha with
    | refl => exact Anc.refl
    | step hp _ ih => exact Anc.step (by rw [h]; exact hp) (by rw [h]; exact ih)

/-- Growing downwards, with whatever is above first. -/
theorem preExtendRec_spec {c : Config} {align : Nat → Nat} {s : State} {kids rank} (h : Inv c s kids rank) : ∀ (f b newBegin : Nat) (below : List Nat),
    Live s b → (∀ x ∈ below, x < c.nb) → (b :: below).Nodup → (∀ x ∈ below, Anc s b x ∧ Live s x) → c.nb < f + (b :: below).length →
    RecOk c align s b newBegin →
    ∃ s', preExtendRec c align f s b newBegin = some s' ∧ Inv c s' kids rank ∧ Lowered s s' b ∧ s'.beg b = min newBegin (s.beg b) ∧
      ∀ n m, Asked align s b newBegin n m → s'.beg n = min m (s.beg n) := by
  intro f
  induction f with
  | zero =>
    intro b newBegin below hb hbl hnd hanc hf hrec
    have := nodup_length_le (n := c.nb) hnd (by
      intro x hx
      rcases List.mem_cons.mp hx with rfl | hx
      · exact h.lt x hb
      · exact hbl x hx)
    omega
  | succ f ih =>
    intro b newBegin below hb hbl hnd hanc hf hrec
    rw [preExtendRec]
    cases hrec with
    | top hp0 hstep =>
      rw [if_neg (by simp [hp0])]
      have hbp := h.pos b hb
      obtain ⟨s', e, hres, hinv⟩ := preExtend_spec h (newBegin := newBegin) hb (fun hlt => by
        refine ⟨hstep.nonzero, by omega, hstep.small, ⟨by omega, by omega⟩, fun e => absurd hp0 e, ?_, hstep.apart hlt,
          fun _ => ⟨hstep.aligned hlt hp0, (h.top b hb hp0).2⟩⟩
        intro d hd hdp
        have := h.nest d hd (by rw [hdp]; exact h.ne0 hb)
        rw [hdp] at this
        omega)
      have hbb : s'.beg b = min newBegin (s.beg b) := by rw [hres.beg, upd_same]
      refine ⟨s', e, hinv, lowered_self hb hstep.nonzero hres, hbb, ?_⟩
      intro n m hm
      rcases asked_cases hm with ⟨rfl, rfl⟩ | ⟨hp, _⟩
      · exact hbb
      · exact absurd hp0 hp
    | up hp0 hstep hup =>
      rw [if_pos hp0]
      have hbp := h.pos b hb
      have hpl := h.parLive b hb hp0
      have hab : Anc s (s.par b) b := Anc.step hp0 Anc.refl
      have hnab : ∀ x, Anc s b x → Live s x → s.par b ≠ x := by
        intro x hx hxl e
        have h1 := h.anc_rank hx hxl
        have h2 := h.rank b hb hp0
        rw [e] at h2
        rcases h1 with e' | e'
        · rw [e'] at h2; omega
        · omega
      obtain ⟨s1, e1, h1, hl1, hb1, hask⟩ := ih (s.par b) (preExtendAlign align s (s.par b) newBegin) (b :: below) hpl
        (by
          intro x hx
          rcases List.mem_cons.mp hx with rfl | hx
          · exact h.lt x hb
          · exact hbl x hx)
        (by
          rw [List.nodup_cons]
          refine ⟨?_, hnd⟩
          intro hm
          rcases List.mem_cons.mp hm with e | hm
          · exact h.par_ne hb e
          · exact hnab _ (hanc _ hm).1 (hanc _ hm).2 rfl)
        (by
          intro x hx
          rcases List.mem_cons.mp hx with rfl | hx
          · exact ⟨hab, hb⟩
          · exact ⟨hab.trans (hanc x hx).1, (hanc x hx).2⟩)
        (by simp at hf ⊢; omega) hup
      rw [e1, Option.bind_some]
      have hbb : s1.beg b = s.beg b := by
        apply hl1.beg
        intro ha
        have h2 := h.anc_rank ha hpl
        have h3 := h.rank b hb hp0
        rcases h2 with e | e
        · exact h.par_ne hb e.symm
        · omega
      have hsib : ∀ d, Live s d → d ≠ b → s.par d = s.par b → s1.beg d = s.beg d := by
        intro d hd hdb hdp
        apply hl1.beg
        intro ha
        have h2 := h.anc_rank ha hpl
        have h3 := h.rank d hd (by rw [hdp]; exact hp0)
        rw [hdp] at h3
        rcases h2 with e | e
        · rw [← e] at hdp
          exact h.par_ne hd (by rw [hdp])
        · omega
      have hkid : ∀ d, Live s d → s.par d = b → s1.beg d = s.beg d := by
        intro d hd hdp
        apply hl1.beg
        intro ha
        have h2 := h.anc_rank ha hpl
        have h3 := h.rank d hd (by rw [hdp]; exact h.ne0 hb)
        have h4 := h.rank b hb hp0
        rw [hdp] at h3
        rcases h2 with e | e
        · rw [← e] at h4; omega
        · omega
      have hle := preExtendAlign_le align s (s.par b) newBegin
      obtain ⟨s', e, hres, hinv⟩ := preExtend_spec h1 (b := b) (newBegin := newBegin) ((hl1.live b).mpr hb) (fun hlt => by
        rw [hbb] at hlt
        have hfin : s1.fin b = s.fin b := by rw [hl1.fin]
        refine ⟨hstep.nonzero, by rw [hfin]; omega, by rw [hfin]; exact hstep.small, ⟨by rw [hfin]; omega, by rw [hfin, hbb]; omega⟩, ?_, ?_, ?_, ?_⟩
        · intro _
          rw [hl1.par, hb1, hl1.fin]
          have := h.nest b hb hp0
          omega
        · intro d hd hdp
          rw [hl1.live] at hd
          rw [hl1.par] at hdp
          rw [hkid d hd hdp, hl1.fin]
          have := h.nest d hd (by rw [hdp]; exact h.ne0 hb)
          rw [hdp] at this
          omega
        · intro d hd hdp hdb
          rw [hl1.live] at hd
          rw [hl1.par] at hdp
          rw [hsib d hd hdb hdp, hl1.fin]
          exact hstep.apart hlt d hd hdp hdb
        · rw [hl1.par]; intro e; exact absurd e hp0)
      have hl2 := lowered_self ((hl1.live b).mpr hb) hstep.nonzero hres
      refine ⟨s', e, hinv, ?_, ?_, ?_⟩
      · refine ⟨?_, ?_, hl2.fin.trans hl1.fin, hl2.first.trans hl1.first, hl2.next.trans hl1.next, hl2.par.trans hl1.par, hl2.prev.trans hl1.prev,
          hl2.alloc.trans hl1.alloc, hl2.sub.trans hl1.sub, hl2.priv.trans hl1.priv, hl2.privFree.trans hl1.privFree, hl2.subPriv.trans hl1.subPriv,
          hl2.subPrivFree.trans hl1.subPrivFree, hl2.start.trans hl1.start, hl2.log.trans hl1.log, ?_⟩
        · intro n hn
          rw [hl2.beg n (fun ha => hn ((anc_same hl1.par).mp ha)), hl1.beg n (fun ha => hn (ha.trans hab))]
        · intro n; exact Nat.le_trans (hl2.le n) (hl1.le n)
        · intro n; rw [hl2.live, hl1.live]
      · rw [hres.beg, upd_same, hbb]
      · intro n m hm
        by_cases hnb : n = b
        · rcases asked_cases hm with ⟨rfl, rfl⟩ | ⟨_, hm'⟩
          · rw [hres.beg, upd_same, hbb]
          · exfalso
            subst hnb
            have hanc := asked_anc hm'
            have h2 := h.anc_rank hanc hpl
            have h3 := h.rank n hb hp0
            rcases h2 with e | e
            · exact h.par_ne hb e.symm
            · omega
        · rw [hres.beg, upd_ne hnb]
          rcases asked_cases hm with ⟨e, _⟩ | ⟨_, hm'⟩
          · exact absurd e hnb
          · exact hask n m hm'

end Liballocs.PageIndex
