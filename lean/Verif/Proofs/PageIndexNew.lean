import Verif.Proofs.PageIndexGeo
/-!
# Creating a big allocation
-/
namespace Liballocs.PageIndex

open Fill

/-- Cutting a list where a predicate starts to hold, if it then holds for the rest. -/
theorem cut_list {P : Nat → Prop} [DecidablePred P] : ∀ (l : List Nat), l.Pairwise (fun a b => P a → P b) →
    ∃ A B, l = A ++ B ∧ (∀ x ∈ A, ¬ P x) ∧ (∀ x ∈ B, P x)
  | [], _ => ⟨[], [], rfl, by simp, by simp⟩
  | x :: l, h => by
    obtain ⟨h1, h2⟩ := List.pairwise_cons.mp h
    by_cases hx : P x
    · refine ⟨[], x :: l, rfl, by simp, ?_⟩
      intro y hy
      rcases List.mem_cons.mp hy with rfl | hy
      · exact hx
      · exact h1 y hy hx
    · obtain ⟨A, B, e, hA, hB⟩ := cut_list l h2
      refine ⟨x :: A, B, by rw [e]; rfl, ?_, hB⟩
      intro y hy
      rcases List.mem_cons.mp hy with rfl | hy
      · exact hx
      · exact hA y hy

theorem findFree_some {c : Config} {s : State} {b : Nat} (h : findFree c s = some b) : b ≠ 0 ∧ b < c.nb ∧ ¬ Live s b := by
  unfold findFree at h
  have h1 := List.find?_some h
  have h2 := List.mem_of_find?_eq_some h
  rw [List.mem_range'_1] at h2
  refine ⟨by omega, by omega, ?_⟩
  intro hl
  rw [live_iff.mpr hl] at h1
  cases h1

theorem findFree_none {c : Config} {s : State} (h : findFree c s = none) : ∀ b, b ≠ 0 → b < c.nb → Live s b := by
  intro b h0 hb
  unfold findFree at h
  rw [List.find?_eq_none] at h
  have := h b (by rw [List.mem_range'_1]; omega)
  rw [← live_iff]
  simpa using this

theorem Links.topList {c : Config} {s : State} {kids rank} (h : Links c s kids rank) : TopList c s (kids 0) :=
  ⟨h.zero_not_mem 0, h.nodup 0, h.kids_length 0, h.seg 0, h.start, fun x hx => by
    have := ((h.mem _ _).mp hx).1.2; omega⟩

/-- The top-level list is not disturbed by stores to a slot that is not in it. -/
theorem TopList.frame {c : Config} {s s' : State} {l : List Nat} (h : TopList c s l) {b : Nat} (hb : b ∉ l)
    (hn : ∀ x, x ≠ b → s'.next x = s.next x) (hp : ∀ x, x ≠ b → s'.prev x = s.prev x)
    (hf : ∀ x, x ≠ b → s'.fin x = s.fin x) (hs : s'.start = s.start) : TopList c s' l := by
  have hx : ∀ x ∈ l, x ≠ b := fun x hx e => hb (e ▸ hx)
  refine ⟨h.zero, h.nodup, h.len, ?_, by rw [hs]; exact h.start, ?_⟩
  · apply seg_congr _ h.seg
    intro x hx'
    exact ⟨hn x (hx x hx'), hp x (hx x hx')⟩
  · intro x hx'
    rw [hf x (hx x hx')]; exact h.pos x hx'

theorem addToplevel_linked {c : Config} {s : State} {kids rank} (h : Links c s kids rank) {b lo sz : Nat} {m : Meta}
    {A B : List Nat} (hbd : ¬ Live s b) (hk : kids 0 = A ++ B)
    (hA : ∀ x ∈ A, s.fin x ≤ lo + sz ∧ s.beg x < lo) (hB : ∀ x ∈ B, lo + sz < s.fin x) :
    addToplevel c (initFields s b lo sz m) b = some { initFields s b lo sz m with
      next := updIf (upd s.next b (hd B 0)) (lst 0 A) b
      prev := updIf (upd s.prev b (lst 0 A)) (hd B 0) b } := by
  have hbk : b ∉ A ++ B := fun e => hbd ((h.mem b 0).mp (by rw [hk]; exact e)).1
  have hbA : ∀ x ∈ A, x ≠ b := fun x hx e => hbk (List.mem_append_left _ (e ▸ hx))
  have hbB : ∀ x ∈ B, x ≠ b := fun x hx e => hbk (List.mem_append_right _ (e ▸ hx))
  have ht := h.topList
  rw [hk] at ht
  have ht1 : TopList c (initFields s b lo sz m) (A ++ B) := by
    apply ht.frame hbk
    · intro x hx; simp [initFields, upd_ne hx]
    · intro x hx; simp [initFields, upd_ne hx]
    · intro x hx; simp [initFields, upd_ne hx]
    · rfl
  have e1 : lowestGe c (initFields s b lo sz m) ((initFields s b lo sz m).fin b) = some (hd B 0) := by
    apply lowestGe_spec ht1
    · intro x hx
      simp only [initFields, upd_same]
      rw [upd_ne (hbA x hx)]
      exact (hA x hx).1
    · intro x hx
      simp only [initFields, upd_same]
      rw [upd_ne (hbB x hx)]
      exact hB x hx
  have e2 : predFor c { initFields s b lo sz m with next := upd (initFields s b lo sz m).next b (hd B 0) } b (hd B 0) = some (lst 0 A) := by
    unfold predFor
    cases B with
    | nil =>
      simp only [hd, ne_eq, not_true_eq_false, if_false]
      have ht2 : TopList c { initFields s b lo sz m with next := upd (initFields s b lo sz m).next b 0 } (A ++ []) := by
        apply ht1.frame hbk
        · intro x hx; simp [upd_ne hx]
        · intro x hx; rfl
        · intro x hx; rfl
        · rfl
      apply highestLt_spec ht2
      · intro x hx
        simp only [initFields, upd_same]
        rw [upd_ne (hbA x hx)]
        exact (hA x hx).2
      · simp
    | cons y B =>
      have hy0 : y ≠ 0 := fun e => ht.zero (by simp [e])
      have hp := (seg_at ht.seg).1
      simp only [hd, ne_eq, hy0, not_false_eq_true, if_true]
      simp only [initFields]
      rw [upd_ne (hbB y List.mem_cons_self), hp]
  unfold addToplevel
  simp only [e1, Option.bind_eq_bind, Option.bind_some, e2]
  simp [initFields, upd_upd]

theorem addChild_linked {c : Config} {s : State} {kids rank} (h : Links c s kids rank) {b lo sz p : Nat} {m : Meta}
    (hbd : ¬ Live s b) (hp : Live s p) :
    addChild c (initFields s b lo sz m) b p = some { initFields s b lo sz m with
      par := upd s.par b p
      first := upd (upd s.first b 0) p b
      next := upd s.next b (hd (kids p) 0)
      prev := updIf (upd s.prev b 0) (hd (kids p) 0) b } := by
  have hpb : p ≠ b := fun e => hbd (e ▸ hp)
  have hf : upd s.first b 0 p = hd (kids p) 0 := by rw [upd_ne hpb, h.firstKid p hp]
  have hpr : hd (kids p) 0 = 0 ∨ upd s.prev b 0 (hd (kids p) 0) = 0 := by
    rcases @hd_mem_or (kids p) 0 with ⟨e, _⟩ | hm
    · exact Or.inl e
    · right
      have hxb : hd (kids p) 0 ≠ b := fun e => hbd (e ▸ ((h.mem _ _).mp hm).1)
      rw [upd_ne hxb]
      have hsg := h.seg p
      cases hk : kids p with
      | nil => rw [hk] at hm; simp at hm
      | cons y l => rw [hk] at hsg; exact hsg.1
  have h3 : (hd (kids p) 0 == 0 || upd s.prev b 0 (hd (kids p) 0) == 0) = true := by
    rcases hpr with e | e <;> simp [e]
  unfold addChild
  simp only [initFields, hf, upd_same, h.dead b hbd, assertIf, upd_upd]
  simp [h3]

/-- The result of linking in a new slot: the caller's fields, and links placed between `pre` and `post`. -/
theorem initNomemset_linked {c : Config} {s : State} {kids rank} (h : Links c s kids rank) {b lo sz p : Nat} {m : Meta}
    {A B : List Nat} (hb0 : b ≠ 0) (hbd : ¬ Live s b) (hp : p = 0 ∨ Live s p)
    (hk : kids p = A ++ B) (hA0 : p ≠ 0 → A = [])
    (hA : p = 0 → ∀ x ∈ A, s.fin x ≤ lo + sz ∧ s.beg x < lo) (hB : p = 0 → ∀ x ∈ B, lo + sz < s.fin x) :
    ∃ nx pv pr fi, initNomemset c s b lo sz p m = some { initFields s b lo sz m with next := nx, prev := pv, par := pr, first := fi } ∧
      Linked s { initFields s b lo sz m with next := nx, prev := pv, par := pr, first := fi } b p A B := by
  unfold initNomemset linkIn
  by_cases hp0 : p = 0
  · subst hp0
    rw [if_neg (by simp), addToplevel_linked h hbd hk (hA rfl) (hB rfl)]
    refine ⟨_, _, _, _, rfl, ?_, rfl, rfl, ?_⟩
    · show s.par = _
      have := h.dead b hbd
      rw [← this, upd_id]
    · rfl
  · have hpl : Live s p := by
      rcases hp with e | e
      · exact absurd e hp0
      · exact e
    obtain rfl := hA0 hp0
    rw [if_pos hp0, addChild_linked h hbd hpl]
    refine ⟨_, _, _, _, rfl, rfl, ?_, ?_, ?_⟩
    · simp only [hk, List.nil_append, lst, updIf_zero]
    · simp only [hk, List.nil_append, lst]
    · simp only [hp0, if_false]; rfl

/-- Where a range that fits goes in the top-level list. -/
theorem Fits.cut {c : Config} {s : State} {kids rank} (h : Inv c s kids rank) {p lo hi : Nat} (hf : Fits c s p lo hi) :
    ∃ A B, kids p = A ++ B ∧ (p ≠ 0 → A = []) ∧
      (p = 0 → (∀ x ∈ A, s.fin x ≤ lo ∧ s.beg x < lo) ∧ (∀ x ∈ B, hi ≤ s.beg x ∧ hi < s.fin x)) := by
  by_cases hp : p = 0
  · subst hp
    have hlive : ∀ x ∈ kids 0, Live s x ∧ s.par x = 0 := fun x hx => (h.mem _ _).mp hx
    obtain ⟨A, B, e, hA, hB⟩ := cut_list (P := fun x => hi ≤ s.beg x) (kids 0) (by
      apply List.Pairwise.imp_of_mem _ h.sorted
      intro x y hx hy hxy hle
      have := h.pos x (hlive x hx).1
      omega)
    refine ⟨A, B, e, fun hne => absurd rfl hne, fun _ => ⟨?_, ?_⟩⟩
    · intro x hx
      have hm : x ∈ kids 0 := by rw [e]; exact List.mem_append_left _ hx
      have := hA x hx
      have := hf.apart x (hlive x hm).1 (hlive x hm).2
      have := h.pos x (hlive x hm).1
      omega
    · intro x hx
      have hm : x ∈ kids 0 := by rw [e]; exact List.mem_append_right _ hx
      have := hB x hx
      have := h.pos x (hlive x hm).1
      omega
  · exact ⟨[], kids p, rfl, fun _ => rfl, fun e => absurd e hp⟩

/-- The slots in use and what is recorded about them: those of `s`, and a new one. -/
structure Added (s s' : State) (b p lo hi : Nat) (m : Meta) : Prop where
  beg : s'.beg = upd s.beg b lo
  fin : s'.fin = upd s.fin b hi
  par : s'.par = upd s.par b p
  alloc : s'.alloc = upd s.alloc b m.alloc
  sub : s'.sub = upd s.sub b m.sub
  priv : s'.priv = upd s.priv b m.priv
  privFree : s'.privFree = upd s.privFree b m.privFree
  subPriv : s'.subPriv = upd s.subPriv b m.subPriv
  subPrivFree : s'.subPrivFree = upd s.subPrivFree b m.subPrivFree
  log : s'.log = s.log
  start : s'.start = s.start

theorem Added.live {s s' : State} {b p lo hi : Nat} {m : Meta} (h : Added s s' b p lo hi m) (hlo : lo ≠ 0) (hhi : hi ≠ 0) :
    ∀ n, Live s' n ↔ Live s n ∨ n = b := by
  intro n
  unfold Live
  rw [h.beg, h.fin]
  by_cases hn : n = b
  · subst hn
    simp only [upd_same, or_true, iff_true]
    exact ⟨hlo, hhi⟩
  · simp [upd_ne hn, hn]

/-- The effect of `bigalloc_init`; the start of the top-level list is left open, for its first member. -/
theorem bigallocInit_spec {c : Config} {s : State} {kids rank} (h : Inv c s kids rank) {b lo sz p : Nat} {m : Meta}
    (hb0 : b ≠ 0) (hblt : b < c.nb) (hbd : ¬ Live s b) (hp : p = 0 ∨ Live s p) (hf : Fits c s p lo (lo + sz)) :
    ∃ s', bigallocInit c s b lo sz p m = some s' ∧ Added s s' b p lo (lo + sz) m ∧
      ∃ kids' rank', ((s.start ≠ 0 → Inv c s' kids' rank') ∧ (p = 0 → Inv c { s' with start := b } kids' rank')) := by
  obtain ⟨A, B, hk, hA0, hAB⟩ := hf.cut h
  obtain ⟨nx, pv, pr, fi, e, hl⟩ := initNomemset_linked (m := m) h.toLinks hb0 hbd hp hk hA0
    (fun h0 x hx => by have := (hAB h0).1 x hx; omega) (fun h0 x hx => ((hAB h0).2 x hx).2) (sz := sz) (lo := lo)
  have hnb := h.nbOk
  unfold bigallocInit
  rw [e]
  simp only [Option.bind_eq_bind, Option.bind_some, initFields, upd_same]
  obtain ⟨pi, e2, hpi⟩ := setPages_spec c { initFields s b lo sz m with next := nx, prev := pv, par := pr, first := fi }
    (roundUp lo PAGE) (roundDown (lo + sz) PAGE) b p (by omega) (pageDist_up_down hf.small) (by
      right
      intro q h1 h2
      right
      exact hf.entry h hp (le_page_up.mp h1) (lt_page_down.mp h2))
  simp only [initFields] at e2
  rw [e2]
  have had : Added s { initFields s b lo sz m with next := nx, prev := pv, par := pr, first := fi, pidx := pi } b p lo (lo + sz) m :=
    ⟨rfl, rfl, hl.par, rfl, rfl, rfl, rfl, rfl, rfl, rfl, rfl⟩
  have hpos := hf.pos
  have hlive := had.live hf.nonzero (by omega)
  have hent : ∀ q, (pi q).toNat = if lo ≤ q * PAGE ∧ (q + 1) * PAGE ≤ lo + sz then b else entry s q := by
    intro q
    rw [hpi q]
    simp only [le_page_up, lt_page_down]
    rfl
  refine ⟨_, rfl, had, (fun x => if x = p then A ++ b :: B else kids x), upd rank b (rank p + 1), ?_, ?_⟩
  · intro hs
    refine ⟨links_insert (b := b) (p := p) h.toLinks (rank p + 1) (fun _ => by omega) hb0 hblt hbd hp hk ⟨hl.par, hl.next, hl.prev, hl.first⟩ hlive ?_ ?_ ?_ (Or.inl ⟨rfl, hs⟩),
      geo_insert h hbd hb0 hp hk hf rfl rfl hl.par hent
        (fun h0 => ⟨fun x hx => ((hAB h0).1 x hx).1, fun x hx => ((hAB h0).2 x hx).1⟩)⟩
    · show upd s.beg b lo 0 = 0
      rw [upd_ne (Ne.symm hb0)]; exact h.zero.1
    · show upd s.alloc b m.alloc 0 = 0
      rw [upd_ne (Ne.symm hb0)]; exact h.zero.2.2.2.1
    · show upd s.sub b m.sub 0 = 0
      rw [upd_ne (Ne.symm hb0)]; exact h.zero.2.2.2.2
  · intro hp0
    refine ⟨links_insert (b := b) (p := p) h.toLinks (rank p + 1) (fun _ => by omega) hb0 hblt hbd hp hk ⟨hl.par, hl.next, hl.prev, hl.first⟩ hlive ?_ ?_ ?_ (Or.inr ⟨hp0, rfl⟩),
      geo_insert h hbd hb0 hp hk hf rfl rfl hl.par hent
        (fun h0 => ⟨fun x hx => ((hAB h0).1 x hx).1, fun x hx => ((hAB h0).2 x hx).1⟩)⟩
    · show upd s.beg b lo 0 = 0
      rw [upd_ne (Ne.symm hb0)]; exact h.zero.1
    · show upd s.alloc b m.alloc 0 = 0
      rw [upd_ne (Ne.symm hb0)]; exact h.zero.2.2.2.1
    · show upd s.sub b m.sub 0 = 0
      rw [upd_ne (Ne.symm hb0)]; exact h.zero.2.2.2.2

/-- Every big allocation in use either contains the range or is apart from it. -/
def Clear (s : State) (lo hi : Nat) : Prop :=
  ∀ n, Live s n → (s.beg n ≤ lo ∧ hi ≤ s.fin n) ∨ s.fin n ≤ lo ∨ hi ≤ s.beg n

/-- The parent found when none is given: the deepest big allocation containing the range. -/
theorem chooseParent_spec {c : Config} {s : State} {kids rank} (h : Inv c s kids rank) {lo sz : Nat} (h0 : lo ≠ 0) (hsz : 0 < sz)
    (hsmall : sz ≤ c.maxPages * PAGE) (hcl : Clear s lo (lo + sz))
    (hal : (∀ n, Live s n → ¬ Has s n lo) → lo % PAGE = 0 ∧ (lo + sz) % PAGE = 0) :
    ∃ p, chooseParent c s lo sz 0 = some p ∧ deepest c s lo = some p ∧ (p = 0 ∨ Live s p) ∧ Fits c s p lo (lo + sz) := by
  unfold chooseParent
  simp only [ne_eq, not_true_eq_false, if_false]
  rcases h.deepest_spec lo with ⟨e1, h1⟩ | ⟨r1, e1, hl1, hh1, hk1, ha1⟩
  · -- no container
    have hno : ∀ n, Live s n → s.fin n ≤ lo ∨ lo + sz ≤ s.beg n := by
      intro n hn
      rcases hcl n hn with hc | hc
      · exact absurd ⟨hc.1, by omega⟩ (h1 n hn)
      · exact hc
    have hal' := hal h1
    have e2 : deepest c s (lo + sz - 1) = some 0 := by
      rcases h.deepest_spec (lo + sz - 1) with ⟨e2, _⟩ | ⟨r2, _, hl2, hh2, _⟩
      · exact e2
      · have := hno r2 hl2
        unfold Has at hh2
        omega
    refine ⟨0, ?_, e1, Or.inl rfl, h0, by omega, by omega, fun e => absurd rfl e, fun d hd _ => hno d hd, fun _ => hal'⟩
    rw [e1, e2]
    simp only [ne_eq, not_true_eq_false, if_false, topAligned]
    rw [if_neg]
    unfold roundUp PAGE
    unfold PAGE at hal'
    omega
  · have hc1 : s.beg r1 ≤ lo ∧ lo + sz ≤ s.fin r1 := by
      rcases hcl r1 hl1 with hc | hc
      · exact hc
      · unfold Has at hh1; omega
    have e2 : deepest c s (lo + sz - 1) = some r1 := by
      rcases h.deepest_spec (lo + sz - 1) with ⟨e2, hno⟩ | ⟨r2, e2, hl2, hh2, _, ha2⟩
      · exact absurd ⟨by omega, by omega⟩ (hno r1 hl1)
      · have hc2 : s.beg r2 ≤ lo ∧ lo + sz ≤ s.fin r2 := by
          rcases hcl r2 hl2 with hc | hc
          · exact hc
          · unfold Has at hh2; omega
        rw [e2, h.anc_antisymm (ha1 r2 hl2 ⟨hc2.1, by omega⟩) (ha2 r1 hl1 ⟨by omega, by omega⟩) hl1]
    refine ⟨r1, ?_, e1, Or.inr hl1, h0, by omega, by omega, fun _ => hc1, ?_, fun e => absurd e (h.ne0 hl1)⟩
    · rw [e1, e2]
      simp [topAligned, h.ne0 hl1]
    · intro d hd hdp
      rcases hcl d hd with hc | hc
      · exact absurd ⟨hc.1, by omega⟩ (hk1 d hd hdp)
      · exact hc

/-- What the caller of `__liballocs_new_bigalloc` has to respect. -/
structure NewOk (c : Config) (s : State) (ptr size maybeParent : Nat) : Prop where
  nonzero : ptr ≠ 0
  pos : 0 < size
  small : size ≤ c.maxPages * PAGE
  room : ∃ b, b ≠ 0 ∧ b < c.nb ∧ ¬ Live s b
  given : maybeParent ≠ 0 → Live s maybeParent ∧ s.beg maybeParent ≤ ptr ∧ ptr + size ≤ s.fin maybeParent ∧
    ∀ d, Live s d → s.par d = maybeParent → s.fin d ≤ ptr ∨ ptr + size ≤ s.beg d
  found : maybeParent = 0 → Clear s ptr (ptr + size) ∧
    ((∀ n, Live s n → ¬ Has s n ptr) → ptr % PAGE = 0 ∧ (ptr + size) % PAGE = 0)

/-- The contents given to a new big allocation. -/
def Meta.plain (m : Meta) : Meta := { m with sub := 0, subPriv := 0, subPrivFree := 0 }

theorem newBigalloc_spec {c : Config} {s : State} {kids rank} (h : Inv c s kids rank) {ptr size mp : Nat} {m : Meta}
    (ho : NewOk c s ptr size mp) :
    ∃ s' b p, newBigalloc c s ptr size mp m = some (s', b) ∧ b ≠ 0 ∧ b < c.nb ∧ ¬ Live s b ∧ (p = 0 ∨ Live s p) ∧ Fits c s p ptr (ptr + size) ∧
      (mp ≠ 0 → p = mp) ∧ (mp = 0 → deepest c s ptr = some p) ∧ Added s s' b p ptr (ptr + size) m.plain ∧
      ∃ kids' rank', ((s.start ≠ 0 → Inv c s' kids' rank') ∧ (p = 0 → Inv c { s' with start := b } kids' rank')) := by
  have hch : ∃ p, chooseParent c s ptr size mp = some p ∧ (p = 0 ∨ Live s p) ∧ Fits c s p ptr (ptr + size) ∧
      (mp ≠ 0 → p = mp) ∧ (mp = 0 → deepest c s ptr = some p) := by
    by_cases hmp : mp = 0
    · subst hmp
      obtain ⟨h1, h2⟩ := ho.found rfl
      obtain ⟨p, e, h3, h4, h5⟩ := chooseParent_spec h ho.nonzero ho.pos ho.small h1 h2
      exact ⟨p, e, h4, h5, fun e => absurd rfl e, fun _ => h3⟩
    · obtain ⟨h1, h2, h3, h4⟩ := ho.given hmp
      have := ho.pos
      have := ho.small
      refine ⟨mp, by simp [chooseParent, hmp], Or.inr h1, ⟨ho.nonzero, by omega, by omega, fun _ => ⟨h2, h3⟩, h4, fun e => absurd e hmp⟩,
        fun _ => rfl, fun e => absurd e hmp⟩
  obtain ⟨p, e, hp, hf, hp1, hp2⟩ := hch
  have hfr : ∃ b, findFree c s = some b := by
    cases hff : findFree c s with
    | some b => exact ⟨b, rfl⟩
    | none =>
      obtain ⟨b, h1, h2, h3⟩ := ho.room
      exact absurd (findFree_none hff b h1 h2) h3
  obtain ⟨b, eb⟩ := hfr
  obtain ⟨hb0, hblt, hbd⟩ := findFree_some eb
  obtain ⟨s', es, had, hinv⟩ := bigallocInit_spec (m := m.plain) h hb0 hblt hbd hp hf
  refine ⟨s', b, p, ?_, hb0, hblt, hbd, hp, hf, hp1, hp2, had, hinv⟩
  have := ho.small
  unfold newBigalloc bigallocNew
  have hab : abortIf (decide (size > c.maxPages * PAGE)) = some () := by
    unfold abortIf
    rw [if_neg]
    simp; omega
  have es' : bigallocInit c s b ptr size p { m with sub := 0, subPriv := 0, subPrivFree := 0 } = some s' := es
  rw [hab, e]
  simp only [Option.bind_eq_bind, Option.bind_some, eb, es']

end Liballocs.PageIndex
