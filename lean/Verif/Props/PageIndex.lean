import Verif.Proofs.PageIndexHist
/-!
# Big allocations: lookup, forest, deletion, resizing, splitting, top-level list, queries (C02-C09, C58-C62)

The theorems are about every state reached by a history of operations whose callers keep the obligations of `Allowed`.
`history_completes` shows that no such operation aborts or fails an assertion, so histories go on. The failures outside
these obligations are in `Verif.Props.PageIndexFails`.
-/
namespace Liballocs.PageIndex

open Fill

/-! ## Specification of walks over links -/

/-- Following `f` from a slot to NULL visits these slots, in this order. -/
inductive Visits (f : Nat → Nat) : Nat → List Nat → Prop
  | done : Visits f 0 []
  | step {n : Nat} {l : List Nat} : n ≠ 0 → Visits f (f n) l → Visits f n (n :: l)

theorem visits_of_seg {nx pv : Nat → Nat} : ∀ {l : List Nat} {p : Nat}, 0 ∉ l → Seg nx pv p l 0 → Visits nx (hd l 0) l
  | [], _, _, _ => Visits.done
  | x :: l, p, h0, ⟨_, h2, h3⟩ => by
    have hx : x ≠ 0 := fun e => h0 (by rw [e]; exact List.mem_cons_self)
    show Visits nx x (x :: l)
    refine Visits.step hx ?_
    rw [h2]
    exact visits_of_seg (fun e => h0 (List.mem_cons_of_mem _ e)) h3

theorem visits_back {nx pv : Nat → Nat} : ∀ {l : List Nat} {p : Nat}, 0 ∉ l → Seg nx pv 0 l p → Visits pv (lst 0 l) l.reverse := by
  intro l p h0 hs
  have h1 := seg_reverse _ _ _ hs
  have := visits_of_seg (nx := pv) (pv := nx) (l := l.reverse) (p := p) (by simpa using h0) h1
  rwa [hd_reverse] at this

/-! ## Histories go on -/

/-- Every allowed operation completes: no abort, no failed assertion, no loop without end. -/
theorem history_completes {c : Config} {align : Nat → Nat} {s : State} {op : Op} (hr : Reach c align s) (ha : Allowed c align s op) :
    ∃ s', apply c align s op = some s' ∧ Reach c align s' := by
  obtain ⟨s', e, _⟩ := step_good (reach_good hr) ha
  exact ⟨s', e, Reach.step hr ha e⟩

/-- The first big allocation can be created. -/
theorem history_starts {c : Config} {align : Nat → Nat} {ptr size : Nat} (m : Meta) (ho : BootOk c ptr size) :
    ∃ s, boot c ptr size m = some s ∧ Reach c align s := by
  obtain ⟨s, e, _⟩ := boot_spec (m := m) ho
  exact ⟨s, e, Reach.boot ho e⟩

/-! ## C02 Lookup -/

/-- The lookup gives the innermost live big allocation containing the address, and NULL if and only if there is none. -/
theorem lookup_deepest_partial {c : Config} {align : Nat → Nat} {s : State} (hr : Reach c align s) (addr : Nat) :
    ∃ r, deepest c s addr = some r ∧ DeepestAt s addr r ∧ (r = 0 ↔ ∀ n, Live s n → ¬ Has s n addr) ∧
      ∀ n, Live s n → Has s n addr → s.beg n ≤ s.beg r ∧ s.fin r ≤ s.fin n := by
  obtain ⟨_, kids, rank, h⟩ := reach_good hr
  obtain ⟨r, e, hd⟩ := h.deepestAt addr
  refine ⟨r, e, hd, ?_, ?_⟩
  · rcases hd with ⟨rfl, h1⟩ | ⟨h1, h2, _⟩
    · exact ⟨fun _ => h1, fun _ => rfl⟩
    · exact ⟨fun e => absurd e (h.ne0 h1), fun hh => absurd h2 (hh r h1)⟩
  · intro n hn hna
    rcases hd with ⟨_, h1⟩ | ⟨h1, _, h3⟩
    · exact absurd hna (h1 n hn)
    · exact h.anc_nest (h3 n hn hna) h1

/-! ## C03 The forest -/

/-- Children lie in their parents, siblings are disjoint, every big allocation is below a top-level one (so there are no
cycles), and each child list has every child once, linked both ways. -/
theorem forest_partial {c : Config} {align : Nat → Nat} {s : State} (hr : Reach c align s) :
    (∀ n, Live s n → s.beg n < s.fin n) ∧
    (∀ n, Live s n → s.par n ≠ 0 → Live s (s.par n) ∧ s.beg (s.par n) ≤ s.beg n ∧ s.fin n ≤ s.fin (s.par n)) ∧
    (∀ n m, Live s n → Live s m → s.par n = s.par m → n ≠ m → s.fin n ≤ s.beg m ∨ s.fin m ≤ s.beg n) ∧
    (∀ n, Live s n → ∃ r, Live s r ∧ s.par r = 0 ∧ Anc s r n) ∧
    (∀ p, Live s p → ∃ l, Visits s.next (s.first p) l ∧ l.Nodup ∧ (∀ n, n ∈ l ↔ Live s n ∧ s.par n = p) ∧
      ∃ z, Visits s.prev z l.reverse) := by
  obtain ⟨_, kids, rank, h⟩ := reach_good hr
  refine ⟨h.pos, fun n hn hp => ⟨h.parLive n hn hp, h.nest n hn hp⟩, h.disj, fun n hn => h.exists_root hn, ?_⟩
  intro p hp
  refine ⟨kids p, ?_, h.nodup p, fun n => h.mem n p, lst 0 (kids p), visits_back (h.zero_not_mem p) (h.seg p)⟩
  rw [h.firstKid p hp]
  exact visits_of_seg (h.zero_not_mem p) (h.seg p)

/-- The run-time consistency check (`sanity_check_bigalloc`) never fails. -/
theorem sanity_checks_pass {c : Config} {align : Nat → Nat} {s : State} (hr : Reach c align s) (b : Nat) : sanityOk s b = true := by
  obtain ⟨_, kids, rank, h⟩ := reach_good hr
  exact h.sanity b

/-! ## Creation -/

/-- A new big allocation has the range and contents asked for, is put below the parent given or else the innermost big
allocation containing its start, gets the lookups of its range, and changes nothing else. -/
theorem create_correct {c : Config} {align : Nat → Nat} {s : State} (hr : Reach c align s) {ptr size parent : Nat} {m : Meta}
    (ho : NewOk c s ptr size parent) :
    ∃ s' b p, newBigalloc c s ptr size parent m = some (s', b) ∧ Reach c align s' ∧ ¬ Live s b ∧
      (parent ≠ 0 → p = parent) ∧ (parent = 0 → DeepestAt s ptr p) ∧
      Added s s' b p ptr (ptr + size) { m with sub := 0, subPriv := 0, subPrivFree := 0 } ∧
      (∀ n, Live s' n ↔ Live s n ∨ n = b) ∧
      (∀ a, ptr ≤ a → a < ptr + size → deepest c s' a = some b) ∧
      (∀ a, ¬ (ptr ≤ a ∧ a < ptr + size) → deepest c s' a = deepest c s a) := by
  obtain ⟨hst, kids, rank, h⟩ := reach_good hr
  obtain ⟨s', b, p, e, hb0, _, hb, _, hf, h1, h2, ha, kids', rank', h3, _⟩ := newBigalloc_spec (m := m) h ho
  have h' := h3 hst
  have hl := fun a => added_lookup h h' hb0 hb hf ha a
  have := ho.pos
  exact ⟨s', b, p, e, Reach.step (op := .new ptr size parent m) hr ho (by simp [apply, e]), hb, h1,
    fun e0 => (h.deepest_iff _ _).mp (h2 e0), ha, ha.live ho.nonzero (by omega), fun a h4 h5 => (hl a).1 ⟨h4, h5⟩, fun a => (hl a).2⟩

/-! ## C04 Deletion -/

/-- Deletion removes exactly the subtree, with each removed big allocation's destructors called once, those of descendants
first; the rest is unchanged; lookups and whole pages in the range go to the parent, all others stay. -/
theorem delete_correct_partial {c : Config} {align : Nat → Nat} {s : State} (hr : Reach c align s) {b : Nat} (hb : Live s b) (hst : b ≠ s.start) :
    ∃ (s' : State) (order : List Nat), bigallocDel c s b = some s' ∧ Reach c align s' ∧
      order.Nodup ∧ (∀ n, n ∈ order ↔ Live s n ∧ Anc s b n) ∧ order.Pairwise (fun x y => ¬ Anc s x y) ∧
      (∀ n, Live s' n ↔ Live s n ∧ ¬ Anc s b n) ∧
      (∀ n, Live s' n → s'.beg n = s.beg n ∧ s'.fin n = s.fin n ∧ s'.par n = s.par n ∧ s'.alloc n = s.alloc n ∧ s'.sub n = s.sub n ∧
        s'.priv n = s.priv n ∧ s'.privFree n = s.privFree n ∧ s'.subPriv n = s.subPriv n ∧ s'.subPrivFree n = s.subPrivFree n) ∧
      s'.log = s.log ++ order.flatMap (fun n =>
        (if s.priv n ≠ 0 ∧ s.privFree n ≠ 0 then [Call.priv n (s.privFree n) (s.priv n)] else []) ++
        (if s.subPrivFree n ≠ 0 then [Call.sub n (s.subPrivFree n) (s.subPriv n)] else [])) ∧
      (∀ a, Has s b a → deepest c s' a = some (s.par b)) ∧ (∀ a, ¬ Has s b a → deepest c s' a = deepest c s a) ∧
      (∀ q, entry s' q = if s.beg b ≤ q * PAGE ∧ (q + 1) * PAGE ≤ s.fin b then s.par b else entry s q) := by
  obtain ⟨_, kids, rank, h⟩ := reach_good hr
  obtain ⟨s', kids', o, e, h', hd⟩ := bigallocDel_spec h hb (Ne.symm hst)
  have hmem : ∀ n, n ∈ o ↔ Live s n ∧ Anc s b n := by intro n; rw [hd.mem]; simp
  refine ⟨s', o, e, Reach.step (op := .del b) hr ⟨hb, hst⟩ e, hd.nodup, hmem, hd.leavesFirst, ?_, ?_, hd.log,
    fun a => (deleted_lookup h h' hb hd a).1, fun a => (deleted_lookup h h' hb hd a).2, deleted_pages h h' hb hd⟩
  · intro n
    rw [hd.live, hmem]
    constructor
    · rintro ⟨h1, h2⟩; exact ⟨h1, fun h3 => h2 ⟨h1, h3⟩⟩
    · rintro ⟨h1, h2⟩; exact ⟨h1, fun h3 => h2 h3.2⟩
  · intro n hn
    have hno := ((hd.live n).mp hn).2
    exact ⟨hd.beg n hno, hd.fin n hno, hd.par n hno, by rw [hd.alloc], by rw [hd.sub], by rw [hd.priv], by rw [hd.privFree],
      by rw [hd.subPriv], by rw [hd.subPrivFree]⟩

/-! ## C05 Resizing -/

/-- What a resize of `b` to a new range does to ownership. -/
structure Ownership (c : Config) (s s' : State) (b lo hi : Nat) : Prop where
  /-- only the one range changes -/
  ranges : ∀ n, s'.beg n = (if n = b then lo else s.beg n) ∧ s'.fin n = (if n = b then hi else s.fin n)
  parents : s'.par = s.par
  /-- lookups of gained addresses -/
  gained : ∀ a, lo ≤ a → a < hi → ¬ Has s b a → deepest c s' a = some b
  /-- lookups of lost addresses -/
  lost : ∀ a, Has s b a → ¬ (lo ≤ a ∧ a < hi) → deepest c s' a = some (s.par b)
  /-- all other lookups -/
  kept : ∀ a, (lo ≤ a ∧ a < hi ↔ Has s b a) → deepest c s' a = deepest c s a
  /-- whole pages gained, lost and neither -/
  pageGained : ∀ q, Covers s' b q → ¬ Covers s b q → entry s q = s.par b ∧ entry s' q = b
  pageLost : ∀ q, Covers s b q → ¬ Covers s' b q → entry s q = b ∧ entry s' q = s.par b
  pageKept : ∀ q, (Covers s' b q ↔ Covers s b q) → entry s' q = entry s q

theorem ownership {c : Config} {s s' : State} {kids rank} (h : Inv c s kids rank) (h' : Inv c s' kids rank) {b lo hi : Nat} (hb : Live s b)
    (hrz : Resizable c s b lo hi) (hr : Resized s s' b lo hi) : Ownership c s s' b lo hi where
  ranges n := by rw [hr.beg, hr.fin]; exact ⟨rfl, rfl⟩
  parents := hr.par
  gained a h1 h2 h3 := (resized_lookup h h' hb hrz hr a).1 ⟨h1, h2⟩ h3
  lost a h1 h2 := (resized_lookup h h' hb hrz hr a).2.1 h2 h1
  kept a h1 := (resized_lookup h h' hb hrz hr a).2.2 h1
  pageGained q h1 h2 := (resized_pages h h' hb hrz hr q).1 h1 h2
  pageLost q h1 h2 := (resized_pages h h' hb hrz hr q).2.1 h2 h1
  pageKept q h1 := (resized_pages h h' hb hrz hr q).2.2 h1

/-- Growing at the end. Missing: growth when the big allocation has no whole page from the one containing its end. -/
theorem extend_partial {c : Config} {align : Nat → Nat} {s : State} (hr : Reach c align s) {b newEnd : Nat} (hb : Live s b)
    (hge : s.fin b ≤ newEnd) (hrz : Resizable c s b (s.beg b) newEnd)
    (hpage : s.beg b ≤ roundDown (s.fin b) PAGE ∨ newEnd < roundDown (s.fin b) PAGE + PAGE) :
    ∃ s', extend c s b newEnd = some s' ∧ Reach c align s' ∧ Ownership c s s' b (s.beg b) newEnd := by
  obtain ⟨_, kids, rank, h⟩ := reach_good hr
  obtain ⟨s', e, h1, h2⟩ := extend_spec h hb hge hrz hpage
  exact ⟨s', e, Reach.step (op := .extend b newEnd) hr ⟨hb, hge, hrz, hpage⟩ e, ownership h h2 hb hrz h1⟩

/-- Growing downwards, to any address. -/
theorem preExtend_correct {c : Config} {align : Nat → Nat} {s : State} (hr : Reach c align s) {b newBegin : Nat} (hb : Live s b)
    (hlt : newBegin < s.beg b) (hrz : Resizable c s b newBegin (s.fin b)) :
    ∃ s', preExtend c s b newBegin = some s' ∧ Reach c align s' ∧ Ownership c s s' b newBegin (s.fin b) := by
  obtain ⟨_, kids, rank, h⟩ := reach_good hr
  obtain ⟨s', e, h1, h2⟩ := preExtend_spec h hb (fun _ => hrz)
  rw [Nat.min_eq_left (by omega)] at h1
  exact ⟨s', e, Reach.step (op := .preExtend b newBegin) hr ⟨hb, fun _ => hrz⟩ e, ownership h h2 hb hrz h1⟩

/-- Growing downwards together with all big allocations above: every one of them begins at or below the new beginning,
no lower than the alignment of its allocator (and of those between) asks for, and the rest is unchanged. -/
theorem preExtendUp_correct {c : Config} {align : Nat → Nat} {s : State} (hr : Reach c align s) {b newBegin : Nat} (hb : Live s b)
    (hrec : RecOk c align s b newBegin) :
    ∃ s', preExtendRec c align (c.nb + 1) s b newBegin = some s' ∧ Reach c align s' ∧ s'.beg b = min newBegin (s.beg b) ∧
      (∀ n, Anc s n b → s'.beg n ≤ newBegin ∧ ∃ m, Asked align s b newBegin n m ∧ s'.beg n = min m (s.beg n)) ∧
      (∀ n, ¬ Anc s n b → s'.beg n = s.beg n) ∧ s'.fin = s.fin ∧ s'.par = s.par := by
  obtain ⟨_, kids, rank, h⟩ := reach_good hr
  obtain ⟨s', e, h1, h2, h3, h4⟩ := preExtendRec_spec (align := align) h (c.nb + 1) b newBegin [] hb (by simp) (by simp) (by simp)
      (by simp only [List.length_cons, List.length_nil]; omega) hrec
  refine ⟨s', e, Reach.step (op := .preExtendUp b newBegin) hr ⟨hb, hrec⟩ e, h3, ?_, h2.beg, h2.fin, h2.par⟩
  intro n hn
  have hn' : Anc s' n b := (anc_same h2.par).mpr hn
  have := (h1.anc_nest hn' ((h2.live b).mpr hb)).1
  obtain ⟨m, hm⟩ := asked_exists align hn newBegin
  exact ⟨by omega, m, hm, h4 n m hm⟩

/-- Shrinking at the end. Missing: when the page of the new end is not wholly in the big allocation although it reaches
past that page. -/
theorem truncEnd_partial {c : Config} {align : Nat → Nat} {s : State} (hr : Reach c align s) {b newEnd : Nat} (hb : Live s b)
    (hle : newEnd ≤ s.fin b) (hrz : Resizable c s b (s.beg b) newEnd)
    (hpage : s.beg b ≤ roundDown newEnd PAGE ∨ s.fin b < roundDown newEnd PAGE + PAGE) :
    ∃ s', truncEnd c s b newEnd = some s' ∧ Reach c align s' ∧ Ownership c s s' b (s.beg b) newEnd := by
  obtain ⟨_, kids, rank, h⟩ := reach_good hr
  obtain ⟨s', e, h1, h2⟩ := truncEnd_spec h hb hle hrz hpage
  exact ⟨s', e, Reach.step (op := .truncEnd b newEnd) hr ⟨hb, hle, hrz, hpage⟩ e, ownership h h2 hb hrz h1⟩

/-- Shrinking at the beginning. Missing: as for the end. -/
theorem truncBegin_partial {c : Config} {align : Nat → Nat} {s : State} (hr : Reach c align s) {b newBegin : Nat} (hb : Live s b)
    (hle : s.beg b ≤ newBegin) (hrz : Resizable c s b newBegin (s.fin b))
    (hpage : roundUp newBegin PAGE ≤ s.fin b ∨ roundUp newBegin PAGE ≤ s.beg b + PAGE - 1) :
    ∃ s', truncBegin c s b newBegin = some s' ∧ Reach c align s' ∧ Ownership c s s' b newBegin (s.fin b) := by
  obtain ⟨_, kids, rank, h⟩ := reach_good hr
  obtain ⟨s', e, h1, h2⟩ := truncBegin_spec h hb hle hrz hpage
  exact ⟨s', e, Reach.step (op := .truncBegin b newBegin) hr ⟨hb, hle, hrz, hpage⟩ e, ownership h h2 hb hrz h1⟩

/-- Setting the end, to wherever it may go. Missing: as for growing and shrinking at the end. -/
theorem adjustEnd_partial {c : Config} {align : Nat → Nat} {s : State} (hr : Reach c align s) {b newEnd : Nat} (hb : Live s b)
    (hrz : Resizable c s b (s.beg b) newEnd)
    (hpage : s.beg b ≤ roundDown (min newEnd (s.fin b)) PAGE ∨
      max newEnd (s.fin b) < roundDown (min newEnd (s.fin b)) PAGE + PAGE) :
    ∃ s', adjustEnd c s b newEnd = some s' ∧ Reach c align s' ∧ Ownership c s s' b (s.beg b) newEnd := by
  unfold adjustEnd
  by_cases h1 : newEnd < s.fin b
  · rw [if_pos h1]
    rw [Nat.min_eq_left (by omega), Nat.max_eq_right (by omega)] at hpage
    exact truncEnd_partial hr hb (by omega) hrz hpage
  · rw [if_neg h1]
    rw [Nat.min_eq_right (by omega), Nat.max_eq_left (by omega)] at hpage
    by_cases h2 : newEnd > s.fin b
    · rw [if_pos h2]
      exact extend_partial hr hb (by omega) hrz hpage
    · rw [if_neg h2]
      obtain ⟨_, kids, rank, h⟩ := reach_good hr
      have e : newEnd = s.fin b := by omega
      subst e
      refine ⟨s, rfl, hr, ownership h h hb hrz ⟨?_, ?_, rfl, rfl, rfl, rfl, rfl, rfl, rfl, rfl, rfl, rfl, rfl, rfl⟩⟩
      · rw [upd_id]
      · rw [upd_id]

/-! ## C06 Splitting -/

/-- Splitting gives two adjacent big allocations with the same contents and parent; children follow their half; lookups
that gave the original now give the half the address is in, all others are unchanged. -/
theorem split_correct {c : Config} {align : Nat → Nat} {s : State} (hr : Reach c align s) {b at' : Nat} (hb : Live s b)
    (ho : SplitOk c s b at') :
    ∃ s' nw, split c s b at' = some (s', nw) ∧ Reach c align s' ∧ ¬ Live s nw ∧ (∀ n, Live s' n ↔ Live s n ∨ n = nw) ∧
      s'.beg b = s.beg b ∧ s'.fin b = at' ∧ s'.beg nw = at' ∧ s'.fin nw = s.fin b ∧
      s'.par b = s.par b ∧ s'.par nw = s.par b ∧
      s'.alloc nw = s.alloc b ∧ s'.sub nw = s.sub b ∧ s'.priv nw = s.priv b ∧ s'.privFree nw = s.privFree b ∧
      s'.subPriv nw = s.subPriv b ∧ s'.subPrivFree nw = s.subPrivFree b ∧
      (∀ d, Live s d → s.par d = b → s'.par d = if at' ≤ s.beg d then nw else b) ∧
      (∀ n, Live s n → n ≠ b → s'.beg n = s.beg n ∧ s'.fin n = s.fin n ∧ (s.par n ≠ b → s'.par n = s.par n)) ∧
      (∀ n, Live s n → s'.alloc n = s.alloc n ∧ s'.sub n = s.sub n ∧ s'.priv n = s.priv n) ∧ s'.log = s.log ∧
      (∀ a, deepest c s a = some b → at' ≤ a → deepest c s' a = some nw) ∧
      (∀ a, ¬ (deepest c s a = some b ∧ at' ≤ a) → deepest c s' a = deepest c s a) ∧
      (∀ q, Owner s' q (entry s' q)) := by
  obtain ⟨_, kids, rank, h⟩ := reach_good hr
  obtain ⟨s', nw, e, hnw0, _, hnw, hs, kids', rank', h'⟩ := split_spec h hb ho
  have hbn : b ≠ nw := fun e => hnw (e ▸ hb)
  have hlo := ho.lo
  have hhi := ho.hi
  have hne : ∀ n, Live s n → n ≠ nw := fun n hn e => hnw (e ▸ hn)
  have hfin : ∀ n, n ≠ nw → n ≠ b → s'.fin n = s.fin n := fun n h1 h2 => by rw [hs.fin, upd_ne h2, upd_ne h1]
  have hpbb := h.par_ne hb
  refine ⟨s', nw, e, Reach.step (op := .split b at') hr ⟨hb, ho⟩ (by simp [apply, e]), hnw, ?_, ?_, ?_, ?_, ?_, ?_, hs.parNew,
    ?_, ?_, ?_, ?_, ?_, ?_, ?_, ?_, ?_, hs.log, fun a => (split_lookup h h' hb hnw0 hnw ho hs a).1, fun a => (split_lookup h h' hb hnw0 hnw ho hs a).2, h'.owner⟩
  · intro n
    unfold Live
    rw [hs.beg]
    by_cases e1 : n = nw
    · subst e1
      simp only [upd_same, or_true, iff_true]
      rw [hs.fin, upd_ne (Ne.symm hbn), upd_same]
      exact ⟨by omega, by omega⟩
    · rw [upd_ne e1]
      by_cases e2 : n = b
      · subst e2
        rw [hs.fin, upd_same]
        simp only [hbn, or_false]
        exact ⟨fun hh => ⟨hh.1, by omega⟩, fun hh => ⟨hh.1, by omega⟩⟩
      · rw [hfin n e1 e2]; simp [e1]
  · rw [hs.beg, upd_ne hbn]
  · rw [hs.fin, upd_same]
  · rw [hs.beg, upd_same]
  · rw [hs.fin, upd_ne (Ne.symm hbn), upd_same]
  · rw [hs.par b hbn, if_neg (fun hh => hpbb hh.2.1)]
  · rw [hs.alloc, upd_same]
  · rw [hs.sub, upd_same]
  · rw [hs.priv, upd_same]
  · rw [hs.privFree, upd_same]
  · rw [hs.subPriv, upd_same]
  · rw [hs.subPrivFree, upd_same]
  · intro d hd hdp
    rw [hs.par d (hne d hd)]
    simp only [hd, hdp, true_and]
  · intro n hn hnb
    refine ⟨by rw [hs.beg, upd_ne (hne n hn)], hfin n (hne n hn) hnb, fun hp => ?_⟩
    rw [hs.par n (hne n hn), if_neg (fun hh => hp hh.2.1)]
  · intro n hn
    rw [hs.alloc, hs.sub, hs.priv, upd_ne (hne n hn), upd_ne (hne n hn), upd_ne (hne n hn)]
    exact ⟨rfl, rfl, rfl⟩

/-! ## C07 The top-level list -/

/-- The top-level big allocations are linked in address order; walking from the start of searches forwards and backwards
visits the ones after and before it, each once, and there are no others. -/
theorem toplevel_sorted {c : Config} {align : Nat → Nat} {s : State} (hr : Reach c align s) :
    ∃ before after, Visits s.next s.start (s.start :: after) ∧ Visits s.prev s.start (s.start :: before.reverse) ∧
      (before ++ s.start :: after).Pairwise (fun x y => s.fin x ≤ s.beg y) ∧ (before ++ s.start :: after).Nodup ∧
      (∀ n, n ∈ before ++ s.start :: after ↔ Live s n ∧ s.par n = 0) ∧
      (∀ n ∈ before ++ s.start :: after, s.beg n % PAGE = 0 ∧ s.fin n % PAGE = 0) := by
  obtain ⟨hst, kids, rank, h⟩ := reach_good hr
  rcases h.start with hm | ⟨_, h0⟩
  · obtain ⟨A, B, e⟩ := List.append_of_mem hm
    have hseg := h.seg 0
    have h0 := h.zero_not_mem 0
    rw [e] at h0
    have hsg := hseg
    rw [e, show A ++ s.start :: B = A ++ [s.start] ++ B by simp, seg_append] at hsg
    have hsg2 := hseg
    rw [e, seg_append] at hsg2
    refine ⟨A, B, ?_, ?_, e ▸ h.sorted, e ▸ h.nodup 0, fun n => e ▸ h.mem n 0, ?_⟩
    · exact visits_of_seg (l := s.start :: B) (fun hh => h0 (List.mem_append_right _ hh)) hsg2.2
    · have := visits_back (l := A ++ [s.start]) (fun hh => h0 (by
        rcases List.mem_append.mp hh with hh | hh
        · exact List.mem_append_left _ hh
        · simp only [List.mem_singleton] at hh; exact List.mem_append_right _ (by rw [← hh]; exact List.mem_cons_self))) hsg.1
      rw [lst_append] at this
      simpa [lst] using this
    · intro n hn
      obtain ⟨h1, h2⟩ := (h.mem n 0).mp (e ▸ hn)
      exact h.top n h1 h2
  · exact absurd h0 hst

/-! ## C08 Nearest mappings -/

/-- The mapping at or above an address: whatever is found is right; nothing is found wrongly only if no mapping begins below
the address. -/
theorem mapping_at_or_above_partial {c : Config} {align : Nat → Nat} {s : State} (hr : Reach c align s) (addr : Nat) :
    ∃ r, mappingAtOrAbove c s addr = some r ∧ (r ≠ 0 → NextTop s addr r) ∧
      ((∃ n, Live s n ∧ s.par n = 0 ∧ s.beg n < addr) → NextTop s addr r) := by
  obtain ⟨_, kids, rank, h⟩ := reach_good hr
  obtain ⟨r, e, h1⟩ := h.atOrAbove_sound addr
  refine ⟨r, e, h1, ?_⟩
  intro hb
  obtain ⟨r', e', h2⟩ := h.atOrAbove_next (Or.inl hb)
  rw [e] at e'
  obtain rfl := Option.some.inj e'
  exact h2

/-- The mapping below an address. -/
theorem mapping_below {c : Config} {align : Nat → Nat} {s : State} (hr : Reach c align s) (addr : Nat) :
    ∃ r, mappingBelow c s addr = some r ∧ BelowTop s addr r := by
  obtain ⟨_, kids, rank, h⟩ := reach_good hr
  exact h.below_prev addr

/-! ## C09 Common ancestors -/

/-- The common-parent query. What is found is the nearest common ancestor. It is found if it is one of the two (for the
second: if the first is at most twice as deep), or the parent of the first with the second at least as deep. Missing: the other cases. -/
theorem common_parent_partial {c : Config} {align : Nat → Nat} {s : State} (hr : Reach c align s) {b1 b2 d1 d2 : Nat}
    (hl1 : Live s b1) (hl2 : Live s b2) (hd1 : Depth s b1 d1) (hd2 : Depth s b2 d2) :
    ∃ r, commonParent c s b1 b2 = some r ∧
      (r ≠ 0 → Anc s r b1 ∧ Anc s r b2 ∧ ∀ x, Anc s x b1 → Anc s x b2 → Anc s x r) ∧
      (Anc s b1 b2 → r = b1) ∧ (Anc s b2 b1 → d1 ≤ 2 * d2 → r = b2) ∧
      (d1 ≤ d2 → ¬ Anc s b1 b2 → Anc s (s.par b1) b2 → r = s.par b1) ∧
      ((∀ x, Anc s x b1 → ¬ Anc s x b2) → r = 0) := by
  obtain ⟨_, kids, rank, h⟩ := reach_good hr
  obtain ⟨r, e, h1, h2, h3, h4⟩ := h.commonParent_spec hl1 hl2 hd1 hd2
  refine ⟨r, e, ?_, h2, h4, h3, ?_⟩
  · intro hr0
    rcases h1 with h1 | h1
    · exact absurd h1 hr0
    · exact h1
  · intro hno
    rcases h1 with h1 | h1
    · exact h1
    · exact absurd h1.2.1 (hno r h1.1)

/-! ## Lookups by allocator, leaf allocator, top level -/

/-- The lookup by allocator gives the outermost live big allocation of that allocator containing the address, and nothing only
if there is none; likewise by suballocator. -/
theorem lookup_by_allocator {c : Config} {align : Nat → Nat} {s : State} (hr : Reach c align s) (addr a : Nat) (ha : a ≠ 0) :
    (∃ r, fromRoot c s addr a false = some r ∧
      ((r = 0 ∧ ∀ x, Live s x → Has s x addr → s.alloc x ≠ a) ∨
       (Live s r ∧ Has s r addr ∧ s.alloc r = a ∧ ∀ x, Live s x → Has s x addr → s.alloc x = a → Anc s r x))) ∧
    (∃ r, fromRoot c s addr a true = some r ∧
      ((r = 0 ∧ ∀ x, Live s x → Has s x addr → s.sub x ≠ a) ∨
       (Live s r ∧ Has s r addr ∧ s.sub r = a ∧ ∀ x, Live s x → Has s x addr → s.sub x = a → Anc s r x))) := by
  obtain ⟨_, kids, rank, h⟩ := reach_good hr
  exact ⟨h.fromRoot_spec addr a false ha, h.fromRoot_spec addr a true ha⟩

/-- The lookup by allocator that starts at the page's owner gives the outermost live big allocation of that allocator that
contains the address and is the owner or below it. Nothing is given only if there is none such; then any big allocation of
that allocator containing the address has the owner of the whole page inside it. -/
theorem lookup_under_page {c : Config} {align : Nat → Nat} {s : State} (hr : Reach c align s) (addr a : Nat) :
    ∃ r, underPageindex c s addr a = some r ∧
      ((r = 0 ∧ ∀ x, Live s x → Has s x addr → s.alloc x = a →
          ∃ o, Live s o ∧ Covers s o (pagenum addr) ∧ Anc s x o ∧ x ≠ o) ∨
       (Live s r ∧ Has s r addr ∧ s.alloc r = a ∧ ∀ x, Live s x → Has s x addr → s.alloc x = a →
          Anc s r x ∨ ∃ o, Live s o ∧ Covers s o (pagenum addr) ∧ Anc s x o ∧ Anc s o r)) := by
  obtain ⟨_, kids, rank, h⟩ := reach_good hr
  have ho := h.owner (pagenum addr)
  unfold underPageindex
  rcases ho with ⟨h0, hno⟩ | ⟨h0, hl, hcov, hmax⟩
  · rw [if_pos h0]
    refine ⟨0, rfl, Or.inl ⟨rfl, ?_⟩⟩
    intro x hx hxa
    have ho := h.owner (pagenum addr)
    rw [h0] at ho
    exact absurd hxa (h.no_has_of_unowned ho x hx)
  · rw [if_neg h0]
    have hao := Inv.covers_has hcov rfl
    obtain ⟨r, e, h2⟩ := h.findUnder_spec addr a false (c.nb + 1) _ _ hl hao (Path.top (n := entry s (pagenum addr))) (by simp; omega)
    refine ⟨r, e, ?_⟩
    rcases h2 with ⟨rfl, h3⟩ | ⟨h3, h4, h5, h6, h7⟩
    · refine Or.inl ⟨rfl, ?_⟩
      intro x hx hxa hxw
      refine ⟨_, hl, hcov, ?_⟩
      rcases h.laminar hl hx hao hxa with q | q
      · exact absurd hxw (h3 x hx hxa q)
      · refine ⟨q, ?_⟩
        intro e
        exact h3 x hx hxa (e ▸ Anc.refl) hxw
    · refine Or.inr ⟨h3, h4, h6, ?_⟩
      intro x hx hxa hxw
      rcases h.laminar hl hx hao hxa with q | q
      · exact Or.inl (h7 x hx hxa q hxw)
      · exact Or.inr ⟨_, hl, hcov, q, h5⟩

/-- The top-level lookup gives the top-level mapping containing the address, and nothing only if nothing contains it. -/
theorem lookup_top_level {c : Config} {align : Nat → Nat} {s : State} (hr : Reach c align s) (addr : Nat) :
    ∃ r, topLevel c s addr = some r ∧
      ((r = 0 ∧ ∀ x, Live s x → ¬ Has s x addr) ∨ (Live s r ∧ s.par r = 0 ∧ Has s r addr)) := by
  obtain ⟨_, kids, rank, h⟩ := reach_good hr
  exact h.topLevel_spec addr

/-- The allocator in charge of an address is the suballocator, or else the allocator, of the innermost big allocation. -/
theorem leaf_allocator {c : Config} {align : Nat → Nat} {s : State} (hr : Reach c align s) (addr : Nat) :
    ∃ r, DeepestAt s addr r ∧ leafBig c s addr = some r ∧
      leafAllocator c s addr = some (if r = 0 then 0 else if s.sub r ≠ 0 then s.sub r else s.alloc r) := by
  obtain ⟨_, kids, rank, h⟩ := reach_good hr
  obtain ⟨r, e, hd⟩ := h.deepestAt addr
  refine ⟨r, hd, by rw [h.leafBig_eq, e], ?_⟩
  unfold leafAllocator
  rw [h.leafBig_eq, e]
  rfl

/-! ## Deletion by address and by range -/

/-- Deletion by address and allocator deletes the subtree of the outermost big allocation of that allocator containing the
address; if there is none, nothing changes and the result says so. -/
theorem delete_at {c : Config} {align : Nat → Nat} {s : State} (hr : Reach c align s) {addr a : Nat} (ha : a ≠ 0)
    (hst : ¬ (Has s s.start addr ∧ s.alloc s.start = a)) :
    (deleteAt c s addr a = some (s, false) ∧ ∀ x, Live s x → Has s x addr → s.alloc x ≠ a) ∨
    (∃ s' b, deleteAt c s addr a = some (s', true) ∧ Live s b ∧ Has s b addr ∧ s.alloc b = a ∧
      (∀ x, Live s x → Has s x addr → s.alloc x = a → Anc s b x) ∧ bigallocDel c s b = some s' ∧
      ∀ n, Live s' n ↔ Live s n ∧ ¬ Anc s b n) := by
  obtain ⟨_, kids, rank, h⟩ := reach_good hr
  rcases deleteAt_spec h ha hst with h1 | ⟨s', b, kids', o, e, h1, h2, h3, h4, h5, hd⟩
  · exact Or.inl h1
  · right
    have hmem : ∀ n, n ∈ o ↔ Live s n ∧ Anc s b n := by intro n; rw [hd.mem]; simp
    refine ⟨s', b, e, h1, h2, h3, h4, ?_, ?_⟩
    · obtain ⟨r, e1, hr1⟩ := h.fromRoot_spec addr a false ha
      unfold deleteAt at e
      rw [e1] at e
      rcases hr1 with ⟨rfl, h6⟩ | ⟨h6, h7, h8, h9⟩
      · exact absurd h3 (h6 b h1 h2)
      · have : r = b := h.anc_antisymm (h9 b h1 h2 h3) (h4 r h6 h7 h8) h1
        subst this
        simp only [h.ne0 h1, if_false] at e
        cases hb : bigallocDel c s r with
        | none => rw [hb] at e; simp at e
        | some s2 => rw [hb] at e; simp at e; rw [e]
    · intro n
      rw [hd.live, hmem]
      constructor
      · rintro ⟨h6, h7⟩; exact ⟨h6, fun h8 => h7 ⟨h6, h8⟩⟩
      · rintro ⟨h6, h7⟩; exact ⟨h6, fun h8 => h7 h8.2⟩

/-- Deletion of everything overlapping a range: exactly the trees whose top-level mapping overlaps it are deleted. -/
theorem delete_range_partial {c : Config} {align : Nat → Nat} {s : State} (hr : Reach c align s) {lo hi : Nat} (hlo : lo % PAGE = 0)
    (hlt : lo < hi) (hst : ¬ (lo < s.fin s.start ∧ s.beg s.start < hi)) :
    ∃ (s' : State) (order : List Nat), delRange c (c.nb + 1) s lo hi = some s' ∧ Reach c align s' ∧ order.Nodup ∧
      (∀ n, n ∈ order ↔ Live s n ∧ ∃ r, Live s r ∧ s.par r = 0 ∧ lo < s.fin r ∧ s.beg r < hi ∧ Anc s r n) ∧
      (∀ n, Live s' n ↔ Live s n ∧ n ∉ order) ∧ s'.log = s.log ++ order.flatMap (callsOf s) ∧
      (∀ n, Live s' n → s'.beg n = s.beg n ∧ s'.fin n = s.fin n ∧ s'.par n = s.par n) ∧
      (∀ n, Live s' n → s'.fin n ≤ lo ∨ hi ≤ s'.beg n) ∧
      (∀ a, lo ≤ a → a < hi → deepest c s' a = some 0) := by
  obtain ⟨_, kids, rank, h⟩ := reach_good hr
  have hst' : ¬ Overlaps s lo hi s.start := fun ho => hst ho.2.2.2
  obtain ⟨s', kids', roots, o, e, h', hd, hroots⟩ := delRange_spec (c.nb + 1) lo hi h hlo hst' (kids0_length h)
  have hmem : ∀ n, n ∈ o ↔ Live s n ∧ ∃ r, Live s r ∧ s.par r = 0 ∧ lo < s.fin r ∧ s.beg r < hi ∧ Anc s r n := by
    intro n
    rw [hd.mem]
    constructor
    · rintro ⟨h1, k, hk, hkn⟩
      obtain ⟨_, h2, h3, h4, h5⟩ := (hroots k).mp hk
      exact ⟨h1, k, h2, h3, h4, h5, hkn⟩
    · rintro ⟨h1, k, h2, h3, h4, h5, hkn⟩
      exact ⟨h1, k, (hroots k).mpr ⟨hlt, h2, h3, h4, h5⟩, hkn⟩
  have hout : ∀ n, Live s' n → s'.fin n ≤ lo ∨ hi ≤ s'.beg n := by
    intro n hn
    obtain ⟨hnl, hno⟩ := (hd.live n).mp hn
    rw [hd.beg n hno, hd.fin n hno]
    obtain ⟨r, h1, h2, h3⟩ := h.exists_root hnl
    have h4 := h.anc_nest h3 hnl
    by_cases h5 : lo < s.fin r ∧ s.beg r < hi
    · exact absurd ((hmem n).mpr ⟨hnl, r, h1, h2, h5.1, h5.2, h3⟩) hno
    · omega
  refine ⟨s', o, e, Reach.step (op := .deleteRange lo hi) hr ⟨hlo, hst'⟩ e, hd.nodup, hmem, hd.live, hd.log, ?_, hout, ?_⟩
  · intro n hn
    have hno := ((hd.live n).mp hn).2
    exact ⟨hd.beg n hno, hd.fin n hno, hd.par n hno⟩
  · intro a h1 h2
    rw [h'.deepest_iff]
    left
    refine ⟨rfl, ?_⟩
    intro n hn hna
    have := hout n hn
    unfold Has at hna
    omega

end Liballocs.PageIndex
