import Verif.Proofs.PageIndexRange
/-!
# Histories of operations on big allocations, and how lookups change
-/
namespace Liballocs.PageIndex

open Fill

/-! ## What callers have to respect -/

/-- The obligations of the caller of each operation, in terms of the live big allocations and their ranges. -/
def Allowed (c : Config) (align : Nat → Nat) (s : State) : Op → Prop
  | .new ptr size parent _ => NewOk c s ptr size parent
  | .setSub b _ _ _ => Live s b
  | .del b => Live s b ∧ b ≠ s.start
  | .deleteAt addr a => a ≠ 0 ∧ ¬ (Has s s.start addr ∧ s.alloc s.start = a)
  | .deleteRange lo hi => lo % PAGE = 0 ∧ ¬ Overlaps s lo hi s.start
  | .extend b newEnd => Live s b ∧ s.fin b ≤ newEnd ∧ Resizable c s b (s.beg b) newEnd ∧
      (s.beg b ≤ roundDown (s.fin b) PAGE ∨ newEnd < roundDown (s.fin b) PAGE + PAGE)
  | .preExtend b newBegin => Live s b ∧ (newBegin < s.beg b → Resizable c s b newBegin (s.fin b))
  | .preExtendUp b newBegin => Live s b ∧ RecOk c align s b newBegin
  | .truncEnd b newEnd => Live s b ∧ newEnd ≤ s.fin b ∧ Resizable c s b (s.beg b) newEnd ∧
      (s.beg b ≤ roundDown newEnd PAGE ∨ s.fin b < roundDown newEnd PAGE + PAGE)
  | .truncBegin b newBegin => Live s b ∧ s.beg b ≤ newBegin ∧ Resizable c s b newBegin (s.fin b) ∧
      (roundUp newBegin PAGE ≤ s.fin b ∨ roundUp newBegin PAGE ≤ s.beg b + PAGE - 1)
  | .split b at' => Live s b ∧ SplitOk c s b at'

/-- What the first big allocation has to respect. -/
structure BootOk (c : Config) (ptr size : Nat) : Prop where
  nb : 2 ≤ c.nb ∧ c.nb ≤ 32768
  nonzero : ptr ≠ 0
  pos : 0 < size
  small : size ≤ c.maxPages * PAGE
  aligned : ptr % PAGE = 0 ∧ (ptr + size) % PAGE = 0

/-- States reached by a history of operations used as they should be. -/
inductive Reach (c : Config) (align : Nat → Nat) : State → Prop
  | boot {ptr size : Nat} {m : Meta} {s : State} : BootOk c ptr size → boot c ptr size m = some s → Reach c align s
  | step {s s' : State} {op : Op} : Reach c align s → Allowed c align s op → apply c align s op = some s' → Reach c align s'

/-! ## The invariant holds throughout -/

theorem inv_init {c : Config} (hnb : c.nb ≤ 32768) : Inv c State.init (fun _ => []) (fun _ => 0) := by
  have hd : ∀ n, ¬ Live State.init n := fun n hl => hl.1 rfl
  constructor
  · constructor
    · exact hnb
    · exact ⟨rfl, rfl, rfl, rfl, rfl⟩
    · intro n hl; exact absurd hl (hd n)
    · intro n _; rfl
    · intro x p; simp [hd]
    · intro p; simp
    · intro p; trivial
    · intro p hl; exact absurd hl (hd p)
    · intro x hl; exact absurd hl (hd x)
    · intro x hl; exact absurd hl (hd x)
    · right; exact ⟨rfl, rfl⟩
  · constructor
    · intro n hl; exact absurd hl (hd n)
    · intro n hl; exact absurd hl (hd n)
    · intro n hl; exact absurd hl (hd n)
    · intro n m hl; exact absurd hl (hd n)
    · intro n hl; exact absurd hl (hd n)
    · simp
    · intro q; left; exact ⟨rfl, fun n hl => absurd hl (hd n)⟩

/-- The invariant with some child lists, and a start of the top-level list. -/
def Good (c : Config) (s : State) : Prop := s.start ≠ 0 ∧ ∃ kids rank, Inv c s kids rank

theorem boot_spec {c : Config} {ptr size : Nat} {m : Meta} (ho : BootOk c ptr size) :
    ∃ s, boot c ptr size m = some s ∧ Good c s ∧ Live s s.start ∧ s.beg s.start = ptr ∧ s.fin s.start = ptr + size ∧
      s.alloc s.start = m.alloc ∧ ∀ n, Live s n → n = s.start := by
  have hd : ∀ n, ¬ Live State.init n := fun n hl => hl.1 rfl
  have hi := inv_init ho.nb.2
  obtain ⟨s', b, p, e, hb0, hblt, _, hp, _, _, _, ha, kids', rank', _, h2⟩ := newBigalloc_spec (m := m) hi
    (ptr := ptr) (size := size) (mp := 0) ⟨ho.nonzero, ho.pos, ho.small, ⟨1, by omega, by have := ho.nb; omega, hd 1⟩,
      fun e => absurd rfl e, fun _ => ⟨fun n hl => absurd hl (hd n), fun _ => ho.aligned⟩⟩
  have hp0 : p = 0 := by
    rcases hp with hp | hp
    · exact hp
    · exact absurd hp (hd p)
  have hpos := ho.pos
  have hlive := ha.live (by exact ho.nonzero) (by omega)
  refine ⟨{ s' with start := b }, ?_, ⟨hb0, kids', rank', h2 hp0⟩, ?_, ?_, ?_, ?_, ?_⟩
  · unfold boot; rw [e]; rfl
  · exact (hlive b).mpr (Or.inr rfl)
  · show s'.beg b = ptr; rw [ha.beg, upd_same]
  · show s'.fin b = ptr + size; rw [ha.fin, upd_same]
  · show s'.alloc b = m.alloc; rw [ha.alloc, upd_same]; rfl
  · intro n hn
    rcases (hlive n).mp hn with hn | hn
    · exact absurd hn (hd n)
    · exact hn

theorem setSub_inv {c : Config} {s : State} {kids rank} (h : Inv c s kids rank) {b x y z : Nat} (hb : Live s b) :
    Inv c { s with sub := upd s.sub b x, subPriv := upd s.subPriv b y, subPrivFree := upd s.subPrivFree b z } kids rank := by
  have hb0 := h.ne0 hb
  constructor
  · exact { nbOk := h.nbOk, zero := ⟨h.zero.1, h.zero.2.1, h.zero.2.2.1, h.zero.2.2.2.1, by
              show upd s.sub b x 0 = 0
              rw [upd_ne (Ne.symm hb0)]; exact h.zero.2.2.2.2⟩,
            lt := h.lt, dead := h.dead, mem := h.mem, nodup := h.nodup, seg := h.seg, firstKid := h.firstKid,
            parLive := h.parLive, rank := h.rank, start := h.start }
  · exact { pos := h.pos, small := h.small, nest := h.nest, disj := h.disj, top := h.top, sorted := h.sorted, owner := h.owner }

/-- Deletion by address and allocator. -/
theorem deleteAt_spec {c : Config} {s : State} {kids rank} (h : Inv c s kids rank) {addr a : Nat} (ha : a ≠ 0)
    (hst : ¬ (Has s s.start addr ∧ s.alloc s.start = a)) :
    (deleteAt c s addr a = some (s, false) ∧ ∀ x, Live s x → Has s x addr → s.alloc x ≠ a) ∨
    (∃ s' b kids' order, deleteAt c s addr a = some (s', true) ∧ Live s b ∧ Has s b addr ∧ s.alloc b = a ∧
      (∀ x, Live s x → Has s x addr → s.alloc x = a → Anc s b x) ∧ Inv c s' kids' rank ∧ Deleted s s' [b] order) := by
  obtain ⟨r, e, hr⟩ := h.fromRoot_spec addr a false ha
  unfold deleteAt
  rw [e]
  rcases hr with ⟨rfl, h1⟩ | ⟨h1, h2, h3, h4⟩
  · left
    exact ⟨by simp, h1⟩
  · right
    have h3 : s.alloc r = a := h3
    obtain ⟨s', kids', o, e2, h5, h6⟩ := bigallocDel_spec h h1 (fun e => hst (by rw [e]; exact ⟨h2, h3⟩))
    exact ⟨s', r, kids', o, by simp [h.ne0 h1, e2], h1, h2, h3, h4, h5, h6⟩

theorem kids0_length {c : Config} {s : State} {kids rank} (h : Inv c s kids rank) : (kids 0).length < c.nb + 1 := by
  have := h.kids_length 0; omega

/-- Every operation completes and keeps the invariant. -/
theorem step_good {c : Config} {align : Nat → Nat} {s : State} {op : Op} (hg : Good c s) (ha : Allowed c align s op) :
    ∃ s', apply c align s op = some s' ∧ Good c s' := by
  obtain ⟨hst, kids, rank, h⟩ := hg
  cases op with
  | new ptr size parent m =>
    obtain ⟨s', b, p, e, _, _, _, _, _, _, _, h1, kids', rank', h2, _⟩ := newBigalloc_spec (m := m) h ha
    exact ⟨s', by simp [apply, e], by rw [h1.start]; exact hst, kids', rank', h2 hst⟩
  | setSub b x y z => exact ⟨_, rfl, hst, kids, rank, setSub_inv h ha⟩
  | del b =>
    obtain ⟨s', kids', o, e, h1, h2⟩ := bigallocDel_spec h ha.1 (Ne.symm ha.2)
    exact ⟨s', e, by rw [h2.start]; exact hst, kids', rank, h1⟩
  | deleteAt addr a =>
    rcases deleteAt_spec h ha.1 ha.2 with ⟨e, _⟩ | ⟨s', b, kids', o, e, _, _, _, _, h1, h2⟩
    · exact ⟨s, by simp [apply, e], hst, kids, rank, h⟩
    · exact ⟨s', by simp [apply, e], by rw [h2.start]; exact hst, kids', rank, h1⟩
  | deleteRange lo hi =>
    obtain ⟨s', kids', roots, o, e, h1, h2, _⟩ := delRange_spec (c.nb + 1) lo hi h ha.1 ha.2 (kids0_length h)
    exact ⟨s', e, by rw [h2.start]; exact hst, kids', rank, h1⟩
  | extend b newEnd =>
    obtain ⟨s', e, h1, h2⟩ := extend_spec h ha.1 ha.2.1 ha.2.2.1 ha.2.2.2
    exact ⟨s', e, by rw [h1.start]; exact hst, kids, rank, h2⟩
  | preExtend b newBegin =>
    obtain ⟨s', e, h1, h2⟩ := preExtend_spec h ha.1 ha.2
    exact ⟨s', e, by rw [h1.start]; exact hst, kids, rank, h2⟩
  | preExtendUp b newBegin =>
    obtain ⟨s', e, h1, h2, _⟩ := preExtendRec_spec (align := align) h (c.nb + 1) b newBegin [] ha.1 (by simp) (by simp) (by simp)
      (by simp only [List.length_cons, List.length_nil]; omega) ha.2
    exact ⟨s', e, by rw [h2.start]; exact hst, kids, rank, h1⟩
  | truncEnd b newEnd =>
    obtain ⟨s', e, h1, h2⟩ := truncEnd_spec h ha.1 ha.2.1 ha.2.2.1 ha.2.2.2
    exact ⟨s', e, by rw [h1.start]; exact hst, kids, rank, h2⟩
  | truncBegin b newBegin =>
    obtain ⟨s', e, h1, h2⟩ := truncBegin_spec h ha.1 ha.2.1 ha.2.2.1 ha.2.2.2
    exact ⟨s', e, by rw [h1.start]; exact hst, kids, rank, h2⟩
  | split b at' =>
    obtain ⟨s', nw, e, _, _, _, h1, kids', rank', h2⟩ := split_spec h ha.1 ha.2
    exact ⟨s', by simp [apply, e], by rw [h1.start]; exact hst, kids', rank', h2⟩

theorem reach_good {c : Config} {align : Nat → Nat} {s : State} (hr : Reach c align s) : Good c s := by
  induction hr with
  | boot ho e =>
    obtain ⟨s', e', h, _⟩ := boot_spec ho
    rw [e] at e'
    obtain rfl := Option.some.inj e'
    exact h
  | step _ ha e ih =>
    obtain ⟨s', e', h⟩ := step_good ih ha
    rw [e] at e'
    obtain rfl := Option.some.inj e'
    exact h

/-! ## How lookups change -/

/-- `r` is the innermost live big allocation containing the address, 0 if there is none. -/
def DeepestAt (s : State) (addr r : Nat) : Prop :=
  (r = 0 ∧ ∀ n, Live s n → ¬ Has s n addr) ∨
  (Live s r ∧ Has s r addr ∧ ∀ n, Live s n → Has s n addr → Anc s n r)

namespace Inv

variable {c : Config} {s : State} {kids : Nat → List Nat} {rank : Nat → Nat} (h : Inv c s kids rank)
include h

theorem deepestAt (addr : Nat) : ∃ r, deepest c s addr = some r ∧ DeepestAt s addr r := by
  rcases h.deepest_spec addr with ⟨h1, h2⟩ | ⟨r, h1, h2, h3, _, h4⟩
  · exact ⟨0, h1, Or.inl ⟨rfl, h2⟩⟩
  · exact ⟨r, h1, Or.inr ⟨h2, h3, h4⟩⟩

theorem deepestAt_unique {addr r1 r2 : Nat} (h1 : DeepestAt s addr r1) (h2 : DeepestAt s addr r2) : r1 = r2 := by
  rcases h1 with ⟨rfl, h1⟩ | ⟨h1, h3, h4⟩
  · rcases h2 with ⟨rfl, _⟩ | ⟨h2, h5, _⟩
    · rfl
    · exact absurd h5 (h1 _ h2)
  · rcases h2 with ⟨rfl, h2⟩ | ⟨h2, h5, h6⟩
    · exact absurd h3 (h2 _ h1)
    · exact h.anc_antisymm (h6 _ h1 h3) (h4 _ h2 h5) h2

theorem deepest_iff (addr r : Nat) : deepest c s addr = some r ↔ DeepestAt s addr r := by
  obtain ⟨r', e, hr⟩ := h.deepestAt addr
  constructor
  · intro e'
    rw [e] at e'
    obtain rfl := Option.some.inj e'
    exact hr
  · intro hr'
    rw [e, h.deepestAt_unique hr hr']

/-- An innermost big allocation can also be recognised by its children. -/
theorem deepestAt_of_kids {addr r : Nat} (hl : Live s r) (ha : Has s r addr) (hk : ∀ x, Live s x → s.par x = r → ¬ Has s x addr) :
    DeepestAt s addr r := by
  right
  refine ⟨hl, ha, ?_⟩
  intro n hn hna
  rcases h.laminar hn hl hna ha with e | e
  · exact e
  · rcases anc_cases e with e | ⟨k, hk', _, hkn⟩
    · exact e ▸ Anc.refl
    · exact absurd (h.anc_has hkn hn hna) (hk k (h.anc_live hkn hn) hk')

end Inv

/-- An address in the parent or in none, but not in the big allocation: what is deepest there is the parent. -/
theorem par_deepest {c : Config} {s : State} {kids rank} (h : Inv c s kids rank) {p addr : Nat} (hp : p = 0 ∨ (Live s p ∧ Has s p addr))
    (hno : ∀ n, Live s n → s.par n = p → ¬ Has s n addr) : DeepestAt s addr p := by
  rcases hp with rfl | ⟨hl, ha⟩
  · left
    refine ⟨rfl, ?_⟩
    intro n hn hna
    obtain ⟨r, hr, hr0, hrn⟩ := h.exists_root hn
    exact hno r hr hr0 (h.anc_has hrn hn hna)
  · exact h.deepestAt_of_kids hl ha hno

/-- Lookups after a deletion. -/
theorem deleted_lookup {c : Config} {s s' : State} {kids rank kids' rank'} (h : Inv c s kids rank) (h' : Inv c s' kids' rank')
    {b : Nat} {order : List Nat} (hb : Live s b) (hd : Deleted s s' [b] order) (addr : Nat) :
    (Has s b addr → deepest c s' addr = some (s.par b)) ∧ (¬ Has s b addr → deepest c s' addr = deepest c s addr) := by
  have hord : ∀ n, n ∈ order ↔ Live s n ∧ Anc s b n := by intro n; rw [hd.mem]; simp
  have hbo : b ∈ order := (hord b).mpr ⟨hb, Anc.refl⟩
  have hasEq : ∀ n, n ∉ order → (Has s' n addr ↔ Has s n addr) := by
    intro n hn; unfold Has; rw [hd.beg n hn, hd.fin n hn]
  have hpno : s.par b ∉ order := by
    intro hm
    obtain ⟨h1, h2⟩ := (hord _).mp hm
    have hp0 : s.par b ≠ 0 := h.ne0 h1
    have := h.anc_antisymm h2 (Anc.step hp0 Anc.refl) h1
    exact h.par_ne hb this.symm
  constructor
  · intro ha
    rw [h'.deepest_iff]
    apply par_deepest h'
    · by_cases hp : s.par b = 0
      · exact Or.inl hp
      · right
        have hpl := h.parLive b hb hp
        refine ⟨(hd.live _).mpr ⟨hpl, hpno⟩, (hasEq _ hpno).mpr ?_⟩
        have := h.nest b hb hp
        unfold Has at *; omega
    · intro n hn hnp hna
      obtain ⟨hnl, hno⟩ := (hd.live n).mp hn
      rw [hd.par n hno] at hnp
      rw [hasEq n hno] at hna
      have hne : n ≠ b := fun e => hno (e ▸ hbo)
      exact Inv.disj_of_has (h.disj n b hnl hb hnp hne) hna ha
  · intro ha
    obtain ⟨r, e, hr⟩ := h.deepestAt addr
    rw [e, h'.deepest_iff]
    have hhas : ∀ n, Live s n → Has s n addr → n ∉ order := by
      intro n hn hna hm
      exact ha (h.anc_has ((hord n).mp hm).2 hn hna)
    rcases hr with ⟨rfl, hno⟩ | ⟨h1, h2, h3⟩
    · left
      refine ⟨rfl, ?_⟩
      intro n hn hna
      obtain ⟨hnl, hnn⟩ := (hd.live n).mp hn
      exact hno n hnl ((hasEq n hnn).mp hna)
    · right
      have hrn := hhas r h1 h2
      refine ⟨(hd.live r).mpr ⟨h1, hrn⟩, (hasEq r hrn).mpr h2, ?_⟩
      intro n hn hna
      obtain ⟨hnl, hnn⟩ := (hd.live n).mp hn
      exact (hd.anc h.toLinks h1 hrn).mpr (h3 n hnl ((hasEq n hnn).mp hna))

/-- The page index after a deletion. -/
theorem deleted_pages {c : Config} {s s' : State} {kids rank kids' rank'} (h : Inv c s kids rank) (h' : Inv c s' kids' rank')
    {b : Nat} {order : List Nat} (hb : Live s b) (hd : Deleted s s' [b] order) (q : Nat) :
    entry s' q = if s.beg b ≤ q * PAGE ∧ (q + 1) * PAGE ≤ s.fin b then s.par b else entry s q := by
  have hord : ∀ n, n ∈ order ↔ Live s n ∧ Anc s b n := by intro n; rw [hd.mem]; simp
  have hbo : b ∈ order := (hord b).mpr ⟨hb, Anc.refl⟩
  have covEq : ∀ n, n ∉ order → (Covers s' n q ↔ Covers s n q) := by
    intro n hn; unfold Covers; rw [hd.beg n hn, hd.fin n hn]
  apply h'.owner_unique (h'.owner q)
  by_cases hc : Covers s b q
  · have hc' := hc
    unfold Covers at hc'
    rw [if_pos hc']
    have hpno : s.par b ∉ order := by
      intro hm
      obtain ⟨h1, h2⟩ := (hord _).mp hm
      have := h.anc_antisymm h2 (Anc.step (h.ne0 h1) Anc.refl) h1
      exact h.par_ne hb this.symm
    have hsib : ∀ n, Live s' n → s'.par n = s.par b → ¬ Covers s' n q := by
      intro n hn hnp hnc
      obtain ⟨hnl, hno⟩ := (hd.live n).mp hn
      rw [hd.par n hno] at hnp
      rw [covEq n hno] at hnc
      have hne : n ≠ b := fun e => hno (e ▸ hbo)
      have := h.disj n b hnl hb hnp hne
      unfold Covers PAGE at *
      omega
    by_cases hp : s.par b = 0
    · left
      refine ⟨hp, ?_⟩
      intro n hn hnc
      obtain ⟨r, hr, hr0, hrn⟩ := h'.exists_root hn
      exact hsib r hr (by rw [hr0, hp]) (h'.anc_covers hrn hn hnc)
    · right
      have hpl := h.parLive b hb hp
      refine ⟨hp, (hd.live _).mpr ⟨hpl, hpno⟩, (covEq _ hpno).mpr (h.anc_covers (Anc.step hp Anc.refl) hb hc), hsib⟩
  · have hc' := hc
    unfold Covers at hc'
    rw [if_neg hc']
    have hnot : ∀ n, Live s n → Covers s n q → n ∉ order := by
      intro n hn hnc hm
      exact hc (h.anc_covers ((hord n).mp hm).2 hn hnc)
    rcases h.owner q with ⟨h1, h2⟩ | ⟨h1, h2, h3, h4⟩
    · left
      refine ⟨h1, ?_⟩
      intro n hn hnc
      obtain ⟨hnl, hno⟩ := (hd.live n).mp hn
      exact h2 n hnl ((covEq n hno).mp hnc)
    · right
      have hno := hnot _ h2 h3
      refine ⟨h1, (hd.live _).mpr ⟨h2, hno⟩, (covEq _ hno).mpr h3, ?_⟩
      intro n hn hnp hnc
      obtain ⟨hnl, hnn⟩ := (hd.live n).mp hn
      rw [hd.par n hnn] at hnp
      exact h4 n hnl hnp ((covEq n hnn).mp hnc)

theorem Resized.anc {s s' : State} {b lo hi : Nat} (h : Resized s s' b lo hi) {x n : Nat} : Anc s' x n ↔ Anc s x n := by
  constructor
  · intro ha
    induction ha with
    | refl => exact Anc.refl
    | step hp _ ih => rw [h.par] at hp ih; exact Anc.step hp ih
  · intro ha
    induction ha with
    | refl => exact Anc.refl
    | step hp _ ih => exact Anc.step (by rw [h.par]; exact hp) (by rw [h.par]; exact ih)

/-- Lookups after a resize. -/
theorem resized_lookup {c : Config} {s s' : State} {kids rank kids' rank'} (h : Inv c s kids rank) (h' : Inv c s' kids' rank')
    {b lo hi : Nat} (hb : Live s b) (hrz : Resizable c s b lo hi) (hr : Resized s s' b lo hi) (addr : Nat) :
    (lo ≤ addr ∧ addr < hi → ¬ Has s b addr → deepest c s' addr = some b) ∧
    (¬ (lo ≤ addr ∧ addr < hi) → Has s b addr → deepest c s' addr = some (s.par b)) ∧
    ((lo ≤ addr ∧ addr < hi ↔ Has s b addr) → deepest c s' addr = deepest c s addr) := by
  have hpos := hrz.pos
  have hlive := hr.live hb hrz.nonzero (by omega)
  have hbh : Has s' b addr ↔ (lo ≤ addr ∧ addr < hi) := by unfold Has; rw [hr.beg, hr.fin, upd_same, upd_same]
  have hne : ∀ n, n ≠ b → (Has s' n addr ↔ Has s n addr) := by
    intro n hn; unfold Has; rw [hr.beg, hr.fin, upd_ne hn, upd_ne hn]
  have hpb := h.par_ne hb
  refine ⟨?_, ?_, ?_⟩
  · intro h1 h2
    rw [h'.deepest_iff]
    apply h'.deepestAt_of_kids ((hlive b).mpr hb) (hbh.mpr h1)
    intro x hx hxp hxa
    have hxl := (hlive x).mp hx
    rw [hr.par] at hxp
    have hxb : x ≠ b := fun e => by subst e; exact hpb hxp
    rw [hne x hxb] at hxa
    have := h.nest x hxl (by rw [hxp]; exact h.ne0 hb)
    rw [hxp] at this
    apply h2
    unfold Has at *; omega
  · intro h1 h2
    rw [h'.deepest_iff]
    apply par_deepest h'
    · by_cases hp : s.par b = 0
      · exact Or.inl hp
      · right
        refine ⟨(hlive _).mpr (h.parLive b hb hp), (hne _ hpb).mpr ?_⟩
        have := h.nest b hb hp
        unfold Has at *; omega
    · intro n hn hnp hna
      rw [hr.par] at hnp
      by_cases e : n = b
      · subst e; exact h1 (hbh.mp hna)
      · exact Inv.disj_of_has (h.disj n b ((hlive n).mp hn) hb hnp e) ((hne n e).mp hna) h2
  · intro hiff
    have hall : ∀ n, Has s' n addr ↔ Has s n addr := by
      intro n
      by_cases e : n = b
      · subst e; rw [hbh]; exact hiff
      · exact hne n e
    obtain ⟨r, e, hd⟩ := h.deepestAt addr
    rw [e, h'.deepest_iff]
    rcases hd with ⟨rfl, h1⟩ | ⟨h1, h2, h3⟩
    · left
      exact ⟨rfl, fun n hn hna => h1 n ((hlive n).mp hn) ((hall n).mp hna)⟩
    · right
      exact ⟨(hlive r).mpr h1, (hall r).mpr h2, fun n hn hna => hr.anc.mpr (h3 n ((hlive n).mp hn) ((hall n).mp hna))⟩

/-- The page index after a resize. -/
theorem resized_pages {c : Config} {s s' : State} {kids rank kids' rank'} (h : Inv c s kids rank) (h' : Inv c s' kids' rank')
    {b lo hi : Nat} (hb : Live s b) (hrz : Resizable c s b lo hi) (hr : Resized s s' b lo hi) (q : Nat) :
    (Covers s' b q → ¬ Covers s b q → entry s q = s.par b ∧ entry s' q = b) ∧
    (¬ Covers s' b q → Covers s b q → entry s q = b ∧ entry s' q = s.par b) ∧
    ((Covers s' b q ↔ Covers s b q) → entry s' q = entry s q) := by
  have hpos := hrz.pos
  have hlive := hr.live hb hrz.nonzero (by omega)
  have hbc : Covers s' b q ↔ (lo ≤ q * PAGE ∧ (q + 1) * PAGE ≤ hi) := by unfold Covers; rw [hr.beg, hr.fin, upd_same, upd_same]
  have hne : ∀ n, n ≠ b → (Covers s' n q ↔ Covers s n q) := by
    intro n hn; unfold Covers; rw [hr.beg, hr.fin, upd_ne hn, upd_ne hn]
  have hpb := h.par_ne hb
  refine ⟨?_, ?_, ?_⟩
  · intro h1 h2
    obtain ⟨h3, h4⟩ := hbc.mp h1
    refine ⟨gained_entry h hb hrz h3 h4 h2, h'.owner_unique (h'.owner q) (Or.inr ⟨h.ne0 hb, (hlive b).mpr hb, h1, ?_⟩)⟩
    intro n hn hnp hnc
    rw [hr.par] at hnp
    have hnb : n ≠ b := fun e => by subst e; exact hpb hnp
    have hnl := (hlive n).mp hn
    have := h.nest n hnl (by rw [hnp]; exact h.ne0 hb)
    rw [hnp] at this
    rw [hne n hnb] at hnc
    apply h2
    unfold Covers at *; omega
  · intro h1 h2
    refine ⟨lost_entry h hb hrz h2 (fun hc => h1 (hbc.mpr hc)), h'.owner_unique (h'.owner q) ?_⟩
    have hsib : ∀ n, Live s' n → s'.par n = s.par b → ¬ Covers s' n q := by
      intro n hn hnp hnc
      rw [hr.par] at hnp
      by_cases e : n = b
      · subst e; exact h1 hnc
      · rw [hne n e] at hnc
        have := h.disj n b ((hlive n).mp hn) hb hnp e
        unfold Covers PAGE at *
        omega
    by_cases hp : s.par b = 0
    · left
      refine ⟨hp, ?_⟩
      intro n hn hnc
      obtain ⟨r, hr', hr0, hrn⟩ := h'.exists_root hn
      exact hsib r hr' (by rw [hr0, hp]) (h'.anc_covers hrn hn hnc)
    · right
      exact ⟨hp, (hlive _).mpr (h.parLive b hb hp), (hne _ hpb).mpr (h.anc_covers (Anc.step hp Anc.refl) hb h2), hsib⟩
  · intro hiff
    have hall : ∀ n, Covers s' n q ↔ Covers s n q := by
      intro n
      by_cases e : n = b
      · subst e; exact hiff
      · exact hne n e
    apply h'.owner_unique (h'.owner q)
    rcases h.owner q with ⟨h1, h2⟩ | ⟨h1, h2, h3, h4⟩
    · left
      exact ⟨h1, fun n hn hnc => h2 n ((hlive n).mp hn) ((hall n).mp hnc)⟩
    · right
      refine ⟨h1, (hlive _).mpr h2, (hall _).mpr h3, ?_⟩
      intro n hn hnp hnc
      rw [hr.par] at hnp
      exact h4 n ((hlive n).mp hn) hnp ((hall n).mp hnc)

/-- No child of the innermost big allocation contains the address. -/
theorem DeepestAt.kid {c : Config} {s : State} {kids rank} (h : Inv c s kids rank) {addr r n : Nat} (hd : DeepestAt s addr r)
    (hr : r ≠ 0) (hn : Live s n) (hp : s.par n = r) : ¬ Has s n addr := by
  intro ha
  rcases hd with ⟨e, _⟩ | ⟨h1, _, h3⟩
  · exact hr e
  · have h4 := h3 n hn ha
    have := h.anc_antisymm h4 (Anc.step (by rw [hp]; exact hr) (by rw [hp]; exact Anc.refl)) h1
    subst this
    exact h.par_ne hn hp

/-- Lookups after a creation. -/
theorem added_lookup {c : Config} {s s' : State} {kids rank kids' rank'} (h : Inv c s kids rank) (h' : Inv c s' kids' rank')
    {b p lo hi : Nat} {m : Meta} (hb0 : b ≠ 0) (hb : ¬ Live s b) (hf : Fits c s p lo hi) (ha : Added s s' b p lo hi m) (addr : Nat) :
    (lo ≤ addr ∧ addr < hi → deepest c s' addr = some b) ∧ (¬ (lo ≤ addr ∧ addr < hi) → deepest c s' addr = deepest c s addr) := by
  have hpos := hf.pos
  have hlive := ha.live hf.nonzero (by omega)
  have hbh : Has s' b addr ↔ (lo ≤ addr ∧ addr < hi) := by unfold Has; rw [ha.beg, ha.fin, upd_same, upd_same]
  have hne : ∀ n, n ≠ b → (Has s' n addr ↔ Has s n addr) := by
    intro n hn; unfold Has; rw [ha.beg, ha.fin, upd_ne hn, upd_ne hn]
  have hbl : Live s' b := (hlive b).mpr (Or.inr rfl)
  have hold : ∀ n, Live s' n → n ≠ b → Live s n := by
    intro n hn e
    rcases (hlive n).mp hn with hn | hn
    · exact hn
    · exact absurd hn e
  constructor
  · intro hin
    rw [h'.deepest_iff]
    apply h'.deepestAt_of_kids hbl (hbh.mpr hin)
    intro x hx hxp
    have hxb : x ≠ b := fun e => by subst e; exact h'.par_ne hbl hxp
    have hxl := hold x hx hxb
    rw [ha.par, upd_ne hxb] at hxp
    exact absurd (h.parLive x hxl (by rw [hxp]; exact hb0)) (by rw [hxp]; exact hb)
  · intro hout
    obtain ⟨r, e, hd⟩ := h.deepestAt addr
    rw [e, h'.deepest_iff]
    have hno : ¬ Has s' b addr := fun hh => hout (hbh.mp hh)
    by_cases hr : r = 0
    · subst hr
      left
      refine ⟨rfl, ?_⟩
      intro n hn hna
      have hnb : n ≠ b := fun e => hno (e ▸ hna)
      rcases hd with ⟨_, hd⟩ | ⟨hd, _⟩
      · exact hd n (hold n hn hnb) ((hne n hnb).mp hna)
      · exact h.ne0 hd rfl
    · have hd' := hd
      rcases hd' with ⟨h0, _⟩ | ⟨h1, h2, h3⟩
      · exact absurd h0 hr
      · have hrb : r ≠ b := fun e => hb (e ▸ h1)
        apply h'.deepestAt_of_kids ((hlive r).mpr (Or.inl h1)) ((hne r hrb).mpr h2)
        intro x hx hxp hxa
        have hxb : x ≠ b := fun e => hno (e ▸ hxa)
        rw [ha.par, upd_ne hxb] at hxp
        exact hd.kid h hr (hold x hx hxb) hxp ((hne x hxb).mp hxa)

/-- Lookups after a split. -/
theorem split_lookup {c : Config} {s s' : State} {kids rank kids' rank'} (h : Inv c s kids rank) (h' : Inv c s' kids' rank')
    {b nw at' : Nat} (hb : Live s b) (hnw0 : nw ≠ 0) (hnw : ¬ Live s nw) (ho : SplitOk c s b at') (hs : SplitInto s s' b nw at') (addr : Nat) :
    (deepest c s addr = some b → at' ≤ addr → deepest c s' addr = some nw) ∧
    (¬ (deepest c s addr = some b ∧ at' ≤ addr) → deepest c s' addr = deepest c s addr) := by
  have hlo := ho.lo
  have hhi := ho.hi
  have hbn : b ≠ nw := fun e => hnw (e ▸ hb)
  have hb0 := h.ne0 hb
  have hpbb := h.par_ne hb
  have hpbn : s.par b ≠ nw := by
    intro e
    exact hnw (e ▸ h.parLive b hb (by rw [e]; exact hnw0))
  have hbegb : s'.beg b = s.beg b := by rw [hs.beg, upd_ne hbn]
  have hfinb : s'.fin b = at' := by rw [hs.fin, upd_same]
  have hbegn : s'.beg nw = at' := by rw [hs.beg, upd_same]
  have hfinn : s'.fin nw = s.fin b := by rw [hs.fin, upd_ne (Ne.symm hbn), upd_same]
  have hsame : ∀ n, n ≠ b → n ≠ nw → s'.beg n = s.beg n ∧ s'.fin n = s.fin n := by
    intro n h1 h2
    rw [hs.beg, hs.fin, upd_ne h2, upd_ne h1, upd_ne h2]
    exact ⟨rfl, rfl⟩
  have hlive : ∀ n, Live s' n ↔ Live s n ∨ n = nw := by
    intro n
    by_cases e : n = nw
    · subst e
      simp only [or_true, iff_true]
      exact ⟨by rw [hbegn]; omega, by rw [hfinn]; omega⟩
    · by_cases e2 : n = b
      · subst e2
        simp only [hb, true_or, iff_true]
        exact ⟨by rw [hbegb]; exact hb.1, by rw [hfinb]; omega⟩
      · unfold Live
        rw [(hsame n e2 e).1, (hsame n e2 e).2]
        simp [e]
  have hhas : ∀ n, n ≠ b → n ≠ nw → (Has s' n addr ↔ Has s n addr) := by
    intro n h1 h2; unfold Has; rw [(hsame n h1 h2).1, (hsame n h1 h2).2]
  have hhb : Has s' b addr ↔ Has s b addr ∧ addr < at' := by unfold Has; rw [hbegb, hfinb]; omega
  have hhn : Has s' nw addr ↔ Has s b addr ∧ at' ≤ addr := by unfold Has; rw [hbegn, hfinn]; omega
  have hpar : ∀ n, n ≠ nw → s'.par n = nw ∧ s.par n = b ∨ s'.par n = s.par n := by
    intro n hn
    rw [hs.par n hn]
    by_cases hc : Live s n ∧ s.par n = b ∧ at' ≤ s.beg n
    · left; rw [if_pos hc]; exact ⟨rfl, hc.2.1⟩
    · right; rw [if_neg hc]
  have hold : ∀ n, Live s' n → n ≠ nw → Live s n := by
    intro n hn e
    rcases (hlive n).mp hn with hn | hn
    · exact hn
    · exact absurd hn e
  have hparnw : ∀ n, Live s n → s.par n ≠ nw := by
    intro n hn e
    exact hnw (e ▸ h.parLive n hn (by rw [e]; exact hnw0))
  constructor
  · intro hd hat
    rw [h.deepest_iff] at hd
    rw [h'.deepest_iff]
    have hba : Has s b addr := by
      rcases hd with ⟨e, _⟩ | ⟨_, hd, _⟩
      · exact absurd e hb0
      · exact hd
    apply h'.deepestAt_of_kids ((hlive nw).mpr (Or.inr rfl)) (hhn.mpr ⟨hba, hat⟩)
    intro x hx hxp hxa
    have hxn : x ≠ nw := fun e => by subst e; rw [hs.parNew] at hxp; exact hpbn hxp
    have hxl := hold x hx hxn
    rcases hpar x hxn with ⟨_, h1⟩ | h1
    · have hxb : x ≠ b := fun e => by subst e; exact hpbb h1
      exact hd.kid h hb0 hxl h1 ((hhas x hxb hxn).mp hxa)
    · rw [h1] at hxp
      exact hparnw x hxl hxp
  · intro hnot
    obtain ⟨r, e, hd⟩ := h.deepestAt addr
    rw [e] at hnot ⊢
    rw [h'.deepest_iff]
    by_cases hr0 : r = 0
    · subst hr0
      left
      refine ⟨rfl, ?_⟩
      have hno : ∀ n, Live s n → ¬ Has s n addr := by
        rcases hd with ⟨_, hd⟩ | ⟨hd, _⟩
        · exact hd
        · exact absurd rfl (h.ne0 hd)
      intro n hn hna
      by_cases e1 : n = nw
      · subst e1; exact hno b hb (hhn.mp hna).1
      · by_cases e2 : n = b
        · subst e2; exact hno n hb (hhb.mp hna).1
        · exact hno n (hold n hn e1) ((hhas n e2 e1).mp hna)
    · have hd' := hd
      rcases hd' with ⟨h0, _⟩ | ⟨h1, h2, _⟩
      · exact absurd h0 hr0
      · have hrn : r ≠ nw := fun e => hnw (e ▸ h1)
        by_cases hrb : r = b
        · subst hrb
          have hlt : addr < at' := by
            apply Nat.lt_of_not_le
            intro hle
            exact hnot ⟨rfl, hle⟩
          apply h'.deepestAt_of_kids ((hlive r).mpr (Or.inl hb)) (hhb.mpr ⟨h2, hlt⟩)
          intro x hx hxp hxa
          have hxn : x ≠ nw := fun e => by subst e; rw [hs.parNew] at hxp; exact hpbb hxp
          have hxl := hold x hx hxn
          rcases hpar x hxn with ⟨h3, _⟩ | h3
          · rw [h3] at hxp; exact hbn hxp.symm
          · rw [h3] at hxp
            have hxb : x ≠ r := fun e => by subst e; exact hpbb hxp
            exact hd.kid h hr0 hxl hxp ((hhas x hxb hxn).mp hxa)
        · apply h'.deepestAt_of_kids ((hlive r).mpr (Or.inl h1)) ((hhas r hrb hrn).mpr h2)
          intro x hx hxp hxa
          by_cases hxn : x = nw
          · subst hxn
            rw [hs.parNew] at hxp
            exact hd.kid h hr0 hb hxp (hhn.mp hxa).1
          · have hxl := hold x hx hxn
            rcases hpar x hxn with ⟨h3, _⟩ | h3
            · rw [h3] at hxp; exact hrn hxp.symm
            · rw [h3] at hxp
              by_cases hxb : x = b
              · subst hxb; exact hd.kid h hr0 hxl hxp (hhb.mp hxa).1
              · exact hd.kid h hr0 hxl hxp ((hhas x hxb hxn).mp hxa)

end Liballocs.PageIndex
