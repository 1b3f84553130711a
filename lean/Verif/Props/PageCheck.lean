import Verif.Proofs.PageCheckSplit
import Verif.Props.PageIndexFails
/-!
# The run-time checks of the table of big allocations
-/
namespace Liballocs.PageIndex

open Fill

/-! ## They pass -/

/-- **C163** An operation used as it should be does, in a build with all checks, what it does without: it completes, with the same state. -/
theorem checks_pass {c : Config} {align : Nat → Nat} {s : State} {op : Op} (hr : Reach c align s) (ha : Allowed c align s op) :
    ∃ s', applyC c align s op = some s' ∧ apply c align s op = some s' ∧ Reach c align s' := by
  obtain ⟨s', e, _⟩ := step_good (reach_good hr) ha
  exact ⟨s', by rw [applyC_eq (reach_good hr) ha]; exact e, e, Reach.step hr ha e⟩

/-- States reached by a history of operations used as they should be, each with its checks. -/
inductive ReachC (c : Config) (align : Nat → Nat) : State → Prop
  | boot {ptr size : Nat} {m : Meta} {s : State} : BootOk c ptr size → bootC c ptr size m = some s → ReachC c align s
  | step {s s' : State} {op : Op} : ReachC c align s → Allowed c align s op → applyC c align s op = some s' → ReachC c align s'

/-- **C163** The states reached are the same with checks as without, so that all that is shown about histories holds for a build with checks. -/
theorem reachC_iff {c : Config} {align : Nat → Nat} {s : State} : ReachC c align s ↔ Reach c align s := by
  constructor
  · intro h
    induction h with
    | boot ho e => exact Reach.boot ho (by rw [← bootC_eq ho]; exact e)
    | step _ ha e ih => exact Reach.step ih ha (by rw [← applyC_eq (reach_good ih) ha]; exact e)
  · intro h
    induction h with
    | boot ho e => exact ReachC.boot ho (by rw [bootC_eq ho]; exact e)
    | step hr ha e ih => exact ReachC.step ih ha (by rw [applyC_eq (reach_good hr) ha]; exact e)

/-- **C163** Between operations any slot can be checked, as `__liballocs_sanity_check_bigalloc` lets callers do. -/
theorem full_check_passes {c : Config} {align : Nat → Nat} {s : State} (hr : Reach c align s) (b : Nat) : checkOne c s b = some () := by
  obtain ⟨_, _, _, h⟩ := reach_good hr
  exact h.check b

/-- **C163** And the list of those without a parent. -/
theorem top_check_passes {c : Config} {align : Nat → Nat} {s : State} (hr : Reach c align s) : topCheck c s = some () := by
  obtain ⟨_, _, _, h⟩ := reach_good hr
  exact topCheck_ok h.tops_ok

/-! ## What they find -/

theorem holds_iff {b : Bool} : holds b = some () ↔ b = true := by cases b <;> simp [holds]

/-- Later in a list of siblings. -/
inductive Later (s : State) : Nat → Nat → Prop
  | next {x : Nat} : s.next x ≠ 0 → Later s x (s.next x)
  | more {x y : Nat} : s.next x ≠ 0 → Later s (s.next x) y → Later s x y

/-- The big allocations that a check of one looks at: itself, and the children, but for the first, of those looked at. -/
inductive Seen (s : State) : Nat → Nat → Prop
  | self {b : Nat} : Seen s b b
  | kid {b k y : Nat} : Live s b → s.first b ≠ 0 → Later s (s.first b) k → Seen s k y → Seen s b y

theorem bind_some_unit {α : Type} {o : Option α} {f : α → Option Unit} (h : o.bind f = some ()) : ∃ a, o = some a ∧ f a = some () := by
  cases o with
  | none => cases h
  | some a => exact ⟨a, rfl, h⟩

theorem kidsCheck_finds {c : Config} {s : State} {chk : Nat → Option Unit} {d : Nat} : ∀ {f x : Nat}, kidsCheck c s chk d f x = some () → x ≠ 0 →
    chk x = some () ∧ ∀ y, Later s x y → chk y = some () := by
  intro f
  induction f with
  | zero => intro x h; cases h
  | succ f ih =>
    intro x h hx
    rw [kidsCheck, if_neg hx] at h
    obtain ⟨e, _, h⟩ := bind_some_unit h
    obtain ⟨_, _, h⟩ := bind_some_unit h
    obtain ⟨_, h1, h⟩ := bind_some_unit h
    refine ⟨h1, ?_⟩
    intro y hy
    cases hy with
    | next hn => exact (ih h hn).1
    | more hn hl => exact (ih h hn).2 y hl

theorem fullCheck_seen {c : Config} {s : State} {b y : Nat} (hs : Seen s b y) : ∀ {f : Nat}, fullCheck c s f b = some () →
    ∃ f', fullCheck c s f' y = some () := by
  induction hs with
  | self => intro f h; exact ⟨f, h⟩
  | @kid b k y hl h0 hlat _ ih =>
    intro f h
    cases f with
    | zero => cases h
    | succ f =>
      rw [fullCheck, if_neg (by rw [live_iff.mpr hl]; simp)] at h
      obtain ⟨_, _, h⟩ := bind_some_unit h
      obtain ⟨_, _, h⟩ := bind_some_unit h
      unfold belowCheck at h
      rw [if_neg h0] at h
      obtain ⟨d, _, h⟩ := bind_some_unit h
      have hn : s.next (s.first b) ≠ 0 := by
        cases hlat with
        | next hn => exact hn
        | more hn _ => exact hn
      have hk := kidsCheck_finds h hn
      cases hlat with
      | next _ => exact ih hk.1
      | more _ hl => exact ih (hk.2 _ hl)

/-- **C163** What a check that passes says about each big allocation it looks at: it is not empty, the pages before and after it are not indexed as its own, and it lies in its
parent. -/
theorem check_finds {c : Config} {s : State} {b y : Nat} (hd : c.debug = true) (h : checkOne c s b = some ()) (hs : Seen s b y) (hy : Live s y) :
    s.beg y ≠ s.fin y ∧ (s.pidx ((s.beg y - 1) / 4096)).toNat ≠ y ∧ (s.pidx (s.fin y / 4096)).toNat ≠ y ∧
      (s.par y ≠ 0 → s.beg (s.par y) ≤ s.beg y ∧ s.fin y ≤ s.fin (s.par y)) := by
  unfold checkOne at h
  rw [if_pos hd] at h
  obtain ⟨f, h⟩ := fullCheck_seen hs h
  cases f with
  | zero => cases h
  | succ f =>
    rw [fullCheck, if_neg (by rw [live_iff.mpr hy]; simp)] at h
    obtain ⟨_, h1, _⟩ := bind_some_unit h
    have h1 := holds_iff.mp h1
    have h2 := sanityOk_elim hy h1
    unfold sanityOk at h1
    rw [live_iff.mpr hy] at h1
    simp only [Bool.not_true, Bool.false_or, Bool.and_eq_true, Bool.or_eq_true, bne_iff_ne, beq_iff_eq, decide_eq_true_eq, ne_eq] at h1
    refine ⟨fun e => h1.1.1.1 e.symm, h2.1, h2.2, ?_⟩
    intro hp
    rcases h1.2 with e | e
    · exact absurd e hp
    · exact e

/-! ### The list of those without a parent -/

/-- The nodes met on following links from one to the end. -/
def Chain (dir : Nat → Nat) : Nat → List Nat → Prop
  | x, [] => x = 0
  | x, y :: l => y = x ∧ x ≠ 0 ∧ Chain dir (dir x) l

theorem Chain.unique {dir : Nat → Nat} : ∀ {l m : List Nat} {x : Nat}, Chain dir x l → Chain dir x m → l = m
  | [], [], _, _, _ => rfl
  | [], _ :: _, _, h1, h2 => absurd h1 h2.2.1
  | _ :: _, [], _, h1, h2 => absurd h2 h1.2.1
  | _ :: _, _ :: _, _, h1, h2 => by rw [h1.1, h2.1, h1.2.2.unique h2.2.2]

theorem walk_chain {dir : Nat → Nat} {ok : Nat → Nat → Bool} : ∀ {f x : Nat} {l : List Nat}, walk dir ok f x = some l →
    Chain dir x l ∧ ∀ (i : Nat) (h : i + 1 < l.length), ok l[i] l[i + 1] = true := by
  intro f
  induction f with
  | zero => intro x l h; cases h
  | succ f ih =>
    intro x l h
    unfold walk at h
    split at h
    · next h0 =>
      obtain rfl := Option.some.inj h
      exact ⟨h0, fun i hi => absurd hi (by simp)⟩
    · next h0 =>
      split at h
      · cases h
      · next hok =>
        cases hw : walk dir ok f (dir x) with
        | none => rw [hw] at h; cases h
        | some m =>
          rw [hw] at h
          obtain rfl := Option.some.inj h
          obtain ⟨h1, h2⟩ := ih hw
          refine ⟨⟨rfl, h0, h1⟩, ?_⟩
          intro i hi
          cases i with
          | zero =>
            cases m with
            | nil => simp at hi
            | cons y m =>
              obtain ⟨e1, h3, _⟩ := h1
              simp only [List.getElem_cons_zero, List.getElem_cons_succ]
              rw [e1]
              cases e : ok x (dir x) with
              | true => rfl
              | false => exact absurd ⟨h3, e⟩ hok
          | succ i => simpa using h2 i (by simpa using hi)

/-- Following a list back to where it was entered. -/
theorem chain_back {next prev : Nat → Nat} (hinv : ∀ x, x ≠ 0 → prev x ≠ 0 → next (prev x) = x) : ∀ {l : List Nat} {x : Nat} {up : List Nat},
    Chain prev x l → l ≠ [] → Chain next (lastOf l) up → ∃ rest, Chain next x rest ∧ up = l.tail.reverse ++ rest := by
  intro l
  induction l with
  | nil => intro x up _ h; exact absurd rfl h
  | cons y l ih =>
    intro x up h _ hu
    obtain ⟨rfl, h0, h1⟩ := h
    cases l with
    | nil => exact ⟨up, hu, rfl⟩
    | cons z l =>
      obtain ⟨rest, h2, h3⟩ := ih h1 (by simp) hu
      obtain ⟨rfl, h4, _⟩ := h1
      cases rest with
      | nil => exact absurd h2 h4
      | cons w rest =>
        obtain ⟨rfl, _, h5⟩ := h2
        rw [hinv _ h0 h4] at h5
        exact ⟨rest, h5, by rw [h3]; simp⟩

/-- **C163 (partial)** If the links go both ways, then the check of the list of those without a parent passes only if following it from its first to its last meets exactly the
slots in use that have no parent, each begin above the one before. Missing: the check follows both kinds of links but does not compare them (`top_check_fails`). -/
theorem top_check_finds_partial {c : Config} {s : State} (hst : s.start ≠ 0) (hinv : ∀ x, x ≠ 0 → s.prev x ≠ 0 → s.next (s.prev x) = x) (h : topCheck c s = some ()) :
    ∃ first l, Chain s.next first l ∧ (∀ x, x ∈ l ↔ 0 < x ∧ x < c.nb ∧ Live s x ∧ s.par x = 0) ∧
      ∀ i (hi : i + 1 < l.length), s.beg l[i] < s.beg l[i + 1] := by
  unfold topCheck at h
  rw [if_neg hst] at h
  obtain ⟨back, e1, h⟩ := bind_some_unit h
  obtain ⟨fwd, e2, h⟩ := bind_some_unit h
  obtain ⟨_, e3, h⟩ := bind_some_unit h
  obtain ⟨up, e4, h⟩ := bind_some_unit h
  obtain ⟨_, e5, _⟩ := bind_some_unit h
  obtain ⟨c1, _⟩ := walk_chain e1
  obtain ⟨c2, _⟩ := walk_chain e2
  obtain ⟨c3, o3⟩ := walk_chain e4
  have hne : back ≠ [] := by
    intro e
    rw [e] at c1
    exact hst c1
  obtain ⟨rest, c4, eup⟩ := chain_back hinv c1 hne c3
  obtain rfl := c4.unique c2
  have hsub : ∀ x ∈ topSlots c s, x ∈ up := by
    intro x hx
    have h3 := holds_iff.mp e3
    rw [List.all_eq_true] at h3
    have h4 := h3 x hx
    simp only [List.contains_iff_mem, List.mem_append] at h4
    rw [eup, List.mem_append, List.mem_reverse]
    rcases h4 with h4 | h4
    · cases back with
      | nil => exact absurd rfl hne
      | cons y back =>
        rcases List.mem_cons.mp h4 with h5 | h5
        · right
          rw [h5, c1.1]
          cases rest with
          | nil => exact absurd c4 hst
          | cons z rest => rw [← c4.1]; exact List.mem_cons_self
        · exact Or.inl h5
    · exact Or.inr h4
  have hlen : up.length = (topSlots c s).length := by simpa using holds_iff.mp e5
  have hnd : (topSlots c s).Nodup := List.Pairwise.filter _ List.nodup_range'
  refine ⟨lastOf back, up, c3, ?_, fun i hi => by simpa [isBefore] using o3 i hi⟩
  intro x
  have htop : x ∈ topSlots c s ↔ 0 < x ∧ x < c.nb ∧ Live s x ∧ s.par x = 0 := by
    unfold topSlots
    rw [List.mem_filter, List.mem_range'_1]
    simp only [Bool.and_eq_true, beq_iff_eq, live_iff]
    constructor
    · rintro ⟨h1, h2⟩; exact ⟨by omega, by omega, h2⟩
    · rintro ⟨h1, h2, h3⟩; exact ⟨by omega, h3⟩
  rw [← htop]
  refine ⟨?_, hsub x⟩
  intro hx
  by_cases hm : x ∈ topSlots c s
  · exact hm
  · have := nodup_subset_length (l := topSlots c s) (m := up.erase x) hnd (by
      intro y hy
      exact (List.mem_erase_of_ne (fun (e : y = x) => hm (e ▸ hy))).mpr (hsub y hy))
    rw [List.length_erase_of_mem hx] at this
    have := List.length_pos_of_mem hx
    omega

/-! ## What is checked where -/

section
variable {c : Config} (hd : c.debug = false)
include hd

theorem checkOne_release (s : State) (b : Nat) : checkOne c s b = some () := by simp [checkOne, hd]

theorem findFreeC_release (s : State) (l : List Nat) : findFreeC c s l = l.find? (fun i => !inUse s i) := by
  induction l with
  | nil => rfl
  | cons p l ih =>
    cases h : inUse s p <;> simp [findFreeC, checkOne_release hd, h, ih, List.find?]

theorem addChildC_release (s : State) (x y : Nat) : addChildC c s x y = addChild c s x y := by
  simp [addChildC, checkOne_release hd]

theorem unlinkChildC_release (s : State) (x : Nat) : unlinkChildC c s x = unlinkChild c s x := by
  unfold unlinkChildC
  cases h : (s.par x == 0)
  · simp [checkOne_release hd, abortIf]
  · simp [unlinkChild, abortIf, h]

theorem initNomemsetC_release (s : State) (b ptr size parent : Nat) (m : Meta) : initNomemsetC c s b ptr size parent m = initNomemset c s b ptr size parent m := by
  simp only [initNomemsetC, initNomemset, linkIn, checkTops, hd, addChildC_release hd, checkOne_release hd]
  simp

theorem newBigallocC_release (s : State) (ptr size p : Nat) (m : Meta) : newBigallocC c s ptr size p m = newBigalloc c s ptr size p m := by
  have h1 : ∀ b m, bigallocInitC c s b ptr size p m = bigallocInit c s b ptr size p m := by
    intro b m; simp [bigallocInitC, bigallocInit, initNomemsetC_release hd, checkOne_release hd, Option.bind_eq_bind]
  have h1 : ∀ b p m, bigallocInitC c s b ptr size p m = bigallocInit c s b ptr size p m := by
    intro b p m; simp [bigallocInitC, bigallocInit, initNomemsetC_release hd, checkOne_release hd, Option.bind_eq_bind]
  have h2 : ∀ b, checkIf c s b = some () := by intro b; unfold checkIf; split <;> simp [checkOne_release hd]
  simp [newBigallocC, newBigalloc, bigallocNewC, bigallocNew, findFreeC_release hd, findFree, h1, h2, checkOne_release hd, Option.bind_eq_bind]

theorem delSelfC_release (s : State) (b : Nat) : delSelfC c s b = delSelf c s b := by
  have : ∀ s, unlinkC c s b = unlink c s b := by intro s; simp [unlinkC, unlink, unlinkChildC_release hd]
  simp [delSelfC, delSelf, this, checkOne_release hd, assertIf, hd, Option.bind_eq_bind]

theorem delC_release : ∀ f s b, delC c f s b = del c f s b := by
  intro f
  induction f with
  | zero => intros; rfl
  | succ f ih =>
    intro s b
    have : delC c f = del c f := by funext s b; exact ih s b
    simp [delC, del, this, checkOne_release hd, delSelfC_release hd]

theorem delRangeC_release : ∀ f s lo hi, delRangeC c f s lo hi = delRange c f s lo hi := by
  intro f
  induction f with
  | zero => intros; rfl
  | succ f ih =>
    intro s lo hi
    have h : ∀ u, delHitC c s u = delHit c s u := by intro u; simp [delHitC, delHit, bigallocDelC, bigallocDel, delC_release hd]; rfl
    simp only [delRangeC, delRange, h, ih]

theorem thenCheck_release (b : Nat) (r : Option State) : thenCheck c b r = r := by simp [thenCheck, checkOne_release hd]

theorem preExtendRecC_release {align : Nat → Nat} : ∀ f s b nb, preExtendRecC c align f s b nb = preExtendRec c align f s b nb := by
  intro f
  induction f with
  | zero => intros; rfl
  | succ f ih =>
    intro s b nb
    simp [preExtendRecC, preExtendRec, ih, preExtendC, thenCheck_release hd, checkOne_release hd]

theorem moveKidsC_release (b nw a : Nat) : ∀ f s ch, moveKidsC c b nw a f s ch = moveKids c b nw a f s ch := by
  intro f
  induction f with
  | zero => intros; rfl
  | succ f ih =>
    intro s ch
    have : moveKidC c s b nw a ch = moveKid c s b nw a ch := by
      simp [moveKidC, moveKid, unlinkChildC_release hd, addChildC_release hd]
    simp [moveKidsC, moveKids, ih, this]

/-- In a build without assertions no operation checks anything, whatever the table holds. -/
theorem release_same (align : Nat → Nat) (s : State) (op : Op) : applyC c align s op = apply c align s op := by
  cases op with
  | new => simp [applyC, apply, newBigallocC_release hd]
  | setSub => rfl
  | del => simp [applyC, apply, bigallocDelC, bigallocDel, delC_release hd]
  | deleteAt => simp [applyC, apply, deleteAtC, deleteAt, bigallocDelC, bigallocDel, delC_release hd]; rfl
  | deleteRange => simp [applyC, apply, delRangeC_release hd]
  | extend => simp [applyC, apply, extendC, thenCheck_release hd]
  | preExtend => simp [applyC, apply, preExtendC, thenCheck_release hd, checkOne_release hd]
  | preExtendUp => simp [applyC, apply, preExtendRecC_release hd]
  | truncEnd => simp [applyC, apply, truncEndC, thenCheck_release hd]
  | truncBegin => simp [applyC, apply, truncBeginC, thenCheck_release hd]
  | split => simp [applyC, apply, splitC, split, findFreeC_release hd, findFree, initNomemsetC_release hd, moveKidsC_release hd, thenCheck_release hd, Option.bind_eq_bind]
end

theorem setPages_links {c : Config} {s s' : State} {lo hi n o : Nat} (h : setPages c s lo hi n o = some s') : ∃ p, s' = { s with pidx := p } := by
  unfold setPages at h
  rw [Option.map_eq_some_iff] at h
  obtain ⟨p, _, e⟩ := h
  exact ⟨p, e.symm⟩

theorem topCheck_pidx {c : Config} {s : State} (p : Fill.PIdx) : topCheck c { s with pidx := p } = topCheck c s := rfl

/-- In a build with assertions, creation from any table, damaged or not, either stops the program or leaves what the checks look for: the new big allocation passes its check, and so did the
parent before it; a new one at top level is made only if the top-level list passes its own. -/
theorem new_checked {c : Config} {s s' : State} {ptr size mp b : Nat} {m : Meta} (hd : c.debug = true) (h : newBigallocC c s ptr size mp m = some (s', b)) :
    checkOne c s' b = some () ∧ (s'.par b = 0 → topCheck c s' = some ()) ∧
    (∀ p, chooseParent c s ptr size mp = some p → p ≠ 0 → checkOne c s p = some ()) := by
  simp only [newBigallocC, Option.bind_eq_some_iff] at h
  obtain ⟨_, _, p, hp, _, hi, r, hn, _, hc, e⟩ := h
  cases e
  simp only [bigallocNewC, Option.bind_eq_some_iff] at hn
  obtain ⟨b', _, s1, hb, e⟩ := hn
  cases e
  simp only [bigallocInitC, Option.bind_eq_some_iff] at hb
  obtain ⟨s0, h0, s2, hs, _, _, e⟩ := hb
  cases e
  obtain ⟨pi, e⟩ := setPages_links hs
  simp only [initNomemsetC, Option.bind_eq_some_iff] at h0
  obtain ⟨s3, hl, _, _, _, ht, e3⟩ := h0
  cases e3
  refine ⟨hc, fun h0 => ?_, fun q hq hne => ?_⟩
  · have : s0.par b = 0 := by rw [e] at h0; exact h0
    rw [e, topCheck_pidx]
    simpa [checkTops, this, hd] using ht
  · rw [hp] at hq
    cases hq
    simpa [checkIf, hne] using hi

/-! ## Concrete cases -/

/-- A history with checks. -/
def runC (c : Config) (ops : List Op) : Option State :=
  (bootC c 0x1000000 0x10000 ⟨1, 0, 0, 0, 0, 0⟩).bind (ops.foldlM (fun s op => applyC c (fun _ => 0) s op))

/-- Is the history accepted, without and with the checks? -/
def accepted (ops : List Op) : Bool × Bool := ((run dbg ops).isSome, (runC dbg ops).isSome)

example : accepted (nested ++ [.split 3 0x13000, .extend 5 0x15000, mk 0x30000 0x40000, .deleteRange 0x12000 0x31000]) = (true, true) := by decide +kernel

/-- Growth of what begins in the middle of a page is stopped by the checks, as is shrinking away from an older child. -/
example : accepted [mk 0x10000 0x20000, mk 0x12800 0x12900, .extend 3 0x14000] = (true, false) ∧
    accepted [mk 0x10000 0x20000, mk 0x18800 0x18900, mk 0x11000 0x12000, .truncEnd 2 0x14000] = (true, false) ∧
    accepted [mk 0x10000 0x20000, mk 0x17800 0x18800, mk 0x11000 0x12000, .split 2 0x18000] = (true, false) := by decide +kernel

/-- The second of two children is looked at. -/
example : ∃ s, run dbg [mk 0x10000 0x20000, mk 0x18800 0x18900, mk 0x11000 0x12000] = some s ∧ Seen s 2 3 ∧ ¬ s.first 2 = 3 := by
  obtain ⟨s, e, h1, h2, h3⟩ := of_after (c := dbg) (ops := [mk 0x10000 0x20000, mk 0x18800 0x18900, mk 0x11000 0x12000])
    (P := fun s => inUse s 2 = true ∧ s.first 2 = 4 ∧ s.next 4 = 3) (by decide +kernel)
  refine ⟨s, e, Seen.kid (live_iff.mp h1) (by rw [h2]; decide) ?_ Seen.self, by rw [h2]; decide⟩
  rw [h2]
  have := Later.next (s := s) (x := 4) (by rw [h3]; decide)
  rwa [h3] at this

/-- **C163 fails** The check of a big allocation does not look at its first child, which is the one made last: what shrinks away from it, or is split within it, passes in a build with
checks, with the child outside its parent, and the next check of the child itself fails. -/
theorem first_child_fails :
    (∃ s, runC dbg [mk 0x10000 0x20000, mk 0x18800 0x18900, .truncEnd 2 0x14000] = some s ∧ inUse s 3 = true ∧ s.par 3 = 2 ∧ s.fin 2 < s.beg 3 ∧
      checkOne dbg s 2 = some () ∧ checkOne dbg s 3 = none) ∧
    (∃ s, runC dbg [mk 0x10000 0x20000, mk 0x17800 0x18800, .split 2 0x18000] = some s ∧ inUse s 3 = true ∧ s.par 3 = 2 ∧ s.fin 2 < s.fin 3) := by
  constructor
  · have h : (runC dbg [mk 0x10000 0x20000, mk 0x18800 0x18900, .truncEnd 2 0x14000]).any (fun s => decide (inUse s 3 = true ∧ s.par 3 = 2 ∧ s.fin 2 < s.beg 3 ∧
      checkOne dbg s 2 = some () ∧ checkOne dbg s 3 = none)) = true := by decide +kernel
    rw [Option.any_eq_true] at h
    obtain ⟨s, e, h⟩ := h
    exact ⟨s, e, of_decide_eq_true h⟩
  · have h : (runC dbg [mk 0x10000 0x20000, mk 0x17800 0x18800, .split 2 0x18000]).any (fun s => decide (inUse s 3 = true ∧ s.par 3 = 2 ∧ s.fin 2 < s.fin 3)) = true := by
      decide +kernel
    rw [Option.any_eq_true] at h
    obtain ⟨s, e, h⟩ := h
    exact ⟨s, e, of_decide_eq_true h⟩

/-- **C163 fails** The checks accept a big allocation made over an older sibling. -/
theorem overlap_checked_fails : ∃ s, runC dbg [mk 0x10000 0x20000, mk 0x12800 0x12900, mk 0x11000 0x14000] = some s ∧
    liveHas s 3 0x12880 = true ∧ liveHas s 4 0x12880 = true ∧ s.par 3 = s.par 4 := by
  have h : (runC dbg [mk 0x10000 0x20000, mk 0x12800 0x12900, mk 0x11000 0x14000]).any (fun s => decide (liveHas s 3 0x12880 = true ∧ liveHas s 4 0x12880 = true ∧
    s.par 3 = s.par 4)) = true := by decide +kernel
  rw [Option.any_eq_true] at h
  obtain ⟨s, e, h⟩ := h
  exact ⟨s, e, of_decide_eq_true h⟩

/-- Three big allocations of one page each and a fourth, a child of the first. Forwards the list goes from 1 through 4 to 3, backwards from 3 through 2 to 1. -/
def crooked : State :=
  { State.init with
    beg := fun i => if i = 0 ∨ 4 < i then 0 else if i = 4 then 0x1800 else 0x1000 * i
    fin := fun i => if i = 0 ∨ 4 < i then 0 else if i = 4 then 0x1900 else 0x1000 * i + 0x1000
    first := fun i => if i = 1 then 4 else 0
    par := fun i => if i = 4 then 1 else 0
    next := fun i => if i = 1 then 4 else if i = 4 then 3 else 0
    prev := fun i => if i = 3 then 2 else if i = 2 then 1 else 0
    start := 3 }

/-- **C163 fails** The list is checked in both directions but the directions are not compared: here following it forwards meets a child instead of a big allocation without a parent,
and the check passes. -/
theorem top_check_fails : topCheck dbg crooked = some () ∧ Chain crooked.next 1 [1, 4, 3] ∧ crooked.par 4 = 1 ∧ Live crooked 2 ∧ crooked.par 2 = 0 := by
  refine ⟨by decide +kernel, ?_, by decide, by decide, by decide⟩
  exact ⟨rfl, by decide, rfl, by decide, rfl, by decide, rfl⟩

end Liballocs.PageIndex
