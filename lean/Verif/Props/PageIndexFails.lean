import Verif.Props.PageIndex
/-!
# Big allocations: concrete histories, and what goes wrong outside the callers' obligations

Every history here is accepted by the library without abort: `dbg` histories also pass all assertions, `rel` is the build
without assertions.
-/
namespace Liballocs.PageIndex

open Fill

/-- A history: the first big allocation (the library's heap, slot 1, [0x1000000, 0x1010000)), then some operations. -/
def run (c : Config) (ops : List Op) : Option State :=
  (boot c 0x1000000 0x10000 ⟨1, 0, 0, 0, 0, 0⟩).bind (ops.foldlM (fun s op => apply c (fun _ => 0) s op))

/-- A build with assertions and one without. -/
def dbg : Config := ⟨true, 0x1000, 8⟩
def rel : Config := ⟨false, 0x1000, 8⟩

/-- Ask something of the state a history leads to. -/
def after {α : Type} (c : Config) (ops : List Op) (f : State → Option α) : Option α := (run c ops).bind f

/-- Create with allocator 2, parent found. -/
def mk (lo hi : Nat) : Op := .new lo (hi - lo) 0 ⟨2, 0, 7, 8, 0, 0⟩

/-! ## Concrete cases -/

/-- Nested big allocations, with partial pages. -/
def nested : List Op := [mk 0x10000 0x20000, mk 0x11800 0x13800, mk 0x12000 0x12040]

example : after dbg nested (fun s => deepest dbg s 0x12020) = some 4 := by decide +kernel
example : after dbg nested (fun s => deepest dbg s 0x12040) = some 3 := by decide +kernel
example : after dbg nested (fun s => deepest dbg s 0x11801) = some 3 := by decide +kernel
example : after dbg nested (fun s => deepest dbg s 0x117ff) = some 2 := by decide +kernel
example : after dbg nested (fun s => deepest dbg s 0x20000) = some 0 := by decide +kernel
example : after dbg (nested ++ [.del 3]) (fun s => deepest dbg s 0x12020) = some 2 := by decide +kernel
example : after dbg (nested ++ [.del 3]) (fun s => some s.log) = some [Call.priv 4 8 7, Call.priv 3 8 7] := by decide +kernel
example : after dbg (nested ++ [.extend 3 0x15800]) (fun s => deepest dbg s 0x15000) = some 3 := by decide +kernel
example : after dbg (nested ++ [.split 3 0x13000]) (fun s => deepest dbg s 0x13400) = some 5 := by decide +kernel
example : after dbg (nested ++ [mk 0x30000 0x40000, .deleteRange 0x12000 0x31000]) (fun s => (List.range 8).filter (inUse s)) = some [1] := by decide +kernel

/-! ## The obligations can be met -/

/-- A check of the obligations of a creation without given parent, over the slots there are. -/
def newOkB (c : Config) (s : State) (lo size : Nat) : Bool :=
  decide (lo ≠ 0 ∧ 0 < size ∧ size ≤ c.maxPages * PAGE) && (List.range c.nb).any (fun b => decide (b ≠ 0) && !inUse s b) &&
  (List.range c.nb).all (fun n => !inUse s n || decide ((s.beg n ≤ lo ∧ lo + size ≤ s.fin n) ∨ s.fin n ≤ lo ∨ lo + size ≤ s.beg n)) &&
  ((List.range c.nb).any (fun n => inUse s n && spans s n lo) || decide (lo % PAGE = 0 ∧ (lo + size) % PAGE = 0))

theorem newOk_of_check {c : Config} {align : Nat → Nat} {s : State} (hr : Reach c align s) {lo size : Nat} (h : newOkB c s lo size = true) :
    NewOk c s lo size 0 := by
  obtain ⟨_, kids, rank, hi⟩ := reach_good hr
  simp only [newOkB, Bool.and_eq_true, decide_eq_true_eq, List.any_eq_true, List.all_eq_true, List.mem_range, Bool.or_eq_true,
    Bool.not_eq_true', ne_eq] at h
  obtain ⟨⟨⟨h1, ⟨b, hb1, hb2, hb3⟩⟩, h3⟩, h4⟩ := h
  refine ⟨h1.1, h1.2.1, h1.2.2, ⟨b, hb2, hb1, fun hl => by rw [live_iff.mpr hl] at hb3; cases hb3⟩, fun e => absurd rfl e, fun _ => ⟨?_, ?_⟩⟩
  · intro n hn
    rcases h3 n (hi.lt n hn) with h5 | h5
    · rw [live_iff.mpr hn] at h5; cases h5
    · exact h5
  · intro hno
    rcases h4 with ⟨n, _, h5, h6⟩ | h4
    · exact absurd (by simpa [spans, Has] using h6) (hno n (live_iff.mp h5))
    · exact h4

/-- Creations that pass the check are allowed. -/
def checkNew (c : Config) : List (Nat × Nat) → State → Bool
  | [], _ => true
  | (lo, hi) :: l, s => newOkB c s lo (hi - lo) && (match apply c (fun _ => 0) s (mk lo hi) with
    | none => false
    | some s' => checkNew c l s')

theorem reach_of_check {c : Config} : ∀ (l : List (Nat × Nat)) {s : State}, Reach c (fun _ => 0) s → checkNew c l s = true →
    ∃ s', (l.map (fun x => mk x.1 x.2)).foldlM (fun s op => apply c (fun _ => 0) s op) s = some s' ∧ Reach c (fun _ => 0) s'
  | [], s, hr, _ => ⟨s, rfl, hr⟩
  | (lo, hi) :: l, s, hr, h => by
    simp only [checkNew, Bool.and_eq_true] at h
    obtain ⟨h1, h2⟩ := h
    have ha : Allowed c (fun _ => 0) s (mk lo hi) := newOk_of_check hr h1
    cases e : apply c (fun _ => 0) s (mk lo hi) with
    | none => rw [e] at h2; cases h2
    | some s1 =>
      rw [e] at h2
      obtain ⟨s', e', hr'⟩ := reach_of_check l (Reach.step hr ha e) h2
      refine ⟨s', ?_, hr'⟩
      rw [List.map_cons, List.foldlM_cons, e]
      exact e'

/-- The state after the nested creations is one the theorems are about. -/
theorem nested_reach : ∃ s, run dbg nested = some s ∧ Reach dbg (fun _ => 0) s := by
  obtain ⟨s0, e0, hr0⟩ := history_starts (c := dbg) (align := fun _ => 0) (ptr := 0x1000000) (size := 0x10000) ⟨1, 0, 0, 0, 0, 0⟩
    ⟨by decide, by decide, by decide, by decide, by decide⟩
  have hc : ((boot dbg 0x1000000 0x10000 ⟨1, 0, 0, 0, 0, 0⟩).map
      (checkNew dbg [(0x10000, 0x20000), (0x11800, 0x13800), (0x12000, 0x12040)])) = some true := by decide +kernel
  rw [e0] at hc
  obtain ⟨s, e, hr⟩ := reach_of_check _ hr0 (Option.some.inj hc)
  refine ⟨s, ?_, hr⟩
  have hn : nested = [(0x10000, 0x20000), (0x11800, 0x13800), (0x12000, 0x12040)].map (fun x => mk x.1 x.2) := rfl
  rw [run, e0, Option.bind_some, hn]
  exact e

/-! ## What goes wrong -/

/-- Is the slot live and does its range contain the address? -/
def liveHas (s : State) (n a : Nat) : Bool := inUse s n && spans s n a

/-- From a decided fact about the state after a history. -/
theorem of_after {c : Config} {ops : List Op} {P : State → Prop} [DecidablePred P]
    (h : after c ops (fun s => some (decide (P s))) = some true) : ∃ s, run c ops = some s ∧ P s := by
  unfold after at h
  cases e : run c ops with
  | none => rw [e] at h; cases h
  | some s => rw [e] at h; exact ⟨s, rfl, of_decide_eq_true (Option.some.inj h)⟩

/-- A big allocation made over an existing small one becomes its sibling: they overlap, and the lookup of an address in the
small one gives the other, although neither is inside the other in the forest. The consistency checks pass. -/
theorem overlap_accepted_fails : ∃ s, run dbg [mk 0x10000 0x20000, mk 0x12800 0x12900, mk 0x11000 0x14000] = some s ∧
    (List.range 8).all (sanityOk s) = true ∧
    liveHas s 3 0x12880 = true ∧ liveHas s 4 0x12880 = true ∧ s.par 3 = s.par 4 ∧ deepest dbg s 0x12880 = some 4 :=
  of_after (by decide +kernel)

/-- A small big allocation beginning in the middle of a page is given that whole page when it
grows, so the lookup of an address before it gives it. -/
theorem extend_page_fails : ∃ s, run rel [mk 0x10000 0x20000, mk 0x12800 0x12900, .extend 3 0x14000] = some s ∧
    liveHas s 2 0x12100 = true ∧ liveHas s 3 0x12100 = false ∧ deepest rel s 0x12100 = some 3 :=
  of_after (by decide +kernel)

/-- Shrinking gives the page of the new end to the parent even if the parent begins in the middle of that page. -/
theorem truncEnd_page_fails : ∃ s, run rel [mk 0x10000 0x20000, mk 0x12400 0x16000, mk 0x12800 0x14000, .truncEnd 4 0x12900] = some s ∧
    liveHas s 2 0x12100 = true ∧ liveHas s 3 0x12100 = false ∧ deepest rel s 0x12100 = some 3 :=
  of_after (by decide +kernel)

/-- Likewise at the beginning. -/
theorem truncBegin_page_fails : ∃ s, run rel [mk 0x10000 0x20000, mk 0x11000 0x12c00, mk 0x11000 0x12900, .truncBegin 4 0x12800] = some s ∧
    liveHas s 2 0x12d00 = true ∧ liveHas s 3 0x12d00 = false ∧ deepest rel s 0x12d00 = some 3 :=
  of_after (by decide +kernel)

/-- Truncation does not look at children: one beyond the new end stays and is outside its parent. -/
theorem truncEnd_child_fails : ∃ s, run rel [mk 0x10000 0x20000, mk 0x18800 0x18900, .truncEnd 2 0x14000] = some s ∧
    inUse s 3 = true ∧ s.par 3 = 2 ∧ s.fin 2 < s.beg 3 ∧ deepest rel s 0x18880 = some 0 :=
  of_after (by decide +kernel)

/-- Splitting at a boundary inside a child leaves the child in the first half, reaching beyond it. -/
theorem split_child_fails : ∃ s, run rel [mk 0x10000 0x20000, mk 0x17800 0x18800, .split 2 0x18000] = some s ∧
    inUse s 3 = true ∧ s.par 3 = 2 ∧ s.fin 2 < s.fin 3 ∧ liveHas s 3 0x18400 = true ∧ deepest rel s 0x18400 = some 4 :=
  of_after (by decide +kernel)

/-- With no mapping beginning below the address, the query for the mapping at or above finds nothing. -/
theorem mapping_at_or_above_fails : ∃ s, run rel [mk 0x10000 0x20000] = some s ∧
    mappingAtOrAbove rel s 0x8000 = some 0 ∧ inUse s 2 = true ∧ s.par 2 = 0 ∧ 0x8000 < s.beg 2 ∧
    mappingAtOrAbove rel s 0x10000 = some 0 :=
  of_after (by decide +kernel)

/-- Two grandchildren of one big allocation, by different children of it: no common parent is found. -/
theorem common_parent_fails : ∃ s, run rel [mk 0x10000 0x20000, mk 0x11000 0x12000, mk 0x13000 0x14000, mk 0x11100 0x11200, mk 0x13100 0x13200] = some s ∧
    s.par (s.par 5) = 2 ∧ s.par (s.par 6) = 2 ∧ commonParent rel s 5 6 = some 0 :=
  of_after (by decide +kernel)

/-- Deletion of what overlaps a range that begins in the middle of a page misses a mapping that begins in the range. -/
theorem delete_range_fails : ∃ s, run rel [mk 0x12000 0x13000, .deleteRange 0x11800 0x12400] = some s ∧ liveHas s 2 0x12000 = true :=
  of_after (by decide +kernel)

/-- A big allocation may grow beyond the size that can be deleted: the deletion aborts. -/
theorem delete_grown_fails : (∃ s, run ⟨true, 0x20, 8⟩ [mk 0x10000 0x20000, .extend 2 0x38000, .extend 2 0x50000] = some s ∧ inUse s 2 = true) ∧
    run ⟨true, 0x20, 8⟩ [mk 0x10000 0x20000, .extend 2 0x38000, .extend 2 0x50000, .del 2] = none := by
  refine ⟨of_after (by decide +kernel), ?_⟩
  have h : (run ⟨true, 0x20, 8⟩ [mk 0x10000 0x20000, .extend 2 0x38000, .extend 2 0x50000, .del 2]).isNone = true := by decide +kernel
  exact Option.isNone_iff_eq_none.mp h

end Liballocs.PageIndex
