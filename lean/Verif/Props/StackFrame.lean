import Verif.Model.StackFrame
/-!
# A stack query reports the frame containing the address (C48)
-/
namespace Liballocs.StackFrame

/-! ## Specification -/

/-- What a frame's code says its description is: the area `[base, base + size)`, `type`. A frame's base is its caller's stack
pointer. -/
def Describes (tbl : List Entry) (ip callerSp : Nat) (base : Int) (size ty : Nat) : Prop :=
  ∃ e : Entry, e ∈ tbl ∧ e.vaddr ≤ ip ∧ (∀ e' ∈ tbl, e'.vaddr ≤ ip → e'.vaddr ≤ e.vaddr) ∧ e.type = some ty ∧
    e.size = size ∧ base = callerSp - e.off

/-- The frame is in the chain and has a caller with the given stack pointer (`top` for the last). -/
def FrameIn (top : Nat) : List Frame → Frame → Nat → Prop
  | [], _, _ => False
  | [f], x, s => x = f ∧ s = top
  | f :: g :: rest, x, s => (x = f ∧ s = g.sp) ∨ FrameIn top (g :: rest) x s

def SortedTbl (tbl : List Entry) : Prop := tbl.Pairwise (fun e e' => e.vaddr < e'.vaddr)

theorem search_spec : ∀ (tbl : List Entry), SortedTbl tbl → ∀ (v : Nat) (e : Entry), searchLeq tbl v = some e →
    e ∈ tbl ∧ e.vaddr ≤ v ∧ ∀ e' ∈ tbl, e'.vaddr ≤ v → e'.vaddr ≤ e.vaddr := by
  intro tbl
  unfold searchLeq
  induction tbl with
  | nil => intro _ v e h; simp at h
  | cons q tbl ih =>
    intro ht v e h
    obtain ⟨hq, ht'⟩ := List.pairwise_cons.mp ht
    by_cases hv : q.vaddr ≤ v
    · rw [List.filter_cons_of_pos (by simpa using hv), List.getLast?_cons] at h
      cases hl : (tbl.filter (fun e => decide (e.vaddr ≤ v))).getLast? with
      | none =>
        rw [hl] at h
        simp only [Option.getD_none, Option.some.injEq] at h
        subst h
        refine ⟨List.mem_cons_self, hv, ?_⟩
        intro e' he' hle
        rcases List.mem_cons.mp he' with rfl | he'
        · omega
        · rw [List.getLast?_eq_none_iff, List.filter_eq_nil_iff] at hl
          exact absurd hle (by simpa using hl e' he')
      | some x =>
        rw [hl] at h
        simp only [Option.getD_some, Option.some.injEq] at h
        subst h
        obtain ⟨h1, h2, h3⟩ := ih ht' v x hl
        refine ⟨List.mem_cons_of_mem _ h1, h2, ?_⟩
        intro e' he' hle
        rcases List.mem_cons.mp he' with rfl | he'
        · have := hq x h1; omega
        · exact h3 e' he' hle
    · rw [List.filter_cons_of_neg (by simpa using hv)] at h
      obtain ⟨h1, h2, h3⟩ := ih ht' v e h
      refine ⟨List.mem_cons_of_mem _ h1, h2, ?_⟩
      intro e' he' hle
      rcases List.mem_cons.mp he' with rfl | he'
      · exact absurd hle hv
      · exact h3 e' he' hle

theorem sorted_unique {tbl : List Entry} (ht : SortedTbl tbl) {e e' : Entry} (h : e ∈ tbl) (h' : e' ∈ tbl)
    (hv : e.vaddr = e'.vaddr) : e = e' := by
  induction tbl with
  | nil => simp at h
  | cons q tbl ih =>
    obtain ⟨hq, ht'⟩ := List.pairwise_cons.mp ht
    rcases List.mem_cons.mp h with h1 | h1 <;> rcases List.mem_cons.mp h' with h2 | h2
    · rw [h1, h2]
    · have := hq _ h2; rw [← h1] at this; omega
    · have := hq _ h1; rw [← h2] at this; omega
    · exact ih ht' h1 h2

theorem search_none {tbl : List Entry} {v : Nat} (h : searchLeq tbl v = none) : ∀ e ∈ tbl, ¬ e.vaddr ≤ v := by
  intro e he hv
  unfold searchLeq at h
  rw [List.getLast?_eq_none_iff, List.filter_eq_nil_iff] at h
  exact absurd hv (by simpa using h e he)

/-- The lookup agrees with the independent description. -/
theorem pcDesc_iff {tbl : List Entry} (ht : SortedTbl tbl) (ip hsp : Nat) (base : Int) (size ty : Nat) :
    Describes tbl ip hsp base size ty ↔ ∃ off, pcDesc tbl ip = some (ty, size, off) ∧ base = hsp - off := by
  unfold pcDesc
  constructor
  · rintro ⟨e, he, hv, hmax, hty, hs, hb⟩
    cases hl : searchLeq tbl ip with
    | none => exact absurd hv (search_none hl e he)
    | some x =>
      obtain ⟨h1, h2, h3⟩ := search_spec tbl ht ip x hl
      have hxe : x = e := sorted_unique ht h1 he (Nat.le_antisymm (hmax x h1 h2) (h3 e he hv))
      subst hxe
      exact ⟨x.off, by simp [hty, hs], hb⟩
  · rintro ⟨off, h, hb⟩
    cases hl : searchLeq tbl ip with
    | none => rw [hl] at h; simp at h
    | some x =>
      rw [hl] at h
      obtain ⟨h1, h2, h3⟩ := search_spec tbl ht ip x hl
      simp only [Option.map_eq_some_iff, Prod.mk.injEq] at h
      obtain ⟨t, ht', rfl, rfl, rfl⟩ := h
      exact ⟨x, h1, h2, h3, ht', rfl, hb⟩

theorem visit_ok {tbl obj ip hsp skip base size ty site} (h : visit tbl obj ip hsp skip = some (.ok base size ty site)) :
    ∃ off, pcDesc tbl ip = some (ty, size, off) ∧ base = hsp - off ∧ site = ip ∧ base ≤ obj ∧ obj < base + size := by
  unfold visit at h
  split at h
  · simp at h
  · split at h
    · simp at h
    · rename_i t z o hd
      split at h
      · rename_i hc
        simp only [Option.some.injEq, Res.ok.injEq] at h
        obtain ⟨rfl, rfl, rfl, rfl⟩ := h
        exact ⟨o, hd, rfl, rfl, hc.1, hc.2⟩
      · split at h
        · cases h
        · cases h

/-- **C48.** Whatever the chain of frames, the registers, the way unwinding ends and the (sorted) descriptions: when a query
succeeds, the reported area is the described area of a frame of the chain, contains the address, and has that frame's type
and code address. -/
theorem frame_query_sound (tbl : List Entry) (ht : SortedTbl tbl) (top : Nat) (fin : Fin) (obj : Nat) (fs : List Frame)
    (base : Int) (size ty site : Nat) (h : getInfo tbl top fin obj fs = .ok base size ty site) :
    base ≤ obj ∧ obj < base + size ∧
    ∃ f s, FrameIn top fs f s ∧ site = f.ip ∧ Describes tbl f.ip s base size ty := by
  unfold getInfo at h
  generalize (0 : Nat) = old at h
  induction fs generalizing old with
  | nil => simp [walk] at h
  | cons f fs ih =>
    cases fs with
    | nil =>
      cases fin with
      | bad => simp [walk] at h
      | done =>
        simp only [walk] at h
        cases hv : visit tbl obj f.ip top (decide (top < obj)) with
        | none => rw [hv] at h; simp at h
        | some r =>
          rw [hv] at h
          simp only at h
          subst h
          obtain ⟨off, h1, h2, h3, h4, h5⟩ := visit_ok hv
          exact ⟨h4, h5, f, top, ⟨rfl, rfl⟩, h3, (pcDesc_iff ht _ _ _ _ _).mpr ⟨off, h1, h2⟩⟩
    | cons g rest =>
      rw [walk] at h
      cases hv : visit tbl obj f.ip g.sp (skips (bpVar old f.bp) g.bp obj) with
      | some r =>
        rw [hv] at h
        simp only at h
        subst h
        obtain ⟨off, h1, h2, h3, h4, h5⟩ := visit_ok hv
        exact ⟨h4, h5, f, g.sp, Or.inl ⟨rfl, rfl⟩, h3, (pcDesc_iff ht _ _ _ _ _).mpr ⟨off, h1, h2⟩⟩
      | none =>
        rw [hv] at h
        simp only at h
        split at h
        · simp at h
        · obtain ⟨h1, h2, x, s, h3, h4⟩ := ih _ h
          exact ⟨h1, h2, x, s, Or.inr h3, h4⟩

/-- Frames further out are described further up: the areas of any two frames, the first nearer, are in order; no stack
pointer is the end marker; and a caller's frame pointer, if available, is not below the last byte of its callee's area. -/
def Orderly (tbl : List Entry) (top : Nat) : List Frame → Prop
  | [] => True
  | [_] => True
  | f :: g :: rest =>
    g.sp ≠ top ∧
    (∀ base size ty, Describes tbl f.ip g.sp base size ty →
      (∀ b, g.bp = some b → base + size ≤ (b : Int) + 1) ∧
      ∀ x s base' size' ty', FrameIn top (g :: rest) x s → Describes tbl x.ip s base' size' ty' → base + size ≤ base') ∧
    Orderly tbl top (g :: rest)

theorem frameIn_describes_ne {top : Nat} : ∀ {fs : List Frame} {f s}, FrameIn top fs f s → fs ≠ [] := by
  intro fs f s h
  cases fs with
  | nil => exact absurd h (by simp [FrameIn])
  | cons => simp

theorem describes_fun {tbl : List Entry} (ht : SortedTbl tbl) {ip s b1 z1 t1 b2 z2 t2}
    (h1 : Describes tbl ip s b1 z1 t1) (h2 : Describes tbl ip s b2 z2 t2) : b1 = b2 ∧ z1 = z2 ∧ t1 = t2 := by
  obtain ⟨o1, h1, e1⟩ := (pcDesc_iff ht _ _ _ _ _).mp h1
  obtain ⟨o2, h2, e2⟩ := (pcDesc_iff ht _ _ _ _ _).mp h2
  rw [h1] at h2
  simp only [Option.some.injEq, Prod.mk.injEq] at h2
  obtain ⟨rfl, rfl, rfl⟩ := h2
  exact ⟨by omega, rfl, rfl⟩

/-- **C48 (partial).** In an orderly chain an address inside the described area of a frame is reported as that frame.
Partial: the frame must have a caller (or unwinding must end regularly), and the chain must be orderly. -/
theorem frame_query_complete_partial (tbl : List Entry) (ht : SortedTbl tbl) (top : Nat) (fin : Fin) (obj : Nat)
    (fs : List Frame) (ho : Orderly tbl top fs) (hobj : obj ≤ top) (f : Frame) (s : Nat) (hf : FrameIn top fs f s)
    (hs : fin = .done ∨ s ≠ top)
    (base : Int) (size ty : Nat) (hd : Describes tbl f.ip s base size ty) (h1 : base ≤ obj) (h2 : (obj : Int) < base + size) :
    getInfo tbl top fin obj fs = .ok base size ty f.ip := by
  unfold getInfo
  generalize (0 : Nat) = old
  induction fs generalizing old with
  | nil => simp [FrameIn] at hf
  | cons a fs ih =>
    cases fs with
    | nil =>
      obtain ⟨rfl, rfl⟩ := hf
      obtain ⟨off, hp, hb⟩ := (pcDesc_iff ht _ _ _ _ _).mp hd
      have hfin : fin = .done := hs.resolve_right (by simp)
      subst hfin
      have : decide (s < obj) = false := by simp; omega
      simp only [walk, this, visit, hp, Bool.false_eq_true, if_false]
      rw [if_pos (by omega), hb]
    | cons g rest =>
      obtain ⟨hg, hord, hrest⟩ := ho
      rw [walk]
      rcases hf with ⟨rfl, rfl⟩ | hf
      · obtain ⟨off, hp, hb⟩ := (pcDesc_iff ht _ _ _ _ _).mp hd
        have hsk : skips (bpVar old f.bp) g.bp obj = false := by
          unfold skips
          cases hgb : g.bp with
          | none => rfl
          | some b =>
            have := (hord base size ty hd).1 b hgb
            have : ¬ b < obj := by omega
            simp [this]
        rw [hsk]
        simp only [visit, hp, Bool.false_eq_true, if_false]
        rw [if_pos (by omega), hb]
      · have hv : visit tbl obj a.ip g.sp (skips (bpVar old a.bp) g.bp obj) = none := by
          unfold visit
          split
          · rfl
          · cases hpa : pcDesc tbl a.ip with
            | none => rfl
            | some d =>
              obtain ⟨t, z, o⟩ := d
              simp only
              have hda := (pcDesc_iff ht a.ip g.sp (g.sp - o) z t).mpr ⟨o, hpa, rfl⟩
              have := (hord _ z t hda).2 f s base size ty hf hd
              rw [if_neg (by omega), if_neg (by omega)]
        rw [hv]
        simp only
        rw [if_neg hg]
        exact ih hrest hf _

def tbl : List Entry := [⟨0x100, some 1, 48, 48⟩, ⟨0x200, none, 0, 0⟩, ⟨0x300, some 2, 96, 112⟩]

theorem tbl_sorted : SortedTbl tbl := by unfold SortedTbl tbl; decide

/-- Three frames: a described one, an undescribed one, a described one; then the end of the stack. -/
def chain : List Frame := [⟨0x120, 1000, some 1040⟩, ⟨0x210, 1056, some 1100⟩, ⟨0x350, 1120, some 1300⟩, ⟨0x205, 1312, none⟩]

/-- Addresses in the two described frames, between them, below and above. -/
example : [1010, 1100, 1200, 1250, 1299, 990, 1000].map (fun a => getInfo tbl 9999 .done a chain) =
    [.ok 1008 48 1 0x120, .higherFrame, .ok 1200 96 2 0x350, .ok 1200 96 2 0x350, .topOfStack, .higherFrame, .higherFrame] := by
  decide

/-- The chain is orderly. -/
theorem chain_orderly : Orderly tbl 9999 chain := by
  have key : ∀ ip s base size ty, Describes tbl ip s base size ty →
      ∃ off, pcDesc tbl ip = some (ty, size, off) ∧ base = s - off := fun ip s base size ty h =>
    (pcDesc_iff tbl_sorted ip s base size ty).mp h
  have d1 : pcDesc tbl 0x120 = some (1, 48, 48) := by decide
  have d2 : pcDesc tbl 0x210 = none := by decide
  have d3 : pcDesc tbl 0x350 = some (2, 96, 112) := by decide
  have d4 : pcDesc tbl 0x205 = none := by decide
  refine ⟨by decide, ?_, by decide, ?_, by decide, ?_, trivial⟩
  · intro base size ty h
    obtain ⟨off, h1, h2⟩ := key _ _ _ _ _ h
    rw [d1] at h1
    simp only [Option.some.injEq, Prod.mk.injEq] at h1
    obtain ⟨rfl, rfl, rfl⟩ := h1
    refine ⟨?_, ?_⟩
    · intro b hb
      simp only [Option.some.injEq] at hb
      simp only at h2
      omega
    · intro x s base' size' ty' hx h'
      obtain ⟨off', h1', h2'⟩ := key _ _ _ _ _ h'
      rcases hx with ⟨rfl, rfl⟩ | ⟨rfl, rfl⟩ | ⟨rfl, rfl⟩
      · rw [d2] at h1'; cases h1'
      · rw [d3] at h1'
        simp only [Option.some.injEq, Prod.mk.injEq] at h1'
        obtain ⟨rfl, rfl, rfl⟩ := h1'
        simp only at h2 h2'
        omega
      · rw [d4] at h1'; cases h1'
  · intro base size ty h
    obtain ⟨off, h1, h2⟩ := key _ _ _ _ _ h
    rw [d2] at h1; cases h1
  · intro base size ty h
    obtain ⟨off, h1, h2⟩ := key _ _ _ _ _ h
    rw [d3] at h1
    simp only [Option.some.injEq, Prod.mk.injEq] at h1
    obtain ⟨rfl, rfl, rfl⟩ := h1
    refine ⟨?_, ?_⟩
    · intro b hb
      cases hb
    · intro x s base' size' ty' hx h'
      obtain ⟨off', h1', h2'⟩ := key _ _ _ _ _ h'
      obtain ⟨rfl, rfl⟩ := hx
      rw [d4] at h1'; cases h1'

/-- **Completeness fails** when a caller does not use the frame-pointer register as such: a small value left in it makes the
walk pass over the frame. -/
theorem frame_pointer_fails :
    getInfo tbl 9999 .done 1010 [⟨0x120, 1000, some 5⟩, ⟨0x210, 1056, some 7⟩, ⟨0x205, 1120, none⟩] = .topOfStack ∧
    getInfo tbl 9999 .done 1010 [⟨0x120, 1000, some 5⟩, ⟨0x210, 1056, some 5⟩, ⟨0x205, 1120, none⟩] = .topOfStack ∧
    getInfo tbl 9999 .done 1010 [⟨0x120, 1000, some 5⟩, ⟨0x210, 1056, some 4⟩, ⟨0x205, 1120, none⟩] = .ok 1008 48 1 0x120 ∧
    getInfo tbl 9999 .done 1010 [⟨0x120, 1000, some 5⟩, ⟨0x210, 1056, none⟩, ⟨0x205, 1120, none⟩] = .ok 1008 48 1 0x120 := by
  decide

/-- **The type can be another function's**: descriptions have no end, so the frame of a function without one (here at 0x180,
the only description being for a function at 0x100) is reported with that of the function before it. -/
theorem undescribed_function_fails :
    getInfo [⟨0x100, some 1, 48, 48⟩] 9999 .done 1010 [⟨0x180, 1000, none⟩, ⟨0x10, 1056, none⟩] = .ok 1008 48 1 0x180 := by
  decide

/-- **And a return address just past the end of a function** (after a call that does not return) is taken for one in the next
function: the frame of the function at 0x100, whose last instruction ends at 0x200, is reported as that of the function
there. -/
theorem return_address_fails :
    getInfo [⟨0x100, some 1, 48, 48⟩, ⟨0x200, some 2, 48, 48⟩] 9999 .done 1010 [⟨0x200, 1000, none⟩, ⟨0x10, 1056, none⟩] =
      .ok 1008 48 2 0x200 := by decide

end Liballocs.StackFrame
