import Verif.Model.Unwind
import Verif.Props.StackFrame
/-! # C78, C48: unwinding by frame pointers, and stack queries on a machine stack -/
namespace Liballocs.Unwind

/-! ## What a stack is -/

/-- An activation: its stack pointer at its call (or at present), the address at which it saved its caller's frame pointer,
and where its code is. -/
structure Act where
  sp : Nat
  fp : Nat
  ip : Nat
  deriving DecidableEq

/-- The activations in memory, innermost first: each has its caller's frame pointer saved at its own and the return address
beside it, and the caller's stack begins above them. The outermost one has a null frame pointer, as the ABI asks for. -/
def Stack (mem : Mem) : List Act → Prop
  | [] => False
  | [a] => a.fp = 0 ∧ 0 < a.sp
  | a :: b :: r =>
    a.sp ≤ a.fp ∧ 8 ∣ a.fp ∧ mem a.fp = some b.fp ∧ mem (a.fp + 8) = some b.ip ∧ b.sp = a.fp + 16 ∧
      2 ^ 28 ≤ b.sp ∧ b.sp < 2 ^ 47 ∧ Stack mem (b :: r)

/-- An activation whose stack pointer is 64 KiB or more below its frame pointer. -/
abbrev Big (a : Act) : Prop := 0x10000 ≤ a.fp - a.sp

/-- The cursor that shows an activation, its frame pointer only if the activation is small. -/
def shown (a : Act) : Cursor := ⟨a.sp, if Big a then 0 else a.fp, a.ip⟩

/-- Up to and including the first big activation. -/
def uptoBig : List Act → List Act
  | [] => []
  | a :: r => if Big a then [a] else a :: uptoBig r

theorem uptoBig_small : ∀ {l : List Act}, (∀ a ∈ l, ¬ Big a) → uptoBig l = l := by
  intro l
  induction l with
  | nil => intro _; rfl
  | cons a r ih =>
    intro h
    rw [uptoBig, if_neg (h a List.mem_cons_self), ih (fun b hb => h b (List.mem_cons_of_mem _ hb))]

/-! ## C78: exactness -/

theorem stack_head {mem : Mem} {a : Act} {r : List Act} (h : Stack mem (a :: r)) :
    (a.fp = 0 ∧ 0 < a.sp) ∨ (a.sp ≤ a.fp ∧ a.fp < 2 ^ 47) := by
  cases r with
  | nil => exact Or.inl h
  | cons b r =>
    obtain ⟨h1, _, _, _, h5, _, h7, _⟩ := h
    right; constructor
    · exact h1
    · omega

theorem saneBp_shown {mem : Mem} {a : Act} {r : List Act} (h : Stack mem (a :: r)) :
    saneBp a.fp a.sp = if Big a then 0 else a.fp := by
  unfold saneBp Big
  rcases stack_head h with ⟨h1, h2⟩ | ⟨h1, h2⟩
  · rw [if_neg (by omega), if_neg (by omega), h1]
  · by_cases hb : 0x10000 ≤ a.fp - a.sp
    · rw [if_neg (by omega), if_pos hb]
    · rw [if_pos (by omega), if_neg hb]

theorem step_shown {mem : Mem} {a b : Act} {r : List Act} (h : Stack mem (a :: b :: r)) (hb : ¬ Big a) :
    step mem (shown a) = .moved (shown b) ((b.sp - a.sp : Nat) : Int) ∧ 16 ≤ b.sp - a.sp := by
  obtain ⟨h1, h2, h3, h4, h5, h6, h7, h8⟩ := h
  have hs := saneBp_shown h8
  have hb' : ¬ 0x10000 ≤ a.fp - a.sp := hb
  have hpos : a.fp ≠ 0 := by omega
  unfold step shown
  simp only [if_neg hb]
  have w1 : wrap (a.fp + 8) = a.fp + 8 := by unfold wrap; omega
  have w2 : wrap (a.fp + 16) = b.sp := by unfold wrap; omega
  have hal : a.fp % 8 = 0 := Nat.mod_eq_zero_of_dvd h2
  rw [if_neg hpos, w1, w2, h3, h4]
  simp only
  rw [if_neg (by simp [hal])]
  have w3 : ¬ b.sp ≤ wrap (b.sp + (2 ^ 64 - 0x10000000)) := by unfold wrap; omega
  rw [if_neg w3, hs]
  refine ⟨?_, by omega⟩
  congr 1
  have : wrap (b.sp + (2 ^ 64 - a.sp)) = b.sp - a.sp := by unfold wrap; omega
  rw [this]
  unfold toInt
  have hlt : b.sp - a.sp < 2 ^ 31 := by omega
  rw [Nat.mod_eq_of_lt (by omega), if_pos hlt]

/-- On any stack, of any depth, the walk from an activation shows exactly the activations from there up to the first big
one, and then ends regularly. -/
theorem walk_exact (mem : Mem) (l : List Act) (a : Act) (h : Stack mem (a :: l)) (fuel : Nat) (hf : l.length < fuel) :
    walk mem fuel (shown a) = some ((uptoBig (a :: l)).map shown, .done) := by
  induction l generalizing a fuel with
  | nil =>
    obtain ⟨f, rfl⟩ : ∃ f, fuel = f + 1 := ⟨fuel - 1, by omega⟩
    have h0 : a.fp = 0 := h.1
    have hb : ¬ Big a := by unfold Big; omega
    have hst : step mem (shown a) = .stop := by unfold step shown; simp [hb, h0]
    rw [walk, hst, uptoBig, if_neg hb]
    rfl
  | cons b r ih =>
    obtain ⟨f, rfl⟩ : ∃ f, fuel = f + 1 := ⟨fuel - 1, by omega⟩
    rw [walk, uptoBig]
    by_cases hb : Big a
    · have hst : step mem (shown a) = .stop := by unfold step shown; simp [hb]
      rw [hst, if_pos hb]
      rfl
    · obtain ⟨hst, hd⟩ := step_shown h hb
      have h8 := h.2.2.2.2.2.2.2
      rw [hst, if_neg hb]
      simp only
      rw [if_pos (by omega), ih b h8 f (by simpa using hf)]
      rfl

/-- `unw_getcontext` called from an activation `b` whose frame pointer is not null: the cursor shows `b`. -/
theorem context_shows (mem : Mem) (a b : Act) (r : List Act) (h : Stack mem (a :: b :: r)) (hb : b.fp ≠ 0) :
    getContext mem a.fp = some (shown b) := by
  obtain ⟨h1, h2, h3, h4, h5, h6, h7, h8⟩ := h
  have hs := saneBp_shown h8
  unfold getContext
  have w1 : wrap (a.fp + 8) = a.fp + 8 := by unfold wrap; omega
  have w2 : wrap (a.fp + 16) = b.sp := by unfold wrap; omega
  rw [if_neg (by omega), w1, w2, h3, h4]
  simp only
  rw [if_neg hb, hs]
  rfl

/-- A walk from `unw_getcontext` shows the whole call stack, if no activation but the outermost is big. Missing: stacks with
an activation of 64 KiB or more (`big_frame_fails`), in the lowest 256 MiB (`low_stack_fails`) or through code without frame
pointers (`negative_pointer_fails`, `misaligned_pointer_fails`). -/
theorem unwind_partial (mem : Mem) (a b : Act) (r : List Act) (h : Stack mem (a :: b :: r)) (hb : b.fp ≠ 0)
    (hs : ∀ x ∈ b :: r, ¬ Big x) (fuel : Nat) (hf : r.length < fuel) :
    (getContext mem a.fp).bind (walk mem fuel) = some ((b :: r).map (fun x => ⟨x.sp, x.fp, x.ip⟩), .done) := by
  rw [context_shows mem a b r h hb]
  simp only [Option.bind_some]
  rw [walk_exact mem r b h.2.2.2.2.2.2.2 fuel hf, uptoBig_small hs]
  congr 2
  apply List.map_congr_left
  intro x hx
  simp [shown, hs x hx]

/-! ## C78: any memory -/

/-- Memory of a user program: nothing at or above 2^47. -/
def User (mem : Mem) : Prop := ∀ a, 2 ^ 47 ≤ a → mem a = none

/-- A cursor's frame pointer, if it has one, is not below its stack pointer. -/
def Sane (c : Cursor) : Prop := c.bp ≠ 0 → c.sp ≤ c.bp ∧ (c.bp - c.sp < 0x10000 ∨ 2 ^ 63 ≤ c.bp - c.sp)

theorem saneBp_spec (bp sp : Nat) : saneBp bp sp ≠ 0 → saneBp bp sp = bp ∧ sp ≤ bp ∧ (bp - sp < 0x10000 ∨ 2 ^ 63 ≤ bp - sp) := by
  unfold saneBp
  split
  · rename_i h; intro _; exact ⟨rfl, h⟩
  · intro h; exact absurd rfl h

theorem getContext_sane {mem : Mem} {fa : Nat} {c : Cursor} (h : getContext mem fa = some c) : Sane c := by
  unfold getContext at h
  split at h
  · cases h
  · split at h
    · split at h
      · cases h
      · simp only [Option.some.injEq] at h
        subst h
        intro hne
        obtain ⟨e, h1⟩ := saneBp_spec _ _ hne
        simp only [e]
        exact h1
    · cases h

/-- One step in any user memory, from any cursor with a sane frame pointer: it goes to what is recorded at the frame
pointer, between 16 bytes and 64 KiB further up, and tells the distance. -/
theorem step_sound {mem : Mem} (hu : User mem) {c c' : Cursor} {ret : Int} (hc : Sane c) (h : step mem c = .moved c' ret) :
    mem (c.bp + 8) = some c'.ip ∧ (∃ bp', mem c.bp = some bp' ∧ (c'.bp = bp' ∨ c'.bp = 0)) ∧ c'.sp = c.bp + 16 ∧
      ret = (c'.sp : Int) - c.sp ∧ 16 ≤ ret ∧ ret < 0x10010 ∧ c'.sp < 2 ^ 47 + 16 ∧ Sane c' := by
  unfold step at h
  split at h
  · cases h
  · rename_i hb
    split at h
    · cases h
    · split at h
      · rename_i ra bp' h1 h2
        have hlo : c.bp < 2 ^ 47 := by
          apply Classical.byContradiction
          intro hn
          rw [hu c.bp (by omega)] at h2
          cases h2
        obtain ⟨s1, s2⟩ := hc hb
        have s3 : c.bp - c.sp < 0x10000 := by omega
        have w1 : wrap (c.bp + 8) = c.bp + 8 := by unfold wrap; omega
        have w2 : wrap (c.bp + 16) = c.bp + 16 := by unfold wrap; omega
        simp only [w2] at h
        split at h
        · cases h
        · simp only [Step.moved.injEq] at h
          obtain ⟨rfl, rfl⟩ := h
          have w3 : wrap (c.bp + 16 + (2 ^ 64 - c.sp)) = c.bp + 16 - c.sp := by unfold wrap; omega
          have w4 : toInt (c.bp + 16 - c.sp) = ((c.bp + 16 - c.sp : Nat) : Int) := by
            unfold toInt
            rw [Nat.mod_eq_of_lt (by omega), if_pos (by omega)]
          refine ⟨by rw [← w1]; exact h1, ⟨bp', h2, ?_⟩, rfl, ?_, ?_, ?_, by simp only; omega, ?_⟩
          · by_cases h0 : saneBp bp' (c.bp + 16) = 0
            · exact Or.inr h0
            · exact Or.inl (saneBp_spec _ _ h0).1
          · rw [w3, w4]; simp only; omega
          · rw [w3, w4]; omega
          · rw [w3, w4]; omega
          · intro hne
            obtain ⟨e, h1⟩ := saneBp_spec _ _ hne
            simp only [e]
            exact h1
      · cases h

/-- In any user memory, whatever it holds, a walk ends. -/
theorem walk_ends (mem : Mem) (hu : User mem) (c : Cursor) (hc : Sane c) (fuel : Nat) (hf : 2 ^ 47 + 16 < c.sp + 16 * fuel) :
    c.sp < 2 ^ 47 + 16 → (walk mem fuel c).isSome := by
  induction fuel generalizing c with
  | zero => intro h; omega
  | succ f ih =>
    intro hsp
    rw [walk]
    cases hst : step mem c with
    | stop => rfl
    | failed => rfl
    | crash => rfl
    | moved c' ret =>
      obtain ⟨_, _, h3, h4, h5, _, h6, h7⟩ := step_sound hu hc hst
      simp only
      rw [if_pos (by omega)]
      have := ih c' h7 (by omega) h6
      obtain ⟨r, hr⟩ := Option.isSome_iff_exists.mp this
      rw [hr]; rfl

/-- The cursors of a walk are linked in memory and go strictly upwards. -/
inductive Links (mem : Mem) : List Cursor → Prop
  | one (c) : Links mem [c]
  | cons {c c' r} : c.bp ≠ 0 → mem (c.bp + 8) = some c'.ip → c'.sp = c.bp + 16 → c.sp < c'.sp →
      (mem c.bp = some c'.bp ∨ c'.bp = 0) → Links mem (c' :: r) → Links mem (c :: c' :: r)

theorem walk_sound (mem : Mem) (hu : User mem) (c : Cursor) (hc : Sane c) (fuel : Nat) {l : List Cursor} {fin : Fin}
    (h : walk mem fuel c = some (l, fin)) : Links mem l ∧ l.head? = some c := by
  induction fuel generalizing c l fin with
  | zero => cases h
  | succ f ih =>
    rw [walk] at h
    cases hst : step mem c with
    | stop => rw [hst] at h; simp only [Option.some.injEq, Prod.mk.injEq] at h; rw [← h.1]; exact ⟨.one c, rfl⟩
    | failed => rw [hst] at h; simp only [Option.some.injEq, Prod.mk.injEq] at h; rw [← h.1]; exact ⟨.one c, rfl⟩
    | crash => rw [hst] at h; simp only [Option.some.injEq, Prod.mk.injEq] at h; rw [← h.1]; exact ⟨.one c, rfl⟩
    | moved c' ret =>
      obtain ⟨h1, ⟨bp', h2, h2'⟩, h3, h4, h5, _, h6, h7⟩ := step_sound hu hc hst
      rw [hst] at h
      simp only at h
      rw [if_pos (by omega)] at h
      cases hw : walk mem f c' with
      | none => rw [hw] at h; cases h
      | some r =>
        obtain ⟨l', fin'⟩ := r
        rw [hw] at h
        simp only [Option.map_some, Option.some.injEq, Prod.mk.injEq] at h
        obtain ⟨i1, i2⟩ := ih c' h7 hw
        cases l' with
        | nil => cases i2
        | cons x r' =>
          simp only [List.head?_cons, Option.some.injEq] at i2
          subst i2
          rw [← h.1]
          refine ⟨.cons ?_ h1 h3 (by omega) ?_ i1, rfl⟩
          · intro h0; unfold step at hst; rw [if_pos h0] at hst; cases hst
          · rcases h2' with e | e
            · exact Or.inl (by rw [e]; exact h2)
            · exact Or.inr e

/-- How a walk ends says what is at its last cursor: no frame pointer, an address in the lowest 256 MiB, or one that cannot be read. -/
theorem walk_end (mem : Mem) (hu : User mem) (c : Cursor) (hc : Sane c) (fuel : Nat) {l : List Cursor} {fin : Fin}
    (h : walk mem fuel c = some (l, fin)) : ∃ d, l.getLast? = some d ∧
      (fin = .done ↔ d.bp = 0) ∧ (fin = .bad ↔ step mem d = .failed) ∧ (fin = .crash ↔ step mem d = .crash) := by
  have stop : ∀ d, step mem d = .stop ↔ d.bp = 0 := by
    intro d
    constructor
    · intro h
      apply Classical.byContradiction
      intro h0
      unfold step at h
      rw [if_neg h0] at h
      split at h
      · cases h
      · split at h
        · simp only at h
          split at h <;> cases h
        · cases h
    · intro h; unfold step; rw [if_pos h]
  induction fuel generalizing c l fin with
  | zero => cases h
  | succ f ih =>
    rw [walk] at h
    cases hst : step mem c with
    | stop =>
      rw [hst] at h; simp only [Option.some.injEq, Prod.mk.injEq] at h; rw [← h.1, ← h.2]
      exact ⟨c, rfl, by simp [(stop c).mp hst], by simp [hst], by simp [hst]⟩
    | failed =>
      rw [hst] at h; simp only [Option.some.injEq, Prod.mk.injEq] at h; rw [← h.1, ← h.2]
      exact ⟨c, rfl, by simp [← stop c, hst], by simp [hst], by simp [hst]⟩
    | crash =>
      rw [hst] at h; simp only [Option.some.injEq, Prod.mk.injEq] at h; rw [← h.1, ← h.2]
      exact ⟨c, rfl, by simp [← stop c, hst], by simp [hst], by simp [hst]⟩
    | moved c' ret =>
      obtain ⟨_, _, _, _, h5, _, _, h7⟩ := step_sound hu hc hst
      rw [hst] at h
      simp only at h
      rw [if_pos (by omega)] at h
      cases hw : walk mem f c' with
      | none => rw [hw] at h; cases h
      | some r =>
        obtain ⟨l', fin'⟩ := r
        rw [hw] at h
        simp only [Option.map_some, Option.some.injEq, Prod.mk.injEq] at h
        obtain ⟨d, i1, i2⟩ := ih c' h7 hw
        refine ⟨d, ?_, by rw [← h.2]; exact i2⟩
        rw [← h.1, List.getLast?_cons, i1]
        rfl

/-- Taking the caller's context fails exactly without a frame address, if the frame cannot be read, or if the saved frame pointer is
zero. -/
theorem getContext_none_iff (mem : Mem) (fa : Nat) :
    getContext mem fa = none ↔ fa = 0 ∨ mem fa = none ∨ mem (wrap (fa + 8)) = none ∨ mem fa = some 0 := by
  unfold getContext
  by_cases h0 : fa = 0
  · simp [h0]
  · rw [if_neg h0]
    cases h1 : mem fa with
    | none => simp
    | some bp =>
      cases h2 : mem (wrap (fa + 8)) with
      | none => simp
      | some ra =>
        by_cases hb : bp = 0
        · simp [hb]
        · simp [h0, hb]

/-- A walk crashes only at a cursor whose frame pointer is misaligned or does not point at two readable words. -/
theorem step_crash_iff (mem : Mem) (c : Cursor) :
    step mem c = .crash ↔ c.bp ≠ 0 ∧ (c.bp % 8 ≠ 0 ∨ mem c.bp = none ∨ mem (wrap (c.bp + 8)) = none) := by
  unfold step
  by_cases h0 : c.bp = 0
  · simp [h0]
  · rw [if_neg h0]
    by_cases h8 : c.bp % 8 = 0
    · rw [if_neg (by simp [h8])]
      cases h1 : mem (wrap (c.bp + 8)) with
      | none => simp [h0]
      | some ra =>
        cases h2 : mem c.bp with
        | none => simp [h0]
        | some bp' =>
          simp only
          split <;> simp [h8]
    · rw [if_pos h8]; simp [h0, h8]

/-! ## Where it fails -/

/-- A big activation hides everything above it: whatever the stack, its callers are not seen. -/
theorem big_frame_fails (mem : Mem) (a : Act) (l : List Act) (h : Stack mem (a :: l)) (hb : Big a) (fuel : Nat)
    (hf : l.length < fuel) : walk mem fuel (shown a) = some ([⟨a.sp, 0, a.ip⟩], .done) := by
  rw [walk_exact mem l a h fuel hf, uptoBig, if_pos hb]
  simp [shown, hb]

/-- The check against wild steps compares the new stack pointer with itself: it never stops a step except when the stack is
in the lowest 256 MiB, where every step fails. -/
theorem low_stack_fails (mem : Mem) (c : Cursor) (bp' ra : Nat) (h0 : c.bp ≠ 0) (h8 : c.bp % 8 = 0)
    (h1 : mem c.bp = some bp') (h2 : mem (c.bp + 8) = some ra) (hlt : c.bp < 2 ^ 47) :
    step mem c = .failed ↔ c.bp + 16 < 2 ^ 28 := by
  unfold step
  have w1 : wrap (c.bp + 8) = c.bp + 8 := by unfold wrap; omega
  have w2 : wrap (c.bp + 16) = c.bp + 16 := by unfold wrap; omega
  rw [if_neg h0, if_neg (by simp [h8]), w1, w2, h1, h2]
  simp only
  by_cases hl : c.bp + 16 < 2 ^ 28
  · rw [if_pos (by unfold wrap; omega)]; simp [hl]
  · rw [if_neg (by unfold wrap; omega)]; simp [hl]

/-- A saved register that holds a negative number (a caller compiled without frame pointers) passes for a sane frame pointer,
because the distance is compared as a signed number; the next step reads there. -/
theorem negative_pointer_fails (mem : Mem) (hu : User mem) (sp ip v : Nat) (hsp : sp < 2 ^ 47) (hv : 2 ^ 64 - 2 ^ 62 ≤ v)
    (hv' : v < 2 ^ 64) : saneBp v sp = v ∧ step mem ⟨sp, saneBp v sp, ip⟩ = .crash := by
  have h : saneBp v sp = v := by unfold saneBp; rw [if_pos (by omega)]
  refine ⟨h, (step_crash_iff _ _).mpr ?_⟩
  simp only [h]
  exact ⟨by omega, Or.inr (Or.inl (hu v (by omega)))⟩

/-- So does one that happens to point into the 64 KiB above without being aligned: the assertion fails. -/
theorem misaligned_pointer_fails (mem : Mem) (sp ip v : Nat) (hv : sp ≤ v) (hv' : v < sp + 0x10000) (h8 : v % 8 ≠ 0) :
    step mem ⟨sp, saneBp v sp, ip⟩ = .crash := by
  have h : saneBp v sp = v := by unfold saneBp; rw [if_pos (by omega)]
  refine (step_crash_iff _ _).mpr ?_
  simp only [h]
  exact ⟨by omega, Or.inl h8⟩

/-! ## C48 on a machine stack -/

open StackFrame (Entry Describes FrameIn SortedTbl getInfo)

/-- A cursor as the stack query reads it. -/
def frameOf (c : Cursor) : StackFrame.Frame := ⟨c.ip, c.sp, if c.bp = 0 then none else some c.bp⟩

/-- The stack query on memory (src/allocators/stackframe.c:173-354), for walks that end regularly. -/
def query (mem : Mem) (tbl : List Entry) (top obj fuel : Nat) (c : Cursor) : Option StackFrame.Res :=
  match walk mem fuel c with
  | some (l, .done) => some (getInfo tbl top .done obj (l.map frameOf))
  | some (l, .bad) => some (getInfo tbl top .bad obj (l.map frameOf))
  | _ => none

/-- Every described activation keeps its described area in its own part of the stack; the outermost is not described. -/
def Within (tbl : List Entry) : List Act → Prop
  | [] => True
  | [a] => ∀ s base size ty, ¬ Describes tbl a.ip s base size ty
  | a :: b :: r => (∀ base size ty, Describes tbl a.ip b.sp base size ty → (a.sp : Int) ≤ base ∧ base + size ≤ b.sp) ∧
      Within tbl (b :: r)

/-- The activation and its caller. -/
def Calls : List Act → Act → Act → Prop
  | a :: b :: r, x, y => (x = a ∧ y = b) ∨ Calls (b :: r) x y
  | _, _, _ => False

theorem stack_sp {mem : Mem} : ∀ {l : List Act} {a : Act}, Stack mem (a :: l) → ∀ x ∈ l, a.sp < x.sp := by
  intro l
  induction l with
  | nil => intro a _ x hx; cases hx
  | cons b r ih =>
    intro a h x hx
    obtain ⟨h1, _, _, _, h5, _, _, h8⟩ := h
    rcases List.mem_cons.mp hx with rfl | hx
    · omega
    · have := ih h8 x hx; omega

theorem within_area {mem : Mem} {tbl : List Entry} {top : Nat} : ∀ {l : List Act} {a : Act}, Stack mem (a :: l) →
    (∀ x ∈ a :: l, ¬ Big x) → Within tbl (a :: l) →
    ∀ f s base size ty, FrameIn top ((a :: l).map (frameOf ∘ shown)) f s → Describes tbl f.ip s base size ty → (a.sp : Int) ≤ base := by
  intro l
  induction l with
  | nil =>
    intro a _ _ hw f s base size ty hf hd
    obtain ⟨rfl, rfl⟩ := hf
    exact absurd hd (hw _ _ _ _)
  | cons b r ih =>
    intro a h hb hw f s base size ty hf hd
    rcases hf with ⟨rfl, rfl⟩ | hf
    · exact (hw.1 base size ty hd).1
    · have h1 := ih h.2.2.2.2.2.2.2 (fun x hx => hb x (List.mem_cons_of_mem _ hx)) hw.2 f s base size ty hf hd
      have h2 := stack_sp h b List.mem_cons_self
      omega

theorem orderly_of_within {mem : Mem} {tbl : List Entry} {top : Nat} (htop : 2 ^ 47 ≤ top) : ∀ {l : List Act} {a : Act},
    Stack mem (a :: l) → (∀ x ∈ a :: l, ¬ Big x) → Within tbl (a :: l) →
    StackFrame.Orderly tbl top ((a :: l).map (frameOf ∘ shown)) := by
  intro l
  induction l with
  | nil => intro a _ _ _; exact trivial
  | cons b r ih =>
    intro a h hb hw
    have h8 := h.2.2.2.2.2.2.2
    have hb' : ∀ x ∈ b :: r, ¬ Big x := fun x hx => hb x (List.mem_cons_of_mem _ hx)
    refine ⟨?_, ?_, ih h8 hb' hw.2⟩
    · show b.sp ≠ top
      have := h.2.2.2.2.2.2.1
      omega
    · intro base size ty hd
      have hin := hw.1 base size ty hd
      refine ⟨?_, ?_⟩
      · intro v hv
        have hnb := hb b (by simp)
        simp only [Function.comp, frameOf, shown, hnb, if_false] at hv
        split at hv
        · cases hv
        · simp only [Option.some.injEq] at hv
          rcases stack_head h8 with ⟨h1, h2⟩ | ⟨h1, h2⟩
          · rename_i h0; exact absurd h1 h0
          · omega
      · intro x s base' size' ty' hx hd'
        have := within_area h8 hb' hw.2 x s base' size' ty' hx hd'
        omega

theorem calls_frameIn {top : Nat} : ∀ {l : List Act} {x y : Act}, Calls l x y →
    FrameIn top (l.map (frameOf ∘ shown)) (frameOf (shown x)) y.sp := by
  intro l
  induction l with
  | nil => intro x y h; cases h
  | cons a r ih =>
    intro x y h
    cases r with
    | nil => cases h
    | cons b r =>
      rcases h with ⟨rfl, rfl⟩ | h
      · exact Or.inl ⟨rfl, rfl⟩
      · exact Or.inr (ih h)

/-- On a machine stack of any depth, of activations below 64 KiB compiled with frame pointers whose described areas are in
their own part of the stack, an address in a described area is reported with that area, its type and its code address.
Missing: as `unwind_partial`, and described areas that reach into the caller's part (arguments on the stack). -/
theorem machine_stack_partial (mem : Mem) (tbl : List Entry) (ht : SortedTbl tbl) (top : Nat) (htop : 2 ^ 47 ≤ top)
    (a : Act) (l : List Act) (h : Stack mem (a :: l)) (hb : ∀ x ∈ a :: l, ¬ Big x) (hw : Within tbl (a :: l))
    (x y : Act) (hxy : Calls (a :: l) x y) (base : Int) (size ty : Nat) (hd : Describes tbl x.ip y.sp base size ty)
    (obj : Nat) (h1 : base ≤ obj) (h2 : (obj : Int) < base + size) (hobj : obj < 2 ^ 47) (fuel : Nat) (hf : l.length < fuel) :
    query mem tbl top obj fuel (shown a) = some (.ok base size ty x.ip) := by
  unfold query
  rw [walk_exact mem l a h fuel hf, uptoBig_small hb]
  simp only [List.map_map]
  rw [StackFrame.frame_query_complete_partial tbl ht top .done obj _ (orderly_of_within htop h hb hw) (by omega)
    (frameOf (shown x)) y.sp (calls_frameIn hxy) (Or.inl rfl) base size ty hd h1 h2]
  rfl

/-! ## An example -/

/-- Three activations in memory; the innermost called the unwinder. -/
def exMem : Mem := fun a =>
  if a = 0x7fff0000 then some 0x7fff0100 else if a = 0x7fff0008 then some 0x1234
  else if a = 0x7fff0100 then some 0x7fff0200 else if a = 0x7fff0108 then some 0x5678
  else if a = 0x7fff0200 then some 0 else if a = 0x7fff0208 then some 0x9999 else none

def exStack : List Act :=
  [⟨0x7ffefff0, 0x7fff0000, 0x11⟩, ⟨0x7fff0010, 0x7fff0100, 0x1234⟩, ⟨0x7fff0110, 0x7fff0200, 0x5678⟩, ⟨0x7fff0210, 0, 0x9999⟩]

theorem exStack_ok : Stack exMem exStack := by
  refine ⟨by decide, by decide, rfl, rfl, rfl, by decide, by decide, ?_⟩
  refine ⟨by decide, by decide, rfl, rfl, rfl, by decide, by decide, ?_⟩
  exact ⟨by decide, by decide, rfl, rfl, rfl, by decide, by decide, rfl, by decide⟩

example : (getContext exMem 0x7fff0000).bind (walk exMem 5) =
    some ([⟨0x7fff0010, 0x7fff0100, 0x1234⟩, ⟨0x7fff0110, 0x7fff0200, 0x5678⟩, ⟨0x7fff0210, 0, 0x9999⟩], .done) := by
  decide +kernel

/-- A description for the code at 0x5000; an address in the activation it describes. -/
example : (getContext exMem 0x7fff0000).bind (query exMem [⟨0x5000, some 7, 0x80, 0x90⟩, ⟨0x9000, none, 0, 0⟩] (2 ^ 47) 0x7fff0190 5) =
    some (.ok 0x7fff0180 0x80 7 0x5678) := by decide +kernel

end Liballocs.Unwind
