import Verif.Model.UsableSize
import Verif.Props.StackClaim
/-!
# C179 The size of a chunk is read from where that kind of chunk has it
-/
namespace Liballocs.UsableSize

open PageIndex Fill

/-! ## Specification -/

/-- The address is one the initial stack may reach: at or below its top by less than its limit, or by less than 80 KB if it
has none. -/
def OnInitial (e : Env) (ptr : Nat) : Prop :=
  ptr ≤ e.top ∧ (∀ l, e.lim = some l → e.top < ptr + l) ∧ (e.lim = none → e.top < ptr + 80 * 1024)

/-- The address is on the page where the stack of the calling thread ends now. -/
def AtSp (e : Env) (ptr : Nat) : Prop := ∃ k, k * PAGE ≤ ptr ∧ ptr < (k + 1) * PAGE ∧ k * PAGE ≤ e.sp ∧ e.sp < (k + 1) * PAGE

/-- Addresses are 64-bit words and the three allocators are different, none of them null. -/
structure Sane (n : Names) (e : Env) (ptr : Nat) : Prop where
  ptr : ptr < 2 ^ 64
  top : e.top < 2 ^ 64
  stack : n.stack ≠ 0
  mmap : n.mmap ≠ n.stack
  heap : n.heap ≠ n.stack

/-- The page of the address lies in a big allocation of that allocator, and in none inside it. -/
def PageOf (s : State) (ptr a : Nat) : Prop := ∃ m, m ≠ 0 ∧ Owner s (ptr / 4096) m ∧ s.alloc m = a

/-! ## Proofs -/

theorem atSp_iff (e : Env) (ptr : Nat) : (pagenum ptr == pagenum e.sp) = true ↔ AtSp e ptr := by
  simp only [beq_iff_eq, pagenum, AtSp, PAGE]
  constructor
  · intro h
    exact ⟨ptr / 4096, by omega, by omega, by omega, by omega⟩
  · rintro ⟨k, h1, h2, h3, h4⟩
    omega

theorem window_iff {n : Names} {e : Env} {ptr : Nat} (hs : Sane n e ptr) (hl : ∀ l, e.lim = some l → l ≤ e.top) :
    (e.top + 2 ^ 64 - ptr) % 2 ^ 64 < extent e ↔ OnInitial e ptr ∨ (e.lim = none ∧ e.top + 2 ^ 64 < ptr + 80 * 1024) := by
  have h1 := hs.ptr
  have h2 := hs.top
  unfold OnInitial extent LEAST
  cases hlim : e.lim with
  | none =>
    simp only [reduceCtorEq, false_implies, implies_true, true_and, true_implies]
    omega
  | some l =>
    have := hl l hlim
    simp only [Option.some.injEq, reduceCtorEq, false_implies, and_true, false_and, or_false, forall_eq']
    omega

theorem pageOf_iff {c : Config} {s : State} {kids rank} (h : Inv c s kids rank) {ptr a : Nat} (ha : a ≠ 0) :
    PageOf s ptr a ↔ s.alloc (entry s (pagenum ptr)) = a := by
  constructor
  · rintro ⟨m, _, h2, h3⟩
    rw [h.owner_unique (h.owner (pagenum ptr)) h2]
    exact h3
  · intro h1
    refine ⟨entry s (pagenum ptr), ?_, h.owner _, h1⟩
    intro h0
    rw [h0, h.zero.2.2.2.1] at h1
    exact ha h1.symm

theorem isStack_iff {n : Names} {e : Env} {ptr : Nat} (hs : Sane n e ptr) (hl : ∀ l, e.lim = some l → l ≤ e.top) (ht : 80 * 1024 ≤ e.top) :
    isStack e ptr = true ↔ OnInitial e ptr ∨ AtSp e ptr := by
  have h1 := hs.ptr
  unfold isStack
  rw [Bool.or_eq_true, decide_eq_true_iff, window_iff hs hl, atSp_iff]
  constructor
  · rintro ((h | ⟨_, h⟩) | h)
    · exact Or.inl h
    · omega
    · exact Or.inr h
  · rintro (h | h)
    · exact Or.inl (Or.inl h)
    · exact Or.inr h

/-- C179, partly: what is answered, in terms of what there is at the address. The word below the chunk is read just when the
address is one the initial stack may reach, is on the page of the stack pointer, or is above the break on a page of the stack
allocator; anything else is asked of `malloc`. So every chunk from `alloca` on the initial stack has its size read if the
stack is limited and the limit is not exceeded. What is missing: that chunks from `alloca` elsewhere do too, and that chunks
from `malloc` never do; see `frame_fails`, `thread_fails`, `unclaimed_fails`, `wide_fails`. -/
theorem usable_partial {c : Config} {s : State} {kids rank} (h : Inv c s kids rank) {n : Names} {e : Env} {ptr : Nat} (hs : Sane n e ptr)
    (hl : ∀ l, e.lim = some l → l ≤ e.top) (ht : 80 * 1024 ≤ e.top) (h8 : 8 ≤ ptr) :
    ((OnInitial e ptr ∨ AtSp e ptr ∨ e.brk < ptr ∧ PageOf s ptr n.stack) → usable n e (some s) ptr = some (e.word (ptr - 8))) ∧
    (¬ (OnInitial e ptr ∨ AtSp e ptr ∨ e.brk < ptr ∧ PageOf s ptr n.stack) → usable n e (some s) ptr = some (e.msize ptr)) := by
  have hst := isStack_iff hs hl ht
  have hp := pageOf_iff h (ptr := ptr) hs.stack
  have hm := hs.mmap
  have hh := hs.heap
  have hw : allocaSize e ptr = e.word (ptr - 8) := by
    have := hs.ptr
    have h2 : (ptr + 2 ^ 64 - 8) % 2 ^ 64 = ptr - 8 := by omega
    unfold allocaSize
    rw [h2]
  have hup : (upperBound s ptr = n.stack) ↔ s.alloc (entry s (pagenum ptr)) = n.stack := by
    unfold upperBound
    by_cases h0 : entry s (pagenum ptr) = 0
    · rw [if_pos h0, h0, h.zero.2.2.2.1]
    · rw [if_neg h0]
  unfold usable notStack
  by_cases hb : ptr ≤ e.brk
  · rw [if_pos hb, Option.bind_some]
    by_cases hi : isStack e ptr = true
    · rw [if_pos hi, hw]
      refine ⟨fun _ => rfl, fun hn => absurd (hst.mp hi) ?_⟩
      rintro (h1 | h1)
      · exact hn (Or.inl h1)
      · exact hn (Or.inr (Or.inl h1))
    · rw [if_neg hi, if_pos rfl]
      refine ⟨?_, fun _ => rfl⟩
      rintro (h1 | h1 | ⟨h1, _⟩)
      · exact absurd (hst.mpr (Or.inl h1)) hi
      · exact absurd (hst.mpr (Or.inr h1)) hi
      · omega
  · rw [if_neg hb, Option.map_some, Option.bind_some]
    by_cases hi : isStack e ptr = true
    · rw [if_pos hi, hw]
      refine ⟨fun _ => rfl, fun hn => absurd (hst.mp hi) ?_⟩
      rintro (h1 | h1)
      · exact hn (Or.inl h1)
      · exact hn (Or.inr (Or.inl h1))
    · rw [if_neg hi]
      by_cases ha : s.alloc (entry s (pagenum ptr)) = n.stack
      · have : (s.alloc (entry s (pagenum ptr)) == n.mmap || s.alloc (entry s (pagenum ptr)) == n.heap) = false := by
          rw [ha, Bool.or_eq_false_iff, beq_eq_false_iff_ne, beq_eq_false_iff_ne]
          exact ⟨fun x => hm x.symm, fun x => hh x.symm⟩
        rw [this, if_neg (by decide), Option.map_some, if_pos (hup.mpr ha), hw]
        refine ⟨fun _ => rfl, fun hn => absurd (Or.inr (Or.inr ⟨by omega, hp.mpr ha⟩)) hn⟩
      · have key : (if (s.alloc (entry s (pagenum ptr)) == n.mmap || s.alloc (entry s (pagenum ptr)) == n.heap) = true then some (e.msize ptr)
            else Option.map (fun s => if upperBound s ptr = n.stack then allocaSize e ptr else e.msize ptr) (some s)) = some (e.msize ptr) := by
          rw [Option.map_some, if_neg (fun x => ha (hup.mp x))]
          split <;> rfl
        rw [key]
        refine ⟨?_, fun _ => rfl⟩
        rintro (h1 | h1 | ⟨_, h1⟩)
        · exact absurd (hst.mpr (Or.inl h1)) hi
        · exact absurd (hst.mpr (Or.inr h1)) hi
        · exact absurd (hp.mp h1) ha

/-- A null pointer is asked of `malloc`, whatever the stacks, unless a stack of the caller's is at address zero. -/
theorem null_malloc {n : Names} {e : Env} {pi : Option State} (hl : ∀ l, e.lim = some l → l ≤ e.top) (ht : 80 * 1024 ≤ e.top)
    (ht2 : e.top < 2 ^ 64) (hsp : 4096 ≤ e.sp) : usable n e pi 0 = some (e.msize 0) := by
  have h1 : isStack e 0 = false := by
    unfold isStack
    rw [Bool.or_eq_false_iff, decide_eq_false_iff_not, beq_eq_false_iff_ne]
    unfold extent LEAST pagenum PAGE
    constructor
    · cases hlim : e.lim with
      | none => simp only []; omega
      | some l => have := hl l hlim; simp only []; omega
    · omega
  unfold usable notStack
  rw [if_pos (Nat.zero_le _), Option.bind_some, h1]
  rfl

/-! ## Where it goes wrong -/

/-- Before the page index is made, a chunk above the break is a fault, even if it is on the initial stack, where the
index is not needed. -/
theorem early_fails (n : Names) (e : Env) {ptr : Nat} (h : e.brk < ptr) : usable n e none ptr = none := by
  unfold usable notStack
  rw [if_neg (by omega)]
  rfl

/-- A chunk from `alloca` in a frame that has a big allocation of its own, as the frames that call `alloca` are given, is
asked of `malloc` if the stack is unlimited and the chunk more than 80 KB down: the deepest big allocation there is the
frame's, not the stack's. -/
theorem frame_fails {c : Config} {s : State} {kids rank} (h : Inv c s kids rank) {n : Names} {e : Env} {ptr b frame : Nat}
    (hs : Sane n e ptr) (hb : Live s b) (hf : s.alloc b = frame) (hfs : frame ≠ n.stack)
    (hin : s.beg b ≤ ptr / 4096 * 4096 ∧ (ptr / 4096 + 1) * 4096 ≤ s.fin b) (hkid : ∀ k, Live s k → s.par k ≠ b)
    (hlim : e.lim = none) (hfar : ptr + 80 * 1024 ≤ e.top) (hsp : ¬ AtSp e ptr) (h8 : 8 ≤ ptr) :
    usable n e (some s) ptr = some (e.msize ptr) := by
  refine (usable_partial h hs (by rw [hlim]; intro l hl; cases hl) (by omega) h8).2 ?_
  rintro (⟨_, _, h3⟩ | h1 | ⟨_, m, hm0, hm, hma⟩)
  · have := h3 hlim; omega
  · exact hsp h1
  · have : m = b := h.owner_unique hm (Or.inr ⟨h.ne0 hb, hb, hin, fun k hk hp => absurd hp (hkid k hk)⟩)
    rw [this, hf] at hma
    exact hfs hma

/-- A chunk from `alloca` on the stack of a thread that is not the first, for which the index has only the mapping, is asked of
`malloc`, unless it is on the page of the stack pointer. -/
theorem thread_fails {c : Config} {s : State} {kids rank} (h : Inv c s kids rank) {n : Names} {e : Env} {ptr : Nat}
    (hs : Sane n e ptr) (hm : n.mmap ≠ 0) (hp : PageOf s ptr n.mmap) (hl : ∀ l, e.lim = some l → l ≤ e.top) (ht : 80 * 1024 ≤ e.top)
    (hfar : ¬ OnInitial e ptr) (hsp : ¬ AtSp e ptr) (h8 : 8 ≤ ptr) : usable n e (some s) ptr = some (e.msize ptr) := by
  refine (usable_partial h hs hl ht h8).2 ?_
  rintro (h1 | h1 | ⟨_, h1⟩)
  · exact hfar h1
  · exact hsp h1
  · exact hs.mmap (((pageOf_iff h hm).mp hp).symm.trans ((pageOf_iff h hs.stack).mp h1))

/-- A chunk on a part of an unlimited stack that the index does not have yet is asked of `malloc`: the stack allocator is not
told of the address, as it is in a query. -/
theorem unclaimed_fails {c : Config} {s : State} {kids rank} (h : Inv c s kids rank) {n : Names} {e : Env} {ptr : Nat}
    (hs : Sane n e ptr) (hp : ∀ b, Live s b → ¬ Covers s b (ptr / 4096)) (hlim : e.lim = none) (hfar : ptr + 80 * 1024 ≤ e.top)
    (hsp : ¬ AtSp e ptr) (h8 : 8 ≤ ptr) : usable n e (some s) ptr = some (e.msize ptr) := by
  refine (usable_partial h hs (by rw [hlim]; intro l hl; cases hl) (by omega) h8).2 ?_
  rintro (⟨_, _, h3⟩ | h1 | ⟨_, m, hm0, hm, hma⟩)
  · have := h3 hlim; omega
  · exact hsp h1
  · rcases hm with ⟨h0, _⟩ | ⟨_, h1, h2, _⟩
    · exact hm0 h0
    · exact hp m h1 h2

/-- A chunk from `malloc` that is within the stack's limit below its top has the word below it read as its size, though the
index has the heap there: that the address is on the stack is tested first. -/
theorem wide_fails {c : Config} {s : State} {kids rank} (h : Inv c s kids rank) {n : Names} {e : Env} {ptr l : Nat}
    (hs : Sane n e ptr) (hlim : e.lim = some l) (hle : l ≤ e.top) (ht : 80 * 1024 ≤ e.top) (hp : PageOf s ptr n.heap)
    (hin : ptr ≤ e.top) (hw : e.top < ptr + l) (h8 : 8 ≤ ptr) : PageOf s ptr n.heap ∧ usable n e (some s) ptr = some (e.word (ptr - 8)) := by
  refine ⟨hp, (usable_partial h hs (fun l' hl' => ?_) ht h8).1 (Or.inl ⟨hin, fun l' hl' => ?_, fun hn => ?_⟩)⟩
  · rw [hlim] at hl'; cases hl'; exact hle
  · rw [hlim] at hl'; cases hl'; exact hw
  · rw [hlim] at hn; cases hn

/-! ## Cases -/

/-- The allocators of `StackClaim.exOps`, and 5 for the heap. -/
def exNames : Names := ⟨2, 5, 4⟩

/-- The stack's top is 0x70e000; the word at `a` is `a`, and `malloc` says 1 of all chunks. -/
def exEnv (lim : Option Nat) (sp : Nat) : Env := ⟨0x70e000, lim, 0x300000, sp, id, fun _ => 1⟩

/-- What is answered after those operations and some more. -/
def exAsk (more : List Op) (lim : Option Nat) (sp ptr : Nat) : Option Nat :=
  after dbg (StackClaim.exOps ++ more) (fun s => usable exNames (exEnv lim sp) (some s) ptr)

/-- Chunks on the stack within the limit, on the heap below the break, and in a mapping. -/
theorem case_good : exAsk [] (some 0x20000) 0x709000 0x70a010 = some 0x70a008 ∧ exAsk [] (some 0x20000) 0x709000 0x200010 = some 1 ∧
    exAsk [] (some 0x20000) 0x709000 0x6d0010 = some 1 ∧ exAsk [] (some 0x100) 0x709000 0x702010 = some 0x702008 ∧
    exAsk [] none 0x709000 0x70a010 = some 0x70a008 := by decide +kernel

/-- The limit is exclusive. -/
theorem case_bound : exAsk [] (some 0x3e000) 0x709000 0x6d0008 = some 0x6d0000 ∧ exAsk [] (some 0x3dff8) 0x709000 0x6d0008 = some 1 ∧
    exAsk [] (some 0x3dff9) 0x709000 0x6d0008 = some 0x6d0000 := by decide +kernel

/-- A mapping is taken for the stack under a limit that reaches it, and a thread's stack for the heap unless the page is that
of the stack pointer. -/
theorem case_fails : exAsk [] (some 0x40000) 0x709000 0x6d0010 = some 0x6d0008 ∧ exAsk [] (some 0x20000) 0x6d0000 0x6d0010 = some 0x6d0008 ∧
    exAsk [] none 0x709000 0x6d0010 = some 1 := by decide +kernel

/-- A limitless stack, grown by 0x20000 bytes: a chunk far down is known for what it is until its frame is given a big allocation. -/
theorem case_frame :
    after dbg StackClaim.exOps (fun s => (preExtendRec dbg (fun _ => 0) 9 s 4 0x6e0000).bind (fun s =>
      usable exNames (exEnv none 0x709000) (some s) 0x6e4010)) = some 0x6e4008 ∧
    after dbg StackClaim.exOps (fun s => (preExtendRec dbg (fun _ => 0) 9 s 4 0x6e0000).bind (fun s =>
      (newBigalloc dbg s 0x6e3f00 0x1f00 0 ⟨9, 0, 0, 0, 0, 0⟩).bind (fun r => usable exNames (exEnv none 0x709000) (some r.1) 0x6e4010))) = some 1 ∧
    after dbg StackClaim.exOps (fun s => usable exNames (exEnv none 0x709000) (some s) 0x6e4010) = some 1 := by decide +kernel

end Liballocs.UsableSize
