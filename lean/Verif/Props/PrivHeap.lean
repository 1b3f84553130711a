import Verif.Model.PrivHeap
/- C44: the private-heap index tracks live chunks.  C54: reported usable size covers the request. -/
namespace Liballocs.PrivHeap

/-! ### Specification -/

/-- A pointer the allocator may return: fresh, 16-aligned in the arena. -/
structure Fresh (b e : Nat) (L : List Nat) (p : Nat) : Prop where
  nonnull : 0 < p
  above : b ≤ p
  below : p < e
  aligned : (p - b) % 16 = 0
  new : p ∉ L

/-- Effect of a call on the set of live chunk addresses, as C defines it. `full = false` leaves out
three kinds of call: a failing `realloc` of a chunk, `free(NULL)`, and any `posix_memalign`. -/
inductive Legal (full : Bool) (b e : Nat) : List Nat → Ev → List Nat → Prop where
  | alloc {L p} : Fresh b e L p → Legal full b e L (.alloc p) (p :: L)
  | allocFail {L} : Legal full b e L (.alloc 0) L
  | free {L p} : p ∈ L → Legal full b e L (.free p) (L.filter (· ≠ p))
  | freeNull {L} : full = true → Legal full b e L (.free 0) L
  | realloc {L p size q} : p ∈ L → 0 < size → Fresh b e (L.filter (· ≠ p)) q →
      Legal full b e L (.realloc p size q) (q :: L.filter (· ≠ p))
  | reallocNull {L size q} : 0 < size → Fresh b e L q →
      Legal full b e L (.realloc 0 size q) (q :: L)
  | reallocNullFail {L size} : Legal full b e L (.realloc 0 size 0) L
  | reallocZero {L p q} : p ∈ L → Legal full b e L (.realloc p 0 q) (L.filter (· ≠ p))
  | reallocFail {L p size} : full = true → p ∈ L → 0 < size →
      Legal full b e L (.realloc p size 0) L
  | memalign {L p} : full = true → Fresh b e L p → Legal full b e L (.posixMemalign 0 p) (p :: L)
  | memalignFail {L err m} : full = true → err ≠ 0 → Legal full b e L (.posixMemalign err m) L

inductive History (full : Bool) (b e : Nat) : List Nat → List Ev → List Nat → Prop where
  | nil {L} : History full b e L [] L
  | cons {L M N ev es} : Legal full b e L ev M → History full b e M es N →
      History full b e L (ev :: es) N

/-- The empty heap. -/
def empty (b e : Nat) : St := ⟨b, e, fun _ => false⟩

/-- The index agrees with the live set: bit `i` is set exactly when a live chunk starts at
`b + 16 i`. -/
def Agrees (b : Nat) (s : St) (L : List Nat) : Prop := ∀ i, s.bits i = true ↔ b + 16 * i ∈ L

structure Inv (b e : Nat) (s : St) (L : List Nat) : Prop where
  hb : s.begin_ = b
  he : s.end_ = e
  agrees : Agrees b s L
  live : ∀ p ∈ L, 0 < p ∧ b ≤ p ∧ p < e ∧ (p - b) % 16 = 0

theorem inv_set {b e s L p} (hI : Inv b e s L) (h : Fresh b e L p) :
    ∃ s', setMeta s p = some s' ∧ Inv b e s' (p :: L) := by
  unfold setMeta
  rw [hI.hb, hI.he, if_pos ⟨h.above, h.below, h.aligned⟩]
  refine ⟨_, rfl, rfl, rfl, ?_, ?_⟩
  · intro i
    have ha := h.aligned
    have hb := h.above
    simp only [ALIGN, List.mem_cons]
    by_cases hi : i = (p - b) / 16
    · simp only [hi, if_true, true_iff]; left; omega
    · rw [if_neg hi, hI.agrees i]
      constructor
      · exact Or.inr
      · rintro (h' | h')
        · omega
        · exact h'
  · intro q hq
    rcases List.mem_cons.1 hq with h' | h'
    · rw [h']; exact ⟨h.nonnull, h.above, h.below, h.aligned⟩
    · exact hI.live q h'

theorem inv_clear {b e s L p} (hI : Inv b e s L) (h : p ∈ L) :
    ∃ s', clearMeta s p = some s' ∧ Inv b e s' (L.filter (· ≠ p)) := by
  have hp := hI.live p h
  unfold clearMeta
  rw [hI.hb, hI.he, if_pos ⟨hp.2.1, hp.2.2.1⟩]
  refine ⟨_, rfl, rfl, rfl, ?_, fun q hq => hI.live q (List.mem_filter.1 hq).1⟩
  intro i
  simp only [ALIGN, List.mem_filter, decide_eq_true_eq]
  by_cases hi : i = (p - b) / 16
  · simp only [hi, if_true]
    constructor
    · intro h'; cases h'
    · rintro ⟨_, h'⟩; exact absurd (by omega) h'
  · rw [if_neg hi, hI.agrees i]
    constructor
    · exact fun h' => ⟨h', fun h'' => hi (by omega)⟩
    · exact fun h' => h'.1

theorem inv_step {b e s L ev L'} (hI : Inv b e s L) (h : Legal false b e L ev L') :
    ∃ s', exec s ev = some s' ∧ Inv b e s' L' := by
  cases h with
  | alloc hf =>
    have := hf.nonnull
    simp only [exec]
    rw [if_pos (by omega)]
    exact inv_set hI hf
  | allocFail => exact ⟨s, rfl, hI⟩
  | free hp => exact inv_clear hI hp
  | freeNull hf => cases hf
  | realloc hp hs hf =>
    have h0 := (hI.live _ hp).1
    obtain ⟨s1, h1, h2⟩ := inv_clear hI hp
    obtain ⟨s2, h3, h4⟩ := inv_set h2 hf
    have hq := hf.nonnull
    refine ⟨s2, ?_, h4⟩
    simp only [exec]
    rw [if_pos (by omega), h1]
    simp only
    rw [if_neg (by omega), if_pos ⟨by omega, hs⟩, h3]
  | reallocNull hs hf =>
    obtain ⟨s2, h3, h4⟩ := inv_set hI hf
    have hq := hf.nonnull
    refine ⟨s2, ?_, h4⟩
    simp only [exec, ne_eq, not_true_eq_false, if_false]
    rw [if_neg (by omega), if_pos ⟨by omega, hs⟩, h3]
  | @reallocNullFail size =>
    refine ⟨s, ?_, hI⟩
    simp [exec]
  | reallocZero hp =>
    have h0 := (hI.live _ hp).1
    obtain ⟨s1, h1, h2⟩ := inv_clear hI hp
    refine ⟨s1, ?_, h2⟩
    simp only [exec]
    rw [if_pos (by omega), h1]
    simp
  | reallocFail hf => cases hf
  | memalign hf => cases hf
  | memalignFail hf => cases hf

theorem inv_run {b e s L es L'} (hI : Inv b e s L) (h : History false b e L es L') :
    ∃ s', run s es = some s' ∧ Inv b e s' L' := by
  induction h generalizing s with
  | nil => exact ⟨s, rfl, hI⟩
  | cons h1 _ ih =>
    obtain ⟨s1, h2, h3⟩ := inv_step hI h1
    obtain ⟨s2, h4, h5⟩ := ih h3
    exact ⟨s2, by simp [run, h2, h4], h5⟩

/-- C44 (partial): after any history of allocations, frees and reallocations (including failed
allocations, `realloc(NULL, n)` and `realloc(p, 0)`) the index marks exactly the live chunks.  Left
out: failing `realloc` of a live chunk, `free(NULL)`, `posix_memalign`; see the theorems below. -/
theorem index_tracks_live_partial {b e : Nat} {es : List Ev} {L : List Nat}
    (h : History false b e [] es L) :
    ∃ s, run (empty b e) es = some s ∧ Agrees b s L := by
  obtain ⟨s, h1, h2⟩ := inv_run (s := empty b e)
    ⟨rfl, rfl, fun i => by simp [empty], by simp⟩ h
  exact ⟨s, h1, h2.agrees⟩

/-- A history meeting the hypotheses. -/
example : History false 0x1000 0x9000 []
    [.alloc 0x1010, .realloc 0 24 0x1040, .realloc 0x1010 100 0x2000, .alloc 0, .free 0x1040]
    [0x2000] := by
  refine .cons (.alloc ?_) (.cons (.reallocNull (by decide) ?_) (.cons (.realloc (by simp) (by decide) ?_)
    (.cons .allocFail (.cons (.free (by simp)) ?_))))
  · constructor <;> simp
  · constructor <;> simp
  · constructor <;> simp
  · exact .nil

/-- A failing `realloc` leaves the chunk live but unmarked. -/
theorem failed_realloc_unmarks (b e : Nat) (hb : 0 < b) (he : b < e) (n : Nat) (hn : 0 < n) :
    History true b e [] [.alloc b, .realloc b n 0] [b] ∧
    ∃ s, run (empty b e) [.alloc b, .realloc b n 0] = some s ∧ ¬ Agrees b s [b] := by
  constructor
  · refine .cons (.alloc ⟨hb, Nat.le_refl _, he, by simp, by simp⟩)
      (.cons (.reallocFail rfl (by simp) hn) .nil)
  · have h1 : n ≠ 0 := by omega
    have h2 : b ≠ 0 := by omega
    refine ⟨_, by simp [run, exec, setMeta, clearMeta, empty, he, h1, h2]; rfl, ?_⟩
    intro h
    have := (h 0).2 (by simp)
    simp at this

/-- A successful `posix_memalign` is never marked. -/
theorem memalign_unmarked (b e : Nat) (hb : 0 < b) (he : b < e) :
    History true b e [] [.posixMemalign 0 b] [b] ∧
    ∃ s, run (empty b e) [.posixMemalign 0 b] = some s ∧ ¬ Agrees b s [b] := by
  constructor
  · exact .cons (.memalign rfl ⟨hb, Nat.le_refl _, he, by simp, by simp⟩) .nil
  · refine ⟨_, rfl, ?_⟩
    intro h
    have := (h 0).2 (by simp)
    simp [empty] at this

/-- `free(NULL)`, legal in C, fails an assertion. -/
theorem free_null_aborts (b e : Nat) (hb : 0 < b) :
    History true b e [] [.free 0] [] ∧ run (empty b e) [.free 0] = none := by
  constructor
  · exact .cons (.freeNull rfl) .nil
  · have : ¬ b = 0 := by omega
    simp [run, exec, clearMeta, empty, this]

/-! ### C54 -/

/-- C54 (partial): for chunks obtained by `realloc`, or whenever the underlying allocator left 8
spare bytes, the reported usable size covers the request. -/
theorem usable_covers_partial (size real : BitVec 64)
    (h : size.toNat + 8 ≤ real.toNat) : size.toNat ≤ (usableSize real).toNat := by
  unfold usableSize
  rw [BitVec.toNat_sub]
  have := real.isLt
  have h8 : (8#64).toNat = 8 := rfl
  rw [h8]
  omega

/-- The `realloc` wrapper does ask for those 8 bytes, unless the request wraps. -/
theorem realloc_usable_covers_partial (size real : BitVec 64) (hs : size.toNat + 8 < 2 ^ 64)
    (h : (reallocAsk size).toNat ≤ real.toNat) : size.toNat ≤ (usableSize real).toNat := by
  apply usable_covers_partial
  unfold reallocAsk at h
  rw [BitVec.toNat_add] at h
  have h8 : (8#64).toNat = 8 := rfl
  rw [h8] at h
  omega

example : (24#64).toNat + 8 < 2 ^ 64 ∧ (reallocAsk 24#64).toNat ≤ (40#64).toNat := by decide

/-- The `malloc` wrapper does not: with a tight underlying chunk the reported size is smaller than
the request. -/
theorem usable_covers_fails : ∃ size real : BitVec 64,
    (mallocAsk size).toNat ≤ real.toNat ∧ (usableSize real).toNat < size.toNat :=
  ⟨24#64, 24#64, by decide, by decide⟩

end Liballocs.PrivHeap
