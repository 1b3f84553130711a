import Verif.Props.Mmap
/-! # C66: when a mapping joins a mapping sequence -/
namespace Liballocs.MapSeq
open Mmap (run_within)

/-- Two call sites known to be in different objects. -/
def Apart (obj : Nat → Nat) (c d : Nat) : Prop := c ≠ 0 ∧ d ≠ 0 ∧ obj c ≠ obj d

/-- Rules for appending to a sequence whose last page is covered by `last`: both nameless, or an
inaccessible nameless range, or a nameless range after file contents from the same object, or more of
the same file. -/
def MayAppend (obj : Nat → Nat) (s : Seq) (last : Entry) (r : Req) : Prop :=
  (r.filename = none ∧ (s.filename = none ∨ r.prot = 0 ∨
    (last.anon = false ∧ ((r.caller = 0 ∧ last.caller = 0) ∨ obj r.caller = obj last.caller)))) ∨
  (r.filename ≠ none ∧ r.filename = s.filename)

/-- Rules for laying a range over part of a sequence: both nameless, or not of another file, with no
named page directly after a nameless one at either edge, and requested from the object that mapped the
page before it (or the first page, for a range at the start). -/
def MayReplace (obj : Nat → Nat) (s : Seq) (r : Req) : Prop :=
  (r.filename = none ∧ s.filename = none) ∨
  ((r.filename = none ∨ s.filename = none ∨ r.filename = s.filename) ∧
   (∀ e, s.begin < r.begin → findEntry s (r.begin - 1) = some e → r.filename ≠ none → e.anon = false) ∧
   (∀ e, findEntry s r.end = some e → r.filename = none → e.anon = true) ∧
   (∀ e, findEntry s (max s.begin (r.begin - 1)) = some e → ¬ Apart obj r.caller e.caller))

/-- Entries the array must have spare: one unless the range begins where the sequence does, and one
unless it ends where some entry does. -/
def spare (s : Seq) (r : Req) : Nat :=
  (if s.begin = r.begin then 0 else 1) + (if ∃ i, i < s.nused ∧ (s.slots i).end = r.end then 0 else 1)

/-- When a mapping that lies within a sequence or begins at its end is joined to it. -/
def Joins (obj : Nat → Nat) (s : Seq) (r : Req) : Prop :=
  s.nused = 0 ∨
  (s.nused < MAXLEN ∧ s.end = r.begin ∧ ∀ e, findEntry s (s.end - 1) = some e → MayAppend obj s e r) ∨
  (s.nused < MAXLEN ∧ s.begin ≤ r.begin ∧ r.begin < s.end ∧ s.nused + spare s r ≤ MAXLEN ∧ MayReplace obj s r)

theorem nameOkClean_iff (obj : Nat → Nat) (s : Seq) (r : Req) (hn : s.nused ≠ 0) :
    nameOkClean obj s r = true ↔ MayAppend obj s (s.slots (s.nused - 1)) r := by
  unfold nameOkClean MayAppend
  cases r.filename <;> cases s.filename <;> cases (s.slots (s.nused - 1)).anon <;> simp [hn]

theorem apart_iff (obj : Nat → Nat) (c d : Nat) :
    (c == 0 || d == 0 || obj c == obj d) = true ↔ ¬ Apart obj c d := by
  unfold Apart
  by_cases h1 : c = 0 <;> by_cases h2 : d = 0 <;> by_cases h3 : obj c = obj d <;> simp [h1, h2, h3]

theorem nameOkOverlap_iff (obj : Nat → Nat) {s : Seq} {r : Req} (hrun : Run s) {f l : Nat} (hfl : f ≤ l) (hl : l < s.nused)
    (h1 : s.begin ≤ r.begin) (h5 : (s.slots f).begin ≤ r.begin) (h6 : r.begin ≤ (s.slots f).end)
    (h7 : (s.slots l).begin < r.end) (h8 : r.end ≤ (s.slots l).end) (h9 : ∀ i, i < f → (s.slots i).end < r.begin) :
    nameOkOverlap obj s r f l ((s.slots f).begin != r.begin) ((s.slots l).end != r.end) = true ↔ MayReplace obj s r := by
  have hne := hrun.nonempty f (by omega)
  have hbf : (s.slots f).begin = r.begin → f = 0 := by
    intro h
    rcases Nat.eq_zero_or_pos f with z | z
    · exact z
    · have c := hrun.contig (f - 1) (by omega)
      have c9 := h9 (f - 1) (by omega)
      rw [show f - 1 + 1 = f by omega] at c
      omega
  have hb : (s.slots f).begin = r.begin ↔ s.begin = r.begin := by
    constructor
    · intro h; have := hbf h; subst this; rw [hrun.first]; exact h
    · intro h
      have := (run_within hrun (show f < s.nused by omega)).1
      omega
  have hmax : findEntry s (max s.begin (r.begin - 1)) = some (s.slots f) := by
    by_cases c : s.begin = r.begin
    · have := hb.2 c
      exact (findEntry_run hrun _).1 f (by omega) (by omega) (by omega)
    · have : (s.slots f).begin ≠ r.begin := fun h => c (hb.1 h)
      exact (findEntry_run hrun _).1 f (by omega) (by omega) (by omega)
  have hprec : (if ((s.slots f).begin != r.begin) then some f else if f = 0 then none else some (f - 1) : Option Nat) =
      if s.begin < r.begin then some f else none := by
    by_cases c : s.begin = r.begin
    · have c' := hb.2 c
      have := hbf c'
      rw [if_neg (by simp [c']), if_pos this, if_neg (by omega)]
    · have c' : (s.slots f).begin ≠ r.begin := fun h => c (hb.1 h)
      rw [if_pos (by simp [c']), if_pos (by omega)]
  have hfoll : ((if (if ((s.slots l).end != r.end) then l else l + 1) ≥ s.nused then none
        else some (if ((s.slots l).end != r.end) then l else l + 1) : Option Nat) = none ∧ findEntry s r.end = none) ∨
      ∃ k, (if (if ((s.slots l).end != r.end) then l else l + 1) ≥ s.nused then none
        else some (if ((s.slots l).end != r.end) then l else l + 1) : Option Nat) = some k ∧ findEntry s r.end = some (s.slots k) := by
    by_cases c : (s.slots l).end = r.end
    · by_cases c2 : l + 1 < s.nused
      · have := hrun.contig l c2
        have := hrun.nonempty (l + 1) c2
        right
        refine ⟨l + 1, ?_, (findEntry_run hrun r.end).1 (l + 1) c2 (by omega) (by omega)⟩
        simp [c, Nat.not_le.2 c2]
      · have := hrun.last
        rw [show s.nused - 1 = l by omega] at this
        left
        refine ⟨?_, (findEntry_run hrun r.end).2 (by omega)⟩
        simp [c, Nat.not_lt.1 c2]
    · right
      refine ⟨l, ?_, (findEntry_run hrun r.end).1 l hl (by omega) (by omega)⟩
      simp [c, Nat.not_le.2 hl]
  have hbef : s.begin < r.begin → findEntry s (r.begin - 1) = some (s.slots f) := by
    intro c
    rw [← hmax]; congr 1; omega
  have hpos := hrun.pos
  unfold nameOkOverlap MayReplace
  simp only
  rw [hprec, hmax]
  have hz : (s.nused == 0) = false := by simp; omega
  rw [hz, Bool.or_false]
  by_cases c0 : (r.filename.isNone && s.filename.isNone) = true
  · rw [if_pos c0]
    simp only [Bool.and_eq_true, Option.isNone_iff_eq_none] at c0
    simp [c0]
  · rw [if_neg c0]
    by_cases c1 : (r.filename.isSome && s.filename.isSome && r.filename != s.filename) = true
    · rw [if_pos c1]
      simp only [Bool.and_eq_true, Option.isSome_iff_ne_none, bne_iff_ne] at c1
      simp [c1]
    · rw [if_neg c1]
      have hc0 : ¬ (r.filename = none ∧ s.filename = none) := by simpa using c0
      have hc1 : r.filename = none ∨ s.filename = none ∨ r.filename = s.filename := by
        cases hr : r.filename <;> cases hs : s.filename <;> simp [hr, hs] at c1 ⊢
        exact c1
      rw [Bool.and_eq_true, apart_iff]
      have e3 : (∀ e, some (s.slots f) = some e → ¬ Apart obj r.caller e.caller) ↔ ¬ Apart obj r.caller (s.slots f).caller := by
        constructor
        · intro h; exact h _ rfl
        · rintro h e ⟨⟩; exact h
      rw [e3]
      simp only [hc0, hc1, false_or, true_and]
      rw [← and_assoc]
      apply and_congr_left
      intro _
      rcases hfoll with ⟨q1, q2⟩ | ⟨k, q1, q2⟩ <;> rw [q1, q2] <;> by_cases c : s.begin < r.begin
      · rw [hbef c, if_pos c]
        cases r.filename <;> cases (s.slots f).anon <;> simp [c]
      · rw [if_neg c]; simp [c]
      · rw [hbef c, if_pos c]
        cases r.filename <;> cases (s.slots f).anon <;> cases (s.slots k).anon <;> simp [c]
      · rw [if_neg c]
        cases r.filename <;> cases (s.slots k).anon <;> simp [c]

/-- C66: a mapping that lies within a sequence or begins at its end is recorded in it exactly when the
rules above allow it; otherwise the sequence is left as it was. -/
theorem join_exact (obj : Nat → Nat) (s : Seq) (r : Req) (hs : Good s) (hr : 0 < r.begin ∧ r.begin < r.end)
    (hfit : Fits s r) :
    (Joins obj s r → ∃ s', augment obj s r = .ret true s') ∧ (¬ Joins obj s r → augment obj s r = .ret false s) := by
  have hsane : s.nused = 0 ∨ Run s := by rcases hs.2 with ⟨z, _⟩ | h; exact Or.inl z; exact Or.inr h
  obtain ⟨b, s1, a1, a2, a3⟩ := augment_recorded obj hs hr hfit
  suffices h : (b = true ↔ Joins obj s r) by
    constructor
    · intro hj; rw [h.2 hj] at a1; exact ⟨s1, a1⟩
    · intro hj
      have hb : b = false := by cases b with | false => rfl | true => exact absurd (h.1 rfl) hj
      rw [hb, a2 hb] at a1; exact a1
  have fin : ∀ {x y : Bool} {t t' : Seq}, finish x t = .ret y t' → y = x := by
    intro x y t t' h
    unfold finish at h
    split at h
    · cases h; rfl
    · cases h
  have pick : ∀ {p q : Prop} [Decidable p] [Decidable q] {t t' : Seq} {y : Bool},
      (if p then Res.overrun else if q then Res.assertFail else finish true t) = .ret y t' → y = true := by
    intro p q _ _ t t' y h
    split at h
    · cases h
    · split at h
      · cases h
      · exact fin h
  unfold augment at a1
  rw [(sane_iff s).2 hsane] at a1
  simp only [Bool.not_true, Bool.false_eq_true, if_false] at a1
  rcases hs.2 with ⟨z1, z2, z3⟩ | hrun
  · -- empty
    have hc : isClean s r = true := by simp [isClean, z3]
    have hno : nameOkClean obj s r = true := by simp [nameOkClean, z1]
    rw [hc, if_pos (by simp [z1, z2, MAXLEN]), if_pos rfl, hno] at a1
    simp only [Bool.not_true, Bool.false_eq_true, if_false] at a1
    rw [if_neg (by simp [z1, MAXLEN])] at a1
    rw [fin a1]
    simp [Joins, z1]
  · have hp := hrun.pos
    have hlastne := hrun.nonempty (s.nused - 1) (by omega)
    have hlast := hrun.last
    have hcl : isClean s r = true ↔ s.end = r.begin := by
      simp only [isClean, Bool.or_eq_true, beq_iff_eq]; omega
    have hfl : findEntry s (s.end - 1) = some (s.slots (s.nused - 1)) :=
      (findEntry_run hrun _).1 (s.nused - 1) (by omega) (by omega) (by omega)
    unfold Joins
    rw [hfl]
    by_cases c1 : ((isClean s r || overlaps s.begin s.end r.begin r.end) && decide (r.begin ≥ s.begin) && s.nused != MAXLEN) = true
    · rw [if_pos c1] at a1
      simp only [Bool.and_eq_true, bne_iff_ne, ne_eq, decide_eq_true_eq, Bool.or_eq_true] at c1
      obtain ⟨⟨c1a, c1b⟩, c1c⟩ := c1
      have hlt : s.nused < MAXLEN := Nat.lt_of_le_of_ne hs.1 c1c
      by_cases c2 : isClean s r = true
      · have c2' := hcl.1 c2
        have e : (s.nused = 0 ∨ (s.nused < MAXLEN ∧ s.end = r.begin ∧ ∀ e, some (s.slots (s.nused - 1)) = some e → MayAppend obj s e r) ∨
            (s.nused < MAXLEN ∧ s.begin ≤ r.begin ∧ r.begin < s.end ∧ s.nused + spare s r ≤ MAXLEN ∧ MayReplace obj s r)) ↔
            nameOkClean obj s r = true := by
          rw [nameOkClean_iff obj s r (by omega)]
          constructor
          · rintro (h | ⟨_, _, h⟩ | ⟨_, _, h, _⟩)
            · omega
            · exact h _ rfl
            · omega
          · intro h
            exact Or.inr (Or.inl ⟨hlt, c2', by rintro e ⟨⟩; exact h⟩)
        rw [e]
        rw [if_pos c2] at a1
        cases hn : nameOkClean obj s r
        · rw [hn] at a1
          simp only [Bool.not_false, if_true] at a1
          rw [fin a1]
        · rw [hn] at a1
          simp only [Bool.not_true, Bool.false_eq_true, if_false] at a1
          rw [if_neg (by omega)] at a1
          rw [fin a1]
      · have c2' : s.end ≠ r.begin := fun h => c2 (hcl.2 h)
        rw [if_neg c2] at a1
        have hov : overlaps s.begin s.end r.begin r.end = true := by
          rcases c1a with h | h
          · exact absurd h c2
          · exact h
        simp only [overlaps, decide_eq_true_eq] at hov
        have hend : r.end ≤ s.end := by
          rcases hfit with h | h | h
          · exact h
          · exact absurd h c2'
          · omega
        obtain ⟨f, l, e1, e2, h1, h2, h5, h6, h7, h8, h9, h10, h11⟩ :=
          overlapped hrun (by omega) c1b hr.2 (by omega) hend
        have hok := nameOkOverlap_iff obj (r := r) hrun h1 h2 c1b h5 h6 h7 h8 h9
        have hsp : spare s r = ((s.slots f).begin != r.begin).toNat + ((s.slots l).end != r.end).toNat := by
          unfold spare
          congr 1
          · by_cases c : s.begin = r.begin
            · have := (run_within hrun (show f < s.nused by omega)).1
              have h : (s.slots f).begin = r.begin := by omega
              rw [if_pos c, h, bne_self_eq_false]; rfl
            · have hne : ((s.slots f).begin != r.begin) = true := by
                rw [bne_iff_ne]
                intro h
                apply c
                rcases Nat.eq_zero_or_pos f with z | z
                · subst z; rw [hrun.first]; exact h
                · have c := hrun.contig (f - 1) (by omega)
                  have c9 := h9 (f - 1) (by omega)
                  rw [show f - 1 + 1 = f by omega] at c
                  omega
              rw [if_neg c, hne]; rfl
          · by_cases c : (s.slots l).end = r.end
            · rw [if_pos ⟨l, h2, c⟩, c, bne_self_eq_false]; rfl
            · rw [if_neg, bne_iff_ne.2 c]
              · rfl
              · rintro ⟨i, i1, i2⟩
                have ni := hrun.nonempty i i1
                rcases Nat.lt_trichotomy i l with t | t | t
                · have := hrun.mono i l t h2; omega
                · subst t; exact c i2
                · have := h10 i t i1; omega
        have e : (s.nused = 0 ∨ (s.nused < MAXLEN ∧ s.end = r.begin ∧ ∀ e, some (s.slots (s.nused - 1)) = some e → MayAppend obj s e r) ∨
            (s.nused < MAXLEN ∧ s.begin ≤ r.begin ∧ r.begin < s.end ∧ s.nused + spare s r ≤ MAXLEN ∧ MayReplace obj s r)) ↔
            (s.nused + spare s r ≤ MAXLEN ∧ MayReplace obj s r) := by
          constructor
          · rintro (h | ⟨_, h, _⟩ | ⟨_, _, _, h⟩)
            · omega
            · omega
            · exact h
          · intro h
            exact Or.inr (Or.inr ⟨hlt, c1b, by omega, h⟩)
        rw [e, ← hok]
        unfold augmentOverlap at a1
        rw [e1, e2] at a1
        simp only at a1
        rw [hsp]
        cases hn : nameOkOverlap obj s r f l ((s.slots f).begin != r.begin) ((s.slots l).end != r.end)
        · rw [hn] at a1
          simp only [Bool.not_false, if_true] at a1
          rw [fin a1]
          simp
        · rw [hn] at a1
          simp only [Bool.not_true, Bool.false_eq_true, if_false] at a1
          split at a1
          · rw [fin a1]
            simp only [Bool.false_eq_true, false_iff]
            omega
          · rename_i hroom
            rw [pick a1]
            simp only [true_iff, and_true]
            omega
    · rw [if_neg c1] at a1
      rw [fin a1]
      simp only [Bool.false_eq_true, false_iff]
      simp only [Bool.and_eq_true, bne_iff_ne, ne_eq, decide_eq_true_eq, Bool.or_eq_true, hcl, overlaps] at c1
      have hbe := run_within hrun (show s.nused - 1 < s.nused by omega)
      rintro (h | ⟨h1, h2, _⟩ | ⟨h1, h2, h3, _⟩)
      · omega
      · exact c1 ⟨⟨Or.inl h2, by omega⟩, by omega⟩
      · exact c1 ⟨⟨Or.inr (by omega), by omega⟩, by omega⟩

/-- A sequence never mixes files: whatever is recorded in a named sequence is of that file or nameless. -/
theorem join_one_file (obj : Nat → Nat) (s : Seq) (r : Req) (hs : Good s) (hr : 0 < r.begin ∧ r.begin < r.end)
    (hfit : Fits s r) (hn : s.nused ≠ 0) (hsf : s.filename ≠ none) (hrf : r.filename ≠ none) (s' : Seq)
    (h : augment obj s r = .ret true s') : r.filename = s.filename ∧ s'.filename = s.filename := by
  have hj : Joins obj s r := by
    refine Classical.byContradiction fun c => ?_
    have := (join_exact obj s r hs hr hfit).2 c
    rw [h] at this; cases this
  have h2 : s'.filename = s.filename := by
    obtain ⟨b, s1, a1, _, a3⟩ := augment_recorded obj hs hr hfit
    rw [h] at a1; cases a1
    cases (a3 rfl).1 with
    | clean _ _ _ _ _ hf =>
      rw [hf]
      cases hh : s.filename
      · exact absurd hh hsf
      · rfl
    | overlap _ _ _ _ _ _ _ _ _ _ _ _ _ _ _ _ _ _ hf => exact hf
  refine ⟨?_, h2⟩
  have hrun : Run s := by
    rcases hs.2 with ⟨z, _⟩ | h
    · exact absurd z hn
    · exact h
  rcases hj with h | ⟨_, _, h⟩ | ⟨_, _, _, _, h⟩
  · exact absurd h hn
  · have hne := hrun.nonempty (s.nused - 1) (by have := hrun.pos; omega)
    have hl := hrun.last
    rcases h _ ((findEntry_run hrun (s.end - 1)).1 (s.nused - 1) (by have := hrun.pos; omega) (by omega) (by omega)) with ⟨c, _⟩ | ⟨_, c⟩
    · exact absurd c hrf
    · exact c
  · rcases h with ⟨c, _⟩ | ⟨c | c | c, _⟩
    · exact absurd c hrf
    · exact absurd c hrf
    · exact absurd c hsf
    · exact c

/-- The arrangement the code maintains: a nameless sequence has nameless entries only, and no file
contents follow nameless memory. -/
def Tidy (s : Seq) : Prop :=
  (s.filename = none → ∀ a e, findEntry s a = some e → e.anon = true) ∧
  (∀ a b e e', a ≤ b → findEntry s a = some e → findEntry s b = some e' → e.anon = true → e'.anon = true)

/-- C66 (partial): recording preserves the arrangement.  Partial: file contents must go into a named
(or empty) sequence, and not directly after nameless memory at its end. -/
theorem join_tidy_partial (obj : Nat → Nat) (s : Seq) (r : Req) (hs : Good s) (hr : 0 < r.begin ∧ r.begin < r.end)
    (hfit : Fits s r) (ht : Tidy s) (hok : r.filename ≠ none → s.nused = 0 ∨ (s.filename ≠ none ∧
      ∀ e, s.end = r.begin → findEntry s (s.end - 1) = some e → e.anon = false)) (s' : Seq)
    (h : augment obj s r = .ret true s') : Tidy s' := by
  have hj : Joins obj s r := by
    refine Classical.byContradiction fun c => ?_
    have := (join_exact obj s r hs hr hfit).2 c
    rw [h] at this; cases this
  obtain ⟨b, s1, a1, _, a3⟩ := augment_recorded obj hs hr hfit
  rw [h] at a1; cases a1
  have hrec := (a3 rfl).1
  have hfind := recorded_find hs hr hrec
  have hrun' := recorded_run hs hr hrec
  have hout : ∀ {a e'}, ¬ (r.begin ≤ a ∧ a < r.end) → findEntry s' a = some e' → ∃ e, findEntry s a = some e ∧ e.anon = e'.anon := by
    intro a e' ha he
    rcases (hfind a).2 ha with ⟨_, x⟩ | ⟨e, e2, x, y, z, _⟩
    · rw [he] at x; cases x
    · rw [he] at y; cases y
      exact ⟨e, x, by have := congrArg Attr.anon z; exact this.symm⟩
  have hin : ∀ {a e'}, (r.begin ≤ a ∧ a < r.end) → findEntry s' a = some e' → e'.anon = r.filename.isNone := by
    intro a e' ha he
    rw [(hfind a).1 ha] at he; cases he; rfl
  have hbound : ∀ {a e}, findEntry s a = some e → s.begin ≤ a ∧ a < s.end ∧ Run s := by
    intro a e he
    rcases hs.2 with ⟨z, _⟩ | hrun
    · unfold findEntry at he; rw [z] at he; cases he
    · by_cases c : a < s.begin ∨ s.end ≤ a
      · rw [(findEntry_run hrun a).2 c] at he; cases he
      · exact ⟨by omega, by omega, hrun⟩
  have hfn : s'.filename = none → r.filename = none := by
    intro hf
    cases hrec with
    | clean hc _ _ _ _ hf' =>
      rw [hf'] at hf
      cases hh : s.filename
      · rw [hh] at hf; exact hf
      · rw [hh] at hf; simp at hf
    | overlap f l bp ep h1 h2 _ _ _ _ _ _ _ _ _ _ _ _ hf' =>
      rw [hf'] at hf
      refine Classical.byContradiction fun c => ?_
      rcases hok c with z | ⟨z, _⟩
      · omega
      · exact z hf
  have hsn : s'.filename = none → s.filename = none := by
    intro hf
    cases hrec with
    | clean hc _ _ _ _ hf' =>
      rw [hf'] at hf
      cases hh : s.filename
      · rfl
      · rw [hh] at hf; simp at hf
    | overlap f l bp ep h1 h2 _ _ _ _ _ _ _ _ _ _ _ _ hf' => rw [hf'] at hf; exact hf
  refine ⟨?_, ?_⟩
  · intro hf a e he
    by_cases ha : r.begin ≤ a ∧ a < r.end
    · rw [hin ha he, hfn hf]; rfl
    · obtain ⟨e0, x, y⟩ := hout ha he
      rw [← y]; exact ht.1 (hsn hf) a e0 x
  · intro a b e e' hab he he' hanon
    by_cases ha : r.begin ≤ a ∧ a < r.end
    · have hr0 : r.filename = none := by
        have := hin ha he; rw [hanon] at this; exact Option.isNone_iff_eq_none.1 this.symm
      by_cases hb : r.begin ≤ b ∧ b < r.end
      · rw [hin hb he', hr0]; rfl
      · obtain ⟨e0, x, y⟩ := hout hb he'
        rw [← y]
        obtain ⟨b1, b2, hrun⟩ := hbound x
        rcases hj with z | ⟨_, z, _⟩ | ⟨_, z1, z2, _, z⟩
        · have := hrun.pos; omega
        · omega
        · rcases z with ⟨_, z⟩ | ⟨_, _, z, _⟩
          · exact ht.1 z b e0 x
          · obtain ⟨i, i1, i2, i3⟩ := hrun.locate r.end (by omega) (by omega)
            have hf := (findEntry_run hrun r.end).1 i i1 i2 i3
            exact ht.2 r.end b _ e0 (by omega) hf x (z _ hf hr0)
    · obtain ⟨e0, x, y⟩ := hout ha he
      rw [hanon] at y
      obtain ⟨a1, a2, hrun⟩ := hbound x
      by_cases hb : r.begin ≤ b ∧ b < r.end
      · rw [hin hb he']
        refine Classical.byContradiction fun c => ?_
        have hr0 : r.filename ≠ none := by
          intro hh; rw [hh] at c; simp at c
        rcases hj with z | ⟨_, z, _⟩ | ⟨_, z1, z2, _, z⟩
        · have := hrun.pos; omega
        · obtain ⟨i, i1, i2, i3⟩ := hrun.locate (s.end - 1) (by omega) (by omega)
          have hf := (findEntry_run hrun _).1 i i1 i2 i3
          rcases hok hr0 with q | ⟨_, q⟩
          · have := hrun.pos; omega
          · have := q _ z hf
            rw [ht.2 a (s.end - 1) e0 _ (by omega) x hf y] at this
            cases this
        · rcases z with ⟨z, _⟩ | ⟨_, z, _⟩
          · exact hr0 z
          · obtain ⟨i, i1, i2, i3⟩ := hrun.locate (r.begin - 1) (by omega) (by omega)
            have hf := (findEntry_run hrun _).1 i i1 i2 i3
            have := z _ (by omega) hf hr0
            rw [ht.2 a (r.begin - 1) e0 _ (by omega) x hf y] at this
            cases this
      · obtain ⟨e1, x1, y1⟩ := hout hb he'
        rw [← y1]
        exact ht.2 a b e0 e1 hab x x1 y

/-- Text of file 1 followed by nameless memory. -/
def exTail : Seq := ofList [⟨0x1000, 0x3000, 5, 2, 0, false, 0⟩, ⟨0x3000, 0x4000, 3, 0x22, 0, true, 0⟩] (some 1)

/-- Two nameless entries. -/
def exAnon : Seq := ofList [⟨0x1000, 0x3000, 3, 0x22, 0, true, 7⟩, ⟨0x3000, 0x4000, 1, 0x22, 0, true, 7⟩] none

theorem exTail_good : Good exTail := by
  refine ⟨by decide, Or.inr ((sane_iff exTail).1 (by decide) |>.resolve_left (by decide))⟩
theorem exAnon_good : Good exAnon := by
  refine ⟨by decide, Or.inr ((sane_iff exAnon).1 (by decide) |>.resolve_left (by decide))⟩

/-- C66 fails: more of the same file is recorded after the nameless memory that ends the sequence, so
file contents follow nameless memory; and a file laid over the start of a nameless sequence leaves
file contents in a sequence with no name. -/
theorem join_tidy_fails :
    (augment id exTail ⟨0x4000, 0x5000, 5, 2, 0x3000, some 1, 0⟩).recorded.map
      (fun s => (List.range s.nused).map (fun i => (s.slots i).anon)) = some [false, true, false] ∧
    (augment id exAnon ⟨0x1000, 0x2000, 5, 2, 0, some 1, 7⟩).recorded.map
      (fun s => (s.filename, (List.range s.nused).map (fun i => (s.slots i).anon))) = some (none, [false, true, true]) := by
  decide

/-- C66 example: nameless memory from the object that mapped the file joins it; from another object it
does not, unless it is inaccessible. -/
example : (augment id exSeq ⟨0x8000, 0x9000, 3, 0x22, 0, none, 0⟩).recorded.isSome = true ∧
    (augment id exSeq ⟨0x8000, 0x9000, 3, 0x22, 0, none, 5⟩).recorded.isSome = false ∧
    (augment id exSeq ⟨0x8000, 0x9000, 0, 0x22, 0, none, 5⟩).recorded.isSome = true ∧
    (augment id exSeq ⟨0x8000, 0x9000, 3, 2, 0, some 2, 0⟩).recorded.isSome = false ∧
    (augment id exAnon ⟨0x2000, 0x3800, 7, 0x22, 0, none, 8⟩).recorded.isSome = true := by decide

end Liballocs.MapSeq

namespace Liballocs.Mmap
open MapSeq (Seq Req Res Joins join_exact Fits findEntry MAXLEN augment spare MayReplace)
open Munmap

/-- A range inside a known mapping is recorded exactly when it may join that mapping's sequence. -/
theorem record_inside (obj : Nat → Nat) {st : List Mapping} {r : Req} (hw : Wf st) (hr : 0 < r.begin ∧ r.begin < r.end)
    (ha : r.begin % PAGE = 0) (he : r.end % PAGE = 0) {b : Mapping} (hb : b ∈ st) (h1 : b.begin ≤ r.begin) (h2 : r.end ≤ b.end)
    (h3 : b.begin < r.begin ∨ lookup st (r.begin - 1) = none) :
    (Joins obj b.seq r → ∃ st', record obj st r = .ok st') ∧ (¬ Joins obj b.seq r → record obj st r = .overlaid) := by
  have hbw := hw.each b hb
  have hbef : before st r.begin (r.end - r.begin) = some b := by
    unfold before
    rcases Nat.lt_or_ge b.begin r.begin with c | c
    · rw [lookup_of_mem hw hb (a := r.begin - 1) ⟨by omega, by omega⟩]
    · have hn : lookup st (r.begin - 1) = none := by
        rcases h3 with h | h
        · omega
        · exact h
      rw [hn]
      simp only
      rw [lookup_of_mem hw hb (a := r.begin) ⟨by omega, by omega⟩,
        lookup_of_mem hw hb (a := r.begin + (r.end - r.begin) - 1) ⟨by omega, by omega⟩]
      simp
  have hfit : Fits b.seq r := Or.inl (by rw [hbw.se]; exact h2)
  obtain ⟨j1, j2⟩ := join_exact obj b.seq r hbw.inv.1 hr hfit
  unfold record
  rw [hbef]
  simp only
  constructor
  · intro hj
    obtain ⟨s', hs'⟩ := j1 hj
    rw [hs']
    simp only
    rw [if_neg (by omega)]
    exact ⟨_, rfl⟩
  · intro hj
    rw [j2 hj]
    simp only
    rw [subst_self hw hb]
    exact (create_ok obj hw hr ha he).2 (fun hc => by
      rcases hc b hb with h | h <;> omega)

/-- C64: a fixed mapping inside a known mapping is recorded there, with its attributes and without
disturbing any other address, whenever it may join the sequence; otherwise the notification lays a
second big allocation over the first. -/
theorem mmap_fixed_inside (obj : Nat → Nat) (st : List Mapping) (mapped len prot flags : Nat) (filename : Option Nat)
    (offset caller : Nat) (hw : Wf st) (ha : mapped % PAGE = 0) (h0 : 0 < mapped) (hl : 0 < len) (hf : flags / 16 % 2 = 1)
    (b : Mapping) (hb : b ∈ st) (h1 : b.begin ≤ mapped) (h2 : mapped + (len + 4095) / 4096 * 4096 ≤ b.end)
    (h3 : b.begin < mapped ∨ lookup st (mapped - 1) = none) :
    (Joins obj b.seq ⟨mapped, mapped + (len + 4095) / 4096 * 4096, prot, flags, offset, filename, caller⟩ →
      ∃ st', notifyMmap obj st mapped len prot flags filename offset caller = .ok st' ∧ Wf st' ∧ ∀ a, attrAt st' a =
        if mapped ≤ a ∧ a < mapped + (len + 4095) / 4096 * 4096 then some ⟨prot, flags, filename.isNone, caller⟩ else attrAt st a) ∧
    (¬ Joins obj b.seq ⟨mapped, mapped + (len + 4095) / 4096 * 4096, prot, flags, offset, filename, caller⟩ →
      notifyMmap obj st mapped len prot flags filename offset caller = .overlaid) := by
  obtain ⟨hl1, hl2, hl3⟩ := roundUp_pos hl
  have hru : roundUp len PAGE = (len + 4095) / 4096 * 4096 := rfl
  have hP : PAGE = 4096 := rfl
  have hrec := record_inside obj (r := ⟨mapped, mapped + (len + 4095) / 4096 * 4096, prot, flags, offset, filename, caller⟩) hw
    ⟨h0, by simp only; omega⟩ ha (by simp only; rw [hP] at ha ⊢; omega) hb h1 h2 h3
  have hun : notifyMmap obj st mapped len prot flags filename offset caller =
      record obj st ⟨mapped, mapped + (len + 4095) / 4096 * 4096, prot, flags, offset, filename, caller⟩ := by
    unfold notifyMmap doMmap
    rw [if_neg (by omega)]
    simp only
    rw [if_neg (by simp [isFixed, hf])]
    rfl
  rw [hun]
  refine ⟨fun hj => ?_, hrec.2⟩
  obtain ⟨st', e⟩ := hrec.1 hj
  refine ⟨st', e, ?_⟩
  rw [← hun] at e
  exact mmap_completed_partial obj st st' mapped len prot flags filename offset caller hw ha hl e

/-- Nameless memory inside a known nameless mapping of at most six entries may always be remapped. -/
theorem mmap_fixed_anon (obj : Nat → Nat) (st : List Mapping) (mapped len prot flags : Nat)
    (offset caller : Nat) (hw : Wf st) (ha : mapped % PAGE = 0) (h0 : 0 < mapped) (hl : 0 < len) (hf : flags / 16 % 2 = 1)
    (b : Mapping) (hb : b ∈ st) (h1 : b.begin ≤ mapped) (h2 : mapped + (len + 4095) / 4096 * 4096 ≤ b.end)
    (h3 : b.begin < mapped ∨ lookup st (mapped - 1) = none) (hn : b.seq.filename = none) (hroom : b.seq.nused ≤ 6) :
    ∃ st', notifyMmap obj st mapped len prot flags none offset caller = .ok st' ∧ Wf st' ∧ ∀ a, attrAt st' a =
      if mapped ≤ a ∧ a < mapped + (len + 4095) / 4096 * 4096 then some ⟨prot, flags, true, caller⟩ else attrAt st a := by
  have hbw := hw.each b hb
  refine (mmap_fixed_inside obj st mapped len prot flags none offset caller hw ha h0 hl hf b hb h1 h2 h3).1 (Or.inr (Or.inr ?_))
  have hM : MAXLEN = 8 := rfl
  have hl' : 0 < (len + 4095) / 4096 * 4096 := by omega
  refine ⟨by omega, by rw [hbw.sb]; exact h1, by rw [hbw.se]; simp only; omega, ?_, Or.inl ⟨rfl, hn⟩⟩
  unfold spare
  split <;> split <;> omega

/-- C64 example: both outcomes, in the mappings of the other examples. -/
example : (notifyMmap (fun _ => 0) ex 0x3000 0x1000 7 0x12 (some 1) 0x2000 9).completed = true ∧
    (match notifyMmap (fun _ => 0) ex 0x3000 0x1000 3 0x12 (some 2) 0 0 with | .overlaid => true | _ => false) = true := by decide +kernel

end Liballocs.Mmap
