import Verif.Proofs.MapSeqDel
/-! # C21, C22, C23: mapping sequences -/
namespace Liballocs.MapSeq

/-- The state of a sequence between operations: empty and fresh, or a run of at most `MAXLEN`
non-empty contiguous entries. -/
def Good (s : Seq) : Prop := s.nused ≤ MAXLEN ∧ ((s.nused = 0 ∧ s.begin = 0 ∧ s.end = 0) ∨ Run s)

/-- The mapping lies within the sequence, or begins at its end (or the sequence is empty). -/
def Fits (s : Seq) (r : Req) : Prop := r.end ≤ s.end ∨ s.end = r.begin ∨ s.nused = 0

/-! ### What recording does -/

/-- Slot-level description of a successful recording. -/
inductive Recorded (s : Seq) (r : Req) (s' : Seq) : Prop
  | clean : (s.nused = 0 ∨ s.end = r.begin) → s'.nused = s.nused + 1 → s'.begin = (if s.begin = 0 then r.begin else s.begin) →
      s'.end = r.end → (∀ i, s'.slots i = if i = s.nused then r.entry else s.slots i) →
      s'.filename = (if s.filename.isNone then r.filename else s.filename) → Recorded s r s'
  | overlap (f l : Nat) (bp ep : Bool) : f ≤ l → l < s.nused → (bp = true ↔ (s.slots f).begin ≠ r.begin) →
      (ep = true ↔ (s.slots l).end ≠ r.end) → (s.slots f).begin ≤ r.begin → r.begin ≤ (s.slots f).end →
      (s.slots l).begin < r.end → r.end ≤ (s.slots l).end →
      (∀ i, i < f → (s.slots i).end < r.begin) → (∀ i, l < i → i < s.nused → r.end ≤ (s.slots i).begin) →
      (f = l → r.begin < (s.slots f).end) →
      s'.nused + (l - f) = s.nused + bp.toNat + ep.toNat → s'.begin = s.begin → s'.end = s.end →
      s'.filename = s.filename →
      (∀ i, i < s'.nused → s'.slots i = target s r f l bp ep i) →
      (∀ i, s'.nused ≤ i → s'.slots i = s.slots i ∨ (0 < i ∧ s'.slots i = s.slots (i - 1)) ∨
        (1 < i ∧ s'.slots i = s.slots (i - 2)) ∨
        (f < l ∧ (s'.slots i = { s.slots l with begin := r.end } ∧ ep = true ∨ s'.slots i = { s.slots l with «end» := r.end }))) →
      Recorded s r s'

theorem recorded_run {s : Seq} {r : Req} {s' : Seq} (hs : Good s) (hr : 0 < r.begin ∧ r.begin < r.end)
    (h : Recorded s r s') : Run s' := by
  cases h with
  | clean hc hn hb he hsl hfn =>
    rcases hs.2 with ⟨z1, z2, z3⟩ | hrun
    · refine ⟨by omega, ?_, ?_, ?_, ?_⟩
      · rw [hb, hsl, z1, if_pos rfl, if_pos z2]; rfl
      · rw [he, hn, hsl, z1, if_pos rfl]; rfl
      · intro i hi
        have : i = s.nused := by omega
        rw [hsl, if_pos this]; exact hr
      · intro i hi; omega
    · have hp := hrun.pos
      have hb0 := (hrun.nonempty 0 hp).1
      have hf := hrun.first
      have hend : s.end = r.begin := by rcases hc with h | h; omega; exact h
      refine ⟨by omega, ?_, ?_, ?_, ?_⟩
      · rw [hb, if_neg (by omega), hsl, if_neg (by omega), hf]
      · rw [he, hn, hsl, if_pos (by omega)]; rfl
      · intro i hi
        rw [hsl]
        by_cases c : i = s.nused
        · rw [if_pos c]; exact hr
        · rw [if_neg c]; exact hrun.nonempty i (by omega)
      · intro i hi
        rw [hsl, hsl, if_neg (by omega)]
        by_cases c : i + 1 = s.nused
        · rw [if_pos c]
          have := hrun.last
          have e : s.nused - 1 = i := by omega
          rw [e] at this
          rw [← this]; exact hend
        · rw [if_neg c]; exact hrun.contig i (by omega)
  | overlap f l bp ep h1 h2 hbp hep h5 h6 h7 h8 h9 h10 h11 hn hb he hfn hsl hst =>
    have hrun : Run s := by rcases hs.2 with ⟨z, _⟩ | h; omega; exact h
    have t1 : ∀ i, i < f → target s r f l bp ep i = s.slots i := by intro i hi; unfold target; rw [if_pos hi]
    have t2 : bp = true → target s r f l bp ep f = { s.slots f with «end» := r.begin } := by
      intro h; unfold target; rw [if_neg (by omega), if_pos ⟨h, rfl⟩]
    have t3 : target s r f l bp ep (f + bp.toNat) = r.entry := by
      unfold target
      rw [if_neg (by omega), if_neg, if_pos rfl]
      rintro ⟨rfl, h⟩; simp at h
    have t4 : ep = true → target s r f l bp ep (f + bp.toNat + 1) = { s.slots l with begin := r.end } := by
      intro h; unfold target
      rw [if_neg (by omega), if_neg (by omega), if_neg (by omega), if_pos ⟨h, rfl⟩]
    have t5 : ∀ i, f + bp.toNat + ep.toNat < i → target s r f l bp ep i = s.slots (i + l - (f + bp.toNat + ep.toNat)) := by
      intro i hi; unfold target
      rw [if_neg (by omega), if_neg (by omega), if_neg (by omega), if_neg]
      rintro ⟨rfl, h⟩; simp at hi; omega
    have hbn : bp.toNat = if (s.slots f).begin ≠ r.begin then 1 else 0 := by
      cases bp
      · rw [if_neg (by simpa using hbp)]; rfl
      · rw [if_pos (hbp.1 rfl)]; rfl
    have hen : ep.toNat = if (s.slots l).end ≠ r.end then 1 else 0 := by
      cases ep
      · rw [if_neg (by simpa using hep)]; rfl
      · rw [if_pos (hep.1 rfl)]; rfl
    have hpos : 0 < s'.nused := by omega
    refine ⟨hpos, ?_, ?_, ?_, ?_⟩
    · rw [hb, hsl 0 hpos, hrun.first]
      rcases Nat.eq_zero_or_pos f with h0 | h0
      · subst h0
        cases bp
        · have := t3; simp only [Bool.toNat_false, Nat.add_zero] at this
          rw [this]
          have : (s.slots 0).begin = r.begin := by simpa using hbp
          rw [this]; rfl
        · rw [t2 rfl]
      · rw [t1 0 h0]
    · rw [he, hsl (s'.nused - 1) (by omega), hrun.last]
      by_cases c : l = s.nused - 1
      · cases ep
        · have e : s'.nused - 1 = f + bp.toNat := by simp only [Bool.toNat_false] at hn; omega
          rw [e, t3, ← c]
          have : (s.slots l).end = r.end := by simpa using hep
          rw [this]; rfl
        · have e : s'.nused - 1 = f + bp.toNat + 1 := by simp only [Bool.toNat_true] at hn; omega
          rw [e, t4 rfl, c]
      · rw [t5 (s'.nused - 1) (by omega)]
        congr 2; omega
    · intro i hi
      rw [hsl i hi]
      by_cases c1 : i < f
      · rw [t1 i c1]; exact hrun.nonempty i (by omega)
      by_cases c2 : bp = true ∧ i = f
      · obtain ⟨cb, rfl⟩ := c2
        rw [t2 cb]
        have := hbp.1 cb
        have := (hrun.nonempty i (by omega)).1
        simp only; omega
      by_cases c3 : i = f + bp.toNat
      · rw [c3, t3]; exact hr
      by_cases c4 : ep = true ∧ i = f + bp.toNat + 1
      · obtain ⟨ce, rfl⟩ := c4
        rw [t4 ce]
        have := hep.1 ce
        simp only; omega
      · have : f + bp.toNat + ep.toNat < i := by
          cases bp <;> cases ep <;> simp only [Bool.toNat_true, Bool.toNat_false, true_and, Bool.false_eq_true, false_and, not_false_eq_true, Nat.add_zero] at * <;> omega
        rw [t5 i this]; exact hrun.nonempty _ (by omega)
    · intro i hi
      rw [hsl i (by omega), hsl (i + 1) hi]
      by_cases c1 : i + 1 < f
      · rw [t1 i (by omega), t1 (i + 1) c1]; exact hrun.contig i (by omega)
      by_cases c2 : i + 1 = f
      · rw [t1 i (by omega), c2]
        have hc := hrun.contig i (by omega)
        rw [c2] at hc
        cases bp
        · have := t3; simp only [Bool.toNat_false, Nat.add_zero] at this
          rw [this, hc]; show _ = r.begin; simpa using hbp
        · rw [t2 rfl, hc]
      by_cases c3 : bp = true ∧ i = f
      · obtain ⟨rfl, rfl⟩ := c3
        rw [t2 rfl]
        have := t3; simp only [Bool.toNat_true] at this
        rw [this]; rfl
      by_cases c4 : i = f + bp.toNat
      · rw [c4, t3]
        cases ep
        · rw [t5 _ (by simp)]
          have e : (s.slots l).end = r.end := by simpa using hep
          simp only [Bool.toNat_false, Nat.add_zero] at *
          have := hrun.contig l (by omega)
          rw [show f + bp.toNat + 1 + l - (f + bp.toNat) = l + 1 by omega, ← this, e]; rfl
        · rw [t4 rfl]; rfl
      by_cases c5 : ep = true ∧ i = f + bp.toNat + 1
      · obtain ⟨rfl, rfl⟩ := c5
        rw [t4 rfl, t5 _ (by simp)]
        simp only [Bool.toNat_true] at *
        have := hrun.contig l (by omega)
        rw [show f + bp.toNat + 1 + 1 + l - (f + bp.toNat + 1) = l + 1 by omega, ← this]
      · have : f + bp.toNat + ep.toNat < i := by
          cases bp <;> cases ep <;> simp only [Bool.toNat_true, Bool.toNat_false, true_and, Bool.false_eq_true, false_and, not_false_eq_true, Nat.add_zero] at * <;> omega
        rw [t5 i this, t5 (i + 1) (by omega)]
        have := hrun.contig (i + l - (f + bp.toNat + ep.toNat)) (by omega)
        rw [this]; congr 2; omega

theorem finish_ok {b : Bool} {s : Seq} (h : s.nused = 0 ∨ Run s) : finish b s = .ret b s := by
  unfold finish; rw [if_pos ((sane_iff s).2 h)]

/-- Recording a mapping that fits never fails an assertion: it either refuses and leaves the sequence
alone or records. -/
theorem augment_recorded (obj : Nat → Nat) {s : Seq} {r : Req} (hs : Good s) (hr : 0 < r.begin ∧ r.begin < r.end)
    (hfit : Fits s r) :
    ∃ b s', augment obj s r = .ret b s' ∧ (b = false → s' = s) ∧
      (b = true → Recorded s r s' ∧ s'.nused ≤ MAXLEN) := by
  have hsane : s.nused = 0 ∨ Run s := by rcases hs.2 with ⟨z, _⟩ | h; exact Or.inl z; exact Or.inr h
  unfold augment
  rw [(sane_iff s).2 hsane]
  simp only [Bool.not_true, Bool.false_eq_true, if_false]
  by_cases c1 : ((isClean s r || overlaps s.begin s.end r.begin r.end) && decide (r.begin ≥ s.begin) && s.nused != MAXLEN) = true
  · rw [if_pos c1]
    simp only [Bool.and_eq_true, bne_iff_ne, ne_eq, decide_eq_true_eq, Bool.or_eq_true] at c1
    obtain ⟨⟨c1a, c1b⟩, c1c⟩ := c1
    have hlt : s.nused < MAXLEN := Nat.lt_of_le_of_ne hs.1 c1c
    by_cases c2 : isClean s r = true
    · rw [if_pos c2]
      by_cases c3 : nameOkClean obj s r = true
      · rw [c3]
        simp only [Bool.not_true, Bool.false_eq_true, if_false]
        rw [if_neg (by omega)]
        have hcl : s.nused = 0 ∨ s.end = r.begin := by
          simp only [isClean, Bool.or_eq_true, beq_iff_eq] at c2
          rcases c2 with h | h
          · rcases hs.2 with ⟨z, _⟩ | hrun
            · exact Or.inl z
            · have hp := hrun.pos
              have := hrun.nonempty (s.nused - 1) (by omega)
              have := hrun.last
              omega
          · exact Or.inr h
        have hrec : Recorded s r (setSlot { s with
            begin := if s.begin = 0 then r.begin else s.begin
            «end» := r.end
            filename := if s.filename.isNone then r.filename else s.filename
            nused := s.nused + 1 } s.nused r.entry) :=
          .clean hcl rfl rfl rfl (fun i => rfl) rfl
        rw [finish_ok (Or.inr (recorded_run hs hr hrec))]
        refine ⟨true, _, rfl, by simp, fun _ => ⟨hrec, ?_⟩⟩
        show s.nused + 1 ≤ MAXLEN; omega
      · rw [Bool.not_eq_true] at c3
        rw [c3]
        simp only [Bool.not_false, if_true]
        rw [finish_ok hsane]
        exact ⟨false, s, rfl, by simp, by simp⟩
    · rw [if_neg c2]
      have c2' := c2
      simp only [isClean, Bool.or_eq_true, beq_iff_eq, not_or] at c2'
      have hov : overlaps s.begin s.end r.begin r.end = true := by
        rcases c1a with h | h
        · exact absurd h c2
        · exact h
      simp only [overlaps, decide_eq_true_eq] at hov
      have hrun : Run s := by
        rcases hs.2 with ⟨z1, z2, z3⟩ | h
        · exact absurd z3 c2'.1
        · exact h
      have hend : r.end ≤ s.end := by
        rcases hfit with h | h | h
        · exact h
        · exact absurd h c2'.2
        · have := hrun.pos; omega
      obtain ⟨f, l, e1, e2, h1, h2, h5, h6, h7, h8, h9, h10, h11⟩ :=
        overlapped hrun (by omega) c1b hr.2 (by omega) hend
      unfold augmentOverlap
      rw [e1, e2]
      simp only
      cases hbp : ((s.slots f).begin != r.begin) <;> cases hep : ((s.slots l).end != r.end)
      all_goals
        by_cases c4 : nameOkOverlap obj s r f l ((s.slots f).begin != r.begin) ((s.slots l).end != r.end) = true
        · rw [hbp, hep] at c4
          rw [c4]
          simp only [Bool.not_true, Bool.false_eq_true, if_false]
          split
          · rw [finish_ok hsane]; exact ⟨false, s, rfl, by simp, by simp⟩
          · rename_i hroom
            obtain ⟨g1, g2, g3, g4, g5, g6, g7⟩ := final_slots s r f l ((s.slots f).begin != r.begin) ((s.slots l).end != r.end) h1 h2
              _ _ _ _ _ rfl rfl rfl rfl rfl
            have gst := stale_slots s r f l ((s.slots f).begin != r.begin) ((s.slots l).end != r.end) h1 h2
            simp only [hbp, hep] at g1 g2 g3 g4 g5 g6 g7
            have hM : MAXLEN = 8 := rfl
            simp only [Bool.toNat_true, Bool.toNat_false, Bool.false_eq_true, if_true, if_false] at g1 g2 g3 g4 g5 g6 hroom ⊢
            rw [if_neg (by omega), if_neg (by omega)]
            have hrec := Recorded.overlap (s := s) (r := r) f l ((s.slots f).begin != r.begin) ((s.slots l).end != r.end) h1 h2 (by simp) (by simp) h5 h6 h7 h8 h9 h10 h11
              (by rw [hbp, hep]; exact g3) g4 g5 g6 (by rw [hbp, hep]; exact g7)
              (by rw [hbp, hep] at gst; rw [hep]; exact gst)
            rw [finish_ok (Or.inr (recorded_run hs hr hrec))]
            exact ⟨true, _, rfl, by simp, fun _ => ⟨hrec, by omega⟩⟩
        · rw [hbp, hep] at c4
          rw [Bool.not_eq_true] at c4
          rw [c4]
          simp only [Bool.not_false, if_true]
          rw [finish_ok hsane]
          exact ⟨false, s, rfl, by simp, by simp⟩
  · rw [if_neg c1, finish_ok hsane]
    exact ⟨false, s, rfl, by simp, by simp⟩

/-! ### C21 -/

/-- C21 (partial): recording a mapping in a well-formed sequence either refuses and leaves the
sequence unchanged, or leaves it a run of at most `MAXLEN` non-empty contiguous entries over the old
range extended by the new one.  Partial: the mapping must not reach past the sequence's end unless it
begins there. -/
theorem augment_wf_partial (obj : Nat → Nat) (s : Seq) (r : Req) (hs : Good s) (hr : 0 < r.begin ∧ r.begin < r.end)
    (hfit : Fits s r) :
    ∃ b s', augment obj s r = .ret b s' ∧ (b = false → s' = s) ∧
      (b = true → Good s' ∧ Run s' ∧ s'.end = max s.end r.end ∧ (s.nused ≠ 0 → s'.begin = s.begin)) := by
  obtain ⟨b, s', h1, h2, h3⟩ := augment_recorded obj hs hr hfit
  refine ⟨b, s', h1, h2, ?_⟩
  intro hb
  obtain ⟨hrec, hn⟩ := h3 hb
  have hrun := recorded_run hs hr hrec
  refine ⟨⟨hn, Or.inr hrun⟩, hrun, ?_, ?_⟩
  · cases hrec with
    | clean hc _ _ he =>
      rw [he]
      rcases hc with h | h
      · rcases hs.2 with ⟨_, _, z⟩ | h'
        · omega
        · have := h'.pos; omega
      · omega
    | overlap f l bp ep h1 h2 _ _ h5 h6 h7 h8 _ _ _ hn hb he =>
      rw [he]
      have hrun : Run s := by rcases hs.2 with ⟨z, _⟩ | h; omega; exact h
      have : (s.slots l).end ≤ s.end := by
        rw [hrun.last]
        rcases Nat.eq_or_lt_of_le (Nat.le_sub_one_of_lt h2) with e | e
        · rw [← e]; exact Nat.le_refl _
        · have := hrun.mono l (s.nused - 1) e (by omega)
          have := (hrun.nonempty (s.nused - 1) (by omega)).2
          omega
      omega
  · intro hne
    cases hrec with
    | clean hc _ hb =>
      rw [hb]
      rcases hs.2 with ⟨z, _⟩ | h'
      · exact absurd z hne
      · have := (h'.nonempty 0 h'.pos).1
        have := h'.first
        rw [if_neg (by omega)]
    | overlap f l bp ep _ _ _ _ _ _ _ _ _ _ _ _ hb => exact hb

/-- The invariant of a sequence's whole array, including the slots beyond those in use, which are not
cleared when entries are replaced. -/
def Inv (s : Seq) : Prop := Good s ∧ ∀ i, i < MAXLEN → EIn s.begin s.end (s.slots i)

/-- The invariant holds of a cleared sequence and recording preserves it. -/
theorem augment_inv (obj : Nat → Nat) (s : Seq) (r : Req) (hs : Inv s) (hr : 0 < r.begin ∧ r.begin < r.end)
    (hfit : Fits s r) : ∃ b s', augment obj s r = .ret b s' ∧ Inv s' := by
  obtain ⟨b, s', h1, h2, h3⟩ := augment_recorded obj hs.1 hr hfit
  refine ⟨b, s', h1, ?_⟩
  cases b with
  | false => rw [h2 rfl]; exact hs
  | true =>
    obtain ⟨hrec, hn⟩ := h3 rfl
    have hrun' := recorded_run hs.1 hr hrec
    refine ⟨⟨hn, Or.inr hrun'⟩, ?_⟩
    intro i hi
    by_cases c : i < s'.nused
    · right
      have hm := ((run_iff_chain s' hrun'.pos).1 hrun').mem (s'.slots i)
        (by unfold entries; exact List.mem_map.2 ⟨i, List.mem_range.2 c, rfl⟩)
      exact hm
    · cases hrec with
      | clean hc hn hb he hsl hfn =>
        rw [hsl, if_neg (by omega)]
        rcases hs.2 i hi with h | ⟨g1, g2, g3, g4⟩
        · exact Or.inl h
        · rcases hs.1.2 with ⟨_, z2, z3⟩ | hrun
          · omega
          · right
            have hb0 := (hrun.nonempty 0 hrun.pos).1
            have hf := hrun.first
            have hp := hrun.pos
            rw [hb, he, if_neg (by omega)]
            refine ⟨g1, g2, g3, ?_⟩
            rcases hc with h | h <;> omega
      | overlap f l bp ep h1 h2 hbp hep h5 h6 h7 h8 h9 h10 h11 hn hb he hfn hsl hst =>
        rw [hb, he]
        have hl8 : l < MAXLEN := by have := hs.1.1; omega
        have hEl := hs.2 l hl8
        have hrun : Run s := by rcases hs.1.2 with ⟨z, _⟩ | h; omega; exact h
        have hne := hrun.nonempty l h2
        rcases hst i (by omega) with h | ⟨c1, h⟩ | ⟨c1, h⟩ | ⟨c1, ⟨h, hep'⟩ | h⟩
        · rw [h]; exact hs.2 i hi
        · rw [h]; exact hs.2 (i - 1) (by omega)
        · rw [h]; exact hs.2 (i - 2) (by omega)
        · right; rw [h]
          have := hep.1 hep'
          rcases hEl with hz | ⟨g1, g2, g3, g4⟩
          · rw [hz] at hne; simp [zero] at hne
          · exact ⟨by simp only; omega, by simp only; omega, by simp only; omega, g4⟩
        · right; rw [h]
          rcases hEl with hz | ⟨g1, g2, g3, g4⟩
          · rw [hz] at hne; simp [zero] at hne
          · exact ⟨g1, h7, g3, by simp only; omega⟩

/-- A sequence given by a list of entries. -/
def ofList (l : List Entry) (name : Option Nat) : Seq :=
  ⟨match l.head? with | none => 0 | some e => e.begin, match l.getLast? with | none => 0 | some e => e.end, l.length, name,
    fun i => match l[i]? with | none => zero | some e => e⟩

/-- Three mappings of file 1: text, read-only data, data. -/
def exSeq : Seq := ofList [⟨0x1000, 0x3000, 5, 2, 0, false, 0⟩, ⟨0x3000, 0x6000, 1, 2, 0x2000, false, 0⟩,
  ⟨0x6000, 0x8000, 3, 2, 0x5000, false, 0⟩] (some 1)

theorem exSeq_good : Good exSeq := by
  refine ⟨by decide, Or.inr ((sane_iff exSeq).1 (by decide) |>.resolve_left (by decide))⟩

/-- The sequence left when a mapping was recorded. -/
def Res.recorded : Res → Option Seq
  | .ret true s => some s
  | _ => none

/-- A mapping over the middle of the second and third: recorded, giving four entries. -/
example : Fits exSeq ⟨0x5000, 0x7000, 7, 2, 0x9000, some 1, 0⟩ ∧
    (augment id exSeq ⟨0x5000, 0x7000, 7, 2, 0x9000, some 1, 0⟩).recorded.map
        (fun s => (List.range s.nused).map (fun i => ((s.slots i).begin, (s.slots i).end))) =
      some [(0x1000, 0x3000), (0x3000, 0x5000), (0x5000, 0x7000), (0x7000, 0x8000)] := by
  refine ⟨Or.inl (by decide), ?_⟩
  decide

/-- A mapping that overlaps the last entry and reaches past the end fails an assertion. -/
theorem augment_past_end_fails :
    ¬ ∃ b s', augment id exSeq ⟨0x7000, 0x9000, 3, 2, 0x6000, some 1, 0⟩ = .ret b s' := by
  rintro ⟨b, s', h⟩
  have : (match augment id exSeq ⟨0x7000, 0x9000, 3, 2, 0x6000, some 1, 0⟩ with | .assertFail => true | _ => false) = true := by decide
  rw [h] at this; cases this

/-! ### C22 -/

/-- What a mapping entry says about the pages in it, apart from the file position. -/
structure Attr where
  prot : Nat
  flags : Nat
  anon : Bool
  caller : Nat
  deriving DecidableEq

def Entry.attr (e : Entry) : Attr := ⟨e.prot, e.flags, e.anon, e.caller⟩

/-- The file position backing an address in an entry. -/
def Entry.filePos (e : Entry) (a : Nat) : Nat := e.offset + (a - e.begin)

/-- Which entry covers an address after recording. -/
theorem recorded_find {s : Seq} {r : Req} {s' : Seq} (hs : Good s) (hr : 0 < r.begin ∧ r.begin < r.end)
    (h : Recorded s r s') (a : Nat) :
    (r.begin ≤ a ∧ a < r.end → findEntry s' a = some r.entry) ∧
    (¬ (r.begin ≤ a ∧ a < r.end) →
      (findEntry s a = none ∧ findEntry s' a = none) ∨
      ∃ e e', findEntry s a = some e ∧ findEntry s' a = some e' ∧ e'.attr = e.attr ∧ e'.offset = e.offset ∧
        (e'.begin = e.begin ∨ (e'.begin = r.end ∧ r.end < e.end ∧ e.begin < r.end))) := by
  have hrun' := recorded_run hs hr h
  have F' := findEntry_run hrun' a
  cases h with
  | clean hc hn hb he hsl hfn =>
    constructor
    · intro hin
      have := F'.1 s.nused (by omega)
      rw [hsl, if_pos rfl] at this
      exact this hin.1 hin.2
    · intro hout
      rcases hs.2 with ⟨z1, z2, z3⟩ | hrun
      · left
        refine ⟨by simp [findEntry, z1], F'.2 ?_⟩
        rw [hb, he, if_pos z2]; omega
      · have F := findEntry_run hrun a
        have hp := hrun.pos
        have hb0 := (hrun.nonempty 0 hp).1
        have hf := hrun.first
        have hend : s.end = r.begin := by rcases hc with h | h; omega; exact h
        by_cases c : s.begin ≤ a ∧ a < s.end
        · right
          obtain ⟨i, i1, i2, i3⟩ := hrun.locate a c.1 c.2
          have e1 := F.1 i i1 i2 i3
          have e2 := F'.1 i (by omega)
          rw [hsl, if_neg (by omega)] at e2
          exact ⟨_, _, e1, e2 i2 i3, rfl, rfl, Or.inl rfl⟩
        · left
          refine ⟨F.2 (by omega), F'.2 ?_⟩
          rw [hb, he, if_neg (by omega)]; omega
  | overlap f l bp ep h1 h2 hbp hep h5 h6 h7 h8 h9 h10 h11 hn hb he hfn hsl hst =>
    have hrun : Run s := by rcases hs.2 with ⟨z, _⟩ | h; omega; exact h
    have F := findEntry_run hrun a
    have hbn : bp.toNat = if (s.slots f).begin ≠ r.begin then 1 else 0 := by
      cases bp
      · rw [if_neg (by simpa using hbp)]; rfl
      · rw [if_pos (hbp.1 rfl)]; rfl
    have hen : ep.toNat = if (s.slots l).end ≠ r.end then 1 else 0 := by
      cases ep
      · rw [if_neg (by simpa using hep)]; rfl
      · rw [if_pos (hep.1 rfl)]; rfl
    have t3 : target s r f l bp ep (f + bp.toNat) = r.entry := by
      unfold target
      rw [if_neg (by omega), if_neg, if_pos rfl]
      rintro ⟨rfl, h⟩; simp at h
    constructor
    · intro hin
      have := F'.1 (f + bp.toNat) (by omega)
      rw [hsl _ (by omega), t3] at this
      exact this hin.1 hin.2
    · intro hout
      by_cases c : s.begin ≤ a ∧ a < s.end
      · right
        obtain ⟨i, i1, i2, i3⟩ := hrun.locate a c.1 c.2
        have e1 := F.1 i i1 i2 i3
        by_cases clt : a < r.begin
        · -- at or before the first overlapped entry
          have hif : i ≤ f := by
            rcases Nat.lt_or_ge f i with c' | c'
            · have := hrun.mono f i c' i1; omega
            · exact c'
          rcases Nat.eq_or_lt_of_le hif with e | e
          · subst e
            have hb' : bp = true := hbp.2 (by omega)
            have t2 : target s r i l bp ep i = { s.slots i with «end» := r.begin } := by
              unfold target; rw [if_neg (by omega), if_pos ⟨hb', rfl⟩]
            have e2 := F'.1 i (by rw [hb'] at hn; simp only [Bool.toNat_true] at hn; omega)
            rw [hsl _ (by rw [hb'] at hn; simp only [Bool.toNat_true] at hn; omega), t2] at e2
            exact ⟨_, _, e1, e2 i2 clt, rfl, rfl, Or.inl rfl⟩
          · have t1 : target s r f l bp ep i = s.slots i := by unfold target; rw [if_pos e]
            have e2 := F'.1 i (by omega)
            rw [hsl _ (by omega), t1] at e2
            exact ⟨_, _, e1, e2 i2 i3, rfl, rfl, Or.inl rfl⟩
        · have hge : r.end ≤ a := by omega
          have hli : l ≤ i := by
            rcases Nat.lt_or_ge i l with c' | c'
            · have := hrun.mono i l c' h2; omega
            · exact c'
          rcases Nat.eq_or_lt_of_le hli with e | e
          · subst e
            have he' : ep = true := hep.2 (by omega)
            have t4 : target s r f l bp ep (f + bp.toNat + 1) = { s.slots l with begin := r.end } := by
              unfold target
              rw [if_neg (by omega), if_neg (by omega), if_neg (by omega), if_pos ⟨he', rfl⟩]
            have hlt : f + bp.toNat + 1 < s'.nused := by rw [he'] at hn; simp only [Bool.toNat_true] at hn; omega
            have e2 := F'.1 _ hlt
            rw [hsl _ hlt, t4] at e2
            exact ⟨_, _, e1, e2 hge i3, rfl, rfl, Or.inr ⟨rfl, by omega, h7⟩⟩
          · have t5 : target s r f l bp ep (f + bp.toNat + ep.toNat + (i - l)) = s.slots i := by
              unfold target
              rw [if_neg (by omega), if_neg (by omega), if_neg (by omega), if_neg]
              · congr 1; omega
              · rintro ⟨rfl, h⟩; simp at h; omega
            have hlt : f + bp.toNat + ep.toNat + (i - l) < s'.nused := by omega
            have e2 := F'.1 _ hlt
            rw [hsl _ hlt, t5] at e2
            exact ⟨_, _, e1, e2 i2 i3, rfl, rfl, Or.inl rfl⟩
      · left
        exact ⟨F.2 (by omega), F'.2 (by omega)⟩

/-- C22 (partial): after a mapping is recorded, every address in its range has its attributes and
file position, and every other address has the attributes (protection, flags, anonymity, caller) it
had; addresses below the range also keep their file position, and so do those above unless the range
ends inside the entry they are in.  Partial: the exceptions proved below. -/
theorem augment_attrs_partial (obj : Nat → Nat) (s : Seq) (r : Req) (hs : Good s) (hr : 0 < r.begin ∧ r.begin < r.end)
    (hfit : Fits s r) (s' : Seq) (h : augment obj s r = .ret true s') (a : Nat) :
    (r.begin ≤ a ∧ a < r.end → ∃ e, findEntry s' a = some e ∧ e.attr = r.entry.attr ∧ e.filePos a = r.offset + (a - r.begin)) ∧
    (¬ (r.begin ≤ a ∧ a < r.end) → (findEntry s' a).map Entry.attr = (findEntry s a).map Entry.attr) ∧
    (¬ (r.begin ≤ a ∧ a < r.end) → (∀ e, findEntry s a = some e → ¬ (e.begin < r.end ∧ r.end < e.end ∧ r.end ≤ a)) →
      (findEntry s' a).map (·.filePos a) = (findEntry s a).map (·.filePos a)) := by
  obtain ⟨b, s'', h1, h2, h3⟩ := augment_recorded obj hs hr hfit
  rw [h] at h1
  cases h1
  obtain ⟨hrec, _⟩ := h3 rfl
  obtain ⟨r1, r2⟩ := recorded_find hs hr hrec a
  refine ⟨fun hin => ⟨_, r1 hin, rfl, rfl⟩, ?_, ?_⟩
  · intro hout
    rcases r2 hout with ⟨x, y⟩ | ⟨e, e', x, y, z, _⟩
    · rw [x, y]
    · rw [x, y]; simp [z]
  · intro hout hsplit
    rcases r2 hout with ⟨x, y⟩ | ⟨e, e', x, y, z, w, v⟩
    · rw [x, y]
    · rw [x, y]
      simp only [Option.map_some, Option.some.injEq, Entry.filePos]
      rcases v with v | ⟨v1, v2, v3⟩
      · rw [v, w]
      · exfalso
        have hrun' := recorded_run hs hr hrec
        unfold findEntry at y
        have := List.find?_some y
        simp only [decide_eq_true_eq] at this
        exact hsplit e x ⟨v3, v2, by omega⟩

/-- The part of an entry above a recorded mapping loses its file position: page `0x7000` was backed
by position `0x6000` and is now said to be backed by `0x5000`. -/
theorem augment_position_fails :
    (findEntry exSeq 0x7000).map (·.filePos 0x7000) = some 0x6000 ∧
    (augment id exSeq ⟨0x5000, 0x7000, 7, 2, 0x9000, some 1, 0⟩).recorded.map
      (fun s' => (findEntry s' 0x7000).map (·.filePos 0x7000)) = some (some 0x5000) := by decide

/-- A file mapping recorded over the start of an anonymous sequence leaves the sequence without a
file name. -/
theorem augment_filename_fails :
    (augment id (ofList [⟨0x1000, 0x3000, 3, 0x22, 0, true, 0⟩] none) ⟨0x1000, 0x2000, 5, 2, 0, some 1, 0⟩).recorded.map
      (fun s' => ((findEntry s' 0x1000).map (·.anon), s'.filename)) = some (some false, none) := by decide

/-! ### C23 -/

theorem exSeq_inv : Inv exSeq := by
  refine ⟨exSeq_good, ?_⟩
  have : ∀ i, i < 8 → EIn 0x1000 0x8000 (exSeq.slots i) := by
    intro i hi
    rcases (by omega : i = 0 ∨ i = 1 ∨ i = 2 ∨ (3 ≤ i)) with rfl | rfl | rfl | h
    · right; decide
    · right; decide
    · right; decide
    · left
      show (match _ with | none => zero | some e => e) = zero
      rw [List.getElem?_eq_none (by simpa using h)]
  exact this

/-- C23, first half: whenever deleting a range returns, no address in the range has attributes any
more and every other address has the attributes it had; an address also keeps its file position
unless it is above the range in an entry the range cut at its beginning. -/
theorem delete_attrs_partial (s : Seq) (addr len : Nat) (hs : Inv s) (hl : 0 < len) (b : Bool) (s' : Seq)
    (h : deleteSpan s addr len = .ret b s') (a : Nat) :
    ((addr ≤ a ∧ a < addr + len) → findEntry s' a = none) ∧
    (¬ (addr ≤ a ∧ a < addr + len) → (findEntry s' a).map Entry.attr = (findEntry s a).map Entry.attr) ∧
    (¬ (addr ≤ a ∧ a < addr + len) → (∀ e, findEntry s a = some e → ¬ (e.begin < addr + len ∧ addr + len ≤ a)) →
      (findEntry s' a).map (·.filePos a) = (findEntry s a).map (·.filePos a)) := by
  obtain ⟨h1, h2, _, _⟩ := deleteSpan_ret hs.1.1 h
  have hall : ∀ e ∈ entries s, (0 < e.begin ∧ e.begin < e.end) ∧ ¬ Splits addr len e := by
    intro e he
    unfold entries at he
    obtain ⟨i, hi, rfl⟩ := List.mem_map.1 he
    rw [List.mem_range] at hi
    have hrun : Run s := by rcases hs.1.2 with ⟨z, _⟩ | h; omega; exact h
    have := hs.1.1
    exact ⟨hrun.nonempty i hi, h1 i (by omega)⟩
  obtain ⟨l1, l2⟩ := leftover_find addr len hl (entries s) hall a
  rw [findEntry_entries, findEntry_entries, h2]
  refine ⟨l1, ?_, ?_⟩
  · intro hout
    rw [l2 hout, Option.map_map]
    cases hf : (entries s).find? (covers a) with
    | none => rfl
    | some e =>
      obtain ⟨hne, hns⟩ := hall e (List.mem_of_find?_eq_some hf)
      have hc := List.find?_some hf
      unfold covers at hc
      rw [decide_eq_true_eq] at hc
      obtain ⟨m1, m2⟩ := trim_mem addr len hl e hne hns a
      have := (m2 (m1.2 ⟨hc, hout⟩)).2.1
      simp only [Option.map_some, Function.comp, Option.some.injEq]
      conv => rhs; rw [← this]
      rfl
  · intro hout hcut
    rw [l2 hout, Option.map_map]
    cases hf : (entries s).find? (covers a) with
    | none => rfl
    | some e =>
      obtain ⟨hne, hns⟩ := hall e (List.mem_of_find?_eq_some hf)
      have hc := List.find?_some hf
      unfold covers at hc
      rw [decide_eq_true_eq] at hc
      obtain ⟨m1, m2⟩ := trim_mem addr len hl e hne hns a
      obtain ⟨_, m3, m4⟩ := m2 (m1.2 ⟨hc, hout⟩)
      have hb : (trim addr len e).begin = e.begin := by
        by_cases hb : (trim addr len e).begin = e.begin
        · exact hb
        · exact absurd (m4 hb).2 (hcut e hf)
      have ho : (trim addr len e).offset = e.offset := by
        conv => rhs; rw [← m3]
      simp only [Option.map_some, Function.comp, Entry.filePos, hb, ho]

/-- C23, second half: deleting from the front or the back of a sequence always returns, empties the
sequence exactly if the range covers it, and otherwise leaves it a well-formed sequence of what is
left.  Partial: a range with a part of the sequence on both sides is refused, by the theorem below. -/
theorem delete_wf_partial (s : Seq) (addr len : Nat) (hs : Inv s) (hne : s.nused ≠ 0) (hl : 0 < len)
    (hps : (addr ≤ s.begin ∧ s.begin < addr + len) ∨ (s.end ≤ addr + len ∧ addr < s.end)) :
    ∃ s', deleteSpan s addr len = .ret true s' ∧
      (s'.nused = 0 ↔ addr ≤ s.begin ∧ s.end ≤ addr + len) ∧
      (s'.nused ≠ 0 → Inv s' ∧ s'.begin = (if addr ≤ s.begin then addr + len else s.begin) ∧
        s'.end = (if s.end ≤ addr + len then addr else s.end)) := by
  have hrun : Run s := by rcases hs.1.2 with ⟨z, _⟩ | h; omega; exact h
  obtain ⟨s', h1, h2, h3⟩ := deleteSpan_ok hs.1.1 hrun hl (by
    intro i _ hi
    unfold Splits
    rcases hs.2 i hi with h | ⟨g1, g2, g3, g4⟩
    · rw [h]; simp [zero]
    · omega) hps
  refine ⟨s', h1, h2, ?_⟩
  intro hne'
  obtain ⟨r1, r2, r3⟩ := h3 hne'
  have hn : s'.nused ≤ MAXLEN := by
    have hl' : (entries s').length = s'.nused := by simp [entries]
    have hle : (entries s).length = s.nused := by simp [entries]
    rw [← hl', (deleteSpan_ret hs.1.1 h1).2.1]
    unfold leftover
    have := List.length_filter_le (fun e : Entry => e.begin != 0) ((entries s).map (trim addr len))
    rw [List.length_map] at this
    have := hs.1.1
    omega
  refine ⟨⟨⟨hn, Or.inr r1⟩, ?_⟩, r2, r3⟩
  intro i hi
  rcases deleteSpan_slots hs.1.1 h1 i hi with h | ⟨m, hm, h⟩
  · exact Or.inl h
  · rw [h, r2, r3]
    rcases hs.2 m hm with hz | ⟨g1, g2, g3, g4⟩
    · left; rw [hz, trim_zero]
    · rcases trim_cases addr len hl _ ⟨g1, g2⟩ (by unfold Splits; omega) with ⟨c, ht⟩ | ⟨c1, c2, ht⟩ | ⟨c1, c2, c3, ht⟩ | ⟨c1, c2, c3, ht⟩
      · right; rw [ht]
        have hnot : ¬ (addr ≤ s.begin ∧ s.end ≤ addr + len) := fun h => hne' (h2.2 h)
        refine ⟨g1, g2, ?_, ?_⟩ <;> split <;> omega
      · left; rw [ht]
      · right; rw [ht]
        refine ⟨by simp only; omega, c3, ?_, ?_⟩
        · simp only; split <;> omega
        · simp only; split <;> omega
      · right; rw [ht]
        refine ⟨g1, c1, ?_, ?_⟩
        · simp only; split <;> omega
        · simp only; split <;> omega

/-- Unmapping the first entry and half of the second of the example. -/
example : (deleteSpan exSeq 0x1000 0x3000).recorded.map
    (fun s => (s.begin, s.end, (List.range s.nused).map (fun i => ((s.slots i).begin, (s.slots i).end)))) =
    some (0x4000, 0x8000, [(0x4000, 0x6000), (0x6000, 0x8000)]) := by decide

/-- Deleting the middle entry of a sequence, which is not inside one mapping, fails an assertion. -/
theorem delete_middle_fails : ¬ ∃ b s', deleteSpan exSeq 0x3000 0x3000 = .ret b s' := by
  rintro ⟨b, s', h⟩
  have : (match deleteSpan exSeq 0x3000 0x3000 with | .assertFail => true | _ => false) = true := by decide
  rw [h] at this; cases this

/-- The entry cut at its beginning loses its file position: page `0x5000` was backed by position
`0x4000` and is now said to be backed by `0x3000`. -/
theorem delete_position_fails :
    (findEntry exSeq 0x5000).map (·.filePos 0x5000) = some 0x4000 ∧
    (deleteSpan exSeq 0x1000 0x3000).recorded.map (fun s' => (findEntry s' 0x5000).map (·.filePos 0x5000)) =
      some (some 0x3000) := by decide

end Liballocs.MapSeq
