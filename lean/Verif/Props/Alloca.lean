import Verif.Model.Alloca
/- C14 (alloca sizing), C15 (bitmap growth), C16 (frame exit). -/
namespace Liballocs.Alloca

/-! ### C14 -/

theorem padTo_spec (n a : Nat) (ha : 0 < a) : padTo n a % a = 0 ∧ n ≤ padTo n a ∧ padTo n a < n + a := by
  unfold padTo
  have h1 := Nat.mod_lt n ha
  split
  · omega
  · refine ⟨?_, by omega, by omega⟩
    have h2 : n + a - n % a = (n / a + 1) * a := by
      have := Nat.div_add_mod n a
      rw [Nat.add_mul, Nat.mul_comm]; omega
    rw [h2]; exact Nat.mul_mod_left _ _

/-- C14: for every request, every trailer size that holds a metadata word, and every 8-aligned block
of the computed size: the user pointer is 16-aligned, the size word below it is inside the block,
the object and the metadata word are disjoint and inside the block, the metadata word is 8-aligned,
and the stored size reaches exactly to the end of the block. -/
theorem alloca_layout (t orig allocated counter : Nat) (ht : 8 ≤ t) (ha : allocated % 8 = 0) :
    let size := allocaSize t orig
    let r := adjust allocated size counter
    r.userchunk % 16 = 0 ∧
    allocated ≤ r.userchunk - 8 ∧ 8 ≤ r.userchunk ∧
    r.userchunk + orig ≤ insertAddr r.userchunk r.nonHeader ∧
    insertAddr r.userchunk r.nonHeader + 8 = allocated + size ∧
    insertAddr r.userchunk r.nonHeader % 8 = 0 ∧
    r.userchunk + r.nonHeader = allocated + size ∧
    r.counter = counter + r.nonHeader := by
  have h1 := padTo_spec (orig + t) 16 (by omega)
  have h2 := padTo_spec (allocated + 8) 16 (by omega)
  have h3 : padTo 8 16 = 16 := rfl
  simp only [allocaSize, adjust, insertAddr, h3]
  generalize padTo (orig + t) 16 = x at *
  generalize padTo (allocated + 8) 16 = y at *
  have hz : y + (16 + x - (y - allocated)) = allocated + 16 + x := by omega
  generalize 16 + x - (y - allocated) = z at *
  have hz' : y + (z - 8) = allocated + 8 + x := by omega
  have hm : (allocated + 8 + x) % 8 = 0 := by omega
  rw [hz', hz]
  refine ⟨?_, ?_, ?_, ?_, ?_, hm, ?_, trivial⟩
  all_goals omega

example : adjust 0x7ffe_1238 (allocaSize 8 100) 0 = ⟨0x7ffe_1240, 120, 120⟩ := by decide

/-- The alignment assumption is needed: a block that is not 8-aligned can lose its metadata word. -/
theorem alloca_layout_unaligned_fails : ∃ t orig allocated,
    8 ≤ t ∧ insertAddr (adjust allocated (allocaSize t orig) 0).userchunk
      (adjust allocated (allocaSize t orig) 0).nonHeader <
      (adjust allocated (allocaSize t orig) 0).userchunk + orig :=
  ⟨8, 8, 9, by decide, by decide⟩

/-! ### C15 -/

/-- The chunk addresses an arena's index records. -/
def Indexed (ar : Arena) (a : Nat) : Prop :=
  ∃ bm i, ar.bitmap = some bm ∧ bit bm i = true ∧ a = ar.base + 16 * i

/-- A frame arena as the code keeps it: non-empty, above the first kilobyte of memory, bitmap
covering exactly the arena rounded out to whole words. -/
structure Ok (ar : Arena) : Prop where
  nonempty : ar.begin_ < ar.end_
  low : COVER ≤ ar.begin_
  none_base : ar.bitmap = none → ar.base = 0
  some_base : ∀ bm, ar.bitmap = some bm → ar.base = roundDown ar.begin_ COVER ∧
    ar.base + COVER * bm.length = roundUp ar.end_ COVER

theorem bit_replicate_append (n : Nat) (bm : List W) (i : Nat) :
    bit (List.replicate n 0#64 ++ bm) i = (decide (64 * n ≤ i) && bit bm (i - 64 * n)) := by
  unfold bit
  by_cases h : 64 * n ≤ i
  · have h1 : n ≤ i / 64 := by omega
    have h2 : (i - 64 * n) / 64 = i / 64 - n := by omega
    have h3 : (i - 64 * n) % 64 = i % 64 := by omega
    rw [List.getElem?_append_right (by simpa using h1)]
    simp [h, h2, h3]
  · have h1 : i / 64 < n := by omega
    rw [List.getElem?_append_left (by simpa using h1)]
    simp [h, h1]

theorem prepend_bitmap (old junk : List W) (added : Nat) (h : junk.length = added) :
    bzero (memmove (old ++ junk) added 0 old.length) added = List.replicate added 0#64 ++ old := by
  unfold bzero memmove
  congr 1
  have h0 : ((old ++ junk).drop 0).take old.length = old := by simp
  have h1 : (old ++ junk).drop (added + old.length) = [] := by
    apply List.drop_eq_nil_of_le; simp; omega
  have h2 : ((old ++ junk).take added).length = added := by
    rw [List.length_take]; simp; omega
  rw [h0, h1, List.append_nil]
  exact List.drop_left' h2

/-- C15: making an arena cover an address — whatever the old and new start, whatever bits are set,
whatever `realloc` leaves in the fresh tail — succeeds, keeps the index consistent, covers the
address, and the set of indexed chunk addresses is exactly what it was (so the newly covered range
has none). -/
theorem ensureCovers_keeps (ar : Arena) (addr : Nat) (junk : Nat → W) (hok : Ok ar)
    (hlow : COVER ≤ addr) :
    ∃ ar', ensureCovers ar addr junk = some ar' ∧ Ok ar' ∧ ar'.begin_ = min addr ar.begin_ ∧
      ar'.end_ = ar.end_ ∧ ar'.bitmap.isSome ∧ ∀ a, Indexed ar' a ↔ Indexed ar a := by
  obtain ⟨b, e, base, bm⟩ := ar
  obtain ⟨hne, hl, hnb, hsb⟩ := hok
  simp only at hne hl hnb hsb
  unfold ensureCovers
  simp only
  by_cases h1 : bm.isSome ∧ b ≤ addr
  · rw [if_pos h1]
    refine ⟨⟨b, e, base, bm⟩, rfl, ⟨hne, hl, hnb, hsb⟩, ?_, rfl, h1.1, fun _ => Iff.rfl⟩
    simp only; omega
  rw [if_neg h1]
  have hmin : (if addr < b then (⟨addr, e, base, bm⟩ : Arena) else ⟨b, e, base, bm⟩) =
      ⟨min addr b, e, base, bm⟩ := by
    split
    · congr 1; omega
    · congr 1; omega
  rw [hmin]
  simp only
  have hm : COVER ≤ min addr b ∧ min addr b ≤ b ∧ min addr b < e := by omega
  generalize hmm : min addr b = m at hm
  -- sizes
  have hrd : roundDown m COVER ≤ m ∧ COVER ≤ roundDown m COVER ∧ roundDown m COVER % COVER = 0 := by
    simp only [roundDown, COVER] at hm ⊢; omega
  have hru : e ≤ roundUp e COVER ∧ roundUp e COVER % COVER = 0 := by
    simp only [roundUp, COVER]; omega
  generalize hnbase : roundDown m COVER = nb at hrd
  generalize hnlim : roundUp e COVER = nl at hru
  have hN : ((nl - nb) / 16 + 63) / 64 = (nl - nb) / COVER := by simp only [COVER] at *; omega
  rw [hN]
  have hNN : nb + COVER * ((nl - nb) / COVER) = nl := by simp only [COVER] at *; omega
  generalize hn : (nl - nb) / COVER = N at hNN
  have hNpos : 0 < N := by simp only [COVER] at *; omega
  unfold reallocPrepend
  simp only
  cases bm with
  | none =>
    have hb0 := hnb rfl
    subst hb0
    simp only [Option.getD_none, List.length_nil, Nat.sub_zero, ne_eq, not_true_eq_false, if_true,
      false_and, if_false, List.nil_append]
    rw [if_pos hNpos]
    simp only [if_true]
    have hz : bzero ((List.range N).map junk) N = List.replicate N 0#64 := by
      unfold bzero
      rw [List.drop_eq_nil_of_le (by simp)]; simp
    rw [hz]
    refine ⟨_, rfl, ⟨hm.2.2, hm.1, by simp, ?_⟩, rfl, rfl, rfl, ?_⟩
    · intro bm' hbm'
      simp only [Option.some.injEq] at hbm'
      subst hbm'
      rw [List.length_replicate]
      exact ⟨hnbase.symm, by rw [hnlim]; exact hNN⟩
    · intro a
      constructor
      · rintro ⟨bm', i, h2, h3, _⟩
        simp only [Option.some.injEq] at h2
        subst h2
        have := bit_replicate_append N [] i
        rw [List.append_nil] at this
        rw [this] at h3
        simp [bit] at h3
      · rintro ⟨bm', i, h2, _⟩; simp at h2
  | some old =>
    obtain ⟨h2, h3⟩ := hsb old rfl
    have hadd : addr < b := by
      simp only [Option.isSome_some, true_and] at h1; omega
    simp only [Option.getD_some]
    rw [hnlim] at h3
    have hb : base % COVER = 0 ∧ nb ≤ base ∧ base ≤ b := by
      simp only [roundDown, COVER] at *; omega
    by_cases hlt : old.length < N
    · rw [if_pos hlt]
      have hbase : base - (N - old.length) * 64 * 16 = nb := by simp only [COVER] at *; omega
      have hb0 : base ≠ 0 := by simp only [COVER] at *; omega
      rw [if_neg hb0, hbase]
      rw [if_neg (by simp)]
      simp only [if_true]
      rw [prepend_bitmap old _ (N - old.length) (by simp)]
      refine ⟨_, rfl, ⟨hm.2.2, hm.1, by simp, ?_⟩, rfl, rfl, rfl, ?_⟩
      · intro bm' hbm'
        simp only [Option.some.injEq] at hbm'
        subst hbm'
        rw [List.length_append, List.length_replicate]
        refine ⟨hnbase.symm, ?_⟩
        rw [hnlim, ← hNN]; congr 2; omega
      · intro a
        have hd : base = nb + 16 * (64 * (N - old.length)) := by simp only [COVER] at *; omega
        constructor
        · rintro ⟨bm', i, h4, h5, h6⟩
          simp only [Option.some.injEq] at h4
          subst h4
          rw [bit_replicate_append, Bool.and_eq_true, decide_eq_true_eq] at h5
          refine ⟨old, i - 64 * (N - old.length), rfl, h5.2, ?_⟩
          simp only at h6 ⊢; omega
        · rintro ⟨bm', i, h4, h5, h6⟩
          simp only [Option.some.injEq] at h4
          subst h4
          refine ⟨_, i + 64 * (N - old.length), rfl, ?_, ?_⟩
          · rw [bit_replicate_append, Bool.and_eq_true, decide_eq_true_eq]
            refine ⟨by omega, ?_⟩
            rw [Nat.add_sub_cancel]; exact h5
          · simp only at h6 ⊢; omega
    · rw [if_neg hlt]
      have hbn : base = nb := by simp only [COVER] at *; omega
      simp only [hbn, if_true]
      refine ⟨_, rfl, ⟨hm.2.2, hm.1, by simp, ?_⟩, rfl, rfl, rfl, ?_⟩
      · intro bm' hbm'
        simp only [Option.some.injEq] at hbm'
        subst hbm'
        refine ⟨hnbase.symm, ?_⟩
        rw [hnlim, ← hbn]; exact h3
      · intro a
        constructor
        · rintro ⟨bm', i, h4, h5, h6⟩
          refine ⟨bm', i, h4, h5, ?_⟩
          simp only at h6 ⊢; omega
        · rintro ⟨bm', i, h4, h5, h6⟩
          refine ⟨bm', i, h4, h5, ?_⟩
          simp only at h6 ⊢; omega

/-- A frame with one chunk recorded at 0x10500, grown downwards by five kilobytes. -/
example : ∃ ar ar' : Arena, Ok ar ∧ Indexed ar 0x10500 ∧ ensureCovers ar 0xf100 (fun _ => 7#64) = some ar' ∧
    ar'.base = 0xf000 ∧ ar'.bitmap = some [0, 0, 0, 0, 0, 0x10000#64] := by
  refine ⟨⟨0x10410, 0x10700, 0x10400, some [0x10000#64]⟩,
    ⟨0xf100, 0x10700, 0xf000, some [0, 0, 0, 0, 0, 0x10000#64]⟩, ⟨by decide, by decide, by simp, ?_⟩, ?_, ?_, rfl, rfl⟩
  · intro bm h
    simp only [Option.some.injEq] at h
    subst h
    decide
  · exact ⟨_, 16, rfl, by decide, by decide⟩
  · decide

/-! ### C16 -/

/-- The indices of the chunks recorded in `[lo, lo + k)`, in increasing address order. -/
def chunksFrom (bits : Nat → Bool) (lo k : Nat) : List Nat := (List.range' lo k).filter bits

theorem unindexLoop_spec (sz : Nat → Nat) (base total k cur done n : Nat) (bits : Nat → Bool)
    (hsz : ∀ i ∈ chunksFrom bits cur k, 0 < sz (base + 16 * i) ∧ sz (base + 16 * i) ≤ 131072)
    (hn : n ≤ (chunksFrom bits cur k).length) (h0 : 0 < n)
    (ht : total = done + (((chunksFrom bits cur k).take n).map (fun i => sz (base + 16 * i))).sum) :
    ∃ bits', unindexLoop sz base total k cur done bits = some bits' ∧
      ∀ i, bits' i = true ↔ bits i = true ∧ i ∉ (chunksFrom bits cur k).take n := by
  induction k generalizing cur done n bits with
  | zero => simp [chunksFrom] at hn; omega
  | succ k ih =>
    unfold unindexLoop
    by_cases hb : bits cur = true
    · have hc : chunksFrom bits cur (k + 1) = cur :: chunksFrom bits (cur + 1) k := by
        simp [chunksFrom, List.range'_succ, hb]
      rw [hc] at hsz hn ht ⊢
      rw [if_pos hb]
      obtain ⟨n, rfl⟩ : ∃ m, n = m + 1 := ⟨n - 1, by omega⟩
      have hs := hsz cur (by simp)
      simp only [List.take_succ_cons, List.map_cons, List.sum_cons] at ht
      simp only
      rw [if_neg (by omega : ¬ 131072 < sz (base + 16 * cur))]
      rw [if_neg (by simp only [SANE]; omega)]
      have hsame : chunksFrom (fun i => if i = cur then false else bits i) (cur + 1) k =
          chunksFrom bits (cur + 1) k := by
        unfold chunksFrom
        apply List.filter_congr
        intro x hx
        have := List.mem_range'_1.1 hx
        rw [if_neg (by omega)]
      by_cases hn0 : n = 0
      · subst hn0
        simp only [List.take_zero, List.map_nil, List.sum_nil, Nat.add_zero] at ht
        rw [if_pos (by omega)]
        refine ⟨_, rfl, ?_⟩
        intro i
        by_cases hi : i = cur
        · simp [hi]
        · simp [hi]
      · have hpos : 0 < (((chunksFrom bits (cur + 1) k).take n).map (fun i => sz (base + 16 * i))).sum := by
          cases hcf : chunksFrom bits (cur + 1) k with
          | nil => rw [hcf] at hn; simp at hn; omega
          | cons x xs =>
            obtain ⟨m, rfl⟩ : ∃ m, n = m + 1 := ⟨n - 1, by omega⟩
            have := hsz x (by rw [hcf]; simp)
            simp only [List.take_succ_cons, List.map_cons, List.sum_cons]; omega
        rw [if_neg (by omega)]
        obtain ⟨bits', h1, h2⟩ := ih (cur + 1) (done + sz (base + 16 * cur)) n
          (fun i => if i = cur then false else bits i)
          (by rw [hsame]; exact fun i hi => hsz i (List.mem_cons_of_mem _ hi))
          (by rw [hsame]; simpa using hn) (by omega) (by rw [hsame]; omega)
        refine ⟨bits', h1, ?_⟩
        intro i
        rw [h2 i, hsame]
        by_cases hi : i = cur
        · simp [hi]
        · simp [hi]
    · have hc : chunksFrom bits cur (k + 1) = chunksFrom bits (cur + 1) k := by
        simp [chunksFrom, List.range'_succ, hb]
      rw [hc] at hsz hn ht ⊢
      rw [if_neg hb]
      exact ih (cur + 1) done n bits hsz hn h0 ht

/-- C16 (partial): if the frame's counter is the total of the sizes of the `n` lowest chunks at or
above the stack pointer, frame exit removes exactly those `n` from the index and every other recorded
chunk stays; with a zero counter nothing changes.  Partial: no chunk may exceed 131072 bytes. -/
theorem frame_exit_partial (sz : Nat → Nat) (base nwords sp counter n : Nat) (bits : Nat → Bool)
    (hsz : ∀ i, bits i = true → 0 < sz (base + 16 * i) ∧ sz (base + 16 * i) ≤ 131072)
    (hn : n ≤ (chunksFrom bits ((sp - base) / 16) (64 * nwords - (sp - base) / 16)).length)
    (hc : counter = (((chunksFrom bits ((sp - base) / 16) (64 * nwords - (sp - base) / 16)).take n).map
      (fun i => sz (base + 16 * i))).sum) :
    ∃ bits', unindex sz base nwords sp counter bits = some bits' ∧
      ∀ i, bits' i = true ↔ bits i = true ∧
        i ∉ (chunksFrom bits ((sp - base) / 16) (64 * nwords - (sp - base) / 16)).take n := by
  unfold unindex
  have hsz' : ∀ i ∈ chunksFrom bits ((sp - base) / 16) (64 * nwords - (sp - base) / 16),
      0 < sz (base + 16 * i) ∧ sz (base + 16 * i) ≤ 131072 :=
    fun i hi => hsz i (List.mem_filter.1 hi).2
  generalize hcs : chunksFrom bits ((sp - base) / 16) (64 * nwords - (sp - base) / 16) = cs at *
  by_cases h0 : n = 0
  · subst h0
    have : counter = 0 := by simpa using hc
    rw [if_pos this]
    exact ⟨bits, rfl, by simp⟩
  · have hpos : 0 < counter := by
      cases cs with
      | nil => simp at hn; omega
      | cons x xs =>
        obtain ⟨m, rfl⟩ : ∃ m, n = m + 1 := ⟨n - 1, by omega⟩
        have := hsz' x (by simp)
        rw [hc]
        simp only [List.take_succ_cons, List.map_cons, List.sum_cons]; omega
    rw [if_neg (by omega)]
    have := unindexLoop_spec sz base counter (64 * nwords - (sp - base) / 16) ((sp - base) / 16) 0 n bits
      (by rw [hcs]; exact hsz') (by rw [hcs]; exact hn) (by omega) (by rw [hcs]; omega)
    rw [hcs] at this
    exact this

/-- Two frames' worth of chunks; the counter covers the lower two of three. -/
example : ∃ (sz : Nat → Nat) (bits : Nat → Bool),
    (∀ i, bits i = true → 0 < sz (0x10000 + 16 * i) ∧ sz (0x10000 + 16 * i) ≤ 131072) ∧
    (56 = (((chunksFrom bits 4 (64 - 4)).take 2).map (fun i => sz (0x10000 + 16 * i))).sum) ∧
    chunksFrom bits 4 (64 - 4) = [5, 7, 12] := by
  refine ⟨fun a => if a = 0x10050 then 24 else if a = 0x10070 then 32 else 40,
    fun i => i == 5 || i == 7 || i == 12, ?_, by decide, by decide⟩
  intro i _
  simp only
  split
  · omega
  · split <;> omega

/-- A chunk of more than 131072 bytes (below the 32 MiB limit) stays recorded after frame exit. -/
theorem frame_exit_fails : ∃ (sz : Nat → Nat) (bits bits' : Nat → Bool),
    sz 0x10050 = 131088 ∧ bits 5 = true ∧
    unindex sz 0x10000 1 0x10040 131088 bits = some bits' ∧ bits' 5 = true := by
  refine ⟨fun _ => 131088, fun i => i == 5, fun i => i == 5, rfl, rfl, ?_, rfl⟩
  simp [unindex, unindexLoop, SANE]

end Liballocs.Alloca
