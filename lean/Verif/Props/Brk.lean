import Verif.Model.Brk
import Verif.Props.MapSeq
/-! # C25: the program break -/
namespace Liballocs.Brk
open MapSeq

/-- The mapping's sequence is well formed, has the mapping's bounds, and has room for one more entry
unless its last entry is anonymous. -/
structure SeqOk (s : State) : Prop where
  inv : MapSeq.Inv s.seq
  ne : s.seq.nused ≠ 0
  sb : s.seq.begin = s.mapB
  se : s.seq.end = s.mapE
  room : s.seq.nused < MAXLEN ∨ (s.seq.slots (s.seq.nused - 1)).anon = true

/-- The break allocation lies inside its mapping. -/
def Nested (s : State) : Prop := s.mapB ≤ s.brkB ∧ s.brkB ≤ s.brkE ∧ s.brkE ≤ s.mapE

theorem run_of {s : Seq} (hi : MapSeq.Inv s) (hne : s.nused ≠ 0) : MapSeq.Run s := by
  rcases hi.1.2 with ⟨z, _⟩ | h
  · exact absurd z hne
  · exact h

theorem grow_ok {q : Seq} {newEnd : Nat} (hi : MapSeq.Inv q) (hne : q.nused ≠ 0) (hlt : q.end < newEnd)
    (hroom : q.nused < MAXLEN ∨ (q.slots (q.nused - 1)).anon = true) :
    ∃ q', growSeq q newEnd = some q' ∧ MapSeq.Inv q' ∧ q'.nused ≠ 0 ∧ q'.begin = q.begin ∧ q'.end = newEnd ∧
      (q'.slots (q'.nused - 1)).anon = true := by
  have hrun := run_of hi hne
  have hlast := hrun.last
  have hlastne := hrun.nonempty (q.nused - 1) (by omega)
  unfold growSeq
  simp only
  by_cases ca : (q.slots (q.nused - 1)).anon = true
  · rw [if_neg (by simp [ca])]
    have hrun' : MapSeq.Run (setSlot { q with «end» := newEnd } (q.nused - 1) { q.slots (q.nused - 1) with «end» := newEnd }) := by
      refine ⟨hrun.pos, ?_, ?_, ?_, ?_⟩
      · simp only [setSlot]
        split
        · rename_i h; have := hrun.first; rw [this, h]
        · exact hrun.first
      · simp [setSlot]
      · intro i hi'
        simp only [setSlot] at hi' ⊢
        split
        · refine ⟨hlastne.1, ?_⟩; simp only; omega
        · exact hrun.nonempty i hi'
      · intro i hi'
        simp only [setSlot] at hi' ⊢
        rw [if_neg (by omega)]
        split
        · rename_i h; simp only; rw [← h]; exact hrun.contig i hi'
        · exact hrun.contig i hi'
    refine ⟨_, rfl, ⟨⟨hi.1.1, Or.inr hrun'⟩, ?_⟩, hne, rfl, rfl, ?_⟩
    · intro i hi'
      simp only [setSlot]
      split
      · right
        have hm := ((run_iff_chain q hrun.pos).1 hrun).mem (q.slots (q.nused - 1))
          (by unfold entries; exact List.mem_map.2 ⟨_, List.mem_range.2 (by omega), rfl⟩)
        refine ⟨hlastne.1, ?_, hm.2.2.1, ?_⟩ <;> simp only <;> omega
      · rcases hi.2 i hi' with h | ⟨g1, g2, g3, g4⟩
        · exact Or.inl h
        · exact Or.inr ⟨g1, g2, g3, by omega⟩
    · simp [setSlot, ca]
  · have hlt8 : q.nused < MAXLEN := by
      rcases hroom with h | h
      · exact h
      · exact absurd h ca
    rw [if_pos (by simpa using ca), if_neg (by omega)]
    have hrun' : MapSeq.Run { setSlot { q with «end» := newEnd } q.nused ⟨(q.slots (q.nused - 1)).end, newEnd, 3, 0, 0, true, 0⟩ with nused := q.nused + 1 } := by
      refine ⟨by simp only; omega, ?_, ?_, ?_, ?_⟩
      · simp only [setSlot]; rw [if_neg (by omega)]; exact hrun.first
      · simp [setSlot]
      · intro i hi'
        simp only [setSlot] at hi' ⊢
        split
        · simp only; omega
        · exact hrun.nonempty i (by omega)
      · intro i hi'
        simp only [setSlot] at hi' ⊢
        rw [if_neg (by omega)]
        split
        · rename_i h; simp only; congr 2; omega
        · exact hrun.contig i (by omega)
    refine ⟨_, rfl, ⟨⟨hlt8, Or.inr hrun'⟩, ?_⟩, by simp, rfl, rfl, by simp [setSlot]⟩
    intro i hi'
    simp only [setSlot]
    split
    · right
      have hm := ((run_iff_chain q hrun.pos).1 hrun).mem (q.slots (q.nused - 1))
        (by unfold entries; exact List.mem_map.2 ⟨_, List.mem_range.2 (by omega), rfl⟩)
      refine ⟨?_, ?_, ?_, ?_⟩ <;> simp only <;> omega
    · rcases hi.2 i hi' with h | ⟨g1, g2, g3, g4⟩
      · exact Or.inl h
      · exact Or.inr ⟨g1, g2, g3, by omega⟩

/-- Shrinking a sequence leaves room or an anonymous last entry. -/
theorem shrink_room {q q' : Seq} {a len : Nat} {b : Bool} (hi : MapSeq.Inv q) (hne : q.nused ≠ 0) (hl : 0 < len)
    (h : deleteSpan q a len = .ret b q') (hne' : q'.nused ≠ 0)
    (hroom : q.nused < MAXLEN ∨ (q.slots (q.nused - 1)).anon = true) :
    q'.nused < MAXLEN ∨ (q'.slots (q'.nused - 1)).anon = true := by
  obtain ⟨h1, h2, _, _⟩ := deleteSpan_ret hi.1.1 h
  have hrun := run_of hi hne
  have hle : (entries q).length = q.nused := by simp [entries]
  have hle' : (entries q').length = q'.nused := by simp [entries]
  have hf := List.length_filter_le (fun e : Entry => e.begin != 0) ((entries q).map (trim a len))
  rw [List.length_map, hle] at hf
  have hn' : q'.nused ≤ q.nused := by rw [← hle', h2]; exact hf
  have h8 := hi.1.1
  rcases Nat.lt_or_ge q'.nused MAXLEN with c | c
  · exact Or.inl c
  · right
    have heq : q'.nused = q.nused := by omega
    have han : (q.slots (q.nused - 1)).anon = true := by
      rcases hroom with h | h
      · omega
      · exact h
    have hfull : leftover a len (entries q) = (entries q).map (trim a len) := by
      unfold leftover
      apply List.filter_eq_self.2
      apply List.length_filter_eq_length_iff.1
      have : (leftover a len (entries q)).length = q.nused := by rw [← h2, hle', heq]
      rw [List.length_map, hle]; exact this
    rw [hfull] at h2
    have e1 : (entries q')[q'.nused - 1]? = some (q'.slots (q'.nused - 1)) := by
      simp only [entries]; rw [List.getElem?_map, List.getElem?_range (by omega)]; rfl
    have e2 : (entries q)[q'.nused - 1]? = some (q.slots (q.nused - 1)) := by
      simp only [entries]; rw [List.getElem?_map, List.getElem?_range (by omega), heq]; rfl
    rw [h2, List.getElem?_map, e2] at e1
    simp only [Option.map_some, Option.some.injEq] at e1
    have hnz : (q'.slots (q'.nused - 1)).begin ≠ 0 := by
      have hr' : MapSeq.Run q' := by
        rcases (deleteSpan_ret hi.1.1 h).2.2.2 with z | z
        · exact absurd z hne'
        · exact z
      have := hr'.nonempty (q'.nused - 1) (by omega)
      omega
    rw [← e1] at hnz ⊢
    have hne0 := hrun.nonempty (q.nused - 1) (by omega)
    rcases trim_cases a len hl _ hne0 (h1 _ (by omega)) with ⟨_, ht⟩ | ⟨_, _, ht⟩ | ⟨_, _, _, ht⟩ | ⟨_, _, _, ht⟩
    · rw [ht]; exact han
    · rw [ht] at hnz; exact absurd rfl hnz
    · rw [ht]; exact han
    · rw [ht]; exact han

/-- The mapping follows the break. -/
theorem mapNotify_ok (r : Run) (new : Nat) (hs : SeqOk r.st) (hnew : r.st.mapB < roundUp new PAGE) :
    ∃ r' q, mapNotify r new = some r' ∧ r'.st = { r.st with mapE := roundUp new PAGE, seq := q } ∧ SeqOk r'.st ∧
      (r'.trace = r.trace ∧ r.st.mapE = roundUp new PAGE ∨ r'.trace = r'.st :: r.trace) := by
  unfold mapNotify
  simp only
  rcases Nat.lt_trichotomy r.st.mapE (roundUp new PAGE) with c | c | c
  · rw [if_pos c]
    obtain ⟨q', g1, g2, g3, g4, g5, g6⟩ := grow_ok hs.inv hs.ne (by rw [hs.se]; exact c) hs.room
    rw [g1]
    simp only
    rw [if_pos ((sane_iff q').2 (Or.inr (run_of g2 g3)))]
    exact ⟨_, q', rfl, rfl, ⟨g2, g3, g4.trans hs.sb, g5, Or.inr g6⟩, Or.inr rfl⟩
  · rw [if_neg (by omega), if_neg (by omega)]
    exact ⟨r, r.st.seq, rfl, by rw [← c], hs, Or.inl ⟨rfl, c⟩⟩
  · rw [if_neg (by omega), if_pos c]
    obtain ⟨q', e1, e2, e3⟩ := delete_wf_partial r.st.seq (roundUp new PAGE) (r.st.mapE - roundUp new PAGE) hs.inv hs.ne (by omega)
      (Or.inr ⟨by rw [hs.se]; omega, by rw [hs.se]; omega⟩)
    have hne : q'.nused ≠ 0 := by intro h; have := (e2.1 h).1; rw [hs.sb] at this; omega
    obtain ⟨f1, f2, f3⟩ := e3 hne
    rw [hs.sb, if_neg (by omega)] at f2
    rw [hs.se, if_pos (by omega)] at f3
    rw [e1]
    simp only
    rw [if_pos ((sane_iff q').2 (Or.inr (run_of f1 hne)))]
    exact ⟨_, q', rfl, rfl, ⟨f1, hne, f2, f3, shrink_room hs.inv hs.ne (by omega) e1 hne hs.room⟩, Or.inr rfl⟩

/-- The state between events when the break is `cur`: the break allocation begins inside the mapping,
at or below the break, and ends between the break and the mapping's end, which is the break rounded up. -/
structure Synced (cur : Nat) (s : State) : Prop where
  lo : s.mapB < s.brkB
  base : s.brkB ≤ cur
  hi : cur ≤ s.brkE
  inside : s.brkE ≤ s.mapE
  page : s.mapE = roundUp cur PAGE
  seq : SeqOk s

theorem le_roundUp (n : Nat) : n ≤ roundUp n PAGE := by
  unfold roundUp; simp only [PAGE]; omega

theorem roundUp_mono {m n : Nat} (h : m ≤ n) : roundUp m PAGE ≤ roundUp n PAGE := by
  unfold roundUp; simp only [PAGE]; omega

theorem update_ok (r : Run) (new : Nat) (htr : ∀ s ∈ r.trace, Nested s) (hs : SeqOk r.st) (lo : r.st.mapB < r.st.brkB)
    (hb : r.st.brkB ≤ new) (hbe : r.st.brkB ≤ r.st.brkE) (hin : r.st.brkE ≤ r.st.mapE) (hpage : new = r.st.brkE → r.st.mapE = roundUp new PAGE)
    :
    ∃ r', updateBrk r new = some r' ∧ (∀ s ∈ r'.trace, Nested s) ∧ Synced new r'.st ∧ r'.st.brkE = new ∧
      r'.st.brkB = r.st.brkB ∧ r'.st.mapB = r.st.mapB := by
  have hn := le_roundUp new
  unfold updateBrk
  by_cases c1 : new < r.st.brkE
  · rw [if_pos c1]
    obtain ⟨r', q, e1, e2, e3, e4⟩ := mapNotify_ok (r.to { r.st with brkE := new }) new
      ⟨hs.inv, hs.ne, hs.sb, hs.se, hs.room⟩ (by simp only [Run.to]; omega)
    refine ⟨r', e1, ?_, ⟨?_, ?_, ?_, ?_, ?_, e3⟩, ?_, ?_, ?_⟩
    · intro s hs'
      have hmid : Nested { r.st with brkE := new } := ⟨by simp only; omega, hb, by simp only; omega⟩
      rcases e4 with ⟨h, _⟩ | h
      · rw [h] at hs'
        rcases List.mem_cons.1 hs' with rfl | h'
        · exact hmid
        · exact htr s h'
      · rw [h] at hs'
        rcases List.mem_cons.1 hs' with rfl | h'
        · rw [e2]
          exact ⟨by simp only [Run.to]; omega, by simp only [Run.to]; omega, by simp only [Run.to]; omega⟩
        · rcases List.mem_cons.1 h' with rfl | h'
          · exact hmid
          · exact htr s h'
    all_goals rw [e2]
    all_goals simp only [Run.to]
    all_goals omega
  · rw [if_neg c1]
    by_cases c2 : new > r.st.brkE
    · rw [if_pos c2]
      obtain ⟨r', q, e1, e2, e3, e4⟩ := mapNotify_ok r new hs (by omega)
      rw [e1]
      simp only
      refine ⟨_, rfl, ?_, ⟨?_, ?_, ?_, ?_, ?_, ⟨e3.inv, e3.ne, e3.sb, e3.se, e3.room⟩⟩, rfl, ?_, ?_⟩
      · intro s hs'
        rcases List.mem_cons.1 hs' with rfl | h'
        · rw [e2]
          exact ⟨by simp only; omega, by simp only; omega, by simp only; omega⟩
        · rcases e4 with ⟨h, _⟩ | h
          · rw [h] at h'; exact htr s h'
          · rw [h] at h'
            rcases List.mem_cons.1 h' with rfl | h'
            · rw [e2]
              exact ⟨by simp only; omega, hbe, by simp only; omega⟩
            · exact htr s h'
      all_goals simp only [Run.to]
      all_goals (try rw [e2])
      all_goals (try simp only)
      all_goals omega
    · rw [if_neg c2]
      have hp := hpage (by omega)
      exact ⟨r, rfl, htr, ⟨lo, hb, by omega, hin, hp, hs⟩, by omega, rfl, rfl⟩

/-- One event. -/
theorem step_ok (r : Run) (cur : Nat) (e : Event) (htr : ∀ s ∈ r.trace, Nested s) (hs : Synced cur r.st) (hb : r.st.brkB ≤ e.new) :
    ∃ r', step r cur e = some r' ∧ (∀ s ∈ r'.trace, Nested s) ∧ Synced e.new r'.st ∧ r'.st.brkE = e.new ∧
      r'.st.brkB = r.st.brkB ∧ r'.st.mapB = r.st.mapB := by
  have h1 := hs.lo; have h2 := hs.base; have h3 := hs.hi; have h4 := hs.inside; have h5 := hs.page
  have hup : ∀ new, r.st.brkB ≤ new → ∃ r', updateBrk r new = some r' ∧ (∀ s ∈ r'.trace, Nested s) ∧ Synced new r'.st ∧ r'.st.brkE = new ∧
      r'.st.brkB = r.st.brkB ∧ r'.st.mapB = r.st.mapB := by
    intro new hb
    refine update_ok r new htr hs.seq hs.lo hb (by omega) h4 ?_
    intro hn
    rw [h5]
    have : new ≤ roundUp cur PAGE := by omega
    unfold roundUp at *
    simp only [PAGE] at *; omega
  cases e with
  | unindexed new => exact hup new hb
  | notified new late =>
    simp only [Event.new] at hb ⊢
    rw [step]
    unfold notify
    by_cases c : (if late = true then new else cur) < new
    · rw [if_pos c]
      have hcl : cur < new := by cases late <;> simp at c <;> omega
      have hmono := roundUp_mono (Nat.le_of_lt hcl)
      obtain ⟨r1, q, e1, e2, e3, e4⟩ := mapNotify_ok r new hs.seq (by have := le_roundUp new; omega)
      rw [e1]
      simp only
      have htr1 : ∀ s ∈ r1.trace, Nested s := by
        intro s hs'
        rcases e4 with ⟨h, _⟩ | h
        · rw [h] at hs'; exact htr s hs'
        · rw [h] at hs'
          rcases List.mem_cons.1 hs' with rfl | h'
          · rw [e2]; exact ⟨by simp only; omega, by simp only; omega, by simp only; omega⟩
          · exact htr s h'
      obtain ⟨r', f1, f2, f3, f4, f5, f6⟩ := update_ok r1 new htr1 e3 (by rw [e2]; exact h1) (by rw [e2]; exact hb)
        (by rw [e2]; simp only; omega) (by rw [e2]; simp only; omega) (by rw [e2]; intro _; rfl)
      refine ⟨r', f1, f2, f3, f4, ?_, ?_⟩
      · rw [f5, e2]
      · rw [f6, e2]
    · rw [if_neg c]
      obtain ⟨r1, f1, f2, f3, f4, f5, f6⟩ := hup new hb
      rw [f1]
      simp only
      obtain ⟨r2, q, e1, e2, e3, e4⟩ := mapNotify_ok r1 new f3.seq (by rw [← f3.page]; have := f3.lo; have := f3.hi; have := f3.base; have := f3.inside; omega)
      have g1 := f3.lo; have g2 := f3.base; have g3 := f3.hi; have g4 := f3.inside; have g5 := f3.page
      refine ⟨r2, e1, ?_, ⟨?_, ?_, ?_, ?_, ?_, e3⟩, ?_, ?_, ?_⟩
      · intro s hs'
        rcases e4 with ⟨h, _⟩ | h
        · rw [h] at hs'; exact f2 s hs'
        · rw [h] at hs'
          rcases List.mem_cons.1 hs' with rfl | h'
          · rw [e2]; exact ⟨by simp only; omega, by simp only; omega, by simp only; omega⟩
          · exact f2 s h'
      all_goals rw [e2]
      all_goals simp only
      all_goals omega

/-- C25: for any history of break changes, whether libc's variable is updated early or late and
whether the change is notified or discovered later, every state passed through has the break
allocation inside its mapping, and after each event the allocation ends at the break and the mapping at
the break rounded up to a page.  The break never goes below where it was when the allocation was made. -/
theorem history_correct (es : List Event) (r : Run) (cur : Nat) (htr : ∀ s ∈ r.trace, Nested s) (hs : Synced cur r.st)
    (hb : ∀ e ∈ es, r.st.brkB ≤ e.new) :
    ∃ r', runs r cur es = some r' ∧ (∀ s ∈ r'.trace, Nested s) ∧
      (∀ e, es.getLast? = some e → r'.st.brkE = e.new ∧ r'.st.mapE = (e.new + 4095) / 4096 * 4096) := by
  induction es generalizing r cur with
  | nil => exact ⟨r, rfl, htr, by simp⟩
  | cons e es ih =>
    obtain ⟨r1, e1, e2, e3, e4, e5, e6⟩ := step_ok r cur e htr hs (hb e List.mem_cons_self)
    obtain ⟨r', f1, f2, f3⟩ := ih r1 e.new e2 e3 (by intro x hx; rw [e5]; exact hb x (List.mem_cons_of_mem _ hx))
    refine ⟨r', by rw [runs, e1]; exact f1, f2, ?_⟩
    intro x hx
    cases es with
    | nil =>
      simp only [List.getLast?_singleton, Option.some.injEq] at hx
      subst hx
      rw [runs] at f1
      cases f1
      exact ⟨e4, e3.page⟩
    | cons y ys => exact f3 x (by rw [List.getLast?_cons_cons] at hx; exact hx)

/-- Creating the break allocation establishes the starting state if the mapping the break is in ends with
the break's page, or if the break is at or beyond the end of the mapping below it. -/
theorem create_synced (curbrk mapB mapE : Nat) (q : Seq) (h1 : mapB < curbrk)
    (hq : SeqOk ⟨curbrk, curbrk, mapB, mapE, q⟩) (hend : mapE ≤ curbrk ∨ mapE = roundUp curbrk PAGE) :
    ∃ s cur, create curbrk mapB mapE q = some (s, cur) ∧ Synced cur s ∧ s.brkB = curbrk := by
  unfold create
  by_cases c : curbrk < mapE
  · rw [if_pos c]
    refine ⟨_, _, rfl, ⟨h1, Nat.le_refl _, Nat.le_of_lt c, Nat.le_refl _, ?_, ⟨hq.inv, hq.ne, hq.sb, hq.se, hq.room⟩⟩, rfl⟩
    rcases hend with h | h
    · omega
    · exact h
  · rw [if_neg c]
    have hr := le_roundUp (curbrk + 1)
    have hse : q.end = mapE := hq.se
    obtain ⟨q', g1, g2, g3, g4, g5, g6⟩ := grow_ok (newEnd := roundUp (curbrk + 1) PAGE) hq.inv hq.ne (by simp only; omega) hq.room
    have hm : mapNotify ⟨⟨curbrk, curbrk, mapB, curbrk, q⟩, []⟩ (curbrk + 1) =
        some (Run.to ⟨⟨curbrk, curbrk, mapB, curbrk, q⟩, []⟩ ⟨curbrk, curbrk, mapB, roundUp (curbrk + 1) PAGE, q'⟩) := by
      unfold mapNotify adjustMap
      generalize roundUp (curbrk + 1) PAGE = re at *
      simp only at g1 ⊢
      rw [if_pos (by omega), g1]
      simp only
      rw [if_pos ((sane_iff q').2 (Or.inr (run_of g2 g3)))]
    rw [hm]
    obtain ⟨re, hre⟩ : ∃ re, re = roundUp (curbrk + 1) PAGE := ⟨_, rfl⟩
    rw [← hre] at hm hr g1 g5 ⊢
    refine ⟨⟨curbrk, re, mapB, re, q'⟩, curbrk + 1, if_pos (show curbrk < re by omega),
      ⟨h1, Nat.le_succ curbrk, hr, Nat.le_refl _, hre, ⟨g2, g3, g4.trans hq.sb, g5, Or.inr g6⟩⟩, rfl⟩

/-- A data segment with its break one page and a bit above. -/
def exQ : Seq := ofList [⟨0x1000, 0x3000, 3, 2, 0, false, 0⟩] (some 1)

theorem exQ_ok : SeqOk ⟨0x4100, 0x4100, 0x1000, 0x3000, exQ⟩ := by
  refine ⟨⟨⟨by decide, Or.inr ((sane_iff exQ).1 (by decide) |>.resolve_left (by decide))⟩, ?_⟩, by decide, rfl, rfl, Or.inl (by decide)⟩
  intro i hi
  cases i with
  | zero => right; decide
  | succ i => left; rfl

/-- Creation across a gap, growth, shrinkage and growth. -/
example : (match create 0x4100 0x1000 0x3000 exQ with
      | none => none
      | some (s, cur) => (runs ⟨s, []⟩ cur [.notified 0x6200 false, .notified 0x4180 true, .unindexed 0x9000]).map
          (fun r => (r.st.brkB, r.st.brkE, r.st.mapE, r.trace.length))) = some (0x4100, 0x9000, 0x9000, 6) := by decide +kernel

/-- The break allocation does not end at the break when it has just been created. -/
theorem created_end_fails : (create 0x4100 0x1000 0x3000 exQ).map (fun p => (p.1.brkE, p.2)) = some (0x5000, 0x4101) := by decide +kernel

/-- If the mapping the break is in reaches beyond the break's page, the first growth passes through a state
in which the break allocation reaches outside its mapping. -/
theorem overlong_mapping_fails :
    ((match create 0x4100 0x1000 0x8000 (ofList [⟨0x1000, 0x8000, 3, 0x22, 0, true, 0⟩] none) with
      | none => none
      | some (s, cur) => (runs ⟨s, []⟩ cur [.notified 0x4200 false]).map
          (fun r => r.trace.map (fun s => (s.brkE, s.mapE)))) = some [(0x4200, 0x5000), (0x8000, 0x5000)]) := by decide +kernel

/-- With the array full of file mappings, growth would store past its end. -/
theorem full_sequence_fails :
    mapNotify ⟨⟨0x8800, 0x8800, 0x1000, 0x9000, ofList ((List.range 8).map (fun i => ⟨0x1000 * (i + 1), 0x1000 * (i + 2), 3, 2, 0x1000 * i, false, 0⟩)) (some 1)⟩, []⟩
      0x9001 = none := by decide +kernel

end Liballocs.Brk
