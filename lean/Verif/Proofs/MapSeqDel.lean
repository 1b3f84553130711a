import Verif.Proofs.MapSeq
/-! # Deleting from mapping sequences: supporting lemmas -/
namespace Liballocs.MapSeq

/-- The entries in use, as a list. -/
def entries (s : Seq) : List Entry := (List.range s.nused).map s.slots

/-- Non-empty contiguous entries from `b` to `e`. -/
def Chain : Nat → Nat → List Entry → Prop
  | b, e, [] => b = e
  | b, e, x :: xs => x.begin = b ∧ 0 < x.begin ∧ x.begin < x.end ∧ Chain x.end e xs

theorem chain_iff (n : Nat) (f : Nat → Entry) (b e : Nat) :
    Chain b e ((List.range (n + 1)).map f) ↔
      (f 0).begin = b ∧ (f n).end = e ∧ (∀ i, i < n + 1 → 0 < (f i).begin ∧ (f i).begin < (f i).end) ∧
      (∀ i, i + 1 < n + 1 → (f i).end = (f (i + 1)).begin) := by
  induction n generalizing f b with
  | zero =>
    simp only [List.range_succ, List.range_zero, List.nil_append, List.map_cons, List.map_nil, Chain]
    constructor
    · rintro ⟨h1, h2, h3, h4⟩
      refine ⟨h1, h4, ?_, by omega⟩
      intro i hi
      have : i = 0 := by omega
      subst this; exact ⟨h2, h3⟩
    · rintro ⟨h1, h2, h3, _⟩
      exact ⟨h1, (h3 0 (by omega)).1, (h3 0 (by omega)).2, h2⟩
  | succ n ih =>
    rw [List.range_succ_eq_map, List.map_cons, List.map_map, Chain, ih]
    constructor
    · rintro ⟨h1, h2, h3, h4, h5, h6, h7⟩
      refine ⟨h1, h5, ?_, ?_⟩
      · intro i hi
        cases i with
        | zero => exact ⟨h2, h3⟩
        | succ i => exact h6 i (by omega)
      · intro i hi
        cases i with
        | zero => exact h4.symm
        | succ i => exact h7 i (by omega)
    · rintro ⟨h1, h2, h3, h4⟩
      refine ⟨h1, (h3 0 (by omega)).1, (h3 0 (by omega)).2, (h4 0 (by omega)).symm, h2, ?_, ?_⟩
      · intro i hi; exact h3 (i + 1) (by omega)
      · intro i hi; exact h4 (i + 1) (by omega)

theorem run_iff_chain (s : Seq) (hp : 0 < s.nused) : Run s ↔ Chain s.begin s.end (entries s) := by
  obtain ⟨n, hn⟩ : ∃ n, s.nused = n + 1 := ⟨s.nused - 1, by omega⟩
  unfold entries
  rw [hn, chain_iff]
  constructor
  · intro h
    have h1 := h.first; have h2 := h.last; have h3 := h.nonempty; have h4 := h.contig
    rw [hn] at h2 h3 h4
    exact ⟨h1.symm, by simpa using h2.symm, h3, h4⟩
  · rintro ⟨h1, h2, h3, h4⟩
    refine ⟨hp, h1.symm, ?_, by rw [hn]; exact h3, by rw [hn]; exact h4⟩
    rw [hn]; simpa using h2.symm

theorem Chain.le {b e : Nat} {L : List Entry} (h : Chain b e L) : b ≤ e := by
  induction L generalizing b with
  | nil => exact Nat.le_of_eq h
  | cons x xs ih => have := ih h.2.2.2; have := h.1; have := h.2.2.1; omega

/-- What the first loop makes of an entry. -/
def trim (addr len : Nat) (e : Entry) : Entry :=
  if e.begin ≤ addr + len ∧ e.end > addr then
    let lb := if addr > e.begin then addr - e.begin else 0
    let le := if addr + len > e.end then 0 else e.end - (addr + len)
    if lb = 0 ∧ le = 0 then zero
    else if lb = 0 then { e with begin := e.begin + ((e.end - e.begin) - le) }
    else { e with «end» := e.end - ((e.end - e.begin) - lb) }
  else e

def Splits (addr len : Nat) (e : Entry) : Prop :=
  e.begin ≤ addr + len ∧ e.end > addr ∧ addr > e.begin ∧ addr + len < e.end

theorem delStep_none (addr len : Nat) (s : Seq) (i : Nat) (h : Splits addr len (s.slots i)) :
    delStep addr len s i = none := by
  obtain ⟨h1, h2, h3, h4⟩ := h
  unfold delStep
  simp only
  rw [if_pos ⟨h1, h2⟩, if_pos ⟨h3, h4⟩]

/-- One round: the entry is trimmed and the sequence's bounds follow its first and last entries. -/
theorem delStep_some (addr len : Nat) (s : Seq) (i : Nat) (hs : ¬ Splits addr len (s.slots i)) :
    ∃ s1, delStep addr len s i = some s1 ∧ s1.nused = s.nused ∧ s1.filename = s.filename ∧
      (∀ j, s1.slots j = if j = i then trim addr len (s.slots i) else s.slots j) ∧
      (s1.begin = s.begin ∨ (i = 0 ∧ s1.begin = (trim addr len (s.slots 0)).begin ∧
        (s.slots 0).begin ≤ addr + len ∧ addr + len < (s.slots 0).end ∧ addr ≤ (s.slots 0).begin)) ∧
      (s1.end = s.end ∨ (i = s.nused - 1 ∧ s1.end = (trim addr len (s.slots i)).end ∧
        (s.slots i).begin < addr ∧ addr < (s.slots i).end)) := by
  unfold Splits at hs
  unfold delStep trim
  simp only
  by_cases c1 : (s.slots i).begin ≤ addr + len ∧ (s.slots i).end > addr
  · rw [if_pos c1, if_neg (by omega), if_pos c1]
    by_cases c2 : (if addr > (s.slots i).begin then addr - (s.slots i).begin else 0) = 0 ∧
        (if addr + len > (s.slots i).end then 0 else (s.slots i).end - (addr + len)) = 0
    · rw [if_pos c2, if_pos c2]
      exact ⟨_, rfl, rfl, rfl, fun j => rfl, Or.inl rfl, Or.inl rfl⟩
    · rw [if_neg c2, if_neg c2]
      by_cases c3 : (if addr > (s.slots i).begin then addr - (s.slots i).begin else 0) = 0
      · rw [if_pos c3, if_pos c3]
        have c4 : ¬ (if addr + len > (s.slots i).end then 0 else (s.slots i).end - (addr + len)) = 0 := fun h => c2 ⟨c3, h⟩
        refine ⟨_, rfl, ?_⟩
        by_cases ci : i = 0
        · subst ci
          rw [if_pos rfl]
          refine ⟨rfl, rfl, fun j => rfl, Or.inr ⟨rfl, ?_, c1.1, ?_, ?_⟩, Or.inl rfl⟩
          · rw [if_pos c1, if_neg c2, if_pos c3]; simp [setSlot]
          · split at c4 <;> omega
          · split at c3 <;> omega
        · rw [if_neg ci]
          exact ⟨rfl, rfl, fun j => rfl, Or.inl rfl, Or.inl rfl⟩
      · rw [if_neg c3, if_neg c3]
        refine ⟨_, rfl, ?_⟩
        by_cases ci : i = s.nused - 1
        · rw [if_pos (show i = (setSlot s i _).nused - 1 from ci)]
          refine ⟨rfl, rfl, fun j => rfl, Or.inl rfl, Or.inr ⟨ci, ?_, ?_, c1.2⟩⟩
          · simp [setSlot]
          · split at c3 <;> omega
        · rw [if_neg (show ¬ i = (setSlot s i _).nused - 1 from ci)]
          exact ⟨rfl, rfl, fun j => rfl, Or.inl rfl, Or.inl rfl⟩
  · rw [if_neg c1, if_neg c1]
    refine ⟨s, rfl, rfl, rfl, ?_, Or.inl rfl, Or.inl rfl⟩
    intro j; by_cases cj : j = i
    · rw [if_pos cj, cj]
    · rw [if_neg cj]

/-- The first loop. -/
theorem delLoop_some (addr len : Nat) (is : List Nat) (hnd : is.Nodup) (s : Seq) (hs : ∀ i ∈ is, ¬ Splits addr len (s.slots i)) :
    ∃ s1, delLoop addr len s is = some s1 ∧ s1.nused = s.nused ∧ s1.filename = s.filename ∧
      (∀ j, s1.slots j = if j ∈ is then trim addr len (s.slots j) else s.slots j) ∧
      (s1.begin = s.begin ∨ (s1.begin = (trim addr len (s.slots 0)).begin ∧
        (s.slots 0).begin ≤ addr + len ∧ addr + len < (s.slots 0).end ∧ addr ≤ (s.slots 0).begin)) ∧
      (s1.end = s.end ∨ (s1.end = (trim addr len (s.slots (s.nused - 1))).end ∧
        (s.slots (s.nused - 1)).begin < addr ∧ addr < (s.slots (s.nused - 1)).end)) := by
  induction is generalizing s with
  | nil => exact ⟨s, rfl, rfl, rfl, fun j => by simp, Or.inl rfl, Or.inl rfl⟩
  | cons i is ih =>
    obtain ⟨hni, hnd'⟩ := List.nodup_cons.1 hnd
    obtain ⟨s1, e1, e2, e3, e4, e5, e6⟩ := delStep_some addr len s i (hs i List.mem_cons_self)
    obtain ⟨s2, f1, f2, f3, f4, f5, f6⟩ := ih hnd' s1 (by
      intro j hj
      rw [e4, if_neg (by rintro rfl; exact hni hj)]
      exact hs j (List.mem_cons_of_mem _ hj))
    refine ⟨s2, ?_, f2.trans e2, f3.trans e3, ?_, ?_, ?_⟩
    · rw [delLoop, e1]; exact f1
    · intro j
      rw [f4]
      by_cases cj : j ∈ is
      · have : j ≠ i := by rintro rfl; exact hni cj
        rw [if_pos cj, if_pos (List.mem_cons_of_mem _ cj), e4, if_neg this]
      · rw [if_neg cj, e4]
        by_cases ci : j = i
        · rw [if_pos ci, ci, if_pos List.mem_cons_self]
        · rw [if_neg ci, if_neg]
          intro h
          rcases List.mem_cons.1 h with h | h
          · exact ci h
          · exact cj h
    · rcases f5 with f5 | ⟨f5, f5b, f5c, f5d⟩
      · rw [f5]
        rcases e5 with e5 | ⟨e5a, e5⟩
        · exact Or.inl e5
        · exact Or.inr e5
      · by_cases c0 : (0 : Nat) = i
        · subst c0
          -- already trimmed: trimming again changes nothing
          have e40 := e4 0
          rw [if_pos rfl] at e40
          rcases e5 with e5 | ⟨_, e5⟩
          · -- the step left the bound alone, so this entry was not trimmed at its beginning
            rw [e40] at f5b f5c f5d f5
            right
            revert f5 f5b f5c f5d
            unfold trim
            intro f5 f5b f5c f5d
            have h0 := hs 0 List.mem_cons_self
            unfold Splits at h0
            simp only [zero] at *
            grind
          · right
            rw [e40] at f5b f5c f5d f5
            refine ⟨?_, e5.2⟩
            rw [f5]
            obtain ⟨_, g1, g2, g3⟩ := e5
            unfold trim
            grind
        · rw [e4, if_neg c0] at f5 f5b f5c f5d
          exact Or.inr ⟨f5, f5b, f5c, f5d⟩
    · rcases f6 with f6 | ⟨f6, f6b, f6c⟩
      · rw [f6]
        rcases e6 with e6 | ⟨e6a, e6⟩
        · exact Or.inl e6
        · rw [← e6a]; exact Or.inr e6
      · rw [e2] at f6 f6b f6c
        by_cases c0 : s.nused - 1 = i
        · have e40 := e4 i
          rw [if_pos rfl] at e40
          rw [c0] at f6 f6b f6c ⊢
          rw [e40] at f6 f6b f6c
          exfalso
          have h0 := hs i List.mem_cons_self
          revert f6b f6c
          unfold trim
          unfold Splits at h0
          simp only [zero]
          grind
        · rw [e4, if_neg c0] at f6 f6b f6c
          exact Or.inr ⟨f6, f6b, f6c⟩

theorem delLoop_none (addr len : Nat) (is : List Nat) (hnd : is.Nodup) (s : Seq) (i : Nat) (hi : i ∈ is)
    (h : Splits addr len (s.slots i)) : delLoop addr len s is = none := by
  induction is generalizing s with
  | nil => cases hi
  | cons j is ih =>
    obtain ⟨hni, hnd'⟩ := List.nodup_cons.1 hnd
    rw [delLoop]
    by_cases cj : i = j
    · subst cj; rw [delStep_none _ _ _ _ h]
    · by_cases cs : Splits addr len (s.slots j)
      · rw [delStep_none _ _ _ _ cs]
      · obtain ⟨s1, e1, e2, e3, e4, e5, e6⟩ := delStep_some addr len s j cs
        rw [e1]
        refine ih hnd' s1 ((List.mem_cons.1 hi).resolve_left cj) ?_
        rw [e4, if_neg cj]; exact h

/-- The compaction keeps the entries that were not cleared, in order. -/
theorem compact_spec (k : Nat) (s : Seq) (i : Nat) (hk : s.nused ≤ i + k) (hi : i ≤ s.nused) :
    entries (compact k s i) = (entries s).take i ++ ((entries s).drop i).filter (fun e => e.begin != 0) ∧
      (compact k s i).begin = s.begin ∧ (compact k s i).end = s.end ∧ (compact k s i).filename = s.filename ∧
      (compact k s i).nused ≤ s.nused := by
  induction k generalizing s i with
  | zero =>
    have : i = s.nused := by omega
    have hl : (entries s).length = s.nused := by simp [entries]
    refine ⟨?_, rfl, rfl, rfl, Nat.le_refl _⟩
    rw [compact, this, ← hl, List.take_length, List.drop_length]; simp
  | succ k ih =>
    rw [compact]
    have hl : (entries s).length = s.nused := by simp [entries]
    by_cases c : i < s.nused
    · rw [if_pos c]
      have hd : (entries s).drop i = s.slots i :: (entries s).drop (i + 1) := by
        rw [List.drop_eq_getElem_cons (by omega)]
        simp [entries]
      by_cases z : (s.slots i).begin = 0
      · rw [if_pos z]
        obtain ⟨g1, g2, g3, g4, g5⟩ := ih { s with
          slots := fun j => if j = s.nused - 1 then zero else if i ≤ j ∧ j < s.nused - 1 then s.slots (j + 1) else s.slots j
          nused := s.nused - 1 } i (by simp only; omega) (by simp only; omega)
        refine ⟨?_, g2, g3, g4, by simp only at g5; omega⟩
        rw [g1, hd, List.filter_cons_of_neg (by simp [z])]
        have key : entries { s with
            slots := fun j => if j = s.nused - 1 then zero else if i ≤ j ∧ j < s.nused - 1 then s.slots (j + 1) else s.slots j
            nused := s.nused - 1 } = (entries s).take i ++ (entries s).drop (i + 1) := by
          apply List.ext_getElem
          · simp [entries]; omega
          · intro j h1 h2
            simp only [entries, List.length_map, List.length_range] at h1
            rw [List.getElem_append]
            simp only [entries, List.getElem_map, List.getElem_range, List.length_take, List.length_map, List.length_range,
              List.getElem_take, List.getElem_drop]
            rw [if_neg (by omega)]
            split
            · rename_i hc
              rw [dif_neg (by omega)]
              congr 1; omega
            · rename_i hc
              rw [dif_pos (by omega)]
        rw [key]
        have ht : ((entries s).take i).length = i := by rw [List.length_take]; omega
        rw [List.take_append_of_le_length (by omega), List.take_of_length_le (by omega : ((entries s).take i).length ≤ i),
          List.drop_append_of_le_length (by omega), List.drop_of_length_le (by omega : ((entries s).take i).length ≤ i), List.nil_append]
      · rw [if_neg z]
        obtain ⟨g1, g2, g3, g4, g5⟩ := ih s (i + 1) (by omega) (by omega)
        refine ⟨?_, g2, g3, g4, g5⟩
        rw [g1, hd, List.filter_cons_of_pos (by simp [z])]
        have : (entries s).take (i + 1) = (entries s).take i ++ [s.slots i] := by
          rw [List.take_succ_eq_append_getElem (by omega)]
          simp [entries]
        rw [this, List.append_assoc]; rfl
    · rw [if_neg c]
      have : i = s.nused := by omega
      refine ⟨?_, rfl, rfl, rfl, Nat.le_refl _⟩
      rw [this, ← hl, List.take_length, List.drop_length]; simp

/-- What is left of a list of entries. -/
def leftover (addr len : Nat) (L : List Entry) : List Entry :=
  (L.map (trim addr len)).filter (fun e => e.begin != 0)

theorem trim_cases (addr len : Nat) (_hl : 0 < len) (e : Entry) (h : 0 < e.begin ∧ e.begin < e.end) (hs : ¬ Splits addr len e) :
    ((e.end ≤ addr ∨ addr + len ≤ e.begin) ∧ trim addr len e = e) ∨
    (addr ≤ e.begin ∧ e.end ≤ addr + len ∧ trim addr len e = zero) ∨
    (addr ≤ e.begin ∧ e.begin < addr + len ∧ addr + len < e.end ∧ trim addr len e = { e with begin := addr + len }) ∨
    (e.begin < addr ∧ addr < e.end ∧ e.end ≤ addr + len ∧ trim addr len e = { e with «end» := addr }) := by
  unfold Splits at hs
  unfold trim
  rcases Nat.lt_or_ge addr e.end with c1 | c1
  · rcases Nat.lt_or_ge (addr + len) e.begin with c2 | c2
    · left; rw [if_neg (by omega)]; exact ⟨by omega, rfl⟩
    · rw [if_pos ⟨c2, c1⟩]
      rcases Nat.lt_or_ge e.begin addr with c3 | c3
      · right; right; right
        simp only [if_pos c3]
        rw [if_neg (by omega), if_neg (by omega)]
        refine ⟨c3, c1, by omega, ?_⟩
        congr 1; omega
      · simp only [if_neg (Nat.not_lt.2 c3)]
        rcases Nat.lt_or_ge (addr + len) e.end with c4 | c4
        · rw [if_neg (Nat.not_lt.2 (Nat.le_of_lt c4))]
          rw [if_neg (by omega)]
          simp only [if_true]
          rcases Nat.eq_or_lt_of_le c2 with c5 | c5
          · left
            refine ⟨by omega, ?_⟩
            have : e.begin + (e.end - e.begin - (e.end - (addr + len))) = e.begin := by omega
            rw [this]
          · right; right; left
            refine ⟨c3, c5, c4, ?_⟩
            congr 1; omega
        · right; left
          have : (if addr + len > e.end then 0 else e.end - (addr + len)) = 0 := by split <;> omega
          rw [this]
          exact ⟨c3, c4, by simp⟩
  · left; rw [if_neg (by omega)]; exact ⟨by omega, rfl⟩

/-- What is left of an entry covers exactly what it covered outside the deleted range. -/
theorem trim_mem (addr len : Nat) (hl : 0 < len) (e : Entry) (h : 0 < e.begin ∧ e.begin < e.end) (hs : ¬ Splits addr len e) (a : Nat) :
    (((trim addr len e).begin ≤ a ∧ a < (trim addr len e).end) ↔
      ((e.begin ≤ a ∧ a < e.end) ∧ ¬ (addr ≤ a ∧ a < addr + len))) ∧
    ((trim addr len e).begin ≤ a ∧ a < (trim addr len e).end → (trim addr len e).begin ≠ 0 ∧
      { trim addr len e with begin := e.begin, «end» := e.end } = e ∧
      ((trim addr len e).begin ≠ e.begin → (trim addr len e).begin = addr + len ∧ e.begin < addr + len ∧ addr + len ≤ a)) := by
  rcases trim_cases addr len hl e h hs with ⟨c, ht⟩ | ⟨c1, c2, ht⟩ | ⟨c1, c2, c3, ht⟩ | ⟨c1, c2, c3, ht⟩
  · rw [ht]; exact ⟨by omega, fun _ => ⟨by omega, rfl, by omega⟩⟩
  · rw [ht]; simp only [zero]; exact ⟨by omega, by omega⟩
  · rw [ht]; exact ⟨by simp only; omega, fun hh => ⟨by simp only; omega, rfl, fun _ => ⟨rfl, c2, hh.1⟩⟩⟩
  · rw [ht]; exact ⟨by simp only; omega, fun hh => ⟨by simp only; omega, rfl, fun hne => absurd rfl hne⟩⟩

def covers (a : Nat) (e : Entry) : Bool := decide (a ≥ e.begin ∧ a < e.end)

theorem findEntry_entries (s : Seq) (a : Nat) : findEntry s a = (entries s).find? (covers a) := rfl

/-- Looking an address up in what is left. -/
theorem leftover_find (addr len : Nat) (hl : 0 < len) (L : List Entry)
    (h : ∀ e ∈ L, (0 < e.begin ∧ e.begin < e.end) ∧ ¬ Splits addr len e) (a : Nat) :
    ((addr ≤ a ∧ a < addr + len) → (leftover addr len L).find? (covers a) = none) ∧
    (¬ (addr ≤ a ∧ a < addr + len) →
      (leftover addr len L).find? (covers a) = (L.find? (covers a)).map (trim addr len)) := by
  induction L with
  | nil => exact ⟨fun _ => rfl, fun _ => rfl⟩
  | cons e L ih =>
    obtain ⟨i1, i2⟩ := ih (fun x hx => h x (List.mem_cons_of_mem _ hx))
    obtain ⟨hne, hns⟩ := h e List.mem_cons_self
    obtain ⟨m1, m2⟩ := trim_mem addr len hl e hne hns a
    have hunf : leftover addr len (e :: L) =
        if (trim addr len e).begin ≠ 0 then trim addr len e :: leftover addr len L else leftover addr len L := by
      unfold leftover
      rw [List.map_cons, List.filter_cons]
      by_cases c : (trim addr len e).begin = 0 <;> simp [c]
    rw [hunf]
    constructor
    · intro hin
      split
      · rw [List.find?_cons_of_neg (by unfold covers; rw [decide_eq_true_eq]; omega)]; exact i1 hin
      · exact i1 hin
    · intro hout
      by_cases c : e.begin ≤ a ∧ a < e.end
      · have hc := m1.2 ⟨c, hout⟩
        rw [if_pos (m2 hc).1, List.find?_cons_of_pos (by unfold covers; rw [decide_eq_true_eq]; exact hc),
          List.find?_cons_of_pos (by unfold covers; rw [decide_eq_true_eq]; exact c)]
        rfl
      · rw [List.find?_cons_of_neg (l := L) (by unfold covers; rw [decide_eq_true_eq]; exact c)]
        split
        · rw [List.find?_cons_of_neg (by unfold covers; rw [decide_eq_true_eq]; omega)]; exact i2 hout
        · exact i2 hout

theorem leftover_cons (addr len : Nat) (e : Entry) (L : List Entry) : leftover addr len (e :: L) =
    if (trim addr len e).begin ≠ 0 then trim addr len e :: leftover addr len L else leftover addr len L := by
  unfold leftover
  rw [List.map_cons, List.filter_cons]
  by_cases c : (trim addr len e).begin = 0 <;> simp [c]

/-- Deleting a prefix of a chain leaves a chain. -/
theorem chain_prefix (addr len : Nat) (hl : 0 < len) (L : List Entry) (b e : Nat) (hc : Chain b e L) (hb : addr ≤ b) :
    Chain (max b (addr + len)) (max e (addr + len)) (leftover addr len L) := by
  induction L generalizing b with
  | nil =>
    have : b = e := hc
    subst this; rfl
  | cons x L ih =>
    obtain ⟨h1, h2, h3, h4⟩ := hc
    have ih := ih x.end h4 (by omega)
    rw [leftover_cons]
    rcases trim_cases addr len hl x ⟨h2, h3⟩ (by unfold Splits; omega) with ⟨c, ht⟩ | ⟨c1, c2, ht⟩ | ⟨c1, c2, c3, ht⟩ | ⟨c1, c2, c3, ht⟩
    · rw [ht, if_pos (by omega)]
      refine ⟨by omega, h2, h3, ?_⟩
      rw [Nat.max_eq_left (by omega)] at ih; exact ih
    · rw [ht, if_neg (by simp [zero])]
      rw [Nat.max_eq_right (by omega)] at ih ⊢; exact ih
    · rw [ht, if_pos (by simp only; omega)]
      refine ⟨by simp only; omega, by simp only; omega, c3, ?_⟩
      rw [Nat.max_eq_left (by omega)] at ih; exact ih
    · omega

/-- Deleting a suffix of a chain leaves a chain. -/
theorem chain_suffix (addr len : Nat) (hl : 0 < len) (L : List Entry) (b e : Nat) (hc : Chain b e L) (he : e ≤ addr + len) :
    Chain (min b addr) (min e addr) (leftover addr len L) := by
  induction L generalizing b with
  | nil =>
    have : b = e := hc
    subst this; rfl
  | cons x L ih =>
    obtain ⟨h1, h2, h3, h4⟩ := hc
    have hle := h4.le
    have ih := ih x.end h4
    rw [leftover_cons]
    rcases trim_cases addr len hl x ⟨h2, h3⟩ (by unfold Splits; omega) with ⟨c, ht⟩ | ⟨c1, c2, ht⟩ | ⟨c1, c2, c3, ht⟩ | ⟨c1, c2, c3, ht⟩
    · rw [ht, if_pos (by omega)]
      refine ⟨by omega, h2, h3, ?_⟩
      rw [Nat.min_eq_left (by omega)] at ih; exact ih
    · rw [ht, if_neg (by simp [zero])]
      rw [Nat.min_eq_right (by omega)] at ih ⊢; exact ih
    · omega
    · rw [ht, if_pos (by simp only; omega)]
      refine ⟨by simp only; omega, h2, c1, ?_⟩
      rw [Nat.min_eq_right (by omega)] at ih; exact ih

theorem Chain.mem {b e : Nat} {L : List Entry} (h : Chain b e L) : ∀ x ∈ L, 0 < x.begin ∧ x.begin < x.end ∧ b ≤ x.begin ∧ x.end ≤ e := by
  induction L generalizing b with
  | nil => intro x hx; cases hx
  | cons y L ih =>
    intro x hx
    obtain ⟨h1, h2, h3, h4⟩ := h
    rcases List.mem_cons.1 hx with rfl | hx
    · exact ⟨h2, h3, by omega, h4.le⟩
    · have := ih h4 x hx; omega

theorem entries_of_loop {addr len : Nat} {s s1 : Seq} (hn : s1.nused = s.nused) (hM : s.nused ≤ MAXLEN)
    (hs : ∀ j, s1.slots j = if j ∈ List.range MAXLEN then trim addr len (s.slots j) else s.slots j) :
    entries s1 = (entries s).map (trim addr len) := by
  unfold entries
  rw [hn, List.map_map]
  apply List.map_congr_left
  intro i hi
  rw [List.mem_range] at hi
  rw [hs, if_pos (by rw [List.mem_range]; omega)]; rfl

theorem finish_ret {b b' : Bool} {s s' : Seq} (h : finish b s = .ret b' s') : sane s = true ∧ s = s' := by
  unfold finish at h
  by_cases c : sane s = true
  · rw [if_pos c] at h; cases h; exact ⟨c, rfl⟩
  · rw [if_neg c] at h; cases h

/-- If deletion returns, no slot in use is split and what is left is what was outside. -/
theorem deleteSpan_ret {s : Seq} {addr len : Nat} {b : Bool} {s' : Seq} (hM : s.nused ≤ MAXLEN)
    (h : deleteSpan s addr len = .ret b s') :
    (∀ i, i < MAXLEN → ¬ Splits addr len (s.slots i)) ∧ entries s' = leftover addr len (entries s) ∧
      s'.filename = s.filename ∧ (s'.nused = 0 ∨ Run s') := by
  unfold deleteSpan at h
  split at h
  · cases h
  · have hnd : (List.range MAXLEN).Nodup := List.nodup_range
    by_cases hsp : ∀ i, i < MAXLEN → ¬ Splits addr len (s.slots i)
    · refine ⟨hsp, ?_⟩
      obtain ⟨s1, e1, e2, e3, e4, e5, e6⟩ := delLoop_some addr len (List.range MAXLEN) hnd s
        (fun i hi => hsp i (List.mem_range.1 hi))
      rw [e1] at h
      simp only at h
      obtain ⟨g1, g2, g3, g4, g5⟩ := compact_spec s1.nused s1 0 (by omega) (Nat.zero_le _)
      simp only [List.take_zero, List.nil_append, List.drop_zero] at g1
      obtain ⟨hsane, hs'⟩ := finish_ret h
      subst hs'
      · refine ⟨?_, ?_, (sane_iff _).1 hsane⟩
        · have : ∀ t : Seq, entries (if t.begin ≥ addr ∧ t.begin < addr + len then { t with begin := addr + len } else t) = entries t := by
            intro t; split <;> rfl
          have h2 : ∀ t : Seq, entries (if t.end > addr ∧ t.end ≤ addr + len then { t with «end» := addr } else t) = entries t := by
            intro t; split <;> rfl
          rw [h2, this, g1, entries_of_loop e2 hM e4]; rfl
        · have : ∀ t : Seq, (if t.begin ≥ addr ∧ t.begin < addr + len then { t with begin := addr + len } else t).filename = t.filename := by
            intro t; split <;> rfl
          have h2 : ∀ t : Seq, (if t.end > addr ∧ t.end ≤ addr + len then { t with «end» := addr } else t).filename = t.filename := by
            intro t; split <;> rfl
          rw [h2, this, g4, e3]
    · exfalso
      rw [Classical.not_forall] at hsp
      obtain ⟨i, hi⟩ := hsp
      rw [Classical.not_imp, Classical.not_not] at hi
      rw [delLoop_none addr len _ hnd s i (List.mem_range.2 hi.1) hi.2] at h
      cases h

/-- Deleting a prefix or a suffix returns. -/
theorem deleteSpan_ok {s : Seq} {addr len : Nat} (hM : s.nused ≤ MAXLEN) (hrun : Run s) (hl : 0 < len)
    (hz : ∀ i, s.nused ≤ i → i < MAXLEN → ¬ Splits addr len (s.slots i))
    (hps : (addr ≤ s.begin ∧ s.begin < addr + len) ∨ (s.end ≤ addr + len ∧ addr < s.end)) :
    ∃ s', deleteSpan s addr len = .ret true s' ∧
      (s'.nused = 0 ↔ addr ≤ s.begin ∧ s.end ≤ addr + len) ∧
      (s'.nused ≠ 0 → Run s' ∧ s'.begin = (if addr ≤ s.begin then addr + len else s.begin) ∧
        s'.end = (if s.end ≤ addr + len then addr else s.end)) := by
  have hch := (run_iff_chain s hrun.pos).1 hrun
  have hlt : s.begin < s.end := by
    have h1 := hrun.locate
    have := hch.le
    rcases Nat.eq_or_lt_of_le this with e | e
    · have hm := hch.mem (s.slots 0) (by unfold entries; exact List.mem_map.2 ⟨0, List.mem_range.2 hrun.pos, rfl⟩)
      omega
    · exact e
  have hns : ∀ i, i < MAXLEN → ¬ Splits addr len (s.slots i) := by
    intro i hi
    by_cases c : i < s.nused
    · have hm := hch.mem (s.slots i) (by unfold entries; exact List.mem_map.2 ⟨i, List.mem_range.2 c, rfl⟩)
      unfold Splits; omega
    · exact hz i (by omega) hi
  obtain ⟨s1, e1, e2, e3, e4, e5, e6⟩ := delLoop_some addr len (List.range MAXLEN) List.nodup_range s
    (fun i hi => hns i (List.mem_range.1 hi))
  obtain ⟨g1, g2, g3, g4, g5⟩ := compact_spec s1.nused s1 0 (by omega) (Nat.zero_le _)
  simp only [List.take_zero, List.nil_append, List.drop_zero] at g1
  rw [entries_of_loop e2 hM e4] at g1
  have hLc : Chain (if addr ≤ s.begin then max s.begin (addr + len) else min s.begin addr)
      (if addr ≤ s.begin then max s.end (addr + len) else min s.end addr) (leftover addr len (entries s)) := by
    split
    · exact chain_prefix addr len hl _ _ _ hch (by omega)
    · exact chain_suffix addr len hl _ _ _ hch (by omega)
  -- the bounds
  have hb1 : s1.begin = s.begin ∨ (s1.begin = addr + len ∧ addr ≤ s.begin) := by
    rcases e5 with h | ⟨h, h2, h3, h4⟩
    · exact Or.inl h
    · right
      rw [h]
      have hf := hrun.first
      have hne := hrun.nonempty 0 hrun.pos
      refine ⟨?_, by omega⟩
      rcases trim_cases addr len hl (s.slots 0) hne (hns 0 (by decide)) with ⟨c, ht⟩ | ⟨c1, c2, ht⟩ | ⟨c1, c2, c3, ht⟩ | ⟨c1, c2, c3, ht⟩
      · rw [ht]; omega
      · omega
      · rw [ht]
      · omega
  have hb2 : s1.end = s.end ∨ (s1.end = addr ∧ s.end ≤ addr + len) := by
    rcases e6 with h | ⟨h, h2, h3⟩
    · exact Or.inl h
    · right
      rw [h]
      have hp := hrun.pos
      have hf := hrun.last
      have hne := hrun.nonempty (s.nused - 1) (by omega)
      have hn8 := hns (s.nused - 1) (by omega)
      rcases trim_cases addr len hl _ hne hn8 with ⟨c, ht⟩ | ⟨c1, c2, ht⟩ | ⟨c1, c2, c3, ht⟩ | ⟨c1, c2, c3, ht⟩
      · have := hrun.first
        have hm := hch.mem (s.slots (s.nused - 1)) (by unfold entries; exact List.mem_map.2 ⟨_, List.mem_range.2 (by omega), rfl⟩)
        omega
      · omega
      · omega
      · rw [ht]; exact ⟨rfl, by omega⟩
  -- the final state
  obtain ⟨sf, hsf⟩ : ∃ sf, sf = (fun s : Seq => if s.end > addr ∧ s.end ≤ addr + len then { s with «end» := addr } else s)
      ((fun s : Seq => if s.begin ≥ addr ∧ s.begin < addr + len then { s with begin := addr + len } else s) (compact s1.nused s1 0)) := ⟨_, rfl⟩
  have hsfe : entries sf = leftover addr len (entries s) := by
    rw [hsf]
    have : ∀ t : Seq, entries (if t.begin ≥ addr ∧ t.begin < addr + len then { t with begin := addr + len } else t) = entries t := by
      intro t; split <;> rfl
    have h2 : ∀ t : Seq, entries (if t.end > addr ∧ t.end ≤ addr + len then { t with «end» := addr } else t) = entries t := by
      intro t; split <;> rfl
    simp only []
    rw [h2, this, g1]; rfl
  have hsfb : sf.begin = if addr ≤ s.begin then addr + len else s.begin := by
    rw [hsf]
    have h2 : ∀ t : Seq, (if t.end > addr ∧ t.end ≤ addr + len then { t with «end» := addr } else t).begin = t.begin := by
      intro t; split <;> rfl
    simp only []
    rw [h2]
    have h3 : ∀ t : Seq, (if t.begin ≥ addr ∧ t.begin < addr + len then { t with begin := addr + len } else t).begin =
      if t.begin ≥ addr ∧ t.begin < addr + len then addr + len else t.begin := by intro t; split <;> rfl
    rw [h3, g2]
    rcases hb1 with h | ⟨h, h'⟩
    · rw [h]
      by_cases c : addr ≤ s.begin
      · rw [if_pos c]; split <;> omega
      · rw [if_neg c, if_neg (by omega)]
    · rw [h, if_pos h']; split <;> omega
  have hsfend : sf.end = if s.end ≤ addr + len then addr else s.end := by
    rw [hsf]
    have h2 : ∀ t : Seq, (if t.begin ≥ addr ∧ t.begin < addr + len then { t with begin := addr + len } else t).end = t.end := by
      intro t; split <;> rfl
    have h3 : ∀ t : Seq, (if t.end > addr ∧ t.end ≤ addr + len then { t with «end» := addr } else t).end =
      if t.end > addr ∧ t.end ≤ addr + len then addr else t.end := by intro t; split <;> rfl
    simp only []
    rw [h3, h2, g3]
    rcases hb2 with h | ⟨h, h'⟩
    · rw [h]
      by_cases c : s.end ≤ addr + len
      · rw [if_pos c, if_pos (by omega)]
      · rw [if_neg c, if_neg (by omega)]
    · rw [h, if_neg (by omega), if_pos h']
  have hlen : (entries sf).length = sf.nused := by simp [entries]
  have hz0 : sf.nused = 0 ↔ addr ≤ s.begin ∧ s.end ≤ addr + len := by
    constructor
    · intro h0
      rw [h0] at hlen
      have hnil := List.length_eq_zero_iff.1 hlen
      rw [← hsfe, hnil] at hLc
      simp only [Chain] at hLc
      split at hLc <;> omega
    · rintro ⟨c1, c2⟩
      rw [if_pos c1, if_pos c1] at hLc
      rcases hnil : leftover addr len (entries s) with _ | ⟨x, xs⟩
      · rw [hsfe, hnil] at hlen; exact hlen.symm
      · rw [hnil] at hLc
        obtain ⟨q1, q2, q3, q4⟩ := hLc
        have := q4.le
        omega
  have hrun' : sf.nused ≠ 0 → Run sf := by
    intro hne
    rw [run_iff_chain sf (by omega), hsfe, hsfb, hsfend]
    have hnot : ¬ (addr ≤ s.begin ∧ s.end ≤ addr + len) := fun h => hne (hz0.2 h)
    by_cases c : addr ≤ s.begin
    · rw [if_pos c, if_pos c] at hLc
      rw [if_pos c, if_neg (by omega)]
      rw [Nat.max_eq_right (by omega), Nat.max_eq_left (by omega)] at hLc
      exact hLc
    · rw [if_neg c, if_neg c] at hLc
      rw [if_neg c, if_pos (by omega)]
      rw [Nat.min_eq_left (by omega), Nat.min_eq_right (by omega)] at hLc
      exact hLc
  refine ⟨sf, ?_, hz0, fun hne => ⟨hrun' hne, hsfb, hsfend⟩⟩
  unfold deleteSpan
  rw [(sane_iff s).2 (Or.inr hrun)]
  simp only [Bool.not_true, Bool.false_eq_true, if_false]
  rw [e1]
  simp only [] at hsf ⊢
  rw [← hsf]
  unfold finish
  rw [if_pos ((sane_iff sf).2 ?_)]
  by_cases c : sf.nused = 0
  · exact Or.inl c
  · exact Or.inr (hrun' c)

/-- An entry of the array is zero or non-empty and within the sequence's bounds. -/
def EIn (b e : Nat) (x : Entry) : Prop := x = zero ∨ (0 < x.begin ∧ x.begin < x.end ∧ b ≤ x.begin ∧ x.end ≤ e)

theorem compact_slots (k : Nat) (s : Seq) (i : Nat) (hM : s.nused ≤ MAXLEN) (j : Nat) (hj : j < MAXLEN) :
    (compact k s i).slots j = zero ∨ ∃ m, m < MAXLEN ∧ (compact k s i).slots j = s.slots m := by
  induction k generalizing s i with
  | zero => exact Or.inr ⟨j, hj, rfl⟩
  | succ k ih =>
    rw [compact]
    split
    · rename_i c
      split
      · rcases ih { s with
          slots := fun j => if j = s.nused - 1 then zero else if i ≤ j ∧ j < s.nused - 1 then s.slots (j + 1) else s.slots j
          nused := s.nused - 1 } i (by simp only; omega) with h | ⟨m, hm, h⟩
        · exact Or.inl h
        · rw [h]
          simp only
          split
          · exact Or.inl rfl
          · split
            · exact Or.inr ⟨m + 1, by omega, rfl⟩
            · exact Or.inr ⟨m, hm, rfl⟩
      · exact ih s (i + 1) hM
    · exact Or.inr ⟨j, hj, rfl⟩

theorem trim_zero (addr len : Nat) : trim addr len zero = zero := by
  unfold trim; rw [if_neg (by simp [zero])]

/-- Every slot after a deletion is zero or a trimmed slot. -/
theorem deleteSpan_slots {s : Seq} {addr len : Nat} {b : Bool} {s' : Seq} (hM : s.nused ≤ MAXLEN)
    (h : deleteSpan s addr len = .ret b s') (j : Nat) (hj : j < MAXLEN) :
    s'.slots j = zero ∨ ∃ m, m < MAXLEN ∧ s'.slots j = trim addr len (s.slots m) := by
  obtain ⟨hsp, _⟩ := deleteSpan_ret hM h
  obtain ⟨s1, e1, e2, e3, e4, e5, e6⟩ := delLoop_some addr len (List.range MAXLEN) List.nodup_range s
    (fun i hi => hsp i (List.mem_range.1 hi))
  unfold deleteSpan at h
  by_cases c : (!sane s) = true
  · rw [if_pos c] at h; cases h
  · rw [if_neg c, e1] at h
    simp only at h
    obtain ⟨_, hs'⟩ := finish_ret h
    subst hs'
    have h1 : ∀ t : Seq, (if t.begin ≥ addr ∧ t.begin < addr + len then { t with begin := addr + len } else t).slots = t.slots := by
      intro t; split <;> rfl
    have h2 : ∀ t : Seq, (if t.end > addr ∧ t.end ≤ addr + len then { t with «end» := addr } else t).slots = t.slots := by
      intro t; split <;> rfl
    rw [h2, h1]
    rcases compact_slots s1.nused s1 0 (by omega) j hj with h | ⟨m, hm, h⟩
    · exact Or.inl h
    · right
      refine ⟨m, hm, ?_⟩
      rw [h, e4, if_pos (List.mem_range.2 hm)]

theorem splitBegin_nused (s : Seq) (r : Req) (f : Nat) : (splitBegin s r f).nused = s.nused + 1 := rfl
theorem splitEnd_nused (s : Seq) (r : Req) (l : Nat) : (splitEnd s r l).nused = s.nused + 1 := rfl

/-- Slots beyond those in use after an overlapping recording. -/
theorem stale_slots (s : Seq) (r : Req) (f l : Nat) (bp ep : Bool) (hfl : f ≤ l) (hl : l < s.nused)
    (i : Nat) :
    let s1 := if bp then splitBegin s r f else s
    let f1 := if bp then f + 1 else f
    let l1 := if bp then l + 1 else l
    let s2 := if ep then splitEnd s1 r l1 else s1
    (replace s2 r f1 l1).nused ≤ i →
    (replace s2 r f1 l1).slots i = s.slots i ∨
    (0 < i ∧ (replace s2 r f1 l1).slots i = s.slots (i - 1)) ∨ (1 < i ∧ (replace s2 r f1 l1).slots i = s.slots (i - 2)) ∨
    (f < l ∧ ((replace s2 r f1 l1).slots i = { s.slots l with begin := r.end } ∧ ep = true ∨
      (replace s2 r f1 l1).slots i = { s.slots l with «end» := r.end })) := by
  intro s1 f1 l1 s2 hi
  cases bp <;> cases ep
  · simp only [s1, f1, l1, s2, Bool.false_eq_true, if_false, replace, copyLeft, setSlot] at hi ⊢
    grind
  · simp only [s1, f1, l1, s2, Bool.false_eq_true, if_false, if_true, replace, copyLeft, setSlot, splitEnd, copyRight] at hi ⊢
    grind
  · simp only [s1, f1, l1, s2, Bool.false_eq_true, if_false, if_true, replace, copyLeft, setSlot, splitBegin, copyRight] at hi ⊢
    grind
  · simp only [s1, f1, l1, s2, if_true, replace, copyLeft, setSlot, splitEnd, splitBegin, copyRight] at hi ⊢
    grind

end Liballocs.MapSeq
