import Verif.Proofs.Cache
/-! # C27, C28, C29, C30: the lookup cache -/
namespace Liballocs.Cache

/-! ### Specification: a list of records, most recently used first -/

/-- `obj` is inside the record, at a whole number of periods from its base. -/
def Covers (r : Rec) (obj : Nat) : Prop :=
  r.base ≤ obj ∧ obj < r.limit ∧ 0 < r.period ∧ r.period ∣ obj - r.base

/-- What an untyped lookup should accept: the base itself or a whole number of periods in, with the
required period if one is given. -/
def WantAny (obj req : Nat) (r : Rec) : Prop :=
  (req = 0 ∧ obj = r.base ∧ r.base < r.limit) ∨ (Covers r obj ∧ (req = 0 ∨ req = r.period))

/-- What a typed lookup accepts: the same with the type requested, and the base itself whatever the
period. -/
def WantTyped (obj t req : Nat) (r : Rec) : Prop :=
  t = r.ty ∧ ((obj = r.base ∧ r.base < r.limit) ∨ (Covers r obj ∧ (req = 0 ∨ req = r.period)))

instance (obj req : Nat) (r : Rec) : Decidable (WantAny obj req r) := by unfold WantAny Covers; infer_instance
instance (obj t req : Nat) (r : Rec) : Decidable (WantTyped obj t req r) := by
  unfold WantTyped Covers; infer_instance

/-- The specified effect of a call on the list of records of a cache with `N` places. -/
def specStep (N : Nat) (A : List Rec) : Op → Option Rec × List Rec
  | .insert r => (none, r :: (if A.length < N then A else A.dropLast))
  | .lookup obj t req => specLookup (fun r => decide (WantTyped obj t req r)) A
  | .lookupAny obj req => specLookup (fun r => decide (WantAny obj req r)) A
  | .uncache ptr size => (none, A.filter (fun r => !decide (ptr ≤ r.base ∧ r.base < ptr + size)))
where
  /-- The most recent record that hits is returned and becomes the most recent. -/
  specLookup (hit : Rec → Bool) (A : List Rec) : Option Rec × List Rec :=
    match A.find? hit with
    | some r => (some r, r :: A.eraseP hit)
    | none => (none, A)

/-- The specified results and final list of a history. -/
def specRun (N : Nat) (A : List Rec) : List Op → List (Option Rec) × List Rec
  | [] => ([], A)
  | o :: os =>
    ((specStep N A o).1 :: (specRun N (specStep N A o).2 os).1, (specRun N (specStep N A o).2 os).2)

/-- Following the links from `s` visits exactly `l` and then stops. -/
def Visits (link : Nat → Nat) : Nat → List Nat → Prop
  | s, [] => s = 0
  | s, i :: l => s = i ∧ i ≠ 0 ∧ Visits link (link i) l

/-- The period of an inserted record fits the `unsigned short` parameter. -/
def okOp : Op → Prop
  | .insert r => r.period < 65536
  | _ => True

/-! ### Refinement -/

theorem hitAny_want (obj req : Nat) : hitAny obj req = fun r => decide (WantAny obj req r) := by
  funext r
  unfold hitAny
  rw [decide_eq_decide]
  unfold WantAny Covers
  rw [Nat.dvd_iff_mod_eq_zero]
  constructor
  · rintro ⟨h1, h2, h3 | h3⟩
    · left; omega
    · exact Or.inr ⟨⟨h1, h2, by omega, h3.2.2⟩, by omega⟩
  · rintro (h | ⟨⟨h1, h2, h3, h4⟩, h5⟩)
    · refine ⟨by omega, by omega, Or.inl ⟨by omega, h.1⟩⟩
    · exact ⟨h1, h2, Or.inr ⟨by omega, by omega, h4⟩⟩

theorem hitTyped_want (obj t req : Nat) : hitTyped obj t req = fun r => decide (WantTyped obj t req r) := by
  funext r
  unfold hitTyped
  rw [decide_eq_decide]
  unfold WantTyped Covers
  rw [Nat.dvd_iff_mod_eq_zero]
  constructor
  · rintro ⟨h0, h1, h2, h3 | h3⟩
    · exact ⟨h0.symm, Or.inl (by omega)⟩
    · exact ⟨h0.symm, Or.inr ⟨⟨h1, h2, by omega, h3.2.2⟩, by omega⟩⟩
  · rintro ⟨h0, h | ⟨⟨h1, h2, h3, h4⟩, h5⟩⟩
    · exact ⟨h0.symm, by omega, by omega, Or.inl (by omega)⟩
    · exact ⟨h0.symm, h1, h2, Or.inr ⟨by omega, by omega, h4⟩⟩

/-- The cache holds the records `A`, most recent first. -/
def Rel (N : Nat) (c : Cache) (A : List Rec) : Prop := ∃ l, Inv N c l ∧ A = l.map c.ent

theorem rel_init (N : Nat) : Rel N init [] := by
  refine ⟨[], ⟨by simp, ?_, by simp, rfl, rfl, trivial⟩, rfl⟩
  intro i; simp [init]

theorem find_split {l1 l2 : List Nat} {i : Nat} {e : Nat → Rec} {hit : Rec → Bool}
    (h1 : ∀ j ∈ l1, hit (e j) = false) (h2 : hit (e i) = true) :
    ((l1 ++ i :: l2).map e).find? hit = some (e i) ∧
    ((l1 ++ i :: l2).map e).eraseP hit = (l1 ++ l2).map e := by
  induction l1 with
  | nil => simp [h2]
  | cons a l1 ih =>
    have ha := h1 a (List.mem_cons_self ..)
    have := ih (fun j hj => h1 j (List.mem_cons_of_mem _ hj))
    simp only [List.cons_append, List.map_cons, List.find?_cons, List.eraseP_cons, ha]
    exact ⟨this.1, congrArg (List.cons (e a)) this.2⟩

theorem lookup_rel {N : Nat} (hN : N ≤ 31) {c : Cache} {A : List Rec} (h : Rel N c A) (hit : Rec → Bool) :
    ∃ c', lookup N hit c = some ((specStep.specLookup hit A).1, c') ∧ Rel N c' (specStep.specLookup hit A).2 := by
  obtain ⟨l, hi, rfl⟩ := h
  unfold specStep.specLookup
  rcases lookup_ok hN hit hi with ⟨e, hno⟩ | ⟨c', l1, i, l2, rfl, h1, h2, e, i', r⟩
  · have : (l.map c.ent).find? hit = none := by
      rw [List.find?_eq_none]
      intro x hx
      obtain ⟨j, hj, rfl⟩ := List.mem_map.1 hx
      simp [hno j hj]
    rw [this]
    exact ⟨c, e, l, hi, rfl⟩
  · obtain ⟨f1, f2⟩ := find_split (l2 := l2) h1 h2
    rw [f1]
    simp only [f2]
    refine ⟨c', e, i :: (l1 ++ l2), i', ?_⟩
    rw [r]; simp

theorem insert_rel {N : Nat} (hN : N ≤ 31) (hpos : 0 < N) {c : Cache} {A : List Rec} (h : Rel N c A) (r : Rec)
    (hr : r.period < 65536) :
    ∃ c', insert N c r = some c' ∧ Rel N c' (r :: (if A.length < N then A else A.dropLast)) := by
  obtain ⟨l, hi, rfl⟩ := h
  obtain ⟨c', i, l', e, hi', hn, hl', he, ho⟩ := insert_ok hN hpos hi r
  refine ⟨c', e, i :: l', hi', ?_⟩
  rw [List.map_cons, he, Nat.mod_eq_of_lt hr, List.length_map]
  congr 1
  have : l'.map c'.ent = l'.map c.ent := by
    apply List.map_congr_left
    intro j hj
    exact ho j (by rintro rfl; exact hn hj)
  rw [this, hl']
  split
  · rfl
  · rw [List.map_dropLast]

theorem uncache_rel {N : Nat} (hN : N ≤ 31) {c : Cache} {A : List Rec} (h : Rel N c A) (ptr size : Nat) :
    ∃ c', uncache N c ptr size = some c' ∧
      Rel N c' (A.filter (fun r => !decide (ptr ≤ r.base ∧ r.base < ptr + size))) := by
  obtain ⟨l, hi, rfl⟩ := h
  obtain ⟨c', e, hi', he⟩ := uncache_ok hN ptr size hi
  refine ⟨c', e, _, hi', ?_⟩
  rw [he, List.filter_map]; rfl

theorem step_rel {N : Nat} (hN : N ≤ 31) (hpos : 0 < N) {c : Cache} {A : List Rec} (h : Rel N c A) (o : Op)
    (ho : okOp o) : ∃ c', step N c o = some ((specStep N A o).1, c') ∧ Rel N c' (specStep N A o).2 := by
  cases o with
  | insert r =>
    obtain ⟨c', e, h'⟩ := insert_rel hN hpos h r ho
    exact ⟨c', by simp [step, e, specStep], h'⟩
  | lookup obj t req =>
    simp only [step, specStep, ← hitTyped_want]; exact lookup_rel hN h _
  | lookupAny obj req =>
    simp only [step, specStep, ← hitAny_want]; exact lookup_rel hN h _
  | uncache ptr size =>
    obtain ⟨c', e, h'⟩ := uncache_rel hN h ptr size
    exact ⟨c', by simp [step, e, specStep], h'⟩

theorem run_rel {N : Nat} (hN : N ≤ 31) (hpos : 0 < N) (os : List Op) {c : Cache} {A : List Rec} (h : Rel N c A)
    (ho : ∀ o ∈ os, okOp o) :
    ∃ c', run N c os = some ((specRun N A os).1, c') ∧ Rel N c' (specRun N A os).2 := by
  induction os generalizing c A with
  | nil => exact ⟨c, rfl, h⟩
  | cons o os ih =>
    obtain ⟨c1, e1, h1⟩ := step_rel hN hpos h o (ho o (List.mem_cons_self ..))
    obtain ⟨c2, e2, h2⟩ := ih h1 (fun x hx => ho x (List.mem_cons_of_mem _ hx))
    refine ⟨c2, ?_, h2⟩
    simp only [run, e1, Option.bind_eq_bind, Option.bind_some, e2]
    rfl

theorem visits_next {next prev : Nat → Nat} {p : Nat} {l : List Nat} (hs : Seg next prev p l 0)
    (hr : ∀ i ∈ l, 1 ≤ i) : Visits next (l.headD 0) l := by
  induction l generalizing p with
  | nil => rfl
  | cons i l ih =>
    obtain ⟨_, h2, h3⟩ := hs
    refine ⟨rfl, by have := hr i (List.mem_cons_self ..); omega, ?_⟩
    have : next i = l.headD 0 := by rw [h2]; cases l <;> rfl
    rw [this]
    exact ih h3 (fun j hj => hr j (List.mem_cons_of_mem _ hj))

/-- C27: for a cache with any number `N` of places (up to 31) and any history of insertions, lookups
and invalidations: no internal assertion fails and no index leaves the array; the lookups return
what the specification (a most-recently-used list that drops its last record when full) says; and
afterwards the recency list visits exactly the valid entries, once each, most recent first forwards
and the reverse backwards. -/
theorem bookkeeping (N : Nat) (hN : 1 ≤ N ∧ N ≤ 31) (os : List Op) (ho : ∀ o ∈ os, okOp o) :
    ∃ c, run N init os = some ((specRun N [] os).1, c) ∧
      ∃ l : List Nat, Visits c.next c.head l ∧ Visits c.prev c.tail l.reverse ∧ l.Nodup ∧
        (∀ i, i ∈ l ↔ c.valid i = true) ∧ (∀ i ∈ l, 1 ≤ i ∧ i ≤ N) ∧
        l.map c.ent = (specRun N [] os).2 := by
  obtain ⟨c, e, l, hi, hA⟩ := run_rel hN.2 (by omega) os (rel_init N) ho
  refine ⟨c, e, l, ?_, ?_, hi.nodup, hi.mem, hi.range, hA.symm⟩
  · rw [hi.head]; exact visits_next hi.seg (fun i h => (hi.range i h).1)
  · have h1 := visits_next (seg_reverse hi.seg) (fun i h => (hi.range i (by simpa using h)).1)
    have e2 : l.reverse.headD 0 = l.getLastD 0 := by
      rcases List.eq_nil_or_concat l with e | ⟨a, x, e⟩
      · subst e; rfl
      · rw [List.concat_eq_append] at e; subst e; simp [List.getLastD_eq_getLast?]
    rw [hi.tail, ← e2]; exact h1

theorem walk_visits {link : Nat → Nat} {valid : Nat → Bool} (l vis : List Nat) (s f : Nat) (hf : l.length < f)
    (hv : Visits link s l) (hl : ∀ i ∈ l, i ≤ 32 ∧ valid i = true) (hn : (l ++ vis).Nodup) :
    walk link valid f s vis = some (l.reverse ++ vis) := by
  induction l generalizing vis s f with
  | nil => cases f <;> simp_all [walk, Visits]
  | cons i l ih =>
    cases f with
    | zero => simp at hf
    | succ f =>
      obtain ⟨h1, h2, h3⟩ := hv
      subst h1
      rw [List.cons_append, List.nodup_cons] at hn
      have hvis : s ∉ vis := fun h => hn.1 (List.mem_append_right _ h)
      have hs := hl s (List.mem_cons_self ..)
      unfold walk
      rw [if_neg h2, if_pos ⟨hs.1, hs.2, hvis⟩, ih (s :: vis) _ f (by simpa using hf) h3
        (fun j hj => hl j (List.mem_cons_of_mem _ hj))]
      · simp
      · rw [List.nodup_append] at hn ⊢
        refine ⟨hn.2.1, List.nodup_cons.2 ⟨hvis, hn.2.2.1⟩, ?_⟩
        intro a ha b hb
        rcases List.mem_cons.1 hb with h | h
        · subst h; rintro rfl; exact hn.1 (List.mem_append_left _ ha)
        · exact hn.2.2.2 a ha b h

theorem walk_some {link : Nat → Nat} {valid : Nat → Bool} (f s : Nat) (vis a : List Nat) (hn : vis.Nodup)
    (h : walk link valid f s vis = some a) :
    ∃ l, Visits link s l ∧ (l ++ vis).Nodup ∧ (∀ i ∈ l, 1 ≤ i ∧ i ≤ 32 ∧ valid i = true) ∧ a = l.reverse ++ vis := by
  induction f generalizing s vis with
  | zero => cases h
  | succ f ih =>
    unfold walk at h
    split at h
    · cases h
      exact ⟨[], by simpa [Visits], by simpa using hn, by simp, rfl⟩
    · rename_i h0
      split at h
      · rename_i hc
        obtain ⟨l, l1, l2, l3, l4⟩ := ih (link s) (s :: vis) (List.nodup_cons.2 ⟨hc.2.2, hn⟩) h
        rw [List.nodup_append] at l2
        have hsl : s ∉ l := fun hh => l2.2.2 s hh s (List.mem_cons_self ..) rfl
        refine ⟨s :: l, ⟨rfl, h0, l1⟩, ?_, ?_, by simp [l4]⟩
        · rw [List.cons_append, List.nodup_cons, List.mem_append, List.nodup_append]
          exact ⟨fun hh => hh.elim hsl hc.2.2, l2.1, hn, fun x hx y hy => l2.2.2 x hx y (List.mem_cons_of_mem _ hy)⟩
        · intro i hi
          rcases List.mem_cons.1 hi with e | e
          · subst e; exact ⟨by omega, hc.1, hc.2.1⟩
          · exact l3 i e
      · cases h

/-- C27, what the assertions assert: the debug-build sanity check passes exactly when following the
links forwards and following them backwards each visits every valid entry among the `N` once and
then ends. -/
theorem sanity_check_exact (N : Nat) (hN : N ≤ 31) (c : Cache) :
    sane N c = true ↔ ∃ l m : List Nat, Visits c.next c.head l ∧ Visits c.prev c.tail m ∧ l.Nodup ∧ m.Nodup ∧
      (∀ i, i ∈ l ↔ 1 ≤ i ∧ i ≤ N ∧ c.valid i = true) ∧ (∀ i, i ∈ m ↔ 1 ≤ i ∧ i ≤ N ∧ c.valid i = true) := by
  have same : ∀ a : List Nat, (∀ i ∈ a, 1 ≤ i ∧ i ≤ 32) →
      (sameSet N c.valid a = true ↔ ∀ i, i ∈ a ↔ 1 ≤ i ∧ i ≤ N ∧ c.valid i = true) := by
    intro a ha
    unfold sameSet
    rw [List.all_eq_true]
    constructor
    · intro h i
      by_cases hi : 1 ≤ i ∧ i ≤ 32
      · have := h i (List.mem_range'_1.2 (by omega))
        rw [beq_iff_eq, Bool.eq_iff_iff, decide_eq_true_iff, List.contains_iff_mem] at this
        rw [← this]; constructor
        · exact fun x => ⟨hi.1, x⟩
        · exact fun x => x.2
      · constructor
        · exact fun x => absurd (ha i x) hi
        · intro x; omega
    · intro h i hi
      rw [List.mem_range'_1] at hi
      rw [beq_iff_eq, Bool.eq_iff_iff, decide_eq_true_iff, List.contains_iff_mem, h]
      constructor
      · exact fun x => ⟨hi.1, x⟩
      · exact fun x => x.2
  constructor
  · intro h
    unfold sane at h
    cases w1 : walk c.next c.valid 34 c.head [] with
    | none => rw [w1] at h; cases h
    | some a =>
      cases w2 : walk c.prev c.valid 34 c.tail [] with
      | none => rw [w1, w2] at h; cases h
      | some b =>
        rw [w1, w2] at h
        simp only [Bool.and_eq_true] at h
        obtain ⟨l, l1, l2, l3, l4⟩ := walk_some _ _ _ _ List.nodup_nil w1
        obtain ⟨m, m1, m2, m3, m4⟩ := walk_some _ _ _ _ List.nodup_nil w2
        rw [List.append_nil] at l2 m2 l4 m4
        subst l4 m4
        refine ⟨l, m, l1, m1, l2, m2, ?_, ?_⟩
        · intro i
          rw [← (same l.reverse (fun i hi => by have := l3 i (by simpa using hi); omega)).1 h.1 i, List.mem_reverse]
        · intro i
          rw [← (same m.reverse (fun i hi => by have := m3 i (by simpa using hi); omega)).1 h.2 i, List.mem_reverse]
  · rintro ⟨l, m, l1, m1, l2, m2, l3, m3⟩
    have len : ∀ l : List Nat, l.Nodup → (∀ i, i ∈ l ↔ 1 ≤ i ∧ i ≤ N ∧ c.valid i = true) → l.length ≤ N := by
      intro l hl hm
      have : l ⊆ List.range' 1 N := fun i hi => by
        have := (hm i).1 hi; rw [List.mem_range'_1]; omega
      have := List.Nodup.length_le_of_subset hl this
      simpa using this
    have e1 := walk_visits (valid := c.valid) l [] c.head 34 (by have := len l l2 l3; omega) l1
      (fun i hi => by have := (l3 i).1 hi; exact ⟨by omega, this.2.2⟩) (by simpa using l2)
    have e2 := walk_visits (valid := c.valid) m [] c.tail 34 (by have := len m m2 m3; omega) m1
      (fun i hi => by have := (m3 i).1 hi; exact ⟨by omega, this.2.2⟩) (by simpa using m2)
    unfold sane
    rw [e1, e2]
    simp only [List.append_nil, Bool.and_eq_true]
    exact ⟨(same _ (fun i hi => by have := (l3 i).1 (by simpa using hi); omega)).2 (fun i => by rw [List.mem_reverse, l3]),
      (same _ (fun i hi => by have := (m3 i).1 (by simpa using hi); omega)).2 (fun i => by rw [List.mem_reverse, m3])⟩

/-- A cache with one valid entry that is not linked in: the check fails. -/
example : sane 8 { init with valid := fun i => i == 3 } = false := by decide +kernel

/-! The next victim stays a place of the cache. -/

theorem assertSane_eq {N : Nat} {c c' : Cache} (h : assertSane N c = some c') : c' = c := by
  unfold assertSane at h
  split at h
  · cases h; rfl
  · cases h

/-- The next victim is a place. -/
def Victim (N : Nat) (c : Cache) : Prop := 1 ≤ c.victim ∧ c.victim ≤ N

theorem unlink_victim {N : Nat} {c c' : Cache} {i : Nat} (h : unlink N c i = some c') : Victim N c' := by
  unfold unlink at h
  simp only [Option.bind_eq_bind, Option.bind_eq_some_iff] at h
  obtain ⟨a, _, h⟩ := h
  simp only [Option.bind_none] at h
  split at h
  · cases h
  · split at h
    · cases h
    · rw [assertSane_eq h]
      unfold Victim
      simp only
      omega

theorem pushHead_victim {N : Nat} {c c' : Cache} {i : Nat} (h : pushHead N c i = some c') : c'.victim = c.victim := by
  unfold pushHead at h
  simp only [Option.bind_eq_bind, Option.bind_eq_some_iff] at h
  obtain ⟨a, ha, h⟩ := h
  simp only [Option.bind_none] at h
  split at h
  · cases h
  · rw [assertSane_eq h, ← assertSane_eq ha]

theorem bumpMru_victim {N : Nat} {c c' : Cache} {i : Nat} (hv : Victim N c) (h : bumpMru N c i = some c') : Victim N c' := by
  unfold bumpMru at h
  simp only [Option.bind_eq_bind, Option.bind_eq_some_iff] at h
  obtain ⟨a, ha, h⟩ := h
  have ha := assertSane_eq ha
  subst ha
  split at h
  · split at h
    · simp only [Option.bind_eq_some_iff] at h
      obtain ⟨b, hb, d, hd, h⟩ := h
      have := unlink_victim hb
      rw [assertSane_eq h]
      unfold Victim
      rw [pushHead_victim hd]; exact this
    · simp only [Option.bind_some, Option.bind_eq_some_iff] at h
      obtain ⟨d, hd, h⟩ := h
      rw [assertSane_eq h]
      unfold Victim
      rw [pushHead_victim hd]; exact hv
  · simp only [Option.bind_some] at h
    rw [assertSane_eq h]; exact hv

theorem bumpVictim_victim {N : Nat} {c c' : Cache} {i : Nat} (hv : Victim N c) (h : bumpVictim N c i = some c') :
    Victim N c' ∧ (c.victim = i → c'.victim = if i < N then i + 1 else 1) := by
  unfold bumpVictim at h
  simp only [Option.bind_eq_bind, Option.bind_eq_some_iff] at h
  obtain ⟨a, ha, h⟩ := h
  have ha := assertSane_eq ha
  subst ha
  rw [assertSane_eq h]
  unfold Victim at *
  simp only
  by_cases c : a.victim = i
  · rw [if_pos ⟨c, by omega⟩]
    have := Nat.mod_lt i (show N > 0 by omega)
    refine ⟨by rw [Nat.add_sub_cancel]; omega, fun _ => ?_⟩
    rw [Nat.add_sub_cancel]
    by_cases hh : i < N
    · rw [if_pos hh, Nat.mod_eq_of_lt hh]; omega
    · have : i = N := by omega
      rw [if_neg hh, this, Nat.mod_self]
  · rw [if_neg (fun h => c h.1)]
    exact ⟨hv, fun h => absurd h c⟩

theorem insert_victim {N : Nat} {c c' : Cache} {r : Rec} (hv : Victim N c) (h : insert N c r = some c') : Victim N c' := by
  unfold insert at h
  simp only [Option.bind_eq_bind, Option.bind_eq_some_iff] at h
  obtain ⟨a, ha, h⟩ := h
  have ha := assertSane_eq ha
  subst ha
  simp only [Option.bind_none] at h
  generalize (if ffsInv a.valid = N + 1 then a.tail else ffsInv a.valid) = pos at h
  split at h
  · cases h
  · split at h
    · cases h
    · simp only [Option.bind_eq_some_iff] at h
      obtain ⟨b, hb, d, hd, h⟩ := h
      rw [assertSane_eq h]
      exact (bumpVictim_victim (bumpMru_victim (by exact hv) hb) hd).1

theorem lookup_victim {N : Nat} {c c' : Cache} {hit : Rec → Bool} {x : Option Rec} (hv : Victim N c)
    (h : lookup N hit c = some (x, c')) : Victim N c' := by
  unfold lookup at h
  simp only [Option.bind_eq_bind, Option.bind_eq_some_iff] at h
  obtain ⟨a, ha, s, _, h⟩ := h
  have ha := assertSane_eq ha
  subst ha
  split at h
  · simp only [Option.bind_eq_some_iff] at h
    obtain ⟨b, hb, h⟩ := h
    cases h
    exact bumpMru_victim hv hb
  · simp only [Option.bind_eq_some_iff] at h
    obtain ⟨b, hb, h⟩ := h
    cases h
    rw [assertSane_eq hb]; exact hv

theorem uncacheOne_victim {N : Nat} {c c' : Cache} {p s i : Nat} (hi : 1 ≤ i ∧ i ≤ N) (hv : Victim N c)
    (h : uncacheOne N p s c i = some c') : Victim N c' := by
  unfold uncacheOne at h
  simp only [Option.bind_eq_bind] at h
  split at h
  · simp only [Option.bind_eq_some_iff] at h
    obtain ⟨a, ha, h⟩ := h
    have ha := assertSane_eq ha
    subst ha
    split at h
    · simp only [Option.bind_eq_some_iff] at h
      obtain ⟨b, hb, d, hd, h⟩ := h
      rw [assertSane_eq h]
      cases hd
      exact hi
    · simp only [Option.bind_eq_some_iff] at h
      obtain ⟨d, hd, h⟩ := h
      rw [assertSane_eq h]
      cases hd
      exact hv
  · cases h; exact hv

theorem uncache_victim {N : Nat} {c c' : Cache} {p s : Nat} (hv : Victim N c) (h : uncache N c p s = some c') : Victim N c' := by
  unfold uncache at h
  simp only [Option.bind_eq_bind, Option.bind_eq_some_iff] at h
  obtain ⟨a, ha, b, hb, h⟩ := h
  have ha := assertSane_eq ha
  subst ha
  rw [assertSane_eq h]
  have key : ∀ (js : List Nat) (a b : Cache), (∀ j ∈ js, 1 ≤ j ∧ j ≤ N) → Victim N a →
      js.foldlM (uncacheOne N p s) a = some b → Victim N b := by
    intro js
    induction js with
    | nil => intro a b _ ha h; cases h; exact ha
    | cons j js ih =>
      intro a b hj ha h
      rw [List.foldlM_cons] at h
      simp only [Option.bind_eq_bind, Option.bind_eq_some_iff] at h
      obtain ⟨d, hd, h⟩ := h
      exact ih d b (fun k hk => hj k (List.mem_cons_of_mem _ hk)) (uncacheOne_victim (hj j (List.mem_cons_self ..)) ha hd) h
  exact key _ a b (fun j hj => by rw [List.mem_range'_1] at hj; omega) hv hb

/-- C27, the next victim is always one of the `N` places, whatever the history. -/
theorem victim_in_range (N : Nat) (hN : 1 ≤ N) (os : List Op) (rs : List (Option Rec)) (c : Cache)
    (h : run N init os = some (rs, c)) : 1 ≤ c.victim ∧ c.victim ≤ N := by
  have key : ∀ (os : List Op) (a : Cache) (rs : List (Option Rec)) (c : Cache), Victim N a → run N a os = some (rs, c) → Victim N c := by
    intro os
    induction os with
    | nil => intro a rs c ha h; cases h; exact ha
    | cons o os ih =>
      intro a rs c ha h
      unfold run at h
      simp only [Option.bind_eq_bind, Option.bind_eq_some_iff] at h
      obtain ⟨⟨r, d⟩, hd, ⟨rs', e⟩, he, h⟩ := h
      simp only [Option.pure_def, Option.some.injEq, Prod.mk.injEq] at h
      obtain ⟨_, rfl⟩ := h
      refine ih d rs' e ?_ he
      cases o with
      | insert r =>
        simp only [step, Option.map_eq_some_iff] at hd
        obtain ⟨d', hd', e⟩ := hd
        cases e
        exact insert_victim ha hd'
      | lookup obj t req => exact lookup_victim ha hd
      | lookupAny obj req => exact lookup_victim ha hd
      | uncache p s =>
        simp only [step, Option.map_eq_some_iff] at hd
        obtain ⟨d', hd', e⟩ := hd
        cases e
        exact uncache_victim ha hd'
  exact key os init rs c ⟨Nat.le_refl 1, hN⟩ h

/-- The specified list never outgrows the cache, so an insertion beyond `N` really evicts. -/
theorem spec_bounded (N : Nat) (hN : 1 ≤ N) (os : List Op) (A : List Rec) (hA : A.length ≤ N) :
    (specRun N A os).2.length ≤ N := by
  induction os generalizing A with
  | nil => exact hA
  | cons o os ih =>
    apply ih
    have key : ∀ hit, (specStep.specLookup hit A).2.length ≤ N := by
      intro hit
      unfold specStep.specLookup
      split
      · rename_i r h
        have hm := List.mem_of_find?_eq_some h
        have := List.length_eraseP_of_mem hm (by simpa using List.find?_some h)
        have := List.length_pos_of_mem hm
        simp only [List.length_cons]; omega
      · exact hA
    cases o with
    | insert r =>
      simp only [specStep]
      split
      · simpa
      · simp; omega
    | lookup => exact key _
    | lookupAny => exact key _
    | uncache ptr size => exact Nat.le_trans (List.length_filter_le _ _) hA

/-- Three insertions into a two-place cache: the first is evicted although it was inserted first,
unless it was looked up in between. -/
example : let a : Rec := ⟨0x1000, 0x1010, 5, 8, 0⟩
    let b : Rec := ⟨0x2000, 0x2010, 6, 8, 0⟩
    let d : Rec := ⟨0x3000, 0x3010, 7, 8, 0⟩
    (specRun 2 [] [.insert a, .insert b, .lookup 0x1008 5 0, .insert d, .lookupAny 0x2000 0]).1 =
      [none, none, some a, none, none] := by decide

/-! ### C28 -/

/-- `r` was inserted and its range was not invalidated since. -/
def InsertedSince (os : List Op) (r : Rec) : Prop :=
  ∃ a b, os = a ++ .insert r :: b ∧
    ∀ ptr size, Op.uncache ptr size ∈ b → ¬ (ptr ≤ r.base ∧ r.base < ptr + size)

theorem mem_eraseP {hit : Rec → Bool} {A : List Rec} {r : Rec} (h : r ∈ A.eraseP hit) : r ∈ A :=
  List.mem_of_mem_eraseP h

theorem spec_live (N : Nat) (os pre : List Op) (A : List Rec) (hA : ∀ r ∈ A, InsertedSince pre r) :
    ∀ r ∈ (specRun N A os).2, InsertedSince (pre ++ os) r := by
  induction os generalizing pre A with
  | nil => simpa [specRun] using hA
  | cons o os ih =>
    have key : ∀ r ∈ (specStep N A o).2, InsertedSince (pre ++ [o]) r := by
      have ext : ∀ r, InsertedSince pre r → (∀ ptr size, o = .uncache ptr size → ¬ (ptr ≤ r.base ∧ r.base < ptr + size)) →
          InsertedSince (pre ++ [o]) r := by
        rintro r ⟨a, b, rfl, hb⟩ ho
        refine ⟨a, b ++ [o], by simp, ?_⟩
        intro ptr size hm
        rcases List.mem_append.1 hm with h | h
        · exact hb ptr size h
        · exact ho ptr size (List.mem_singleton.1 h).symm
      have lk : ∀ hit, (∀ ptr size, o ≠ .uncache ptr size) → ∀ r ∈ (specStep.specLookup hit A).2, InsertedSince (pre ++ [o]) r := by
        intro hit hne r hr
        refine ext r (hA r ?_) (fun p s h => absurd h (hne p s))
        unfold specStep.specLookup at hr
        split at hr
        · rename_i r' h
          rcases List.mem_cons.1 hr with h' | h'
          · rw [h']; exact List.mem_of_find?_eq_some h
          · exact mem_eraseP h'
        · exact hr
      cases o with
      | insert r' =>
        intro r hr
        simp only [specStep] at hr
        rcases List.mem_cons.1 hr with h | h
        · subst h; exact ⟨pre, [], rfl, by simp⟩
        · refine ext r (hA r ?_) (fun _ _ h => by cases h)
          split at h
          · exact h
          · exact List.dropLast_subset _ h
      | lookup obj t req => exact lk _ (fun _ _ h => by cases h)
      | lookupAny obj req => exact lk _ (fun _ _ h => by cases h)
      | uncache ptr size =>
        intro r hr
        simp only [specStep, List.mem_filter] at hr
        refine ext r (hA r hr.1) ?_
        intro p s h
        cases h
        have := hr.2
        simp at this; omega
    have := ih (pre ++ [o]) _ key
    simpa [specRun] using this

theorem specLookup_hit {hit : Rec → Bool} {A : List Rec} {r : Rec}
    (h : (specStep.specLookup hit A).1 = some r) : r ∈ A ∧ hit r = true := by
  unfold specStep.specLookup at h
  split at h
  · rename_i r' hf
    cases h
    exact ⟨List.mem_of_find?_eq_some hf, by simpa using List.find?_some hf⟩
  · cases h

/-- C28, untyped lookups: after any history, a hit is a record inserted earlier and not invalidated
since, still among the at most `N` most recently used ones, that covers the address at a multiple of
its period (which is the required one, if one is required). -/
theorem hit_sound_any (N : Nat) (hN : 1 ≤ N ∧ N ≤ 31) (os : List Op) (ho : ∀ o ∈ os, okOp o) (obj req : Nat)
    (c : Cache) (rs : List (Option Rec)) (hrun : run N init os = some (rs, c))
    (r : Rec) (c' : Cache) (hl : lookup N (hitAny obj req) c = some (some r, c')) :
    r ∈ (specRun N [] os).2 ∧ InsertedSince os r ∧ r.base ≤ obj ∧ obj < r.limit ∧
      (obj = r.base ∨ (r.period ≠ 0 ∧ (obj - r.base) % r.period = 0)) ∧
      (req ≠ 0 → r.period = req ∧ (obj - r.base) % req = 0) := by
  obtain ⟨c1, e1, h1⟩ := run_rel hN.2 (by omega) os (rel_init N) ho
  rw [hrun] at e1
  cases e1
  obtain ⟨c2, e2, _⟩ := lookup_rel hN.2 h1 (hitAny obj req)
  rw [hl] at e2
  have e3 : (specStep.specLookup (hitAny obj req) (specRun N [] os).2).1 = some r := by
    injection e2 with e2; injection e2 with e2 _; exact e2.symm
  obtain ⟨hm, hh⟩ := specLookup_hit e3
  refine ⟨hm, ?_, ?_⟩
  · have := spec_live N os [] [] (by simp) r hm
    simpa using this
  · simp only [hitAny, decide_eq_true_eq] at hh
    obtain ⟨g1, g2, g3⟩ := hh
    refine ⟨g1, g2, ?_, ?_⟩
    · rcases g3 with g | g
      · left; omega
      · exact Or.inr ⟨g.1, g.2.2⟩
    · intro hq
      rcases g3 with g | g
      · exact absurd g.2 hq
      · rcases g.2.1 with h | h
        · exact absurd h hq
        · exact ⟨h, by rw [← h]; exact g.2.2⟩

/-- C28 (partial), typed lookups: as above with the requested type.  Partial: the required period is
only guaranteed for an address other than the record's base. -/
theorem hit_sound_typed_partial (N : Nat) (hN : 1 ≤ N ∧ N ≤ 31) (os : List Op) (ho : ∀ o ∈ os, okOp o)
    (obj t req : Nat) (c : Cache) (rs : List (Option Rec)) (hrun : run N init os = some (rs, c))
    (r : Rec) (c' : Cache) (hl : lookup N (hitTyped obj t req) c = some (some r, c')) :
    r ∈ (specRun N [] os).2 ∧ InsertedSince os r ∧ r.ty = t ∧ r.base ≤ obj ∧ obj < r.limit ∧
      (obj = r.base ∨ (r.period ≠ 0 ∧ (obj - r.base) % r.period = 0)) ∧
      (req ≠ 0 → obj ≠ r.base → r.period = req ∧ (obj - r.base) % req = 0) := by
  obtain ⟨c1, e1, h1⟩ := run_rel hN.2 (by omega) os (rel_init N) ho
  rw [hrun] at e1
  cases e1
  obtain ⟨c2, e2, _⟩ := lookup_rel hN.2 h1 (hitTyped obj t req)
  rw [hl] at e2
  have e3 : (specStep.specLookup (hitTyped obj t req) (specRun N [] os).2).1 = some r := by
    injection e2 with e2; injection e2 with e2 _; exact e2.symm
  obtain ⟨hm, hh⟩ := specLookup_hit e3
  refine ⟨hm, ?_, ?_⟩
  · have := spec_live N os [] [] (by simp) r hm
    simpa using this
  · simp only [hitTyped, decide_eq_true_eq] at hh
    obtain ⟨g0, g1, g2, g3⟩ := hh
    refine ⟨g0, g1, g2, ?_, ?_⟩
    · rcases g3 with g | g
      · left; omega
      · exact Or.inr ⟨g.1, g.2.2⟩
    · intro hq hne
      rcases g3 with g | g
      · omega
      · rcases g.2.1 with h | h
        · exact absurd h hq
        · exact ⟨h, by rw [← h]; exact g.2.2⟩

/-- A typed lookup at the base of a record hits whatever period is required. -/
theorem hit_sound_typed_fails : ∃ c rs r c',
    run 8 init [.insert ⟨0x1000, 0x1040, 5, 16, 0⟩] = some (rs, c) ∧
    lookup 8 (hitTyped 0x1000 5 8) c = some (some r, c') ∧ r.period = 16 := by
  refine ⟨_, _, _, _, rfl, rfl, rfl⟩

/-- A period of 65544 is stored as 8: an address 8 bytes in then hits. -/
theorem period_truncated : ∃ c rs r c',
    run 8 init [.insert ⟨0x1000, 0x1000 + 131088, 5, 65544, 0⟩] = some (rs, c) ∧
    lookup 8 (hitTyped 0x1008 5 0) c = some (some r, c') := by
  refine ⟨_, _, _, _, rfl, rfl⟩

/-! ### C29 -/

/-- C29 (partial): right after invalidating a range, any hit — for whatever address, type and period —
is on a record that does not start in the range, and every record that does not start in it is still
there.  Partial: records that start below the range and reach into it are kept. -/
theorem invalidate_partial (N : Nat) (hN : 1 ≤ N ∧ N ≤ 31) (os : List Op) (ho : ∀ o ∈ os, okOp o)
    (c : Cache) (rs : List (Option Rec)) (hrun : run N init os = some (rs, c)) (ptr size : Nat) :
    ∃ c', uncache N c ptr size = some c' ∧
      (∀ obj req r c'', lookup N (hitAny obj req) c' = some (some r, c'') → ¬ (ptr ≤ r.base ∧ r.base < ptr + size)) ∧
      (∀ obj t req r c'', lookup N (hitTyped obj t req) c' = some (some r, c'') → ¬ (ptr ≤ r.base ∧ r.base < ptr + size)) ∧
      (∃ l : List Nat, (∀ i, i ∈ l ↔ c'.valid i = true) ∧
        l.map c'.ent = (specRun N [] os).2.filter (fun r => !decide (ptr ≤ r.base ∧ r.base < ptr + size))) := by
  obtain ⟨c1, e1, h1⟩ := run_rel hN.2 (by omega) os (rel_init N) ho
  rw [hrun] at e1
  cases e1
  obtain ⟨c', e2, h2⟩ := uncache_rel hN.2 h1 ptr size
  have key : ∀ hit r c'', lookup N hit c' = some (some r, c'') → ¬ (ptr ≤ r.base ∧ r.base < ptr + size) := by
    intro hit r c'' hl
    obtain ⟨c3, e3, _⟩ := lookup_rel hN.2 h2 hit
    rw [hl] at e3
    have e4 : (specStep.specLookup hit ((specRun N [] os).2.filter
        (fun r => !decide (ptr ≤ r.base ∧ r.base < ptr + size)))).1 = some r := by
      injection e3 with e3; injection e3 with e3 _; exact e3.symm
    have := (List.mem_filter.1 (specLookup_hit e4).1).2
    simp at this; omega
  refine ⟨c', e2, fun obj req r c'' => key _ r c'', fun obj t req r c'' => key _ r c'', ?_⟩
  obtain ⟨l, hi, hA⟩ := h2
  exact ⟨l, hi.mem, hA.symm⟩

/-- Two records, one of which starts in the range. -/
example : ∃ rs c, run 8 init [.insert ⟨0x1000, 0x1040, 5, 1, 0⟩, .insert ⟨0x2000, 0x2040, 5, 1, 0⟩] = some (rs, c) :=
  ⟨_, _, rfl⟩

/-- A record that starts before the invalidated range still answers for addresses in it. -/
theorem invalidate_fails : ∃ rs c c' r c'',
    run 8 init [.insert ⟨0x1000, 0x2000, 5, 1, 0⟩] = some (rs, c) ∧
    uncache 8 c 0x1800 16 = some c' ∧ lookup 8 (hitAny 0x1808 0) c' = some (some r, c'') :=
  ⟨_, _, _, _, _, rfl, rfl, rfl⟩

/-! ### C30 -/

/-- A history of events, with the answers to its queries. -/
def sysRun (N : Nat) (s : Sys) : List Ev → Option (List (Option Nat) × Sys)
  | [] => some ([], s)
  | e :: es =>
    match sysStep N s e with
    | none => none
    | some (a, s) =>
      match sysRun N s es with
      | none => none
      | some (as, s) => some (a.toList ++ as, s)

/-- The answers with no cache at all: the base of the live allocation containing the address. -/
def uncached (live : List Info) : List Ev → List (Option Nat)
  | [] => []
  | .query obj :: es => (ask live obj).map (·.base) :: uncached live es
  | .alloc a :: es => uncached (a :: live) es
  | .free base _ :: es => uncached (live.filter (fun a => a.base != base)) es
  | .drop base :: es => uncached (live.filter (fun a => a.base != base)) es

/-- New allocations are non-empty and disjoint from the live ones; releases invalidate at least one
byte; an allocator that removes an allocation without invalidating the cache has not declared itself
cacheable. -/
def Disciplined (live : List Info) : List Ev → Prop
  | [] => True
  | .query _ :: es => Disciplined live es
  | .alloc a :: es => 0 < a.size ∧ (∀ b ∈ live, a.base + a.size ≤ b.base ∨ b.base + b.size ≤ a.base) ∧
      Disciplined (a :: live) es
  | .free base usable :: es => 0 < usable ∧ Disciplined (live.filter (fun a => a.base != base)) es
  | .drop base :: es => (∀ a ∈ live, a.base = base → a.cacheable = false) ∧
      Disciplined (live.filter (fun a => a.base != base)) es

/-- Live allocations are non-empty and pairwise disjoint, and the cache only knows live ones. -/
def Good (live : List Info) (A : List Rec) : Prop :=
  (∀ a ∈ live, 0 < a.size) ∧
  live.Pairwise (fun a b => a.base + a.size ≤ b.base ∨ b.base + b.size ≤ a.base) ∧
  ∀ r ∈ A, ∃ a ∈ live, a.cacheable = true ∧ r = ⟨a.base, a.base + a.size, byteTy, 1, 0⟩

theorem ask_eq {live : List Info} (hp : live.Pairwise (fun a b => a.base + a.size ≤ b.base ∨ b.base + b.size ≤ a.base))
    {a : Info} (ha : a ∈ live) {obj : Nat} (h : a.base ≤ obj ∧ obj < a.base + a.size) : ask live obj = some a := by
  induction live with
  | nil => simp at ha
  | cons b live ih =>
    rw [List.pairwise_cons] at hp
    unfold ask
    rw [List.find?_cons]
    rcases List.mem_cons.1 ha with e | e
    · subst e; simp [h]
    · have := hp.1 a e
      have hb : decide (b.base ≤ obj ∧ obj < b.base + b.size) = false := by
        simp only [decide_eq_false_iff_not]; omega
      rw [hb]
      exact ih hp.2 e

theorem good_filter {live : List Info} {A : List Rec} (base : Nat) (h : Good live A)
    (hA : ∀ r ∈ A, r.base ≠ base) : Good (live.filter (fun a => a.base != base)) A := by
  refine ⟨fun a ha => h.1 a (List.mem_filter.1 ha).1, h.2.1.filter _, ?_⟩
  intro r hr
  obtain ⟨a, ha, hc, rfl⟩ := h.2.2 r hr
  have := hA _ hr
  exact ⟨a, List.mem_filter.2 ⟨ha, by simpa using this⟩, hc, rfl⟩

theorem insert_good {live : List Info} {A : List Rec} {a : Info} (N : Nat) (h : Good live A) (ha : a ∈ live)
    (hc : a.cacheable = true) :
    Good live (⟨a.base, a.base + a.size, byteTy, 1, 0⟩ :: (if A.length < N then A else A.dropLast)) := by
  refine ⟨h.1, h.2.1, ?_⟩
  intro r hr
  rcases List.mem_cons.1 hr with e | e
  · exact ⟨a, ha, hc, e⟩
  · refine h.2.2 r ?_
    split at e
    · exact e
    · exact List.dropLast_subset _ e

theorem lookup_good {live : List Info} {A : List Rec} (hit : Rec → Bool) (h : Good live A) :
    Good live (specStep.specLookup hit A).2 := by
  refine ⟨h.1, h.2.1, ?_⟩
  intro r hr
  refine h.2.2 r ?_
  unfold specStep.specLookup at hr
  split at hr
  · rename_i r' hf
    rcases List.mem_cons.1 hr with e | e
    · rw [e]; exact List.mem_of_find?_eq_some hf
    · exact mem_eraseP e
  · exact hr

theorem query_ok {N : Nat} (hN : N ≤ 31) (hpos : 0 < N) {c : Cache} {A : List Rec} {live : List Info}
    (hr : Rel N c A) (hg : Good live A) (obj : Nat) :
    ∃ c' A', getBase N c obj (ask live obj) = some ((ask live obj).map (·.base), c') ∧ Rel N c' A' ∧ Good live A' := by
  obtain ⟨c1, e1, r1⟩ := lookup_rel hN hr (hitAny obj 0)
  have g1 := lookup_good (hitAny obj 0) hg
  unfold getBase
  rw [e1]
  simp only [Option.bind_eq_bind, Option.bind_some]
  have full : ∃ c' A', (match ask live obj with
      | none => some (none, c1)
      | some a =>
        if a.cacheable then (insert N c1 ⟨a.base, a.base + a.size, byteTy, 1, 0⟩).bind fun c =>
          some (some a.base, c)
        else some (some a.base, c1)) = some ((ask live obj).map (·.base), c') ∧ Rel N c' A' ∧ Good live A' := by
    cases ha : ask live obj with
    | none => exact ⟨c1, _, rfl, r1, g1⟩
    | some a =>
      simp only
      have hm : a ∈ live := List.mem_of_find?_eq_some ha
      by_cases hc : a.cacheable = true
      · rw [if_pos hc]
        obtain ⟨c2, e2, r2⟩ := insert_rel hN hpos r1 ⟨a.base, a.base + a.size, byteTy, 1, 0⟩ (by simp)
        rw [e2]
        exact ⟨c2, _, rfl, r2, insert_good N g1 hm hc⟩
      · rw [if_neg hc]
        exact ⟨c1, _, rfl, r1, g1⟩
  cases hh : (specStep.specLookup (hitAny obj 0) A).1 with
  | none => exact full
  | some r =>
    obtain ⟨hm, hhit⟩ := specLookup_hit hh
    obtain ⟨a, ha, hc, rfl⟩ := hg.2.2 r hm
    simp only [hitAny, decide_eq_true_eq] at hhit
    have := ask_eq hg.2.1 ha ⟨hhit.1, hhit.2.1⟩
    simp only [if_true, this]
    exact ⟨c1, _, rfl, r1, g1⟩

theorem sys_ok {N : Nat} (hN : N ≤ 31) (hpos : 0 < N) (es : List Ev) {s : Sys} {A : List Rec}
    (hr : Rel N s.c A) (hg : Good s.live A) (hd : Disciplined s.live es) :
    ∃ s', sysRun N s es = some (uncached s.live es, s') := by
  induction es generalizing s A with
  | nil => exact ⟨s, rfl⟩
  | cons e es ih =>
    cases e with
    | query obj =>
      obtain ⟨c', A', e1, r1, g1⟩ := query_ok hN hpos hr hg obj
      obtain ⟨s', e2⟩ := ih (s := { s with c := c' }) r1 g1 hd
      refine ⟨s', ?_⟩
      simp only [sysRun, sysStep, e1, Option.bind_eq_bind, Option.bind_some, pure, e2, uncached]
      rfl
    | alloc a =>
      obtain ⟨d1, d2, d3⟩ := hd
      obtain ⟨s', e2⟩ := ih (s := { s with live := a :: s.live }) hr
        ⟨by intro b hb; rcases List.mem_cons.1 hb with e | e
            · rw [e]; exact d1
            · exact hg.1 b e,
         List.pairwise_cons.2 ⟨d2, hg.2.1⟩,
         fun r hr => by obtain ⟨b, hb, x⟩ := hg.2.2 r hr; exact ⟨b, List.mem_cons_of_mem _ hb, x⟩⟩ d3
      refine ⟨s', ?_⟩
      simp only [sysRun, sysStep, e2, uncached]; rfl
    | free base usable =>
      obtain ⟨d1, d2⟩ := hd
      obtain ⟨c', e1, r1⟩ := uncache_rel hN hr base usable
      have g' : Good s.live (A.filter (fun r => !decide (base ≤ r.base ∧ r.base < base + usable))) :=
        ⟨hg.1, hg.2.1, fun r hr => hg.2.2 r (List.mem_filter.1 hr).1⟩
      obtain ⟨s', e2⟩ := ih (s := { c := c', live := s.live.filter (fun a => a.base != base) }) r1
        (good_filter base g' (by
          intro r hr he
          have := (List.mem_filter.1 hr).2
          simp at this; omega)) d2
      refine ⟨s', ?_⟩
      simp only [sysRun, sysStep, e1, Option.bind_eq_bind, Option.bind_some, pure, e2, uncached]; rfl
    | drop base =>
      obtain ⟨d1, d2⟩ := hd
      obtain ⟨s', e2⟩ := ih (s := { s with live := s.live.filter (fun a => a.base != base) }) hr
        (good_filter base hg (by
          intro r hr he
          obtain ⟨a, ha, hc, rfl⟩ := hg.2.2 r hr
          have := d1 a ha he
          rw [hc] at this; cases this)) d2
      refine ⟨s', ?_⟩
      simp only [sysRun, sysStep, e2, uncached]; rfl

/-- C30 (partial): for every history of queries, allocations and releases, every base query answers
as if there were no cache, so earlier queries do not matter.  Partial: allocators that declare
themselves cacheable must invalidate the cache when an allocation goes away. -/
theorem base_query_partial (N : Nat) (hN : 1 ≤ N ∧ N ≤ 31) (es : List Ev) (hd : Disciplined [] es) :
    ∃ s', sysRun N ⟨init, []⟩ es = some (uncached [] es, s') :=
  sys_ok hN.2 (by omega) es (rel_init N) ⟨by simp, List.Pairwise.nil, by simp⟩ hd

example : Disciplined [] [.alloc ⟨0x1000, 64, true⟩, .query 0x1008, .alloc ⟨0x1040, 16, false⟩, .query 0x1044,
    .free 0x1000 72, .alloc ⟨0x1008, 8, true⟩, .query 0x1008, .drop 0x1040, .query 0x1044] := by
  simp [Disciplined]

/-- Memory-mapping allocations are declared cacheable but unmapping does not invalidate: after a
query, an unmap and a new mapping at a lower address, the old base is still answered. -/
theorem base_query_fails : ∃ s', sysRun 8 ⟨init, []⟩
    [.alloc ⟨0x2000, 0x1000, true⟩, .query 0x2800, .drop 0x2000, .alloc ⟨0x1000, 0x2000, true⟩, .query 0x2800] =
      some ([some 0x2000, some 0x2000], s') ∧
    uncached [] [.alloc ⟨0x2000, 0x1000, true⟩, .query 0x2800, .drop 0x2000, .alloc ⟨0x1000, 0x2000, true⟩, .query 0x2800] =
      [some 0x2000, some 0x1000] :=
  ⟨_, rfl, by decide⟩

end Liballocs.Cache
