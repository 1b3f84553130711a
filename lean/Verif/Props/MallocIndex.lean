import Verif.Model.MallocIndex
/-
C10 (interior lookup), C11 (freed chunks not found), C53 (no answer outside chunks).
-/
namespace Liballocs.MallocIndex

/-! ### Specification: what the program's heap looks like -/

/-- A live heap chunk as the program knows it. -/
structure Chunk where
  start : Nat
  requested : Nat
  usable : Nat
deriving DecidableEq, Repr

def Chunk.disjoint (c d : Chunk) : Prop :=
  c.start + c.usable ≤ d.start ∨ d.start + d.usable ≤ c.start

/-- A malloc may hand out `c` next to the live chunks `L` inside the arena `[lo, hi)`. -/
structure MayAlloc (lo hi : Nat) (L : List Chunk) (c : Chunk) : Prop where
  aligned : c.start % 16 = 0
  above : lo ≤ c.start
  below : c.start + c.usable ≤ hi
  room : c.requested + 8 ≤ c.usable
  nonzero : 0 < c.requested
  disj : ∀ d ∈ L, c.disjoint d

/-- Effect of one event on the live chunks.  `big` says whether chunks of more than 131072 usable
bytes may be freed or resized. -/
inductive Legal (big : Bool) (lo hi : Nat) : List Chunk → Ev → List Chunk → Prop where
  | alloc {L c} : MayAlloc lo hi L c →
      Legal big lo hi L (.alloc c.start c.requested c.usable) (c :: L)
  | free {L c} : c ∈ L → (big = true ∨ c.usable ≤ 131072) →
      Legal big lo hi L (.free c.start) (L.filter (fun d => d.start ≠ c.start))
  | realloc {L c d} : c ∈ L → (big = true ∨ c.usable ≤ 131072) →
      MayAlloc lo hi (L.filter (fun d => d.start ≠ c.start)) d →
      Legal big lo hi L (.realloc c.start d.start d.requested d.usable)
        (d :: L.filter (fun d => d.start ≠ c.start))
  | reallocFail {L c r} : c ∈ L → (big = true ∨ c.usable ≤ 131072) →
      Legal big lo hi L (.reallocFail c.start r c.usable) L

/-- `History big lo hi L es L'`: `es` is a legal history leading from live chunks `L` to `L'`. -/
inductive History (big : Bool) (lo hi : Nat) : List Chunk → List Ev → List Chunk → Prop where
  | nil {L} : History big lo hi L [] L
  | cons {L M N e es} : Legal big lo hi L e M → History big lo hi M es N →
      History big lo hi L (e :: es) N

/-! ### The invariant -/

structure Inv (lo hi : Nat) (s : St) (L : List Chunk) : Prop where
  base : s.base = roundDown lo COVER
  chunk : ∀ c ∈ L, c.start % 16 = 0 ∧ lo ≤ c.start ∧ c.start + c.usable ≤ hi ∧
    c.requested + 8 ≤ c.usable ∧ 0 < c.requested ∧
    c.start + c.requested ≤ s.base + 1024 * s.nwords
  disj : ∀ c ∈ L, ∀ d ∈ L, c.start = d.start → c = d
  disj' : ∀ c ∈ L, ∀ d ∈ L, c.start ≠ d.start → c.disjoint d
  bits : ∀ i, i < 64 * s.nwords → (s.bits i = true ↔ ∃ c ∈ L, c.start = s.base + 16 * i)
  small : ∀ c ∈ L, c.usable ≤ 131072 → c.usable - 8 ≤ s.biggestUnpromoted
  cap : s.biggestUnpromoted ≤ 131072
  promoted : ∀ b, b ∈ s.promoted ↔ ∃ c ∈ L, 131072 < c.usable ∧ b = (c.start, c.requested)

theorem base_le (lo : Nat) : roundDown lo COVER ≤ lo ∧ lo < roundDown lo COVER + 1024 ∧
    roundDown lo COVER % 1024 = 0 := by
  unfold roundDown COVER; omega

theorem inv_fresh (lo hi : Nat) : Inv lo hi (fresh lo) [] := by
  constructor <;> simp [fresh]

theorem ensureTo_spec (s : St) (e : Nat) (hb : s.base % 1024 = 0) (he : s.base ≤ e) :
    (ensureTo s e).base = s.base ∧ s.nwords ≤ (ensureTo s e).nwords ∧
    e ≤ s.base + 1024 * (ensureTo s e).nwords ∧
    (ensureTo s e).biggestUnpromoted = s.biggestUnpromoted ∧
    (ensureTo s e).promoted = s.promoted ∧
    (∀ i, i < 64 * (ensureTo s e).nwords →
      ((ensureTo s e).bits i = true ↔ i < 64 * s.nwords ∧ s.bits i = true)) := by
  unfold ensureTo
  simp only
  have : e ≤ s.base + 1024 * ((roundUp e COVER - s.base) / COVER) := by
    unfold roundUp COVER; omega
  split
  · refine ⟨rfl, by simp only; omega, this, rfl, rfl, ?_⟩
    intro i hi
    simp only
    split
    · simp_all
    · constructor
      · intro h; simp at h
      · intro h; omega
  · refine ⟨rfl, Nat.le_refl _, by omega, rfl, rfl, ?_⟩
    intro i hi
    simp [hi]

theorem inv_congr {lo hi s L L'} (h : ∀ c, c ∈ L ↔ c ∈ L') (hI : Inv lo hi s L) :
    Inv lo hi s L' where
  base := hI.base
  chunk c hc := hI.chunk c ((h c).2 hc)
  disj c hc d hd := hI.disj c ((h c).2 hc) d ((h d).2 hd)
  disj' c hc d hd := hI.disj' c ((h c).2 hc) d ((h d).2 hd)
  bits i hi := by rw [hI.bits i hi]; simp [h]
  small c hc := hI.small c ((h c).2 hc)
  cap := hI.cap
  promoted b := by rw [hI.promoted b]; simp [h]

/-- Inserting the chunk `c`, reported with requested size `r`. -/
theorem inv_insert {lo hi s L c} (r : Nat) (hI : Inv lo hi s L) (hc : MayAlloc lo hi L c)
    (hr : r = c.requested ∨
      (c.start + c.requested ≤ s.base + 1024 * s.nwords ∧ c.usable ≤ 131072)) :
    ∃ s', indexInsert s c.start r c.usable = some s' ∧ Inv lo hi s' (c :: L) ∧
      s.nwords ≤ s'.nwords := by
  have hb := base_le lo
  have hB := hI.base
  obtain ⟨e1, e2, e3, e4, e5, e6⟩ := ensureTo_spec s (c.start + r)
    (by rw [hB]; exact hb.2.2) (by rw [hB]; have := hc.above; omega)
  have hab := hc.above
  have hal := hc.aligned
  have hro := hc.room
  have hnz := hc.nonzero
  have hcov : c.start + c.requested ≤ s.base + 1024 * (ensureTo s (c.start + r)).nwords := by
    rcases hr with rfl | ⟨hr, _⟩
    · exact e3
    · omega
  unfold indexInsert
  generalize ensureTo s (c.start + r) = s₁ at *
  have hdisj : ∀ d ∈ L, c.start ≠ d.start := by
    intro d hd
    have h1 := hc.disj d hd
    have h2 := hI.chunk d hd
    unfold Chunk.disjoint at h1
    omega
  have hidx : c.start = s₁.base + 16 * ((c.start - s₁.base) / 16) := by
    rw [e1, hB]; omega
  have hlt : (c.start - s₁.base) / 16 < 64 * s₁.nwords := by omega
  have hge : ¬ c.start < s₁.base := by omega
  -- the parts common to both cases
  have key : ∀ s₂ : St, s₂.base = s₁.base → s₂.nwords = s₁.nwords → s₂.bits = s₁.bits →
      (∀ d ∈ c :: L, d.usable ≤ 131072 → d.usable - 8 ≤ s₂.biggestUnpromoted) →
      s₂.biggestUnpromoted ≤ 131072 →
      (∀ b, b ∈ s₂.promoted ↔ ∃ d ∈ c :: L, 131072 < d.usable ∧ b = (d.start, d.requested)) →
      Inv lo hi
        { s₂ with bits := fun i => if i = (c.start - s₁.base) / 16 then true else s₂.bits i }
        (c :: L) := by
    intro s₂ h1 h2 h3 h4 h5 h6
    constructor
    · simp only [h1, e1, hB]
    · intro d hd
      simp only [h1, h2, e1]
      rcases List.mem_cons.1 hd with rfl | hd
      · exact ⟨hal, hab, hc.below, hro, hnz, by rw [← e1] at hcov ⊢; exact hcov⟩
      · have := hI.chunk d hd
        omega
    · intro d hd d' hd' he
      rcases List.mem_cons.1 hd with h | h <;> rcases List.mem_cons.1 hd' with h' | h'
      · rw [h, h']
      · subst h; exact absurd he (hdisj d' h')
      · subst h'; exact absurd he.symm (hdisj d h)
      · exact hI.disj d h d' h' he
    · intro d hd d' hd' he
      rcases List.mem_cons.1 hd with h | h <;> rcases List.mem_cons.1 hd' with h' | h'
      · exact absurd (by rw [h, h']) he
      · subst h; exact hc.disj d' h'
      · subst h'; exact (hc.disj d h).symm
      · exact hI.disj' d h d' h' he
    · intro i hi
      simp only [h1, h2, h3] at hi ⊢
      by_cases hi' : i = (c.start - s₁.base) / 16
      · simp only [hi', if_true, true_iff]
        exact ⟨c, List.mem_cons_self .., hidx⟩
      · simp only [hi', if_false]
        rw [e6 i hi]
        constructor
        · rintro ⟨hi2, hb⟩
          obtain ⟨d, hd, hd'⟩ := (hI.bits i hi2).1 hb
          exact ⟨d, List.mem_cons_of_mem _ hd, by rw [hd', e1]⟩
        · rintro ⟨d, hd, hd'⟩
          rcases List.mem_cons.1 hd with rfl | hd
          · omega
          · have hcd := hI.chunk d hd
            have : i < 64 * s.nwords := by omega
            exact ⟨this, (hI.bits i this).2 ⟨d, hd, by rw [hd', e1]⟩⟩
    · exact h4
    · exact h5
    · exact h6
  have hcap := hI.cap
  by_cases hp : shouldPromote c.usable = true
  · have hp' : 131072 < c.usable := by simpa [shouldPromote] using hp
    have hr' : r = c.requested := by omega
    simp only [hp, hge, if_false, if_true]
    rw [if_pos hlt]
    refine ⟨_, rfl, ?_, by exact e2⟩
    apply key { s₁ with promoted := (c.start, r) :: s₁.promoted } rfl rfl rfl
    · intro d hd hu
      simp only [e4]
      rcases List.mem_cons.1 hd with rfl | hd
      · omega
      · exact hI.small d hd hu
    · simp only [e4]; exact hI.cap
    · intro b
      simp only [List.mem_cons, e5, hI.promoted b]
      constructor
      · rintro (rfl | ⟨d, hd, h⟩)
        · exact ⟨c, Or.inl rfl, hp', by rw [hr']⟩
        · exact ⟨d, Or.inr hd, h⟩
      · rintro ⟨d, rfl | hd, h⟩
        · left; rw [h.2, hr']
        · exact Or.inr ⟨d, hd, h⟩
  · have hp' : c.usable ≤ 131072 := by simpa [shouldPromote] using hp
    simp only [hp, hge, if_false, Bool.false_eq_true]
    rw [if_pos hlt]
    refine ⟨_, rfl, ?_, by exact e2⟩
    apply key { s₁ with biggestUnpromoted := max (c.usable - 8) s₁.biggestUnpromoted } rfl rfl rfl
    · intro d hd hu
      simp only [e4]
      rcases List.mem_cons.1 hd with rfl | hd
      · exact Nat.le_max_left _ _
      · exact Nat.le_trans (hI.small d hd hu) (Nat.le_max_right _ _)
    · simp only [e4]; omega
    · intro b
      simp only [List.mem_cons, e5, hI.promoted b]
      constructor
      · rintro ⟨d, hd, h⟩; exact ⟨d, Or.inr hd, h⟩
      · rintro ⟨d, rfl | hd, h⟩
        · omega
        · exact ⟨d, hd, h⟩

/-- A promoted chunk containing the address, in terms of the live chunks. -/
theorem findPromoted_some {lo hi s L a b} (hI : Inv lo hi s L) (h : findPromoted s a = some b) :
    ∃ c ∈ L, 131072 < c.usable ∧ b = (c.start, c.requested) ∧ c.start ≤ a ∧
      a < c.start + c.requested := by
  unfold findPromoted at h
  have hm := List.mem_of_find?_eq_some h
  have hp := List.find?_some h
  obtain ⟨c, hc, hu, rfl⟩ := (hI.promoted b).1 hm
  simp at hp
  exact ⟨c, hc, hu, rfl, hp⟩

theorem findPromoted_none {lo hi s L a} (hI : Inv lo hi s L) (h : findPromoted s a = none)
    {c : Chunk} (hc : c ∈ L) (hu : 131072 < c.usable) :
    ¬ (c.start ≤ a ∧ a < c.start + c.requested) := by
  unfold findPromoted at h
  rw [List.find?_eq_none] at h
  have := h (c.start, c.requested) ((hI.promoted _).2 ⟨c, hc, hu, rfl⟩)
  simpa using this

theorem inv_delete {lo hi s L c} (hI : Inv lo hi s L) (hc : c ∈ L) (hu : c.usable ≤ 131072) :
    ∃ s', indexDelete s c.start = some s' ∧
      Inv lo hi s' (L.filter (fun d => d.start ≠ c.start)) ∧ s'.nwords = s.nwords ∧
      s'.base = s.base := by
  have hcc := hI.chunk c hc
  have hb := base_le lo
  have hB := hI.base
  unfold indexDelete
  have hn : findPromoted s c.start = none := by
    cases h : findPromoted s c.start with
    | none => rfl
    | some b =>
      obtain ⟨d, hd, hdu, _, h1, h2⟩ := findPromoted_some hI h
      by_cases he : c.start = d.start
      · have := hI.disj c hc d hd he; subst this; omega
      · have := hI.disj' c hc d hd he
        have := hI.chunk d hd
        unfold Chunk.disjoint at *; omega
  rw [hn]
  have hidx : c.start = s.base + 16 * ((c.start - s.base) / 16) := by rw [hB]; omega
  have hlt : (c.start - s.base) / 16 < 64 * s.nwords := by omega
  have hge : ¬ c.start < s.base := by omega
  refine ⟨{ s with bits := fun i => if i = (c.start - s.base) / 16 then false else s.bits i },
    by simp only [hge, if_false, hlt, if_true], ?_, rfl, rfl⟩
  constructor
  · exact hI.base
  · intro d hd; exact hI.chunk d (List.mem_filter.1 hd).1
  · intro d hd d' hd'
    exact hI.disj d (List.mem_filter.1 hd).1 d' (List.mem_filter.1 hd').1
  · intro d hd d' hd'
    exact hI.disj' d (List.mem_filter.1 hd).1 d' (List.mem_filter.1 hd').1
  · intro i hi
    simp only at hi ⊢
    by_cases hi' : i = (c.start - s.base) / 16
    · simp only [hi', if_true, Bool.false_eq_true, false_iff]
      rintro ⟨d, hd, h⟩
      have := (List.mem_filter.1 hd).2
      simp at this
      omega
    · simp only [hi', if_false]
      rw [hI.bits i hi]
      constructor
      · rintro ⟨d, hd, h⟩
        refine ⟨d, List.mem_filter.2 ⟨hd, ?_⟩, h⟩
        simp; omega
      · rintro ⟨d, hd, h⟩; exact ⟨d, (List.mem_filter.1 hd).1, h⟩
  · intro d hd; exact hI.small d (List.mem_filter.1 hd).1
  · exact hI.cap
  · intro b
    rw [hI.promoted b]
    constructor
    · rintro ⟨d, hd, h⟩
      refine ⟨d, List.mem_filter.2 ⟨hd, ?_⟩, h⟩
      simp
      intro he
      have := hI.disj d hd c hc he
      subst this; omega
    · rintro ⟨d, hd, h⟩; exact ⟨d, (List.mem_filter.1 hd).1, h⟩

theorem inv_step {lo hi s L e L'} (hI : Inv lo hi s L) (h : Legal false lo hi L e L') :
    ∃ s', exec s e = some s' ∧ Inv lo hi s' L' := by
  cases h with
  | alloc hc =>
    obtain ⟨s', h1, h2, _⟩ := inv_insert _ hI hc (Or.inl rfl)
    exact ⟨s', h1, h2⟩
  | free hc hu =>
    obtain ⟨s', h1, h2, _⟩ := inv_delete hI hc (by simpa using hu)
    exact ⟨s', h1, h2⟩
  | realloc hc hu hd =>
    obtain ⟨s', h1, h2, _⟩ := inv_delete hI hc (by simpa using hu)
    obtain ⟨s'', h3, h4, _⟩ := inv_insert _ h2 hd (Or.inl rfl)
    exact ⟨s'', by simp only [exec, h1, Option.bind_some, h3], h4⟩
  | @reallocFail c r hc hu =>
    have hu' : c.usable ≤ 131072 := by simpa using hu
    obtain ⟨s', h1, h2, h3, h3'⟩ := inv_delete hI hc hu'
    have hcc := hI.chunk c hc
    have hm : MayAlloc lo hi (L.filter (fun d => d.start ≠ c.start)) c := by
      refine ⟨hcc.1, hcc.2.1, hcc.2.2.1, hcc.2.2.2.1, hcc.2.2.2.2.1, ?_⟩
      intro d hd
      have h := List.mem_filter.1 hd
      apply hI.disj' c hc d h.1
      have := h.2
      simp at this
      exact fun e => this e.symm
    obtain ⟨s'', h4, h5, _⟩ := inv_insert r h2 hm (Or.inr ⟨by rw [h3, h3']; exact hcc.2.2.2.2.2, hu'⟩)
    refine ⟨s'', by simp only [exec, h1, Option.bind_some, h4], ?_⟩
    apply inv_congr _ h5
    intro d
    simp only [List.mem_cons, List.mem_filter, ne_eq, decide_eq_true_eq]
    constructor
    · rintro (rfl | h)
      · exact hc
      · exact h.1
    · intro hd
      by_cases he : d.start = c.start
      · left; exact hI.disj d hd c hc he
      · exact Or.inr ⟨hd, he⟩

theorem inv_run {lo hi s L es L'} (hI : Inv lo hi s L) (h : History false lo hi L es L') :
    ∃ s', run s es = some s' ∧ Inv lo hi s' L' := by
  induction h generalizing s with
  | nil => exact ⟨s, rfl, hI⟩
  | cons h1 _ ih =>
    obtain ⟨s1, e1, hI1⟩ := inv_step hI h1
    obtain ⟨s2, e2, hI2⟩ := ih hI1
    exact ⟨s2, by simp only [run, e1, Option.bind_some, e2], hI2⟩

theorem rfind_spec (bits : Nat → Bool) (lo k : Nat) :
    match rfind bits lo k with
    | none => ∀ i, lo ≤ i → i ≤ lo + k → bits i = false
    | some i => lo ≤ i ∧ i ≤ lo + k ∧ bits i = true ∧ ∀ j, i < j → j ≤ lo + k → bits j = false := by
  induction k with
  | zero =>
    simp only [rfind]
    by_cases h : bits lo = true
    · simp only [h, if_true]
      exact ⟨Nat.le_refl _, by omega, trivial, by intro j h1 h2; omega⟩
    · simp only [h, if_false]
      intro i h1 h2
      have : i = lo := by omega
      subst this; simpa using h
  | succ k ih =>
    simp only [rfind]
    by_cases h : bits (lo + (k + 1)) = true
    · simp only [h, if_true]
      exact ⟨by omega, by omega, trivial, by intro j h1 h2; omega⟩
    · simp only [h, if_false]
      have hf : bits (lo + (k + 1)) = false := by simpa using h
      revert ih
      cases rfind bits lo k with
      | none =>
        intro ih i h1 h2
        by_cases he : i = lo + (k + 1)
        · rw [he]; exact hf
        · exact ih i h1 (by omega)
      | some i =>
        rintro ⟨h1, h2, h3, h4⟩
        refine ⟨h1, by omega, h3, ?_⟩
        intro j hj1 hj2
        by_cases he : j = lo + (k + 1)
        · rw [he]; exact hf
        · exact h4 j hj1 (by omega)

theorem hidden_spec {s : St} {ndebug mem} (h1 : s.biggestUnpromoted ≤ mem) (h2 : mem < 2 ^ 64)
    (hb : s.base % 1024 = 0) :
    s.base + 16 * hidden s ndebug mem ≤ max s.base (mem - s.biggestUnpromoted) := by
  unfold hidden
  split
  · simp only
    split
    · have : wsub mem s.biggestUnpromoted = mem - s.biggestUnpromoted := by unfold wsub; omega
      rw [this] at *
      unfold roundDown COVER at *
      omega
    · omega
  · omega

/-- What a query answers, in terms of the live chunks: the nearest live chunk start at or below the
address (or a promoted chunk containing it). -/
theorem query_found {lo hi s L mem ndebug q} (hI : Inv lo hi s L) (hlo : 2 ^ 18 ≤ lo)
    (hsz : hi ≤ lo + 2 ^ 36 - 1024) (hhi : hi < 2 ^ 64) (hm1 : s.base ≤ mem) (hm2 : mem < hi)
    (h : query s ndebug mem = .found q) :
    ∃ c ∈ L, c.start = q ∧ q ≤ mem ∧
      (∀ d ∈ L, d.start ≤ mem → mem < d.start + d.requested → d = c) := by
  have hb := base_le lo
  have hB := hI.base
  unfold query at h
  cases hf : findPromoted s mem with
  | some b =>
    rw [hf] at h
    simp only [Res.found.injEq] at h
    obtain ⟨c, hc, hu, hbc, h1, h2⟩ := findPromoted_some hI hf
    refine ⟨c, hc, by rw [← h, hbc], by rw [← h, hbc]; exact h1, ?_⟩
    intro d hd h3 h4
    by_cases he : d.start = c.start
    · exact hI.disj d hd c hc he
    · have := hI.disj' d hd c hc he
      have := hI.chunk d hd
      have := hI.chunk c hc
      unfold Chunk.disjoint at *; omega
  | none =>
    rw [hf] at h
    simp only [lookupBitmap] at h
    have hst : (wsub mem s.base / 16) % 2 ^ 32 = (mem - s.base) / 16 := by
      unfold wsub; omega
    rw [hst] at h
    split at h
    · exact absurd h (by simp)
    · rename_i hn
      have hsp := rfind_spec s.bits (hidden s ndebug mem) ((mem - s.base) / 16 - hidden s ndebug mem)
      split at h
      · exact absurd h (by simp)
      · rename_i i hi
        rw [hi] at hsp
        simp only [Res.found.injEq] at h
        obtain ⟨h1, h2, h3, h4⟩ := hsp
        obtain ⟨c, hc, hcs⟩ := (hI.bits i (by omega)).1 h3
        refine ⟨c, hc, by omega, by omega, ?_⟩
        intro d hd hd1 hd2
        have hdc := hI.chunk d hd
        have hcc := hI.chunk c hc
        by_cases he : d.start = c.start
        · exact hI.disj d hd c hc he
        · exfalso
          have hdj := hI.disj' d hd c hc he
          have hj : d.start = s.base + 16 * ((d.start - s.base) / 16) := by omega
          -- d starts at or below mem and c.start ≤ mem; nearest wins
          by_cases hlt : c.start < d.start
          · have := h4 ((d.start - s.base) / 16) (by omega) (by omega)
            rw [(hI.bits _ (by omega)).2 ⟨d, hd, hj⟩] at this
            simp at this
          · unfold Chunk.disjoint at hdj; omega

/-- In a state that satisfies the invariant, an address inside the requested bytes of a live chunk is looked up to its
start. -/
theorem query_interior {lo hi s L} (hI : Inv lo hi s L) (hlo : 2 ^ 18 ≤ lo) (hsz : hi ≤ lo + 2 ^ 36 - 1024)
    (hhi : hi < 2 ^ 64) (ndebug : Bool) {c : Chunk} (hc : c ∈ L) {mem : Nat} (h1 : c.start ≤ mem)
    (h2 : mem < c.start + c.requested) : query s ndebug mem = .found c.start := by
  have hcc := hI.chunk c hc
  have hb := base_le lo
  have hB := hI.base
  cases hq : query s ndebug mem with
  | found q =>
    obtain ⟨d, hd, hdq, _, hu⟩ := query_found hI hlo hsz hhi (by omega) (by omega) hq
    have := hu c hc h1 h2
    rw [← hdq, this]
  | notFound =>
    exfalso
    unfold query at hq
    cases hf : findPromoted s mem with
    | some b => rw [hf] at hq; simp at hq
    | none =>
      rw [hf] at hq
      have hu : c.usable ≤ 131072 := by
        rcases Nat.lt_or_ge 131072 c.usable with hu | hu
        · exact absurd ⟨h1, h2⟩ (findPromoted_none hI hf hc hu)
        · exact hu
      simp only [lookupBitmap] at hq
      have hst : (wsub mem s.base / 16) % 2 ^ 32 = (mem - s.base) / 16 := by
        unfold wsub; omega
      rw [hst] at hq
      split at hq
      · simp at hq
      · rename_i hn
        have hsp := rfind_spec s.bits (hidden s ndebug mem)
          ((mem - s.base) / 16 - hidden s ndebug mem)
        split at hq
        · rename_i hr
          rw [hr] at hsp
          have hcap := hI.cap
          have hhid := @hidden_spec s ndebug mem (by omega) (by omega) (by rw [hB]; exact hb.2.2)
          have hsm := hI.small c hc hu
          have hj : c.start = s.base + 16 * ((c.start - s.base) / 16) := by omega
          have := hsp ((c.start - s.base) / 16) (by omega) (by omega)
          rw [(hI.bits _ (by omega)).2 ⟨c, hc, hj⟩] at this
          simp at this
        · simp at hq
  | outOfBounds =>
    exfalso
    unfold query at hq
    cases hf : findPromoted s mem with
    | some b => rw [hf] at hq; simp at hq
    | none =>
      rw [hf] at hq
      simp only [lookupBitmap] at hq
      have hst : (wsub mem s.base / 16) % 2 ^ 32 = (mem - s.base) / 16 := by
        unfold wsub; omega
      rw [hst] at hq
      split at hq
      · rename_i hn
        have hcap := hI.cap
        have hhid := @hidden_spec s ndebug mem (by omega) (by omega) (by rw [hB]; exact hb.2.2)
        omega
      · split at hq <;> simp at hq

/-- C10 (partial: histories that free or resize a chunk of more than 131072 usable bytes are
excluded).  Every legal history runs without going out of bounds, and afterwards every address
inside the requested bytes of a live chunk is looked up to that chunk's start, with and without the
NDEBUG search optimisation.  The arena lies above 256 KiB and is smaller than 64 GiB. -/
theorem interior_lookup_partial {lo hi : Nat} {es : List Ev} {L : List Chunk}
    (hlo : 2 ^ 18 ≤ lo) (hsz : hi ≤ lo + 2 ^ 36 - 1024) (hhi : hi < 2 ^ 64)
    (h : History false lo hi [] es L) :
    ∃ s, run (fresh lo) es = some s ∧
      ∀ ndebug, ∀ c ∈ L, ∀ mem, c.start ≤ mem → mem < c.start + c.requested →
        query s ndebug mem = .found c.start := by
  obtain ⟨s, hs, hI⟩ := inv_run (inv_fresh lo hi) h
  refine ⟨s, hs, ?_⟩
  intro ndebug c hc mem h1 h2
  exact query_interior hI hlo hsz hhi ndebug hc h1 h2

/-- C11 (partial in the same way).  A lookup never answers with anything but the start of a chunk
that is live now; in particular a freed chunk is not found until its address is allocated again. -/
theorem only_live_found_partial {lo hi : Nat} {es : List Ev} {L : List Chunk}
    (hlo : 2 ^ 18 ≤ lo) (hsz : hi ≤ lo + 2 ^ 36 - 1024) (hhi : hi < 2 ^ 64)
    (h : History false lo hi [] es L) :
    ∃ s, run (fresh lo) es = some s ∧
      ∀ ndebug mem q, lo ≤ mem → mem < hi → query s ndebug mem = .found q →
        ∃ c ∈ L, c.start = q ∧ q ≤ mem := by
  obtain ⟨s, hs, hI⟩ := inv_run (inv_fresh lo hi) h
  refine ⟨s, hs, ?_⟩
  intro ndebug mem q h1 h2 hq
  have hb := base_le lo
  have hB := hI.base
  obtain ⟨c, hc, hcq, hle, _⟩ := query_found hI hlo hsz hhi (by omega) h2 hq
  exact ⟨c, hc, hcq, hle⟩

/-- A history satisfying the hypotheses: two chunks, a realloc that moves one of them, a failed
realloc, a free. -/
example : History false 0x100000 0x200000 []
    [.alloc 0x100010 100 120, .alloc 0x100090 24 32, .realloc 0x100010 0x100400 200000 200016,
      .reallocFail 0x100090 100000 32, .free 0x100090]
    [⟨0x100400, 200000, 200016⟩] := by
  refine .cons (.alloc (c := ⟨0x100010, 100, 120⟩) ?_) <|
    .cons (.alloc (c := ⟨0x100090, 24, 32⟩) ?_) <|
    .cons (.realloc (c := ⟨0x100010, 100, 120⟩) (d := ⟨0x100400, 200000, 200016⟩) (by decide)
      (by decide) ?_) <|
    .cons (.reallocFail (c := ⟨0x100090, 24, 32⟩) (by decide) (by decide)) <|
    .cons (.free (c := ⟨0x100090, 24, 32⟩) (by decide) (by decide)) .nil
  all_goals constructor <;> simp [Chunk.disjoint]

/-- C10 and C11 fail as stated.  A promoted chunk is freed, a smaller chunk is later carved out
across its old start.  (1) The freed chunk is still found by address.  (2) An interior address of
the live chunk is answered with the freed chunk. -/
theorem interior_lookup_fails :
    ∃ (es : List Ev) (L : List Chunk) (s : St),
      History true 0x100000 0x200000 [] es L ∧ run (fresh 0x100000) es = some s ∧
      (∃ c ∈ L, ∃ mem, c.start ≤ mem ∧ mem < c.start + c.requested ∧
        query s false mem ≠ .found c.start) ∧
      (∃ mem q, query s false mem = .found q ∧ ∀ c ∈ L, c.start ≠ q) := by
  refine ⟨[.alloc 0x110000 140000 140016, .free 0x110000, .alloc 0x10fff0 100 112],
    [⟨0x10fff0, 100, 112⟩], _, ?_, rfl, ?_, ?_⟩
  · refine .cons (.alloc (c := ⟨0x110000, 140000, 140016⟩) ?_) <|
      .cons (.free (c := ⟨0x110000, 140000, 140016⟩) (by decide) (by decide)) <|
      .cons (.alloc (c := ⟨0x10fff0, 100, 112⟩) ?_) .nil
    all_goals constructor <;> simp [Chunk.disjoint]
  · exact ⟨⟨0x10fff0, 100, 112⟩, by decide, 0x110008, by decide, by decide, by decide⟩
  · exact ⟨0x110008, 0x110000, by decide, by decide⟩

/-- C10's side condition that requests are non-empty is needed: indexing a zero-byte chunk at a
1024-aligned address at the end of the bitmap writes outside the bitmap. -/
theorem zero_request_out_of_bounds :
    run (fresh 0x100000) [.alloc 0x100000 0 24] = none := by decide

/-- C53 fails: an address beyond the end of every live chunk is attributed to the chunk below. -/
theorem gap_query_fails :
    ∃ (es : List Ev) (L : List Chunk) (s : St) (mem q : Nat),
      History false 0x100000 0x200000 [] es L ∧ run (fresh 0x100000) es = some s ∧
      (∀ c ∈ L, mem < c.start ∨ c.start + c.usable ≤ mem) ∧ query s false mem = .found q := by
  refine ⟨[.alloc 0x100010 16 24], [⟨0x100010, 16, 24⟩], _, 0x100200, 0x100010, ?_, rfl, ?_, ?_⟩
  · refine .cons (.alloc (c := ⟨0x100010, 16, 24⟩) ?_) .nil
    constructor <;> simp
  · decide
  · decide

/-- C53 (partial): an address below every live chunk is never answered. -/
theorem gap_query_partial {lo hi : Nat} {es : List Ev} {L : List Chunk}
    (hlo : 2 ^ 18 ≤ lo) (hsz : hi ≤ lo + 2 ^ 36 - 1024) (hhi : hi < 2 ^ 64)
    (h : History false lo hi [] es L) :
    ∃ s, run (fresh lo) es = some s ∧
      ∀ ndebug mem, lo ≤ mem → mem < hi → (∀ c ∈ L, mem < c.start) →
        ∀ q, query s ndebug mem ≠ .found q := by
  obtain ⟨s, hs, hq⟩ := only_live_found_partial hlo hsz hhi h
  refine ⟨s, hs, ?_⟩
  intro ndebug mem h1 h2 h3 q h4
  obtain ⟨c, hc, h5, h6⟩ := hq ndebug mem q h1 h2 h4
  have := h3 c hc
  omega

end Liballocs.MallocIndex
