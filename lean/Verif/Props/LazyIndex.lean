import Verif.Model.LazyIndex
/-!
# C68 The lazily mapped index behaves like an array of zeros that is stored to
-/
namespace Liballocs.LazyIndex

/-! ## Specification -/

/-- What reads of an array give, the array being as `f` at first. -/
def reads : (Nat → Nat) → List Access → List Nat
  | _, [] => []
  | f, .load a :: xs => f a :: reads f xs
  | f, .store a v :: xs => 0 :: reads (fun x => if x = a then v else f x) xs

/-- What the array holds at the end. -/
def final : (Nat → Nat) → List Access → Nat → Nat
  | f, [] => f
  | f, .load _ :: xs => final f xs
  | f, .store a v :: xs => final (fun x => if x = a then v else f x) xs

/-- In the region. -/
def In (r : Region) (a : Nat) : Prop := r.begin ≤ a ∧ a < r.begin + r.size

/-- The state stands for an array `f` on the region, by pieces: each piece is backed or not as a whole. -/
structure Stands (r : Region) (u : Nat) (s : State) (f : Nat → Nat) : Prop where
  handler : s.handler = true
  cell : ∀ a, In r a → s.mem a = .data (f a) ∨ (s.mem a = .lazy ∧ f a = 0)
  piece : ∀ a b, In r a → In r b → a / u = b / u → s.mem a = .lazy → s.mem b = .lazy

/-! ## Proofs -/

theorem find_one {r : Region} {a : Nat} (h : In r a) : find [r] a = some r := by
  simp [find, List.find?, h.1, h.2]

theorem base_eq {r : Region} {u a : Nat} (hb : r.begin % u = 0) (h : In r a) : pieceBegin r u a = a / u * u := by
  unfold pieceBegin roundDown
  have h1 : r.begin = r.begin / u * u := (Nat.div_mul_cancel (Nat.dvd_of_mod_eq_zero hb)).symm
  have h2 : r.begin / u ≤ a / u := Nat.div_le_div_right h.1
  have h3 := Nat.mul_le_mul_right u h2
  exact Nat.max_eq_right (by omega)

theorem in_piece {u a x : Nat} (hu : 0 < u) : (a / u * u ≤ x ∧ x < a / u * u + u) ↔ x / u = a / u := by
  have h1 := Nat.div_add_mod a u
  constructor
  · rintro ⟨h2, h3⟩
    apply Nat.le_antisymm
    · exact Nat.lt_succ_iff.mp ((Nat.div_lt_iff_lt_mul hu).mpr (by rw [Nat.succ_mul]; exact h3))
    · exact (Nat.le_div_iff_mul_le hu).mpr h2
  · intro h
    rw [← h]
    have := Nat.div_add_mod x u
    have := Nat.mod_lt x hu
    rw [Nat.mul_comm u] at *
    omega

theorem piece_inside {r : Region} {u a x : Nat} (hu : 0 < u) (hb : r.begin % u = 0) (hs : r.size % u = 0) (h : In r a) (hx : x / u = a / u) : In r x := by
  obtain ⟨k, hk⟩ := Nat.dvd_of_mod_eq_zero hb
  obtain ⟨m, hm⟩ := Nat.dvd_of_mod_eq_zero hs
  obtain ⟨h1, h2⟩ := h
  have h3 : k ≤ a / u := (Nat.le_div_iff_mul_le hu).mpr (by rw [Nat.mul_comm]; omega)
  have h4 : a / u < k + m := (Nat.div_lt_iff_lt_mul hu).mpr (by rw [Nat.add_mul, Nat.mul_comm k, Nat.mul_comm m]; omega)
  have h5 : k * u ≤ x := (Nat.le_div_iff_mul_le hu).mp (by omega)
  have h6 : x < (k + m) * u := (Nat.div_lt_iff_lt_mul hu).mp (by omega)
  rw [Nat.add_mul, Nat.mul_comm k, Nat.mul_comm m] at h6
  rw [Nat.mul_comm k] at h5
  exact ⟨by omega, by omega⟩

theorem touch_spec {r : Region} {u : Nat} (hu : 0 < u) (hb : r.begin % u = 0) (hs : r.size % u = 0) {s : State} {f : Nat → Nat}
    (h : Stands r u s f) {a : Nat} (ha : In r a) :
    ∃ s', touch [r] u s a = some s' ∧ Stands r u s' f ∧ s'.mem a = .data (f a) ∧ ∀ x, ¬ In r x → s'.mem x = s.mem x := by
  unfold touch
  cases hm : s.mem a with
  | data v =>
    refine ⟨s, rfl, h, ?_, fun _ _ => rfl⟩
    rcases h.cell a ha with e | ⟨e, _⟩
    · exact e
    · rw [e] at hm; cases hm
  | lazy =>
    simp only [h.handler, if_true]
    have hh : handle [r] u s a = { s with mem := mapAnon s.mem (a / u * u) u } := by
      unfold handle
      rw [find_one ha]
      simp only [base_eq hb ha]
    have hmem : ∀ x, (handle [r] u s a).mem x = if x / u = a / u then .data 0 else s.mem x := by
      intro x
      rw [hh]
      show mapAnon s.mem (a / u * u) u x = _
      unfold mapAnon
      simp only [in_piece hu]
    have hz : f a = 0 := by
      rcases h.cell a ha with e | ⟨_, e⟩
      · rw [e] at hm; cases hm
      · exact e
    have ha' : (handle [r] u s a).mem a = .data 0 := by rw [hmem, if_pos rfl]
    rw [ha']
    refine ⟨_, rfl, ⟨?_, ?_, ?_⟩, by rw [ha', hz], ?_⟩
    · rw [hh]; exact h.handler
    · intro x hx
      rw [hmem]
      split
      · rename_i he
        left
        have hl := h.piece a x ha hx he.symm hm
        rcases h.cell x hx with e | ⟨_, e⟩
        · rw [e] at hl; cases hl
        · rw [e]
      · exact h.cell x hx
    · intro x y hx hy hxy hlz
      rw [hmem] at hlz ⊢
      by_cases he : x / u = a / u
      · rw [if_pos he] at hlz; cases hlz
      · rw [if_neg he] at hlz
        rw [if_neg (by omega)]
        exact h.piece x y hx hy hxy hlz
    · intro x hx
      rw [hmem, if_neg]
      intro he
      exact hx (piece_inside hu hb hs ha he)

theorem store_stands {r : Region} {u : Nat} {s : State} {f : Nat → Nat} (h : Stands r u s f) {a v : Nat}
    (hd : s.mem a = .data (f a)) :
    Stands r u { s with mem := fun x => if x = a then .data v else s.mem x } (fun x => if x = a then v else f x) := by
  refine ⟨h.handler, ?_, ?_⟩
  · intro x hx
    show (if x = a then Cell.data v else s.mem x) = _ ∨ (if x = a then Cell.data v else s.mem x) = _ ∧ _
    by_cases he : x = a
    · simp [he]
    · simp only [he, if_false]; exact h.cell x hx
  · intro x y hx hy hxy hl
    simp only at hl ⊢
    by_cases he : x = a
    · rw [if_pos he] at hl; cases hl
    · rw [if_neg he] at hl
      have hy' := h.piece x y hx hy hxy hl
      by_cases he' : y = a
      · rw [he', hd] at hy'; cases hy'
      · rw [if_neg he']; exact hy'

theorem run_stands {r : Region} {u : Nat} (hu : 0 < u) (hb : r.begin % u = 0) (hs : r.size % u = 0) : ∀ (xs : List Access) (s : State) (f : Nat → Nat),
    Stands r u s f → (∀ x ∈ xs, In r x.addr) →
    ∃ s', run [r] u s xs = some (s', reads f xs) ∧ Stands r u s' (final f xs) ∧ ∀ x, ¬ In r x → s'.mem x = s.mem x := by
  intro xs
  induction xs with
  | nil => intro s f h _; exact ⟨s, rfl, h, fun _ _ => rfl⟩
  | cons x xs ih =>
    intro s f h hin
    have hx := hin x (List.mem_cons_self ..)
    have hrest : ∀ y ∈ xs, In r y.addr := fun y hy => hin y (List.mem_cons_of_mem _ hy)
    cases x with
    | load a =>
      obtain ⟨s1, e, h1, h2, h3⟩ := touch_spec hu hb hs h (a := a) hx
      obtain ⟨s', e', h4, h5⟩ := ih s1 f h1 hrest
      refine ⟨s', ?_, h4, fun y hy => (h5 y hy).trans (h3 y hy)⟩
      rw [run]
      simp only [access, e, Option.bind_some, h2, contents, Option.map_some]
      rw [e']
      rfl
    | store a v =>
      obtain ⟨s1, e, h1, h2, h3⟩ := touch_spec hu hb hs h (a := a) hx
      have hxa : In r a := hx
      obtain ⟨s', e', h4, h5⟩ := ih _ _ (store_stands h1 (a := a) (v := v) h2) hrest
      refine ⟨s', ?_, h4, ?_⟩
      · rw [run]
        simp only [access, e, Option.map_some]
        rw [e']
        rfl
      · intro y hy
        rw [h5 y hy]
        show (if y = a then _ else _) = _
        rw [if_neg (fun he : y = a => hy (he ▸ hxa)), h3 y hy]

/-! ## The property -/

/-- Any history of loads and stores in a region that begins and ends on piece boundaries, at first wholly unbacked: every access
succeeds, every load gives what was last stored there, or zero, and memory outside the region is untouched. -/
theorem lazy_region {r : Region} {u : Nat} (hu : 0 < u) (hb : r.begin % u = 0) (hs : r.size % u = 0) (s : State) (hh : s.handler = true)
    (h0 : ∀ a, In r a → s.mem a = .lazy) (xs : List Access) (hin : ∀ x ∈ xs, In r x.addr) :
    ∃ s', run [r] u s xs = some (s', reads (fun _ => 0) xs) ∧ ∀ x, ¬ In r x → s'.mem x = s.mem x := by
  obtain ⟨s', e, _, h⟩ := run_stands hu hb hs xs s (fun _ => 0)
    ⟨hh, fun a ha => Or.inr ⟨h0 a ha, rfl⟩, fun a b _ hb _ _ => h0 b hb⟩ hin
  exact ⟨s', e, h⟩

/-- The region of the index itself: the entry of every user page can be loaded and stored. -/
theorem index_array (s : State) (hh : s.handler = true) (h0 : ∀ q, q < 2 ^ 35 → s.mem (0x410000000000 + 2 * q) = .lazy)
    (h1 : ∀ q, q < 2 ^ 35 → s.mem (0x410000000000 + 2 * q + 1) = .lazy)
    (xs : List Access) (hin : ∀ x ∈ xs, ∃ q, q < 2 ^ 35 ∧ x.addr = 0x410000000000 + 2 * q) :
    ∃ s', run regions UNIT s xs = some (s', reads (fun _ => 0) xs) ∧
      ∀ x, x < 0x410000000000 ∨ 0x411000000000 ≤ x → s'.mem x = s.mem x := by
  have hr : ∀ a, In ⟨0x410000000000, 2 * (2 ^ 47 / 4096)⟩ a ↔ (0x410000000000 ≤ a ∧ a < 0x411000000000) := by
    intro a; unfold In; simp only
  obtain ⟨s', e, h⟩ := lazy_region (r := ⟨0x410000000000, 2 * (2 ^ 47 / 4096)⟩) (u := UNIT) (by decide) (by decide +kernel) (by decide +kernel) s hh
    (fun a ha => by
      have := (hr a).mp ha
      rcases Nat.mod_two_eq_zero_or_one a with hm | hm
      · have := h0 ((a - 0x410000000000) / 2) (by omega)
        rwa [show 0x410000000000 + 2 * ((a - 0x410000000000) / 2) = a by omega] at this
      · have := h1 ((a - 0x410000000000) / 2) (by omega)
        rwa [show 0x410000000000 + 2 * ((a - 0x410000000000) / 2) + 1 = a by omega] at this)
    xs (fun x hx => by
      obtain ⟨q, h1, h2⟩ := hin x hx
      rw [hr]
      omega)
  exact ⟨s', e, fun x hx => h x (fun hc => by have := (hr x).mp hc; omega)⟩

/-- A fault elsewhere disables the handler, and the access is not retried into the library again. -/
theorem other_fault (rs : List Region) (u : Nat) (s : State) (addr : Nat) (h : ∀ r ∈ rs, ¬ In r addr) :
    handle rs u s addr = { s with handler := false } := by
  unfold handle
  have : find rs addr = none := by
    rw [find, List.find?_eq_none]
    intro r hr
    have := h r hr
    unfold In at this
    simp only [Bool.and_eq_true, decide_eq_true_eq]
    exact this
  rw [this]

/-! ## Concrete cases and what goes wrong -/

/-- Memory that is unbacked in `[0x1000, 0x3000)` and holds 7 elsewhere. -/
def exState (lo hi : Nat) : State := ⟨fun a => if lo ≤ a ∧ a < hi then .lazy else .data 7, true⟩

example : (run [⟨0x1000, 0x2000⟩] 0x1000 (exState 0x1000 0x3000)
    [.load 0x1800, .store 0x1800 5, .store 0x2fff 6, .load 0x1800, .load 0x2fff, .load 0x1801]).map (·.2) = some [0, 0, 0, 5, 6, 0] := by decide +kernel

/-- After a fault outside the region, which disables the handler, the index can no longer grow: the next first touch of
a piece ends the program. -/
theorem other_fault_fails :
    (run [⟨0x1000, 0x2000⟩] 0x1000 (handle [⟨0x1000, 0x2000⟩] 0x1000 (exState 0x1000 0x3000) 0x5000) [.load 0x1800]).isNone = true := by
  decide +kernel

/-- Were the region not to begin on a piece boundary, mapping the first piece would wipe out stores to the second. -/
theorem unaligned_begin_fails :
    (run [⟨0x1800, 0x1800⟩] 0x1000 (exState 0x1800 0x3000) [.store 0x2400 5, .load 0x2400, .load 0x1900, .load 0x2400]).map (·.2) =
      some [0, 5, 0, 0] := by decide +kernel

/-- Were it not to end on one, mapping the last piece would wipe out what is after it. -/
theorem unaligned_end_fails :
    (run [⟨0x1000, 0x1800⟩] 0x1000 (exState 0x1000 0x2800) [.load 0x2000]).map (fun r => r.1.mem 0x2900) = some (.data 0) := by decide +kernel

end Liballocs.LazyIndex
