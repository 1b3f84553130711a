import Verif.Model.DwarfMachine
/-!
# Compiled DWARF expressions: the stack, and what programs compute

The specification is the machine of the DWARF standard: a program counter in bytes and a flat stack of values.
-/
namespace Liballocs.DwarfMachine

/-! ## The stack -/

/-- The values on a stack, from the top. -/
def flat : List Sec → List Int
  | [] => []
  | s :: prev => s.words.drop s.nspare ++ flat prev

/-- Indexing the chain of sections is indexing the values. -/
theorem get_eq : ∀ (st : List Sec) (k : Nat), get st k = (flat st)[k]?
  | [], k => by simp [get, flat]
  | s :: prev, k => by
    simp only [get, flat]
    by_cases h : k < s.words.length - s.nspare
    · rw [if_pos h, List.getElem?_append_left (by simpa using h), List.getElem?_drop]
    · rw [if_neg h, get_eq prev, List.getElem?_append_right (by simpa using h)]
      simp

theorem flat_len (s : Sec) (prev : List Sec) : (flat (s :: prev)).length = (s.words.length - s.nspare) + (flat prev).length := by
  simp [flat]

/-- Assigning is assigning to the value, and fails exactly beyond the end. -/
theorem put_eq : ∀ (st : List Sec) (k : Nat) (v : Int),
    (k < (flat st).length → ∃ st', put st k v = some st' ∧ flat st' = (flat st).set k v) ∧ ((flat st).length ≤ k → put st k v = none)
  | [], k, v => by simp [put, flat]
  | s :: prev, k, v => by
    rw [flat_len]
    by_cases h : k < s.words.length - s.nspare
    · refine ⟨fun _ => ⟨_, by rw [put, if_pos h], ?_⟩, fun hk => by omega⟩
      show ((s.words.set (s.nspare + k) v).drop s.nspare ++ flat prev) = (s.words.drop s.nspare ++ flat prev).set k v
      rw [List.set_append_left _ _ (by simpa using h), List.drop_set, if_neg (by omega)]
      simp
    · have ih := put_eq prev (k - (s.words.length - s.nspare)) v
      refine ⟨fun hk => ?_, fun hk => ?_⟩
      · obtain ⟨st', h1, h2⟩ := ih.1 (by omega)
        refine ⟨s :: st', by rw [put, if_neg h, h1]; rfl, ?_⟩
        show (s.words.drop s.nspare ++ flat st') = (s.words.drop s.nspare ++ flat prev).set k v
        rw [h2, List.set_append_right _ _ (by simpa using h)]
        simp
      · rw [put, if_neg h, ih.2 (by omega)]; rfl

/-- Dropping drops values, across sections, and fails exactly if there are too few. -/
theorem drop_eq : ∀ (st : List Sec), st ≠ [] → ∀ (n : Nat),
    (n ≤ (flat st).length → ∃ st', drop st n = some st' ∧ flat st' = (flat st).drop n) ∧ ((flat st).length < n → drop st n = none)
  | [], h, _ => absurd rfl h
  | s :: prev, _, n => by
    rw [flat_len]
    by_cases h : n - min (s.words.length - s.nspare) n > 0
    · have hm : min (s.words.length - s.nspare) n = s.words.length - s.nspare := by omega
      cases prev with
      | nil =>
        refine ⟨fun hk => by simp [flat] at hk; omega, fun _ => by simp only [drop]; rw [if_pos h]⟩
      | cons t rest =>
        have ih := drop_eq (t :: rest) (by simp) (n - min (s.words.length - s.nspare) n)
        rw [hm] at ih h
        refine ⟨fun hk => ?_, fun hk => ?_⟩
        · obtain ⟨st', h1, h2⟩ := ih.1 (by omega)
          refine ⟨_, by rw [drop, hm, if_pos h]; rw [h1]; rfl, ?_⟩
          show (s.words.drop (s.nspare + (s.words.length - s.nspare)) ++ flat st') = (s.words.drop s.nspare ++ flat (t :: rest)).drop n
          rw [h2, List.drop_eq_nil_of_le (by omega), List.nil_append, List.drop_append,
            List.drop_eq_nil_of_le (as := s.words.drop s.nspare) (by simp; omega)]
          simp
        · rw [drop, hm, if_pos h]; rw [ih.2 (by omega)]; rfl
    · have hm : min (s.words.length - s.nspare) n = n := by omega
      refine ⟨fun _ => ⟨{ s with nspare := s.nspare + n } :: prev, by simp only [drop]; rw [if_neg h, hm], ?_⟩, fun hk => by omega⟩
      show (s.words.drop (s.nspare + n) ++ flat prev) = (s.words.drop s.nspare ++ flat prev).drop n
      have h0 : n - (s.words.drop s.nspare).length = 0 := by simp; omega
      rw [List.drop_append, List.drop_drop, h0, List.drop_zero]

theorem drop_ne {st st' : List Sec} {n : Nat} (h : drop st n = some st') : st' ≠ [] := by
  cases st with
  | nil => simp [drop] at h
  | cons s prev =>
    simp only [drop] at h
    split at h
    · cases prev with
      | nil => simp at h
      | cons t r =>
        simp only at h
        cases hp : drop (t :: r) (n - min (s.words.length - s.nspare) n) with
        | none => rw [hp] at h; simp at h
        | some x => rw [hp] at h; simp at h; rw [← h]; simp
    · simp at h; rw [← h]; simp

/-! ## The machine of the standard -/

/-- A length in bytes. -/
def bytes (p : List Instr) : Nat := (p.map (·.len)).sum

/-- Instruction `i` begins at byte `pc`. -/
def At (p : List Instr) (pc : Int) (i : Instr) : Prop := ∃ pre suf : List Instr, p = pre ++ i :: suf ∧ (bytes pre : Int) = pc

/-- What the standard says an instruction at `pc` does to a stack, except that where a jump lands is left open. -/
inductive Effect (i : Instr) (land : Int → Int → Prop) (pc : Int) : List Int → Int × List Int → Prop
  | dup {x s} : i.op = .dup → Effect i land pc (x :: s) (pc + i.len, x :: x :: s)
  | nop {s} : i.op = .nop → Effect i land pc s (pc + i.len, s)
  | lit2 {s} : i.op = .lit2 → Effect i land pc s (pc + i.len, 2 :: s)
  | plus {x y s} : i.op = .plus → -2 ^ 63 ≤ y + x → y + x < 2 ^ 63 → Effect i land pc (x :: y :: s) (pc + i.len, (y + x) :: s)
  | mul {x y s} : i.op = .mul → -2 ^ 63 ≤ y * x → y * x < 2 ^ 63 → Effect i land pc (x :: y :: s) (pc + i.len, (y * x) :: s)
  | mod {x y s} : i.op = .mod → x ≠ 0 → -2 ^ 63 ≤ y.tdiv x → y.tdiv x < 2 ^ 63 →
      Effect i land pc (x :: y :: s) (pc + i.len, y.tmod x :: s)
  | stay {s} : i.op = .bra → Effect i land pc (0 :: s) (pc + i.len, s)
  | jump {x s pc'} : i.op = .bra → x ≠ 0 → land (pc + i.len + i.arg) pc' → Effect i land pc (x :: s) (pc', s)

/-- A step of the machine. -/
def Step (p : List Instr) (land : Int → Int → Prop) (a b : Int × List Int) : Prop := ∃ i : Instr, At p a.1 i ∧ Effect i land a.1 a.2 b

/-- A number of steps. -/
inductive Run (p : List Instr) (land : Int → Int → Prop) : Nat → Int × List Int → Int × List Int → Prop
  | nil {a} : Run p land 0 a a
  | cons {n a b c} : Step p land a b → Run p land n b c → Run p land (n + 1) a c

/-- What a program computes from a stack, in so many steps: the value on top on coming to the end. -/
def Computes (p : List Instr) (land : Int → Int → Prop) (args : List Int) (n : Nat) (v : Int) : Prop :=
  ∃ s : List Int, Run p land n (0, args) (bytes p, v :: s)

/-- In the standard, a jump lands where the branch says. -/
def Exactly (a b : Int) : Prop := b = a

/-- In the code, it lands after the instruction there, if not at the end. -/
def Skips (p : List Instr) (a b : Int) : Prop := (a = bytes p ∧ b = a) ∨ ∃ j : Instr, At p a j ∧ b = a + j.len

/-- Instructions take up space. -/
def Positive (p : List Instr) : Prop := ∀ i ∈ p, 0 < i.len

/-! ## Positions -/

theorem bytes_cons (i : Instr) (p : List Instr) : bytes (i :: p) = i.len + bytes p := by simp [bytes]

theorem bytes_append (p q : List Instr) : bytes (p ++ q) = bytes p + bytes q := by simp [bytes]

theorem bytes_snoc (p : List Instr) (i : Instr) : bytes (p ++ [i]) = bytes p + i.len := by simp [bytes]

theorem byteLength_eq : ∀ p : List Instr, byteLength p = bytes p
  | [] => rfl
  | i :: p => by rw [byteLength, bytes_cons, byteLength_eq p]

theorem Positive.tail {i : Instr} {p : List Instr} (h : Positive (i :: p)) : Positive p := fun j hj => h j (List.mem_cons_of_mem _ hj)

/-- A position splits a program in one way. -/
theorem split_unique : ∀ {p q r s : List Instr}, p ++ q = r ++ s → bytes p = bytes r → Positive (p ++ q) → p = r ∧ q = s
  | [], q, [], s, h, _, _ => ⟨rfl, h⟩
  | [], q, j :: r, s, h, hb, hp => by
    have hj := hp j (by rw [h]; simp)
    rw [bytes_cons] at hb
    simp [bytes] at hb
    omega
  | i :: p, q, [], s, h, hb, hp => by
    have hi := hp i (by simp)
    rw [bytes_cons] at hb
    simp [bytes] at hb
    omega
  | i :: p, q, j :: r, s, h, hb, hp => by
    simp only [List.cons_append, List.cons.injEq] at h
    obtain ⟨h1, h2⟩ := h
    rw [bytes_cons, bytes_cons, h1] at hb
    obtain ⟨h3, h4⟩ := split_unique h2 (by omega) (Positive.tail hp)
    exact ⟨by rw [h1, h3], h4⟩

theorem At.unique {p : List Instr} (hp : Positive p) {pc : Int} {i j : Instr} (hi : At p pc i) (hj : At p pc j) : i = j := by
  obtain ⟨a, b, h1, h2⟩ := hi
  obtain ⟨c, d, h3, h4⟩ := hj
  have h5 := split_unique (h1.symm.trans h3) (by omega) (h1 ▸ hp)
  have h6 := h5.2
  simp at h6
  exact h6.1

theorem At.lt {p : List Instr} (hp : Positive p) {pc : Int} {i : Instr} (hi : At p pc i) : pc < bytes p := by
  obtain ⟨a, b, h1, h2⟩ := hi
  have hl := hp i (by rw [h1]; simp)
  rw [h1, bytes_append, bytes_cons]
  omega

/-- Seeking finds an instruction boundary, and gives what follows the instruction there. -/
theorem gobbleTail_iff : ∀ (p : List Instr), Positive p → ∀ (n : Nat) (r : List Instr),
    gobbleTail n p = some r ↔ (n = bytes p ∧ r = []) ∨ ∃ (pre : List Instr) (j : Instr), p = pre ++ j :: r ∧ bytes pre = n
  | [], _, 0, r => by
    simp only [gobbleTail, Option.some.injEq]
    refine ⟨fun h => Or.inl ⟨rfl, h.symm⟩, fun h => ?_⟩
    rcases h with h | ⟨a, b, h, _⟩
    · exact h.2.symm
    · simp at h
  | [], _, n + 1, r => by
    simp only [gobbleTail, reduceCtorEq, false_iff]
    rintro (h | ⟨a, b, h, _⟩)
    · simp [bytes] at h
    · simp at h
  | i :: q, hp, 0, r => by
    simp only [gobbleTail, Option.some.injEq]
    have hi := hp i (by simp)
    refine ⟨fun h => Or.inr ⟨[], i, by rw [h]; rfl, rfl⟩, fun h => ?_⟩
    rcases h with h | ⟨a, b, h, h2⟩
    · rw [bytes_cons] at h; omega
    · have h3 := split_unique (p := []) (r := a) h (by rw [h2]; rfl) hp
      have h4 := h3.2
      simp at h4
      exact h4.2
  | i :: q, hp, n + 1, r => by
    simp only [gobbleTail]
    by_cases hl : i.len ≤ n + 1
    · rw [if_pos hl, gobbleTail_iff q hp.tail (n + 1 - i.len) r, bytes_cons]
      constructor
      · rintro (h | ⟨a, b, h, h2⟩)
        · exact Or.inl ⟨by omega, h.2⟩
        · exact Or.inr ⟨i :: a, b, by rw [h]; rfl, by rw [bytes_cons]; omega⟩
      · rintro (h | ⟨a, b, h, h2⟩)
        · exact Or.inl ⟨by omega, h.2⟩
        · cases a with
          | nil => simp [bytes] at h2
          | cons x a =>
            simp only [List.cons_append, List.cons.injEq] at h
            rw [bytes_cons, ← h.1] at h2
            exact Or.inr ⟨a, b, h.2, by omega⟩
    · rw [if_neg hl]
      simp only [reduceCtorEq, false_iff]
      rintro (h | ⟨a, b, h, h2⟩)
      · rw [bytes_cons] at h; omega
      · cases a with
        | nil => simp [bytes] at h2
        | cons x a =>
          simp only [List.cons_append, List.cons.injEq] at h
          rw [bytes_cons, ← h.1] at h2
          omega

/-- Where the code goes on after a jump. -/
theorem target_iff {p pre r : List Instr} {i : Instr} (hp : Positive p) (h : p = pre ++ i :: r) (r' : List Instr) :
    target p i r = some r' ↔ ∃ pre' : List Instr, p = pre' ++ r' ∧ Skips p ((bytes pre : Int) + i.len + i.arg) (bytes pre') := by
  have hb : (byteLength p : Int) - byteLength (i :: r) = bytes pre := by
    rw [byteLength_eq, byteLength_eq]
    have : bytes p = bytes pre + bytes (i :: r) := by rw [← bytes_append, ← h]
    omega
  unfold target
  rw [hb]
  by_cases hn : (bytes pre : Int) + i.len + i.arg < 0
  · rw [if_pos hn]
    simp only [reduceCtorEq, false_iff]
    rintro ⟨pre', _, h1⟩
    rcases h1 with h1 | ⟨j, ⟨c, d, _, h2⟩, _⟩ <;> omega
  · rw [if_neg hn, gobbleTail_iff p hp]
    constructor
    · rintro (⟨h1, h2⟩ | ⟨a, j, h1, h2⟩)
      · exact ⟨p, by rw [h2, List.append_nil], Or.inl ⟨by omega, by omega⟩⟩
      · refine ⟨a ++ [j], by rw [h1]; simp, Or.inr ⟨j, ⟨a, r', h1, by omega⟩, ?_⟩⟩
        rw [bytes_snoc]
        omega
    · rintro ⟨pre', h1, h2 | ⟨j, ⟨a, d, h2, h3⟩, h4⟩⟩
      · have h3 : bytes p = bytes pre' := by omega
        have h4 := split_unique (p := p) (q := []) (r := pre') (by rw [List.append_nil]; exact h1) h3 (by rw [List.append_nil]; exact hp)
        exact Or.inl ⟨by omega, h4.2.symm⟩
      · have h5 : bytes (a ++ [j]) = bytes pre' := by
          rw [bytes_snoc]
          omega
        have h6 := split_unique (p := a ++ [j]) (q := d) (r := pre') (s := r') (by rw [← h1, h2]; simp) h5 (by
          rw [List.append_assoc]; exact h2 ▸ hp)
        exact Or.inr ⟨a, j, by rw [h2, h6.2], by omega⟩

theorem Skips.unique {p : List Instr} (hp : Positive p) {a b c : Int} (h1 : Skips p a b) (h2 : Skips p a c) : b = c := by
  rcases h1 with h1 | ⟨i, h1, h3⟩
  · rcases h2 with h2 | ⟨j, h2, h4⟩
    · omega
    · have := h2.lt hp; omega
  · rcases h2 with h2 | ⟨j, h2, h4⟩
    · have := h1.lt hp; omega
    · rw [h3, h4, h1.unique hp h2]

/-- There is at most one successor. -/
theorem Step.unique {p : List Instr} (hp : Positive p) {land : Int → Int → Prop} (hu : ∀ a b c, land a b → land a c → b = c)
    {a b c : Int × List Int} (h1 : Step p land a b) (h2 : Step p land a c) : b = c := by
  obtain ⟨i, hi, e1⟩ := h1
  obtain ⟨j, hj, e2⟩ := h2
  have hij := hi.unique hp hj
  subst hij
  obtain ⟨pc, s⟩ := a
  simp only at e1 e2
  cases e1 <;> cases e2 <;> (try simp_all) <;> (try grind)

/-- Nothing happens at the end. -/
theorem end_stuck {p : List Instr} (hp : Positive p) {land : Int → Int → Prop} {s : List Int} {b : Int × List Int} :
    ¬ Step p land (bytes p, s) b := by
  rintro ⟨i, hi, _⟩
  have := hi.lt hp
  simp only at this
  omega

/-! ## The code -/

theorem fits_iff (v : Int) : fits v = true ↔ -2 ^ 63 ≤ v ∧ v < 2 ^ 63 := by simp [fits]

theorem init_flat (args : List Int) : flat (init args) = args := by simp [init, flat]

theorem push_flat (v : Int) (st : List Sec) : flat (push v st) = v :: flat st := by simp [push, flat]

/-- What the binary operations do to the values. -/
theorem binary_ok {op : Op} {st st' : List Sec} (hne : st ≠ []) (h : binary op st = .ok st') :
    st' ≠ [] ∧ ∃ (x y v : Int) (s : List Int), flat st = x :: y :: s ∧ arith op y x = some v ∧ flat st' = v :: s := by
  unfold binary at h
  rw [get_eq, get_eq] at h
  match hf : flat st with
  | [] => rw [hf] at h; simp at h
  | [x] => rw [hf] at h; simp at h
  | x :: y :: s =>
    rw [hf] at h
    simp only [List.getElem?_cons_succ, List.getElem?_cons_zero] at h
    match ha : arith op y x with
    | none => rw [ha] at h; simp at h
    | some v =>
      rw [ha] at h
      simp only at h
      obtain ⟨s1, h1, h2⟩ := (put_eq st 1 v).1 (by rw [hf]; simp)
      rw [h1] at h
      simp only at h
      have hn1 : s1 ≠ [] := by
        intro h0
        rw [h0, hf] at h2
        simp [flat] at h2
      obtain ⟨s2, h3, h4⟩ := (drop_eq s1 hn1 1).1 (by rw [h2, hf]; simp)
      rw [h3] at h
      simp only [Except.ok.injEq] at h
      subst h
      refine ⟨drop_ne h3, x, y, v, s, rfl, ha, ?_⟩
      rw [h4, h2, hf]
      simp

theorem binary_error {op : Op} {st : List Sec} {e : Out} (hne : st ≠ []) (h : binary op st = .error e) :
    (e = .crash ∨ e = .ub) ∧ ∀ (x y : Int) (s : List Int), flat st = x :: y :: s → arith op y x = none := by
  unfold binary at h
  rw [get_eq, get_eq] at h
  match hf : flat st with
  | [] => rw [hf] at h; simp at h; exact ⟨Or.inl h.symm, fun x y s h => by simp at h⟩
  | [x] => rw [hf] at h; simp at h; exact ⟨Or.inl h.symm, fun x y s h => by simp at h⟩
  | x :: y :: s =>
    rw [hf] at h
    simp only [List.getElem?_cons_succ, List.getElem?_cons_zero] at h
    match ha : arith op y x with
    | none =>
      rw [ha] at h
      simp at h
      refine ⟨Or.inr h.symm, fun x' y' s' h' => ?_⟩
      simp at h'
      rw [← h'.1, ← h'.2.1]
      exact ha
    | some v =>
      rw [ha] at h
      simp only at h
      obtain ⟨s1, h1, h2⟩ := (put_eq st 1 v).1 (by rw [hf]; simp)
      rw [h1] at h
      simp only at h
      have hn1 : s1 ≠ [] := by
        intro h0
        rw [h0, hf] at h2
        simp [flat] at h2
      obtain ⟨s2, h3, h4⟩ := (drop_eq s1 hn1 1).1 (by rw [h2, hf]; simp)
      rw [h3] at h
      simp at h

/-- The code's branch. -/
theorem branch_spec {p pre r : List Instr} {i : Instr} (hp : Positive p) (h : p = pre ++ i :: r) (hop : i.op = .bra)
    (ht : (target p i r).isSome) {st : List Sec} (hne : st ≠ []) :
    (∃ (r' pre' : List Instr) (st' : List Sec), branch p i r st = .ok (r', st') ∧ p = pre' ++ r' ∧ st' ≠ [] ∧
      Effect i (Skips p) (bytes pre) (flat st) (bytes pre', flat st')) ∨
    (branch p i r st = .error .crash ∧ flat st = []) := by
  unfold branch
  rw [get_eq]
  match hf : flat st with
  | [] => exact Or.inr ⟨rfl, rfl⟩
  | x :: s =>
    left
    simp only [List.getElem?_cons_zero]
    obtain ⟨st', h1, h2⟩ := (drop_eq st hne 1).1 (by rw [hf]; simp)
    rw [h1]
    simp only
    rw [hf] at h2
    simp at h2
    by_cases hx : x = 0
    · subst hx
      refine ⟨r, pre ++ [i], st', by simp, by rw [h]; simp, drop_ne h1, ?_⟩
      rw [h2, bytes_snoc]
      exact Effect.stay hop
    · obtain ⟨r', hr⟩ := Option.isSome_iff_exists.mp ht
      rw [hr]
      obtain ⟨pre', h3, h4⟩ := (target_iff hp h r').mp hr
      refine ⟨r', pre', st', by simp [hx], h3, drop_ne h1, ?_⟩
      rw [h2]
      exact Effect.jump hop hx h4

/-- The code does what the standard says, except where a jump lands. -/
theorem step_ok {p pre r r' : List Instr} {i : Instr} {st st' : List Sec} (hp : Positive p) (h : p = pre ++ i :: r)
    (ht : i.op = .bra → (target p i r).isSome) (hne : st ≠ []) (hs : step p i r st = .ok (r', st')) :
    ∃ pre' : List Instr, p = pre' ++ r' ∧ st' ≠ [] ∧ Effect i (Skips p) (bytes pre) (flat st) (bytes pre', flat st') := by
  have hnext : p = (pre ++ [i]) ++ r := by rw [h]; simp
  have hb := bytes_snoc pre i
  unfold step at hs
  match hop : i.op with
  | .bra =>
    rw [hop] at hs
    simp only at hs
    rcases branch_spec hp h hop (ht hop) hne with ⟨r1, pre1, st1, h1, h2, h3, h4⟩ | ⟨h1, _⟩
    · rw [h1] at hs
      simp only [Except.ok.injEq, Prod.mk.injEq] at hs
      obtain ⟨e1, e2⟩ := hs
      subst e1 e2
      exact ⟨pre1, h2, h3, h4⟩
    · rw [h1] at hs; simp at hs
  | .dup =>
    rw [hop] at hs
    simp only at hs
    rw [get_eq] at hs
    match hf : flat st with
    | [] => rw [hf] at hs; simp at hs
    | x :: s =>
      rw [hf] at hs
      simp at hs
      obtain ⟨e1, e2⟩ := hs
      subst e1 e2
      refine ⟨pre ++ [i], hnext, by simp [push], ?_⟩
      rw [push_flat, hf, hb]
      exact Effect.dup hop
  | .nop =>
    rw [hop] at hs
    simp at hs
    obtain ⟨e1, e2⟩ := hs
    subst e1 e2
    refine ⟨pre ++ [i], hnext, hne, ?_⟩
    rw [hb]
    exact Effect.nop hop
  | .lit2 =>
    rw [hop] at hs
    simp at hs
    obtain ⟨e1, e2⟩ := hs
    subst e1 e2
    refine ⟨pre ++ [i], hnext, by simp [push], ?_⟩
    rw [push_flat, hb]
    exact Effect.lit2 hop
  | .other => rw [hop] at hs; simp at hs
  | .plus =>
    rw [hop] at hs
    simp only at hs
    match hbin : binary .plus st with
    | .error e => rw [hbin] at hs; simp at hs
    | .ok s2 =>
      rw [hbin] at hs
      simp at hs
      obtain ⟨e1, e2⟩ := hs
      subst e1 e2
      obtain ⟨h1, x, y, v, s, h2, h3, h4⟩ := binary_ok hne hbin
      refine ⟨pre ++ [i], hnext, h1, ?_⟩
      rw [h2, h4, hb]
      simp only [arith] at h3
      split at h3
      · rename_i hfit
        simp only [Option.some.injEq] at h3
        rw [← h3]
        have := (fits_iff _).mp hfit
        exact Effect.plus hop this.1 this.2
      · simp at h3
  | .mul =>
    rw [hop] at hs
    simp only at hs
    match hbin : binary .mul st with
    | .error e => rw [hbin] at hs; simp at hs
    | .ok s2 =>
      rw [hbin] at hs
      simp at hs
      obtain ⟨e1, e2⟩ := hs
      subst e1 e2
      obtain ⟨h1, x, y, v, s, h2, h3, h4⟩ := binary_ok hne hbin
      refine ⟨pre ++ [i], hnext, h1, ?_⟩
      rw [h2, h4, hb]
      simp only [arith] at h3
      split at h3
      · rename_i hfit
        simp only [Option.some.injEq] at h3
        rw [← h3]
        have := (fits_iff _).mp hfit
        exact Effect.mul hop this.1 this.2
      · simp at h3
  | .mod =>
    rw [hop] at hs
    simp only at hs
    match hbin : binary .mod st with
    | .error e => rw [hbin] at hs; simp at hs
    | .ok s2 =>
      rw [hbin] at hs
      simp at hs
      obtain ⟨e1, e2⟩ := hs
      subst e1 e2
      obtain ⟨h1, x, y, v, s, h2, h3, h4⟩ := binary_ok hne hbin
      refine ⟨pre ++ [i], hnext, h1, ?_⟩
      rw [h2, h4, hb]
      simp only [arith] at h3
      split at h3
      · rename_i hfit
        simp only [Option.some.injEq] at h3
        rw [← h3]
        have := (fits_iff _).mp hfit.2
        exact Effect.mod hop hfit.1 this.1 this.2
      · simp at h3

/-- The code fails only where the standard gives no meaning. -/
theorem step_error {p pre r : List Instr} {i : Instr} {st : List Sec} {e : Out} (hp : Positive p) (h : p = pre ++ i :: r)
    (hno : i.op ≠ .other) (ht : i.op = .bra → (target p i r).isSome) (hne : st ≠ []) (hs : step p i r st = .error e) :
    (e = .crash ∨ e = .ub) ∧ ∀ (land : Int → Int → Prop) (b : Int × List Int), ¬ Effect i land (bytes pre) (flat st) b := by
  unfold step at hs
  match hop : i.op with
  | .bra =>
    rw [hop] at hs
    simp only at hs
    rcases branch_spec hp h hop (ht hop) hne with ⟨r1, pre1, st1, h1, h2, h3, h4⟩ | ⟨h1, h2⟩
    · rw [h1] at hs; simp at hs
    · rw [h1] at hs
      simp at hs
      refine ⟨Or.inl hs.symm, fun land b hb => ?_⟩
      rw [h2] at hb
      cases hb <;> simp_all
  | .dup =>
    rw [hop] at hs
    simp only at hs
    rw [get_eq] at hs
    match hf : flat st with
    | [] =>
      rw [hf] at hs
      simp at hs
      refine ⟨Or.inl hs.symm, fun land b hb => ?_⟩
      cases hb <;> simp_all
    | x :: s => rw [hf] at hs; simp at hs
  | .nop => rw [hop] at hs; simp at hs
  | .lit2 => rw [hop] at hs; simp at hs
  | .other => exact absurd hop hno
  | .plus =>
    rw [hop] at hs
    simp only at hs
    match hbin : binary .plus st with
    | .ok s2 => rw [hbin] at hs; simp at hs
    | .error e' =>
      rw [hbin] at hs
      simp at hs
      subst hs
      obtain ⟨h1, h2⟩ := binary_error hne hbin
      refine ⟨h1, fun land b hb => ?_⟩
      generalize hg : flat st = fs at hb
      cases hb <;> simp_all
      have h3 := h2
      simp only [arith] at h3
      rw [if_pos ((fits_iff _).mpr ⟨by assumption, by assumption⟩)] at h3
      simp at h3
  | .mul =>
    rw [hop] at hs
    simp only at hs
    match hbin : binary .mul st with
    | .ok s2 => rw [hbin] at hs; simp at hs
    | .error e' =>
      rw [hbin] at hs
      simp at hs
      subst hs
      obtain ⟨h1, h2⟩ := binary_error hne hbin
      refine ⟨h1, fun land b hb => ?_⟩
      generalize hg : flat st = fs at hb
      cases hb <;> simp_all
      have h3 := h2
      simp only [arith] at h3
      rw [if_pos ((fits_iff _).mpr ⟨by assumption, by assumption⟩)] at h3
      simp at h3
  | .mod =>
    rw [hop] at hs
    simp only at hs
    match hbin : binary .mod st with
    | .ok s2 => rw [hbin] at hs; simp at hs
    | .error e' =>
      rw [hbin] at hs
      simp at hs
      subst hs
      obtain ⟨h1, h2⟩ := binary_error hne hbin
      refine ⟨h1, fun land b hb => ?_⟩
      generalize hg : flat st = fs at hb
      cases hb <;> simp_all
      have h3 := h2
      simp only [arith] at h3
      rw [if_pos ⟨by assumption, (fits_iff _).mpr ⟨by assumption, by assumption⟩⟩] at h3
      simp at h3

theorem compiles_suffix {w : List Instr} : ∀ {pre r : List Instr}, compiles w (pre ++ r) = true → compiles w r = true
  | [], _, h => h
  | i :: pre, r, h => by
    simp only [List.cons_append, compiles, Bool.and_eq_true] at h
    exact compiles_suffix h.2

theorem compiles_head {w r : List Instr} {i : Instr} (h : compiles w (i :: r) = true) :
    i.op ≠ .other ∧ (i.op = .bra → (target w i r).isSome) := by
  simp only [compiles, Bool.and_eq_true, Bool.or_eq_true, decide_eq_true_eq] at h
  refine ⟨h.1.1, fun hb => ?_⟩
  rcases h.1.2 with h1 | h1
  · exact absurd hb h1
  · exact h1

theorem Run.stop {p : List Instr} (hp : Positive p) {land : Int → Int → Prop} {n : Nat} {s : List Int} {b : Int × List Int}
    (h : Run p land n (bytes p, s) b) : n = 0 ∧ b = ((bytes p : Int), s) := by
  cases h with
  | nil => exact ⟨rfl, rfl⟩
  | cons hs _ => exact absurd hs (end_stuck hp)

/-- An evaluation gives a value exactly if the machine whose jumps skip an instruction comes to the end with it on top. -/
theorem eval_iff {p : List Instr} (hp : Positive p) (hc : compiles p p = true) (v : Int) :
    ∀ (fuel : Nat) (r pre : List Instr) (st : List Sec), p = pre ++ r → st ≠ [] →
      (eval p fuel r st = .ret v ↔ ∃ m : Nat, m ≤ fuel ∧ ∃ s : List Int, Run p (Skips p) m (bytes pre, flat st) (bytes p, v :: s))
  | fuel, [], pre, st, h, hne => by
    have hpre : pre = p := by rw [h]; simp
    subst hpre
    have he : eval pre fuel [] st = finish st := by cases fuel <;> rfl
    rw [he]
    unfold finish
    rw [get_eq]
    constructor
    · intro h1
      match hf : flat st with
      | [] => rw [hf] at h1; simp at h1
      | x :: s =>
        rw [hf] at h1
        simp at h1
        subst h1
        exact ⟨0, by omega, s, Run.nil⟩
    · rintro ⟨m, _, s, hr⟩
      have h2 := (Run.stop hp hr).2
      have h3 : v :: s = flat st := congrArg Prod.snd h2
      rw [← h3]
      simp
  | 0, i :: r, pre, st, h, hne => by
    simp only [eval, reduceCtorEq, false_iff]
    rintro ⟨m, hm, s, hr⟩
    have h0 : m = 0 := by omega
    subst h0
    have hi := hp i (by rw [h]; simp)
    generalize hb : ((bytes p : Int), v :: s) = b at hr
    cases hr
    simp only [Prod.mk.injEq] at hb
    have h1 := hb.1
    rw [h, bytes_append, bytes_cons] at h1
    omega
  | fuel + 1, i :: r, pre, st, h, hne => by
    have hsuf := compiles_suffix (h ▸ hc : compiles p (pre ++ i :: r) = true)
    obtain ⟨hno, ht⟩ := compiles_head hsuf
    have hat : At p (bytes pre) i := ⟨pre, r, h, rfl⟩
    rw [eval]
    match hs : step p i r st with
    | .error e =>
      obtain ⟨he, hst⟩ := step_error hp h hno ht hne hs
      simp only
      constructor
      · intro h1; rcases he with h2 | h2 <;> rw [h2] at h1 <;> simp at h1
      · rintro ⟨m, _, s, hr⟩
        have hi := hp i (by rw [h]; simp)
        generalize hb : ((bytes p : Int), v :: s) = b at hr
        cases hr with
        | nil =>
          simp only [Prod.mk.injEq] at hb
          have h1 := hb.1
          rw [h, bytes_append, bytes_cons] at h1
          omega
        | cons hstep _ =>
          obtain ⟨j, hj, hef⟩ := hstep
          have hij := hat.unique hp hj
          subst hij
          exact absurd hef (hst _ _)
    | .ok (r', st') =>
      obtain ⟨pre', h1, h2, h3⟩ := step_ok hp h ht hne hs
      have hone : Step p (Skips p) (bytes pre, flat st) (bytes pre', flat st') := ⟨i, hat, h3⟩
      simp only
      rw [eval_iff hp hc v fuel r' pre' st' h1 h2]
      constructor
      · rintro ⟨m, hm, s, hr⟩
        exact ⟨m + 1, by omega, s, Run.cons hone hr⟩
      · rintro ⟨m, hm, s, hr⟩
        have hi := hp i (by rw [h]; simp)
        generalize hb : ((bytes p : Int), v :: s) = b at hr
        cases hr with
        | nil =>
          simp only [Prod.mk.injEq] at hb
          have h1 := hb.1
          rw [h, bytes_append, bytes_cons] at h1
          omega
        | @cons m' _ c _ hstep hrest =>
          have hcc := Step.unique (land := Skips p) hp (fun _ _ _ g1 g2 => Skips.unique hp g1 g2) hone hstep
          subst hcc
          subst hb
          exact ⟨m', by omega, s, hrest⟩

/-- What an invocation gives: the code is the standard's machine, but for jumps, which skip the instruction that they go to. -/
theorem invoke_iff {p : List Instr} (hp : Positive p) (hc : compiles p p = true) (args : List Int) (n : Nat) (v : Int) :
    invoke p args n = .ret v ↔ ∃ m : Nat, m ≤ n ∧ Computes p (Skips p) args m v := by
  unfold invoke
  rw [if_pos hc, eval_iff hp hc v n p [] (init args) rfl (by simp [init]), init_flat]
  rfl

/-- Whether every branch goes to the end or to an instruction that does nothing. -/
def Harmless (p : List Instr) : Prop :=
  ∀ (pc : Int) (i : Instr), At p pc i → i.op = .bra →
    pc + i.len + i.arg = bytes p ∨ ∃ j : Instr, At p (pc + i.len + i.arg) j ∧ j.op = .nop

/-- A run of the code is one of the standard's machine. -/
theorem run_exact {p : List Instr} (hp : Positive p) (hh : Harmless p) : ∀ {m : Nat} {a b : Int × List Int}, Run p (Skips p) m a b →
    ∃ m' : Nat, m ≤ m' ∧ m' ≤ 2 * m ∧ Run p Exactly m' a b
  | 0, _, _, .nil => ⟨0, by omega, by omega, .nil⟩
  | m + 1, a, b, .cons (b := c) ⟨i, hat, hef⟩ hr => by
    obtain ⟨m', h1, h2, h3⟩ := run_exact hp hh hr
    have keep : Effect i Exactly a.1 a.2 c → ∃ m' : Nat, m + 1 ≤ m' ∧ m' ≤ 2 * (m + 1) ∧ Run p Exactly m' a b := fun he =>
      ⟨m' + 1, by omega, by omega, .cons ⟨i, hat, he⟩ h3⟩
    generalize hs : a.2 = s at hef keep
    cases hef with
    | dup h => exact keep (.dup h)
    | nop h => exact keep (.nop h)
    | lit2 h => exact keep (.lit2 h)
    | plus h k l => exact keep (.plus h k l)
    | mul h k l => exact keep (.mul h k l)
    | mod h k l o => exact keep (.mod h k l o)
    | stay h => exact keep (.stay h)
    | @jump x s' pc' h k l =>
      rcases l with ⟨l1, l2⟩ | ⟨j, l1, l2⟩
      · exact keep (.jump h k l2)
      · rcases hh _ _ hat h with h4 | ⟨j', h4, h5⟩
        · have := l1.lt hp; omega
        · have hj := l1.unique hp h4
          subst hj
          refine ⟨m' + 2, by omega, by omega, ?_⟩
          have hjump : Effect i Exactly a.1 (x :: s') (a.1 + i.len + i.arg, s') := .jump h k rfl
          refine .cons (b := (a.1 + i.len + i.arg, s')) ⟨i, hat, hs ▸ hjump⟩ ?_
          refine .cons (b := (pc', s')) ⟨j, l1, ?_⟩ h3
          show Effect j Exactly (a.1 + i.len + i.arg) s' (pc', s')
          rw [l2]
          exact .nop h5

/-- A run of the standard's machine that comes to the end is one of the code. -/
theorem run_skips {p : List Instr} (hp : Positive p) (hh : Harmless p) (s : List Int) : ∀ {n m : Nat} {a : Int × List Int}, m ≤ n →
    Run p Exactly m a (bytes p, s) → ∃ m' : Nat, m' ≤ m ∧ Run p (Skips p) m' a (bytes p, s)
  | _, 0, _, _, .nil => ⟨0, by omega, .nil⟩
  | n + 1, m + 1, a, hn, .cons (b := c) ⟨i, hat, hef⟩ hr => by
    have keep : Effect i (Skips p) a.1 a.2 c → ∃ m' : Nat, m' ≤ m + 1 ∧ Run p (Skips p) m' a (bytes p, s) := fun he => by
      obtain ⟨m', h1, h2⟩ := run_skips hp hh s (n := n) (by omega) hr
      exact ⟨m' + 1, by omega, .cons ⟨i, hat, he⟩ h2⟩
    generalize hs : a.2 = t at hef keep
    cases hef with
    | dup h => exact keep (.dup h)
    | nop h => exact keep (.nop h)
    | lit2 h => exact keep (.lit2 h)
    | plus h k l => exact keep (.plus h k l)
    | mul h k l => exact keep (.mul h k l)
    | mod h k l o => exact keep (.mod h k l o)
    | stay h => exact keep (.stay h)
    | @jump x s' pc' h k l =>
      have l' : pc' = a.1 + i.len + i.arg := l
      rcases hh _ _ hat h with h4 | ⟨j, h4, h5⟩
      · exact keep (.jump h k (Or.inl ⟨h4, l'⟩))
      · -- the next step is the one that does nothing
        cases m with
        | zero =>
          generalize hb : ((bytes p : Int), s) = b at hr
          cases hr
          simp only [Prod.mk.injEq] at hb
          have := h4.lt hp
          omega
        | succ m =>
          cases hr with
          | @cons _ _ c' _ hstep hrest =>
            obtain ⟨j', hj', hef'⟩ := hstep
            simp only at hj' hef'
            rw [l'] at hj' hef'
            have hjj := h4.unique hp hj'
            subst hjj
            have hc : c' = (a.1 + i.len + i.arg + j.len, s') := by
              cases hef' <;> simp_all
            subst hc
            obtain ⟨m', h6, h7⟩ := run_skips hp hh s (n := n) (by omega) hrest
            refine ⟨m' + 1, by omega, .cons (b := (a.1 + i.len + i.arg + j.len, s')) ⟨i, hat, ?_⟩ h7⟩
            rw [hs]
            exact .jump h k (Or.inr ⟨j, h4, rfl⟩)

/-- If branches go only to the end or to no-ops, an invocation gives what the standard says. -/
theorem invoke_partial {p : List Instr} (hp : Positive p) (hc : compiles p p = true) (hh : Harmless p) (args : List Int) (v : Int) :
    (∃ n : Nat, invoke p args n = .ret v) ↔ ∃ n : Nat, Computes p Exactly args n v := by
  constructor
  · rintro ⟨n, h⟩
    obtain ⟨m, _, s, hr⟩ := (invoke_iff hp hc args n v).mp h
    obtain ⟨m', _, _, h3⟩ := run_exact hp hh hr
    exact ⟨m', s, h3⟩
  · rintro ⟨n, s, hr⟩
    obtain ⟨m', _, h2⟩ := run_skips hp hh _ (Nat.le_refl n) hr
    exact ⟨m', (invoke_iff hp hc args m' v).mpr ⟨m', by omega, s, h2⟩⟩

/-- Straight-line programs need no fuel but their length, and give what the standard says. -/
theorem straight_partial {p : List Instr} (hp : Positive p) (hc : compiles p p = true) (hb : ∀ i ∈ p, i.op ≠ .bra) (args : List Int) (v : Int) :
    (∃ n : Nat, invoke p args n = .ret v) ↔ ∃ n : Nat, Computes p Exactly args n v :=
  invoke_partial hp hc (fun _ i hat hi => by
    obtain ⟨pre, suf, h1, _⟩ := hat
    exact absurd hi (hb i (by rw [h1]; simp))) args v

/-! ## Jumps -/

def one (op : Op) (arg : Int) : Instr := ⟨op, arg, 1⟩

/-- Test whether the top is zero; if not, add 2 to what is below, and otherwise add 2 twice: the branch skips the first `lit2`, `plus`. -/
def adder : List Instr := [one .bra 2, one .lit2 0, one .plus 0, one .lit2 0, one .plus 0]

theorem Run.step {p : List Instr} {land : Int → Int → Prop} {n : Nat} (pre : List Instr) (i : Instr) (suf : List Instr) {s : List Int}
    {b c : Int × List Int} (h : p = pre ++ i :: suf) (he : Effect i land (bytes pre) s b) (hr : Run p land n b c) :
    Run p land (n + 1) (bytes pre, s) c := Run.cons ⟨i, ⟨pre, suf, h, rfl⟩, he⟩ hr

/-- Disagreement: a taken branch skips the instruction that it goes to.  From 1, 5, 7 the standard's machine gives 7 for `adder`; the code pushes no 2 and
adds 5 to 7. -/
theorem branch_fails : (∃ n : Nat, Computes adder Exactly [1, 5, 7] n 7) ∧ (∀ n : Nat, 2 ≤ n → invoke adder [1, 5, 7] n = .ret 12) := by
  refine ⟨⟨3, [7], ?_⟩, ?_⟩
  · refine Run.step [] (one .bra 2) _ rfl (.jump (pc' := 3) rfl (by decide) rfl) ?_
    refine Run.step [one .bra 2, one .lit2 0, one .plus 0] (one .lit2 0) _ rfl (.lit2 rfl) ?_
    refine Run.step [one .bra 2, one .lit2 0, one .plus 0, one .lit2 0] (one .plus 0) _ rfl (.plus rfl (by decide) (by decide)) ?_
    exact Run.nil
  · intro n hn
    obtain ⟨k, rfl⟩ : ∃ k, n = k + 2 := ⟨n - 2, by omega⟩
    cases k <;> rfl

/-- The unused run-time dispatch goes by numbers of instructions: it finds the instruction at a byte if all before it take one byte. -/
theorem runTime_partial : ∀ (pre suf : List Instr), (∀ i ∈ pre, i.len = 1) → runTimeTarget (pre ++ suf) (bytes pre) = suf
  | [], _, _ => by simp [runTimeTarget, bytes, dropInstrs]
  | i :: pre, suf, h => by
    have h1 := h i (by simp)
    rw [bytes_cons, h1, Nat.add_comm]
    simp only [runTimeTarget, List.cons_append, dropInstrs]
    exact runTime_partial pre suf (fun j hj => h j (by simp [hj]))

/-- And otherwise not. -/
theorem runTime_fails : ∃ pre suf : List Instr, runTimeTarget (pre ++ suf) (bytes pre) ≠ suf :=
  ⟨[⟨.bra, 0, 3⟩], [one .nop 0], by decide⟩

/-! ## Failures -/

/-- What stops the machine: neither at the end nor able to go on, or at the end with an empty stack. -/
def Stuck (p : List Instr) (a : Int × List Int) : Prop :=
  (a.1 ≠ bytes p ∧ ∀ b : Int × List Int, ¬ Step p (Skips p) a b) ∨ (a.1 = bytes p ∧ a.2 = [])

/-- An evaluation that fails has come to a state in which the machine is stuck. -/
theorem eval_stuck {p : List Instr} (hp : Positive p) (hc : compiles p p = true) :
    ∀ (fuel : Nat) (r pre : List Instr) (st : List Sec), p = pre ++ r → st ≠ [] →
      (eval p fuel r st = .crash ∨ eval p fuel r st = .ub ↔
        ∃ m : Nat, m ≤ fuel ∧ ∃ a : Int × List Int,
          Run p (Skips p) m (bytes pre, flat st) a ∧ Stuck p a ∧ (m < fuel ∨ a.1 = bytes p))
  | fuel, [], pre, st, h, hne => by
    have hpre : pre = p := by rw [h]; simp
    subst hpre
    have he : eval pre fuel [] st = finish st := by cases fuel <;> rfl
    rw [he]
    unfold finish
    rw [get_eq]
    constructor
    · intro h1
      match hf : flat st with
      | [] => exact ⟨0, by omega, _, Run.nil, Or.inr ⟨rfl, rfl⟩, Or.inr rfl⟩
      | x :: s =>
        rw [hf] at h1
        simp at h1
    · rintro ⟨m, _, a, hr, hst, _⟩
      have h2 := (Run.stop hp hr).2
      subst h2
      rcases hst with h3 | h3
      · exact absurd rfl h3.1
      · have h4 : flat st = [] := h3.2
        rw [h4]
        simp
  | 0, i :: r, pre, st, h, hne => by
    have hi := hp i (by rw [h]; simp)
    simp only [eval, reduceCtorEq, false_or, false_iff]
    rintro ⟨m, hm, a, hr, hst, h3⟩
    have h0 : m = 0 := by omega
    subst h0
    cases hr
    rcases h3 with h3 | h3
    · omega
    · rw [h, bytes_append, bytes_cons] at h3
      simp only at h3
      omega
  | fuel + 1, i :: r, pre, st, h, hne => by
    have hi := hp i (by rw [h]; simp)
    have hsuf := compiles_suffix (h ▸ hc : compiles p (pre ++ i :: r) = true)
    obtain ⟨hno, ht⟩ := compiles_head hsuf
    have hat : At p (bytes pre) i := ⟨pre, r, h, rfl⟩
    have hlt := hat.lt hp
    rw [eval]
    match hs : step p i r st with
    | .error e =>
      obtain ⟨he, hst⟩ := step_error hp h hno ht hne hs
      simp only
      constructor
      · intro _
        refine ⟨0, by omega, _, Run.nil, Or.inl ⟨by simp only; omega, ?_⟩, Or.inl (by omega)⟩
        rintro b ⟨j, hj, hef⟩
        have hij := hat.unique hp hj
        subst hij
        exact hst _ _ hef
      · intro _; rcases he with h2 | h2 <;> rw [h2] <;> simp
    | .ok (r', st') =>
      obtain ⟨pre', h1, h2, h3⟩ := step_ok hp h ht hne hs
      have hone : Step p (Skips p) (bytes pre, flat st) (bytes pre', flat st') := ⟨i, hat, h3⟩
      simp only
      rw [eval_stuck hp hc fuel r' pre' st' h1 h2]
      constructor
      · rintro ⟨m, hm, a, hr, hst, hend⟩
        exact ⟨m + 1, by omega, a, Run.cons hone hr, hst, by rcases hend with h | h; exact Or.inl (by omega); exact Or.inr h⟩
      · rintro ⟨m, hm, a, hr, hst, hend⟩
        cases hr with
        | nil =>
          rcases hst with h4 | h4
          · exact absurd hone (h4.2 _)
          · have h5 : (bytes pre : Int) = bytes p := h4.1
            omega
        | @cons m' _ c _ hstep hrest =>
          have hcc := Step.unique (land := Skips p) hp (fun _ _ _ g1 g2 => Skips.unique hp g1 g2) hone hstep
          subst hcc
          exact ⟨m', by omega, a, hrest, hst, by rcases hend with h | h; exact Or.inl (by omega); exact Or.inr h⟩

/-- An invocation fails in the end exactly if the machine gets stuck. -/
theorem fails_iff {p : List Instr} (hp : Positive p) (hc : compiles p p = true) (args : List Int) :
    (∃ n : Nat, invoke p args n = .crash ∨ invoke p args n = .ub) ↔
      ∃ (n : Nat) (a : Int × List Int), Run p (Skips p) n (0, args) a ∧ Stuck p a := by
  unfold invoke
  simp only [if_pos hc]
  have hi : ((bytes [] : Int), flat (init args)) = (0, args) := by rw [init_flat]; rfl
  constructor
  · rintro ⟨n, h⟩
    obtain ⟨m, _, a, hr, hst, _⟩ := (eval_stuck hp hc n p [] (init args) rfl (by simp [init])).mp h
    rw [hi] at hr
    exact ⟨m, a, hr, hst⟩
  · rintro ⟨n, a, hr, hst⟩
    refine ⟨n + 1, (eval_stuck hp hc (n + 1) p [] (init args) rfl (by simp [init])).mpr ⟨n, by omega, a, ?_, hst, Or.inl (by omega)⟩⟩
    rw [hi]
    exact hr

/-- The only other outcome of a program that compiles is that it is still running. -/
theorem outcomes {p : List Instr} (hp : Positive p) (hc : compiles p p = true) (args : List Int) (n : Nat) :
    invoke p args n ≠ .reject := by
  have key : ∀ (fuel : Nat) (r pre : List Instr) (st : List Sec), p = pre ++ r → st ≠ [] → eval p fuel r st ≠ .reject := by
    intro fuel
    induction fuel with
    | zero =>
      intro r pre st h _
      cases r with
      | nil => simp only [eval, finish]; cases get st 0 <;> simp
      | cons i r => simp [eval]
    | succ fuel ih =>
      intro r pre st h hne
      cases r with
      | nil => simp only [eval, finish]; cases get st 0 <;> simp
      | cons i r =>
        obtain ⟨hno, ht⟩ := compiles_head (compiles_suffix (h ▸ hc : compiles p (pre ++ i :: r) = true))
        rw [eval]
        match hs : step p i r st with
        | .error e =>
          have he := (step_error hp h hno ht hne hs).1
          rcases he with h2 | h2 <;> rw [h2] <;> simp
        | .ok (r', st') =>
          obtain ⟨pre', h1, h2, _⟩ := step_ok hp h ht hne hs
          exact ih r' pre' st' h1 h2
  unfold invoke
  rw [if_pos hc]
  exact key n p [] _ rfl (by simp [init])

/-! ## Examples: the programs of the self-test -/

/-- An odd argument, or twice an even one. -/
def oddOrTwice : List Instr := [one .dup 0, one .lit2 0, one .mod 0, one .bra 2, one .lit2 0, one .mul 0]

/-- A branch over a `nop`. -/
def overNop : List Instr := [one .lit2 0, one .lit2 0, one .bra 1, one .nop 0, one .lit2 0]

example : invoke [one .lit2 0] [] 1 = .ret 2 := by decide +kernel
example : invoke [one .plus 0] [20, 22] 1 = .ret 42 := by decide +kernel
example : invoke oddOrTwice [7] 6 = .ret 7 ∧ invoke oddOrTwice [8] 6 = .ret 16 := by decide +kernel
example : invoke overNop [] 5 = .ret 2 := by decide +kernel
example : invoke [one .plus 0] [1] 1 = .crash ∧ invoke [one .mod 0] [0, 1] 1 = .ub ∧ invoke [one .bra 5] [1] 1 = .reject := by decide +kernel
example : invoke [one .dup 0, one .bra (-2)] [1] 100 = .crash ∧ invoke [one .dup 0, one .dup 0, one .bra (-3)] [1] 100 = .more := by decide +kernel
example : get (push 3 (init [4, 5])) 2 = some 5 ∧ (drop (push 3 (init [4, 5])) 2).map flat = some [5] := by decide +kernel

/-- `oddOrTwice` meets the condition of `invoke_partial`. -/
example : Harmless oddOrTwice := by
  rintro pc i ⟨pre, suf, h1, h2⟩ hop
  have hb : bytes oddOrTwice = 6 := by decide
  unfold oddOrTwice at h1
  rcases pre with _ | ⟨a, _ | ⟨b, _ | ⟨c, _ | ⟨d, _ | ⟨e, _ | ⟨f, _ | ⟨g, pre⟩⟩⟩⟩⟩⟩⟩
  all_goals simp [one] at h1
  all_goals simp [bytes] at h2
  all_goals grind

end Liballocs.DwarfMachine
