import Verif.Model.TrapScan
/-! Properties of the trapping of code at start-up. -/
namespace Liballocs.TrapScan

/-! ## Reading the list -/

/-- What is read is the beginning of the list, and at most the buffer's size. -/
theorem fill_prefix : ∀ (ks : List (Option Nat)) (rest buf out : List Char), buf.length ≤ BUF → fill ks rest buf = some out →
    ∃ n, out = buf ++ rest.take n ∧ out.length ≤ BUF
  | [], rest, buf, out, hb, h => by
    simp only [fill] at h
    split at h
    · cases h
      exact ⟨0, by simp, hb⟩
    · cases h
  | k :: ks, rest, buf, out, hb, h => by
    simp only [fill] at h
    split at h
    · cases h
      exact ⟨0, by simp, hb⟩
    · rename_i hroom
      split at h
      · cases h
        exact ⟨0, by simp, hb⟩
      · rename_i k
        split at h
        · generalize hm : min k (min ASK rest.length) = m at h
          have hml : m ≤ rest.length := by omega
          obtain ⟨n, h1, h2⟩ := fill_prefix ks _ _ out (by
            rw [List.length_append, List.length_take]
            unfold ASK at *
            omega) h
          refine ⟨m + n, ?_, h2⟩
          rw [h1, List.append_assoc, List.take_add]
        · cases h
          exact ⟨0, by simp, hb⟩

/-- If no read fails and the list leaves room for one more read, the whole list is read, however the kernel splits it. -/
theorem fill_whole : ∀ (ks : List (Option Nat)) (rest buf : List Char), (∀ k ∈ ks, ∃ n, k = some n ∧ 0 < n) → rest.length < ks.length →
    buf.length + rest.length ≤ BUF - ASK → fill ks rest buf = some (buf ++ rest)
  | [], _, _, _, h, _ => by simp at h
  | k :: ks, rest, buf, hk, hlen, hfit => by
    obtain ⟨n, rfl, hn⟩ := hk k (by simp)
    simp only [fill]
    rw [if_neg (by unfold BUF ASK at *; omega)]
    split
    · rename_i hm
      generalize hmm : min n (min ASK rest.length) = m at *
      rw [fill_whole ks _ _ (fun k hk' => hk k (by simp [hk'])) (by rw [List.length_drop]; simp at hlen; omega)
        (by rw [List.length_append, List.length_take, List.length_drop]; omega), List.append_assoc, List.take_append_drop]
    · rename_i hm
      have : rest = [] := by
        apply List.eq_nil_of_length_eq_zero
        unfold ASK at hm
        omega
      rw [this, List.append_nil]

/-- If every read is full and there is more than the buffer holds, exactly the buffer's size is read, and no read is made after that. -/
theorem fill_cut (n : Nat) (rest buf : List Char) (hb : buf.length + n * ASK = BUF) (hr : n * ASK ≤ rest.length) :
    fill (List.replicate n (some ASK)) rest buf = some (buf ++ rest.take (n * ASK)) := by
  have hA : 0 < ASK := by decide
  have hB : ASK ≤ BUF := by decide
  generalize hn : n * ASK = t at hb hr ⊢
  induction n generalizing rest buf t with
  | zero =>
    have ht : t = 0 := by rw [← hn, Nat.zero_mul]
    simp only [List.replicate_zero, fill]
    rw [if_pos (by omega), ht]
    simp
  | succ n ih =>
    have ht : n * ASK = t - ASK ∧ ASK ≤ t := by
      rw [Nat.add_mul, Nat.one_mul] at hn
      omega
    have hm : min ASK (min ASK rest.length) = ASK := by omega
    simp only [List.replicate_succ, fill]
    rw [if_neg (by omega)]
    simp only [hm]
    rw [if_pos hA, ih _ _ (t - ASK) ht.1 (by rw [List.length_append, List.length_take]; omega) (by rw [List.length_drop]; omega),
      List.append_assoc, ← List.take_add, Nat.add_sub_cancel' ht.2]

/-! ## Specification -/

/-- The text of the list: each mapping's line, and a line end. -/
def textOf (line : Entry → List Char) (ms : List Entry) : List Char := (ms.map (fun m => line m ++ ['\n'])).flatten

/-- What should be rewritten: the executable mappings but the one that contains our own code. -/
def shouldTrap (self : Nat) (m : Entry) : Bool := m.x && !(decide (m.first ≤ self) && decide (self < m.second))

def asTrap (m : Entry) : Trap := ⟨m.first, m.second, m.name, m.w, m.r⟩

private theorem linesOf_line (l : List Char) (hl : '\n' ∉ l) (t cur : List Char) : linesOf (l ++ '\n' :: t) cur = (cur ++ l) :: linesOf t [] := by
  induction l generalizing cur with
  | nil => simp [linesOf]
  | cons ch l ih =>
    have h1 : ch ≠ '\n' := fun e => hl (by simp [e])
    rw [List.cons_append, linesOf, if_neg h1, ih (fun h => hl (by simp [h]))]
    simp

theorem linesOf_text (line : Entry → List Char) (hl : ∀ m, '\n' ∉ line m) (ms : List Entry) : linesOf (textOf line ms) [] = ms.map line := by
  induction ms with
  | nil => rfl
  | cons m ms ih =>
    have : textOf line (m :: ms) = line m ++ '\n' :: textOf line ms := by simp [textOf]
    rw [this, linesOf_line _ (hl m), ih]
    rfl

theorem walk_exact {parse : List Char → Option Entry} {line : Entry → List Char} (hp : ∀ m, parse (line m) = some m) (self : Nat) (ms : List Entry) :
    walk parse self (ms.map line) = (ms.filter (shouldTrap self)).map asTrap := by
  induction ms with
  | nil => rfl
  | cons m ms ih =>
    simp only [List.map_cons, walk, hp, ih]
    by_cases h : shouldTrap self m = true
    · have h' : m.x ∧ ¬ (m.first ≤ self ∧ m.second > self) := by
        simp only [shouldTrap, Bool.and_eq_true, Bool.not_eq_true', Bool.and_eq_false_iff, decide_eq_false_iff_not] at h
        refine ⟨h.1, ?_⟩
        rintro ⟨h1, h2⟩
        rcases h.2 with h3 | h3
        · exact h3 h1
        · exact h3 h2
      rw [List.filter_cons_of_pos h, maybeTrap, if_pos h']
      rfl
    · have h' : ¬ (m.x ∧ ¬ (m.first ≤ self ∧ m.second > self)) := by
        intro h'
        apply h
        simp only [shouldTrap, Bool.and_eq_true, Bool.not_eq_true', Bool.and_eq_false_iff, decide_eq_false_iff_not]
        refine ⟨h'.1, ?_⟩
        by_cases h3 : m.first ≤ self
        · exact Or.inr (fun h4 => h'.2 ⟨h3, h4⟩)
        · exact Or.inl h3
      rw [List.filter_cons_of_neg h, maybeTrap, if_neg h']
      rfl

/-! ## C135 -/

/-- The dynamic linker is known: it is the program itself, whose name resolves, or is on its own list, each name at its base resolving. -/
def LinkerKnown (E : Env) : Prop :=
  (E.base = some 0 ∧ (E.realpath E.execfn).isSome) ∨
  ∃ b, b ≠ 0 ∧ E.base = some b ∧ (∃ o ∈ E.objs, o.addr = b) ∧ ∀ o ∈ E.objs, o.addr = b → (E.realpath o.name).isSome

private theorem fold_last (realpath : List Char → Option (List Char)) (b : Nat) : ∀ (objs : List Obj) (acc : Option (List Char)),
    (∀ o ∈ objs, o.addr = b → (realpath o.name).isSome) → (acc.isSome ∨ ∃ o ∈ objs, o.addr = b) →
    (objs.foldl (fun acc o => if o.addr = b then realpath o.name else acc) acc).isSome
  | [], acc, _, h => by
    rcases h with h | ⟨o, ho, _⟩
    · exact h
    · cases ho
  | o :: objs, acc, hall, h => by
    simp only [List.foldl_cons]
    apply fold_last realpath b objs
    · intro p hp
      exact hall p (by simp [hp])
    · by_cases ho : o.addr = b
      · left
        rw [if_pos ho]
        exact hall o (by simp) ho
      · rw [if_neg ho]
        rcases h with h | ⟨p, hp, hpb⟩
        · exact Or.inl h
        · rcases List.mem_cons.1 hp with rfl | hp
          · exact absurd hpb ho
          · exact Or.inr ⟨p, hp, hpb⟩

theorem interp_known {E : Env} (h : LinkerKnown E) : (interp E.realpath E.execfn E.base E.objs).isSome := by
  rcases h with ⟨h1, h2⟩ | ⟨b, h0, h1, h2, h3⟩
  · simp only [interp, h1, if_true]
    exact h2
  · simp only [interp, h1]
    rw [if_neg h0]
    exact fold_last _ b _ _ h3 (Or.inr h2)

private theorem fold_none (realpath : List Char → Option (List Char)) (b : Nat) : ∀ (objs : List Obj), (∀ o ∈ objs, o.addr ≠ b) →
    ∀ acc, objs.foldl (fun acc o => if o.addr = b then realpath o.name else acc) acc = acc
  | [], _, _ => rfl
  | o :: objs, h, acc => by
    simp only [List.foldl_cons]
    rw [if_neg (h o (by simp))]
    exact fold_none realpath b objs (fun p hp => h p (by simp [hp])) acc

/-- **C135 (partial).** At start-up every executable mapping on the kernel's list but the one that contains the library's own code is
rewritten, once and in order, with its bounds and flags, and nothing else is. Partial: the list is at most 520192 characters long and no
read fails. -/
theorem init_exact_partial {E : Env} {line : Entry → List Char} (hp : ∀ m, E.parse (line m) = some m) (hl : ∀ m, '\n' ∉ line m)
    (hk : LinkerKnown E) {ks : List (Option Nat)} {ms : List Entry} (hks : ∀ k ∈ ks, ∃ n, k = some n ∧ 0 < n)
    (hlen : (textOf line ms).length < ks.length) (hfit : (textOf line ms).length ≤ 520192) {s : St} (hs : s.done = false) :
    ∃ s', init E true ks (textOf line ms) s = some s' ∧ s'.done = true ∧
      s'.traps = s.traps ++ (ms.filter (shouldTrap E.self)).map asTrap ∧
      ∀ c, c ∈ s'.replaced ↔ c = "mmap" ∨ c = "munmap" ∨ c = "mremap" ∨ c = "brk" ∨ c = "open" ∨ c = "openat" := by
  obtain ⟨nm, hnm⟩ := Option.isSome_iff_exists.1 (interp_known hk)
  refine ⟨⟨true, CALLS, s.traps ++ (ms.filter (shouldTrap E.self)).map asTrap⟩, ?_, rfl, rfl, ?_⟩
  · unfold init
    rw [hs, hnm]
    simp only [Bool.false_eq_true, if_false, Bool.not_true]
    rw [fill_whole ks _ [] hks hlen (by unfold BUF ASK; simp; omega)]
    simp only [List.nil_append]
    rw [linesOf_text line hl, walk_exact hp]
  · intro c
    simp [CALLS]

/-- A second call does nothing. -/
theorem init_again (E : Env) (fd : Bool) (ks : List (Option Nat)) (maps : List Char) {s : St} (hs : s.done = true) : init E fd ks maps s = some s := by
  unfold init
  rw [if_pos hs]

/-- If no object is listed at the dynamic linker's base, the program is stopped. -/
theorem init_unlisted (E : Env) (fd : Bool) (ks : List (Option Nat)) (maps : List Char) {s : St} (hs : s.done = false) {b : Nat} (h0 : b ≠ 0)
    (hb : E.base = some b) (hno : ∀ o ∈ E.objs, o.addr ≠ b) : init E fd ks maps s = none := by
  unfold init
  rw [hs]
  simp only [Bool.false_eq_true, if_false, interp, hb]
  rw [if_neg h0, fold_none _ _ _ hno]

/-- If the list cannot be opened, the program is stopped. -/
theorem init_unopened (E : Env) (ks : List (Option Nat)) (maps : List Char) {s : St} (hs : s.done = false) : init E false ks maps s = none := by
  unfold init
  rw [hs]
  simp only [Bool.false_eq_true, if_false, Bool.not_false, if_true]
  split <;> rfl

/-! ## Where it fails -/

/-- **C135 fails** for long lists: whatever follows the first 524288 characters has no influence at all on what is rewritten, so code listed
there goes untrapped; the flag is set all the same. -/
theorem long_list_fails (E : Env) (ks : List (Option Nat)) (a b b' : List Char) (ha : a.length = 524288) (s : St) :
    init E true ks (a ++ b) s = init E true ks (a ++ b') s := by
  have key : ∀ (ks : List (Option Nat)) (a buf : List Char), a.length + buf.length = BUF → fill ks (a ++ b) buf = fill ks (a ++ b') buf := by
    intro ks
    induction ks with
    | nil => intro a buf _; simp only [fill]
    | cons k ks ih =>
      intro a buf hl
      simp only [fill]
      split
      · rfl
      · rename_i hroom
        cases k with
        | none => rfl
        | some k =>
          simp only
          have hr : ∀ t : List Char, min k (min ASK (a ++ t).length) = min k ASK := by
            intro t
            rw [List.length_append]
            omega
          rw [hr b, hr b']
          have hle : min k ASK ≤ a.length := by omega
          rw [List.drop_append_of_le_length hle, List.drop_append_of_le_length hle, List.take_append_of_le_length hle,
            List.take_append_of_le_length hle]
          split
          · apply ih
            rw [List.length_drop, List.length_append, List.length_take]
            omega
          · rfl
  unfold init
  rw [key ks a [] (by rw [ha]; rfl)]

/-- **C135 fails** when a read fails: what was read so far is taken for the list, and no error is given. -/
theorem read_error_fails (E : Env) (hk : LinkerKnown E) (ks : List (Option Nat)) (maps : List Char) {s : St} (hs : s.done = false) :
    init E true (none :: ks) maps s = some ⟨true, CALLS, s.traps⟩ := by
  obtain ⟨nm, hnm⟩ := Option.isSome_iff_exists.1 (interp_known hk)
  unfold init
  rw [hs, hnm]
  simp only [Bool.false_eq_true, if_false, Bool.not_true, fill]
  rw [if_neg (by decide)]
  simp [linesOf, walk]

/-! ## A case -/

private def exParse : List Char → Option Entry
  | ['a'] => some ⟨0x1000, 0x2000, true, false, true, ['a']⟩
  | ['b'] => some ⟨0x2000, 0x3000, true, true, false, ['b']⟩
  | ['c'] => some ⟨0x3000, 0x4000, true, false, true, ['c']⟩
  | ['d'] => some ⟨0x4000, 0x5000, true, true, true, ['d']⟩
  | _ => none

private def exEnv : Env := ⟨some, ['p'], some 0x7000, [⟨0, ['p']⟩, ⟨0x7000, ['l']⟩], 0x3fff, exParse⟩

/-- Read three characters at a time: `c` holds our own code, `b` is not executable. -/
example : (init exEnv true [some 3, some 3, some 3, some 3] ['a', '\n', 'b', '\n', 'c', '\n', 'd', '\n'] ⟨false, [], []⟩).map St.traps =
    some [⟨0x1000, 0x2000, ['a'], false, true⟩, ⟨0x4000, 0x5000, ['d'], true, true⟩] := by decide

end Liballocs.TrapScan
