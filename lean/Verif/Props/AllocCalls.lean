import Verif.Model.AllocCalls
/-!
# Which calls allocate

Signatures say which functions allocate, and which of their arguments is the size.
-/
namespace Liballocs.AllocCalls
open CilTypes Sizeof

/-! ## Signatures -/

/-- A signature: a function's name, letters for its arguments and one for its result. -/
structure Signature where
  name : List Char
  letters : List Char
  result : List Char

/-- How it is written. -/
def Signature.text (s : Signature) : List Char := s.name ++ '(' :: (s.letters ++ ')' :: s.result)

/-- Names are identifiers, arguments letters, the result has no bracket. -/
structure Signature.Ok (s : Signature) : Prop where
  nonempty : s.name ≠ []
  name : ∀ c ∈ s.name, c ≠ '(' ∧ c ≠ ')' ∧ c ≠ '\\'
  letters : ∀ c ∈ s.letters, c ≠ '(' ∧ c ≠ ')' ∧ c ≠ '\\'
  result : ∀ c ∈ s.result, c ≠ ')'

theorem takeWhile_stop {p : Char → Bool} {a : List Char} {c : Char} {r : List Char} (ha : ∀ d ∈ a, p d = true) (hc : p c = false) : (a ++ c :: r).takeWhile p = a := by
  induction a with
  | nil => simp [hc]
  | cons d a ih =>
    rw [List.cons_append, List.takeWhile_cons_of_pos (ha d (by simp)), ih (fun e he => ha e (by simp [he]))]

theorem parse_text {s : Signature} (h : s.Ok) : parse s.text = some (some s.name, s.letters) := by
  have h1 : s.text.takeWhile (fun c => decide (c ≠ '(') && decide (c ≠ '\\')) = s.name :=
    takeWhile_stop (fun d hd => by have := h.name d hd; simp [this.1, this.2.2]) (by decide)
  unfold parse
  rw [h1]
  cases hn : s.name with
  | nil => exact absurd hn h.nonempty
  | cons c r =>
    simp only
    rw [← hn]
    have h2 : ¬ s.text.length < 1 + s.name.length := by simp only [Signature.text, List.length_append, List.length_cons]; omega
    have h3 : s.text.drop (1 + s.name.length) = s.letters ++ ')' :: s.result := by
      rw [Signature.text, Nat.add_comm, List.drop_append, List.drop_of_length_le (by omega)]
      simp
    rw [if_neg h2, h3, takeWhile_stop (fun d hd => by have := h.letters d hd; simp [this.2.1, this.2.2]) (by decide)]

theorem toLast_none : ∀ {r : List Char}, (∀ c ∈ r, c ≠ ')') → toLast r = none
  | [], _ => rfl
  | c :: r, h => by
    rw [toLast, toLast_none (r := r) (fun d hd => h d (by simp [hd]))]
    simp [h c (by simp)]

theorem toLast_append : ∀ (a : List Char) {r : List Char}, (∀ c ∈ r, c ≠ ')') → toLast (a ++ ')' :: r) = some (a ++ [')'])
  | [], r, h => by rw [List.nil_append, toLast, toLast_none h]; rfl
  | c :: a, r, h => by rw [List.cons_append, toLast, toLast_append a h]; rfl

theorem argSpec_text {s : Signature} (h : s.Ok) : argSpec s.text = '(' :: (s.letters ++ [')']) := by
  unfold Signature.text
  have : ∀ n : List Char, (∀ c ∈ n, c ≠ '(') → argSpec (n ++ '(' :: (s.letters ++ ')' :: s.result)) = '(' :: (s.letters ++ [')']) := by
    intro n
    induction n with
    | nil => intro _; rw [List.nil_append, argSpec, if_pos rfl, toLast_append _ h.result]
    | cons c n ih => intro hn; rw [List.cons_append, argSpec, if_neg (hn c (by simp)), ih (fun d hd => hn d (by simp [hd]))]
  exact this s.name (fun c hc => (h.name c hc).1)

/-- The first capital among the letters. -/
def FirstCapital (letters : List Char) (p : Nat) : Prop := ∃ c, letters[p]? = some c ∧ c.isUpper = true ∧ ∀ q, q < p → ∀ d, letters[q]? = some d → d.isUpper = false

theorem capital_spec : ∀ (l : List Char) (p : Nat), capital l = some p ↔ FirstCapital l p
  | [], p => by simp [capital, FirstCapital]
  | c :: s, p => by
    rw [capital]
    split
    · rename_i hc
      constructor
      · intro h; cases h; exact ⟨c, rfl, hc, fun q hq => by omega⟩
      · rintro ⟨d, h1, h2, h3⟩
        cases p with
        | zero => rfl
        | succ p =>
          have := h3 0 (by omega) c rfl
          rw [hc] at this
          cases this
    · rename_i hc
      cases p with
      | zero =>
        constructor
        · intro h
          cases hs : capital s with
          | none => rw [hs] at h; cases h
          | some q => rw [hs] at h; simp at h
        · rintro ⟨d, h1, h2, -⟩
          simp only [List.getElem?_cons_zero, Option.some.injEq] at h1
          subst h1
          exact absurd h2 hc
      | succ p =>
        have ih := capital_spec s p
        constructor
        · intro h
          cases hs : capital s with
          | none => rw [hs] at h; cases h
          | some q =>
            rw [hs] at h
            simp only [Option.map_some, Option.some.injEq, Nat.add_right_cancel_iff] at h
            subst h
            obtain ⟨d, h1, h2, h3⟩ := ih.mp hs
            refine ⟨d, by simpa using h1, h2, ?_⟩
            intro q' hq' e he
            cases q' with
            | zero =>
              simp only [List.getElem?_cons_zero, Option.some.injEq] at he
              subst he
              simpa using hc
            | succ q' => exact h3 q' (by omega) e (by simpa using he)
        · rintro ⟨d, h1, h2, h3⟩
          have : FirstCapital s p := ⟨d, by simpa using h1, h2, fun q hq e he => h3 (q + 1) (by omega) e (by simpa using he)⟩
          rw [ih.mpr this]
          rfl

theorem capital_none : ∀ (l : List Char), capital l = none ↔ ∀ c ∈ l, c.isUpper = false
  | [] => by simp [capital]
  | c :: s => by
    rw [capital]
    split
    · rename_i hc; simp [hc]
    · rename_i hc
      simp only [Option.map_eq_none_iff, capital_none s, List.mem_cons, forall_eq_or_imp]
      constructor
      · intro h; exact ⟨by simpa using hc, h⟩
      · exact fun h => h.2

theorem capital_last (l : List Char) : capital (l ++ [')']) = capital l := by
  induction l with
  | nil => decide
  | cons c l ih => rw [List.cons_append, capital, capital, ih]

theorem sizeArg_text {s : Signature} (h : s.Ok) : sizeArg s.text = capital s.letters := by
  unfold sizeArg
  rw [argSpec_text h, capital, if_neg (by decide), capital_last]
  cases capital s.letters <;> simp

/-- The size argument is the one with the first capital letter. -/
theorem sizeArg_spec {s : Signature} (h : s.Ok) (p : Nat) : sizeArg s.text = some p ↔ FirstCapital s.letters p := by
  rw [sizeArg_text h, capital_spec]

/-- A call of a function by name allocates just if the function has a signature with as many arguments, and then what the first such signature says. -/
theorem direct_spec {gs : Structs} {env : Env} {f : List Char} {args : List Ex} {ret : Option (Ty × Bool)} : ∀ {sigs : List Signature}, (∀ s ∈ sigs, s.Ok) →
    allocExpr gs env (some f) args ret (sigs.map Signature.text) =
      match sigs.find? (fun s => decide (s.name = f) && decide (s.letters.length = args.length)) with
      | none => some none
      | some s => (matchArgs gs env args s.text ret).map some
  | [], _ => rfl
  | s :: sigs, h => by
    have ih := direct_spec (gs := gs) (env := env) (f := f) (args := args) (ret := ret) (sigs := sigs) (fun t ht => h t (by simp [ht]))
    rw [List.map_cons, allocExpr, extract, parse_text (h s (by simp))]
    simp only [Option.some.injEq]
    by_cases hm : s.name = f ∧ args.length = s.letters.length
    · rw [if_pos hm, List.find?_cons_of_pos (by simp [hm.1, hm.2])]
      cases hz : matchArgs gs env args s.text ret with
      | none => simp [hz]
      | some z => simp [hz]
    · rw [if_neg hm, List.find?_cons_of_neg (by simp only [Bool.and_eq_true, decide_eq_true_eq]; exact fun h => hm ⟨h.1, h.2.symm⟩)]
      exact ih

/-- What a signature says: the size of the argument with the first capital letter, or else what the function returns a pointer to. -/
theorem match_spec {gs : Structs} {env : Env} {args : List Ex} {ret : Option (Ty × Bool)} {s : Signature} (h : s.Ok) (hn : args.length = s.letters.length) :
    (∀ p e, FirstCapital s.letters p → args[p]? = some e → matchArgs gs env args s.text ret = getSize gs env e) ∧
    ((∀ c ∈ s.letters, c.isUpper = false) → matchArgs gs env args s.text ret = some (match ret with | some (t, c) => .existing t c | none => .undet)) ∧
    ((∃ c ∈ s.letters, c.isUpper = true) → ∃ p e, FirstCapital s.letters p ∧ args[p]? = some e) := by
  refine ⟨?_, ?_, ?_⟩
  · intro p e hp he
    unfold matchArgs
    rw [(sizeArg_spec h p).mpr hp]
    simp only [he]
  · intro hc
    unfold matchArgs
    rw [sizeArg_text h, (capital_none s.letters).mpr hc]
    cases ret <;> rfl
  · rintro ⟨c, hc, hu⟩
    cases hcap : capital s.letters with
    | none => have := (capital_none _).mp hcap c hc; rw [hu] at this; cases this
    | some p =>
      have hp := (capital_spec _ p).mp hcap
      obtain ⟨d, hd, -⟩ := hp
      have : p < args.length := by rw [hn]; exact (List.getElem?_eq_some_iff.mp hd).1
      exact ⟨p, args[p], (capital_spec _ p).mp hcap, List.getElem?_eq_getElem this⟩

theorem known_ok : ∃ sigs : List Signature, allAllocs [] = sigs.map Signature.text ∧ (∀ s ∈ sigs, s.Ok) ∧ sigs.length = 6 := by
  refine ⟨[⟨"malloc".toList, ['Z'], ['p']⟩, ⟨"calloc".toList, ['z', 'Z'], ['p']⟩, ⟨"realloc".toList, ['p', 'Z'], ['p']⟩, ⟨"posix_memalign".toList, ['p', 'z', 'Z'], ['p']⟩,
    ⟨"alloca".toList, ['Z'], ['p']⟩, ⟨"__builtin_alloca".toList, ['Z'], ['p']⟩], by decide +kernel, ?_, rfl⟩
  intro s hs
  simp only [List.mem_cons, List.not_mem_nil, or_false] at hs
  rcases hs with rfl | rfl | rfl | rfl | rfl | rfl <;> exact ⟨by decide +kernel, by decide +kernel, by decide +kernel, by decide +kernel⟩

/-- An indirect call allocates if some signature with as many arguments gives a size; whatever the called function is. -/
theorem indirect_spec {gs : Structs} {env : Env} {args : List Ex} {ret : Option (Ty × Bool)} {z : Sz} : ∀ {sigs : List Signature}, (∀ s ∈ sigs, s.Ok) →
    allocExpr gs env none args ret (sigs.map Signature.text) = some (some z) → z ≠ .undet ∧ ∃ s ∈ sigs, s.letters.length = args.length ∧ matchArgs gs env args s.text ret = some z
  | [], _, h => by cases h
  | s :: sigs, hok, h => by
    rw [List.map_cons, allocExpr, extract, parse_text (hok s (by simp))] at h
    simp only at h
    have rest : allocExpr gs env none args ret (sigs.map Signature.text) = some (some z) →
        z ≠ .undet ∧ ∃ t ∈ s :: sigs, t.letters.length = args.length ∧ matchArgs gs env args t.text ret = some z := by
      intro h
      obtain ⟨h1, t, h2, h3⟩ := indirect_spec (sigs := sigs) (fun t ht => hok t (by simp [ht])) h
      exact ⟨h1, t, by simp [h2], h3⟩
    by_cases hm : args.length = s.letters.length
    · rw [if_pos hm] at h
      cases hz : matchArgs gs env args s.text ret with
      | none => rw [hz] at h; cases h
      | some y =>
        rw [hz] at h
        simp only [Option.map_some, ne_eq, not_true_eq_false, or_false] at h
        by_cases hy : y = .undet
        · rw [if_neg (by simpa using hy)] at h
          exact rest h
        · rw [if_pos hy] at h
          cases h
          exact ⟨hy, s, by simp, hm.symm, hz⟩
    · rw [if_neg hm] at h
      exact rest h

/-! ## Examples -/

namespace Ex
def gs : Structs := fun _ => none
def A : Ty := .comp true "A".toList

/-- `calloc(n, sizeof (A))`, a user's allocator without size, and a function that does not allocate. -/
example : allocExpr gs [] (some "calloc".toList) [.other 0, .size A true] none (allAllocs []) = some (some (.existing A true)) ∧
    allocExpr gs [] (some "new_A".toList) [.other 0] (some (A, true)) (allAllocs ["new_A(i)p".toList]) = some (some (.existing A true)) ∧
    allocExpr gs [] (some "memset".toList) [.other 0, .other 1, .size A true] none (allAllocs []) = some none := by decide +kernel
end Ex

/-- Arguments the other way round are not understood: `calloc(sizeof (A), n)`. -/
theorem calloc_fails : allocExpr Ex.gs [] (some "calloc".toList) [.size Ex.A true, .other 0] none (allAllocs []) = some (some .undet) := by decide +kernel

/-- Any indirect call with a size in the right place is said to allocate: a comparison function called with `sizeof (A)`. -/
theorem indirect_fails : allocExpr Ex.gs [] none [.other 7, .size Ex.A true] none (allAllocs []) = some (some (.existing Ex.A true)) := by decide +kernel

/-- A signature without brackets stops the tool, on every call of whatever function that no signature before it matches. -/
theorem bracket_fails (f : List Char) (args : List Ex) (hargs : ∀ s ∈ allAllocs [], ∀ n l, parse s = some (some n, l) → n ≠ f) :
    allocExpr Ex.gs [] (some f) args none (allAllocs ["xmalloc".toList]) = none := by
  have skip : ∀ (l : List (List Char)), (∀ s ∈ l, ∃ n k, parse s = some (some n, k) ∧ n ≠ f) → ∀ r, allocExpr Ex.gs [] (some f) args none (l ++ r) = allocExpr Ex.gs [] (some f) args none r := by
    intro l
    induction l with
    | nil => intro _ r; rfl
    | cons s l ih =>
      intro h r
      obtain ⟨n, k, h1, h2⟩ := h s (by simp)
      rw [List.cons_append, allocExpr, extract, h1]
      simp only [Option.some.injEq, h2, false_and, if_false]
      exact ih (fun t ht => h t (by simp [ht])) r
  have hp : ∀ s ∈ allAllocs [], ∃ n k, parse s = some (some n, k) := by
    obtain ⟨sigs, h1, h2, -⟩ := known_ok
    rw [h1]
    intro s hs
    obtain ⟨t, ht, rfl⟩ := List.mem_map.mp hs
    exact ⟨_, _, parse_text (h2 t ht)⟩
  have he : allAllocs ["xmalloc".toList] = allAllocs [] ++ ["xmalloc".toList] := by simp [allAllocs]
  rw [he, skip]
  · have : parse "xmalloc".toList = none := by decide +kernel
    rw [allocExpr, extract, this]
  · intro s hs
    obtain ⟨n, k, h⟩ := hp s hs
    exact ⟨n, k, h, hargs s hs n k h⟩

/-! ## Groups -/

/-- The instructions of a list of groups. -/
def flat (gs : List Group) : List Nat := (gs.map (·.1)).flatten

theorem groupFrom_flat (labels : List (Nat × List Char)) : ∀ (is : List Nat) (acc : List Group) (cur : Group), flat (groupFrom labels acc cur is) = flat (cur :: acc).reverse ++ is
  | [], acc, cur => by rw [groupFrom]; simp
  | x :: is, acc, cur => by
    rw [groupFrom]
    split
    · rw [groupFrom_flat labels is]
      simp [flat]
    · rw [groupFrom_flat labels is]
      simp [flat]

/-- Grouping keeps the instructions and their order. -/
theorem group_flat (labels : List (Nat × List Char)) (is : List Nat) : flat (groupFrom labels [] ([], none) is) = is := by
  rw [groupFrom_flat]; rfl

/-- A group with an attribute is an instruction with that label, one without has only instructions without. -/
def Proper (labels : List (Nat × List Char)) (g : Group) : Prop :=
  (∃ x a, g = ([x], some a) ∧ label labels x = some a) ∨ (g.2 = none ∧ ∀ x ∈ g.1, label labels x = none)

theorem groupFrom_proper (labels : List (Nat × List Char)) : ∀ (is : List Nat) (acc : List Group) (cur : Group), (∀ g ∈ acc, Proper labels g) →
    (cur.2 = none ∧ ∀ x ∈ cur.1, label labels x = none) → ∀ g ∈ groupFrom labels acc cur is, Proper labels g
  | [], acc, cur, ha, hc, g, hg => by
    rw [groupFrom, List.mem_reverse, List.mem_cons] at hg
    rcases hg with rfl | hg
    · exact Or.inr hc
    · exact ha g hg
  | x :: is, acc, cur, ha, hc, g, hg => by
    rw [groupFrom] at hg
    split at hg
    · rename_i a hl
      refine groupFrom_proper labels is _ _ ?_ ⟨rfl, by simp⟩ g hg
      intro g' hg'
      simp only [List.mem_cons] at hg'
      rcases hg' with rfl | rfl | hg'
      · exact Or.inl ⟨x, a, rfl, hl⟩
      · exact Or.inr hc
      · exact ha g' hg'
    · rename_i hl
      refine groupFrom_proper labels is acc (cur.1 ++ [x], cur.2) ha ⟨hc.1, ?_⟩ g hg
      intro y hy
      simp only [List.mem_append, List.mem_singleton] at hy
      rcases hy with hy | rfl
      · exact hc.2 y hy
      · exact hl

/-- With its labels, grouping puts each labelled instruction into a group of its own, with its attribute. -/
theorem group_proper (labels : List (Nat × List Char)) (is : List Nat) : ∀ g ∈ groupFrom labels [] ([], none) is, Proper labels g :=
  groupFrom_proper labels is [] ([], none) (by simp) ⟨rfl, by simp⟩

theorem group_labelled (labels : List (Nat × List Char)) {is : List Nat} {x : Nat} (hx : x ∈ is) {a : List Char} (hl : label labels x = some a) :
    ([x], some a) ∈ groupFrom labels [] ([], none) is := by
  have hm : x ∈ flat (groupFrom labels [] ([], none) is) := by rw [group_flat]; exact hx
  obtain ⟨l, h1, h2⟩ := List.mem_flatten.mp hm
  obtain ⟨g, h3, rfl⟩ := List.mem_map.mp h1
  rcases group_proper labels is g h3 with ⟨y, b, rfl, hb⟩ | ⟨-, hn⟩
  · simp only [List.mem_singleton] at h2
    subst h2
    rw [hl] at hb
    cases hb
    exact h3
  · rw [hn x h2] at hl; cases hl

theorem groupFrom_none : ∀ (is : List Nat) (cur : List Nat), groupFrom [] [] (cur, none) is = [(cur ++ is, none)]
  | [], cur => by rw [groupFrom]; simp
  | x :: is, cur => by
    rw [groupFrom]
    simp only [label]
    rw [groupFrom_none is]
    simp

/-- But the labels are thrown away first: whatever the labels, a statement stays one group, and no attribute is ever given. -/
theorem regroup_fails (labels : List (Nat × List Char)) (is : List Nat) : regroup labels is = [(is, none)] := by
  unfold regroup
  rw [groupFrom_none]
  rfl

example : groupFrom [(2, ['a'])] [] ([], none) [1, 2, 3] = [([1], none), ([2], some ['a']), ([3], none)] ∧ regroup [(2, ['a'])] [1, 2, 3] = [([1, 2, 3], none)] := by decide

end Liballocs.AllocCalls
