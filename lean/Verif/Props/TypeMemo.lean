import Verif.Model.TypeMemo
/-!
# Requested types are the types asked for (C42, C55, C56, C87)
-/
namespace Liballocs.TypeMemo

/-! ## Specification -/

/-- Type `t` is the array type of `len` elements of type `el`, and its size is the array's. -/
def IsArray (s : S) (t el len : Nat) : Prop :=
  ∃ (r e : T), s.ts[t]? = some r ∧ s.ts[el]? = some e ∧ r.kind = .array len el ∧ r.maxoff = len * e.maxoff

/-- Type `t` points to type `to`, with its ultimate pointee and the number of indirections leading there. -/
def IsPointer (s : S) (t to ult n : Nat) : Prop := ∃ r : T, s.ts[t]? = some r ∧ r.kind = .pointer to ult n ∧ r.maxoff = 8

/-- Type `t` is a union of exactly these members, as large as the largest. -/
def IsUnion (s : S) (t : Nat) (ms : List Nat) : Prop :=
  ∃ r : T, s.ts[t]? = some r ∧ r.kind = .union ms ∧ (∀ m ∈ ms, ∃ e : T, s.ts[m]? = some e ∧ e.maxoff ≤ r.maxoff) ∧
    ∃ m ∈ ms, ∃ e : T, s.ts[m]? = some e ∧ e.maxoff = r.maxoff

/-- Names of types made by the functions modelled here. -/
def Synth (n : Name) : Prop :=
  [95, 95, 65, 82, 82] <+: n ∨ [95, 95, 80, 84, 82, 95] <+: n ∨
    [95, 95, 83, 89, 78, 84, 72, 85, 78, 73, 79, 78, 95] <+: n ∨ [95, 95, 70, 85, 78, 95] <+: n

/-- Names none of which is a prefix of another, and none of which is empty. -/
def PrefixFree (M : Name → Prop) : Prop := ¬ M [] ∧ ∀ a b, M a → M b → a <+: b → a = b

/-- Names that end where a double underscore follows: cutting before a double underscore gives at most one of them. -/
def Separable (A : Name → Prop) : Prop :=
  ∀ a b, A a → A b → ∀ x y, a ++ 95 :: 95 :: x = b ++ 95 :: 95 :: y → a = b

/-- The names that members of requested unions and arguments of requested functions may have. -/
structure Names where
  mem : Name → Prop
  arg : Name → Prop

/-- What is asked of these names. -/
def Names.Ok (M : Names) : Prop := PrefixFree M.mem ∧ Separable M.arg

/-- Type `t` is the type of functions with exactly these arguments and this result. -/
def IsFunction (s : S) (t ret : Nat) (args : List Nat) : Prop :=
  ∃ r : T, s.ts[t]? = some r ∧ r.kind = .subprogram ret args ∧ r.maxoff = 2 ^ 32 - 1

/-- Nothing has been requested yet: no types with synthesised names, and no symbols; types have different names. -/
def Fresh (s : S) : Prop :=
  s.syms = [] ∧ (∀ t ∈ s.ts, ¬ Synth t.name) ∧
    ∀ (i j : Nat) (a b : T), s.ts[i]? = some a → s.ts[j]? = some b → a.name = b.name → i = j

/-- The members of requested unions, and the arguments of requested functions, have names in `M`. -/
def Allowed (M : Names) (s : S) : Req → Prop
  | .union ms => ∀ ns, namesOf s.ts ms = some ns → ∀ n ∈ ns, M.mem n
  | .subprogram _ args => ∀ ns, namesOf s.ts args = some ns → ∀ n ∈ ns, M.arg n
  | _ => True

/-- A history of requests. -/
inductive Run (M : Names) : S → S → Prop
  | refl (s) : Run M s s
  | step {s s' s'' r t} : Run M s s' → Allowed M s' r → step s' r = .ret s'' t → Run M s s''

/-! ## Names -/

def decVal (l : Name) : Nat := l.foldl (fun a d => 10 * a + (d - 48)) 0

theorem decVal_snoc (l : Name) (d : Nat) : decVal (l ++ [d]) = 10 * decVal l + (d - 48) := by simp [decVal]

theorem decVal_decAux : ∀ (k n : Nat), n < 10 ^ k → decVal (decAux k n) = n := by
  intro k; induction k with
  | zero => intro n h; simp at h; subst h; simp [decAux, decVal]
  | succ k ih =>
    intro n h
    rw [decAux]; split
    · simp [decVal]
    · rw [decVal_snoc, ih _ (by rw [Nat.pow_succ] at h; omega)]; omega

theorem decAux_digits : ∀ (k n : Nat), ∀ d ∈ decAux k n, 48 ≤ d ∧ d < 58 := by
  intro k; induction k with
  | zero => intro n d h; simp [decAux] at h
  | succ k ih =>
    intro n d h
    rw [decAux] at h; split at h
    · simp at h; omega
    · simp at h; rcases h with h | h
      · exact ih _ _ h
      · omega

theorem decAux_length : ∀ (k n : Nat), (decAux k n).length ≤ k := by
  intro k; induction k with
  | zero => intro n; simp [decAux]
  | succ k ih =>
    intro n; rw [decAux]; split
    · simp
    · simp; exact ih _

theorem dec_inj {a b : Nat} (ha : a < LENUNB) (hb : b < LENUNB) (h : dec a = dec b) : a = b := by
  have e1 := decVal_decAux 10 a (by unfold LENUNB at ha; omega)
  have e2 := decVal_decAux 10 b (by unfold LENUNB at hb; omega)
  rw [← e1, ← e2]; exact congrArg decVal h

theorem sep_inj : ∀ (l l' x y : Name), (∀ d ∈ l, d ≠ 95) → (∀ d ∈ l', d ≠ 95) → l ++ 95 :: x = l' ++ 95 :: y →
    l = l' ∧ x = y := by
  intro l; induction l with
  | nil =>
    intro l' x y _ h' e
    cases l' with
    | nil => simp at e; exact ⟨rfl, e⟩
    | cons a l' => simp at e; exact absurd e.1.symm (h' a (by simp))
  | cons a l ih =>
    intro l' x y h h' e
    cases l' with
    | nil => simp at e; exact absurd e.1 (h a (by simp))
    | cons b l' =>
      simp at e
      obtain ⟨e1, e2⟩ := ih l' x y (fun d hd => h d (by simp [hd])) (fun d hd => h' d (by simp [hd])) e.2
      exact ⟨by rw [e.1, e1], e2⟩

theorem clip_eq {n : Name} (h : n.length ≤ 4083) : clip n = n := List.take_of_length_le h

theorem clip_length (n : Name) : (clip n).length = min 4083 n.length := List.length_take

/-- A clipped name equal to a name well below the limit was not clipped. -/
theorem clip_inj {a b : Name} (hb : b.length < 4083) (h : clip a = clip b) : a = b := by
  rw [clip_eq (n := b) (by omega)] at h
  have := congrArg List.length h
  rw [clip_length] at this
  rw [clip_eq (by omega)] at h; exact h

theorem dec_length (n : Nat) : (dec n).length ≤ 10 := decAux_length 10 n

theorem arrName_inj {a b : Nat} {x y : Name} (ha : a < LENUNB) (hb : b < LENUNB) (hy : y.length ≤ 4000)
    (h : arrName a x = arrName b y) : a = b ∧ x = y := by
  have hl := dec_length b
  have := clip_inj (by simp; omega) h
  simp only [List.append_assoc, List.append_cancel_left_eq] at this
  obtain ⟨e1, e2⟩ := sep_inj _ _ _ _ (fun d hd => by have := decAux_digits _ _ d hd; omega)
    (fun d hd => by have := decAux_digits _ _ d hd; omega) this
  exact ⟨dec_inj ha hb e1, e2⟩

theorem ptrName_inj {x y : Name} (hy : y.length ≤ 4000) (h : ptrName x = ptrName y) : x = y := by
  have := clip_inj (by simp; omega) h
  simpa using this

theorem dec_head (n : Nat) : ∃ d r, dec n = d :: r ∧ 48 ≤ d ∧ d < 58 := by
  cases h : dec n with
  | nil =>
    exfalso; unfold dec at h; rw [decAux] at h; split at h <;> simp at h
  | cons d r => exact ⟨d, r, rfl, decAux_digits 10 n d (by unfold dec at h; rw [h]; simp)⟩

/-- The first six bytes of the names. -/
theorem arr_take (a : Nat) (x : Name) : ∃ d, 48 ≤ d ∧ d < 58 ∧ (arrName a x).take 6 = [95, 95, 65, 82, 82, d] := by
  obtain ⟨d, r, e, h⟩ := dec_head a
  refine ⟨d, h.1, h.2, ?_⟩
  simp [arrName, clip, e]

theorem unb_take (x : Name) : (unbName x).take 6 = [95, 95, 65, 82, 82, 95] := by simp [unbName, clip]
theorem ptr_take (x : Name) : (ptrName x).take 6 = [95, 95, 80, 84, 82, 95] := by simp [ptrName, clip]
theorem union_take (ms : List Name) : (unionName ms).take 6 = [95, 95, 83, 89, 78, 84] := by simp [unionName]

theorem fun_take (as : List Name) (r : Name) : (funName as r).take 6 = [95, 95, 70, 85, 78, 95] := by simp [funName, clip]

theorem arr_ne_unb {a x y} : arrName a x ≠ unbName y := by
  intro h; obtain ⟨d, h1, h2, e⟩ := arr_take a x; rw [h, unb_take] at e; simp at e; omega
theorem arr_ne_ptr {a x y} : arrName a x ≠ ptrName y := by
  intro h; obtain ⟨d, h1, h2, e⟩ := arr_take a x; rw [h, ptr_take] at e; simp at e
theorem arr_ne_union {a x y} : arrName a x ≠ unionName y := by
  intro h; obtain ⟨d, h1, h2, e⟩ := arr_take a x; rw [h, union_take] at e; simp at e
theorem ptr_ne_unb {x y} : ptrName x ≠ unbName y := by
  intro h; have e := ptr_take x; rw [h, unb_take] at e; simp at e
theorem ptr_ne_union {x y} : ptrName x ≠ unionName y := by
  intro h; have e := ptr_take x; rw [h, union_take] at e; simp at e
theorem unb_ne_union {x y} : unbName x ≠ unionName y := by
  intro h; have e := unb_take x; rw [h, union_take] at e; simp at e

theorem arr_ne_fun {a x y z} : arrName a x ≠ funName y z := by
  intro h; obtain ⟨d, h1, h2, e⟩ := arr_take a x; rw [h, fun_take] at e; simp at e
theorem ptr_ne_fun {x y z} : ptrName x ≠ funName y z := by
  intro h; have e := ptr_take x; rw [h, fun_take] at e; simp at e
theorem unb_ne_fun {x y z} : unbName x ≠ funName y z := by
  intro h; have e := unb_take x; rw [h, fun_take] at e; simp at e
theorem union_ne_fun {x y z} : unionName x ≠ funName y z := by
  intro h; have e := union_take x; rw [h, fun_take] at e; simp at e

theorem synth_arr (a x) : Synth (arrName a x) := by
  refine Or.inl ?_; rw [List.prefix_iff_eq_take]; simp [arrName, clip]
theorem synth_unb (x) : Synth (unbName x) := by
  refine Or.inl ?_; rw [List.prefix_iff_eq_take]; simp [unbName, clip]
theorem synth_ptr (x) : Synth (ptrName x) := by
  refine Or.inr (Or.inl ?_); rw [List.prefix_iff_eq_take]; simp [ptrName, clip]
theorem synth_union (ms) : Synth (unionName ms) := Or.inr (Or.inr (Or.inl ⟨_, rfl⟩))
theorem synth_fun (as r) : Synth (funName as r) := by
  refine Or.inr (Or.inr (Or.inr ?_)); rw [List.prefix_iff_eq_take]; simp [funName, clip]

/-- Concatenations over a prefix-free set of names can be taken apart in one way only. -/
theorem flatten_inj {M : Name → Prop} (hM : PrefixFree M) : ∀ (l l' : List Name), (∀ n ∈ l, M n) → (∀ n ∈ l', M n) →
    l.flatten = l'.flatten → l = l' := by
  intro l; induction l with
  | nil =>
    intro l' _ h' e
    cases l' with
    | nil => rfl
    | cons b l' =>
      simp at e
      have := h' b (by simp); rw [e.1] at this; exact absurd this hM.1
  | cons a l ih =>
    intro l' h h' e
    cases l' with
    | nil =>
      simp at e
      have := h a (by simp); rw [e.1] at this; exact absurd this hM.1
    | cons b l' =>
      simp only [List.flatten_cons] at e
      have hab : a = b := by
        rcases List.prefix_or_prefix_of_prefix (⟨_, rfl⟩ : a <+: a ++ l.flatten) (e ▸ ⟨_, rfl⟩ : b <+: a ++ l.flatten) with p | p
        · exact hM.2 _ _ (h a (by simp)) (h' b (by simp)) p
        · exact (hM.2 _ _ (h' b (by simp)) (h a (by simp)) p).symm
      subst hab
      simp only [List.append_cancel_left_eq] at e
      rw [ih l' (fun n hn => h n (by simp [hn])) (fun n hn => h' n (by simp [hn])) e]

/-- Argument lists over a separable set of names, followed by the result, can be taken apart in one way only. -/
theorem argsName_inj {A : Name → Prop} (hA : Separable A) (r r' : Name) : ∀ (l l' : List Name) (i : Nat), (∀ n ∈ l, A n) → (∀ n ∈ l', A n) →
    argsName i l ++ ([95, 95, 70, 85, 78, 95, 84, 79, 95] ++ r) = argsName i l' ++ ([95, 95, 70, 85, 78, 95, 84, 79, 95] ++ r') → l = l' ∧ r = r' := by
  intro l; induction l with
  | nil =>
    intro l' i _ h' e
    cases l' with
    | nil => simp [argsName] at e; exact ⟨rfl, e⟩
    | cons b l' => simp [argsName] at e
  | cons a l ih =>
    intro l' i h h' e
    cases l' with
    | nil => simp [argsName] at e
    | cons b l' =>
      have hs : ∀ (l : List Name) (r : Name), ∃ x, argsName (i + 1) l ++ ([95, 95, 70, 85, 78, 95, 84, 79, 95] ++ r) = 95 :: 95 :: x := by
        intro l r; cases l with
        | nil => exact ⟨_, rfl⟩
        | cons => exact ⟨_, rfl⟩
      rw [argsName, argsName] at e
      simp only [List.append_assoc, List.append_cancel_left_eq, List.cons_append, List.cons.injEq, true_and] at e
      have e' : a ++ (argsName (i + 1) l ++ ([95, 95, 70, 85, 78, 95, 84, 79, 95] ++ r)) =
          b ++ (argsName (i + 1) l' ++ ([95, 95, 70, 85, 78, 95, 84, 79, 95] ++ r')) := by simpa using e
      have hab : a = b := by
        obtain ⟨x, hx⟩ := hs l r
        obtain ⟨y, hy⟩ := hs l' r'
        rw [hx, hy] at e'
        exact hA _ _ (h a (by simp)) (h' b (by simp)) _ _ e'
      subst hab
      rw [List.append_cancel_left_eq] at e'
      obtain ⟨q1, q2⟩ := ih l' (i + 1) (fun n hn => h n (by simp [hn])) (fun n hn => h' n (by simp [hn])) e'
      exact ⟨by rw [q1], q2⟩

/-- The names of functions of short names tell the functions apart. -/
theorem funName_inj {A : Name → Prop} (hA : Separable A) {l l' : List Name} {r r' : Name} (h : ∀ n ∈ l, A n)
    (h' : ∀ n ∈ l', A n) (hb : (argsName 0 l').length + r'.length ≤ 4062) (e : funName l r = funName l' r') :
    l = l' ∧ r = r' := by
  have := clip_inj (by simp; omega) e
  simp only [List.append_assoc, List.append_cancel_left_eq] at this
  exact argsName_inj hA _ _ _ _ _ h h' (by simpa using this)

/-! ## The invariant -/

structure Inv (M : Names) (s : S) : Prop where
  inj : ∀ (i j : Nat) (a b : T), s.ts[i]? = some a → s.ts[j]? = some b → a.name = b.name → i = j
  bound : ∀ k i, lookup s.syms k = some i → ∃ t : T, s.ts[i]? = some t ∧ t.name = k
  found : ∀ (i : Nat) (t : T), s.ts[i]? = some t → Synth t.name → lookup s.syms t.name = some i
  arr : ∀ (i : Nat) (t : T) (len : Nat) (n : Name), s.ts[i]? = some t → n.length ≤ 4000 → len < LENUNB → t.name = arrName len n →
    ∃ (el : Nat) (e : T), s.ts[el]? = some e ∧ e.name = n ∧ t.kind = .array len el ∧ t.maxoff = len * e.maxoff % 2 ^ 32
  ptr : ∀ (i : Nat) (t : T) (n : Name), s.ts[i]? = some t → n.length ≤ 4000 → t.name = ptrName n →
    ∃ (to : Nat) (e : T), s.ts[to]? = some e ∧ e.name = n ∧ t.kind = pointerKind to e.kind ∧ t.maxoff = 8
  uni : ∀ (i : Nat) (t : T) (ns : List Name), s.ts[i]? = some t → (∀ n ∈ ns, M.mem n) → t.name = unionName ns →
    ∃ ms, ms ≠ [] ∧ namesOf s.ts ms = some ns ∧ t.kind = .union ms ∧ maxSize s.ts ms = some t.maxoff
  fn : ∀ (i : Nat) (t : T) (ns : List Name) (n : Name), s.ts[i]? = some t → (∀ n ∈ ns, M.arg n) →
    (argsName 0 ns).length + n.length ≤ 4062 → t.name = funName ns n →
    ∃ args ret, ∃ e : T, namesOf s.ts args = some ns ∧ s.ts[ret]? = some e ∧ e.name = n ∧ t.kind = .subprogram ret args ∧ t.maxoff = UNB

theorem Fresh.inv {M s} (h : Fresh s) : Inv M s where
  inj := h.2.2
  bound k i e := by rw [h.1] at e; simp [lookup] at e
  found i t e hs := absurd hs (h.2.1 t (List.mem_of_getElem? e))
  arr i t len n e _ _ hn := absurd (hn ▸ synth_arr len n) (h.2.1 t (List.mem_of_getElem? e))
  ptr i t n e _ hn := absurd (hn ▸ synth_ptr n) (h.2.1 t (List.mem_of_getElem? e))
  uni i t ns e _ hn := absurd (hn ▸ synth_union ns) (h.2.1 t (List.mem_of_getElem? e))
  fn i t ns n e _ _ hn := absurd (hn ▸ synth_fun ns n) (h.2.1 t (List.mem_of_getElem? e))

theorem getElem?_snoc {ts : List T} {x : T} {i : Nat} {t : T} (h : (ts ++ [x])[i]? = some t) :
    ts[i]? = some t ∨ (i = ts.length ∧ t = x) := by
  rcases Nat.lt_or_ge i ts.length with hi | hi
  · rw [List.getElem?_append_left hi] at h; exact Or.inl h
  · rw [List.getElem?_append_right hi] at h
    rcases Nat.eq_or_lt_of_le hi with e | e
    · rw [e] at h; simp at h; exact Or.inr ⟨e.symm, h.symm⟩
    · rw [List.getElem?_eq_none (by simp; omega)] at h; simp at h

theorem getElem?_old {ts : List T} {x : List T} {i : Nat} {t : T} (h : ts[i]? = some t) : (ts ++ x)[i]? = some t := by
  have hi : i < ts.length := by
    rcases Nat.lt_or_ge i ts.length with hi | hi
    · exact hi
    · rw [List.getElem?_eq_none hi] at h; simp at h
  rw [List.getElem?_append_left hi]; exact h

theorem namesOf_old {ts : List T} {x : List T} : ∀ {ms : List Nat} {ns}, namesOf ts ms = some ns →
    namesOf (ts ++ x) ms = some ns := by
  intro ms; induction ms with
  | nil => intro ns h; simpa [namesOf] using h
  | cons m ms ih =>
    intro ns h
    rw [namesOf] at h ⊢
    cases e1 : ts[m]? with
    | none => rw [e1] at h; simp at h
    | some t =>
      cases e2 : namesOf ts ms with
      | none => rw [e1, e2] at h; simp at h
      | some ns' =>
        rw [e1, e2] at h; simp only at h
        rw [getElem?_old e1, ih e2]; simpa using h

theorem maxSize_old {ts x : List T} : ∀ {ms : List Nat} {n}, maxSize ts ms = some n → maxSize (ts ++ x) ms = some n := by
  intro ms; induction ms with
  | nil => intro ns h; simpa [maxSize] using h
  | cons m ms ih =>
    intro ns h
    rw [maxSize] at h ⊢
    cases e1 : ts[m]? with
    | none => rw [e1] at h; simp at h
    | some t =>
      cases e2 : maxSize ts ms with
      | none => rw [e1, e2] at h; simp at h
      | some ns' =>
        rw [e1, e2] at h; simp only at h
        rw [getElem?_old e1, ih e2]; exact h

theorem maxSize_some {ts : List T} : ∀ {ms : List Nat}, (∀ m ∈ ms, ∃ t : T, ts[m]? = some t ∧ t.maxoff ≠ 0 ∧ t.maxoff ≠ UNB) →
    ∃ n, maxSize ts ms = some n := by
  intro ms; induction ms with
  | nil => intro _; exact ⟨0, rfl⟩
  | cons m ms ih =>
    intro h
    obtain ⟨t, e, h1, h2⟩ := h m (by simp)
    obtain ⟨n, hn⟩ := ih (fun x hx => h x (by simp [hx]))
    exact ⟨max t.maxoff n, by rw [maxSize, e, hn]; simp only; rw [if_neg (by rintro (q | q) <;> contradiction)]⟩

/-- The computed size is the size of the largest member. -/
theorem maxSize_spec {ts : List T} : ∀ {ms : List Nat} {n}, maxSize ts ms = some n →
    (∀ m ∈ ms, ∃ t : T, ts[m]? = some t ∧ t.maxoff ≤ n ∧ t.maxoff ≠ 0 ∧ t.maxoff ≠ 2 ^ 32 - 1) ∧
    ((ms = [] ∧ n = 0) ∨ ∃ m ∈ ms, ∃ t : T, ts[m]? = some t ∧ t.maxoff = n) := by
  intro ms; induction ms with
  | nil => intro n h; simp [maxSize] at h; subst h; simp
  | cons m ms ih =>
    intro n h
    rw [maxSize] at h
    cases e1 : ts[m]? with
    | none => rw [e1] at h; simp at h
    | some t =>
      cases e2 : maxSize ts ms with
      | none => rw [e1, e2] at h; simp at h
      | some k =>
        rw [e1, e2] at h; simp only at h
        split at h
        · simp at h
        · rename_i hne
          simp only [Option.some.injEq] at h
          have a1 : t.maxoff ≤ n := by rw [← h]; exact Nat.le_max_left _ _
          have a2 : k ≤ n := by rw [← h]; exact Nat.le_max_right _ _
          have a3 : k ≤ t.maxoff → t.maxoff = n := fun q => by rw [← h]; exact (Nat.max_eq_left q).symm
          have a4 : ¬ k ≤ t.maxoff → k = n := fun q => by rw [← h]; exact (Nat.max_eq_right (Nat.le_of_not_le q)).symm
          obtain ⟨i1, i2⟩ := ih e2
          have hne' : t.maxoff ≠ 0 ∧ t.maxoff ≠ 2 ^ 32 - 1 := ⟨fun q => hne (Or.inl q), fun q => hne (Or.inr q)⟩
          constructor
          · intro x hx
            rcases List.mem_cons.mp hx with rfl | hx
            · exact ⟨t, e1, a1, hne'⟩
            · obtain ⟨t', h1, h2, h3⟩ := i1 x hx
              exact ⟨t', h1, Nat.le_trans h2 a2, h3⟩
          · right
            by_cases hc : k ≤ t.maxoff
            · exact ⟨m, by simp, t, e1, a3 hc⟩
            · rcases i2 with ⟨_, rfl⟩ | ⟨x, hx, t', h1, h2⟩
              · exact absurd (Nat.zero_le _) hc
              · exact ⟨x, by simp [hx], t', h1, h2.trans (a4 hc)⟩

/-- Creating a type under an unused synthesised name that says what the type is. -/
theorem Inv.create {M s k sz kind} (h : Inv M s) (hk : lookup s.syms k = none) (hs : Synth k)
    (ha : ∀ (len : Nat) (n : Name), n.length ≤ 4000 → len < LENUNB → k = arrName len n →
      ∃ (el : Nat) (e : T), s.ts[el]? = some e ∧ e.name = n ∧ kind = .array len el ∧ sz = len * e.maxoff % 2 ^ 32)
    (hp : ∀ (n : Name), n.length ≤ 4000 → k = ptrName n →
      ∃ (to : Nat) (e : T), s.ts[to]? = some e ∧ e.name = n ∧ kind = pointerKind to e.kind ∧ sz = 8)
    (hu : ∀ (ns : List Name), (∀ n ∈ ns, M.mem n) → k = unionName ns → ∃ ms, ms ≠ [] ∧ namesOf s.ts ms = some ns ∧ kind = .union ms ∧ maxSize s.ts ms = some sz)
    (hf : ∀ (ns : List Name) (n : Name), (∀ n ∈ ns, M.arg n) → (argsName 0 ns).length + n.length ≤ 4062 → k = funName ns n →
      ∃ args ret, ∃ e : T, namesOf s.ts args = some ns ∧ s.ts[ret]? = some e ∧ e.name = n ∧ kind = .subprogram ret args ∧ sz = UNB) :
    Inv M (create s k sz kind).1 := by
  have hne : ∀ (i : Nat) (t : T), s.ts[i]? = some t → t.name ≠ k := by
    intro i t e hn
    have := h.found i t e (hn ▸ hs)
    rw [hn, hk] at this; simp at this
  refine ⟨?_, ?_, ?_, ?_, ?_, ?_, ?_⟩
  · intro i j a b ei ej e
    rcases getElem?_snoc ei with e1 | ⟨e1, f1⟩ <;> rcases getElem?_snoc ej with e2 | ⟨e2, f2⟩
    · exact h.inj _ _ _ _ e1 e2 e
    · subst f2; exact absurd e (hne _ _ e1)
    · subst f1; exact absurd e.symm (hne _ _ e2)
    · omega
  · intro k' i e
    simp only [TypeMemo.create, lookup] at e
    split at e
    · rename_i e'
      simp only [Option.some.injEq] at e; subst e; subst e'
      exact ⟨⟨k, sz, kind⟩, by simp [TypeMemo.create], rfl⟩
    · obtain ⟨t, e1, e2⟩ := h.bound _ _ e
      exact ⟨t, getElem?_old e1, e2⟩
  · intro i t e hs'
    simp only [TypeMemo.create, lookup]
    rcases getElem?_snoc e with e1 | ⟨e1, f1⟩
    · rw [if_neg (fun e => hne _ _ e1 e.symm)]; exact h.found _ _ e1 hs'
    · subst f1; rw [if_pos rfl, e1]
  · intro i t len n e hn hl hname
    rcases getElem?_snoc e with e1 | ⟨e1, f1⟩
    · obtain ⟨el, r, q⟩ := h.arr i t len n e1 hn hl hname
      exact ⟨el, r, getElem?_old q.1, q.2⟩
    · subst f1; obtain ⟨el, r, q⟩ := ha len n hn hl hname
      exact ⟨el, r, getElem?_old q.1, q.2⟩
  · intro i t n e hn hname
    rcases getElem?_snoc e with e1 | ⟨e1, f1⟩
    · obtain ⟨el, r, q⟩ := h.ptr i t n e1 hn hname
      exact ⟨el, r, getElem?_old q.1, q.2⟩
    · subst f1; obtain ⟨el, r, q⟩ := hp n hn hname
      exact ⟨el, r, getElem?_old q.1, q.2⟩
  · intro i t ns e hn hname
    rcases getElem?_snoc e with e1 | ⟨e1, f1⟩
    · obtain ⟨ms, q⟩ := h.uni i t ns e1 hn hname
      exact ⟨ms, q.1, namesOf_old q.2.1, q.2.2.1, maxSize_old q.2.2.2⟩
    · subst f1; obtain ⟨ms, q⟩ := hu ns hn hname
      exact ⟨ms, q.1, namesOf_old q.2.1, q.2.2.1, maxSize_old q.2.2.2⟩
  · intro i t ns n e hn hl hname
    rcases getElem?_snoc e with e1 | ⟨e1, f1⟩
    · obtain ⟨ms, r, x, q⟩ := h.fn i t ns n e1 hn hl hname
      exact ⟨ms, r, x, namesOf_old q.1, getElem?_old q.2.1, q.2.2⟩
    · subst f1; obtain ⟨ms, r, x, q⟩ := hf ns n hn hl hname
      exact ⟨ms, r, x, namesOf_old q.1, getElem?_old q.2.1, q.2.2⟩

theorem Inv.findOrCreate {M s k sz kind} (h : Inv M s) (hs : Synth k)
    (ha : ∀ (len : Nat) (n : Name), n.length ≤ 4000 → len < LENUNB → k = arrName len n →
      ∃ (el : Nat) (e : T), s.ts[el]? = some e ∧ e.name = n ∧ kind = .array len el ∧ sz = len * e.maxoff % 2 ^ 32)
    (hp : ∀ (n : Name), n.length ≤ 4000 → k = ptrName n →
      ∃ (to : Nat) (e : T), s.ts[to]? = some e ∧ e.name = n ∧ kind = pointerKind to e.kind ∧ sz = 8)
    (hu : ∀ (ns : List Name), (∀ n ∈ ns, M.mem n) → k = unionName ns → ∃ ms, ms ≠ [] ∧ namesOf s.ts ms = some ns ∧ kind = .union ms ∧ maxSize s.ts ms = some sz)
    (hf : ∀ (ns : List Name) (n : Name), (∀ n ∈ ns, M.arg n) → (argsName 0 ns).length + n.length ≤ 4062 → k = funName ns n →
      ∃ args ret, ∃ e : T, namesOf s.ts args = some ns ∧ s.ts[ret]? = some e ∧ e.name = n ∧ kind = .subprogram ret args ∧ sz = UNB) :
    Inv M (findOrCreate s k sz kind).1 := by
  unfold TypeMemo.findOrCreate
  cases e : lookup s.syms k with
  | some i => exact h
  | none => exact h.create e hs ha hp hu hf

/-- The state only grows, the returned type has the name asked for, and is found under it. -/
theorem findOrCreate_spec {M s k sz kind} (h : Inv M s) :
    (∃ l, (findOrCreate s k sz kind).1.ts = s.ts ++ l) ∧
    (∃ t : T, (findOrCreate s k sz kind).1.ts[(findOrCreate s k sz kind).2]? = some t ∧ t.name = k) ∧
    lookup (findOrCreate s k sz kind).1.syms k = some (findOrCreate s k sz kind).2 ∧
    (∀ k' i, lookup s.syms k' = some i → lookup (findOrCreate s k sz kind).1.syms k' = some i) := by
  unfold TypeMemo.findOrCreate
  cases e : lookup s.syms k with
  | some i => exact ⟨⟨[], by simp⟩, h.bound _ _ e, e, fun _ _ h => h⟩
  | none =>
    refine ⟨⟨_, rfl⟩, ⟨⟨k, sz, kind⟩, by simp [TypeMemo.create], rfl⟩, by simp [TypeMemo.create, lookup], ?_⟩
    intro k' i e'
    simp only [TypeMemo.create, lookup]
    rw [if_neg (by rintro rfl; rw [e] at e'; simp at e')]
    exact e'

/-- Growth of the state. -/
def Grows (s s' : S) : Prop :=
  (∃ l, s'.ts = s.ts ++ l) ∧ ∀ k i, lookup s.syms k = some i → lookup s'.syms k = some i

theorem Grows.refl (s) : Grows s s := ⟨⟨[], by simp⟩, fun _ _ h => h⟩
theorem Grows.trans {a b c} (h : Grows a b) (h' : Grows b c) : Grows a c := by
  obtain ⟨⟨l, e⟩, f⟩ := h
  obtain ⟨⟨l', e'⟩, f'⟩ := h'
  exact ⟨⟨l ++ l', by rw [e', e, List.append_assoc]⟩, fun k i q => f' _ _ (f _ _ q)⟩

theorem step_inv {M s r s' t} (h : Inv M s) (hM : M.Ok) (ha : Allowed M s r) (e : step s r = .ret s' t) :
    Inv M s' ∧ Grows s s' := by
  have gr : ∀ k sz kind, Grows s (findOrCreate s k sz kind).1 :=
    fun k sz kind => ⟨(findOrCreate_spec h).1, (findOrCreate_spec h).2.2.2⟩
  cases r with
  | array el len =>
    simp only [step] at e
    cases e1 : s.ts[el]? with
    | none => rw [e1] at e; simp at e
    | some x =>
      rw [e1] at e; simp only at e
      split at e
      · simp at e
      · rename_i hl
        split at e
        · simp at e; obtain ⟨rfl, _⟩ := e; exact ⟨h, .refl _⟩
        · simp only [Res.ret.injEq] at e; obtain ⟨rfl, _⟩ := e
          refine ⟨h.findOrCreate (synth_arr _ _) ?_ ?_ ?_ ?_, gr _ _ _⟩
          · intro len' n hn hl' hk
            obtain ⟨q1, q2⟩ := arrName_inj (by omega) hl' hn hk
            subst q1; exact ⟨el, x, e1, q2, rfl, rfl⟩
          · intro n _ hk; exact absurd hk arr_ne_ptr
          · intro n _ hk; exact absurd hk arr_ne_union
          · intro ns n _ _ hk; exact absurd hk arr_ne_fun
  | unbounded el =>
    simp only [step] at e
    cases e1 : s.ts[el]? with
    | none => rw [e1] at e; simp at e
    | some x =>
      rw [e1] at e; simp only at e
      split at e
      · simp at e; obtain ⟨rfl, _⟩ := e; exact ⟨h, .refl _⟩
      · simp only [Res.ret.injEq] at e; obtain ⟨rfl, _⟩ := e
        refine ⟨h.findOrCreate (synth_unb _) ?_ ?_ ?_ ?_, gr _ _ _⟩
        · intro len' n hn hl' hk; exact absurd hk.symm arr_ne_unb
        · intro n _ hk; exact absurd hk.symm ptr_ne_unb
        · intro n _ hk; exact absurd hk unb_ne_union
        · intro ns n _ _ hk; exact absurd hk unb_ne_fun
  | flexible el =>
    simp only [step] at e
    cases e1 : s.ts[el]? with
    | none => rw [e1] at e; simp at e
    | some x =>
      rw [e1] at e; simp only at e
      split at e
      · simp at e; obtain ⟨rfl, _⟩ := e; exact ⟨h, .refl _⟩
      · simp only [Res.ret.injEq] at e; obtain ⟨rfl, _⟩ := e
        refine ⟨h.findOrCreate (synth_unb _) ?_ ?_ ?_ ?_, gr _ _ _⟩
        · intro len' n hn hl' hk; exact absurd hk.symm arr_ne_unb
        · intro n _ hk; exact absurd hk.symm ptr_ne_unb
        · intro n _ hk; exact absurd hk unb_ne_union
        · intro ns n _ _ hk; exact absurd hk unb_ne_fun
  | pointer to =>
    simp only [step] at e
    cases e1 : s.ts[to]? with
    | none => rw [e1] at e; simp at e
    | some x =>
      rw [e1] at e
      simp only [Res.ret.injEq] at e; obtain ⟨rfl, _⟩ := e
      refine ⟨h.findOrCreate (synth_ptr _) ?_ ?_ ?_ ?_, gr _ _ _⟩
      · intro len' n hn hl' hk; exact absurd hk.symm arr_ne_ptr
      · intro n hn hk; exact ⟨to, x, e1, ptrName_inj hn hk, rfl, rfl⟩
      · intro n _ hk; exact absurd hk ptr_ne_union
      · intro ns n _ _ hk; exact absurd hk ptr_ne_fun
  | union ms =>
    cases ms with
    | nil => simp only [step, Res.ret.injEq] at e; obtain ⟨rfl, _⟩ := e; exact ⟨h, .refl _⟩
    | cons m ms =>
      simp only [step] at e
      cases e1 : namesOf s.ts (m :: ms) with
      | none => rw [e1] at e; simp at e
      | some ns =>
        cases e2 : maxSize s.ts (m :: ms) with
        | none => rw [e1, e2] at e; simp at e
        | some sz =>
          rw [e1, e2] at e; simp only at e
          split at e
          · simp at e
          · simp at e; obtain ⟨rfl, _⟩ := e; exact ⟨h, .refl _⟩
          · simp only [Res.ret.injEq] at e; obtain ⟨rfl, _⟩ := e
            refine ⟨h.findOrCreate (synth_union _) ?_ ?_ ?_ ?_, gr _ _ _⟩
            · intro len' n hn hl' hk; exact absurd hk.symm arr_ne_union
            · intro n _ hk; exact absurd hk.symm ptr_ne_union
            · intro ns' hn hk
              have : ns = ns' := flatten_inj hM.1 _ _ (ha ns e1) hn (by simpa [unionName] using hk)
              subst this
              exact ⟨m :: ms, by simp, e1, rfl, e2⟩
            · intro ns n _ _ hk; exact absurd hk union_ne_fun
  | subprogram ret args =>
    simp only [step] at e
    cases e1 : s.ts[ret]? with
    | none => rw [e1] at e; simp at e
    | some x =>
      cases e2 : namesOf s.ts args with
      | none => rw [e1, e2] at e; simp at e
      | some ns =>
        rw [e1, e2] at e; simp only at e
        split at e
        · simp at e
        · simp only [Res.ret.injEq] at e; obtain ⟨rfl, _⟩ := e
          refine ⟨h.findOrCreate (synth_fun _ _) ?_ ?_ ?_ ?_, gr _ _ _⟩
          · intro len' n hn hl' hk; exact absurd hk.symm arr_ne_fun
          · intro n _ hk; exact absurd hk.symm ptr_ne_fun
          · intro n _ hk; exact absurd hk.symm union_ne_fun
          · intro ns' n hn hl hk
            obtain ⟨q1, q2⟩ := funName_inj hM.2 (ha ns e2) hn hl hk
            subst q1
            exact ⟨args, ret, x, e2, e1, q2, rfl, rfl⟩

theorem run_inv {M s s'} (hM : M.Ok) (h : Inv M s) (r : Run M s s') : Inv M s' ∧ Grows s s' := by
  induction r with
  | refl => exact ⟨h, .refl _⟩
  | step _ ha e ih =>
    obtain ⟨q1, q2⟩ := step_inv ih.1 hM ha e
    exact ⟨q1, ih.2.trans q2⟩

theorem isFound {s k sz kind i} (e : lookup s.syms k = some i) : findOrCreate s k sz kind = (s, i) := by
  unfold TypeMemo.findOrCreate; rw [e]

/-! ## C42 -/

/-- **C42 (partial).** After any history of type requests, asking for the array type of an element type and a length
yields a type with exactly that element type, that length and the size of such an array, and asking again at any later
time yields the same type. Partial: the types first loaded must have pairwise distinct simple names (`Fresh`), the
element's name must have at most 4000 bytes, and the array's size must fit 32 bits; see the `..._fails` theorems. -/
theorem array_partial {M s₀ s} (hM : M.Ok) (hf : Fresh s₀) (hr : Run M s₀ s) {el len : Nat} {e : T}
    (he : s.ts[el]? = some e) (hname : e.name.length ≤ 4000) (h0 : e.maxoff ≠ 0) (hu : e.maxoff ≠ UNB)
    (hl : len < LENUNB) (hsz : len * e.maxoff < 2 ^ 32) :
    ∃ s' t, step s (.array el len) = .ret s' (some t) ∧ IsArray s' t el len ∧
      ∀ s'', Run M s' s'' → step s'' (.array el len) = .ret s'' (some t) ∧ IsArray s'' t el len := by
  have hi : Inv M s := (run_inv hM hf.inv hr).1
  have key : ∀ s, s.ts[el]? = some e → step s (.array el len) =
      .ret (findOrCreate s (arrName len e.name) (len * e.maxoff % 2 ^ 32) (.array len el)).1
        (some (findOrCreate s (arrName len e.name) (len * e.maxoff % 2 ^ 32) (.array len el)).2) := by
    intro s he; simp only [step, he]
    rw [if_neg (by omega), if_neg (by rintro (h | h) <;> contradiction)]
  have isArr : ∀ s t, Inv M s → s.ts[el]? = some e → lookup s.syms (arrName len e.name) = some t → IsArray s t el len := by
    intro s t hi he hk
    obtain ⟨r, hr1, hr2⟩ := hi.bound _ _ hk
    obtain ⟨el', e', q1, q2, q3, q4⟩ := hi.arr _ _ _ _ hr1 hname hl hr2
    have : el' = el := hi.inj _ _ _ _ q1 he q2
    subst this
    rw [he] at q1; cases q1
    exact ⟨r, e, hr1, he, q3, by rw [q4, Nat.mod_eq_of_lt hsz]⟩
  obtain ⟨⟨l, g1⟩, g2, g3, g4⟩ := findOrCreate_spec (k := arrName len e.name) (sz := len * e.maxoff % 2 ^ 32)
    (kind := .array len el) hi
  have hi' := (step_inv hi hM (r := .array el len) trivial (key s he)).1
  have he' := g1 ▸ getElem?_old (x := l) he
  refine ⟨_, _, key s he, isArr _ _ hi' he' g3, ?_⟩
  intro s'' hr'
  obtain ⟨hi'', ⟨l', g1'⟩, g4'⟩ := run_inv hM hi' hr'
  have he'' := g1' ▸ getElem?_old (x := l') he'
  have hk := g4' _ _ g3
  exact ⟨by rw [key s'' he'', isFound hk], isArr _ _ hi'' he'' hk⟩

/-- Two base types, `a` of 4 bytes and `b` of 8 bytes. -/
def base : S := ⟨[⟨[97], 4, .other⟩, ⟨[98], 8, .other⟩], []⟩

theorem base_fresh : Fresh base := by
  refine ⟨rfl, ?_, ?_⟩
  · intro t ht; simp [base] at ht
    rcases ht with rfl | rfl <;> rintro (h | h | h | h) <;> simp [List.prefix_cons_iff] at h
  · intro i j a b hi hj e
    rcases i with _ | _ | i <;> rcases j with _ | _ | j <;> simp [base] at hi hj <;> subst hi <;> subst hj <;> simp at e <;> rfl

/-- What a request returns. -/
def Res.got : Res → Option (S × Option Nat)
  | .ret s t => some (s, t)
  | _ => none

/-- Run requests, collecting the answers. -/
def replay : S → List Req → Option (List (Option Nat) × List T)
  | s, [] => some ([], s.ts)
  | s, r :: rs =>
    match (step s r).got with
    | none => none
    | some (s', t) => (replay s' rs).map (fun x => (t :: x.1, x.2))

/-- Arrays of arrays, asked for twice. -/
example : (replay base [.array 0 5, .array 2 12, .array 1 5, .array 2 12, .array 0 5]).map Prod.fst =
    some [some 2, some 3, some 4, some 3, some 2] := by decide

/-- **C42 fails** when two element types have the same simple name (same-named structs of different compilation
units): the array of the second is answered with the array of the first. -/
theorem array_same_name_fails :
    (replay ⟨[⟨[97], 4, .other⟩, ⟨[97], 24, .other⟩], []⟩ [.array 0 5, .array 1 5]) =
      some ([some 2, some 2], [⟨[97], 4, .other⟩, ⟨[97], 24, .other⟩, ⟨arrName 5 [97], 20, .array 5 0⟩]) := by decide

/-- **C42 fails** when the size does not fit 32 bits: the size recorded is the size modulo 2^32. -/
theorem array_size_fails :
    (replay ⟨[⟨[97], 2 ^ 16, .other⟩], []⟩ [.array 0 (2 ^ 16)]).map (fun x => x.2.map T.maxoff) = some [2 ^ 16, 0] := by decide

/-- **C42 fails** for element types whose long names differ only near the end: both arrays get the same name. -/
theorem array_long_name_fails (n : Name) (hn : n.length = 4090) (len : Nat) (a b : Nat) :
    arrName len (n ++ [a]) = arrName len (n ++ [b]) := by
  have : ∀ x, arrName len (n ++ [x]) = clip ([95, 95, 65, 82, 82] ++ dec len ++ 95 :: n) := by
    intro x
    have : [95, 95, 65, 82, 82] ++ dec len ++ 95 :: (n ++ [x]) = ([95, 95, 65, 82, 82] ++ dec len ++ 95 :: n) ++ [x] := by simp
    unfold arrName; rw [this]; unfold clip
    rw [List.take_append_of_le_length (by simp; omega)]
  rw [this, this]

/-- **C42 fails** between unbounded and flexible arrays: after one has been requested, the other is answered with it. -/
theorem unbounded_flexible_fails :
    (replay base [.flexible 0, .unbounded 0]).map (fun x => (x.1, x.2[2]?.map T.kind)) =
      some ([some 2, some 2], some (.unbounded 0 true)) ∧
    (replay base [.unbounded 0, .flexible 0]).map (fun x => (x.1, x.2[2]?.map T.kind)) =
      some ([some 2, some 2], some (.unbounded 0 false)) := by decide

/-! ## C55 -/

/-- The pointee chain: following `n` pointers from `t` ends at `ult`, which is not a pointer. -/
inductive Chain (s : S) : Nat → Nat → Nat → Prop
  | last {t : Nat} {r : T} : s.ts[t]? = some r → (∀ a b c, r.kind ≠ .pointer a b c) → Chain s t 0 t
  | next {t : Nat} {r : T} {to ult n u m : Nat} : s.ts[t]? = some r → r.kind = .pointer to u m → Chain s to n ult → Chain s t (n + 1) ult

/-- All pointer types first loaded say where their chain ends. -/
def ChainsRight (s : S) : Prop := ∀ (t : Nat) (r : T) (to u m : Nat), s.ts[t]? = some r → r.kind = .pointer to u m → Chain s t m u

theorem Chain.old {s s' t n u} (hg : ∃ l, s'.ts = s.ts ++ l) (h : Chain s t n u) : Chain s' t n u := by
  obtain ⟨l, hl⟩ := hg
  induction h with
  | last h1 h2 => exact .last (hl ▸ getElem?_old h1) h2
  | next h1 h2 _ ih => exact .next (hl ▸ getElem?_old h1) h2 ih

theorem pointerKind_chain {s : S} {to : Nat} {e : T} (hc : ChainsRight s) (he : s.ts[to]? = some e) :
    ∃ (u n : Nat), pointerKind to e.kind = .pointer to u (n + 1) ∧ Chain s to n u := by
  cases hk : e.kind with
  | pointer a u n => exact ⟨u, n, rfl, hc _ _ _ _ _ he hk⟩
  | other => exact ⟨to, 0, rfl, .last he (by simp [hk])⟩
  | array => exact ⟨to, 0, rfl, .last he (by simp [hk])⟩
  | unbounded => exact ⟨to, 0, rfl, .last he (by simp [hk])⟩
  | union => exact ⟨to, 0, rfl, .last he (by simp [hk])⟩
  | subprogram => exact ⟨to, 0, rfl, .last he (by simp [hk])⟩

theorem chains_step {s r s' t} (hc : ChainsRight s) (e : step s r = .ret s' t) : ChainsRight s' := by
  have main : ∀ k sz kind, (∀ a u m, kind = .pointer a u m → ∃ n, m = n + 1 ∧ Chain s a n u) →
      ChainsRight (findOrCreate s k sz kind).1 := by
    intro k sz kind hk
    unfold TypeMemo.findOrCreate
    cases e : lookup s.syms k with
    | some i => exact hc
    | none =>
      intro t r to u m h1 h2
      rcases getElem?_snoc h1 with e1 | ⟨e1, f1⟩
      · exact (hc _ _ _ _ _ e1 h2).old ⟨_, rfl⟩
      · subst f1
        obtain ⟨n, rfl, q⟩ := hk _ _ _ h2
        exact .next h1 h2 (q.old ⟨_, rfl⟩)
  cases r with
  | array el len =>
    simp only [step] at e
    cases e1 : s.ts[el]? with
    | none => rw [e1] at e; simp at e
    | some x =>
      rw [e1] at e; simp only at e
      split at e
      · simp at e
      · split at e
        · simp at e; obtain ⟨rfl, _⟩ := e; exact hc
        · simp only [Res.ret.injEq] at e; obtain ⟨rfl, _⟩ := e
          exact main _ _ _ (by simp)
  | unbounded el =>
    simp only [step] at e
    cases e1 : s.ts[el]? with
    | none => rw [e1] at e; simp at e
    | some x =>
      rw [e1] at e; simp only at e
      split at e
      · simp at e; obtain ⟨rfl, _⟩ := e; exact hc
      · simp only [Res.ret.injEq] at e; obtain ⟨rfl, _⟩ := e
        exact main _ _ _ (by simp)
  | flexible el =>
    simp only [step] at e
    cases e1 : s.ts[el]? with
    | none => rw [e1] at e; simp at e
    | some x =>
      rw [e1] at e; simp only at e
      split at e
      · simp at e; obtain ⟨rfl, _⟩ := e; exact hc
      · simp only [Res.ret.injEq] at e; obtain ⟨rfl, _⟩ := e
        exact main _ _ _ (by simp)
  | pointer to =>
    simp only [step] at e
    cases e1 : s.ts[to]? with
    | none => rw [e1] at e; simp at e
    | some x =>
      rw [e1] at e
      simp only [Res.ret.injEq] at e; obtain ⟨rfl, _⟩ := e
      refine main _ _ _ ?_
      intro a u m hk
      obtain ⟨u', n, q1, q2⟩ := pointerKind_chain hc e1
      rw [q1] at hk
      simp only [Kind.pointer.injEq] at hk
      obtain ⟨rfl, rfl, rfl⟩ := hk
      exact ⟨n, rfl, q2⟩
  | union ms =>
    cases ms with
    | nil => simp only [step, Res.ret.injEq] at e; obtain ⟨rfl, _⟩ := e; exact hc
    | cons m ms =>
      simp only [step] at e
      cases e1 : namesOf s.ts (m :: ms) with
      | none => rw [e1] at e; simp at e
      | some ns =>
        cases e2 : maxSize s.ts (m :: ms) with
        | none => rw [e1, e2] at e; simp at e
        | some sz =>
          rw [e1, e2] at e; simp only at e
          split at e
          · simp at e
          · simp at e; obtain ⟨rfl, _⟩ := e; exact hc
          · simp only [Res.ret.injEq] at e; obtain ⟨rfl, _⟩ := e
            exact main _ _ _ (by simp)
  | subprogram ret args =>
    simp only [step] at e
    cases e1 : s.ts[ret]? with
    | none => rw [e1] at e; simp at e
    | some x =>
      cases e2 : namesOf s.ts args with
      | none => rw [e1, e2] at e; simp at e
      | some ns =>
        rw [e1, e2] at e; simp only at e
        split at e
        · simp at e
        · simp only [Res.ret.injEq] at e; obtain ⟨rfl, _⟩ := e
          exact main _ _ _ (by simp)

/-- **C55 (partial).** After any history of type requests, asking for the type of pointers to a type yields a pointer
type whose target is exactly that type, whose indirection count is the number of pointers that must be followed to get to
a type that is no pointer, and whose ultimate pointee is that type; asking again at any later time yields the same type.
Partial: as for arrays, base types have pairwise distinct simple names and the target's name has at most 4000 bytes. -/
theorem pointer_partial {M s₀ s} (hM : M.Ok) (hf : Fresh s₀) (hc : ChainsRight s₀) (hr : Run M s₀ s) {to : Nat}
    {e : T} (he : s.ts[to]? = some e) (hname : e.name.length ≤ 4000) :
    ∃ s' t u n, step s (.pointer to) = .ret s' (some t) ∧ IsPointer s' t to u n ∧ Chain s' t n u ∧
      ∀ s'', Run M s' s'' → step s'' (.pointer to) = .ret s'' (some t) ∧ IsPointer s'' t to u n := by
  have hi : Inv M s := (run_inv hM hf.inv hr).1
  have hcs : ChainsRight s := by
    clear he hi
    induction hr with
    | refl => exact hc
    | step _ _ q ih => exact chains_step ih q
  have key : ∀ s, s.ts[to]? = some e → step s (.pointer to) =
      .ret (findOrCreate s (ptrName e.name) 8 (pointerKind to e.kind)).1
        (some (findOrCreate s (ptrName e.name) 8 (pointerKind to e.kind)).2) := by
    intro s he; simp only [step, he]
  obtain ⟨u, n, q1, q2⟩ := pointerKind_chain hcs he
  have isPtr : ∀ s t, Inv M s → s.ts[to]? = some e → lookup s.syms (ptrName e.name) = some t →
      IsPointer s t to u (n + 1) := by
    intro s t hi he hk
    obtain ⟨r, hr1, hr2⟩ := hi.bound _ _ hk
    obtain ⟨el', e', q1', q2', q3', q4⟩ := hi.ptr _ _ _ hr1 hname hr2
    have : el' = to := hi.inj _ _ _ _ q1' he q2'
    subst this
    rw [he] at q1'; cases q1'
    exact ⟨r, hr1, by rw [q3', q1], q4⟩
  obtain ⟨⟨l, g1⟩, g2, g3, g4⟩ := findOrCreate_spec (k := ptrName e.name) (sz := 8) (kind := pointerKind to e.kind) hi
  have hi' := (step_inv hi hM (r := .pointer to) trivial (key s he)).1
  have he' := g1 ▸ getElem?_old (x := l) he
  have hp' := isPtr _ _ hi' he' g3
  refine ⟨_, _, u, n + 1, key s he, hp', ?_, ?_⟩
  · obtain ⟨r, h1, h2, _⟩ := hp'
    exact .next h1 h2 (q2.old ⟨l, g1⟩)
  · intro s'' hr'
    obtain ⟨hi'', ⟨l', g1'⟩, g4'⟩ := run_inv hM hi' hr'
    have he'' := g1' ▸ getElem?_old (x := l') he'
    have hk := g4' _ _ g3
    exact ⟨by rw [key s'' he'', isFound hk], isPtr _ _ hi'' he'' hk⟩

theorem base_chains : ChainsRight base := by
  intro t r to u m h1 h2
  rcases t with _ | _ | t <;> simp [base] at h1 <;> subst h1 <;> simp at h2

/-- Pointers to pointers to `a`, and to an array. -/
example : (replay base [.pointer 0, .pointer 2, .array 3 7, .pointer 4, .pointer 2]).map
    (fun x => (x.1, x.2.map T.kind)) =
    some ([some 2, some 3, some 4, some 5, some 3],
      [.other, .other, .pointer 0 0 1, .pointer 2 0 2, .array 7 3, .pointer 4 4 1]) := by decide

/-- **C55 fails** when two types have the same simple name. -/
theorem pointer_same_name_fails :
    (replay ⟨[⟨[97], 4, .other⟩, ⟨[97], 24, .other⟩], []⟩ [.pointer 0, .pointer 1]).map
      (fun x => (x.1, x.2[2]?.map T.kind)) = some ([some 2, some 2], some (.pointer 0 0 1)) := by decide

/-! ## C56 -/

theorem namesOf_inj {M s} (hi : Inv M s) : ∀ {ms ms' : List Nat} {ns}, namesOf s.ts ms = some ns →
    namesOf s.ts ms' = some ns → ms = ms' := by
  intro ms; induction ms with
  | nil =>
    intro ms' ns h h'
    simp [namesOf] at h; subst h
    cases ms' with
    | nil => rfl
    | cons m ms' =>
      rw [namesOf] at h'
      split at h' <;> simp at h'
  | cons m ms ih =>
    intro ms' ns h h'
    rw [namesOf] at h
    split at h
    · rename_i t ns1 e1 e2
      simp only [Option.some.injEq] at h; subst h
      cases ms' with
      | nil => simp [namesOf] at h'
      | cons m' ms' =>
        rw [namesOf] at h'
        split at h'
        · rename_i t' ns1' e1' e2'
          simp only [Option.some.injEq, List.cons.injEq] at h'
          obtain ⟨h1, h2⟩ := h'
          subst h2
          rw [hi.inj _ _ _ _ e1 e1' h1.symm, ih e2 e2']
        · simp at h'
    · simp at h

theorem fillName_ok : ∀ (ns : List Name) (n : Nat), n + ns.flatten.length < 4096 →
    fillName n ns = some (some (n + ns.flatten.length)) := by
  intro ns; induction ns with
  | nil => intro n _; simp [fillName]
  | cons m ms ih =>
    intro n h
    simp only [List.flatten_cons, List.length_append] at h ⊢
    rw [fillName, if_neg (by omega), if_neg (by omega), ih _ (by omega)]
    simp [Nat.add_assoc]

/-- **C56 (partial).** After any history of type requests, asking for the union of some types yields a union of exactly
those types, as large as the largest of them, and asking again later yields the same type. Partial: base types have distinct simple names; the members of
all requested unions have names none of which is a prefix of another; the names together have fewer than 4096 bytes. -/
theorem union_partial {M s₀ s} (hM : M.Ok) (hf : Fresh s₀) (hr : Run M s₀ s) {ms : List Nat} {ns : List Name}
    (hne : ms ≠ []) (hns : namesOf s.ts ms = some ns)
    (hsz : ∀ m ∈ ms, ∃ t : T, s.ts[m]? = some t ∧ t.maxoff ≠ 0 ∧ t.maxoff ≠ UNB) (hm : ∀ n ∈ ns, M.mem n)
    (hlen : ns.flatten.length < 4096) :
    ∃ s' t, step s (.union ms) = .ret s' (some t) ∧ IsUnion s' t ms ∧
      ∀ s'', Run M s' s'' → step s'' (.union ms) = .ret s'' (some t) ∧ IsUnion s'' t ms := by
  have hi : Inv M s := (run_inv hM hf.inv hr).1
  obtain ⟨sz, hsz⟩ := maxSize_some hsz
  have key : ∀ s, namesOf s.ts ms = some ns → maxSize s.ts ms = some sz → step s (.union ms) =
      .ret (findOrCreate s (unionName ns) sz (.union ms)).1
        (some (findOrCreate s (unionName ns) sz (.union ms)).2) := by
    intro s e1 e2
    cases ms with
    | nil => exact absurd rfl hne
    | cons m ms =>
      simp only [step, e1, e2]
      rw [fillName_ok ns 0 (by omega)]
  have isU : ∀ s t, Inv M s → namesOf s.ts ms = some ns → lookup s.syms (unionName ns) = some t → IsUnion s t ms := by
    intro s t hi he hk
    obtain ⟨r, hr1, hr2⟩ := hi.bound _ _ hk
    obtain ⟨ms', q0, q1, q2, q3⟩ := hi.uni _ _ _ hr1 hm hr2
    rw [namesOf_inj hi he q1]
    obtain ⟨p1, p2⟩ := maxSize_spec q3
    refine ⟨r, hr1, q2, fun m hm => ?_, ?_⟩
    · obtain ⟨t, h1, h2, _⟩ := p1 m hm; exact ⟨t, h1, h2⟩
    · rcases p2 with ⟨p2, _⟩ | p2
      · exact absurd p2 q0
      · exact p2
  obtain ⟨⟨l, g1⟩, g2, g3, g4⟩ := findOrCreate_spec (k := unionName ns) (sz := sz) (kind := .union ms) hi
  have hi' := (step_inv hi hM (r := .union ms) (by intro ns' e; rw [hns] at e; cases e; exact hm) (key s hns hsz)).1
  have he' := g1 ▸ namesOf_old (x := l) hns
  have hz' := g1 ▸ maxSize_old (x := l) hsz
  refine ⟨_, _, key s hns hsz, isU _ _ hi' he' g3, ?_⟩
  intro s'' hr'
  obtain ⟨hi'', ⟨l', g1'⟩, g4'⟩ := run_inv hM hi' hr'
  have he'' := g1' ▸ namesOf_old (x := l') he'
  have hz'' := g1' ▸ maxSize_old (x := l') hz'
  have hk := g4' _ _ g3
  exact ⟨by rw [key s'' he'' hz'', isFound hk], isU _ _ hi'' he'' hk⟩

example : (replay base [.union [0, 1], .union [1, 0], .union [0, 1], .union [0, 1, 1]]).map
    (fun x => (x.1, x.2.map T.maxoff)) = some ([some 2, some 3, some 2, some 4], [4, 8, 8, 8, 8]) := by decide

/-- A prefix-free set of names, for the theorem's hypothesis. -/
example : PrefixFree (fun n => n = [97] ∨ n = [98]) := by
  refine ⟨by simp, ?_⟩
  rintro a b (rfl | rfl) (rfl | rfl) h <;> simp [List.prefix_cons_iff] at h ⊢

/-- **C56 fails** in general: with types named `a`, `ab`, `bc` and `c`, the union of `ab` and `c` is answered with the
earlier union of `a` and `bc`. -/
theorem union_concat_fails :
    (replay ⟨[⟨[97], 4, .other⟩, ⟨[97, 98], 4, .other⟩, ⟨[98, 99], 4, .other⟩, ⟨[99], 4, .other⟩], []⟩
      [.union [0, 2], .union [1, 3]]).map (fun x => (x.1, x.2[4]?.map T.kind)) =
      some ([some 4, some 4], some (.union [0, 2])) := by decide

theorem maxSize_rep (nm : Name) (k : Kind) : ∀ n, maxSize [⟨nm, 4, k⟩] (List.replicate (n + 1) 0) = some 4 := by
  intro n; induction n with
  | zero => simp [maxSize, UNB]
  | succ n ih =>
    rw [List.replicate_succ, maxSize, ih]; simp [UNB]

theorem namesOf_rep (t : T) : ∀ n, namesOf [t] (List.replicate n 0) = some (List.replicate n t.name) := by
  intro n; induction n with
  | zero => simp [namesOf]
  | succ n ih => rw [List.replicate_succ, namesOf, ih]; simp [List.replicate_succ]

/-- **C56 fails** for long unions: two members whose names have 2048 bytes or more each (but fewer than 4096) overrun
the name buffer. -/
theorem union_overrun_fails (nm : Name) (h : 2048 ≤ nm.length) (h' : nm.length < 4096) (k : Kind) :
    step ⟨[⟨nm, 4, k⟩], []⟩ (.union [0, 0]) = .overrun := by
  have e1 := namesOf_rep ⟨nm, 4, k⟩ 2
  have e2 := maxSize_rep nm k 1
  have e3 : fillName 0 [nm, nm] = none := by
    rw [fillName, if_neg (by omega), if_neg (by omega), fillName, if_neg (by omega), if_pos (by omega)]
  simp only [List.replicate] at e1 e2
  simp only [step, e1, e2, e3]

theorem fillName_sum : ∀ (ns : List Name) (n : Nat), n < 4096 → (∀ m ∈ ns, m.length < 4096) →
    (fillName n ns = none ↔ 4096 ≤ n + ns.flatten.length) := by
  intro ns; induction ns with
  | nil => intro n hn _; simp [fillName]; omega
  | cons m ms ih =>
    intro n hn h
    have h1 := h m (by simp)
    simp only [List.flatten_cons, List.length_append]
    rw [fillName, if_neg (by omega)]
    by_cases hc : n + m.length ≥ 4096
    · rw [if_pos hc]; simp; omega
    · rw [if_neg hc, ih _ (by omega) (fun x hx => h x (by simp [hx]))]; omega

/-- When a union request overruns the name buffer: with member names that each fit the buffer, exactly when together they
do not. -/
theorem union_overrun_iff (s : S) {ms : List Nat} {ns : List Name} (hns : namesOf s.ts ms = some ns)
    (hsz : ∀ m ∈ ms, ∃ t : T, s.ts[m]? = some t ∧ t.maxoff ≠ 0 ∧ t.maxoff ≠ 2 ^ 32 - 1)
    (hfit : ∀ n ∈ ns, n.length < 4096) : step s (.union ms) = .overrun ↔ 4096 ≤ ns.flatten.length := by
  cases ms with
  | nil => simp [namesOf] at hns; subst hns; simp [step]
  | cons m ms =>
    obtain ⟨sz, hz⟩ := maxSize_some hsz
    have := fillName_sum ns 0 (by omega) hfit
    rw [Nat.zero_add] at this
    rw [← this]
    simp only [step, hns, hz]
    cases hf : fillName 0 ns with
    | none => simp
    | some o => cases o <;> simp

/-- The first member's name not fitting the buffer by itself gives null and records nothing. -/
theorem union_long_name (s : S) {m : Nat} {ms : List Nat} {n : Name} {ns : List Name} (hns : namesOf s.ts (m :: ms) = some (n :: ns))
    (hsz : ∀ x ∈ m :: ms, ∃ t : T, s.ts[x]? = some t ∧ t.maxoff ≠ 0 ∧ t.maxoff ≠ 2 ^ 32 - 1) (h : 4096 ≤ n.length) :
    step s (.union (m :: ms)) = .ret s none := by
  obtain ⟨sz, hz⟩ := maxSize_some hsz
  simp only [step, hns, hz]
  rw [fillName, if_pos (by omega)]

/-- Unions of members without a size, or of unbounded size, are refused. -/
theorem union_unsized (s : S) {m : Nat} {ms : List Nat} {x : Nat} {e : T} (hx : x ∈ m :: ms) (he : s.ts[x]? = some e)
    (h0 : e.maxoff = 0 ∨ e.maxoff = 2 ^ 32 - 1) : step s (.union (m :: ms)) = .bad := by
  have : maxSize s.ts (m :: ms) = none := by
    cases hz : maxSize s.ts (m :: ms) with
    | none => rfl
    | some z =>
      obtain ⟨t, h1, _, h2, h3⟩ := (maxSize_spec hz).1 x hx
      rw [he] at h1; cases h1
      rcases h0 with h | h <;> contradiction
  simp only [step, this]
  cases namesOf s.ts (m :: ms) <;> rfl

/-- Arrays (of any of the three sorts) of elements without a size, or of unbounded size, are null, and nothing is recorded;
arrays of other elements, of a length short of the unbounded one, are never null. -/
theorem array_null_iff (s : S) {el : Nat} {e : T} (he : s.ts[el]? = some e) (len : Nat) (hl : len < 2 ^ 31 - 1) :
    (step s (.array el len) = .ret s none ↔ e.maxoff = 0 ∨ e.maxoff = 2 ^ 32 - 1) ∧
    (step s (.unbounded el) = .ret s none ↔ e.maxoff = 0 ∨ e.maxoff = 2 ^ 32 - 1) ∧
    (step s (.flexible el) = .ret s none ↔ e.maxoff = 0 ∨ e.maxoff = 2 ^ 32 - 1) := by
  have hL : LENUNB = 2 ^ 31 - 1 := rfl
  have hU : UNB = 2 ^ 32 - 1 := rfl
  simp only [step, he]
  rw [if_neg (by omega), hU]
  refine ⟨?_, ?_, ?_⟩ <;> split <;> simp_all

/-- The length standing for "unbounded", and all above, are refused as array lengths. -/
theorem array_len_refused (s : S) {el : Nat} {e : T} (he : s.ts[el]? = some e) (len : Nat) (hl : 2 ^ 31 - 1 ≤ len) :
    step s (.array el len) = .bad := by
  have hL : LENUNB = 2 ^ 31 - 1 := rfl
  simp only [step, he]
  rw [if_pos (by omega)]

/-! ## C87 -/

theorem fillArgs_spec : ∀ (ns : List Name) (pos i : Nat), fillArgs pos i ns =
    if pos + (argsName i ns).length > 4096 then none else some (pos + (argsName i ns).length) := by
  intro ns; induction ns with
  | nil => intro pos i; simp [fillArgs, argsName]
  | cons n ns ih =>
    intro pos i
    rw [fillArgs, ih, argsName]
    have : pos + ([95, 95, 65, 82, 71] ++ dec i ++ 95 :: n ++ argsName (i + 1) ns).length =
        pos + (5 + (dec i).length + 1 + n.length) + (argsName (i + 1) ns).length := by simp; omega
    rw [this]
    by_cases h : pos > 4096
    · rw [if_pos h, if_pos (by omega)]
    · rw [if_neg h]

/-- **C87 (partial).** After any history of type requests, asking for the type of functions from some types to a type yields a
function type of exactly those arguments, in that order, and that result, of unbounded size; asking again at any later time
yields the same type. Partial: base types have pairwise distinct simple names; the arguments of all requested functions have
separable names; the names together have at most 4062 bytes. -/
theorem function_partial {M s₀ s} (hM : M.Ok) (hf : Fresh s₀) (hr : Run M s₀ s) {ret : Nat} {args : List Nat} {e : T}
    {ns : List Name} (he : s.ts[ret]? = some e) (hns : namesOf s.ts args = some ns) (hm : ∀ n ∈ ns, M.arg n)
    (hlen : (argsName 0 ns).length + e.name.length ≤ 4062) :
    ∃ s' t, step s (.subprogram ret args) = .ret s' (some t) ∧ IsFunction s' t ret args ∧
      ∀ s'', Run M s' s'' → step s'' (.subprogram ret args) = .ret s'' (some t) ∧ IsFunction s'' t ret args := by
  have hi : Inv M s := (run_inv hM hf.inv hr).1
  have key : ∀ s : S, s.ts[ret]? = some e → namesOf s.ts args = some ns → step s (.subprogram ret args) =
      .ret (findOrCreate s (funName ns e.name) UNB (.subprogram ret args)).1
        (some (findOrCreate s (funName ns e.name) UNB (.subprogram ret args)).2) := by
    intro s e1 e2
    simp only [step, e1, e2]
    rw [fillArgs_spec, if_neg (by omega)]
  have isF : ∀ s t, Inv M s → s.ts[ret]? = some e → namesOf s.ts args = some ns → lookup s.syms (funName ns e.name) = some t →
      IsFunction s t ret args := by
    intro s t hi he hns hk
    obtain ⟨r, hr1, hr2⟩ := hi.bound _ _ hk
    obtain ⟨as, rt, e', q1, q2, q3, q4, q5⟩ := hi.fn _ _ _ _ hr1 hm hlen hr2
    have h1 : rt = ret := hi.inj _ _ _ _ q2 he q3
    have h2 : as = args := namesOf_inj hi q1 hns
    subst h1 h2
    exact ⟨r, hr1, q4, q5⟩
  obtain ⟨⟨l, g1⟩, g2, g3, g4⟩ := findOrCreate_spec (k := funName ns e.name) (sz := UNB) (kind := .subprogram ret args) hi
  have hi' := (step_inv hi hM (r := .subprogram ret args) (by intro ns' e; rw [hns] at e; cases e; exact hm) (key s he hns)).1
  have he' := g1 ▸ getElem?_old (x := l) he
  have hns' := g1 ▸ namesOf_old (x := l) hns
  refine ⟨_, _, key s he hns, isF _ _ hi' he' hns' g3, ?_⟩
  intro s'' hr'
  obtain ⟨hi'', ⟨l', g1'⟩, g4'⟩ := run_inv hM hi' hr'
  have he'' := g1' ▸ getElem?_old (x := l') he'
  have hns'' := g1' ▸ namesOf_old (x := l') hns'
  have hk := g4' _ _ g3
  exact ⟨by rw [key s'' he'' hns'', isFound hk], isF _ _ hi'' he'' hns'' hk⟩

/-- The type asked for tells what was asked: different requests for function types have different answers. -/
theorem function_inj {s : S} {t ret ret' : Nat} {args args' : List Nat} (h : IsFunction s t ret args) (h' : IsFunction s t ret' args') :
    ret = ret' ∧ args = args' := by
  obtain ⟨r, a1, a2, _⟩ := h
  obtain ⟨r', b1, b2, _⟩ := h'
  rw [a1] at b1; cases b1
  rw [a2] at b2
  simp only [Kind.subprogram.injEq] at b2
  exact b2

/-- When a request for a function type overruns the name buffer: exactly when the arguments' names, each with its `__ARGn_`,
have more than 4073 bytes together. -/
theorem function_overrun_iff (s : S) {ret : Nat} {args : List Nat} {e : T} {ns : List Name} (he : s.ts[ret]? = some e)
    (hns : namesOf s.ts args = some ns) : step s (.subprogram ret args) = .overrun ↔ 4073 < (argsName 0 ns).length := by
  simp only [step, he, hns]
  rw [fillArgs_spec]
  by_cases h : 23 + (argsName 0 ns).length > 4096
  · rw [if_pos h]; simp; omega
  · rw [if_neg h]; simp; omega

/-- A name without double underscores that does not end in an underscore. -/
def Plain (n : Name) : Prop := n ≠ [] ∧ (∀ x y, n ≠ x ++ 95 :: 95 :: y) ∧ ∀ x, n ≠ x ++ [95]

mutual
/-- Names of types built from plainly named ones by pointers, arrays and functions. -/
inductive Built : Name → Prop
  | plain {n} : Plain n → Built n
  | ptr {n} : Built n → Built ([95, 95, 80, 84, 82, 95] ++ n)
  | arr {n} (len : Nat) : Built n → Built ([95, 95, 65, 82, 82] ++ dec len ++ 95 :: n)
  | unb {n} : Built n → Built ([95, 95, 65, 82, 82] ++ 95 :: n)
  | fn {n} : BuiltArgs 0 n → Built ([95, 95, 70, 85, 78, 95, 70, 82, 79, 77, 95] ++ n)

/-- The arguments from the `i`th on, and the result. -/
inductive BuiltArgs : Nat → Name → Prop
  | done {i n} : Built n → BuiltArgs i ([95, 95, 70, 85, 78, 95, 84, 79, 95] ++ n)
  | more {i n m} : Built n → BuiltArgs (i + 1) m → BuiltArgs i ([95, 95, 65, 82, 71] ++ dec i ++ 95 :: n ++ m)
end

theorem builtArgs_start {i n} (h : BuiltArgs i n) : ∃ m, n = 95 :: 95 :: m := by
  cases h with
  | done => exact ⟨_, rfl⟩
  | more => exact ⟨_, rfl⟩

/-- The part before the first double underscore is determined. -/
theorem plain_cut : ∀ (a b x y : Name), (∀ x y, a ≠ x ++ 95 :: 95 :: y) → (∀ x, a ≠ x ++ [95]) → (∀ x y, b ≠ x ++ 95 :: 95 :: y) →
    (∀ x, b ≠ x ++ [95]) → a ++ 95 :: 95 :: x = b ++ 95 :: 95 :: y → a = b := by
  have short : ∀ (b x y : Name), (∀ x y, b ≠ x ++ 95 :: 95 :: y) → (∀ x, b ≠ x ++ [95]) → 95 :: 95 :: x = b ++ 95 :: 95 :: y → [] = b := by
    intro b x y h1 h2 e
    match b with
    | [] => rfl
    | [c] => simp at e; exact absurd (by rw [← e.1]; rfl) (h2 [])
    | c :: d :: b => simp at e; exact absurd (by rw [← e.1, ← e.2.1]; rfl) (h1 [] b)
  intro a; induction a with
  | nil => intro b x y _ _ h1 h2 e; exact short b x y h1 h2 e
  | cons c a ih =>
    intro b x y h1 h2 h3 h4 e
    cases b with
    | nil => exact (short (c :: a) y x h1 h2 e.symm).symm
    | cons d b =>
      simp only [List.cons_append, List.cons.injEq] at e
      rw [e.1, ih b x y (fun x y h => h1 (c :: x) y (by rw [h]; rfl)) (fun x h => h2 (c :: x) (by rw [h]; rfl))
        (fun x y h => h3 (d :: x) y (by rw [h]; rfl)) (fun x h => h4 (d :: x) (by rw [h]; rfl)) e.2]

/-- A plain name does not begin like a built one. -/
theorem plain_ne {a m x : Name} (h : Plain a) (e : a ++ 95 :: 95 :: x = 95 :: 95 :: m) : False := by
  obtain ⟨h0, h1, h2⟩ := h
  match a with
  | [] => exact h0 rfl
  | [c] => simp at e; exact h2 [] (by rw [e.1]; rfl)
  | c :: d :: b => simp at e; exact h1 [] b (by rw [e.1, e.2.1]; rfl)

theorem dec_ne_us (n : Nat) : ∀ d ∈ dec n, d ≠ 95 := fun d hd => by have := decAux_digits _ _ d hd; omega

theorem dec_start (n : Nat) (x y : Name) : dec n ++ x ≠ 95 :: y := by
  obtain ⟨d, r, e, h⟩ := dec_head n
  rw [e]; intro q; simp at q; omega

/-- The names of types built from plainly named ones can be told apart from what follows. -/
theorem built_cut : ∀ (k : Nat) (a : Name), a.length ≤ k →
    (Built a → ∀ b, Built b → ∀ x y, a ++ 95 :: 95 :: x = b ++ 95 :: 95 :: y → a = b) ∧
    (∀ i, BuiltArgs i a → ∀ b, BuiltArgs i b → ∀ x y, a ++ 95 :: 95 :: x = b ++ 95 :: 95 :: y → a = b) := by
  intro k
  induction k with
  | zero =>
    intro a hk
    have : a = [] := List.length_eq_zero_iff.mp (Nat.le_zero.mp hk)
    subst this
    refine ⟨?_, ?_⟩
    · intro h
      generalize hn : ([] : Name) = n at h
      cases h with
      | plain h => exact absurd hn.symm h.1
      | ptr => simp at hn
      | arr => simp at hn
      | unb => simp at hn
      | fn => simp at hn
    · intro i h
      obtain ⟨m, hm⟩ := builtArgs_start h
      simp at hm
  | succ k ih =>
    intro a hk
    refine ⟨?_, ?_⟩
    · intro ha b hb x y e
      cases ha with
      | plain ha =>
        cases hb with
        | plain hb => exact plain_cut _ _ _ _ ha.2.1 ha.2.2 hb.2.1 hb.2.2 e
        | ptr => exact (plain_ne ha (by simpa using e)).elim
        | arr => exact (plain_ne ha (by simpa using e)).elim
        | unb => exact (plain_ne ha (by simpa using e)).elim
        | fn => exact (plain_ne ha (by simpa using e)).elim
      | ptr ha =>
        cases hb with
        | plain hb => exact (plain_ne hb (by simpa using e.symm)).elim
        | ptr hb =>
          rename_i n n'
          simp only [List.append_assoc, List.append_cancel_left_eq] at e
          rw [(ih n (by simp at hk; omega)).1 ha n' hb x y e]
        | arr => simp at e
        | unb => simp at e
        | fn => simp at e
      | arr len ha =>
        cases hb with
        | plain hb => exact (plain_ne hb (by simpa using e.symm)).elim
        | ptr => simp at e
        | arr len' hb =>
          rename_i n n'
          simp only [List.append_assoc, List.cons_append, List.cons.injEq, true_and, List.nil_append] at e
          obtain ⟨e1, e2⟩ := sep_inj _ _ _ _ (dec_ne_us _) (dec_ne_us _) e
          rw [(ih n (by simp at hk; omega)).1 ha n' hb x y e2, e1]
        | unb hb =>
          simp only [List.append_assoc, List.cons_append, List.cons.injEq, true_and, List.nil_append] at e
          exact absurd e (dec_start _ _ _)
        | fn => simp at e
      | unb ha =>
        cases hb with
        | plain hb => exact (plain_ne hb (by simpa using e.symm)).elim
        | ptr => simp at e
        | arr len' hb =>
          simp only [List.append_assoc, List.cons_append, List.cons.injEq, true_and, List.nil_append] at e
          exact absurd e.symm (dec_start _ _ _)
        | unb hb =>
          rename_i n n'
          simp only [List.append_assoc, List.append_cancel_left_eq, List.cons_append, List.cons.injEq, true_and] at e
          rw [(ih n (by simp at hk; omega)).1 ha n' hb x y e]
        | fn => simp at e
      | fn ha =>
        cases hb with
        | plain hb => exact (plain_ne hb (by simpa using e.symm)).elim
        | ptr => simp at e
        | arr => simp at e
        | unb => simp at e
        | fn hb =>
          rename_i n n'
          simp only [List.append_assoc, List.append_cancel_left_eq] at e
          rw [(ih n (by simp at hk; omega)).2 0 ha n' hb x y e]
    · intro i ha b hb x y e
      cases ha with
      | done ha =>
        cases hb with
        | done hb =>
          rename_i n n'
          simp only [List.append_assoc, List.append_cancel_left_eq] at e
          rw [(ih n (by simp at hk; omega)).1 ha n' hb x y e]
        | more => simp at e
      | more ha ham =>
        cases hb with
        | done => simp at e
        | more hb hbm =>
          rename_i n m n' m'
          simp only [List.append_assoc, List.append_cancel_left_eq, List.cons_append, List.cons.injEq, true_and] at e
          obtain ⟨u, hu⟩ := builtArgs_start ham
          obtain ⟨v, hv⟩ := builtArgs_start hbm
          have h1 : n = n' := by
            refine (ih n (by simp at hk; omega)).1 ha n' hb (u ++ 95 :: 95 :: x) (v ++ 95 :: 95 :: y) ?_
            rw [hu, hv] at e
            simpa using e
          subst h1
          rw [List.append_cancel_left_eq] at e
          rw [(ih m (by simp at hk; omega)).2 (i + 1) ham m' hbm x y e]

/-- So the theorem's hypothesis on arguments holds whenever all are built from plainly named types. -/
theorem built_separable : Separable Built := fun a b ha hb x y e => (built_cut a.length a (Nat.le_refl _)).1 ha b hb x y e

/-- Names are built as the model's name functions do, as long as they are not clipped. -/
theorem built_names {n : Name} (h : Built n) (len : Nat) (hl : n.length ≤ 4000) :
    Built (ptrName n) ∧ Built (arrName len n) ∧ Built (unbName n) := by
  have hd := dec_length len
  refine ⟨?_, ?_, ?_⟩
  · unfold ptrName; rw [clip_eq (by simp; omega)]; exact .ptr h
  · unfold arrName; rw [clip_eq (by simp; omega)]; exact .arr len h
  · unfold unbName; rw [clip_eq (by simp; omega)]; exact .unb h

theorem builtArgs_names : ∀ (ns : List Name) (i : Nat) (r : Name), (∀ n ∈ ns, Built n) → Built r →
    BuiltArgs i (argsName i ns ++ ([95, 95, 70, 85, 78, 95, 84, 79, 95] ++ r)) := by
  intro ns; induction ns with
  | nil => intro i r _ hr; exact .done hr
  | cons n ns ih =>
    intro i r h hr
    rw [argsName]
    have := BuiltArgs.more (i := i) (h n (by simp)) (ih (i + 1) r (fun x hx => h x (by simp [hx])) hr)
    simpa using this

theorem built_fun {ns : List Name} {r : Name} (h : ∀ n ∈ ns, Built n) (hr : Built r) (hl : (argsName 0 ns).length + r.length ≤ 4062) :
    Built (funName ns r) := by
  unfold funName
  rw [clip_eq (by simp; omega)]
  have := Built.fn (builtArgs_names ns 0 r h hr)
  simpa using this

theorem plain_a : Plain [97] ∧ Plain [98] := by
  refine ⟨⟨by simp, ?_, ?_⟩, ⟨by simp, ?_, ?_⟩⟩
  · intro x y h; rcases x with _ | ⟨c, _ | ⟨d, x⟩⟩ <;> simp at h
  · intro x h; rcases x with _ | ⟨c, _ | ⟨d, x⟩⟩ <;> simp at h
  · intro x y h; rcases x with _ | ⟨c, _ | ⟨d, x⟩⟩ <;> simp at h
  · intro x h; rcases x with _ | ⟨c, _ | ⟨d, x⟩⟩ <;> simp at h

/-- Names satisfying the hypotheses of all theorems here. -/
example : Names.Ok ⟨fun n => n = [97] ∨ n = [98], Built⟩ := by
  refine ⟨⟨by simp, ?_⟩, built_separable⟩
  rintro a b (rfl | rfl) (rfl | rfl) h <;> simp [List.prefix_cons_iff] at h ⊢

/-- A function of `a` and `b` to `a`; the order matters; a function taking pointers to it; no arguments. -/
example : (replay base [.subprogram 0 [0, 1], .subprogram 0 [1, 0], .subprogram 0 [0, 1], .pointer 2, .subprogram 1 [4, 0],
      .subprogram 1 [], .subprogram 1 [4, 0]]).map (fun x => (x.1, x.2.map T.kind)) =
    some ([some 2, some 3, some 2, some 4, some 5, some 6, some 5],
      [.other, .other, .subprogram 0 [0, 1], .subprogram 0 [1, 0], .pointer 2 2 1, .subprogram 1 [4, 0], .subprogram 1 []]) := by
  decide +kernel

/-- **C87 fails** in general: with types named `a`, `b` and `a__ARG1_b`, the function of one argument of the last type is
answered with the earlier function of two arguments. -/
theorem function_name_fails :
    (replay ⟨[⟨[97], 4, .other⟩, ⟨[98], 4, .other⟩, ⟨[97, 95, 95, 65, 82, 71, 49, 95, 98], 4, .other⟩], []⟩
      [.subprogram 0 [0, 1], .subprogram 0 [2]]).map (fun x => (x.1, x.2[3]?.map T.kind)) =
      some ([some 3, some 3], some (.subprogram 0 [0, 1])) := by decide +kernel

/-- **C87 fails** when two types have the same simple name. -/
theorem function_same_name_fails :
    (replay ⟨[⟨[97], 4, .other⟩, ⟨[97], 24, .other⟩], []⟩ [.subprogram 0 [0], .subprogram 1 [1]]).map
      (fun x => (x.1, x.2[2]?.map T.kind)) = some ([some 2, some 2], some (.subprogram 0 [0])) := by decide +kernel

theorem namesOf_length {ts : List T} : ∀ {ms : List Nat} {ns}, namesOf ts ms = some ns → ns.length = ms.length := by
  intro ms; induction ms with
  | nil => intro ns h; simp [namesOf] at h; subst h; rfl
  | cons m ms ih =>
    intro ns h
    rw [namesOf] at h
    split at h
    · rename_i e1 e2
      simp only [Option.some.injEq] at h; subst h
      simp [ih e2]
    · simp at h

theorem argsName_length : ∀ (ns : List Name) (i : Nat), 7 * ns.length ≤ (argsName i ns).length := by
  intro ns; induction ns with
  | nil => intro i; simp
  | cons n ns ih =>
    intro i
    have h1 := ih (i + 1)
    have h2 : 1 ≤ (dec i).length := by obtain ⟨d, r, e, _⟩ := dec_head i; rw [e]; simp
    rw [argsName]; simp; omega

/-- **C87 fails** for long argument lists: with 582 arguments or more, of whatever types, the name buffer is overrun. -/
theorem function_overrun_fails (s : S) {ret : Nat} {args : List Nat} {e : T} {ns : List Name} (he : s.ts[ret]? = some e)
    (hns : namesOf s.ts args = some ns) (h : 582 ≤ args.length) : step s (.subprogram ret args) = .overrun := by
  rw [function_overrun_iff s he hns]
  have := argsName_length ns 0
  have := namesOf_length hns
  omega

/-! ## C88 -/

/-- **C88 (partial).** A flexible array type made precise for the part of a memory range from an object on is the array type of
as many elements as fit there; asking again yields the same type. Partial: that many elements must be fewer than the number
that stands for unbounded, and the array's size must fit 32 bits; names as for arrays. -/
theorem precise_partial {M s₀ s} (hM : M.Ok) (hf : Fresh s₀) (hr : Run M s₀ s) {t el : Nat} {r e : T} (ht : s.ts[t]? = some r)
    (hk : r.kind = .unbounded el true) (he : s.ts[el]? = some e) (hname : e.name.length ≤ 4000) (h0 : e.maxoff ≠ 0)
    (hu : e.maxoff ≠ UNB) {obj base sz : Nat} (hin : obj ≤ base + sz) (hsz : base + sz - obj < 2 ^ 32)
    (hl : (base + sz - obj) / e.maxoff < 2 ^ 31 - 1) :
    ∃ s' t' len, makePrecise s t obj base sz = .ret s' (some t') ∧ Run M s s' ∧ IsArray s' t' el len ∧
      (∀ n, n ≤ len ↔ obj + n * e.maxoff ≤ base + sz) ∧
      ∀ s'', Run M s' s'' → makePrecise s'' t obj base sz = .ret s'' (some t') ∧ IsArray s'' t' el len := by
  have hq : (base + sz + 2 ^ 64 - obj) % 2 ^ 64 = base + sz - obj := by omega
  have hd : (base + sz - obj) / e.maxoff * e.maxoff ≤ base + sz - obj := Nat.div_mul_le_self _ _
  have hlt : (base + sz - obj) / e.maxoff % 2 ^ 32 = (base + sz - obj) / e.maxoff := Nat.mod_eq_of_lt (by omega)
  have key : ∀ s : S, s.ts[t]? = some r → s.ts[el]? = some e →
      makePrecise s t obj base sz = step s (.array el ((base + sz - obj) / e.maxoff)) := by
    intro s ht he
    simp only [makePrecise, ht, hk, he]
    rw [if_neg (by rintro (h | h) <;> contradiction), hq, hlt]
  obtain ⟨s', t', e1, e2, e3⟩ := array_partial hM hf hr he hname h0 hu (len := (base + sz - obj) / e.maxoff) hl (by omega)
  have hrun : Run M s s' := .step (r := .array el ((base + sz - obj) / e.maxoff)) (.refl s) trivial e1
  refine ⟨s', t', (base + sz - obj) / e.maxoff, by rw [key s ht he]; exact e1, hrun, e2, ?_, ?_⟩
  · intro n
    rw [Nat.le_div_iff_mul_le (Nat.pos_of_ne_zero h0)]
    omega
  · intro s'' hr'
    have hi := (run_inv hM hf.inv hr).1
    obtain ⟨hi', ⟨l, g1⟩, _⟩ := run_inv hM hi hrun
    obtain ⟨_, ⟨l', g1'⟩, _⟩ := run_inv hM hi' hr'
    have ht' := g1' ▸ getElem?_old (x := l') (g1 ▸ getElem?_old (x := l) ht)
    have he' := g1' ▸ getElem?_old (x := l') (g1 ▸ getElem?_old (x := l) he)
    rw [key s'' ht' he']
    exact e3 s'' hr'

/-- Types without `make_precise` stay. -/
theorem precise_other {s : S} {t : Nat} {r : T} (ht : s.ts[t]? = some r) (hk : ∀ el, r.kind ≠ .unbounded el true) (obj base sz : Nat) :
    makePrecise s t obj base sz = .ret s (some t) := by
  simp only [makePrecise, ht]

/-- Flexible arrays of `a` (4 bytes) and 10 bytes from 1004 to the end of 1000 to 1014: two elements; 9 elements from 1000 to 1039. -/
example : ((makePrecise ⟨[⟨[97], 4, .other⟩, ⟨unbName [97], UNB, .unbounded 0 true⟩], []⟩ 1 1004 1000 14).got.map
      (fun x => (x.2, x.1.ts[2]?.map T.kind)),
    (makePrecise ⟨[⟨[97], 4, .other⟩, ⟨unbName [97], UNB, .unbounded 0 true⟩], []⟩ 1 1000 1000 39).got.map
      (fun x => (x.2, x.1.ts[2]?.map T.kind))) = (some (some 2, some (.array 2 0)), some (some 2, some (.array 9 0))) := by decide +kernel

/-- **C88 fails** for ranges of four gigabytes or more: 2^32 + 3 one-byte elements become 3. -/
theorem precise_wrap_fails : (makePrecise ⟨[⟨[97], 1, .other⟩, ⟨unbName [97], UNB, .unbounded 0 true⟩], []⟩ 1 4096 4096 (2 ^ 32 + 3)).got.map
      (fun x => (x.2, x.1.ts[2]?.map T.kind)) = some (some 2, some (.array 3 0)) := by decide +kernel

/-- **C88 fails** between two and four gigabytes: for one-byte elements the program ends. -/
theorem precise_big_fails (s : S) {t el : Nat} {r e : T} (ht : s.ts[t]? = some r)
    (hk : r.kind = .unbounded el true) (he : s.ts[el]? = some e) (h1 : e.maxoff = 1) {obj base sz : Nat} (hin : obj ≤ base + sz)
    (h : 2 ^ 31 - 1 ≤ base + sz - obj) (h' : base + sz - obj < 2 ^ 32) : makePrecise s t obj base sz = .bad := by
  have hq : (base + sz + 2 ^ 64 - obj) % 2 ^ 64 = base + sz - obj := by omega
  simp only [makePrecise, ht, hk, he]
  rw [h1, hq, Nat.div_one, Nat.mod_eq_of_lt h', if_neg (by unfold UNB; omega)]
  exact array_len_refused s he _ h

/-! ## C89 -/

/-- What array requests return is named as asked. -/
theorem array_name {M s} (hi : Inv M s) {el len t : Nat} {e : T} {s' : S} (he : s.ts[el]? = some e)
    (h : step s (.array el len) = .ret s' (some t)) : ∃ r : T, s'.ts[t]? = some r ∧ r.name = arrName len e.name := by
  simp only [step, he] at h
  split at h
  · simp at h
  · split at h
    · simp at h
    · simp only [Res.ret.injEq, Option.some.injEq] at h
      obtain ⟨rfl, rfl⟩ := h
      exact (findOrCreate_spec hi).2.1

theorem grown {M s₀ s} (hM : M.Ok) (hf : Fresh s₀) (hr : Run M s₀ s) : Inv M s := (run_inv hM hf.inv hr).1

theorem Run.trans {M a b c} (h : Run M a b) (h' : Run M b c) : Run M a c := by
  induction h' with
  | refl => exact h
  | step _ ha e ih => exact .step ih ha e

theorem kept {M s s'} (hM : M.Ok) (hi : Inv M s) (hr : Run M s s') {i : Nat} {t : T} (h : s.ts[i]? = some t) : s'.ts[i]? = some t := by
  obtain ⟨_, ⟨l, g⟩, _⟩ := run_inv hM hi hr
  exact g ▸ getElem?_old (x := l) h

theorem IsArray.kept {M s s'} (hM : M.Ok) (hi : Inv M s) (hr : Run M s s') {t el len : Nat} (h : IsArray s t el len) : IsArray s' t el len := by
  obtain ⟨r, e, h1, h2, h3⟩ := h
  exact ⟨r, e, TypeMemo.kept hM hi hr h1, TypeMemo.kept hM hi hr h2, h3⟩

theorem addType_core {M s₀ s s1} (hM : M.Ok) (hf : Fresh s₀) (hr : Run M s₀ s) {old t o block sz : Nat} {ro et : T}
    (hp : makePrecise s old block block sz = .ret s1 (some o)) (hr1 : Run M s s1) (ho : s1.ts[o]? = some ro)
    (ho0 : ro.maxoff ≠ 0) (hou : ro.maxoff ≠ UNB) (ht : s.ts[t]? = some et) (ht0 : et.maxoff ≠ 0) (htu : et.maxoff ≠ UNB)
    (htn : et.name.length ≤ 4000) (hts : et.maxoff ≤ sz) (hsz : sz < 2 ^ 32 - 1) (hl : sz / et.maxoff < 2 ^ 31 - 1)
    (hmo : M.mem ro.name) (hmn : M.mem (arrName (sz / et.maxoff) et.name))
    (hlen : ro.name.length + (arrName (sz / et.maxoff) et.name).length < 4096) :
    ∃ s' u n, addType s old t block sz = .done s' u ∧ IsUnion s' u [o, n] ∧ IsArray s' n t (sz / et.maxoff) ∧ Run M s1 s' := by
  have hs1 : Run M s₀ s1 := hr.trans hr1
  have ht1 := kept hM (grown hM hf hr) hr1 ht
  have hd : sz / et.maxoff * et.maxoff ≤ sz := Nat.div_mul_le_self _ _
  have hpos : 0 < sz / et.maxoff := Nat.div_pos hts (Nat.pos_of_ne_zero ht0)
  obtain ⟨s2, n, e1, e2, e3⟩ := array_partial hM hf hs1 ht1 htn ht0 htu (len := sz / et.maxoff) hl (by omega)
  have hr2 : Run M s1 s2 := .step (r := .array t (sz / et.maxoff)) (.refl s1) trivial e1
  obtain ⟨rn, n1, n2⟩ := array_name (grown hM hf hs1) ht1 e1
  have ho2 := kept hM (grown hM hf hs1) hr2 ho
  have hns : namesOf s2.ts [o, n] = some [ro.name, arrName (sz / et.maxoff) et.name] := by
    simp [namesOf, ho2, n1, n2]
  have hsize : rn.maxoff = sz / et.maxoff * et.maxoff := by
    obtain ⟨r, e, a1, a2, _, a4⟩ := e2
    rw [n1] at a1; cases a1
    rw [kept hM (grown hM hf hs1) hr2 ht1] at a2; cases a2
    exact a4
  have hne : 0 < sz / et.maxoff * et.maxoff := Nat.mul_pos hpos (Nat.pos_of_ne_zero ht0)
  obtain ⟨s', u, f1, f2, f3⟩ := union_partial hM hf (hs1.trans hr2) (ms := [o, n]) (by simp) hns
    (by
      intro m hm
      simp at hm
      rcases hm with rfl | rfl
      · exact ⟨ro, ho2, ho0, hou⟩
      · refine ⟨rn, n1, by omega, by unfold UNB; omega⟩)
    (by intro x hx; simp at hx; rcases hx with rfl | rfl <;> assumption) (by simpa using hlen)
  have hr3 : Run M s2 s' := .step (r := .union [o, n]) (.refl s2)
    (by intro ns e x hx; rw [hns] at e; cases e; simp at hx; rcases hx with rfl | rfl <;> assumption) f1
  refine ⟨s', u, n, ?_, f2, e2.kept hM (grown hM hf (hs1.trans hr2)) hr3, hr2.trans hr3⟩
  simp only [addType, hp, ht1, addUnion]
  rw [if_neg ht0, Nat.mod_eq_of_lt (by omega), e1]
  simp only [f1]

/-- **C89 (partial).** Adding a type to a block whose type is a flexible array makes the block's type the union of exactly two
arrays that fill the block as far as whole elements go: one of the old elements and one of the new. Partial: an element of either
type must fit the block, the block must be below 4 GB, and names as for arrays and unions. -/
theorem addType_flexible_partial {M s₀ s} (hM : M.Ok) (hf : Fresh s₀) (hr : Run M s₀ s) {old el t block sz : Nat} {r eo et : T}
    (hold : s.ts[old]? = some r) (hk : r.kind = .unbounded el true) (he : s.ts[el]? = some eo) (he0 : eo.maxoff ≠ 0)
    (heu : eo.maxoff ≠ UNB) (hen : eo.name.length ≤ 4000) (hes : eo.maxoff ≤ sz) (hel : sz / eo.maxoff < 2 ^ 31 - 1)
    (ht : s.ts[t]? = some et) (ht0 : et.maxoff ≠ 0) (htu : et.maxoff ≠ UNB)
    (htn : et.name.length ≤ 4000) (hts : et.maxoff ≤ sz) (hsz : sz < 2 ^ 32 - 1) (hl : sz / et.maxoff < 2 ^ 31 - 1)
    (hmo : M.mem (arrName (sz / eo.maxoff) eo.name)) (hmn : M.mem (arrName (sz / et.maxoff) et.name))
    (hlen : (arrName (sz / eo.maxoff) eo.name).length + (arrName (sz / et.maxoff) et.name).length < 4096) :
    ∃ s' u o n, addType s old t block sz = .done s' u ∧ IsUnion s' u [o, n] ∧ IsArray s' o el (sz / eo.maxoff) ∧
      IsArray s' n t (sz / et.maxoff) := by
  have hi := grown hM hf hr
  have hd : sz / eo.maxoff * eo.maxoff ≤ sz := Nat.div_mul_le_self _ _
  have hpos : 0 < sz / eo.maxoff := Nat.div_pos hes (Nat.pos_of_ne_zero he0)
  have hne : 0 < sz / eo.maxoff * eo.maxoff := Nat.mul_pos hpos (Nat.pos_of_ne_zero he0)
  obtain ⟨s1, o, e1, e2, e3⟩ := array_partial hM hf hr he hen he0 heu (len := sz / eo.maxoff) hel (by omega)
  have hr1 : Run M s s1 := .step (r := .array el (sz / eo.maxoff)) (.refl s) trivial e1
  have hp : makePrecise s old block block sz = .ret s1 (some o) := by
    simp only [makePrecise, hold, hk, he]
    rw [if_neg (by rintro (h | h) <;> contradiction), show (block + sz + 2 ^ 64 - block) % 2 ^ 64 = sz by omega,
      Nat.mod_eq_of_lt (by omega), e1]
  obtain ⟨ro, n1, n2⟩ := array_name hi he e1
  have hsize : ro.maxoff = sz / eo.maxoff * eo.maxoff := by
    obtain ⟨r, e, a1, a2, _, a4⟩ := e2
    rw [n1] at a1; cases a1
    rw [kept hM hi hr1 he] at a2; cases a2
    exact a4
  obtain ⟨s', u, n, f1, f2, f3, f4⟩ := addType_core hM hf hr hp hr1 n1 (by omega) (by unfold UNB; omega) ht ht0 htu htn hts hsz hl
    (n2 ▸ hmo) hmn (n2 ▸ hlen)
  exact ⟨s', u, o, n, f1, f2, e2.kept hM (grown hM hf (hr.trans hr1)) f4, f3⟩

/-- **C89 (partial).** Adding a type to a block whose type has no `make_precise` makes the block's type the union of exactly the old
type and the array of the new one. -/
theorem addType_plain_partial {M s₀ s} (hM : M.Ok) (hf : Fresh s₀) (hr : Run M s₀ s) {old t block sz : Nat} {ro et : T}
    (hold : s.ts[old]? = some ro) (hk : ∀ el, ro.kind ≠ .unbounded el true) (ho0 : ro.maxoff ≠ 0) (hou : ro.maxoff ≠ UNB)
    (ht : s.ts[t]? = some et) (ht0 : et.maxoff ≠ 0) (htu : et.maxoff ≠ UNB)
    (htn : et.name.length ≤ 4000) (hts : et.maxoff ≤ sz) (hsz : sz < 2 ^ 32 - 1) (hl : sz / et.maxoff < 2 ^ 31 - 1)
    (hmo : M.mem ro.name) (hmn : M.mem (arrName (sz / et.maxoff) et.name))
    (hlen : ro.name.length + (arrName (sz / et.maxoff) et.name).length < 4096) :
    ∃ s' u n, addType s old t block sz = .done s' u ∧ IsUnion s' u [old, n] ∧ IsArray s' n t (sz / et.maxoff) := by
  obtain ⟨s', u, n, f1, f2, f3, _⟩ := addType_core hM hf hr (precise_other hold hk block block sz) (.refl s) hold ho0 hou ht ht0 htu htn hts
    hsz hl hmo hmn hlen
  exact ⟨s', u, n, f1, f2, f3⟩

/-- What adding a type gives: the block's type and all types. -/
def Added.got : Added → Option (Nat × List Kind)
  | .done s u => some (u, s.ts.map T.kind)
  | _ => none

/-- `a` has 4 bytes, `b` 8; the third type is the flexible array of `a`. -/
def blocks : S := ⟨[⟨[97], 4, .other⟩, ⟨[98], 8, .other⟩, ⟨unbName [97], UNB, .unbounded 0 true⟩], [(unbName [97], 2)]⟩

/-- A block of 20 bytes, five `a`s, becomes also two `b`s. -/
example : (addType blocks 2 1 4096 20).got = some (5, [.other, .other, .unbounded 0 true, .array 5 0, .array 2 1, .union [3, 4]]) := by
  decide +kernel

/-- The number of elements is cut to 32 bits: a block of `2 ^ 32 + 5` four-byte elements gets an array of five. -/
theorem addType_wrap_fails : (addType blocks 1 0 4096 (4 * (2 ^ 32 + 5))).got =
    some (4, [.other, .other, .unbounded 0 true, .array 5 0, .union [1, 3]]) := by decide +kernel

/-- The hypotheses hold there: `blocks` is what `base` becomes when the flexible array of `a` is asked for. -/
example : ∃ s' u o n, addType blocks 2 1 4096 20 = .done s' u ∧ IsUnion s' u [o, n] ∧ IsArray s' o 0 5 ∧ IsArray s' n 1 2 := by
  have hM : Names.Ok ⟨fun n => n = arrName 5 [97] ∨ n = arrName 2 [98], Built⟩ := by
    refine ⟨⟨by decide, ?_⟩, built_separable⟩
    rintro a b (rfl | rfl) (rfl | rfl) h
    · rfl
    · exact absurd h (by decide)
    · exact absurd h (by decide)
    · rfl
  have hr : Run ⟨fun n => n = arrName 5 [97] ∨ n = arrName 2 [98], Built⟩ base blocks :=
    .step (r := .flexible 0) (t := some 2) (.refl _) trivial rfl
  exact addType_flexible_partial hM base_fresh hr (r := ⟨unbName [97], UNB, .unbounded 0 true⟩) (eo := ⟨[97], 4, .other⟩)
    (et := ⟨[98], 8, .other⟩) rfl rfl rfl (by decide) (by decide) (by decide) (by decide) (by decide) rfl (by decide) (by decide)
    (by decide) (by decide) (by decide) (by decide) (Or.inl rfl) (Or.inr rfl) (by decide)

/-- `addType` twice. -/
def addTwice (s : S) (old t block sz : Nat) : Option (Nat × List Kind) :=
  match addType s old t block sz with
  | .done s' u => (addType s' u t block sz).got
  | _ => none

/-- **C89 fails** to be idempotent: adding a type that the block already has makes a union around the union. -/
theorem addType_again_fails : addTwice blocks 2 1 4096 20 =
    some (6, [.other, .other, .unbounded 0 true, .array 5 0, .array 2 1, .union [3, 4], .union [5, 4]]) := by decide +kernel

/-- **C89 fails** for a type larger than the block: the array of no elements has no size, and the union ends the program. -/
theorem addType_large_fails {s s1 : S} {old t o block sz : Nat} {et : T} (hp : makePrecise s old block block sz = .ret s1 (some o))
    (ht : s1.ts[t]? = some et) (h0 : sz < et.maxoff) (hu : et.maxoff ≠ UNB)
    (hnew : lookup s1.syms (arrName 0 et.name) = none) : addType s old t block sz = .bad := by
  have hz : sz / et.maxoff = 0 := Nat.div_eq_of_lt h0
  have h1 : et.maxoff ≠ 0 := by omega
  simp only [addType, hp, ht, hz]
  have hstep : step s1 (.array t (0 % 2 ^ 32)) = .ret (create s1 (arrName 0 et.name) 0 (.array 0 t)).1 (some s1.ts.length) := by
    simp only [step, ht, Nat.zero_mod]
    rw [if_neg (by unfold LENUNB; omega), if_neg (by rintro (h | h) <;> contradiction)]
    simp only [findOrCreate, hnew, Nat.zero_mul, Nat.zero_mod]
    rfl
  rw [if_neg h1, hstep]
  simp only [addUnion]
  rw [union_unsized _ (x := s1.ts.length) (e := ⟨arrName 0 et.name, 0, .array 0 t⟩) (by simp) (by simp [create]) (Or.inl rfl)]

/-- **C89 fails** for a type of no size, such as `void`: a division by zero, before the check that would refuse it. -/
theorem addType_void_fails {s s1 : S} {old t o block sz : Nat} {et : T} (hp : makePrecise s old block block sz = .ret s1 (some o))
    (ht : s1.ts[t]? = some et) (h0 : et.maxoff = 0) : addType s old t block sz = .bad := by
  simp only [addType, hp, ht, h0, if_true]

end Liballocs.TypeMemo
