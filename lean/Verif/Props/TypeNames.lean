import Verif.Model.TypeNames
/-! Properties of the names of types and of walks over the types of a metadata object. -/
namespace Liballocs.TypeNames

/-! ## `dladdr` and symbol names -/

private def step (a : Nat) (best : Option Sym) (s : Sym) : Option Sym :=
  if s.covers a then
    match best with
    | none => some s
    | some b => if b.addr < s.addr then some s else some b
  else best

private theorem dladdr_fold (a : Nat) : ∀ (syms : List Sym) (b : Option Sym),
    (∀ s, syms.foldl (step a) b = some s →
      (b = some s ∨ (s ∈ syms ∧ s.covers a = true)) ∧ (∀ t ∈ syms, t.covers a = true → t.addr ≤ s.addr)
        ∧ (∀ t, b = some t → t.addr ≤ s.addr))
    ∧ (syms.foldl (step a) b = none → b = none ∧ ∀ t ∈ syms, t.covers a = false)
  | [], b => by
    constructor
    · intro s h
      simp only [List.foldl_nil] at h
      subst h
      refine ⟨Or.inl rfl, fun t ht => by simp at ht, fun t ht => ?_⟩
      cases ht; exact Nat.le_refl _
    · intro h
      exact ⟨h, fun t ht => by simp at ht⟩
  | x :: xs, b => by
    obtain ⟨h1, h2⟩ := dladdr_fold a xs (step a b x)
    constructor
    · intro s h
      obtain ⟨p, q, r⟩ := h1 s h
      by_cases hx : x.covers a = true
      · cases b with
        | none =>
          simp only [step, hx, if_true] at p r
          refine ⟨Or.inr ?_, ?_, fun t ht => by simp at ht⟩
          · rcases p with p | p
            · cases p; exact ⟨List.mem_cons_self, hx⟩
            · exact ⟨List.mem_cons_of_mem _ p.1, p.2⟩
          · intro t ht hc
            rcases List.mem_cons.1 ht with e | e
            · subst e; exact r _ rfl
            · exact q t e hc
        | some b0 =>
          simp only [step, hx, if_true] at p r
          by_cases hlt : b0.addr < x.addr
          · rw [if_pos hlt] at p r
            have hr := r _ rfl
            refine ⟨Or.inr ?_, ?_, ?_⟩
            · rcases p with p | p
              · cases p; exact ⟨List.mem_cons_self, hx⟩
              · exact ⟨List.mem_cons_of_mem _ p.1, p.2⟩
            · intro t ht hc
              rcases List.mem_cons.1 ht with e | e
              · subst e; exact hr
              · exact q t e hc
            · intro t ht; cases ht; omega
          · rw [if_neg hlt] at p r
            have hr := r _ rfl
            refine ⟨?_, ?_, ?_⟩
            · rcases p with p | p
              · exact Or.inl p
              · exact Or.inr ⟨List.mem_cons_of_mem _ p.1, p.2⟩
            · intro t ht hc
              rcases List.mem_cons.1 ht with e | e
              · subst e; omega
              · exact q t e hc
            · intro t ht; cases ht; exact hr
      · have hs : step a b x = b := by simp [step, hx]
        rw [hs] at p r
        refine ⟨?_, ?_, r⟩
        · rcases p with p | p
          · exact Or.inl p
          · exact Or.inr ⟨List.mem_cons_of_mem _ p.1, p.2⟩
        · intro t ht hc
          rcases List.mem_cons.1 ht with e | e
          · subst e; exact absurd hc hx
          · exact q t e hc
    · intro h
      obtain ⟨p, q⟩ := h2 h
      have hx : x.covers a = false := by
        cases hc : x.covers a with
        | false => rfl
        | true =>
          simp only [step, hc, if_true] at p
          cases b with
          | none => simp at p
          | some b0 =>
            simp only at p
            split at p <;> simp at p
      refine ⟨by simpa [step, hx] using p, ?_⟩
      intro t ht
      rcases List.mem_cons.1 ht with e | e
      · subst e; exact hx
      · exact q t e

/-- The symbol found covers the address, and no symbol covering it begins later. -/
theorem dladdr_some {syms : List Sym} {a : Nat} {s : Sym} (h : dladdr syms a = some s) :
    s ∈ syms ∧ s.covers a = true ∧ ∀ t ∈ syms, t.covers a = true → t.addr ≤ s.addr := by
  obtain ⟨p, q, _⟩ := (dladdr_fold a syms none).1 s h
  rcases p with p | p
  · simp at p
  · exact ⟨p.1, p.2, q⟩

theorem dladdr_none {syms : List Sym} {a : Nat} : dladdr syms a = none ↔ ∀ t ∈ syms, t.covers a = false := by
  constructor
  · intro h; exact ((dladdr_fold a syms none).2 h).2
  · intro h
    cases hd : dladdr syms a with
    | none => rfl
    | some s =>
      have := dladdr_some hd
      rw [h s this.1] at this
      simp at this

/-- A name given for a type record is that of a symbol that begins at the record and is at least two bytes long. -/
theorem symbolName_sound {syms : List Sym} {u : Nat} {n : Text} (h : symbolName syms u = some n) :
    ∃ s ∈ syms, s.addr = u ∧ s.name = n ∧ 2 ≤ s.size := by
  unfold symbolName at h
  split at h
  · simp at h
  · rename_i s hd
    split at h
    · rename_i hu
      have := dladdr_some hd
      refine ⟨s, this.1, hu, by simpa using h, ?_⟩
      have hc := this.2.1
      simp only [Sym.covers, Bool.and_eq_true, Bool.or_eq_true, decide_eq_true_eq] at hc
      omega
    · simp at h

/-- A type record that is a symbol of its own, with nothing else beginning at it or at its second byte, has that symbol's name. -/
theorem symbolName_complete {syms : List Sym} {s : Sym} (hs : s ∈ syms) (hsz : 2 ≤ s.size)
    (hu : ∀ t ∈ syms, t.addr = s.addr → t.name = s.name) (hn : ∀ t ∈ syms, t.addr ≠ s.addr + 1) :
    symbolName syms s.addr = some s.name := by
  have hc : s.covers (s.addr + 1) = true := by
    simp only [Sym.covers, Bool.and_eq_true, Bool.or_eq_true, decide_eq_true_eq]; omega
  unfold symbolName
  split
  · rename_i hd
    have := dladdr_none.1 hd s hs
    rw [hc] at this
    simp at this
  · rename_i r hd
    obtain ⟨h1, h2, h3⟩ := dladdr_some hd
    have h4 := h3 s hs hc
    simp only [Sym.covers, Bool.and_eq_true, Bool.or_eq_true, decide_eq_true_eq] at h2
    have h5 := hn r h1
    have h6 : r.addr = s.addr := by omega
    rw [if_pos h6, hu r h1 h6]

/-- With two symbols at one record, the name given is one of theirs. -/
theorem symbolName_alias {syms : List Sym} {s : Sym} (hs : s ∈ syms) (hsz : 2 ≤ s.size)
    (hn : ∀ t ∈ syms, t.addr ≠ s.addr + 1) :
    ∃ t ∈ syms, t.addr = s.addr ∧ symbolName syms s.addr = some t.name := by
  have hc : s.covers (s.addr + 1) = true := by
    simp only [Sym.covers, Bool.and_eq_true, Bool.or_eq_true, decide_eq_true_eq]; omega
  unfold symbolName
  split
  · rename_i hd
    have := dladdr_none.1 hd s hs
    rw [hc] at this
    simp at this
  · rename_i r hd
    obtain ⟨h1, h2, h3⟩ := dladdr_some hd
    have h4 := h3 s hs hc
    simp only [Sym.covers, Bool.and_eq_true, Bool.or_eq_true, decide_eq_true_eq] at h2
    have h5 := hn r h1
    have h6 : r.addr = s.addr := by omega
    exact ⟨r, h1, h6, by rw [if_pos h6]⟩

/-- A symbol that begins at the record's second byte hides the record's own name. -/
theorem symbolName_second {syms : List Sym} {t : Sym} (ht : t ∈ syms) {u : Nat} (hu : t.addr = u + 1) :
    symbolName syms u = none := by
  have hc : t.covers (u + 1) = true := by
    simp only [Sym.covers, Bool.and_eq_true, Bool.or_eq_true, decide_eq_true_eq]; omega
  unfold symbolName
  split
  · rfl
  · rename_i r hd
    obtain ⟨_, _, h3⟩ := dladdr_some hd
    have := h3 t ht hc
    rw [if_neg (by omega)]

/-! ## What is shown

A type's symbol is `__uniqtype_`, a code (eight digits, or nothing), an underscore and the type's name. -/

/-- The symbol of a type. -/
def symOf (code name : Text) : Text := "__uniqtype_".toList ++ code ++ ['_'] ++ name

private theorem pre_eq : pre = "__uniqtype_".toList := by decide +kernel

/-- A type without a code is shown by its name. -/
theorem display_codeless (name : Text) : display (symOf [] name) = .text name := by
  unfold display symOf
  rw [← pre_eq]
  simp [pre]

/-- A type with an eight-digit code is shown by its name, if the code does not begin with an underscore. -/
theorem display_code (code name : Text) (h8 : code.length = 8) (hc : code.head? ≠ some '_') :
    display (symOf code name) = .text name := by
  unfold display symOf
  rw [← pre_eq]
  match code, h8, hc with
  | [a, b, c, d, e, f, g, h], _, hc =>
    simp only [List.head?_cons, ne_eq, Option.some.injEq] at hc
    simp [pre, hc]

/-- Two types that differ in their codes only are shown alike. -/
theorem display_same_fails :
    ∃ c c' n : Text, c ≠ c' ∧ c.length = 8 ∧ c'.length = 8 ∧ symOf c n ≠ symOf c' n
      ∧ display (symOf c n) = display (symOf c' n) :=
  ⟨"00000001".toList, "00000002".toList, "list".toList, by decide +kernel, by decide +kernel, by decide +kernel,
    by decide +kernel, by decide +kernel⟩

/-- Types of one code (or none) are shown alike only if they are the same. -/
theorem display_inj (code : Text) (hc : code = [] ∨ (code.length = 8 ∧ code.head? ≠ some '_')) {n n' : Text}
    (h : display (symOf code n) = display (symOf code n')) : symOf code n = symOf code n' := by
  have hn : n = n' := by
    rcases hc with rfl | ⟨h8, hh⟩
    · rw [display_codeless, display_codeless] at h; cases h; rfl
    · rw [display_code _ _ h8 hh, display_code _ _ h8 hh] at h; cases h; rfl
  rw [hn]

/-- A pointer past the end of the name is given exactly for a name that begins `__uniqtype_`, then something other than an
underscore, with fewer than nine characters after the prefix. -/
theorem display_outOfBounds (n : Text) :
    display n = .outOfBounds ↔
      ∃ r : Text, n = "__uniqtype_".toList ++ r ∧ r.head? ≠ some '_' ∧ r.length < 9 := by
  rw [← pre_eq]
  unfold display
  constructor
  · intro h
    split at h
    · simp at h
    · rename_i h12
      split at h
      · rename_i h11
        split at h
        · simp at h
        · rename_i hl
          refine ⟨n.drop 11, ?_, ?_, ?_⟩
          · conv => lhs; rw [← List.take_append_drop 11 n, h11]
          · intro hh
            apply h12
            rw [List.head?_drop] at hh
            rw [List.take_add_one, h11, hh]
            rfl
          · rw [List.length_drop]; omega
      · simp at h
  · rintro ⟨r, rfl, hh, hl⟩
    have h12 : ¬ (pre ++ r).take 12 = pre ++ ['_'] := by
      cases r with
      | nil => decide
      | cons c r =>
        simp only [List.head?_cons, ne_eq, Option.some.injEq] at hh
        simp [pre, hh]
    rw [if_neg h12, if_pos (by simp [pre]), if_neg (by simp [pre]; omega)]

/-- Such a name exists, so not every symbol's name can be shown. -/
theorem display_short_fails : display "__uniqtype_int".toList = .outOfBounds := by decide +kernel

/-- Other names are shown whole. -/
theorem display_other (n : Text) (h : ¬ "__uniqtype_".toList <+: n) : display n = .text n := by
  rw [← pre_eq] at h
  unfold display
  have h11 : ¬ n.take 11 = pre := by
    intro e
    exact h ⟨n.drop 11, by rw [← e, List.take_append_drop]⟩
  have h12 : ¬ n.take 12 = pre ++ ['_'] := by
    intro e
    apply h
    refine ⟨'_' :: n.drop 12, ?_⟩
    have := List.take_append_drop 12 n
    rw [e] at this
    simpa using this
  rw [if_neg h12, if_neg h11]

/-- The name of a type is the one its symbol was made from; nothing and a record without symbol are said to be that. -/
theorem typeName_partial (syms : List Sym) :
    typeName syms 0 = .text "(no type)".toList
    ∧ (∀ u, 0 < u → (∀ s ∈ syms, s.addr = u → s.size < 2) → typeName syms u = .text "(unnamed type)".toList)
    ∧ (∀ (s : Sym) (code name : Text), s ∈ syms → 0 < s.addr → 2 ≤ s.size → s.name = symOf code name →
        (code = [] ∨ (code.length = 8 ∧ code.head? ≠ some '_')) →
        (∀ t ∈ syms, t.addr = s.addr → t.name = s.name) → (∀ t ∈ syms, t.addr ≠ s.addr + 1) →
        typeName syms s.addr = .text name) := by
  refine ⟨?_, ?_, ?_⟩
  · have : noType = "(no type)".toList := by decide +kernel
    rw [← this]; rfl
  · intro u hu hs
    have he : unnamed = "(unnamed type)".toList := by decide +kernel
    rw [← he]
    unfold typeName
    rw [if_neg (by omega)]
    cases h : symbolName syms u with
    | none => rfl
    | some n =>
      obtain ⟨s, h1, h2, _, h4⟩ := symbolName_sound h
      have := hs s h1 h2
      omega
  · intro s code name hs hpos hsz hn hc hu hn1
    unfold typeName
    rw [if_neg (by omega), symbolName_complete hs hsz hu hn1]
    simp only
    rw [hn]
    rcases hc with rfl | ⟨h8, hh⟩
    · exact display_codeless name
    · exact display_code code name h8 hh

example : typeName [⟨4096, 40, symOf [] "int".toList⟩, ⟨8192, 40, symOf "0123abcd".toList "point".toList⟩] 8192
    = .text "point".toList := by decide +kernel

/-! ## Walks -/

/-- What a type's symbol is called: beginning `__uniqty` and not ending `_subobj_names`. -/
def IsTypeName (n : Text) : Prop := "__uniqty".toList <+: n ∧ ¬ "_subobj_names".toList <:+ n

instance (n : Text) : Decidable (IsTypeName n) := by unfold IsTypeName; infer_instance

private theorem uniqty_eq : uniqty = "__uniqty".toList := by decide +kernel
private theorem subobj_eq : subobj = "_subobj_names".toList := by decide +kernel

theorem cstr_drop (m : Text) (i k : Nat) (hk : k ≤ (cstr m i).length) :
    cstr m (i + k) = (cstr m i).drop k := by
  unfold cstr at *
  rw [← List.drop_drop]
  generalize m.drop i = l at *
  induction l generalizing k with
  | nil => simp
  | cons c l ih =>
    cases k with
    | zero => simp
    | succ k =>
      simp only [List.takeWhile_cons] at hk ⊢
      by_cases hc : (c != nul) = true
      · rw [if_pos hc] at hk ⊢
        simp only [List.length_cons] at hk
        simpa using ih k (by omega)
      · rw [if_neg hc] at hk
        simp at hk

/-- An entry is taken for a type exactly if it is a defined data object with the name of a type, for every string table: for
names shorter than the suffix looked for, the comparison begins before the name, but what is there never changes the answer. -/
theorem wanted_exact (m : Text) (base : Nat) (e : Entry) (hn : e.stName ≠ 0)
    (hb : 13 ≤ base + e.stName + (cstr m (base + e.stName)).length) :
    wanted m base e
      = some (decide (e.object = true ∧ e.defined = true ∧ IsTypeName (cstr m (base + e.stName)))) := by
  unfold wanted
  by_cases hod : e.object = true ∧ e.defined = true
  · rw [if_pos hod, if_neg hn]
    simp only
    by_cases hp : (cstr m (base + e.stName)).take 8 = uniqty
    · rw [if_pos hp, if_neg (by omega)]
      have hpre : "__uniqty".toList <+: cstr m (base + e.stName) := by
        rw [← uniqty_eq, ← hp]; exact List.take_prefix _ _
      congr 1
      rw [decide_eq_decide]
      rw [show IsTypeName (cstr m (base + e.stName))
        ↔ ¬ "_subobj_names".toList <:+ cstr m (base + e.stName) from ⟨fun h => h.2, fun h => ⟨hpre, h⟩⟩]
      simp only [hod.1, hod.2, true_and]
      rw [← subobj_eq, ne_eq]
      apply not_congr
      have hlen8 : 8 ≤ (cstr m (base + e.stName)).length := by
        have := congrArg List.length hp
        rw [List.length_take] at this
        simp [uniqty] at this
        omega
      generalize hi : base + e.stName = i at *
      by_cases hl : 13 ≤ (cstr m i).length
      · have he : i + (cstr m i).length - 13 = i + ((cstr m i).length - 13) := by omega
        rw [he, cstr_drop m i _ (by omega)]
        constructor
        · intro h
          exact ⟨(cstr m i).take ((cstr m i).length - 13), by rw [← h, List.take_append_drop]⟩
        · rintro ⟨t, ht⟩
          have htl : t.length = (cstr m i).length - 13 := by
            have := congrArg List.length ht
            rw [List.length_append] at this
            simp [subobj] at this
            omega
          rw [← ht] at htl ⊢
          rw [← htl]
          simp
      · constructor
        · intro h
          exfalso
          -- the name is the end of what is read
          have hd := cstr_drop m (i + (cstr m i).length - 13) (13 - (cstr m i).length) (by
            rw [h]; simp [subobj])
          rw [show i + (cstr m i).length - 13 + (13 - (cstr m i).length) = i by omega, h] at hd
          rw [hd] at hp
          have : ∀ k, k < 6 → k ≠ 0 → ¬ (subobj.drop k).take 8 = uniqty := by decide
          exact this (13 - (cstr m i).length) (by omega) (by omega) hp
        · intro h
          exfalso
          have := h.length_le
          simp [subobj] at this
          omega
    · rw [if_neg hp]
      have : ¬ IsTypeName (cstr m (base + e.stName)) := by
        rintro ⟨⟨t, ht⟩, _⟩
        apply hp
        rw [uniqty_eq, ← ht]
        simp
      simp [this]
  · rw [if_neg hod]
    have : ¬ (e.object = true ∧ e.defined = true ∧ IsTypeName (cstr m (base + e.stName))) :=
      fun h => hod ⟨h.1, h.2.1⟩
    simp [this]

/-- The addresses of the sane types among the entries, in order. -/
def typesIn (m : Text) (base load : Nat) (sane : Nat → Bool) (es : List Entry) : List Nat :=
  (es.filter (fun e => decide (e.object = true ∧ e.defined = true ∧ IsTypeName (cstr m (base + e.stName)))
    && sane (load + e.value))).map (fun e => load + e.value)

/-- Calling a function on each of a list of addresses until it answers something other than zero. -/
def callUntil {σ : Type} (cb : Nat → σ → Int × σ) : List Nat → σ → Int × σ
  | [], s => (0, s)
  | t :: ts, s => if (cb t s).1 ≠ 0 then cb t s else callUntil cb ts (cb t s).2

/-- Entries that can be examined without harm: named if they are defined data objects, with 13 bytes of memory before the end
of the name. -/
def Named (m : Text) (base : Nat) (es : List Entry) : Prop :=
  ∀ e ∈ es, e.object = true → e.defined = true →
    e.stName ≠ 0 ∧ 13 ≤ base + e.stName + (cstr m (base + e.stName)).length

private theorem wanted_named {m : Text} {base : Nat} {es : List Entry} (h : Named m base es) {e : Entry} (he : e ∈ es) :
    wanted m base e
      = some (decide (e.object = true ∧ e.defined = true ∧ IsTypeName (cstr m (base + e.stName)))) := by
  by_cases hod : e.object = true ∧ e.defined = true
  · obtain ⟨h1, h2⟩ := h e he hod.1 hod.2
    exact wanted_exact m base e h1 h2
  · unfold wanted
    rw [if_neg hod]
    have : ¬ (e.object = true ∧ e.defined = true ∧ IsTypeName (cstr m (base + e.stName))) :=
      fun h => hod ⟨h.1, h.2.1⟩
    simp [this]

theorem walkSyms_exact {σ : Type} (m : Text) (base load : Nat) (sane : Nat → Bool) (cb : Nat → σ → Int × σ) :
    ∀ (es : List Entry) (s : σ), Named m base es →
      walkSyms m base load sane cb es s = some (callUntil cb (typesIn m base load sane es) s)
  | [], s, _ => rfl
  | e :: es, s, h => by
    have ih := fun s' => walkSyms_exact m base load sane cb es s' (fun x hx => h x (List.mem_cons_of_mem _ hx))
    unfold walkSyms
    rw [wanted_named h List.mem_cons_self]
    by_cases hw : e.object = true ∧ e.defined = true ∧ IsTypeName (cstr m (base + e.stName))
    · rw [decide_eq_true hw]
      simp only
      by_cases hs : sane (load + e.value) = true
      · have ht : typesIn m base load sane (e :: es) = (load + e.value) :: typesIn m base load sane es := by
          simp [typesIn, hw, hs]
        rw [if_pos hs, ht]
        simp only [callUntil]
        split
        · rfl
        · exact ih _
      · have ht : typesIn m base load sane (e :: es) = typesIn m base load sane es := by
          simp [typesIn, hs]
        rw [if_neg hs, ht]
        exact ih _
    · have ht : typesIn m base load sane (e :: es) = typesIn m base load sane es := by
        simp [typesIn, hw]
      rw [ht, decide_eq_false hw]
      exact ih _

/-- An object whose tables can be walked: loaded at a user address that is not 0, tables at user addresses, and the first
entry of the symbol table all zeros. -/
structure Walkable (o : Obj) : Prop where
  load : 0 < o.load ∧ o.load < 2 ^ 63
  dynsym : minUser ≤ o.dynsym ∧ o.dynsym < 2 ^ 63
  hash : ∀ h, o.hash = some h → h = 0 ∨ (minUser ≤ h ∧ h < 2 ^ 63)
  first : ∃ es, o.entries = ⟨0, false, false, 0⟩ :: es
  named : Named o.mem o.base o.entries

/-- A walk calls the function on each sane type of the object in symbol-table order, and on nothing else, until the function
answers something other than zero; that answer is the walk's. -/
theorem iterateTypes_partial {σ : Type} (o : Obj) (h : Walkable o) (sane : Nat → Bool) (cb : Nat → σ → Int × σ) (s : σ) :
    iterateTypes o sane cb s = some (callUntil cb (typesIn o.mem o.base o.load sane o.entries) s) := by
  obtain ⟨h1, h2, h3, ⟨es, h4⟩, h5⟩ := h
  unfold iterateTypes
  have hm : minUser = 4194304 := rfl
  have hk : ∀ a, a < 2 ^ 63 → kernelAddr a = false := by
    intro a ha; simp only [kernelAddr, decide_eq_false_iff_not]; omega
  rw [hk _ h1.2, hk _ h2.2, if_neg (by simp; omega), if_neg (by omega)]
  have hh : o.hash.any kernelAddr = false := by
    cases hh : o.hash with
    | none => rfl
    | some x =>
      simp only [Option.any_some]
      rcases h3 x hh with rfl | hx
      · exact hk 0 (by omega)
      · exact hk x hx.2
  have hl : o.hash.any (fun h => decide (h ≠ 0 ∧ h < minUser)) = false := by
    cases hh : o.hash with
    | none => rfl
    | some x =>
      simp only [Option.any_some, decide_eq_false_iff_not]
      rcases h3 x hh with rfl | hx
      · simp
      · omega
  rw [hh, hl, if_neg (by simp), h4]
  simp only
  rw [if_neg (by simp), if_neg (by simp; omega), ← h4]
  exact walkSyms_exact _ _ _ _ _ _ _ h5

/-- A function that always answers zero sees every sane type, once for each of its symbols. -/
theorem iterateTypes_all (o : Obj) (h : Walkable o) (sane : Nat → Bool) :
    iterateTypes o sane (fun t (seen : List Nat) => ((0 : Int), seen ++ [t])) []
      = some (0, typesIn o.mem o.base o.load sane o.entries) := by
  rw [iterateTypes_partial o h]
  have : ∀ (ts acc : List Nat), callUntil (fun t (seen : List Nat) => ((0 : Int), seen ++ [t])) ts acc = (0, acc ++ ts) := by
    intro ts
    induction ts with
    | nil => intro acc; simp [callUntil]
    | cons t ts ih => intro acc; simp [callUntil, ih]
  rw [this]; simp

/-- The first type that satisfies a test is found, if there is one. -/
theorem iterateTypes_find (o : Obj) (h : Walkable o) (sane p : Nat → Bool) :
    iterateTypes o sane (fun t (_ : Option Nat) => if p t = true then ((1 : Int), some t) else (0, none)) none
      = some (if ((typesIn o.mem o.base o.load sane o.entries).find? p).isSome then 1 else 0,
          (typesIn o.mem o.base o.load sane o.entries).find? p) := by
  rw [iterateTypes_partial o h]
  congr 1
  generalize typesIn o.mem o.base o.load sane o.entries = ts
  induction ts with
  | nil => rfl
  | cons t ts ih =>
    simp only [callUntil, List.find?_cons]
    by_cases hp : p t = true
    · simp [hp]
    · simpa [hp] using ih

/-- An object loaded at address 0 (an executable at its link-time address), or above the user's half of memory, is passed over. -/
theorem iterateTypes_skips {σ : Type} (o : Obj) (sane : Nat → Bool) (cb : Nat → σ → Int × σ) (s : σ)
    (h : o.load = 0 ∨ 2 ^ 63 ≤ o.load) : iterateTypes o sane cb s = some (0, s) := by
  unfold iterateTypes
  rw [if_pos]
  rcases h with h | h
  · exact Or.inl h
  · exact Or.inr (by simp [kernelAddr, h])

/-- Tables at kernel addresses (an unrelocated vdso) are passed over too, the symbol table's not being null. -/
theorem iterateTypes_kernel {σ : Type} (o : Obj) (sane : Nat → Bool) (cb : Nat → σ → Int × σ) (s : σ) (h0 : o.dynsym ≠ 0)
    (h : 2 ^ 63 ≤ o.dynsym ∨ ∃ x, o.hash = some x ∧ 2 ^ 63 ≤ x) : iterateTypes o sane cb s = some (0, s) := by
  unfold iterateTypes
  by_cases hl : o.load = 0 ∨ kernelAddr o.load = true
  · rw [if_pos hl]
  · rw [if_neg hl, if_neg h0, if_pos]
    rcases h with h | ⟨x, hx, h⟩
    · exact Or.inl (by simp [kernelAddr, h])
    · exact Or.inr (by simp [hx, kernelAddr, h])

/-- Tables at low addresses are passed over. -/
theorem iterateTypes_low {σ : Type} (o : Obj) (sane : Nat → Bool) (cb : Nat → σ → Int × σ) (s : σ) (h0 : o.dynsym ≠ 0)
    (hf : ∃ es, o.entries = ⟨0, false, false, 0⟩ :: es)
    (h : o.dynsym < minUser ∨ ∃ x, o.hash = some x ∧ x ≠ 0 ∧ x < minUser) : iterateTypes o sane cb s = some (0, s) := by
  obtain ⟨es, hf⟩ := hf
  unfold iterateTypes
  by_cases hl : o.load = 0 ∨ kernelAddr o.load = true
  · rw [if_pos hl]
  · rw [if_neg hl, if_neg h0]
    split
    · rfl
    · rw [hf]
      simp only
      rw [if_neg (by simp), if_pos]
      rcases h with h | ⟨x, hx, h⟩
      · exact Or.inl h
      · exact Or.inr (by simp [hx, h.2]; exact h.1)

/-- The string table of an example: `__uniqtype__int`, its names, and a function. -/
private def exMem : Text :=
  "....".toList ++ [nul] ++ "__uniqtype__int".toList ++ [nul] ++ "__uniqtype__int_subobj_names".toList ++ [nul]
    ++ "main".toList ++ [nul]

private def exObj : Obj :=
  { load := 65536, dynsym := 4194304, hash := none, mem := exMem, base := 4
    entries := [⟨0, false, false, 0⟩, ⟨46, false, true, 16⟩, ⟨1, true, true, 64⟩, ⟨17, true, true, 128⟩, ⟨1, true, true, 64⟩] }

/-- A type with two symbols is visited twice (here the second has the same name; an alias does the same). -/
theorem twice_fails :
    iterateTypes exObj (fun _ => true) (fun t (seen : List Nat) => ((0 : Int), seen ++ [t])) []
      = some (0, [65600, 65600]) := by decide +kernel

/-- A data object without a name makes the walk read a null pointer. -/
theorem unnamed_fails :
    iterateTypes { exObj with entries := [⟨0, false, false, 0⟩, ⟨0, true, true, 16⟩] } (fun _ => true)
      (fun t (seen : List Nat) => ((0 : Int), seen ++ [t])) [] = none := by decide +kernel

/-- Nothing of an executable loaded at its link-time address is visited. -/
theorem exec_fails :
    iterateTypes { exObj with load := 0 } (fun _ => true) (fun t (seen : List Nat) => ((0 : Int), seen ++ [t])) []
      = some (0, []) := by decide +kernel

end Liballocs.TypeNames
