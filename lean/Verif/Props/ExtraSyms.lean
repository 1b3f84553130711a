import Verif.Model.ExtraSyms
/-!
# Static objects without symbols can be queried (C143)
-/
namespace Liballocs.ExtraSyms
open CcArgs

/-! ## Specification -/

/-- What should be seen of a symbol. -/
def wanted (e : Extra) : View :=
  ⟨match e.name with | none => [] | some n => n, e.value, e.size, e.info, e.other⟩

/-- Names without characters that mean something in a literal. -/
def Plain (n : List Char) : Prop := ∀ c ∈ n, c ≠ '"' ∧ c ≠ '\\' ∧ c ≠ '\n' ∧ c ≠ '\x00'

/-- The symbol's fields have the widths that the format gives them, and its name is plain. -/
def Ok (e : Extra) : Prop :=
  e.value < 2 ^ 64 ∧ e.size < 2 ^ 64 ∧ e.info < 256 ∧ e.other < 256 ∧ ∀ n, e.name = some n → Plain n

/-- The room that the names take. -/
def room : List Extra → Nat
  | [] => 0
  | e :: l => (match e.name with | none => 0 | some n => n.length + 1) + room l

/-! ## Proofs -/

theorem cLit_plain : ∀ n, Plain n → cLit true (n ++ ['"']) = some n
  | [], _ => by simp [cLit]
  | c :: l, h => by
    have hc := h c (by simp)
    have ih := cLit_plain l (fun d hd => h d (by simp [hd]))
    rw [List.cons_append, cLit.eq_def]
    split <;> simp_all

theorem gasLit_plain : ∀ n, Plain n → gasLit n = some n
  | [], _ => by simp [gasLit]
  | c :: l, h => by
    have hc := h c (by simp)
    have ih := gasLit_plain l (fun d hd => h d (by simp [hd]))
    rw [gasLit.eq_def]
    split <;> simp_all

theorem literal_plain (n : List Char) (h : Plain n) : literal n = some n := by
  have h1 : cLit false ('"' :: n ++ ['"']) = some n := by
    rw [List.cons_append, cLit]
    simp [cLit_plain n h]
  simp only [literal, h1, gasLit_plain n h]

theorem info_round (i : Nat) (h : i < 256) : infoByte (infoText i) = some i := by
  simp only [infoText]
  split
  · rename_i hb; simp only [infoByte, hb, and_self, if_true, Option.some.injEq]; omega
  · simp only [infoByte, Option.some.injEq]; omega

/-- The strings. -/
def strs : List Extra → List Char
  | [] => []
  | e :: l => (match e.name with | none => [] | some n => n ++ ['\x00']) ++ strs l

/-- The symbols. -/
def symsOf (off : Nat) : List Extra → List Sym
  | [] => []
  | e :: l =>
    match e.name with
    | none => ⟨0, e.info, e.other, 0, e.value, e.size⟩ :: symsOf off l
    | some n => ⟨off, e.info, e.other, 0, e.value, e.size⟩ :: symsOf (off + n.length + 1) l

theorem symsOf_length : ∀ es off, (symsOf off es).length = es.length
  | [], _ => rfl
  | e :: l, off => by
    cases h : e.name <;> simp [symsOf, h, symsOf_length l]

theorem assemble_emit : ∀ (es : List Extra) (str : List Char) (tab : List Sym), (∀ e ∈ es, Ok e) →
    str.length + room es < 2 ^ 32 →
    assemble str tab (emit str.length es).1 = some (str ++ strs es, tab ++ symsOf str.length es)
  | [], str, tab, _, _ => by simp [emit, assemble, strs, symsOf]
  | e :: l, str, tab, hok, hroom => by
    obtain ⟨hv, hz, hi, ho, hn⟩ := hok e (by simp)
    have hl : ∀ e ∈ l, Ok e := fun d hd => hok d (by simp [hd])
    cases hname : e.name with
    | none =>
      simp only [room, hname] at hroom
      have ih := assemble_emit l str
        (tab ++ [⟨0, e.info, e.other, 0, e.value, e.size⟩]) hl (by omega)
      simp only [emit, hname, assemble, info_round _ hi, Nat.mod_eq_of_lt hv, Nat.mod_eq_of_lt hz, Nat.mod_eq_of_lt ho,
        Nat.zero_mod, strs, symsOf]
      rw [ih]
      simp
    | some n =>
      simp only [room, hname] at hroom
      have hlen : (str ++ n ++ ['\x00']).length = str.length + n.length + 1 := by simp; omega
      have ih := assemble_emit l (str ++ n ++ ['\x00'])
        (tab ++ [⟨str.length, e.info, e.other, 0, e.value, e.size⟩]) hl (by rw [hlen]; omega)
      rw [hlen] at ih
      have h1 : (str.length + n.length + 1) % 2 ^ 32 = str.length + n.length + 1 := Nat.mod_eq_of_lt (by omega)
      have h2 : str.length % 2 ^ 32 = str.length := Nat.mod_eq_of_lt (by omega)
      simp only [emit, hname, assemble, literal_plain n (hn n hname), h1, h2, info_round _ hi, Nat.mod_eq_of_lt hv,
        Nat.mod_eq_of_lt hz, Nat.mod_eq_of_lt ho, Nat.zero_mod, strs, symsOf]
      rw [ih]
      simp

theorem cstr_at (pre n rest : List Char) (h : Plain n) : cstr (pre ++ (n ++ '\x00' :: rest)) pre.length = some n := by
  simp only [cstr, List.drop_left]
  have h1 : '\x00' ∈ n ++ '\x00' :: rest := by simp
  simp only [h1, if_true, Option.some.injEq]
  rw [List.takeWhile_append_of_pos]
  · simp
  · intro c hc
    simpa using (h c hc).2.2.2

theorem cstr_zero (t : List Char) : cstr ('\x00' :: t) 0 = some [] := by simp [cstr]

theorem iterate_syms : ∀ (es : List Extra) (pre : List Char), (∀ e ∈ es, Ok e) →
    iterate ('\x00' :: pre ++ strs es) es.length (symsOf (pre.length + 1) es) = some (es.map wanted)
  | [], _, _ => by simp [iterate]
  | e :: l, pre, hok => by
    obtain ⟨hv, hz, hi, ho, hn⟩ := hok e (by simp)
    have hl : ∀ e ∈ l, Ok e := fun d hd => hok d (by simp [hd])
    cases hname : e.name with
    | none =>
      have ih := iterate_syms l pre hl
      simp only [strs, symsOf, hname, List.length_cons, iterate, view, List.nil_append]
      rw [ih]
      simp only [List.cons_append, cstr_zero, List.map_cons, wanted, hname]
    | some n =>
      have ih := iterate_syms l (pre ++ n ++ ['\x00']) hl
      have h1 : ('\x00' :: pre ++ (n ++ ['\x00'] ++ strs l)) = '\x00' :: (pre ++ n ++ ['\x00']) ++ strs l := by simp
      have h2 : (pre ++ n ++ ['\x00']).length + 1 = pre.length + 1 + n.length + 1 := by simp; omega
      rw [h2] at ih
      have h3 : cstr ('\x00' :: (pre ++ n ++ ['\x00']) ++ strs l) (pre.length + 1) = some n := by
        have := cstr_at ('\x00' :: pre) n (strs l) (hn n hname)
        simpa using this
      simp only [strs, symsOf, hname, List.length_cons, iterate, view]
      rw [h1, ih, h3]
      simp only [List.map_cons, wanted, hname]

theorem built (hd : Extra) (es : List Extra) (others : List (List Char)) (hok : ∀ e ∈ es, Ok e)
    (hroom : 1 + room es < 2 ^ 32) :
    ∃ o, build (hd :: es) others = some o
      ∧ lookup o w! "extrasyms" = some (.syms (⟨0, 0, 0, 0, 0, 0⟩ :: symsOf 1 es) ((es.length + 1) * 24))
      ∧ lookup o w! "extrastr" = some (.str ('\x00' :: strs es) (emit 1 es).2) := by
  have ha := assemble_emit es ['\x00'] [⟨0, 0, 0, 0, 0, 0⟩] hok (by simpa using hroom)
  simp only [List.length_singleton] at ha
  refine ⟨_, by simp only [build, source, ha]; rfl, ?_, ?_⟩
  · rw [lookup, if_pos rfl]; rfl
  · rw [lookup, if_neg (by decide), lookup, if_pos rfl]; rfl

/-- Walking over the extra symbols of a meta object shows each symbol that it was made for, once and in order, with its
name, place and size, after one entry that stands for nothing. -/
theorem walk_partial (hd : Extra) (es : List Extra) (others : List (List Char)) (hok : ∀ e ∈ es, Ok e)
    (hroom : 1 + room es < 2 ^ 32) :
    ∃ o, build (hd :: es) others = some o ∧ walk o = some (⟨[], 0, 0, 0, 0⟩ :: es.map wanted) := by
  obtain ⟨o, hb, h1, h2⟩ := built hd es others hok hroom
  refine ⟨o, hb, ?_⟩
  have hi := iterate_syms es [] hok
  have hsz : (es.length + 1) * 24 / 24 = es.length + 1 := by simp
  simp only [walk, h1, h2, hsz, iterate, view, cstr_zero]
  simp only [List.length_nil, Nat.zero_add, List.cons_append, List.nil_append] at hi
  rw [hi]

theorem emit_size : ∀ (es : List Extra) (off : Nat), off + room es < 2 ^ 32 → (emit off es).2 = off + room es
  | [], _, _ => by simp [emit, room]
  | e :: l, off, h => by
    cases hname : e.name with
    | none =>
      simp only [room, hname] at h ⊢
      simp only [emit, hname]
      rw [emit_size l off (by omega)]; omega
    | some n =>
      simp only [room, hname] at h ⊢
      have h1 : (off + n.length + 1) % 2 ^ 32 = off + n.length + 1 := Nat.mod_eq_of_lt (by omega)
      simp only [emit, hname, h1]
      rw [emit_size l _ (by omega)]; omega

theorem strs_length : ∀ es, (strs es).length = room es
  | [] => rfl
  | e :: l => by cases hname : e.name <;> simp [strs, room, hname, strs_length l] <;> omega

/-- The sizes given to the two tables are those that they have. -/
theorem sizes_exact (hd : Extra) (es : List Extra) (others : List (List Char)) (hok : ∀ e ∈ es, Ok e)
    (hroom : 1 + room es < 2 ^ 32) :
    ∃ o tab text, build (hd :: es) others = some o ∧ lookup o w! "extrasyms" = some (.syms tab (24 * tab.length))
      ∧ lookup o w! "extrastr" = some (.str text text.length) := by
  obtain ⟨o, hb, h1, h2⟩ := built hd es others hok hroom
  refine ⟨o, ⟨0, 0, 0, 0, 0, 0⟩ :: symsOf 1 es, '\x00' :: strs es, hb, ?_, ?_⟩
  · rw [h1, List.length_cons, symsOf_length, Nat.mul_comm]
  · rw [h2, List.length_cons, strs_length, emit_size es 1 hroom, Nat.add_comm]

theorem lookup_other : ∀ (others : List (List Char)) (n : List Char), n ∉ others →
    lookup (others.map (fun m => (m, Def.other))) n = none
  | [], _, _ => rfl
  | m :: l, n, h => by
    have h1 : m ≠ n := fun e => h (by simp [e])
    simp only [List.map_cons, lookup, if_neg h1]
    exact lookup_other l n (fun e => h (by simp [e]))

/-- No query ever gets anything from the extra symbols: whatever the meta object was made for, its table is looked for
under a name that it does not have, and every use of it reads through a null pointer. -/
theorem never_loaded (entries : List Extra) (others : List (List Char)) (o : List (List Char × Def))
    (h : build entries others = some o) (ho : w! "extrasym" ∉ others) (i : Nat) :
    (load o).1 = none ∧ entry (load o).1 i = none ∧ nameOf (load o) i = none := by
  have h1 : (load o).1 = none := by
    simp only [build] at h
    split at h
    · cases h
    · split at h
      · cases h
      · injection h with h
        subst h
        simp only [load, lookup]
        rw [if_neg (by decide), if_neg (by decide)]
        exact lookup_other _ _ ho
  refine ⟨h1, ?_, ?_⟩
  · rw [h1]; rfl
  · simp only [nameOf, h1, entry]

/-- Static objects without symbols are not found, though there is a symbol made for each: `i` is any index of one. -/
theorem query_fails (hd : Extra) (es : List Extra) (others : List (List Char)) (hok : ∀ e ∈ es, Ok e)
    (hroom : 1 + room es < 2 ^ 32) (ho : w! "extrasym" ∉ others) (i : Nat) (e : Extra) (hi : es[i]? = some e) :
    ∃ o vs, build (hd :: es) others = some o ∧ walk o = some vs ∧ vs[i + 1]? = some (wanted e)
      ∧ entry (load o).1 (i + 1) = none := by
  obtain ⟨o, hb, hw⟩ := walk_partial hd es others hok hroom
  refine ⟨o, _, hb, hw, ?_, (never_loaded _ _ _ hb ho (i + 1)).2.1⟩
  simp [hi]

theorem symsOf_at : ∀ (es : List Extra) (off i : Nat) (e : Extra), es[i]? = some e →
    ∃ s, (symsOf off es)[i]? = some s ∧ s.value = e.value ∧ s.size = e.size ∧ s.info = e.info ∧ s.other = e.other
      ∧ (e.name = none → s.nameOff = 0)
      ∧ (∀ n, e.name = some n → off ≤ s.nameOff ∧ ∃ pre rest, strs es = pre ++ (n ++ '\x00' :: rest) ∧ s.nameOff = off + pre.length)
  | [], _, _, _, h => by simp at h
  | d :: l, off, 0, e, h => by
    simp only [List.getElem?_cons_zero, Option.some.injEq] at h
    subst h
    cases hname : d.name with
    | none => exact ⟨⟨0, d.info, d.other, 0, d.value, d.size⟩, by simp [symsOf, hname], rfl, rfl, rfl, rfl, fun _ => rfl,
        fun n h => by cases h⟩
    | some m =>
      refine ⟨⟨off, d.info, d.other, 0, d.value, d.size⟩, by simp [symsOf, hname], rfl, rfl, rfl, rfl,
        fun h => (by cases h), fun n h => ⟨Nat.le_refl _, [], strs l, ?_, rfl⟩⟩
      injection h with h
      subst h
      simp [strs, hname]
  | d :: l, off, i + 1, e, h => by
    simp only [List.getElem?_cons_succ] at h
    cases hname : d.name with
    | none =>
      obtain ⟨s, h1, h2, h3, h4, h5, h6, h7⟩ := symsOf_at l off i e h
      refine ⟨s, by simpa [symsOf, hname] using h1, h2, h3, h4, h5, h6, fun n hn => ?_⟩
      obtain ⟨h8, pre, rest, h9, h10⟩ := h7 n hn
      exact ⟨h8, pre, rest, by simpa [strs, hname] using h9, h10⟩
    | some m =>
      obtain ⟨s, h1, h2, h3, h4, h5, h6, h7⟩ := symsOf_at l (off + m.length + 1) i e h
      refine ⟨s, by simpa [symsOf, hname] using h1, h2, h3, h4, h5, h6, fun n hn => ?_⟩
      obtain ⟨h8, pre, rest, h9, h10⟩ := h7 n hn
      refine ⟨by omega, m ++ '\x00' :: pre, rest, ?_, ?_⟩
      · simp only [strs, hname, h9]; simp
      · rw [h10]; simp; omega

/-- Were the table looked for under the name that it has, each record would be given its symbol and its symbol's name. -/
theorem named_if_loaded (hd : Extra) (es : List Extra) (others : List (List Char)) (hok : ∀ e ∈ es, Ok e)
    (hroom : 1 + room es < 2 ^ 32) (i : Nat) (e : Extra) (hi : es[i]? = some e) :
    ∃ o s, build (hd :: es) others = some o ∧ entry (lookup o w! "extrasyms") (i + 1) = some s ∧ s.value = e.value
      ∧ s.size = e.size ∧ nameOf (lookup o w! "extrasyms", lookup o w! "extrastr") (i + 1) =
        some (match e.name with | none => w! "(no name)" | some n => n) := by
  obtain ⟨o, hb, h1, h2⟩ := built hd es others hok hroom
  obtain ⟨s, h3, h4, h5, _, _, h6, h7⟩ := symsOf_at es 1 i e hi
  have he : entry (lookup o w! "extrasyms") (i + 1) = some s := by rw [h1]; simpa [entry] using h3
  refine ⟨o, s, hb, he, h4, h5, ?_⟩
  simp only [nameOf, he, h2]
  cases hname : e.name with
  | none => simp only [h6 hname, if_true]
  | some n =>
    obtain ⟨h8, pre, rest, h9, h10⟩ := h7 n hname
    have h0 : ¬ s.nameOff = 0 := by omega
    have hc := cstr_at ('\x00' :: pre) n rest (by
      have hm := List.mem_of_getElem? hi
      exact (hok e hm).2.2.2.2 n hname)
    simp only [h0, if_false]
    rw [h10, h9]
    simp only [List.cons_append, List.length_cons, Nat.add_comm pre.length 1] at hc
    exact hc

/-! ## Names that are not plain -/

theorem cLit_pre : ∀ (n r : List Char), Plain n → cLit true (n ++ r) =
    match cLit true r with | none => none | some t => some (n ++ t)
  | [], r, _ => by cases h : cLit true r <;> simp [h]
  | c :: l, r, h => by
    have hc := h c (by simp)
    have ih := cLit_pre l r (fun d hd => h d (by simp [hd]))
    rw [List.cons_append, cLit.eq_def]
    split
    · simp_all
    · simp_all
    · simp_all
    · rename_i _ heq
      injection heq with e1 e2
      subst e1 e2
      simp only [hc.1, hc.2.1, hc.2.2.1, or_self, if_false, ih]
      cases cLit true r <;> rfl
    · simp_all

/-- **C143 fails** for a name with one quote in it, as the last or followed by what does not begin with a quote or a blank:
the source that is generated does not compile. -/
theorem one_quote_fails (n : List Char) (c : Char) (m : List Char) (hn : Plain n) (hc : c ≠ '"' ∧ c ≠ ' ') :
    literal (n ++ ['"']) = none ∧ literal (n ++ '"' :: c :: m) = none := by
  have h1 : ∀ r, cLit false ('"' :: (n ++ r)) = match cLit true r with | none => none | some t => some (n ++ t) := by
    intro r
    rw [cLit]
    simp only [if_true]
    exact cLit_pre n r hn
  constructor
  · simp only [literal, List.cons_append, List.append_assoc, h1]
    simp [cLit]
  · simp only [literal, List.cons_append, List.append_assoc, h1]
    simp [cLit, hc.1, hc.2]

/-- **C143 fails** for names with backslashes: what follows them is read as an escape, once or twice. -/
theorem backslash_fails :
    literal w! "a\\tb" = some w! "a\tb" ∧ literal w! "a\\\\nb" = some w! "a\nb" ∧
    literal w! "a\\\\\\\\b" = some w! "a\\b" ∧ literal w! "a\\\\\\\"b" = some w! "a\"b" ∧
    literal w! "a\\\"b" = none ∧ literal w! "a\\b" = none ∧ literal w! "a\\\\b" = none ∧
    literal w! "a\\\\\\tb" = none ∧ literal w! "a\\" = none := by decide +kernel

/-- The entry that is skipped. -/
def E0 : Extra := ⟨none, 0, 0, 0, 0⟩

/-- A user-defined literal operator of C++, local to its file, and what comes after it. -/
def EQ : List Extra := [⟨some w! "operator\"\"_s", 0x1000, 16, 2, 0⟩, ⟨some w! "table", 0x4000, 64, 1, 0⟩]

/-- Two quotes in a name end one literal and begin the next, so that the name is shorter by two than was counted, and all
names after it are cut. -/
theorem quote_fails :
    ∃ o, build (E0 :: EQ) [] = some o
      ∧ walk o = some [⟨[], 0, 0, 0, 0⟩, ⟨w! "operator_s", 0x1000, 16, 2, 0⟩, ⟨w! "ble", 0x4000, 64, 1, 0⟩]
      ∧ EQ.map wanted = [⟨w! "operator\"\"_s", 0x1000, 16, 2, 0⟩, ⟨w! "table", 0x4000, 64, 1, 0⟩] :=
  ⟨_, rfl, by decide +kernel, by decide +kernel⟩

/-! ## A case -/

/-- Three symbols, one of them without a name. -/
def ES : List Extra :=
  [⟨some w! "counter", 0x4010, 8, 1, 0⟩, ⟨none, 0x4018, 24, 0x11, 2⟩, ⟨some w! "cache", 0x4040, 512, 0xa3, 0⟩]

theorem case_ok : (∀ e ∈ ES, Ok e) ∧ 1 + room ES < 2 ^ 32 := by
  constructor
  · intro e he
    simp only [ES, List.mem_cons, List.not_mem_nil, or_false] at he
    rcases he with rfl | rfl | rfl <;> refine ⟨by decide, by decide, by decide, by decide, ?_⟩
    · intro n h; injection h with h; subst h; intro c; revert c; decide
    · intro n h; cases h
    · intro n h; injection h with h; subst h; intro c; revert c; decide
  · decide

example : ∃ o, build (E0 :: ES) [w! "allocsites"] = some o
    ∧ walk o = some [⟨[], 0, 0, 0, 0⟩, ⟨w! "counter", 0x4010, 8, 1, 0⟩, ⟨[], 0x4018, 24, 0x11, 2⟩,
        ⟨w! "cache", 0x4040, 512, 0xa3, 0⟩] :=
  walk_partial E0 ES _ case_ok.1 case_ok.2

end Liballocs.ExtraSyms
