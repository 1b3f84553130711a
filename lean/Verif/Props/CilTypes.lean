import Verif.Model.CilTypes
/-!
# Names of C types

The names under which the instrumentation of C looks up types: which types share a name, and which strings share an identifier.
-/
namespace Liballocs.CilTypes

/-! ## Identifiers -/

/-- The value of a hexadecimal digit. -/
def nibble (c : Char) : Nat := if c.toNat < 58 then c.toNat - 48 else c.toNat - 87

/-- Reading an identifier back. -/
def unident : List Char → List Char
  | [] => []
  | '$' :: '$' :: s => '$' :: unident s
  | '$' :: a :: b :: s => Char.ofNat (16 * nibble a + nibble b) :: unident s
  | c :: s => c :: unident s

theorem hexDigit_toNat {n : Nat} (h : n < 16) : (hexDigit n).toNat = if n < 10 then 48 + n else 87 + n := by
  rcases n with _ | _ | _ | _ | _ | _ | _ | _ | _ | _ | _ | _ | _ | _ | _ | _ | n <;> first | rfl | omega

theorem nibble_hexDigit {n : Nat} (h : n < 16) : nibble (hexDigit n) = n := by
  unfold nibble
  rw [hexDigit_toNat h]
  split <;> split <;> omega

theorem hexDigit_ne {n : Nat} (h : n < 16) : hexDigit n ≠ '$' := by
  intro he
  have := hexDigit_toNat h
  rw [he] at this
  have h36 : '$'.toNat = 36 := rfl
  rw [h36] at this
  split at this <;> omega

theorem unident_ident : ∀ s : List Char, (∀ c ∈ s, c.toNat < 256) → unident (ident s) = s
  | [], _ => rfl
  | c :: s, h => by
    have ih := unident_ident s (fun d hd => h d (by simp [hd]))
    have hc := h c (by simp)
    rw [ident]
    split
    · rename_i he
      rw [unident, ih, he]
    · rename_i hne
      split
      · rw [unident]
        · rw [ih]
        · intro t he; exact absurd he hne
        · intro a b t he; exact absurd he hne
      · rw [unident]
        · rw [ih, nibble_hexDigit (by omega), nibble_hexDigit (by omega)]
          congr 1
          have : 16 * (c.toNat / 16) + c.toNat % 16 = c.toNat := by omega
          rw [this]
          exact Char.ofNat_toNat c
        · intro he; exact absurd he (hexDigit_ne (by omega))

/-- Different strings of bytes have different identifiers. -/
theorem ident_inj {s t : List Char} (hs : ∀ c ∈ s, c.toNat < 256) (ht : ∀ c ∈ t, c.toNat < 256) (h : ident s = ident t) : s = t := by
  rw [← unident_ident s hs, ← unident_ident t ht, h]

/-- Identifiers have only letters, digits, `_` and `$`, if the string has no backslash. -/
theorem ident_chars_partial : ∀ {s : List Char}, (∀ c ∈ s, c.toNat < 256 ∧ c ≠ '\\') → ∀ c ∈ ident s, c.isAlphanum ∨ c = '_' ∨ c = '$'
  | [], _, c, hc => by cases hc
  | d :: s, h, c, hc => by
    have hd := h d (by simp)
    have ih := ident_chars_partial (s := s) (fun e he => h e (by simp [he]))
    have hex : ∀ n, n < 16 → (hexDigit n).isAlphanum := by
      intro n hn
      rcases n with _ | _ | _ | _ | _ | _ | _ | _ | _ | _ | _ | _ | _ | _ | _ | _ | n <;> first | decide | omega
    rw [ident] at hc
    split at hc
    · simp only [List.mem_cons] at hc
      rcases hc with rfl | rfl | hc
      · exact Or.inr (Or.inr rfl)
      · exact Or.inr (Or.inr rfl)
      · exact ih c hc
    · split at hc
      · rename_i hp
        simp only [List.mem_cons] at hc
        rcases hc with rfl | hc
        · simp only [plain, Bool.or_eq_true, decide_eq_true_eq] at hp
          rcases hp with (hp | hp) | hp
          · exact Or.inl hp
          · exact Or.inr (Or.inl hp)
          · exact absurd hp hd.2
        · exact ih c hc
      · simp only [List.mem_cons] at hc
        rcases hc with rfl | rfl | rfl | hc
        · exact Or.inr (Or.inr rfl)
        · exact Or.inl (hex _ (by have := hd.1; omega))
        · exact Or.inl (hex _ (by omega))
        · exact ih c hc

/-- A backslash is not escaped, so that the result is no identifier. -/
theorem backslash_fails : ident ['a', '\\', 'b'] = ['a', '\\', 'b'] := by decide +kernel

example : ident "struct foo".toList = "struct$20foo".toList ∧ ident "a$b".toList = "a$$b".toList ∧ unident "int$$32".toList = "int$32".toList := by decide +kernel

/-! ## Names -/

/-- What a name does not tell apart: kinds of integers with the same encoding, structures, unions and enumerations, arrays of unknown and of zero
elements, functions with no arguments and with unknown ones. -/
def normK : IKind → IKind
  | .schar => .char
  | .longlong => .long
  | .ulonglong => .ulong
  | k => k

/-- The bound that a name tells. -/
def bnd : Option Nat → Nat
  | some k => k
  | none => 0

mutual
def norm : Ty → Ty
  | .void => .void
  | .int k => .int (normK k)
  | .float k => .float k
  | .valist => .valist
  | .ptr t => .ptr (norm t)
  | .arr t n => .arr (norm t) (some (bnd n))
  | .comp _ name => .comp true name
  | .enum name => .comp true name
  | .fn r known args va => .fn (norm r) true (if known then norms args else .nil) va
def norms : Tys → Tys
  | .nil => .nil
  | .cons t ts => .cons (norm t) (norms ts)
end

/-- A piece of a name that cannot be taken for something else: not empty, without `__`, and not ending in `_`. -/
def piece : List Char → Bool
  | [] => false
  | [c] => decide (c ≠ '_')
  | c :: d :: s => !(decide (c = '_') && decide (d = '_')) && piece (d :: s)

/-- A good tag, which is no name of a base type either. -/
def tag (n : List Char) : Bool := piece n && !n.contains '$' && decide (n ≠ ['v', 'o', 'i', 'd'])

mutual
/-- All tags are good. -/
def Good : Ty → Prop
  | .ptr t => Good t
  | .arr t _ => Good t
  | .comp _ name => tag name = true
  | .enum name => tag name = true
  | .fn r known args _ => Good r ∧ (known = true → Goods args)
  | _ => True
def Goods : Tys → Prop
  | .nil => True
  | .cons t ts => Good t ∧ Goods ts
end

/-- What may follow a name. -/
def Follow (r : List Char) : Prop := r = [] ∨ ∃ r', r = '_' :: '_' :: r'

theorem piece_lex : ∀ {n m r s : List Char}, piece n = true → piece m = true → Follow r → Follow s → n ++ r = m ++ s → n = m ∧ r = s
  | [], _, _, _, h, _, _, _, _ => by cases h
  | _, [], _, _, _, h, _, _, _ => by cases h
  | [a], [b], r, s, _, _, _, _, h => by
    simp only [List.cons_append, List.nil_append, List.cons.injEq] at h
    exact ⟨by rw [h.1], h.2⟩
  | [a], b :: c :: m, r, s, _, hm, hr, hs, h => by
    exfalso
    simp only [List.cons_append, List.nil_append, List.cons.injEq] at h
    obtain ⟨rfl, h⟩ := h
    rcases hr with rfl | ⟨r', rfl⟩
    · cases h
    · simp only [List.cons.injEq] at h
      obtain ⟨rfl, h⟩ := h
      cases m with
      | nil => simp [piece] at hm
      | cons d m =>
        simp only [List.cons_append, List.cons.injEq] at h
        obtain ⟨rfl, _⟩ := h
        simp [piece] at hm
  | a :: c :: n, [b], r, s, hn, _, hr, hs, h => by
    exfalso
    simp only [List.cons_append, List.nil_append, List.cons.injEq] at h
    obtain ⟨rfl, h⟩ := h
    rcases hs with rfl | ⟨s', rfl⟩
    · cases h
    · simp only [List.cons.injEq] at h
      obtain ⟨rfl, h⟩ := h
      cases n with
      | nil => simp [piece] at hn
      | cons d n =>
        simp only [List.cons_append, List.cons.injEq] at h
        obtain ⟨rfl, _⟩ := h
        simp [piece] at hn
  | a :: c :: n, b :: d :: m, r, s, hn, hm, hr, hs, h => by
    simp only [List.cons_append, List.cons.injEq] at h
    obtain ⟨rfl, h⟩ := h
    rw [piece, Bool.and_eq_true] at hn hm
    have := piece_lex hn.2 hm.2 hr hs (by simpa using h)
    exact ⟨by rw [this.1], this.2⟩

/-- What a name begins with. -/
def kind : List Char → Nat
  | '_' :: '_' :: 'A' :: _ => 1
  | '_' :: '_' :: 'P' :: _ => 2
  | '_' :: '_' :: 'F' :: _ => 3
  | '_' :: '_' :: 'b' :: _ => 4
  | _ => 0

theorem kind_zero {s : List Char} (h : ∀ s', s ≠ '_' :: '_' :: s') : kind s = 0 := by
  unfold kind
  split
  · exact absurd rfl (h _)
  · exact absurd rfl (h _)
  · exact absurd rfl (h _)
  · exact absurd rfl (h _)
  · rfl

theorem piece_kind {n r : List Char} (h : piece n = true) (hr : Follow r) : kind (n ++ r) = 0 := by
  apply kind_zero
  intro s' he
  match n, h with
  | [a], h =>
    simp only [List.cons_append, List.nil_append, List.cons.injEq] at he
    simp [piece, he.1] at h
  | a :: b :: n, h =>
    simp only [List.cons_append, List.cons.injEq] at he
    simp [piece, he.1, he.2.1] at h

/-- The names of the atoms. -/
def atom : Ty → Option (List Char)
  | .void => some ['v', 'o', 'i', 'd']
  | .int k => some (ident (enc k))
  | .float k => some (ident (fenc k))
  | .comp _ n => some n
  | .enum n => some n
  | _ => none

theorem atom_piece {t : Ty} (h : Good t) {n : List Char} (ha : atom t = some n) : piece n = true := by
  cases t with
  | void => cases ha; decide
  | int k => cases ha; cases k <;> decide +kernel
  | float k => cases ha; cases k <;> decide +kernel
  | comp b n' =>
    cases ha
    have h : tag n = true := h
    simp only [tag, Bool.and_eq_true] at h
    exact h.1.1
  | enum n' =>
    cases ha
    have h : tag n = true := h
    simp only [tag, Bool.and_eq_true] at h
    exact h.1.1
  | _ => cases ha

theorem tag_no_dollar {n : List Char} (h : tag n = true) : '$' ∉ n ∧ n ≠ ['v', 'o', 'i', 'd'] := by
  simp only [tag, Bool.and_eq_true, Bool.not_eq_true', decide_eq_true_eq] at h
  exact ⟨by simpa using h.1.2, h.2⟩

theorem enc_dollar (k : IKind) : '$' ∈ ident (enc k) := by cases k <;> decide +kernel

theorem fenc_dollar (k : FKind) : '$' ∈ ident (fenc k) := by cases k <;> decide +kernel

theorem enc_normK {k l : IKind} (h : ident (enc k) = ident (enc l)) : normK k = normK l := by
  revert h
  cases k <;> cases l <;> decide +kernel

theorem fenc_inj {k l : FKind} (h : ident (fenc k) = ident (fenc l)) : k = l := by
  revert h
  cases k <;> cases l <;> decide +kernel

theorem enc_fenc (k : IKind) (l : FKind) : ident (enc k) ≠ ident (fenc l) := by
  cases k <;> cases l <;> decide +kernel

theorem void_no_dollar : '$' ∉ ['v', 'o', 'i', 'd'] := by decide

theorem atom_norm {t u : Ty} (ht : Good t) (hu : Good u) {n : List Char} (h : atom t = some n) (h' : atom u = some n) : norm t = norm u := by
  cases t with
  | void =>
    cases h
    cases u with
    | void => rfl
    | int k => exact absurd (Option.some.inj h' ▸ enc_dollar k) void_no_dollar
    | float k => exact absurd (Option.some.inj h' ▸ fenc_dollar k) void_no_dollar
    | comp b m => exact absurd (Option.some.inj h') (tag_no_dollar (n := m) hu).2
    | enum m => exact absurd (Option.some.inj h') (tag_no_dollar (n := m) hu).2
    | _ => cases h'
  | int k =>
    cases h
    cases u with
    | void => exact absurd ((Option.some.inj h').symm ▸ enc_dollar k) void_no_dollar
    | int l => rw [norm, norm, enc_normK (Option.some.inj h').symm]
    | float l => exact absurd (Option.some.inj h').symm (enc_fenc k l)
    | comp b m => exact absurd ((Option.some.inj h').symm ▸ enc_dollar k) (tag_no_dollar (n := m) hu).1
    | enum m => exact absurd ((Option.some.inj h').symm ▸ enc_dollar k) (tag_no_dollar (n := m) hu).1
    | _ => cases h'
  | float k =>
    cases h
    cases u with
    | void => exact absurd ((Option.some.inj h').symm ▸ fenc_dollar k) void_no_dollar
    | int l => exact absurd (Option.some.inj h') (enc_fenc l k)
    | float l => rw [norm, norm, fenc_inj (Option.some.inj h').symm]
    | comp b m => exact absurd ((Option.some.inj h').symm ▸ fenc_dollar k) (tag_no_dollar (n := m) hu).1
    | enum m => exact absurd ((Option.some.inj h').symm ▸ fenc_dollar k) (tag_no_dollar (n := m) hu).1
    | _ => cases h'
  | comp b m =>
    cases h
    cases u with
    | void => exact absurd (Option.some.inj h').symm (tag_no_dollar (n := n) ht).2
    | int l => exact absurd (Option.some.inj h' ▸ enc_dollar l) (tag_no_dollar (n := n) ht).1
    | float l => exact absurd (Option.some.inj h' ▸ fenc_dollar l) (tag_no_dollar (n := n) ht).1
    | comp b' m' => cases h'; rfl
    | enum m' => cases h'; rfl
    | _ => cases h'
  | enum m =>
    cases h
    cases u with
    | void => exact absurd (Option.some.inj h').symm (tag_no_dollar (n := n) ht).2
    | int l => exact absurd (Option.some.inj h' ▸ enc_dollar l) (tag_no_dollar (n := n) ht).1
    | float l => exact absurd (Option.some.inj h' ▸ fenc_dollar l) (tag_no_dollar (n := n) ht).1
    | comp b' m' => cases h'; rfl
    | enum m' => cases h'; rfl
    | _ => cases h'
  | _ => cases h

theorem bare_atom {t : Ty} {n : List Char} (h : atom t = some n) : bare t = n := by
  cases t with
  | void => cases h; rw [bare, kVoid]
  | int k => cases h; rw [bare]
  | float k => cases h; rw [bare]
  | comp b m => cases h; rw [bare]
  | enum m => cases h; rw [bare]
  | _ => cases h

theorem bare_arr (t : Ty) (n : Option Nat) : bare (.arr t n) = '_' :: '_' :: 'A' :: 'R' :: 'R' :: (digits (bnd n) ++ '_' :: bare t) := by
  rw [bare]
  cases n with
  | none => rfl
  | some k => rfl

theorem bare_ptr (t : Ty) : bare (.ptr t) = '_' :: '_' :: 'P' :: 'T' :: 'R' :: '_' :: bare t := by rw [bare]; rfl

/-- The arguments as far as known. -/
def given (known : Bool) (args : Tys) : Tys := if known then args else .nil

theorem bare_fn (r : Ty) (known : Bool) (args : Tys) (va : Bool) : bare (.fn r known args va) =
    '_' :: '_' :: 'F' :: 'U' :: 'N' :: '_' :: 'F' :: 'R' :: 'O' :: 'M' :: '_' :: (bareArgs (given known args) 0 ++ (sep va ++ bare r)) := by
  rw [bare]
  cases known
  · simp only [given, Bool.false_eq_true, if_false]
    rw [bareArgs]
    rfl
  · rfl

theorem bareArgs_cons (t : Ty) (ts : Tys) (k : Nat) : bareArgs (.cons t ts) k = '_' :: '_' :: 'A' :: 'R' :: 'G' :: (digits k ++ '_' :: (bare t ++ bareArgs ts (k + 1))) := by
  rw [bareArgs]; rfl

theorem digits_inj {j k : Nat} (h : digits j = digits k) : j = k := by
  unfold digits at h
  rw [Nat.toList_repr, Nat.toList_repr] at h
  rw [← Nat.ofDigitChars_ten_toDigits (n := j), ← Nat.ofDigitChars_ten_toDigits (n := k), h]

theorem until_lex {c : Char} : ∀ {a b r s : List Char}, c ∉ a → c ∉ b → a ++ c :: r = b ++ c :: s → a = b ∧ r = s
  | [], [], r, s, _, _, h => by simpa using h
  | [], d :: b, r, s, _, hb, h => by
    simp only [List.nil_append, List.cons_append, List.cons.injEq] at h
    exact absurd (by simp [h.1]) hb
  | d :: a, [], r, s, ha, _, h => by
    simp only [List.nil_append, List.cons_append, List.cons.injEq] at h
    exact absurd (by simp [h.1]) ha
  | d :: a, e :: b, r, s, ha, hb, h => by
    simp only [List.cons_append, List.cons.injEq] at h
    have := until_lex (fun hm => ha (by simp [hm])) (fun hm => hb (by simp [hm])) h.2
    exact ⟨by rw [h.1, this.1], this.2⟩

theorem digits_lex {j k : Nat} {r s : List Char} (h : digits j ++ '_' :: r = digits k ++ '_' :: s) : j = k ∧ r = s := by
  have hu : ∀ n, '_' ∉ digits n := by
    intro n
    unfold digits
    rw [Nat.toList_repr]
    exact Nat.underscore_not_in_toDigits
  have := until_lex (hu j) (hu k) h
  exact ⟨digits_inj this.1, this.2⟩

/-- The kind of a type's name. -/
def code : Ty → Nat
  | .arr _ _ => 1
  | .ptr _ => 2
  | .fn .. => 3
  | .valist => 4
  | _ => 0

theorem bare_kind {t : Ty} (h : Good t) {r : List Char} (hr : Follow r) : kind (bare t ++ r) = code t := by
  cases t with
  | arr t n => rw [bare_arr]; rfl
  | ptr t => rw [bare_ptr]; rfl
  | fn r' k a v => rw [bare_fn]; rfl
  | valist =>
    rw [bare]
    have : ident kValist = '_' :: '_' :: 'b' :: "uiltin_va_list".toList := by decide +kernel
    rw [this]; rfl
  | void => rw [bare_atom rfl]; exact piece_kind (atom_piece (t := .void) h rfl) hr
  | int k => rw [bare_atom rfl]; exact piece_kind (atom_piece (t := .int k) h rfl) hr
  | float k => rw [bare_atom rfl]; exact piece_kind (atom_piece (t := .float k) h rfl) hr
  | comp b m => rw [bare_atom rfl]; exact piece_kind (atom_piece (t := .comp b m) h rfl) hr
  | enum m => rw [bare_atom rfl]; exact piece_kind (atom_piece (t := .enum m) h rfl) hr

theorem code_atom {t : Ty} (h : code t = 0) : ∃ n, atom t = some n := by
  cases t <;> first | exact ⟨_, rfl⟩ | cases h

theorem sep_follow (va : Bool) (r : List Char) : Follow (sep va ++ r) := by
  cases va <;> exact Or.inr ⟨_, rfl⟩

theorem bareArgs_follow (ts : Tys) (k : Nat) (r : List Char) (h : Follow r) : Follow (bareArgs ts k ++ r) := by
  cases ts with
  | nil => rw [bareArgs]; exact h
  | cons t ts => rw [bareArgs_cons]; exact Or.inr ⟨_, rfl⟩

theorem sep_lex {va va' : Bool} {r s : List Char} (h : sep va ++ r = sep va' ++ s) : va = va' ∧ r = s := by
  cases va <;> cases va'
  · exact ⟨rfl, List.append_cancel_left h⟩
  · simp [sep, kTo, kVa] at h
  · simp [sep, kTo, kVa] at h
  · exact ⟨rfl, List.append_cancel_left h⟩

theorem sep_not_arg {va : Bool} {r s : List Char} (h : sep va ++ r = '_' :: '_' :: 'A' :: s) : False := by
  cases va
  · simp [sep, kTo, kVa] at h
  · simp [sep, kTo, kVa] at h

mutual
theorem bare_lex : ∀ (t u : Ty) (r s : List Char), Good t → Good u → Follow r → Follow s → bare t ++ r = bare u ++ s → norm t = norm u ∧ r = s
  | .arr t n, u, r, s, ht, hu, hr, hs, h => by
    have hk : code u = 1 := by rw [← bare_kind hu hs, ← h]; exact bare_kind ht hr
    cases u with
    | arr u m =>
      rw [bare_arr, bare_arr] at h
      simp only [List.cons_append, List.append_assoc, List.cons.injEq, true_and] at h
      obtain ⟨h1, h2⟩ := digits_lex h
      obtain ⟨h3, h4⟩ := bare_lex t u r s ht hu hr hs h2
      exact ⟨by rw [norm, norm, h1, h3], h4⟩
    | _ => cases hk
  | .ptr t, u, r, s, ht, hu, hr, hs, h => by
    have hk : code u = 2 := by rw [← bare_kind hu hs, ← h]; exact bare_kind ht hr
    cases u with
    | ptr u =>
      rw [bare_ptr, bare_ptr] at h
      simp only [List.cons_append, List.cons.injEq, true_and] at h
      obtain ⟨h3, h4⟩ := bare_lex t u r s ht hu hr hs h
      exact ⟨by rw [norm, norm, h3], h4⟩
    | _ => cases hk
  | .fn t known args va, u, r, s, ht, hu, hr, hs, h => by
    have hk : code u = 3 := by rw [← bare_kind hu hs, ← h]; exact bare_kind ht hr
    cases u with
    | fn u known' args' va' =>
      rw [bare_fn, bare_fn] at h
      simp only [List.cons_append, List.append_assoc, List.cons.injEq, true_and] at h
      cases known with
      | false =>
        cases known' with
        | false =>
          obtain ⟨h1, h2⟩ := sep_lex h
          obtain ⟨h3, h4⟩ := bare_lex t u r s ht.1 hu.1 hr hs h2
          exact ⟨by rw [norm, norm, h1, h3]; rfl, h4⟩
        | true =>
          cases args' with
          | nil =>
            obtain ⟨h1, h2⟩ := sep_lex h
            obtain ⟨h3, h4⟩ := bare_lex t u r s ht.1 hu.1 hr hs h2
            exact ⟨by rw [norm, norm, h1, h3]; rfl, h4⟩
          | cons x xs =>
            have h : sep va ++ (bare t ++ r) = bareArgs (.cons x xs) 0 ++ (sep va' ++ (bare u ++ s)) := h
            rw [bareArgs_cons] at h
            exact (sep_not_arg h).elim
      | true =>
        have hb : Goods (given known' args') := by
          cases known'
          · exact trivial
          · exact hu.2 rfl
        obtain ⟨h0, h1⟩ := bareArgs_lex args (given known' args') 0 va va' (bare t ++ r) (bare u ++ s) (ht.2 rfl) hb h
        obtain ⟨h1, h2⟩ := sep_lex h1
        obtain ⟨h3, h4⟩ := bare_lex t u r s ht.1 hu.1 hr hs h2
        refine ⟨?_, h4⟩
        rw [norm, norm, h1, h3, if_pos rfl, h0]
        cases known' <;> rfl
    | _ => cases hk
  | .valist, u, r, s, ht, hu, hr, hs, h => by
    have hk : code u = 4 := by rw [← bare_kind hu hs, ← h]; exact bare_kind ht hr
    cases u with
    | valist => exact ⟨rfl, List.append_cancel_left h⟩
    | _ => cases hk
  | .void, u, r, s, ht, hu, hr, hs, h => atom_lex rfl ht hu hr hs h
  | .int k, u, r, s, ht, hu, hr, hs, h => atom_lex rfl ht hu hr hs h
  | .float k, u, r, s, ht, hu, hr, hs, h => atom_lex rfl ht hu hr hs h
  | .comp b m, u, r, s, ht, hu, hr, hs, h => atom_lex rfl ht hu hr hs h
  | .enum m, u, r, s, ht, hu, hr, hs, h => atom_lex rfl ht hu hr hs h
theorem bareArgs_lex : ∀ (a b : Tys) (k : Nat) (va va' : Bool) (r s : List Char), Goods a → Goods b → bareArgs a k ++ (sep va ++ r) = bareArgs b k ++ (sep va' ++ s) →
    norms a = norms b ∧ sep va ++ r = sep va' ++ s
  | .nil, .nil, k, va, va', r, s, _, _, h => ⟨rfl, h⟩
  | .nil, .cons u us, k, va, va', r, s, _, _, h => by
    rw [bareArgs_cons, bareArgs] at h
    exact (sep_not_arg h).elim
  | .cons t ts, .nil, k, va, va', r, s, _, _, h => by
    rw [bareArgs_cons, bareArgs] at h
    exact (sep_not_arg h.symm).elim
  | .cons t ts, .cons u us, k, va, va', r, s, ha, hb, h => by
    rw [bareArgs_cons, bareArgs_cons] at h
    simp only [List.cons_append, List.append_assoc, List.cons.injEq, true_and] at h
    obtain ⟨-, h2⟩ := digits_lex h
    obtain ⟨h3, h4⟩ := bare_lex t u _ _ ha.1 hb.1 (bareArgs_follow ts _ _ (sep_follow va r)) (bareArgs_follow us _ _ (sep_follow va' s)) h2
    obtain ⟨h5, h6⟩ := bareArgs_lex ts us (k + 1) va va' r s ha.2 hb.2 h4
    exact ⟨by rw [norms, norms, h3, h5], h6⟩
theorem atom_lex {t u : Ty} {r s : List Char} (h0 : code t = 0) (ht : Good t) (hu : Good u) (hr : Follow r) (hs : Follow s) (h : bare t ++ r = bare u ++ s) : norm t = norm u ∧ r = s := by
  have hk : code u = 0 := by rw [← bare_kind hu hs, ← h, bare_kind ht hr, h0]
  obtain ⟨n, hn⟩ := code_atom h0
  obtain ⟨m, hm⟩ := code_atom hk
  rw [bare_atom hn, bare_atom hm] at h
  obtain ⟨h1, h2⟩ := piece_lex (atom_piece ht hn) (atom_piece hu hm) hr hs h
  exact ⟨atom_norm ht hu hn (h1 ▸ hm), h2⟩
end

mutual
theorem bare_norm : ∀ t : Ty, bare (norm t) = bare t
  | .void => rfl
  | .int k => by rw [norm, bare, bare]; cases k <;> rfl
  | .float _ => rfl
  | .valist => rfl
  | .ptr t => by rw [norm, bare_ptr, bare_ptr, bare_norm t]
  | .arr t n => by rw [norm, bare_arr, bare_arr, bare_norm t, bnd]
  | .comp _ name => by rw [norm, bare, bare]
  | .enum name => by rw [norm, bare, bare]
  | .fn r known args va => by
    rw [norm, bare_fn, bare_fn, bare_norm r]
    cases known with
    | false => rfl
    | true =>
      have h := bareArgs_norms args 0
      simp only [given, if_true]
      rw [h]
theorem bareArgs_norms : ∀ (ts : Tys) (k : Nat), bareArgs (norms ts) k = bareArgs ts k
  | .nil, _ => rfl
  | .cons t ts, k => by rw [norms, bareArgs_cons, bareArgs_cons, bare_norm t, bareArgs_norms ts]
end

/-- Two types have the same name just if they differ only in what names do not tell apart. Not covered: tags with `__` in them, that end in `_`, contain
`$` or are called `void`. -/
theorem name_partial {t u : Ty} (ht : Good t) (hu : Good u) : symname t = symname u ↔ norm t = norm u := by
  unfold symname
  constructor
  · intro h
    have h := List.append_cancel_left h
    exact (bare_lex t u [] [] ht hu (Or.inl rfl) (Or.inl rfl) (by simpa using h)).1
  · intro h
    rw [← bare_norm t, ← bare_norm u, h]

/-- A pointer to a function from an array and a structure, with more arguments. -/
example : symname (.ptr (.fn .void true (.cons (.arr (.int .int) (some 3)) (.cons (.comp true "foo".toList) .nil)) true)) =
    "__uniqtype____PTR___FUN_FROM___ARG0___ARR3_int$$32__ARG1_foo__VA___FUN_TO_void".toList ∧
    Good (.ptr (.fn .void true (.cons (.arr (.int .int) (some 3)) (.cons (.comp true "foo".toList) .nil)) true)) := by
  refine ⟨by decide +kernel, trivial, fun _ => ⟨trivial, show tag _ = true by decide +kernel, trivial⟩⟩

/-- Tags that look like types are taken for them: a structure `__PTR_foo` and a pointer to a structure `foo`. -/
theorem tag_fails : symname (.comp true "__PTR_foo".toList) = symname (.ptr (.comp true "foo".toList)) ∧
    norm (.comp true "__PTR_foo".toList) ≠ norm (.ptr (.comp true "foo".toList)) := by decide +kernel

/-- So do tags with an underscore at the end, between functions. -/
theorem args_fails : symname (.fn .void true (.cons (.comp true "a__ARG1_b".toList) .nil) false) =
    symname (.fn .void true (.cons (.comp true "a".toList) (.cons (.comp true "b".toList) .nil)) false) := by decide +kernel

/-- Types that C keeps apart share a name. -/
theorem same_fails : symname (.int .long) = symname (.int .longlong) ∧ symname (.int .char) = symname (.int .schar) ∧
    symname (.arr (.int .int) none) = symname (.arr (.int .int) (some 0)) ∧ symname (.fn .void true .nil false) = symname (.fn .void false .nil false) ∧
    symname (.comp true "e".toList) = symname (.enum "e".toList) := by decide +kernel

/-! ## Arrays, signs and generic pointers -/

theorem decay_not_arr : ∀ (t u : Ty) (n : Option Nat), decay t ≠ .arr u n
  | .arr t _, u, n => by rw [decay]; exact decay_not_arr t u n
  | .void, _, _ => by simp [decay]
  | .int _, _, _ => by simp [decay]
  | .float _, _, _ => by simp [decay]
  | .valist, _, _ => by simp [decay]
  | .ptr _, _, _ => by simp [decay]
  | .comp .., _, _ => by simp [decay]
  | .enum _, _, _ => by simp [decay]
  | .fn .., _, _ => by simp [decay]

/-- Collapsing dimensions always loses them. -/
theorem dims_none : ∀ t : Ty, (dims t).2 = none
  | .arr t (some n) => by
    rw [dims]
    have := dims_none t
    split
    · rename_i u k he; rw [he] at this; cases this
    · rfl
  | .arr t none => by rw [dims]
  | .void => rfl
  | .int _ => rfl
  | .float _ => rfl
  | .valist => rfl
  | .ptr _ => rfl
  | .comp .. => rfl
  | .enum _ => rfl
  | .fn .. => rfl

theorem dims_decay : ∀ t : Ty, (dims t).1 = decay t
  | .arr t (some n) => by
    rw [dims, decay, ← dims_decay t]
    split
    · rename_i u k he; rw [he]
    · rename_i u he; rw [he]
  | .arr t none => by rw [dims, decay]
  | .void => rfl
  | .int _ => rfl
  | .float _ => rfl
  | .valist => rfl
  | .ptr _ => rfl
  | .comp .. => rfl
  | .enum _ => rfl
  | .fn .. => rfl

/-- An array of arrays becomes an array, of unknown size, of the innermost elements: the numbers of elements are lost though known. -/
theorem collapse_fails (t : Ty) (n m : Option Nat) : collapse (.arr (.arr t n) m) = .arr (decay t) none := by
  rw [collapse, dims_none, dims_decay, decay, decay]

/-- Signs changed somewhere under pointers and arrays. -/
inductive Signs : Ty → Ty → Prop
  | refl (t : Ty) : Signs t t
  | int {k l : IKind} : unsign k = unsign l → Signs (.int k) (.int l)
  | ptr {t u : Ty} : Signs t u → Signs (.ptr t) (.ptr u)
  | arr {t u : Ty} (n : Option Nat) : Signs t u → Signs (.arr t n) (.arr u n)

theorem Signs.match {t u : Ty} (h : Signs t u) : matchSign t u = true := by
  induction h with
  | refl t => unfold matchSign; simp
  | int h => unfold matchSign; simp [h]
  | ptr _ ih => unfold matchSign; simp [ih]
  | arr n _ ih => unfold matchSign; simp [ih]

theorem match_signs : ∀ t u : Ty, matchSign t u = true → Signs t u
  | .ptr t, u, h => by
    by_cases he : Ty.ptr t = u
    · rw [← he]; exact .refl _
    · unfold matchSign at h
      cases u with
      | ptr u => exact .ptr (match_signs t u (by simpa [he] using h))
      | _ => simp at h
  | .arr t n, u, h => by
    by_cases he : Ty.arr t n = u
    · rw [← he]; exact .refl _
    · unfold matchSign at h
      cases u with
      | arr u m =>
        simp only [he, decide_false, Bool.false_or, Bool.and_eq_true, decide_eq_true_eq] at h
        obtain ⟨rfl, h⟩ := h
        exact .arr n (match_signs t u h)
      | _ => simp at h
  | .int k, u, h => by
    unfold matchSign at h
    cases u with
    | int l =>
      simp only [Bool.or_eq_true, decide_eq_true_eq] at h
      rcases h with h | h
      · rw [h]; exact .refl _
      · exact .int h
    | _ => simp at h
  | .void, u, h => by
    have : Ty.void = u := by unfold matchSign at h; simpa using h
    rw [← this]; exact .refl _
  | .float k, u, h => by
    have : Ty.float k = u := by unfold matchSign at h; simpa using h
    rw [← this]; exact .refl _
  | .valist, u, h => by
    have : Ty.valist = u := by unfold matchSign at h; simpa using h
    rw [← this]; exact .refl _
  | .comp b n, u, h => by
    have : Ty.comp b n = u := by unfold matchSign at h; simpa using h
    rw [← this]; exact .refl _
  | .enum n, u, h => by
    have : Ty.enum n = u := by unfold matchSign at h; simpa using h
    rw [← this]; exact .refl _
  | .fn r k a v, u, h => by
    have : Ty.fn r k a v = u := by unfold matchSign at h; simpa using h
    rw [← this]; exact .refl _

/-- The comparison modulo signs decides just that. -/
theorem match_spec (t u : Ty) : matchSign t u = true ↔ Signs t u := ⟨match_signs t u, Signs.match⟩

theorem Signs.symm {t u : Ty} (h : Signs t u) : Signs u t := by
  induction h with
  | refl t => exact .refl t
  | int h => exact .int h.symm
  | ptr _ ih => exact .ptr ih
  | arr n _ ih => exact .arr n ih

theorem Signs.trans {t u v : Ty} (h : Signs t u) (h' : Signs u v) : Signs t v := by
  induction h generalizing v with
  | refl t => exact h'
  | int h =>
    cases h' with
    | refl => exact .int h
    | int h2 => exact .int (h.trans h2)
  | ptr hh ih =>
    cases h' with
    | refl => exact .ptr hh
    | ptr h2 => exact .ptr (ih h2)
  | arr n hh ih =>
    cases h' with
    | refl => exact .arr n hh
    | arr _ h2 => exact .arr n (ih h2)

/-- A type without its pointers and arrays. -/
def strip : Ty → Ty
  | .ptr t => strip t
  | .arr t _ => strip t
  | t => t

theorem pointee_concrete : ∀ u : Ty, pointee (.ptr (concrete u)) = some (strip u)
  | .ptr t => by rw [concrete, pointee, strip]; exact pointee_concrete t
  | .arr t _ => by rw [concrete, strip]; exact pointee_concrete t
  | .void => rfl
  | .int _ => rfl
  | .float _ => rfl
  | .valist => rfl
  | .comp .. => rfl
  | .enum _ => rfl
  | .fn .. => rfl

theorem level_zero (u : Ty) : level u = 0 ↔ ∀ v, u ≠ .ptr v := by
  cases u <;> simp [level]

/-- Singly indirect generic pointers are those to `void` or `char`, or to an array that has, under pointers and arrays, nothing but these. -/
theorem singly_spec (t : Ty) : singlyGeneric t = true ↔ ∃ u, t = .ptr u ∧ (∀ v, u ≠ .ptr v) ∧ (strip u = .void ∨ strip u = .int .char) := by
  unfold singlyGeneric generic
  simp only [Bool.and_eq_true, Bool.or_eq_true, decide_eq_true_eq]
  cases t with
  | ptr u =>
    rw [concrete, pointee_concrete]
    simp only [level, Option.some.injEq, Ty.ptr.injEq, exists_eq_left']
    rw [← level_zero]
    constructor
    · rintro ⟨h1, -, h2⟩
      exact ⟨by omega, h2⟩
    · rintro ⟨h1, h2⟩
      exact ⟨by omega, by omega, h2⟩
  | _ => simp [level]

example : singlyGeneric (.ptr .void) = true ∧ singlyGeneric (.ptr (.int .char)) = true ∧ singlyGeneric (.ptr (.ptr .void)) = false ∧ singlyGeneric (.ptr (.int .int)) = false := by
  decide +kernel

/-- A pointer to an array of pointers to `void` counts as a pointer to anything. -/
theorem generic_fails : singlyGeneric (.ptr (.arr (.ptr .void) (some 4))) = true := by decide +kernel

example : matchSign (.ptr (.int .int)) (.ptr (.int .uint)) = true ∧ matchSign (.ptr (.int .int)) (.ptr (.int .long)) = false ∧
    matchSign (.arr (.int .char) (some 1)) (.arr (.int .uchar) (some 2)) = false := by decide +kernel

/-- Sizes of integers in bytes, on a 64-bit machine. -/
def intBytes : IKind → Nat
  | .char | .schar | .uchar | .bool => 1
  | .short | .ushort => 2
  | .int | .uint => 4
  | .long | .ulong | .longlong | .ulonglong => 8

/-- Likewise for floating-point numbers. -/
def floatBytes : FKind → Nat
  | .float => 4
  | .double => 8
  | .longdouble => 16

/-- The encoding that DWARF has for an integer type, with the signs as libdwarfpp writes them. -/
def intName : IKind → String
  | .char | .schar => "signed_char"
  | .uchar => "unsigned_char"
  | .bool => "boolean"
  | .short | .int | .long | .longlong => "int"
  | .ushort | .uint | .ulong | .ulonglong => "uint"

/-- **C115**.  A number's type is named by its encoding and its size in bits. -/
theorem enc_spec (k : IKind) : enc k = (intName k ++ "$").toList ++ digits (8 * intBytes k) := by
  cases k <;> decide +kernel

theorem fenc_spec (k : FKind) : fenc k = "float$".toList ++ digits (8 * floatBytes k) := by
  cases k <;> decide +kernel

end Liballocs.CilTypes
