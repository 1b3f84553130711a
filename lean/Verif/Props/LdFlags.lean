import Verif.Proofs.LdFlags
import Verif.Props.LinkArgs
/-! Properties of the way from the environment to the linker plugin's wrappers. -/
namespace Liballocs.LdFlags
open Liballocs.LinkArgs (Text interest wrap splitLast)

/-! ## The specification -/

/-- A C identifier. -/
def CName (n : Text) : Prop := ∃ c t, n = c :: t ∧ (c.isAlpha = true ∨ c = '_') ∧ ∀ d ∈ t, d.isAlphanum = true ∨ d = '_'

/-- A function in an option: its name, a letter for each argument, and what comes after. -/
structure Ent where
  name : Text
  args : List Char
  suffix : Text

/-- Letters with a separator between them. -/
def inter (sep : Char) : List Char → Text
  | [] => []
  | [c] => [c]
  | c :: l => c :: sep :: inter sep l

private theorem inter_cons (sep c d : Char) (l : List Char) : inter sep (c :: d :: l) = c :: sep :: inter sep (d :: l) := rfl

def Ent.text (sep : Char) (e : Ent) : Text := e.name ++ sep :: '(' :: (inter sep e.args ++ ')' :: sep :: e.suffix)

/-- A function as the options should have it; the name of the macros' parameter is not used. -/
structure Ent.Ok (e : Ent) : Prop where
  name : CName e.name
  args : e.args ≠ [] ∧ ∀ c ∈ e.args, c.isAlpha = true
  suffix : Suffix e.suffix
  notw : e.name ≠ ['w'] ∧ 'w' ∉ e.args ∧ e.suffix ≠ ['w']

/-- The functions of an option, each with the blanks before it. -/
abbrev Row := List (Text × Ent)

def Row.text (sep : Char) (r : Row) : Text := r.flatMap fun x => x.1 ++ x.2.text sep

/-- Blanks between functions, and none before the first. -/
def Row.Ok : Row → Prop
  | [] => True
  | (g, e) :: more => g = [] ∧ e.Ok ∧ ∀ x ∈ more, x.1 ≠ [] ∧ (∀ c ∈ x.1, c = ' ' ∨ c = '\t') ∧ x.2.Ok

/-- The wrappers that should be made. -/
def Row.invs (mac : Text) (r : Row) : List Inv := r.map fun x => ⟨mac, x.2.name, x.2.args.map fun c => [c], x.2.suffix⟩

/-! ## One entry -/

private theorem ident0 {c : Char} (h : c.isAlpha = true ∨ c = '_') : isIdent0 c = true := by
  unfold isIdent0; rcases h with h | h <;> simp [h]

private theorem ident1 {c : Char} (h : c.isAlphanum = true ∨ c = '_') : isIdent1 c = true := by
  unfold isIdent1; rcases h with h | h <;> simp [h]

private theorem lang_name {n : Text} (h : CName n) : reIdent.Lang n := by
  obtain ⟨c, t, rfl, hc, ht⟩ := h
  exact lang_ident.2 ⟨c, t, rfl, ident0 hc, fun d hd => ident1 (ht d hd)⟩

private theorem inter_tail (sep : Char) : ∀ (c : Char) (l : List Char), inter sep (c :: l) = c :: argTail (l.map fun d => (sep, d))
  | c, [] => rfl
  | c, d :: l => by rw [inter_cons, inter_tail sep d l]; rfl

private theorem lang_text {e : Ent} (he : e.Ok) {sep : Char} (hs : isSep sep = true) : reEntry.Lang (e.text sep) := by
  have h1 := he.args
  rw [lang_entry]
  cases ha : e.args with
  | nil => exact absurd ha h1.1
  | cons c l =>
    rw [ha] at h1
    refine ⟨e.name, sep, c, l.map fun d => (sep, d), sep, e.suffix, ?_, lang_name he.name, hs, h1.2 c (List.mem_cons_self ..), ?_, hs, he.suffix⟩
    · unfold Ent.text; rw [ha, inter_tail]; rfl
    · intro x hx
      obtain ⟨d, hd, rfl⟩ := List.mem_map.1 hx
      exact ⟨hs, h1.2 d (List.mem_cons_of_mem _ hd)⟩

private theorem inter_no (sep ch : Char) (hs : ch ≠ sep) : ∀ l : List Char, ch ∉ l → ch ∉ inter sep l
  | [], _ => by simp [inter]
  | [c], h => by simpa [inter] using h
  | c :: d :: l, h => by
    rw [inter_cons]
    simp only [List.mem_cons, not_or] at h ⊢
    exact ⟨h.1, hs, inter_no sep ch hs (d :: l) (by simp [h.2.1, h.2.2])⟩

/-- A text with nothing in it, or a blank first. -/
private def Gap (t : Text) : Prop := t = [] ∨ ∃ b r, t = b :: r ∧ isBlank b = true

private theorem letter_ne {c d : Char} (h : c.isAlpha = true) (hd : d.isAlpha = false) : d ≠ c := by
  intro e; rw [e, h] at hd; cases hd

private theorem longest_text {e : Ent} (he : e.Ok) {sep : Char} (hs : isSep sep = true) {t : Text} (ht : Gap t) :
    reEntry.longest (e.text sep ++ t) = some (e.text sep, t) := by
  refine longest_eq (lang_text he hs) ?_
  intro x y hxy hl
  obtain ⟨i, c1, a, l, c2, suf, h, hi, h1, ha, hl2, h2, hsuf⟩ := lang_entry.1 hl
  have hsep : sep ≠ ')' := ((cls_paren sep).2.2.1 hs).2
  have e1 : e.text sep ++ x = (e.name ++ sep :: '(' :: inter sep e.args) ++ ')' :: (sep :: e.suffix ++ x) := by simp [Ent.text]
  have e2 : i ++ c1 :: '(' :: a :: (argTail l ++ ')' :: c2 :: suf) = (i ++ c1 :: '(' :: a :: argTail l) ++ ')' :: (c2 :: suf) := by simp
  rw [e1, e2] at h
  have n1 : ')' ∉ e.name ++ sep :: '(' :: inter sep e.args := by
    intro hc
    simp only [List.mem_append, List.mem_cons] at hc
    rcases hc with hc | hc | hc | hc
    · exact (ident_no (lang_name he.name) _ hc).2.1 rfl
    · exact hsep hc.symm
    · revert hc; decide
    · exact inter_no sep ')' (Ne.symm hsep) e.args (fun hm => absurd (he.args.2 _ hm) (by decide)) hc
  have n2 : ')' ∉ i ++ c1 :: '(' :: a :: argTail l := by
    intro hc
    simp only [List.mem_append, List.mem_cons] at hc
    rcases hc with hc | hc | hc | hc | hc
    · exact (ident_no hi _ hc).2.1 rfl
    · exact ((cls_paren c1).2.2.1 h1).2 hc.symm
    · revert hc; decide
    · exact ((cls_paren a).2.2.2.1 ha).2 hc.symm
    · exact (argTail_no hl2 _ hc).2 rfl
  obtain ⟨_, h3⟩ := split_first n1 n2 h
  rw [List.cons_append] at h3
  injection h3 with _ h4
  cases x with
  | nil => rfl
  | cons b x =>
    rcases ht with ht | ⟨b', r, ht, hb⟩
    · rw [ht] at hxy; simp at hxy
    · rw [ht, List.cons_append] at hxy
      injection hxy with h5 _
      have := (suffix_no hsuf b (by rw [← h4]; exact List.mem_append_right _ (List.mem_cons_self ..))).2.2
      rw [← h5, hb] at this; cases this

/-! ## Rows -/

private theorem gap_more (sep : Char) (more : Row) (h : ∀ x ∈ more, x.1 ≠ [] ∧ (∀ c ∈ x.1, c = ' ' ∨ c = '\t') ∧ x.2.Ok) : Gap (Row.text sep more) := by
  cases more with
  | nil => exact .inl rfl
  | cons x more =>
    have hx := h x (List.mem_cons_self ..)
    right
    unfold Row.text
    rw [List.flatMap_cons]
    cases hg : x.1 with
    | nil => exact absurd hg hx.1
    | cons b g =>
      refine ⟨b, _, rfl, ?_⟩
      have := hx.2.1 b (by rw [hg]; exact List.mem_cons_self ..)
      unfold isBlank; exact decide_eq_true this

private theorem whole_row {r : Row} (h : r.Ok) : reWhole.Lang (r.text ';') := by
  unfold reWhole
  rw [lang_opt]
  cases r with
  | nil => exact .inr rfl
  | cons x more =>
    obtain ⟨g, e⟩ := x
    obtain ⟨rfl, he, hm⟩ := h
    left
    refine ⟨e.text ';', Row.text ';' more, rfl, lang_text he rfl, more.map fun x => x.1 ++ x.2.text ';', ?_, ?_⟩
    · unfold Row.text; rw [List.flatMap_def]
    · intro y hy
      obtain ⟨x, hx, rfl⟩ := List.mem_map.1 hy
      have := hm x hx
      refine ⟨x.1, _, rfl, lang_ws.2 ⟨this.1, ?_⟩, lang_text this.2.2 rfl⟩
      intro c hc
      unfold isBlank; exact decide_eq_true (this.2.1 c hc)

private def toComma (c : Char) : Char := if c = ';' then ',' else c

private theorem map_id {s : Text} (h : ';' ∉ s) : s.map toComma = s := by
  induction s with
  | nil => rfl
  | cons c s ih =>
    have hc : c ≠ ';' := fun e => h (by rw [e]; exact List.mem_cons_self ..)
    rw [List.map_cons, ih (fun hm => h (List.mem_cons_of_mem _ hm)), toComma, if_neg hc]

private theorem map_inter : ∀ l : List Char, (∀ c ∈ l, c.isAlpha = true) → (inter ';' l).map toComma = inter ',' l
  | [], _ => rfl
  | [c], h => by
    have : c ≠ ';' := fun e => absurd (h c (List.mem_cons_self ..)) (by rw [e]; decide)
    simp [inter, toComma, this]
  | c :: d :: l, h => by
    have : c ≠ ';' := fun e => absurd (h c (List.mem_cons_self ..)) (by rw [e]; decide)
    have hi := map_inter (d :: l) (fun x hx => h x (List.mem_cons_of_mem _ hx))
    rw [inter_cons, inter_cons, List.map_cons, List.map_cons, hi]
    simp [toComma, this]

private theorem name_no {n : Text} (h : CName n) : ∀ c ∈ n, c ≠ ';' ∧ c ≠ ',' ∧ c ≠ ' ' ∧ c ≠ '\t' ∧ c ≠ ':' ∧ c ≠ '(' ∧ c ≠ ')' ∧ c ≠ '-' ∧ c ≠ '\\' ∧ c ≠ '\n' ∧ c ≠ '\r' := by
  obtain ⟨c, t, rfl, hc, ht⟩ := h
  have key : ∀ d : Char, (d.isAlphanum = true ∨ d = '_') →
      d ≠ ';' ∧ d ≠ ',' ∧ d ≠ ' ' ∧ d ≠ '\t' ∧ d ≠ ':' ∧ d ≠ '(' ∧ d ≠ ')' ∧ d ≠ '-' ∧ d ≠ '\\' ∧ d ≠ '\n' ∧ d ≠ '\r' := by
    intro d hd
    refine ⟨?_, ?_, ?_, ?_, ?_, ?_, ?_, ?_, ?_, ?_, ?_⟩ <;> (intro e; subst e; revert hd; decide)
  intro d hd
  rcases List.mem_cons.1 hd with e | hd
  · subst e
    refine key _ (hc.imp (fun h => ?_) id)
    unfold Char.isAlphanum; simp [h]
  · exact key d (ht d hd)

private theorem suffix_semi {s : Text} (h : Suffix s) : ';' ∉ s ∧ ',' ∉ s ∧ '\n' ∉ s ∧ '\r' ∉ s := by
  have key : ∀ c : Char, isLetter c = true → c ≠ ';' ∧ c ≠ ',' ∧ c ≠ '\n' ∧ c ≠ '\r' := by
    intro c hc
    refine ⟨?_, ?_, ?_, ?_⟩ <;> (intro e; subst e; revert hc; decide)
  rcases h with rfl | ⟨c, rfl, hc⟩ | ⟨c, rfl, hc⟩
  · simp
  · have := key c hc
    simp [this.1.symm, this.2.1.symm, this.2.2.1.symm, this.2.2.2.symm]
  · have := key c hc
    simp [this.1.symm, this.2.1.symm, this.2.2.1.symm, this.2.2.2.symm]

private theorem map_text {e : Ent} (he : e.Ok) : (e.text ';').map toComma = e.text ',' := by
  unfold Ent.text
  have h1 := map_id fun hm => (name_no he.name _ hm).1 rfl
  have h2 := map_id (suffix_semi he.suffix).1
  simp only [List.map_append, List.map_cons, h1, h2, map_inter _ he.args.2]
  rfl

private theorem map_row : ∀ r : Row, (∀ x ∈ r, (∀ c ∈ x.1, c = ' ' ∨ c = '\t') ∧ x.2.Ok) → (r.text ';').map toComma = r.text ','
  | [], _ => rfl
  | x :: r, h => by
    have hx := h x (List.mem_cons_self ..)
    have hi := map_row r (fun y hy => h y (List.mem_cons_of_mem _ hy))
    unfold Row.text at hi ⊢
    rw [List.flatMap_cons, List.flatMap_cons, List.map_append, List.map_append, hi, map_text hx.2, map_id]
    intro hm
    rcases hx.1 _ hm with e | e <;> (revert e; decide)

private theorem row_all {r : Row} (h : r.Ok) : ∀ x ∈ r, (∀ c ∈ x.1, c = ' ' ∨ c = '\t') ∧ x.2.Ok := by
  cases r with
  | nil => simp
  | cons y more =>
    obtain ⟨g, e⟩ := y
    obtain ⟨rfl, he, hm⟩ := h
    intro x hx
    rcases List.mem_cons.1 hx with e | hx
    · rw [e]; exact ⟨by simp, he⟩
    · exact (hm x hx).2

private theorem check_row {r : Row} (h : r.Ok) : check (r.text ';') = .ok (r.text ',') := by
  unfold check
  rw [if_pos ((accepts_iff _ _).2 (whole_row h))]
  exact congrArg _ (map_row r (row_all h))

/-! ## Wrapping the words -/

/-- What the macro's value should be. -/
private def Row.words (r : Row) : Text := r.flatMap fun x => x.1 ++ 'w' :: '(' :: (x.2.text ',' ++ [')'])

private theorem longest_blank {c : Char} (h : isBlank c = true) (s : Text) : reEntry.longest (c :: s) = none := by
  refine longest_none' ?_
  intro m t hm hl
  obtain ⟨i, c1, a, l, c2, suf, rfl, hi, _⟩ := lang_entry.1 hl
  obtain ⟨d, k, rfl, hd, _⟩ := lang_ident.1 hi
  simp only [List.cons_append] at hm
  injection hm with h1 _
  subst h1
  unfold isBlank at h
  rcases of_decide_eq_true h with e | e <;> (subst e; revert hd; decide)

private theorem wordifyN_blank {g : Text} (hg : ∀ c ∈ g, c = ' ' ∨ c = '\t') : ∀ (n : Nat) (s : Text), wordifyN (g.length + n) (g ++ s) = g ++ wordifyN n s := by
  induction g with
  | nil => intro n s; simp
  | cons c g ih =>
    intro n s
    have hc : isBlank c = true := by unfold isBlank; exact decide_eq_true (hg c (List.mem_cons_self ..))
    have : (c :: g).length + n = (g.length + n) + 1 := by simp only [List.length_cons]; omega
    rw [this, List.cons_append, wordifyN, longest_blank hc]
    dsimp only
    rw [ih (fun d hd => hg d (List.mem_cons_of_mem _ hd)), List.cons_append]

private theorem wordifyN_row : ∀ (r : Row) (n : Nat), (∀ x ∈ r, (∀ c ∈ x.1, c = ' ' ∨ c = '\t') ∧ x.2.Ok) → (∀ x ∈ r.tail, x.1 ≠ []) →
    (r.text ',').length ≤ n → wordifyN n (r.text ',') = r.words
  | [], n, _, _, _ => by cases n <;> rfl
  | x :: r, n, h, hg, hn => by
    have hx := h x (List.mem_cons_self ..)
    have hr : ∀ y ∈ r, y.1 ≠ [] := hg
    have hall : ∀ y ∈ r, y.1 ≠ [] ∧ (∀ c ∈ y.1, c = ' ' ∨ c = '\t') ∧ y.2.Ok := fun y hy => ⟨hr y hy, h y (List.mem_cons_of_mem _ hy)⟩
    have e1 : Row.text ',' (x :: r) = x.1 ++ (x.2.text ',' ++ Row.text ',' r) := by unfold Row.text; rw [List.flatMap_cons, List.append_assoc]
    have e2 : Row.words (x :: r) = x.1 ++ ('w' :: '(' :: (x.2.text ',' ++ ')' :: Row.words r)) := by unfold Row.words; rw [List.flatMap_cons]; simp
    rw [e1] at hn ⊢
    rw [e2]
    simp only [List.length_append] at hn
    obtain ⟨k, rfl⟩ : ∃ k, n = x.1.length + k := ⟨n - x.1.length, by omega⟩
    rw [wordifyN_blank hx.1]
    congr 1
    obtain ⟨c, t, hc⟩ : ∃ c t, x.2.text ',' = c :: t := by
      obtain ⟨c, t, e, _⟩ := hx.2.name
      exact ⟨c, _, by unfold Ent.text; rw [e]; rfl⟩
    have hlen : (x.2.text ',').length = t.length + 1 := by rw [hc]; rfl
    obtain ⟨m, rfl⟩ : ∃ m, k = m + 1 := ⟨k - 1, by omega⟩
    have hl := longest_text hx.2 (sep := ',') rfl (gap_more ',' r hall)
    rw [hc, List.cons_append] at hl ⊢
    rw [wordifyN, hl]
    dsimp only
    rw [wordifyN_row r m (fun y hy => h y (List.mem_cons_of_mem _ hy)) (fun y hy => hr y (List.mem_of_mem_tail hy)) (by omega)]

private theorem wordify_row {r : Row} (h : r.Ok) : wordify (r.text ',') = r.words := by
  refine wordifyN_row r _ (row_all h) ?_ (Nat.le_refl _)
  cases r with
  | nil => simp
  | cons y more => exact fun x hx => (h.2.2 x hx).1

/-! ## Reading the macro's value -/

private theorem inv_text {d : Nat} {done : List Text} : ∀ (u cur t : Text), (∀ c ∈ u, c ≠ '(' ∧ c ≠ ')' ∧ (d = 0 → c ≠ ',')) →
    invocations (.arg d done cur) (u ++ t) = invocations (.arg d done (cur ++ u)) t
  | [], cur, t, _ => by simp
  | c :: u, cur, t, h => by
    have hc := h c (List.mem_cons_self ..)
    have h3 : ¬ (c = ',' ∧ d = 0) := fun e => hc.2.2 e.2 e.1
    rw [List.cons_append, invocations, if_neg hc.1, if_neg hc.2.1, if_neg h3, inv_text u _ t (fun x hx => h x (List.mem_cons_of_mem _ hx))]
    simp

private theorem inter_mem (sep : Char) : ∀ (l : List Char) (c : Char), c ∈ inter sep l → c = sep ∨ c ∈ l
  | [], c, h => by cases h
  | [d], c, h => .inr h
  | d :: e :: l, c, h => by
    rw [inter_cons, List.mem_cons, List.mem_cons] at h
    rcases h with h | h | h
    · exact .inr (by simp [h])
    · exact .inl h
    · rcases inter_mem sep (e :: l) c h with h | h
      · exact .inl h
      · exact .inr (List.mem_cons_of_mem _ h)

private theorem inv_entry {e : Ent} (he : e.Ok) (t : Text) :
    invocations .out ('w' :: '(' :: (e.text ',' ++ ')' :: t)) =
      (invocations .out t).map ([e.name, '(' :: (inter ',' e.args ++ [')']), e.suffix] :: ·) := by
  have e1 : e.text ',' ++ ')' :: t = e.name ++ ',' :: '(' :: (inter ',' e.args ++ ')' :: ',' :: (e.suffix ++ ')' :: t)) := by simp [Ent.text]
  rw [e1, invocations, if_neg (by decide), if_pos rfl, invocations, if_pos rfl]
  rw [inv_text e.name [] _ fun c hc => ⟨(name_no he.name c hc).2.2.2.2.2.1, (name_no he.name c hc).2.2.2.2.2.2.1, fun _ => (name_no he.name c hc).2.1⟩]
  rw [invocations, if_neg (by decide), if_neg (by decide), if_pos ⟨rfl, rfl⟩, invocations, if_pos rfl]
  have h2 : ∀ c ∈ inter ',' e.args, c ≠ '(' ∧ c ≠ ')' ∧ (0 + 1 = 0 → c ≠ ',') := by
    intro c hc
    rcases inter_mem ',' _ _ hc with e1 | hm
    · subst e1; decide
    · have := he.args.2 c hm
      exact ⟨((cls_paren c).2.2.2.1 this).1, ((cls_paren c).2.2.2.1 this).2, by simp⟩
  rw [inv_text _ _ _ h2, invocations, if_neg (by decide), if_pos rfl, if_neg (by decide)]
  rw [invocations, if_neg (by decide), if_neg (by decide), if_pos ⟨rfl, rfl⟩]
  rw [inv_text e.suffix [] _ fun c hc => ⟨(suffix_no he.suffix c hc).1, (suffix_no he.suffix c hc).2.1, fun _ e1 => (suffix_semi he.suffix).2.1 (e1 ▸ hc)⟩]
  rw [invocations, if_neg (by decide), if_pos rfl, if_pos rfl]
  simp

private theorem inv_blank : ∀ (g t : Text), (∀ c ∈ g, c = ' ' ∨ c = '\t') → invocations .out (g ++ t) = invocations .out t
  | [], t, _ => rfl
  | c :: g, t, h => by
    rw [List.cons_append, invocations, if_pos (h c (List.mem_cons_self ..)), inv_blank g t (fun d hd => h d (List.mem_cons_of_mem _ hd))]

private theorem inv_row : ∀ (r : Row), (∀ x ∈ r, (∀ c ∈ x.1, c = ' ' ∨ c = '\t') ∧ x.2.Ok) →
    invocations .out r.words = some (r.map fun x => [x.2.name, '(' :: (inter ',' x.2.args ++ [')']), x.2.suffix])
  | [], _ => rfl
  | x :: r, h => by
    have hx := h x (List.mem_cons_self ..)
    have e2 : Row.words (x :: r) = x.1 ++ ('w' :: '(' :: (x.2.text ',' ++ ')' :: Row.words r)) := by unfold Row.words; rw [List.flatMap_cons]; simp
    rw [e2, inv_blank _ _ hx.1, inv_entry hx.2, inv_row r (fun y hy => h y (List.mem_cons_of_mem _ hy))]
    rfl

private theorem commas_text : ∀ (u acc : Text), ',' ∉ u → ∀ t, commas acc (u ++ t) = commas (acc ++ u) t
  | [], acc, _, t => by simp
  | c :: u, acc, h, t => by
    have hc : c ≠ ',' := fun e => h (by rw [e]; exact List.mem_cons_self ..)
    rw [List.cons_append, commas, if_neg hc, commas_text u _ (fun hm => h (List.mem_cons_of_mem _ hm))]
    simp

private theorem commas_inter : ∀ l : List Char, l ≠ [] → (∀ c ∈ l, c.isAlpha = true) → commas [] (inter ',' l) = l.map fun c => [c]
  | [], h, _ => absurd rfl h
  | [c], _, h => by
    have : c ≠ ',' := fun e => absurd (h c (List.mem_cons_self ..)) (by rw [e]; decide)
    simp [inter, commas, this]
  | c :: d :: l, _, h => by
    have : c ≠ ',' := fun e => absurd (h c (List.mem_cons_self ..)) (by rw [e]; decide)
    have hi := commas_inter (d :: l) (by simp) (fun x hx => h x (List.mem_cons_of_mem _ hx))
    rw [inter_cons, commas, if_neg this, commas, if_pos rfl, hi]
    rfl

private theorem toInv_ent {e : Ent} (he : e.Ok) (mac : Text) :
    toInv mac [e.name, '(' :: (inter ',' e.args ++ [')']), e.suffix] = some ⟨mac, e.name, e.args.map fun c => [c], e.suffix⟩ := by
  have h1 : tuple ('(' :: (inter ',' e.args ++ [')'])) = some (e.args.map fun c => [c]) := by
    unfold tuple
    simp [commas_inter _ he.args.1 he.args.2]
  rw [toInv, h1]
  have h2 : (e.args.map fun c => [c]).map (subst mac) = e.args.map fun c => [c] := by
    rw [List.map_map]
    refine List.map_congr_left ?_
    intro c hc
    show subst mac [c] = [c]
    unfold subst
    rw [if_neg]
    intro e1
    injection e1 with e1 _
    exact he.notw.2.1 (e1 ▸ hc)
  simp only [Option.map_some, h2]
  unfold subst
  rw [if_neg he.notw.1, if_neg he.notw.2.2]

private theorem mapAll_row (mac : Text) : ∀ (r : Row), (∀ x ∈ r, x.2.Ok) →
    mapAll (toInv mac) (r.map fun x => [x.2.name, '(' :: (inter ',' x.2.args ++ [')']), x.2.suffix]) = some (r.invs mac)
  | [], _ => rfl
  | x :: r, h => by
    rw [List.map_cons, mapAll, toInv_ent (h x (List.mem_cons_self ..)), mapAll_row mac r (fun y hy => h y (List.mem_cons_of_mem _ hy))]
    rfl

private theorem expand_row {r : Row} (h : r.Ok) (mac : Text) : expandList mac (wordify (r.text ',')) = some (r.invs mac) := by
  unfold expandList
  rw [wordify_row h, inv_row r (row_all h)]
  exact mapAll_row mac r fun x hx => (row_all h x hx).2

/-! ## The names -/

private theorem pieces_text : ∀ (u acc : Text), (∀ c ∈ u, isBlank c = false) → ∀ t, pieces acc (u ++ t) = pieces (acc ++ u) t
  | [], acc, _, t => by simp
  | c :: u, acc, h, t => by
    have hc : ¬ isBlank c = true := by rw [h c (List.mem_cons_self ..)]; decide
    rw [List.cons_append, pieces, if_neg hc, pieces_text u _ (fun d hd => h d (List.mem_cons_of_mem _ hd))]
    simp

private theorem nonblank {c : Char} (h1 : c ≠ ' ') (h2 : c ≠ '\t') : isBlank c = false := by unfold isBlank; simp [h1, h2]

private theorem text_nonblank {e : Ent} (he : e.Ok) : ∀ c ∈ e.text ';', isBlank c = false ∧ c ≠ '\n' ∧ c ≠ '\r' := by
  intro c hc
  simp only [Ent.text, List.mem_append, List.mem_cons] at hc
  rcases hc with hc | hc | hc | hc | hc | hc | hc
  · have := name_no he.name c hc
    exact ⟨nonblank this.2.2.1 this.2.2.2.1, this.2.2.2.2.2.2.2.2.2.1, this.2.2.2.2.2.2.2.2.2.2⟩
  · subst hc; decide
  · subst hc; decide
  · rcases inter_mem ';' _ _ hc with e1 | hm
    · subst e1; decide
    · have := he.args.2 c hm
      refine ⟨nonblank ?_ ?_, ?_, ?_⟩ <;> (intro e1; subst e1; revert this; decide)
  · subst hc; decide
  · subst hc; decide
  · refine ⟨(suffix_no he.suffix c hc).2.2, ?_, ?_⟩
    · intro e1; subst e1; exact (suffix_semi he.suffix).2.2.1 hc
    · intro e1; subst e1; exact (suffix_semi he.suffix).2.2.2 hc

private theorem identOf_text {e : Ent} (he : e.Ok) : identOf (e.text ';') = some e.name := by
  unfold identOf
  have h1 : reIdentAny.Lang (e.text ';') := by
    refine ⟨e.name, _, rfl, lang_name he.name, lang_star_cls.2 ?_⟩
    intro c hc
    have := text_nonblank he c (by unfold Ent.text; exact List.mem_append_right _ hc)
    exact decide_eq_true this.2
  rw [if_pos ((accepts_iff _ _).2 h1)]
  have h2 : reIdent.longest (e.text ';') = some (e.name, ';' :: '(' :: (inter ';' e.args ++ ')' :: ';' :: e.suffix)) := by
    refine longest_eq (lang_name he.name) ?_
    intro x y hxy hl
    cases x with
    | nil => rfl
    | cons b x =>
      rw [List.cons_append] at hxy
      injection hxy with h3 _
      have := (ident_no hl b (List.mem_append_right _ (List.mem_cons_self ..))).2.2
      rw [← h3] at this; exact absurd this (by decide)
  rw [h2]; rfl

private theorem identOf_nil : identOf [] = none := by decide

private theorem pieces_gap : ∀ (g t : Text), (∀ c ∈ g, c = ' ' ∨ c = '\t') → (pieces [] (g ++ t)).filterMap identOf = (pieces [] t).filterMap identOf
  | [], t, _ => rfl
  | c :: g, t, h => by
    have hc : isBlank c = true := by unfold isBlank; exact decide_eq_true (h c (List.mem_cons_self ..))
    rw [List.cons_append, pieces, if_pos hc, List.filterMap_cons, identOf_nil]
    exact pieces_gap g t (fun d hd => h d (List.mem_cons_of_mem _ hd))

private theorem extract_more : ∀ (r : Row), (∀ x ∈ r, (∀ c ∈ x.1, c = ' ' ∨ c = '\t') ∧ x.2.Ok) → (∀ x ∈ r.tail, x.1 ≠ []) →
    (pieces [] (r.text ';')).filterMap identOf = r.map fun x => x.2.name
  | [], _, _ => by
    show [([] : Text)].filterMap identOf = []
    rw [List.filterMap_cons, identOf_nil]; rfl
  | x :: r, h, hg => by
    have hx := h x (List.mem_cons_self ..)
    have hi := extract_more r (fun y hy => h y (List.mem_cons_of_mem _ hy)) (fun y hy => hg y (List.mem_of_mem_tail hy))
    have e1 : Row.text ';' (x :: r) = x.1 ++ (x.2.text ';' ++ Row.text ';' r) := by unfold Row.text; rw [List.flatMap_cons, List.append_assoc]
    rw [e1, pieces_gap _ _ hx.1, pieces_text _ _ (fun c hc => (text_nonblank hx.2 c hc).1), List.nil_append]
    cases r with
    | nil =>
      show [x.2.text ';'].filterMap identOf = _
      rw [List.filterMap_cons, identOf_text hx.2]; rfl
    | cons y r =>
      have hy := hg y (List.mem_cons_self ..)
      have e2 : Row.text ';' (y :: r) = y.1 ++ (y.2.text ';' ++ Row.text ';' r) := by unfold Row.text; rw [List.flatMap_cons, List.append_assoc]
      have hb := (h y (by simp)).1
      rw [e2] at hi ⊢
      cases hy1 : y.1 with
      | nil => exact absurd hy1 hy
      | cons b g =>
        have hbb : isBlank b = true := by unfold isBlank; exact decide_eq_true (hb b (by rw [hy1]; exact List.mem_cons_self ..))
        rw [hy1, List.cons_append, pieces, if_pos hbb, List.filterMap_cons, identOf_nil] at hi
        dsimp only at hi
        rw [List.cons_append, pieces, if_pos hbb, List.filterMap_cons, identOf_text hx.2]
        dsimp only
        rw [hi]; rfl

private theorem extract_row {r : Row} (h : r.Ok) : extract (r.text ';') = r.map fun x => x.2.name := by
  refine extract_more r (row_all h) ?_
  cases r with
  | nil => simp
  | cons y more => exact fun x hx => (h.2.2 x hx).1

/-! ## C156: the plugin -/

private theorem splitLast_none : ∀ (s : Text), ':' ∉ s → splitLast s = none
  | [], _ => rfl
  | c :: s, h => by
    have hi := splitLast_none s (fun hm => h (List.mem_cons_of_mem _ hm))
    have hc : c ≠ ':' := fun e => h (by rw [e]; exact List.mem_cons_self ..)
    rw [splitLast, hi]
    intro r h1
    exact absurd h1 hc

/-- A symbol that an input file defines for others: a function or variable in one of its sections. -/
def Defines (ins : List Input) (n : Text) : Prop :=
  ∃ f ∈ ins, ∃ y ∈ f.syms, y.name = n ∧ (y.typ = .object ∨ y.typ = .func) ∧ y.place = .section ∧ y.isLocal = false

private theorem offered_iff (y : Sym) : y.offered = true ↔ (y.typ = .object ∨ y.typ = .func) ∧ y.place = .section ∧ y.isLocal = false := by
  unfold Sym.offered
  cases y.typ <;> cases y.place <;> cases y.isLocal <;> decide

private theorem toWrap_iff (ids : List Text) (hi : ∀ n ∈ ids, CName n) (ins : List Input) (n : Text) : n ∈ toWrap ids ins ↔ n ∈ ids ∧ Defines ins n := by
  unfold toWrap Defines
  simp only [List.mem_flatMap, List.mem_map, List.mem_filter, Bool.and_eq_true, offered_iff, LinkArgs.wrap_spec]
  constructor
  · rintro ⟨f, hf, y, ⟨hy, ho, hw, _⟩, rfl⟩
    exact ⟨hw, f, hf, y, hy, rfl, ho⟩
  · rintro ⟨hn, f, hf, y, hy, rfl, ho⟩
    exact ⟨f, hf, y, ⟨hy, ho, hn, splitLast_none _ fun hm => (name_no (hi _ hn) _ hm).2.2.2.2.1 rfl⟩, rfl⟩

/-- **C156.** If the six options have functions in the form that the plugin expects, it has just those symbols wrapped that are named in one of the first five and that an
input file defines for others, and the C file it compiles has just the named functions' wrappers, of the right kind, with all letters in order. -/
theorem plugin_makes (a b c d f g : Row) (h : ∀ r ∈ [a, b, c, d, f, g], r.Ok) (ins : List Input) :
    ∃ ws, plugin ([a, b, c, d, f, g].map (Row.text ';')) ins = .ok (ws, some (a.invs w! "make_caller_alloc_wrapper" ++ b.invs w! "make_caller_free_wrapper" ++
        c.invs w! "make_caller_sz_wrapper" ++ d.invs w! "make_suballoc_wrapper" ++ f.invs w! "make_subfree_wrapper")) ∧
      ∀ n, n ∈ ws ↔ (∃ x ∈ a ++ b ++ c ++ d ++ f, x.2.name = n) ∧ Defines ins n := by
  have ha := h a (by simp)
  have hb := h b (by simp)
  have hc := h c (by simp)
  have hd := h d (by simp)
  have hf := h f (by simp)
  have hg := h g (by simp)
  have hs : start ([a, b, c, d, f, g].map (Row.text ';')) = .ok ⟨a.text ',', b.text ',', c.text ',', d.text ',', f.text ',', g.text ','⟩ := by
    unfold start
    rw [if_neg (by simp)]
    simp only [checkAt, List.map_cons, List.map_nil, List.getElem?_cons_zero, List.getElem?_cons_succ, check_row ha, check_row hb, check_row hc, check_row hd,
      check_row hf, check_row hg]
  refine ⟨toWrap (idents ([a, b, c, d, f, g].map (Row.text ';'))) ins, ?_, ?_⟩
  · unfold plugin
    rw [hs]
    simp only [stubs, expand_row ha, expand_row hb, expand_row hc, expand_row hd, expand_row hf]
  · intro n
    have hi : idents ([a, b, c, d, f, g].map (Row.text ';')) = (a ++ b ++ c ++ d ++ f).map fun x => x.2.name := by
      unfold idents
      simp [extract_row ha, extract_row hb, extract_row hc, extract_row hd, extract_row hf]
    rw [hi, toWrap_iff]
    · simp only [List.mem_map]
    · intro m hm
      obtain ⟨x, hx, rfl⟩ := List.mem_map.1 hm
      have hok : x.2.Ok := by
        simp only [List.mem_append] at hx
        rcases hx with (((hx | hx) | hx) | hx) | hx
        · exact (row_all ha x hx).2
        · exact (row_all hb x hx).2
        · exact (row_all hc x hx).2
        · exact (row_all hd x hx).2
        · exact (row_all hf x hx).2
      exact hok.name

/-! ## The script -/

/-- A declaration in the environment: what comes after the parentheses is the result's letter, or for a suballocator's free function an arrow and its allocation function. -/
structure Decl where
  name : Text
  args : List Char
  tail : Text

def Decl.text (d : Decl) : Text := d.name ++ '(' :: (d.args ++ ')' :: d.tail)

structure Decl.Ok (d : Decl) : Prop where
  name : CName d.name
  args : d.args ≠ [] ∧ ∀ c ∈ d.args, c.isAlpha = true
  notw : d.name ≠ ['w'] ∧ 'w' ∉ d.args ∧ d.tail ≠ ['w']

def White (s : Text) : Prop := ∀ c ∈ s, c = ' ' ∨ c = '\t' ∨ c = '\n'

/-- Words with white space between them, and perhaps before and after. -/
inductive Spread : List Text → Text → Prop where
  | nil (g : Text) : White g → Spread [] g
  | cons (g w : Text) (ws : List Text) (t : Text) : White g → (t = [] ∨ ∃ c t', t = c :: t' ∧ White [c]) → Spread ws t → Spread (w :: ws) (g ++ w ++ t)

private theorem shWords_white : ∀ (g t : Text), White g → shWords [] (g ++ t) = shWords [] t
  | [], t, _ => rfl
  | c :: g, t, h => by
    rw [List.cons_append, shWords, if_pos (h c (List.mem_cons_self ..)), if_pos rfl, shWords_white g t (fun d hd => h d (List.mem_cons_of_mem _ hd))]

private def NoWhite (w : Text) : Prop := ∀ c ∈ w, c ≠ ' ' ∧ c ≠ '\t' ∧ c ≠ '\n'

private theorem shWords_word : ∀ (w acc t : Text), NoWhite w → shWords acc (w ++ t) = shWords (acc ++ w) t
  | [], acc, t, _ => by simp
  | c :: w, acc, t, h => by
    have hc := h c (List.mem_cons_self ..)
    rw [List.cons_append, shWords, if_neg (by simp [hc]), shWords_word w _ t (fun d hd => h d (List.mem_cons_of_mem _ hd))]
    simp

private theorem shWords_spread {ws : List Text} {s : Text} (h : Spread ws s) (hw : ∀ w ∈ ws, w ≠ [] ∧ NoWhite w) : shWords [] s = ws := by
  induction h with
  | nil g hg => have := shWords_white g [] hg; rw [List.append_nil] at this; rw [this]; rfl
  | cons g w ws t hg ht _ ih =>
    have h1 := hw w (List.mem_cons_self ..)
    have hi := ih fun v hv => hw v (List.mem_cons_of_mem _ hv)
    rw [List.append_assoc, shWords_white g _ hg, shWords_word w [] t h1.2, List.nil_append]
    rcases ht with rfl | ⟨c, t', rfl, hc⟩
    · rw [shWords, if_neg h1.1]
      have : shWords [] [] = ws := hi
      rw [← this]; rfl
    · have hc := hc c (List.mem_cons_self ..)
      rw [shWords, if_pos hc, if_pos rfl] at hi
      rw [shWords, if_pos hc, if_neg h1.1, hi]

private def NoTabParen (s : Text) : Prop := ∀ c ∈ s, c ≠ '(' ∧ c ≠ ')' ∧ c ≠ '\t'

private theorem tabbed_id {s : Text} (h : NoTabParen s) : tabbed s = s := by
  induction s with
  | nil => rfl
  | cons c s ih =>
    have hc := h c (List.mem_cons_self ..)
    have hi := ih fun d hd => h d (List.mem_cons_of_mem _ hd)
    unfold tabbed at hi ⊢
    rw [List.map_cons, hi, if_neg (by simp [hc])]

private theorem takeWhile_tab : ∀ (x y : Text), '\t' ∉ x → (x ++ '\t' :: y).takeWhile (!isTab ·) = x ∧ (x ++ '\t' :: y).dropWhile (!isTab ·) = '\t' :: y
  | [], y, _ => ⟨rfl, rfl⟩
  | c :: x, y, h => by
    have hc : c ≠ '\t' := fun e => h (by rw [e]; exact List.mem_cons_self ..)
    obtain ⟨h1, h2⟩ := takeWhile_tab x y fun hm => h (List.mem_cons_of_mem _ hm)
    have : (!isTab c) = true := by simp [isTab, hc]
    rw [List.cons_append, List.takeWhile_cons_of_pos (p := fun x => !isTab x) this, List.dropWhile_cons_of_pos (p := fun x => !isTab x) this, h1, h2]
    exact ⟨rfl, rfl⟩

private theorem dropWhile_first {s : Text} (h : '\t' ∉ s) : s.dropWhile isTab = s := by
  cases s with
  | nil => rfl
  | cons c s =>
    have hc : c ≠ '\t' := fun e => h (by rw [e]; exact List.mem_cons_self ..)
    rw [List.dropWhile_cons_of_neg]; simp [isTab, hc]

private theorem dropWhile_app {s : Text} (h : '\t' ∉ s) (hn : s ≠ []) (t : Text) : (s ++ t).dropWhile isTab = s ++ t := by
  cases s with
  | nil => exact absurd rfl hn
  | cons c s =>
    have hc : c ≠ '\t' := fun e => h (by rw [e]; exact List.mem_cons_self ..)
    rw [List.cons_append, List.dropWhile_cons_of_neg]; simp [isTab, hc]

private theorem read_tabs {n a t : Text} (hn : n ≠ []) (ha : a ≠ []) (n1 : '\t' ∉ n) (a1 : '\t' ∉ a) (t1 : '\t' ∉ t) :
    readFields (n ++ '\t' :: (a ++ '\t' :: t)) = (n, a, t) := by
  have f1 : field (n ++ '\t' :: (a ++ '\t' :: t)) = (n, a ++ '\t' :: t) := by
    unfold field
    obtain ⟨h1, h2⟩ := takeWhile_tab n (a ++ '\t' :: t) n1
    rw [h1, h2, List.dropWhile_cons_of_pos (by decide), dropWhile_app a1 ha]
  have f2 : field (a ++ '\t' :: t) = (a, t) := by
    unfold field
    obtain ⟨h1, h2⟩ := takeWhile_tab a t a1
    rw [h1, h2, List.dropWhile_cons_of_pos (by decide), dropWhile_first t1]
  unfold readFields
  simp only [dropWhile_app n1 hn, f1, f2]
  rw [dropWhile_first (by simpa using t1), List.reverse_reverse]

private theorem entry_text {d : Decl} (hd : d.Ok) (ht : NoTabParen d.tail) :
    entry d.text = d.name ++ ';' :: '(' :: (semis d.args ++ ')' :: semiIf (arrowless d.tail)) := by
  have h1 : NoTabParen d.name := fun c hc => by
    have := name_no hd.name c hc
    exact ⟨this.2.2.2.2.2.1, this.2.2.2.2.2.2.1, this.2.2.2.1⟩
  have h2 : NoTabParen d.args := fun c hc => by
    have := hd.args.2 c hc
    refine ⟨?_, ?_, ?_⟩ <;> (intro e; subst e; revert this; decide)
  have e1 : tabbed d.text = d.name ++ '\t' :: (d.args ++ '\t' :: d.tail) := by
    have a := tabbed_id h1
    have b := tabbed_id h2
    have c := tabbed_id ht
    unfold tabbed at a b c
    unfold tabbed Decl.text
    simp only [List.map_append, List.map_cons, a, b, c]
    rfl
  have n0 : d.name ≠ [] := by obtain ⟨c, t, e, _⟩ := hd.name; rw [e]; simp
  unfold entry
  rw [e1, read_tabs n0 hd.args.1 (fun hm => (h1 _ hm).2.2 rfl) (fun hm => (h2 _ hm).2.2 rfl) (fun hm => (ht _ hm).2.2 rfl)]

private theorem semis_inter : ∀ l : List Char, semis l = inter ';' l
  | [] => rfl
  | [c] => rfl
  | c :: d :: l => by
    show c :: ';' :: semis (d :: l) = c :: ';' :: inter ';' (d :: l)
    rw [semis_inter (d :: l)]

/-- The function of a declaration with a result. -/
def Decl.ent (d : Decl) : Ent := ⟨d.name, d.args, d.tail⟩

/-- A letter after the parentheses. -/
def Decl.Ret (d : Decl) : Prop := ∃ c, d.tail = [c] ∧ c.isAlpha = true

private theorem ent_ok {d : Decl} (hd : d.Ok) (hr : d.Ret) : d.ent.Ok :=
  ⟨hd.name, hd.args, .inr (.inl hr), hd.notw⟩

private theorem entry_ret {d : Decl} (hd : d.Ok) (hr : d.Ret) : entry d.text = d.ent.text ';' := by
  obtain ⟨c, hc, hl⟩ := hr
  have hp : c ≠ '(' ∧ c ≠ ')' ∧ c ≠ '\t' ∧ c ≠ '-' := by
    refine ⟨?_, ?_, ?_, ?_⟩ <;> (intro e; subst e; revert hl; decide)
  have ht : NoTabParen d.tail := by
    rw [hc]; intro x hx; rw [List.mem_singleton.1 hx]; exact ⟨hp.1, hp.2.1, hp.2.2.1⟩
  have e2 : arrowless [c] = [c] := by
    unfold arrowless
    split
    · simp_all
    · simp_all [arrowless]
    · simp_all
  rw [entry_text hd ht, semis_inter, hc, e2]
  unfold Ent.text Decl.ent
  rw [hc]; rfl

/-- The options' rows: one blank between functions. -/
def rowOf : List Ent → Row
  | [] => []
  | e :: es => ([], e) :: es.map fun x => ([' '], x)

private theorem spaced_more : ∀ (es : List Ent) (e : Ent), spaced ((e :: es).map (Ent.text ';')) = e.text ';' ++ Row.text ';' (es.map fun x => ([' '], x))
  | [], e => by simp [spaced, Row.text]
  | x :: es, e => by
    have hi := spaced_more es x
    rw [List.map_cons] at hi
    rw [List.map_cons, List.map_cons, spaced, hi]
    · rfl
    · simp

private theorem spaced_row (es : List Ent) : spaced (es.map (Ent.text ';')) = Row.text ';' (rowOf es) := by
  cases es with
  | nil => rfl
  | cons e es => rw [spaced_more]; rfl

private theorem rowOf_ok {es : List Ent} (h : ∀ e ∈ es, e.Ok) : (rowOf es).Ok := by
  cases es with
  | nil => exact trivial
  | cons e es =>
    refine ⟨rfl, h e (List.mem_cons_self ..), ?_⟩
    intro x hx
    obtain ⟨y, hy, rfl⟩ := List.mem_map.1 hx
    exact ⟨by simp, by simp, h y (List.mem_cons_of_mem _ hy)⟩

private theorem decl_word {d : Decl} (hd : d.Ok) (ht : NoWhite d.tail) : d.text ≠ [] ∧ NoWhite d.text := by
  constructor
  · unfold Decl.text; simp
  · intro c hc
    simp only [Decl.text, List.mem_append, List.mem_cons] at hc
    rcases hc with hc | hc | hc | hc | hc
    · have := name_no hd.name c hc
      exact ⟨this.2.2.1, this.2.2.2.1, this.2.2.2.2.2.2.2.2.2.1⟩
    · subst hc; decide
    · have := hd.args.2 c hc
      refine ⟨?_, ?_, ?_⟩ <;> (intro e; subst e; revert this; decide)
    · subst hc; decide
    · exact ht c hc

private theorem ret_nowhite {d : Decl} (hr : d.Ret) : NoWhite d.tail := by
  obtain ⟨c, hc, hl⟩ := hr
  rw [hc]; intro x hx; rw [List.mem_singleton.1 hx]
  refine ⟨?_, ?_, ?_⟩ <;> (intro e; subst e; revert hl; decide)

private theorem rewrite_ret {ds : List Decl} {v : Text} (h : Spread (ds.map Decl.text) v) (hd : ∀ d ∈ ds, d.Ok ∧ d.Ret) :
    rewriteVar v = Row.text ';' (rowOf (ds.map Decl.ent)) := by
  unfold rewriteVar
  rw [shWords_spread h, ← spaced_row, List.map_map, List.map_map]
  · congr 1
    refine List.map_congr_left ?_
    intro d hm
    exact entry_ret (hd d hm).1 (hd d hm).2
  · intro w hw
    obtain ⟨d, hm, rfl⟩ := List.mem_map.1 hw
    exact decl_word (hd d hm).1 (ret_nowhite (hd d hm).2)

/-! ## The options -/

private theorem cmd_plain {c : Char} (h1 : c ≠ '\\') (h2 : c ≠ ' ') (cur : Option Text) (t : Text) : cmdWords cur (c :: t) = cmdWords (some (begun cur ++ [c])) t := by
  cases t with
  | nil => simp [cmdWords, h2]
  | cons d t => rw [cmdWords, if_neg h1, if_neg h2]

private theorem cmd_blank (cur : Option Text) (t : Text) : cmdWords cur (' ' :: t) = cur.toList ++ cmdWords none t := by
  cases t with
  | nil => simp [cmdWords]
  | cons d t => rw [cmdWords, if_neg (by decide), if_pos rfl]

private theorem cmd_quote : ∀ (s : Text), '\\' ∉ s → ∀ (w t : Text), cmdWords (some w) (quoteMeta s ++ t) = cmdWords (some (w ++ s)) t
  | [], _, w, t => by simp [quoteMeta]
  | c :: s, h, w, t => by
    have hc : c ≠ '\\' := fun e => h (by rw [e]; exact List.mem_cons_self ..)
    have hi := cmd_quote s (fun hm => h (List.mem_cons_of_mem _ hm)) (w ++ [c]) t
    have e1 : quoteMeta (c :: s) = (if c = '(' ∨ c = ')' ∨ c = ' ' ∨ c = ';' then ['\\', c] else [c]) ++ quoteMeta s := by
      unfold quoteMeta; rw [List.flatMap_cons]
    have e2 : w ++ c :: s = w ++ [c] ++ s := by simp
    rw [e1, e2, ← hi]
    by_cases hq : c = '(' ∨ c = ')' ∨ c = ' ' ∨ c = ';'
    · rw [if_pos hq]
      show cmdWords (some w) ('\\' :: c :: (quoteMeta s ++ t)) = _
      rw [cmdWords, if_pos rfl]; rfl
    · rw [if_neg hq]
      show cmdWords (some w) (c :: (quoteMeta s ++ t)) = _
      rw [cmd_plain hc (by simp at hq; exact hq.2.2.1)]; rfl

private theorem cmd_word : ∀ (s : Text), '\\' ∉ s → ' ' ∉ s → ∀ (w t : Text), cmdWords (some w) (s ++ t) = cmdWords (some (w ++ s)) t
  | [], _, _, w, t => by simp
  | c :: s, h, h2, w, t => by
    have hc : c ≠ '\\' := fun e => h (by rw [e]; exact List.mem_cons_self ..)
    have hc2 : c ≠ ' ' := fun e => h2 (by rw [e]; exact List.mem_cons_self ..)
    rw [List.cons_append, cmd_plain hc hc2]
    have hi := cmd_word s (fun hm => h (List.mem_cons_of_mem _ hm)) (fun hm => h2 (List.mem_cons_of_mem _ hm)) (w ++ [c]) t
    show cmdWords (some (w ++ [c])) (s ++ t) = _
    rw [hi]; simp

private def optWord (s : Text) : Text := w! "-Wl,-plugin-opt=" ++ s

private theorem cmd_opts : ∀ (vs : List Text), (∀ v ∈ vs, '\\' ∉ rewriteVar v) → ∀ w : Text,
    cmdWords (some w) (vs.flatMap fun v => w! " -Wl,-plugin-opt=" ++ quoteMeta (rewriteVar v)) = w :: vs.map fun v => optWord (rewriteVar v)
  | [], _, w => by simp [cmdWords]
  | v :: vs, h, w => by
    have hi := cmd_opts vs (fun x hx => h x (List.mem_cons_of_mem _ hx))
    rw [List.flatMap_cons]
    have e1 : ((w! " -Wl,-plugin-opt=" ++ quoteMeta (rewriteVar v)) ++ vs.flatMap fun v => w! " -Wl,-plugin-opt=" ++ quoteMeta (rewriteVar v)) =
        ' ' :: '-' :: (w! "Wl,-plugin-opt=" ++ (quoteMeta (rewriteVar v) ++ vs.flatMap fun v => w! " -Wl,-plugin-opt=" ++ quoteMeta (rewriteVar v))) := by simp
    rw [e1, cmd_blank, cmd_plain (by decide) (by decide), cmd_word _ (by decide) (by decide), cmd_quote _ (h v (List.mem_cons_self ..)), hi]
    rfl

private theorem forLinker_opt {s : Text} (h : ',' ∉ s) : forLinker (optWord s) = [w! "-plugin-opt=" ++ s] := by
  unfold forLinker optWord
  rw [if_pos (by rfl)]
  show commas [] (w! "-plugin-opt=" ++ s) = _
  have := commas_text (w! "-plugin-opt=" ++ s) [] (by
    intro hm
    rcases List.mem_append.1 hm with hm | hm
    · exact absurd hm (by decide)
    · exact h hm) []
  rw [List.append_nil] at this
  rw [this]; rfl

/-- If there is nothing special in the names, each option is what the script makes of a variable. -/
theorem options_eq {dir : Text} {e : Env} (hd : ∀ c ∈ dir, c ≠ ' ' ∧ c ≠ '\\' ∧ c ≠ ',') (h : ∀ v ∈ e.vars, '\\' ∉ rewriteVar v ∧ ',' ∉ rewriteVar v) :
    options dir e = e.vars.map rewriteVar := by
  unfold options ldflags
  have hw : cmdWords none (w! "-Wl,-plugin=" ++ dir ++ w! "/gold-plugin.so" ++ e.vars.flatMap fun v => w! " -Wl,-plugin-opt=" ++ quoteMeta (rewriteVar v)) =
      (w! "-Wl,-plugin=" ++ dir ++ w! "/gold-plugin.so") :: e.vars.map fun v => optWord (rewriteVar v) := by
    have e1 : (w! "-Wl,-plugin=" ++ dir ++ w! "/gold-plugin.so" ++ e.vars.flatMap fun v => w! " -Wl,-plugin-opt=" ++ quoteMeta (rewriteVar v)) =
        '-' :: (w! "Wl,-plugin=" ++ dir ++ w! "/gold-plugin.so" ++ e.vars.flatMap fun v => w! " -Wl,-plugin-opt=" ++ quoteMeta (rewriteVar v)) := by simp
    rw [e1, cmd_plain (by decide) (by decide), cmd_word _ ?_ ?_, cmd_opts _ (fun v hv => (h v hv).1)]
    · rfl
    · intro hm
      simp only [List.mem_append] at hm
      rcases hm with (hm | hm) | hm
      · exact absurd hm (by decide)
      · exact (hd _ hm).2.1 rfl
      · exact absurd hm (by decide)
    · intro hm
      simp only [List.mem_append] at hm
      rcases hm with (hm | hm) | hm
      · exact absurd hm (by decide)
      · exact (hd _ hm).1 rfl
      · exact absurd hm (by decide)
  rw [hw, List.flatMap_cons]
  have h1 : forLinker (w! "-Wl,-plugin=" ++ dir ++ w! "/gold-plugin.so") = [w! "-plugin=" ++ dir ++ w! "/gold-plugin.so"] := by
    unfold forLinker
    rw [if_pos (by rfl)]
    show commas [] (w! "-plugin=" ++ dir ++ w! "/gold-plugin.so") = _
    have := commas_text (w! "-plugin=" ++ dir ++ w! "/gold-plugin.so") [] (by
      intro hm
      simp only [List.mem_append] at hm
      rcases hm with (hm | hm) | hm
      · exact absurd hm (by decide)
      · exact (hd _ hm).2.2 rfl
      · exact absurd hm (by decide)) []
    rw [List.append_nil] at this
    rw [this]; rfl
  have h2 : (e.vars.map fun v => optWord (rewriteVar v)).flatMap forLinker = e.vars.map fun v => w! "-plugin-opt=" ++ rewriteVar v := by
    rw [List.flatMap_map]
    have : ∀ vs : List Text, (∀ v ∈ vs, ',' ∉ rewriteVar v) → vs.flatMap (fun v => forLinker (optWord (rewriteVar v))) = vs.map fun v => w! "-plugin-opt=" ++ rewriteVar v := by
      intro vs
      induction vs with
      | nil => intro _; rfl
      | cons v vs ih =>
        intro hv
        rw [List.flatMap_cons, forLinker_opt (hv v (List.mem_cons_self ..)), ih (fun x hx => hv x (List.mem_cons_of_mem _ hx))]; rfl
    exact this _ fun v hv => (h v hv).2
  rw [h1, h2]
  unfold plugOpts
  rw [List.singleton_append, List.filter_cons_of_neg (by simp [List.isPrefixOf])]
  have h3 : ∀ vs : List Text, ((vs.map fun v => w! "-plugin-opt=" ++ rewriteVar v).filter fun a => (w! "-plugin-opt=").isPrefixOf a).map (List.drop 12) = vs.map rewriteVar := by
    intro vs
    induction vs with
    | nil => rfl
    | cons v vs ih =>
      rw [List.map_cons, List.filter_cons_of_pos (by simp), List.map_cons, List.map_cons, ih]
      rfl
  exact h3 _

/-! ## C157: from the environment to the wrappers -/

private theorem spaced_mem : ∀ (ws : List Text) (c : Char), c ∈ spaced ws → c = ' ' ∨ ∃ w ∈ ws, c ∈ w
  | [], c, h => by cases h
  | [w], c, h => .inr ⟨w, List.mem_cons_self .., h⟩
  | w :: x :: ws, c, h => by
    have e : spaced (w :: x :: ws) = w ++ ' ' :: spaced (x :: ws) := rfl
    rw [e] at h
    rcases List.mem_append.1 h with h | h
    · exact .inr ⟨w, List.mem_cons_self .., h⟩
    · rcases List.mem_cons.1 h with h | h
      · exact .inl h
      · rcases spaced_mem (x :: ws) c h with h | ⟨y, hy, h⟩
        · exact .inl h
        · exact .inr ⟨y, List.mem_cons_of_mem _ hy, h⟩

private theorem arrowless_mem : ∀ (s : Text) (c : Char), c ∈ arrowless s → c ∈ s
  | [], c, h => by simp [arrowless] at h
  | x :: s, c, h => by
    unfold arrowless at h
    split at h
    · rename_i e
      injection e with e1 e2
      rw [e2]; exact List.mem_cons_of_mem _ (List.mem_cons_of_mem _ h)
    · rename_i e
      injection e with e1 e2
      subst e1 e2
      rcases List.mem_cons.1 h with h | h
      · rw [h]; exact List.mem_cons_self ..
      · exact List.mem_cons_of_mem _ (arrowless_mem _ c h)
    · cases h

/-- Nothing special after the parentheses. -/
private def Calm (t : Text) : Prop := NoTabParen t ∧ NoWhite t ∧ '\\' ∉ t ∧ ',' ∉ t

private theorem entry_calm {d : Decl} (hd : d.Ok) (ht : Calm d.tail) : '\\' ∉ entry d.text ∧ ',' ∉ entry d.text := by
  have key : ∀ ch : Char, ch ∉ d.name → ch ∉ d.args → ch ∉ d.tail → ch ≠ ';' → ch ≠ '(' → ch ≠ ')' → ch ∉ entry d.text := by
    intro ch h1 h2 h3 h4 h5 h6 hm
    rw [entry_text hd ht.1] at hm
    simp only [List.mem_append, List.mem_cons] at hm
    rcases hm with hm | hm | hm | hm | hm | hm
    · exact h1 hm
    · exact h4 hm
    · exact h5 hm
    · rw [semis_inter] at hm
      rcases inter_mem _ _ _ hm with hm | hm
      · exact h4 hm
      · exact h2 hm
    · exact h6 hm
    · unfold semiIf at hm
      split at hm
      · cases hm
      · rcases List.mem_cons.1 hm with hm | hm
        · exact h4 hm
        · exact h3 (arrowless_mem _ _ hm)
  constructor
  · refine key _ (fun hm => (name_no hd.name _ hm).2.2.2.2.2.2.2.2.1 rfl) (fun hm => absurd (hd.args.2 _ hm) (by decide)) ht.2.2.1 (by decide) (by decide) (by decide)
  · refine key _ (fun hm => (name_no hd.name _ hm).2.1 rfl) (fun hm => absurd (hd.args.2 _ hm) (by decide)) ht.2.2.2 (by decide) (by decide) (by decide)

private theorem rewrite_calm {ds : List Decl} {v : Text} (h : Spread (ds.map Decl.text) v) (hd : ∀ d ∈ ds, d.Ok ∧ Calm d.tail) :
    rewriteVar v = spaced (ds.map fun d => entry d.text) ∧ '\\' ∉ rewriteVar v ∧ ',' ∉ rewriteVar v := by
  have e : rewriteVar v = spaced (ds.map fun d => entry d.text) := by
    unfold rewriteVar
    rw [shWords_spread h, List.map_map]
    · rfl
    · intro w hw
      obtain ⟨d, hm, rfl⟩ := List.mem_map.1 hw
      exact decl_word (hd d hm).1 (hd d hm).2.2.1
  refine ⟨e, ?_, ?_⟩
  · rw [e]; intro hm
    rcases spaced_mem _ _ hm with hm | ⟨w, hw, hm⟩
    · revert hm; decide
    · obtain ⟨d, hdm, rfl⟩ := List.mem_map.1 hw
      exact (entry_calm (hd d hdm).1 (hd d hdm).2).1 hm
  · rw [e]; intro hm
    rcases spaced_mem _ _ hm with hm | ⟨w, hw, hm⟩
    · revert hm; decide
    · obtain ⟨d, hdm, rfl⟩ := List.mem_map.1 hw
      exact (entry_calm (hd d hdm).1 (hd d hdm).2).2 hm

private theorem ret_calm {d : Decl} (hr : d.Ret) : Calm d.tail := by
  refine ⟨?_, ret_nowhite hr, ?_, ?_⟩
  all_goals
    obtain ⟨c, hc, hl⟩ := hr
    rw [hc]
  · intro x hx; rw [List.mem_singleton.1 hx]
    refine ⟨?_, ?_, ?_⟩ <;> (intro e; subst e; revert hl; decide)
  · intro hm; rw [← List.mem_singleton.1 hm] at hl; revert hl; decide
  · intro hm; rw [← List.mem_singleton.1 hm] at hl; revert hl; decide

/-- A path without characters that mean something to the shell or the compiler. -/
def PlainDir (dir : Text) : Prop := ∀ c ∈ dir, c ≠ ' ' ∧ c ≠ '\\' ∧ c ≠ ','

/-- What the environment declares. -/
structure Decls where
  alloc : List Decl
  free : List Decl
  allocsz : List Decl
  suballoc : List Decl
  subfree : List Decl

/-- The environment has these declarations, as they are documented. -/
structure Decls.In (D : Decls) (e : Env) : Prop where
  alloc : Spread (D.alloc.map Decl.text) e.alloc
  free : Spread (D.free.map Decl.text) e.free
  allocsz : Spread (D.allocsz.map Decl.text) e.allocsz
  suballoc : Spread (D.suballoc.map Decl.text) e.suballoc
  subfree : Spread (D.subfree.map Decl.text) e.subfree
  override : White e.override

/-- The allocation function of a suballocator's free function. -/
def Decl.Of (d : Decl) (n : Text) : Prop := d.tail = '-' :: '>' :: n ∧ CName n ∧ n ≠ ['w']

structure Decls.Ok (D : Decls) : Prop where
  all : ∀ d ∈ D.alloc ++ D.free ++ D.allocsz ++ D.suballoc ++ D.subfree, d.Ok
  ret : ∀ d ∈ D.alloc ++ D.allocsz ++ D.suballoc, d.Ret
  free : ∀ d ∈ D.free, d.tail = []
  subfree : ∀ d ∈ D.subfree, ∃ n, d.Of n

private theorem of_calm {d : Decl} {n : Text} (h : d.Of n) : Calm d.tail := by
  obtain ⟨h, hn, _⟩ := h
  have key : ∀ c ∈ d.tail, c ≠ '(' ∧ c ≠ ')' ∧ c ≠ '\t' ∧ c ≠ ' ' ∧ c ≠ '\n' ∧ c ≠ '\\' ∧ c ≠ ',' := by
    intro c hc
    rw [h] at hc
    rcases List.mem_cons.1 hc with e | hc
    · subst e; decide
    · rcases List.mem_cons.1 hc with e | hc
      · subst e; decide
      · have := name_no hn c hc
        exact ⟨this.2.2.2.2.2.1, this.2.2.2.2.2.2.1, this.2.2.2.1, this.2.2.1, this.2.2.2.2.2.2.2.2.2.1, this.2.2.2.2.2.2.2.2.1, this.2.1⟩
  exact ⟨fun c hc => ⟨(key c hc).1, (key c hc).2.1, (key c hc).2.2.1⟩, fun c hc => ⟨(key c hc).2.2.2.1, (key c hc).2.2.1, (key c hc).2.2.2.2.1⟩,
    fun hm => (key _ hm).2.2.2.2.2.1 rfl, fun hm => (key _ hm).2.2.2.2.2.2 rfl⟩

private theorem nil_calm {d : Decl} (h : d.tail = []) : Calm d.tail := by
  rw [h]; exact ⟨fun _ hc => (by cases hc), fun _ hc => (by cases hc), by simp, by simp⟩

private theorem white_var {v : Text} (h : White v) : rewriteVar v = [] := by
  have := rewrite_calm (ds := []) (v := v) (.nil v h) (by simp)
  rw [this.1]; rfl

private theorem decls_options {D : Decls} {e : Env} {dir : Text} (hD : D.Ok) (hi : D.In e) (hp : PlainDir dir) : options dir e = e.vars.map rewriteVar := by
  refine options_eq hp ?_
  have ok : ∀ d, (d ∈ D.alloc ∨ d ∈ D.free ∨ d ∈ D.allocsz ∨ d ∈ D.suballoc ∨ d ∈ D.subfree) → d.Ok := by
    intro d hd; refine hD.all d ?_; simp only [List.mem_append]; rcases hd with h | h | h | h | h <;> simp [h]
  have rt : ∀ d, (d ∈ D.alloc ∨ d ∈ D.allocsz ∨ d ∈ D.suballoc) → d.Ret := by
    intro d hd; refine hD.ret d ?_; simp only [List.mem_append]; rcases hd with h | h | h <;> simp [h]
  intro v hv
  simp only [Env.vars, List.mem_cons, List.not_mem_nil, or_false] at hv
  rcases hv with rfl | rfl | rfl | rfl | rfl | rfl
  · exact (rewrite_calm hi.alloc fun d h => ⟨ok d (by simp [h]), ret_calm (rt d (by simp [h]))⟩).2
  · exact (rewrite_calm hi.free fun d h => ⟨ok d (by simp [h]), nil_calm (hD.free d h)⟩).2
  · exact (rewrite_calm hi.allocsz fun d h => ⟨ok d (by simp [h]), ret_calm (rt d (by simp [h]))⟩).2
  · exact (rewrite_calm hi.suballoc fun d h => ⟨ok d (by simp [h]), ret_calm (rt d (by simp [h]))⟩).2
  · exact (rewrite_calm hi.subfree fun d h => ⟨ok d (by simp [h]), of_calm (hD.subfree d h).choose_spec⟩).2
  · rw [white_var hi.override]; simp

/-- The wrappers that should be made for declarations. -/
def invsOf (mac : Text) (ds : List Decl) : List Inv := ds.map fun d => ⟨mac, d.name, d.args.map fun c => [c], d.tail⟩

private theorem invs_rowOf (mac : Text) (ds : List Decl) : (rowOf (ds.map Decl.ent)).invs mac = invsOf mac ds := by
  cases ds with
  | nil => rfl
  | cons d ds =>
    unfold Row.invs rowOf invsOf
    simp [List.map_map, Function.comp_def, Decl.ent]

private theorem names_rowOf (ds : List Decl) (n : Text) : (∃ x ∈ rowOf (ds.map Decl.ent), x.2.name = n) ↔ ∃ d ∈ ds, d.name = n := by
  cases ds with
  | nil => simp [rowOf]
  | cons d ds =>
    simp only [rowOf, List.map_cons]
    constructor
    · rintro ⟨x, hx, h⟩
      rcases List.mem_cons.1 hx with rfl | hx
      · exact ⟨d, List.mem_cons_self .., h⟩
      · simp only [List.mem_map] at hx
        obtain ⟨y, ⟨a, ha, rfl⟩, rfl⟩ := hx
        exact ⟨a, List.mem_cons_of_mem _ ha, h⟩
    · rintro ⟨a, ha, h⟩
      rcases List.mem_cons.1 ha with rfl | ha
      · exact ⟨_, List.mem_cons_self .., h⟩
      · exact ⟨([' '], a.ent), List.mem_cons_of_mem _ (by simp only [List.mem_map]; exact ⟨_, ⟨a, ha, rfl⟩, rfl⟩), h⟩

/-- **C157 (partial).** Functions that are declared in the environment, in the documented form, get to the plugin: it has just those wrapped that an input file defines for
others, and makes just their wrappers, of the right kind, with all letters in order. Partial: no free function may be declared (`accepted_iff`). -/
theorem flags_partial (D : Decls) (e : Env) (dir : Text) (ins : List Input) (hD : D.Ok) (hi : D.In e) (hp : PlainDir dir) (hf : D.free = [] ∧ D.subfree = []) :
    ∃ ws, plugin (options dir e) ins = .ok (ws, some (invsOf w! "make_caller_alloc_wrapper" D.alloc ++ invsOf w! "make_caller_sz_wrapper" D.allocsz ++
        invsOf w! "make_suballoc_wrapper" D.suballoc)) ∧
      ∀ n, n ∈ ws ↔ (∃ d ∈ D.alloc ++ D.allocsz ++ D.suballoc, d.name = n) ∧ Defines ins n := by
  have ok : ∀ d, (d ∈ D.alloc ∨ d ∈ D.allocsz ∨ d ∈ D.suballoc) → d.Ok ∧ d.Ret := by
    intro d hd
    refine ⟨hD.all d ?_, hD.ret d ?_⟩ <;> (simp only [List.mem_append]; rcases hd with h | h | h <;> simp [h])
  have v1 := rewrite_ret hi.alloc fun d h => ok d (by simp [h])
  have v2 : rewriteVar e.free = [] := by have := hi.free; rw [hf.1] at this; exact (rewrite_calm (ds := []) this (by simp)).1
  have v3 := rewrite_ret hi.allocsz fun d h => ok d (by simp [h])
  have v4 := rewrite_ret hi.suballoc fun d h => ok d (by simp [h])
  have v5 : rewriteVar e.subfree = [] := by have := hi.subfree; rw [hf.2] at this; exact (rewrite_calm (ds := []) this (by simp)).1
  have v6 := white_var hi.override
  have ro : ∀ ds : List Decl, (∀ d ∈ ds, d.Ok ∧ d.Ret) → (rowOf (ds.map Decl.ent)).Ok := by
    intro ds h
    refine rowOf_ok ?_
    intro x hx
    obtain ⟨d, hd, rfl⟩ := List.mem_map.1 hx
    exact ent_ok (h d hd).1 (h d hd).2
  have ho : options dir e = [rowOf (D.alloc.map Decl.ent), [], rowOf (D.allocsz.map Decl.ent), rowOf (D.suballoc.map Decl.ent), [], []].map (Row.text ';') := by
    rw [decls_options hD hi hp]
    simp only [Env.vars, List.map_cons, List.map_nil, v1, v2, v3, v4, v5, v6]
    rfl
  obtain ⟨ws, h1, h2⟩ := plugin_makes (rowOf (D.alloc.map Decl.ent)) [] (rowOf (D.allocsz.map Decl.ent)) (rowOf (D.suballoc.map Decl.ent)) [] [] (by
    intro r hr
    simp only [List.mem_cons, List.not_mem_nil, or_false] at hr
    rcases hr with rfl | rfl | rfl | rfl | rfl | rfl
    · exact ro _ fun d h => ok d (by simp [h])
    · exact trivial
    · exact ro _ fun d h => ok d (by simp [h])
    · exact ro _ fun d h => ok d (by simp [h])
    · exact trivial
    · exact trivial) ins
  refine ⟨ws, ?_, ?_⟩
  · rw [ho, h1]
    simp only [invs_rowOf]
    have : ∀ mac, Row.invs mac [] = [] := fun _ => rfl
    simp [this]
  · intro n
    rw [h2]
    refine and_congr ?_ Iff.rfl
    have a := names_rowOf D.alloc n
    have b := names_rowOf D.allocsz n
    have c := names_rowOf D.suballoc n
    simp only [List.append_nil, List.mem_append, or_and_right, exists_or]
    rw [a, b, c]

/-! ## Which declarations are accepted -/

private theorem check_iff (s : Text) : (∃ t, check s = .ok t) ↔ reWhole.Lang s := by
  unfold check
  by_cases h : reWhole.accepts s = true
  · rw [if_pos h]; exact ⟨fun _ => (accepts_iff _ _).1 h, fun _ => ⟨_, rfl⟩⟩
  · rw [if_neg h]
    constructor
    · rintro ⟨t, ht⟩; cases ht
    · intro hl; exact absurd ((accepts_iff _ _).2 hl) h

private theorem check_not {s : Text} (h : ¬ reWhole.Lang s) : check s = .error .abort := by
  unfold check; rw [if_neg fun hc => h ((accepts_iff _ _).1 hc)]

private theorem start_six (a b c d f g : Text) :
    ((∃ l, start [a, b, c, d, f, g] = .ok l) ∧ ∀ s ∈ [a, b, c, d, f, g], reWhole.Lang s) ∨
    (start [a, b, c, d, f, g] = .error .abort ∧ ¬ ∀ s ∈ [a, b, c, d, f, g], reWhole.Lang s) := by
  have hs : ∀ s : Text, (∃ t, check s = .ok t ∧ reWhole.Lang s) ∨ (check s = .error .abort ∧ ¬ reWhole.Lang s) := by
    intro s
    by_cases h : reWhole.Lang s
    · obtain ⟨t, ht⟩ := (check_iff s).2 h; exact .inl ⟨t, ht, h⟩
    · exact .inr ⟨check_not h, h⟩
  unfold start
  rw [if_neg (by simp)]
  simp only [checkAt, List.getElem?_cons_zero, List.getElem?_cons_succ]
  simp only [List.mem_cons, List.not_mem_nil, or_false, forall_eq_or_imp, forall_eq]
  rcases hs a with ⟨ta, ha, la⟩ | ⟨ha, la⟩
  · rcases hs b with ⟨tb, hb, lb⟩ | ⟨hb, lb⟩
    · rcases hs c with ⟨tc, hc, lc⟩ | ⟨hc, lc⟩
      · rcases hs d with ⟨td, hd, ld⟩ | ⟨hd, ld⟩
        · rcases hs f with ⟨tf, hf, lf⟩ | ⟨hf, lf⟩
          · rcases hs g with ⟨tg, hg, lg⟩ | ⟨hg, lg⟩
            · left; simp [ha, hb, hc, hd, hf, hg, la, lb, lc, ld, lf, lg]
            · right; simp [ha, hb, hc, hd, hf, hg, lg]
          · right; simp [ha, hb, hc, hd, hf, lf]
        · right; simp [ha, hb, hc, hd, ld]
      · right; simp [ha, hb, hc, lc]
    · right; simp [ha, hb, lb]
  · right; simp [ha, la]

private theorem spaced_split : ∀ (ws : List Text) (w : Text), w ∈ ws → ∃ a b, spaced ws = a ++ w ++ b ∧ (b = [] ∨ ∃ b', b = ' ' :: b')
  | [], w, h => by cases h
  | [x], w, h => by rw [List.mem_singleton.1 h]; exact ⟨[], [], by simp [spaced], .inl rfl⟩
  | x :: y :: ws, w, h => by
    have e : spaced (x :: y :: ws) = x ++ ' ' :: spaced (y :: ws) := rfl
    rcases List.mem_cons.1 h with h | h
    · rw [h, e]; exact ⟨[], _, rfl, .inr ⟨_, rfl⟩⟩
    · obtain ⟨a, b, h1, h2⟩ := spaced_split (y :: ws) w h
      exact ⟨x ++ ' ' :: a, b, by rw [e, h1]; simp, h2⟩

private theorem arrowless_of {d : Decl} {n : Text} (h : d.Of n) : arrowless d.tail = n := by rw [h.1, arrowless]

private theorem free_lang {ds : List Decl} (hd : ∀ d ∈ ds, d.Ok ∧ d.tail = []) (h : reWhole.Lang (spaced (ds.map fun d => entry d.text))) : ds = [] := by
  cases ds with
  | nil => rfl
  | cons d ds =>
    exfalso
    have h1 := hd d (List.mem_cons_self ..)
    obtain ⟨a, b, hs, hb⟩ := spaced_split ((d :: ds).map fun d => entry d.text) (entry d.text) (List.mem_map.2 ⟨d, List.mem_cons_self .., rfl⟩)
    rw [hs, entry_text h1.1 (nil_calm h1.2).1, h1.2] at h
    have e : a ++ (d.name ++ ';' :: '(' :: (semis d.args ++ ')' :: semiIf (arrowless []))) ++ b = (a ++ (d.name ++ ';' :: '(' :: semis d.args)) ++ ')' :: b := by
      simp [arrowless, semiIf]
    obtain ⟨c2, suf, r, hr, h2, _⟩ := (parens_whole h).1 _ _ e
    rcases hb with rfl | ⟨b', rfl⟩
    · cases hr
    · injection hr with h3 _; rw [← h3] at h2; revert h2; decide

private theorem subfree_lang {ds : List Decl} (hd : ∀ d ∈ ds, d.Ok ∧ ∃ n, d.Of n) (h : reWhole.Lang (spaced (ds.map fun d => entry d.text))) :
    ∀ d ∈ ds, ∃ c, d.Of [c] ∧ c.isAlpha = true := by
  intro d hm
  obtain ⟨h1, n, hn⟩ := hd d hm
  obtain ⟨a, b, hs, hb⟩ := spaced_split (ds.map fun d => entry d.text) (entry d.text) (List.mem_map.2 ⟨d, hm, rfl⟩)
  rw [hs, entry_text h1 (of_calm hn).1, arrowless_of hn] at h
  obtain ⟨x, t, rfl, hx, ht⟩ := hn.2.1
  have e : a ++ (d.name ++ ';' :: '(' :: (semis d.args ++ ')' :: semiIf (x :: t))) ++ b = (a ++ (d.name ++ ';' :: '(' :: semis d.args)) ++ ')' :: (';' :: x :: t ++ b) := by
    simp [semiIf]
  obtain ⟨c2, suf, r, hr, h2, hsuf, hgap⟩ := (parens_whole h).1 _ _ e
  simp only [List.cons_append] at hr
  injection hr with _ hr
  have nx := name_no hn.2.1 x (List.mem_cons_self ..)
  rcases hsuf with rfl | ⟨c, rfl, hc⟩ | ⟨c, rfl, hc⟩
  · exfalso
    rw [List.nil_append] at hr
    rcases hgap with rfl | ⟨y, r', rfl, hy⟩
    · cases hr
    · injection hr with h3 _
      rw [← h3, nonblank nx.2.2.1 nx.2.2.2.1] at hy; cases hy
  · rw [List.singleton_append] at hr
    injection hr with h3 h4
    subst h3
    cases t with
    | nil => exact ⟨x, hn, hc⟩
    | cons y t =>
      exfalso
      have ny := name_no hn.2.1 y (by simp)
      rcases hgap with rfl | ⟨z, r', rfl, hz⟩
      · cases h4
      · rw [List.cons_append] at h4
        injection h4 with h5 _
        rw [← h5, nonblank ny.2.2.1 ny.2.2.2.1] at hz; cases hz
  · exfalso
    simp only [List.cons_append] at hr
    injection hr with h3 _
    exact nx.2.2.2.2.2.2.2.1 h3

private theorem entry_of {d : Decl} (hd : d.Ok) {c : Char} (ho : d.Of [c]) : entry d.text = Ent.text ';' ⟨d.name, d.args, [c]⟩ := by
  rw [entry_text hd (of_calm ho).1, arrowless_of ho, semis_inter]; rfl

private theorem subfree_whole {ds : List Decl} (hd : ∀ d ∈ ds, d.Ok ∧ ∃ c, d.Of [c] ∧ c.isAlpha = true) : reWhole.Lang (spaced (ds.map fun d => entry d.text)) := by
  have : ds.map (fun d => entry d.text) = (ds.map fun d => (⟨d.name, d.args, arrowless d.tail⟩ : Ent)).map (Ent.text ';') := by
    rw [List.map_map]
    refine List.map_congr_left ?_
    intro d hm
    obtain ⟨h1, c, ho, _⟩ := hd d hm
    rw [entry_of h1 ho]
    show _ = Ent.text ';' ⟨d.name, d.args, arrowless d.tail⟩
    rw [arrowless_of ho]
  rw [this, spaced_row]
  refine whole_row (rowOf_ok ?_)
  intro x hx
  obtain ⟨d, hm, rfl⟩ := List.mem_map.1 hx
  obtain ⟨h1, c, ho, hc⟩ := hd d hm
  rw [arrowless_of ho]
  exact ⟨h1.name, h1.args, .inr (.inl ⟨c, rfl, hc⟩), h1.notw.1, h1.notw.2.1, ho.2.2⟩

/-- Of the documented declarations, the plugin accepts those with a result; it stops the link for any free function, except a suballocator's whose allocation function has a
name of one letter. -/
theorem accepted_iff (D : Decls) (e : Env) (dir : Text) (hD : D.Ok) (hi : D.In e) (hp : PlainDir dir) :
    ((∃ l, start (options dir e) = .ok l) ↔ D.free = [] ∧ ∀ d ∈ D.subfree, ∃ c, d.Of [c] ∧ c.isAlpha = true) ∧
    ((¬ ∃ l, start (options dir e) = .ok l) → start (options dir e) = .error .abort) := by
  have ok : ∀ d, (d ∈ D.alloc ∨ d ∈ D.free ∨ d ∈ D.allocsz ∨ d ∈ D.suballoc ∨ d ∈ D.subfree) → d.Ok := by
    intro d hd; refine hD.all d ?_; simp only [List.mem_append]; rcases hd with h | h | h | h | h <;> simp [h]
  have rt : ∀ d, (d ∈ D.alloc ∨ d ∈ D.allocsz ∨ d ∈ D.suballoc) → d.Ret := by
    intro d hd; refine hD.ret d ?_; simp only [List.mem_append]; rcases hd with h | h | h <;> simp [h]
  have ro : ∀ (ds : List Decl) (v : Text), Spread (ds.map Decl.text) v → (∀ d ∈ ds, d.Ok ∧ d.Ret) → reWhole.Lang (rewriteVar v) := by
    intro ds v hs h
    rw [rewrite_ret hs h]
    refine whole_row (rowOf_ok ?_)
    intro x hx
    obtain ⟨d, hd, rfl⟩ := List.mem_map.1 hx
    exact ent_ok (h d hd).1 (h d hd).2
  have v2 := (rewrite_calm hi.free fun d h => ⟨ok d (by simp [h]), nil_calm (hD.free d h)⟩).1
  have v5 := (rewrite_calm hi.subfree fun d h => ⟨ok d (by simp [h]), of_calm (hD.subfree d h).choose_spec⟩).1
  have hall : (∀ s ∈ [rewriteVar e.alloc, rewriteVar e.free, rewriteVar e.allocsz, rewriteVar e.suballoc, rewriteVar e.subfree, rewriteVar e.override], reWhole.Lang s) ↔
      D.free = [] ∧ ∀ d ∈ D.subfree, ∃ c, d.Of [c] ∧ c.isAlpha = true := by
    simp only [List.mem_cons, List.not_mem_nil, or_false, forall_eq_or_imp, forall_eq]
    constructor
    · rintro ⟨_, h2, _, _, h5, _⟩
      rw [v2] at h2; rw [v5] at h5
      exact ⟨free_lang (fun d h => ⟨ok d (by simp [h]), hD.free d h⟩) h2, subfree_lang (fun d h => ⟨ok d (by simp [h]), hD.subfree d h⟩) h5⟩
    · rintro ⟨h2, h5⟩
      refine ⟨ro _ _ hi.alloc fun d h => ⟨ok d (by simp [h]), rt d (by simp [h])⟩, ?_, ro _ _ hi.allocsz fun d h => ⟨ok d (by simp [h]), rt d (by simp [h])⟩,
        ro _ _ hi.suballoc fun d h => ⟨ok d (by simp [h]), rt d (by simp [h])⟩, ?_, ?_⟩
      · rw [v2, h2]; exact .inr rfl
      · rw [v5]; exact subfree_whole fun d h => ⟨ok d (by simp [h]), h5 d h⟩
      · rw [white_var hi.override]; exact .inr rfl
  rw [decls_options hD hi hp, ← hall]
  rcases start_six (rewriteVar e.alloc) (rewriteVar e.free) (rewriteVar e.allocsz) (rewriteVar e.suballoc) (rewriteVar e.subfree) (rewriteVar e.override) with ⟨h1, h2⟩ | ⟨h1, h2⟩
  · exact ⟨⟨fun _ => h2, fun _ => h1⟩, fun h => absurd h1 h⟩
  · refine ⟨⟨?_, fun h => absurd h h2⟩, fun _ => h1⟩
    rintro ⟨l, hl⟩
    have : start (e.vars.map rewriteVar) = .error .abort := h1
    rw [this] at hl; cases hl

/-- The characters of names: the first, and the others. -/
theorem name_chars (c : Char) : (isIdent0 c = true ↔ c.isAlpha = true ∨ c = '_') ∧ (isIdent1 c = true ↔ c.isAlphanum = true ∨ c ∈ ['_', ' ', '\t', ':']) := by
  unfold isIdent0 isIdent1 isBlank
  refine ⟨by simp, ?_⟩
  simp only [Bool.or_eq_true, decide_eq_true_eq, List.mem_cons, List.not_mem_nil, or_false]
  constructor
  · rintro (((h | h) | h | h) | h) <;> simp [h]
  · rintro (h | h | h | h | h) <;> simp [h]

/-- A relocatable file that defines `malloc` for others. -/
def HasMalloc (f : Input) : Prop := f.isRel = true ∧ ∃ y ∈ f.syms, y.name = w! "malloc" ∧ (y.typ = .object ∨ y.typ = .func) ∧ y.place = .section ∧ y.isLocal = false

/-- The plugin knows just whether, and by which of the files last, `malloc` is defined in what is linked. -/
theorem malloc_seen (ins : List Input) : (∀ n, sawMalloc ins = some n ↔ ∃ a f b, ins = a ++ f :: b ∧ f.name = n ∧ HasMalloc f ∧ ∀ g ∈ b, ¬ HasMalloc g) ∧ (sawMalloc ins = none ↔ ∀ f ∈ ins, ¬ HasMalloc f) := by
  have test : ∀ f : Input, (f.isRel && f.syms.any fun s => s.offered && decide (s.name = w! "malloc")) = true ↔ HasMalloc f := by
    intro f
    unfold HasMalloc
    rw [Bool.and_eq_true, List.any_eq_true]
    constructor
    · rintro ⟨h1, y, hy, h⟩
      rw [Bool.and_eq_true, offered_iff, decide_eq_true_eq] at h
      exact ⟨h1, y, hy, h.2, h.1⟩
    · rintro ⟨h1, y, hy, hn, h⟩
      exact ⟨h1, y, hy, by rw [Bool.and_eq_true, offered_iff, decide_eq_true_eq]; exact ⟨h, hn⟩⟩
  have main : ∀ r : List Input, (sawMalloc r.reverse = none ↔ ∀ f ∈ r, ¬ HasMalloc f) ∧ (∀ n, sawMalloc r.reverse = some n ↔ ∃ a f b, r.reverse = a ++ f :: b ∧ f.name = n ∧ HasMalloc f ∧ ∀ g ∈ b, ¬ HasMalloc g) := by
    intro r
    induction r with
    | nil =>
      refine ⟨⟨fun _ f h => (by cases h), fun _ => rfl⟩, fun n => ⟨fun h => (by cases h), ?_⟩⟩
      rintro ⟨a, f, b, h, _⟩
      have := congrArg List.length h
      simp at this
    | cons f r ih =>
      have e : sawMalloc (f :: r).reverse = if (f.isRel && f.syms.any fun s => s.offered && decide (s.name = w! "malloc")) = true then some f.name else sawMalloc r.reverse := by
        unfold sawMalloc
        rw [List.reverse_cons, List.foldl_append]
        rfl
      rw [e]
      by_cases hf : HasMalloc f
      · rw [if_pos ((test f).2 hf)]
        refine ⟨⟨fun h => (by cases h), fun h => absurd hf (h f (List.mem_cons_self ..))⟩, fun n => ⟨?_, ?_⟩⟩
        · intro h
          injection h with h
          exact ⟨r.reverse, f, [], by rw [List.reverse_cons], h, hf, fun g hg => (by cases hg)⟩
        · rintro ⟨a, g, b, h, hn, hg, hb⟩
          rw [List.reverse_cons] at h
          cases hb' : b.reverse with
          | nil =>
            rw [List.reverse_eq_nil_iff] at hb'
            subst hb'
            have := List.append_inj_right' h rfl
            injection this with this
            rw [← hn, this]
          | cons x b' =>
            have eb : b = b'.reverse ++ [x] := by rw [← List.reverse_reverse b, hb', List.reverse_cons]
            subst eb
            have h' : r.reverse ++ [f] = (a ++ g :: b'.reverse) ++ [x] := by rw [h]; simp
            have := List.append_inj_right' h' rfl
            injection this with this
            exact absurd (this ▸ hf) (hb x (by simp))
      · rw [if_neg (fun h => hf ((test f).1 h))]
        refine ⟨⟨fun h g hg => ?_, fun h => ih.1.2 fun g hg => h g (List.mem_cons_of_mem _ hg)⟩, fun n => ?_⟩
        · rcases List.mem_cons.1 hg with rfl | hg
          · exact hf
          · exact ih.1.1 h g hg
        · rw [ih.2 n]
          constructor
          · rintro ⟨a, g, b, h, hn, hg, hb⟩
            refine ⟨a, g, b ++ [f], by rw [List.reverse_cons, h]; simp, hn, hg, ?_⟩
            intro x hx
            rcases List.mem_append.1 hx with hx | hx
            · exact hb x hx
            · rw [List.mem_singleton] at hx; rw [hx]; exact hf
          · rintro ⟨a, g, b, h, hn, hg, hb⟩
            rw [List.reverse_cons] at h
            cases hb' : b.reverse with
            | nil =>
              rw [List.reverse_eq_nil_iff] at hb'
              subst hb'
              have := List.append_inj_right' h rfl
              injection this with this
              exact absurd (this ▸ hg) hf
            | cons x b' =>
              have eb : b = b'.reverse ++ [x] := by rw [← List.reverse_reverse b, hb', List.reverse_cons]
              subst eb
              have h' : r.reverse ++ [f] = (a ++ g :: b'.reverse) ++ [x] := by rw [h]; simp
              exact ⟨a, g, b'.reverse, List.append_inj_left' h' rfl, hn, hg, fun y hy => hb y (List.mem_append_left _ hy)⟩
  have := main ins.reverse
  rw [List.reverse_reverse] at this
  refine ⟨this.2, this.1.trans ⟨fun h f hf => h f (List.mem_reverse.2 hf), fun h f hf => h f (List.mem_reverse.1 hf)⟩⟩

/-! ## A concrete case, and what goes wrong -/

instance {α β : Type} [DecidableEq α] [DecidableEq β] : DecidableEq (Except α β)
  | .ok a, .ok b => if h : a = b then isTrue (by rw [h]) else isFalse (by intro e; injection e; contradiction)
  | .error a, .error b => if h : a = b then isTrue (by rw [h]) else isFalse (by intro e; injection e; contradiction)
  | .ok _, .error _ => isFalse (by intro e; cases e)
  | .error _, .ok _ => isFalse (by intro e; cases e)

/-- The functions of a program. -/
def exEnv : Env := ⟨w! " malloc(Z)p  calloc(zZ)p", [], w! "fe_create_2d(iiI)p", w! "Perl_newSV(Z)p", [], []⟩

def exIns : List Input :=
  [⟨w! "a.o", true, [⟨.func, .section, false, w! "calloc"⟩, ⟨.func, .undef, false, w! "malloc"⟩, ⟨.func, .section, true, w! "Perl_newSV"⟩, ⟨.func, .section, false, w! "main"⟩]⟩]

def exDecls : Decls := ⟨[⟨w! "malloc", ['Z'], ['p']⟩, ⟨w! "calloc", ['z', 'Z'], ['p']⟩], [], [⟨w! "fe_create_2d", ['i', 'i', 'I'], ['p']⟩], [⟨w! "Perl_newSV", ['Z'], ['p']⟩], []⟩

/-- The hypotheses of `flags_partial` hold for it. -/
theorem case_decls : exDecls.Ok ∧ exDecls.In exEnv ∧ exDecls.free = [] ∧ exDecls.subfree = [] := by
  have nm : ∀ n : Text, (∃ c t, n = c :: t ∧ (c.isAlpha = true ∨ c = '_') ∧ (t.all fun d => d.isAlphanum || d == '_') = true) → CName n := by
    rintro n ⟨c, t, h1, h2, h3⟩
    refine ⟨c, t, h1, h2, fun d hd => ?_⟩
    have := List.all_eq_true.1 h3 d hd
    simpa using this
  refine ⟨⟨?_, ?_, fun d hd => (by cases hd), fun d hd => (by cases hd)⟩, ⟨?_, .nil _ (fun _ h => by cases h), ?_, ?_, .nil _ (fun _ h => by cases h), fun _ h => by cases h⟩, rfl, rfl⟩
  · intro d hd
    simp only [exDecls, List.append_nil, List.cons_append, List.nil_append, List.mem_cons, List.not_mem_nil, or_false] at hd
    rcases hd with rfl | rfl | rfl | rfl
    all_goals exact ⟨nm _ ⟨_, _, rfl, by decide, by decide⟩, by decide, by decide⟩
  · intro d hd
    simp only [exDecls, List.cons_append, List.nil_append, List.mem_cons, List.not_mem_nil, or_false] at hd
    rcases hd with rfl | rfl | rfl | rfl
    all_goals exact ⟨'p', rfl, by decide⟩
  · exact .cons [' '] _ _ w! "  calloc(zZ)p" (by simp [White]) (.inr ⟨_, _, rfl, by simp [White]⟩) (.cons w! "  " _ _ [] (by simp [White]) (.inl rfl) (.nil [] (by simp [White])))
  · exact .cons [] _ _ [] (by simp [White]) (.inl rfl) (.nil [] (by simp [White]))
  · exact .cons [] _ _ [] (by simp [White]) (.inl rfl) (.nil [] (by simp [White]))

/-- What the script writes, what the plugin gets, and what it does. -/
theorem case_flags : ldflags w! "/la/tools" { exEnv with allocsz := [], suballoc := [] } =
      w! "-Wl,-plugin=/la/tools/gold-plugin.so -Wl,-plugin-opt=malloc\\;\\(Z\\)\\;p\\ calloc\\;\\(z\\;Z\\)\\;p -Wl,-plugin-opt= -Wl,-plugin-opt= -Wl,-plugin-opt= -Wl,-plugin-opt= -Wl,-plugin-opt=" ∧
    options w! "/la/tools" exEnv = [w! "malloc;(Z);p calloc;(z;Z);p", [], w! "fe_create_2d;(i;i;I);p", w! "Perl_newSV;(Z);p", [], []] ∧
    plugin (options w! "/la/tools" exEnv) exIns = .ok ([w! "calloc"], some [⟨w! "make_caller_alloc_wrapper", w! "malloc", [['Z']], ['p']⟩,
      ⟨w! "make_caller_alloc_wrapper", w! "calloc", [['z'], ['Z']], ['p']⟩, ⟨w! "make_caller_sz_wrapper", w! "fe_create_2d", [['i'], ['i'], ['I']], ['p']⟩,
      ⟨w! "make_suballoc_wrapper", w! "Perl_newSV", [['Z']], ['p']⟩]) := by decide +kernel

/-- A free function, as it is documented, stops the link: the script leaves out a separator that the plugin asks for. -/
theorem free_fails : options w! "/la" ⟨[], w! "Safefree(P)", [], [], [], []⟩ = [[], w! "Safefree;(P)", [], [], [], []] ∧
    start (options w! "/la" ⟨[], w! "Safefree(P)", [], [], [], []⟩) = .error .abort ∧
    (start [[], w! "Safefree;(P);", [], [], [], []]).isOk = true := by decide +kernel

/-- So does a suballocator's free function, and what is documented for overriding types. -/
theorem subfree_fails : start (options w! "/la" ⟨[], [], [], [], w! "libcrunch_free_object(P)->ggc_alloc", []⟩) = .error .abort := by decide +kernel

theorem override_fails : options w! "/la" ⟨[], [], [], [], [], w! "S_more_sv,Perl_safesys_malloc,char,sv"⟩ = [[], [], [], [], [], w! "S_more_sv"] ∧
    start (options w! "/la" ⟨[], [], [], [], [], w! "S_more_sv,Perl_safesys_malloc,char,sv"⟩) = .error .abort := by decide +kernel

/-- A function without arguments. -/
theorem noargs_fails : options w! "/la" ⟨w! "make()p", [], [], [], [], []⟩ = [w! "make;(p)", [], [], [], [], []] ∧
    start (options w! "/la" ⟨w! "make()p", [], [], [], [], []⟩) = .error .abort := by decide +kernel

/-- With five options the plugin does not say what is wrong. -/
theorem five_fails : start [[], [], [], [], []] = .error .exception := by decide +kernel

/-- A name with a blank in it is accepted, but taken for two. -/
theorem blank_fails : (start [w! "operator new;(Z);p", [], [], [], [], []]).isOk = true ∧ extract w! "operator new;(Z);p" = [w! "operator", w! "new"] := by decide +kernel

/-- A local symbol's file cannot have its suffix. -/
theorem file_fails : start [w! "a.o::take;(Z);p", [], [], [], [], []] = .error .abort := by decide +kernel

/-- A function with the name of the macros' parameter. -/
theorem w_fails : (plugin [w! "w;(Z);p", [], [], [], [], []] []).toOption.bind (·.2) =
    some [⟨w! "make_caller_alloc_wrapper", w! "make_caller_alloc_wrapper", [['Z']], ['p']⟩] := by decide +kernel

end Liballocs.LdFlags
