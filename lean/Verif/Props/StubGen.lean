import Verif.Model.StubGen
/-! Properties of the generated wrappers of allocation functions. -/
namespace Liballocs.StubGen
open Liballocs.CcArgs (W starts)

/-! ## The specification -/

/-- Characters of C identifiers. -/
def Ident (w : W) : Prop := w ≠ [] ∧ ∀ ch ∈ w, ch.isAlphanum ∨ ch = '_'

/-- Letters, and the types they stand for. -/
def LETTERS : List (Char × Ty) := [('z', .size), ('p', .ptr), ('i', .int)]
def MARKED : List (Char × Ty) := [('Z', .size), ('P', .ptr), ('I', .int)]

/-- A parameter: its type, and whether it is marked. -/
structure Param where
  ty : Ty
  marked : Bool

def Param.letter (p : Param) : Char :=
  match p.ty, p.marked with
  | .size, false => 'z' | .size, true => 'Z'
  | .ptr, false => 'p' | .ptr, true => 'P'
  | .int, false => 'i' | .int, true => 'I'
  | .void, _ => 'v'

/-- What can be declared. -/
structure Decl where
  name : W
  params : List Param
  ret : Param
  /-- the allocation function, for a suballocator's free function -/
  of : W

/-- How an allocation function is written. -/
def Decl.allocText (d : Decl) : W := d.name ++ '(' :: (d.params.map Param.letter ++ [')', d.ret.letter])
/-- How a free function is written. -/
def Decl.freeText (d : Decl) : W := d.name ++ '(' :: (d.params.map Param.letter ++ [')'])
/-- How a suballocator's free function is written. -/
def Decl.subfreeText (d : Decl) : W := d.name ++ '(' :: (d.params.map Param.letter ++ ')' :: '-' :: '>' :: d.of)

/-- Words with any number of spaces before, between and after them. -/
inductive Spaced : List W → W → Prop where
  | nil (k : Nat) : Spaced [] (List.replicate k ' ')
  | last (k : Nat) (w : W) : Spaced [w] (List.replicate k ' ' ++ w)
  | cons (k : Nat) (w : W) (ws : List W) (t : W) : Spaced ws (' ' :: t) → Spaced (w :: ws) (List.replicate k ' ' ++ w ++ ' ' :: t)

/-- The declarations of a language and of a user. -/
structure Decls where
  dflt : List Decl
  alloc : List Decl
  sub : List Decl
  dfltFree : List Decl
  free : List Decl
  subfree : List Decl

def Decls.all (D : Decls) : List Decl := D.dflt ++ D.alloc ++ D.sub ++ D.dfltFree ++ D.free ++ D.subfree

/-- Functions of the standard allocator. -/
def FAMILY : List W := [w! "malloc", w! "free", w! "calloc", w! "realloc", w! "memalign", w! "malloc_usable_size"]

/-- Declarations that are used as they are meant: one to a function, and just one argument marked where one must be. -/
structure Decls.Valid (D : Decls) : Prop where
  ident : ∀ d ∈ D.all, Ident d.name
  reserved : ∀ d ∈ D.all, ¬ starts w! "__real_" d.name
  once : (D.all.map (·.name)).Nodup
  types : ∀ d ∈ D.all, (∀ p ∈ d.params, p.ty ≠ .void) ∧ d.params ≠ [] ∧ d.params.length ≤ 64
  rets : ∀ d ∈ D.dflt ++ D.alloc ++ D.sub, d.ret.ty ≠ .void
  mark : ∀ d ∈ D.dflt ++ D.alloc ++ D.sub ++ D.subfree, ∃ a p b, d.params = a ++ p :: b ∧ p.marked = true ∧ (∀ q ∈ a ++ b, q.marked = false)
  other : ∀ d ∈ D.sub ++ D.subfree, d.name ∉ FAMILY
  of : ∀ d ∈ D.subfree, d.of ∈ D.sub.map (·.name)

/-- The environment that has these declarations. -/
def Decls.In (D : Decls) (e : Env) : Prop :=
  e.dfltAlloc = D.dflt.map Decl.allocText ∧ e.dfltFree = D.dfltFree.map Decl.freeText ∧ Spaced (D.alloc.map Decl.allocText) e.alloc ∧
  Spaced (D.sub.map Decl.allocText) e.suballoc ∧ Spaced [] e.allocsz ∧ Spaced (D.free.map Decl.freeText) e.free ∧
  Spaced (D.subfree.map Decl.subfreeText) e.subfree

/-! ## Reading declarations -/

private theorem splitWords_spaces (k : Nat) (t : W) : splitWords [] (List.replicate k ' ' ++ t) = splitWords [] t := by
  induction k with
  | zero => rfl
  | succ n ih => rw [List.replicate_succ, List.cons_append, splitWords, if_pos rfl, if_pos rfl, ih]

private theorem splitWords_word : ∀ (w acc t : W), ' ' ∉ w → splitWords acc (w ++ t) = splitWords (acc ++ w) t := by
  intro w
  induction w with
  | nil => intro acc t _; simp
  | cons a w ih =>
    intro acc t h
    have ha : a ≠ ' ' := fun hc => h (by simp [hc])
    rw [List.cons_append, splitWords, if_neg ha, ih _ _ (fun hc => h (List.mem_cons_of_mem _ hc))]
    simp

private theorem split_spaced {ws : List W} {t : W} (h : Spaced ws t) (hw : ∀ w ∈ ws, w ≠ [] ∧ ' ' ∉ w) : splitWords [] t = ws := by
  induction h with
  | nil k => have := splitWords_spaces k []; rw [List.append_nil] at this; rw [this]; rfl
  | last k w =>
    have h1 := hw w (List.mem_cons_self ..)
    have := splitWords_word w [] [] h1.2
    rw [List.append_nil] at this
    rw [splitWords_spaces, this, List.nil_append, splitWords, if_neg h1.1]
  | cons k w ws t hs ih =>
    have h1 := hw w (List.mem_cons_self ..)
    have hi := ih (fun v hv => hw v (List.mem_cons_of_mem _ hv))
    rw [splitWords, if_pos rfl, if_pos rfl] at hi
    rw [List.append_assoc, splitWords_spaces, splitWords_word w [] _ h1.2, List.nil_append, splitWords, if_pos rfl, if_neg h1.1, hi]

private theorem cuts_none {ch : Char} : ∀ {w : W}, ch ∉ w → cuts ch w = [] := by
  intro w
  induction w with
  | nil => intro _; rfl
  | cons a t ih =>
    intro h
    have ha : a ≠ ch := fun hc => h (by simp [hc])
    rw [cuts, ih (fun hc => h (List.mem_cons_of_mem _ hc)), if_neg ha]
    rfl

private theorem cuts_one {ch : Char} {y : W} (hy : ch ∉ y) : ∀ {x : W}, ch ∉ x → cuts ch (x ++ ch :: y) = [(x, y)] := by
  intro x
  induction x with
  | nil => intro _; rw [List.nil_append, cuts, cuts_none hy, if_pos rfl]; rfl
  | cons a t ih =>
    intro h
    have ha : a ≠ ch := fun hc => h (by simp [hc])
    rw [List.cons_append, cuts, ih (fun hc => h (List.mem_cons_of_mem _ hc)), if_neg ha]
    rfl

private theorem match_decl {α : Type} (rest : W → Option α) {n s r : W} (h1 : '(' ∉ n) (h2 : '(' ∉ s ++ ')' :: r) (h3 : ')' ∉ s) (h4 : ')' ∉ r) :
    matchDecl rest (n ++ '(' :: (s ++ ')' :: r)) = (rest r).map fun x => (n, s, x) := by
  unfold matchDecl
  rw [cuts_one h2 h1, List.flatMap_cons, List.flatMap_nil, List.append_nil]
  simp only [cuts_one h4 h3]
  cases hr : rest r <;> simp [hr]

private theorem ident_no {w : W} (h : Ident w) : '(' ∉ w ∧ ')' ∉ w ∧ ' ' ∉ w := by
  refine ⟨fun hc => ?_, fun hc => ?_, fun hc => ?_⟩ <;> · have := h.2 _ hc; revert this; decide

private theorem letter_no (p : Param) : p.letter ≠ '(' ∧ p.letter ≠ ')' ∧ p.letter ≠ ' ' := by
  rcases p with ⟨t, m⟩
  cases t <;> cases m <;> decide

private theorem letters_no (ps : List Param) : '(' ∉ ps.map Param.letter ∧ ')' ∉ ps.map Param.letter ∧ ' ' ∉ ps.map Param.letter := by
  refine ⟨fun hc => ?_, fun hc => ?_, fun hc => ?_⟩ <;>
    · obtain ⟨p, _, hp⟩ := List.mem_map.1 hc
      have := letter_no p
      simp_all

private theorem alloc_word {d : Decl} (h : Ident d.name) : d.allocText ≠ [] ∧ ' ' ∉ d.allocText := by
  have h1 := ident_no h
  have h2 := letters_no d.params
  have h3 := letter_no d.ret
  unfold Decl.allocText
  refine ⟨by simp, fun hc => ?_⟩
  simp only [List.mem_append, List.mem_cons, List.not_mem_nil, or_false] at hc
  rcases hc with hc | hc | hc | hc | hc
  · exact h1.2.2 hc
  · exact absurd hc (by decide)
  · exact h2.2.2 hc
  · exact absurd hc (by decide)
  · exact h3.2.2 hc.symm

private theorem free_word {d : Decl} (h : Ident d.name) : d.freeText ≠ [] ∧ ' ' ∉ d.freeText := by
  have h1 := ident_no h
  have h2 := letters_no d.params
  unfold Decl.freeText
  refine ⟨by simp, fun hc => ?_⟩
  simp only [List.mem_append, List.mem_cons, List.not_mem_nil, or_false] at hc
  rcases hc with hc | hc | hc | hc
  · exact h1.2.2 hc
  · exact absurd hc (by decide)
  · exact h2.2.2 hc
  · exact absurd hc (by decide)

private theorem subfree_word {d : Decl} (h : Ident d.name) (ho : Ident d.of) : d.subfreeText ≠ [] ∧ ' ' ∉ d.subfreeText := by
  have h1 := ident_no h
  have h2 := letters_no d.params
  have h3 := ident_no ho
  unfold Decl.subfreeText
  refine ⟨by simp, fun hc => ?_⟩
  simp only [List.mem_append, List.mem_cons] at hc
  rcases hc with hc | hc | hc | hc | hc | hc | hc
  · exact h1.2.2 hc
  · exact absurd hc (by decide)
  · exact h2.2.2 hc
  · exact absurd hc (by decide)
  · exact absurd hc (by decide)
  · exact absurd hc (by decide)
  · exact h3.2.2 hc

private theorem match_alloc {α : Type} (rest : W → Option α) {d : Decl} (h : Ident d.name) :
    matchDecl rest d.allocText = (rest [d.ret.letter]).map fun x => (d.name, d.params.map Param.letter, x) := by
  have h1 := ident_no h
  have h2 := letters_no d.params
  have h3 := letter_no d.ret
  unfold Decl.allocText
  refine match_decl rest h1.1 ?_ h2.2.1 ?_
  · simp only [List.mem_append, List.mem_cons, List.not_mem_nil, or_false, not_or]
    exact ⟨h2.1, by decide, fun hc => h3.1 hc.symm⟩
  · simp only [List.mem_cons, List.not_mem_nil, or_false]
    exact fun hc => h3.2.1 hc.symm

private theorem match_free {α : Type} (rest : W → Option α) {d : Decl} (h : Ident d.name) :
    matchDecl rest d.freeText = (rest []).map fun x => (d.name, d.params.map Param.letter, x) := by
  have h1 := ident_no h
  have h2 := letters_no d.params
  unfold Decl.freeText
  refine match_decl rest h1.1 ?_ h2.2.1 (by simp)
  simp only [List.mem_append, List.mem_cons, List.not_mem_nil, or_false, not_or]
  exact ⟨h2.1, by decide⟩

private theorem match_subfree {α : Type} (rest : W → Option α) {d : Decl} (h : Ident d.name) (ho : Ident d.of) :
    matchDecl rest d.subfreeText = (rest ('-' :: '>' :: d.of)).map fun x => (d.name, d.params.map Param.letter, x) := by
  have h1 := ident_no h
  have h2 := letters_no d.params
  have h3 := ident_no ho
  unfold Decl.subfreeText
  refine match_decl rest h1.1 ?_ h2.2.1 ?_
  · simp only [List.mem_append, List.mem_cons, not_or]
    exact ⟨h2.1, by decide, by decide, by decide, h3.1⟩
  · simp only [List.mem_cons, not_or]
    exact ⟨by decide, by decide, h3.2.1⟩

private theorem arrow_ident {o : W} (h : Ident o) : restArrow ('-' :: '>' :: o) = some o := by
  have ht : o.takeWhile isName = o := by
    have h2 : ∀ ch ∈ o, isName ch = true := by
      intro ch hc
      have := h.2 ch hc
      simpa [isName] using this
    clear h
    induction o with
    | nil => rfl
    | cons a t ih =>
      rw [List.takeWhile_cons, if_pos (h2 a (List.mem_cons_self ..)), ih (fun b hb => h2 b (List.mem_cons_of_mem _ hb))]
  unfold restArrow
  rw [if_pos (by simp [starts, List.isPrefixOf])]
  simp only [List.drop_succ_cons, List.drop_zero, ht]
  cases o with
  | nil => exact absurd rfl h.1
  | cons a t => rfl

/-! ## Letters -/

private theorem ty_letter {p : Param} (h : p.ty ≠ .void) : tyOf p.letter = some p.ty := by
  rcases p with ⟨t, m⟩
  cases t <;> cases m <;> first | rfl | exact absurd rfl h | decide

private theorem mapAll_map {α β : Type} {f : α → Option β} {g : α → β} : ∀ {l : List α}, (∀ a ∈ l, f a = some (g a)) → mapAll f l = some (l.map g) := by
  intro l
  induction l with
  | nil => intro _; rfl
  | cons a t ih =>
    intro h
    rw [mapAll, h a (List.mem_cons_self ..), ih (fun b hb => h b (List.mem_cons_of_mem _ hb))]
    rfl

private theorem mapAll_comp {α β γ : Type} (g : α → β) (f : β → Option γ) (l : List α) : mapAll f (l.map g) = mapAll (fun a => f (g a)) l := by
  induction l with
  | nil => rfl
  | cons a t ih => rw [List.map_cons, mapAll, mapAll, ih]

private theorem mapAll_append {α β : Type} {f : α → Option β} : ∀ {a b : List α} {x y : List β}, mapAll f a = some x → mapAll f b = some y →
    mapAll f (a ++ b) = some (x ++ y) := by
  intro a
  induction a with
  | nil => intro b x y h1 h2; simp only [mapAll, Option.some.injEq] at h1; subst h1; exact h2
  | cons c t ih =>
    intro b x y h1 h2
    rw [mapAll] at h1
    rw [List.cons_append, mapAll]
    cases hc : f c with
    | none => rw [hc] at h1; simp at h1
    | some v =>
      rw [hc] at h1
      simp only at h1 ⊢
      cases ht : mapAll f t with
      | none => rw [ht] at h1; simp at h1
      | some r =>
        rw [ht] at h1
        simp only [Option.some.injEq] at h1
        subst h1
        rw [ih ht h2]
        rfl

private theorem params_of {ps : List Param} (h1 : ∀ p ∈ ps, p.ty ≠ .void) (h2 : ps ≠ []) (h3 : ps.length ≤ 64) :
    paramsOf (ps.map Param.letter) = some (ps.map (·.ty)) := by
  unfold paramsOf
  rw [if_neg (by simp [h2]; omega), mapAll_comp]
  exact mapAll_map fun p hp => ty_letter (h1 p hp)

private theorem upper_mark {p : Param} (h : p.ty ≠ .void) : p.letter.isUpper = p.marked ∧ (decide (p.letter = 'Z' ∨ p.letter = 'P' ∨ p.letter = 'I')) = p.marked := by
  rcases p with ⟨t, m⟩
  cases t <;> cases m <;> first | exact absurd rfl h | decide

private theorem zip_filter_none (f : Char → Bool) : ∀ (l : W) (n : Nat), (∀ ch ∈ l, f ch = false) → (l.zipIdx n).filter (fun p => f p.1) = [] := by
  intro l
  induction l with
  | nil => intro n _; rfl
  | cons a t ih =>
    intro n h
    rw [List.zipIdx_cons, List.filter_cons_of_neg (by simp [h a (List.mem_cons_self ..)]), ih _ (fun b hb => h b (List.mem_cons_of_mem _ hb))]

private theorem cap_arg {a b : List Param} {p : Param} (hp : p.marked = true) (hm : ∀ q ∈ a ++ b, q.marked = false)
    (ht : ∀ q ∈ a ++ p :: b, q.ty ≠ .void) : capArg ((a ++ p :: b).map Param.letter) = some a.length := by
  unfold capArg
  have hl : ∀ q ∈ a ++ b, decide (q.letter = 'Z' ∨ q.letter = 'P' ∨ q.letter = 'I') = false := by
    intro q hq
    rw [(upper_mark (ht q (by simp only [List.mem_append, List.mem_cons] at hq ⊢; rcases hq with h | h <;> simp [h]))).2]
    exact hm q hq
  rw [List.map_append, List.map_cons, List.zipIdx_append, List.zipIdx_cons, List.filter_append,
    zip_filter_none (fun ch => decide (ch = 'Z' ∨ ch = 'P' ∨ ch = 'I')), List.filter_cons_of_pos,
    zip_filter_none (fun ch => decide (ch = 'Z' ∨ ch = 'P' ∨ ch = 'I'))]
  · simp
  · intro ch hc
    obtain ⟨q, hq, rfl⟩ := List.mem_map.1 hc
    exact hl q (List.mem_append_right _ hq)
  · rw [(upper_mark (ht p (by simp))).2, hp]
  · intro ch hc
    obtain ⟨q, hq, rfl⟩ := List.mem_map.1 hc
    exact hl q (List.mem_append_left _ hq)

private theorem first_upper : ∀ {a : List Param} {b : List Param} {p : Param}, p.marked = true → (∀ q ∈ a ++ p :: b, q.ty ≠ .void) →
    (firstUpper ((a ++ p :: b).map Param.letter)).isSome := by
  intro a
  induction a with
  | nil =>
    intro b p hp ht
    rw [List.nil_append, List.map_cons, firstUpper, if_pos (by rw [(upper_mark (ht p (by simp))).1, hp])]
    rfl
  | cons c t ih =>
    intro b p hp ht
    rw [List.cons_append, List.map_cons, firstUpper]
    by_cases hc : c.letter.isUpper = true
    · rw [if_pos hc]; rfl
    · rw [if_neg hc, Option.isSome_map]
      exact ih hp (fun q hq => ht q (List.mem_cons_of_mem _ hq))

/-! ## What is written -/

/-- The declaration as it is invoked. -/
private def inv (m : Macro) (d : Decl) : Inv :=
  ⟨m, d.name, d.params.map Param.letter, (if m = .caller ∨ m = .suballoc then some d.ret.letter else none), if m = .subfree then d.of else []⟩

private theorem mem_all {D : Decls} {d : Decl} :
    d ∈ D.all ↔ d ∈ D.dflt ∨ d ∈ D.alloc ∨ d ∈ D.sub ∨ d ∈ D.dfltFree ∨ d ∈ D.free ∨ d ∈ D.subfree := by
  simp [Decls.all, or_assoc]

private theorem of_ident {D : Decls} (hv : D.Valid) {d : Decl} (h : d ∈ D.subfree) : Ident d.of := by
  obtain ⟨c, hc, he⟩ := List.mem_map.1 (hv.of d h)
  rw [← he]
  exact hv.ident c (mem_all.2 (by simp [hc]))

private theorem env_plain {D : Decls} {e : Env} (hv : D.Valid) (h : D.In e) : e.plain = (D.dflt ++ D.alloc).map Decl.allocText := by
  unfold Env.plain
  rw [h.1, split_spaced h.2.2.1, List.map_append]
  intro w hw
  obtain ⟨d, hd, rfl⟩ := List.mem_map.1 hw
  exact alloc_word (hv.ident d (mem_all.2 (by simp [hd])))

private theorem env_sub {D : Decls} {e : Env} (hv : D.Valid) (h : D.In e) : splitWords [] e.suballoc = D.sub.map Decl.allocText := by
  rw [split_spaced h.2.2.2.1]
  intro w hw
  obtain ⟨d, hd, rfl⟩ := List.mem_map.1 hw
  exact alloc_word (hv.ident d (mem_all.2 (by simp [hd])))

private theorem env_sz {D : Decls} {e : Env} (h : D.In e) : splitWords [] e.allocsz = [] := split_spaced h.2.2.2.2.1 (by simp)

private theorem env_frees {D : Decls} {e : Env} (hv : D.Valid) (h : D.In e) : e.frees = (D.dfltFree ++ D.free).map Decl.freeText := by
  unfold Env.frees
  rw [h.2.1, split_spaced h.2.2.2.2.2.1, List.map_append]
  intro w hw
  obtain ⟨d, hd, rfl⟩ := List.mem_map.1 hw
  exact free_word (hv.ident d (mem_all.2 (by simp [hd])))

private theorem env_subfree {D : Decls} {e : Env} (hv : D.Valid) (h : D.In e) : splitWords [] e.subfree = D.subfree.map Decl.subfreeText := by
  rw [split_spaced h.2.2.2.2.2.2]
  intro w hw
  obtain ⟨d, hd, rfl⟩ := List.mem_map.1 hw
  exact subfree_word (hv.ident d (mem_all.2 (by simp [hd]))) (of_ident hv hd)

private theorem wrapped_eq {D : Decls} {e : Env} (hv : D.Valid) (h : D.In e) : wrapped e = some (D.all.map (·.name)) := by
  unfold wrapped Env.allocs Env.allFrees Decls.all
  rw [env_plain hv h, env_sub hv h, env_sz h, env_frees hv h, env_subfree hv h, List.append_nil, ← List.append_assoc]
  rw [show (D.dflt ++ D.alloc ++ D.sub ++ D.dfltFree ++ D.free ++ D.subfree).map (·.name) =
    ((D.dflt ++ D.alloc).map (·.name) ++ D.sub.map (·.name) ++ (D.dfltFree ++ D.free).map (·.name)) ++ D.subfree.map (·.name) by simp]
  refine mapAll_append (mapAll_append (mapAll_append ?_ ?_) ?_) ?_
  all_goals
    rw [mapAll_comp]
    refine mapAll_map fun d hd => ?_
  · rw [match_alloc restAny (hv.ident d (mem_all.2 (by rcases List.mem_append.1 hd with hd | hd <;> simp [hd])))]; rfl
  · rw [match_alloc restAny (hv.ident d (mem_all.2 (by simp [hd])))]; rfl
  · rw [match_free restAny (hv.ident d (mem_all.2 (by rcases List.mem_append.1 hd with hd | hd <;> simp [hd])))]; rfl
  · rw [match_subfree restAny (hv.ident d (mem_all.2 (by simp [hd]))) (of_ident hv hd)]; rfl

private theorem text_name {c d : Decl} (hc : Ident c.name) (hd : Ident d.name) (h : c.allocText = d.allocText) : c.name = d.name := by
  have h1 := match_alloc restAny hc
  have h2 := match_alloc restAny hd
  rw [h, h2] at h1
  simp only [restAny, Option.map_some, Option.some.injEq, Prod.mk.injEq] at h1
  exact h1.1.symm

private theorem alloc_plain {D : Decls} {e : Env} (hv : D.Valid) (h : D.In e) {d : Decl} (hd : d ∈ D.dflt ++ D.alloc) :
    allocInv e d.allocText = some (inv .caller d) := by
  have hid : Ident d.name := hv.ident d (mem_all.2 (by rcases List.mem_append.1 hd with hd | hd <;> simp [hd]))
  obtain ⟨a, p, b, hps, hp, _⟩ := hv.mark d (by simp only [List.mem_append] at hd ⊢; simp [hd])
  have hall : d ∈ D.all := mem_all.2 (by rcases List.mem_append.1 hd with hd | hd <;> simp [hd])
  have hup := first_upper (a := a) (b := b) hp (by rw [← hps]; exact (hv.types d hall).1)
  rw [← hps] at hup
  unfold allocInv
  rw [match_alloc restRet hid]
  simp only [restRet, Option.map_some]
  obtain ⟨k, hk⟩ := Option.isSome_iff_exists.1 hup
  rw [hk]
  simp only
  rw [if_pos (by rw [env_plain hv h]; exact List.mem_map.2 ⟨d, hd, rfl⟩)]
  simp [inv]

private theorem names_apart {D : Decls} (hv : D.Valid) {c d : Decl} (hc : c ∈ D.dflt ++ D.alloc) (hd : d ∈ D.sub) : c.name ≠ d.name := by
  have h := hv.once
  unfold Decls.all at h
  simp only [List.map_append] at h
  rw [List.nodup_append, List.nodup_append, List.nodup_append, List.nodup_append] at h
  have h2 := h.1.1.1.2.2
  refine h2 _ ?_ _ (List.mem_map.2 ⟨d, hd, rfl⟩)
  rw [← List.map_append]
  exact List.mem_map.2 ⟨c, hc, rfl⟩

private theorem alloc_sub {D : Decls} {e : Env} (hv : D.Valid) (h : D.In e) {d : Decl} (hd : d ∈ D.sub) :
    allocInv e d.allocText = some (inv .suballoc d) := by
  have hall : d ∈ D.all := mem_all.2 (by simp [hd])
  have hid : Ident d.name := hv.ident d hall
  obtain ⟨a, p, b, hps, hp, _⟩ := hv.mark d (by simp [hd])
  have hup := first_upper (a := a) (b := b) hp (by rw [← hps]; exact (hv.types d hall).1)
  rw [← hps] at hup
  unfold allocInv
  rw [match_alloc restRet hid]
  simp only [restRet, Option.map_some]
  obtain ⟨k, hk⟩ := Option.isSome_iff_exists.1 hup
  rw [hk]
  simp only
  rw [if_neg, if_neg (by rw [env_sz h]; simp)]
  · simp [inv]
  · rw [env_plain hv h]
    intro hm
    obtain ⟨c, hc, he⟩ := List.mem_map.1 hm
    refine names_apart hv hc hd (text_name (hv.ident c (mem_all.2 ?_)) hid he)
    rcases List.mem_append.1 hc with hc | hc <;> simp [hc]

/-- All invocations. -/
private def invs (D : Decls) : List Inv :=
  (D.dflt ++ D.alloc).map (inv .caller) ++ D.sub.map (inv .suballoc) ++ D.subfree.map (inv .subfree) ++ (D.dfltFree ++ D.free).map (inv .free)

private theorem written_eq {D : Decls} {e : Env} (hv : D.Valid) (h : D.In e) : written e = some (invs D) := by
  unfold written Env.allocs invs
  rw [env_plain hv h, env_sub hv h, env_sz h, env_frees hv h, env_subfree hv h, List.append_nil]
  rw [mapAll_append (x := (D.dflt ++ D.alloc).map (inv .caller)) (y := D.sub.map (inv .suballoc))
    (by rw [mapAll_comp]; exact mapAll_map fun d hd => alloc_plain hv h hd) (by rw [mapAll_comp]; exact mapAll_map fun d hd => alloc_sub hv h hd)]
  rw [mapAll_comp, mapAll_map (g := inv .subfree), mapAll_comp, mapAll_map (g := inv .free)]
  · intro d hd
    unfold freeInv
    rw [match_free restAny (hv.ident d (mem_all.2 (by rcases List.mem_append.1 hd with hd | hd <;> simp [hd])))]
    simp [restAny, inv]
  · intro d hd
    unfold subfreeInv
    rw [match_subfree restArrow (hv.ident d (mem_all.2 (by simp [hd]))) (of_ident hv hd), arrow_ident (of_ident hv hd)]
    simp [inv]

/-! ## The functions -/

/-- Where the marked argument is. -/
private def Decl.at (d : Decl) : Nat := (d.params.takeWhile fun p => !p.marked).length

private def real (hm : Bool) (d : Decl) : W := rename hm (w! "__real_" ++ d.name)
private def wrapN (d : Decl) : W := w! "__wrap_" ++ d.name
private def wrapR (d : Decl) : W := w! "__wrap___real_" ++ d.name

private def fnsOf (hm : Bool) : Macro → Decl → List CFn
  | .caller, d => [⟨wrapN d, d.params.map (·.ty), d.ret.ty, .noting (real hm d) d.at false⟩]
  | .suballoc, d => [⟨wrapN d, d.params.map (·.ty), d.ret.ty, .noting (wrapR d) d.at false⟩,
      ⟨wrapR d, d.params.map (·.ty), d.ret.ty, .indexing (real hm d)⟩]
  | .subfree, d => [⟨wrapN d, d.params.map (·.ty), .void, .freeing (wrapR d)⟩, ⟨wrapR d, d.params.map (·.ty), .void, .unindexing (real hm d) d.at⟩]
  | .free, d => [⟨wrapN d, d.params.map (·.ty), .void, .freeing (real hm d)⟩]
  | .size, _ => []

private theorem at_eq {d : Decl} {a b : List Param} {p : Param} (h : d.params = a ++ p :: b) (hp : p.marked = true) (hm : ∀ q ∈ a ++ b, q.marked = false) :
    d.at = a.length := by
  unfold Decl.at
  rw [h, List.takeWhile_append_of_pos (by intro q hq; simp [hm q (List.mem_append_left _ hq)]), List.takeWhile_cons, if_neg (by simp [hp])]
  simp

private theorem cap_at {d : Decl} (ht : ∀ q ∈ d.params, q.ty ≠ .void)
    (h : ∃ a p b, d.params = a ++ p :: b ∧ p.marked = true ∧ (∀ q ∈ a ++ b, q.marked = false)) :
    capArg (d.params.map Param.letter) = some d.at ∧ d.at < d.params.length := by
  obtain ⟨a, p, b, h1, h2, h3⟩ := h
  rw [at_eq h1 h2 h3, h1]
  exact ⟨cap_arg h2 h3 (by rw [← h1]; exact ht), by simp⟩

private theorem expand_eq {d : Decl} (hm : Bool) (m : Macro) (hs : m ≠ .size)
    (ht : (∀ p ∈ d.params, p.ty ≠ .void) ∧ d.params ≠ [] ∧ d.params.length ≤ 64) (hr : m = .caller ∨ m = .suballoc → d.ret.ty ≠ .void)
    (hk : m ≠ .free → ∃ a p b, d.params = a ++ p :: b ∧ p.marked = true ∧ (∀ q ∈ a ++ b, q.marked = false)) :
    expand hm (inv m d) = some (fnsOf hm m d) := by
  unfold expand inv
  simp only
  rw [params_of ht.1 ht.2.1 ht.2.2]
  simp only
  cases m with
  | size => exact absurd rfl hs
  | free => rfl
  | subfree => rw [(cap_at ht.1 (hk (by simp))).1]; rfl
  | caller =>
    rw [(cap_at ht.1 (hk (by simp))).1]
    simp only [true_or, if_true]
    rw [ty_letter (hr (Or.inl rfl))]
    rfl
  | suballoc =>
    rw [(cap_at ht.1 (hk (by simp))).1]
    simp only [or_true, if_true]
    rw [ty_letter (hr (Or.inr rfl))]
    rfl

/-- The declarations with their macros. -/
private def tagged (D : Decls) : List (Macro × Decl) :=
  (D.dflt ++ D.alloc).map (Macro.caller, ·) ++ D.sub.map (Macro.suballoc, ·) ++ D.subfree.map (Macro.subfree, ·) ++
    (D.dfltFree ++ D.free).map (Macro.free, ·)

private def fns (hm : Bool) (D : Decls) : List CFn := (tagged D).flatMap fun t => fnsOf hm t.1 t.2

private theorem invs_eq (D : Decls) : invs D = (tagged D).map fun t => inv t.1 t.2 := by
  simp [invs, tagged, Function.comp_def]

private theorem mem_tagged {D : Decls} {t : Macro × Decl} (h : t ∈ tagged D) :
    (t.1 = .caller ∧ t.2 ∈ D.dflt ++ D.alloc) ∨ (t.1 = .suballoc ∧ t.2 ∈ D.sub) ∨ (t.1 = .subfree ∧ t.2 ∈ D.subfree) ∨
      (t.1 = .free ∧ t.2 ∈ D.dfltFree ++ D.free) := by
  unfold tagged at h
  rcases List.mem_append.1 h with h | h
  · rcases List.mem_append.1 h with h | h
    · rcases List.mem_append.1 h with h | h
      · obtain ⟨d, hd, rfl⟩ := List.mem_map.1 h; exact Or.inl ⟨rfl, hd⟩
      · obtain ⟨d, hd, rfl⟩ := List.mem_map.1 h; exact Or.inr (Or.inl ⟨rfl, hd⟩)
    · obtain ⟨d, hd, rfl⟩ := List.mem_map.1 h; exact Or.inr (Or.inr (Or.inl ⟨rfl, hd⟩))
  · obtain ⟨d, hd, rfl⟩ := List.mem_map.1 h; exact Or.inr (Or.inr (Or.inr ⟨rfl, hd⟩))

private theorem tagged_all {D : Decls} {t : Macro × Decl} (h : t ∈ tagged D) : t.2 ∈ D.all := by
  rw [mem_all]
  rcases mem_tagged h with ⟨_, h⟩ | ⟨_, h⟩ | ⟨_, h⟩ | ⟨_, h⟩
  · rcases List.mem_append.1 h with h | h <;> simp [h]
  · simp [h]
  · simp [h]
  · rcases List.mem_append.1 h with h | h <;> simp [h]

private theorem expand_all {D : Decls} (hv : D.Valid) (hm : Bool) : mapAll (expand hm) (invs D) = some ((tagged D).map fun t => fnsOf hm t.1 t.2) := by
  rw [invs_eq, mapAll_comp]
  refine mapAll_map fun t ht => ?_
  have hall := tagged_all ht
  refine expand_eq hm t.1 ?_ (hv.types _ hall) ?_ ?_
  · rcases mem_tagged ht with ⟨h, _⟩ | ⟨h, _⟩ | ⟨h, _⟩ | ⟨h, _⟩ <;> rw [h] <;> simp
  · intro hc
    refine hv.rets _ ?_
    rcases mem_tagged ht with ⟨h, h2⟩ | ⟨h, h2⟩ | ⟨h, _⟩ | ⟨h, _⟩
    · exact List.mem_append_left _ h2
    · exact List.mem_append_right _ h2
    · rw [h] at hc; simp at hc
    · rw [h] at hc; simp at hc
  · intro hc
    refine hv.mark _ ?_
    rcases mem_tagged ht with ⟨h, h2⟩ | ⟨h, h2⟩ | ⟨h, h2⟩ | ⟨h, _⟩
    · exact List.mem_append_left _ (List.mem_append_left _ h2)
    · exact List.mem_append_left _ (List.mem_append_right _ h2)
    · exact List.mem_append_right _ h2
    · exact absurd h hc

private theorem tagged_names {D : Decls} (hv : D.Valid) : ((tagged D).map fun t => t.2.name).Nodup := by
  have h := hv.once
  have hp : ((tagged D).map fun t => t.2.name).Perm (D.all.map (·.name)) := by
    simp only [tagged, Decls.all, List.map_append, List.map_map, Function.comp_def, List.append_assoc]
    refine List.Perm.append_left _ (List.Perm.append_left _ (List.Perm.append_left _ ?_))
    rw [← List.append_assoc (List.map _ D.dfltFree)]
    exact List.perm_append_comm
  exact hp.nodup_iff.2 h

private theorem fn_names {hm : Bool} {t : Macro × Decl} {n : W} (h : n ∈ (fnsOf hm t.1 t.2).map (·.name)) :
    n = wrapN t.2 ∨ (n = wrapR t.2 ∧ (t.1 = .suballoc ∨ t.1 = .subfree)) := by
  rcases t with ⟨m, d⟩
  cases m <;> simp [fnsOf] at h
  · exact Or.inl h
  · rcases h with h | h
    · exact Or.inl h
    · exact Or.inr ⟨h, Or.inl rfl⟩
  · rcases h with h | h
    · exact Or.inl h
    · exact Or.inr ⟨h, Or.inr rfl⟩
  · exact Or.inl h

private theorem wrapN_inj {c d : Decl} (h : wrapN c = wrapN d) : c.name = d.name := List.append_cancel_left h
private theorem wrapR_inj {c d : Decl} (h : wrapR c = wrapR d) : c.name = d.name := List.append_cancel_left h
private theorem wrapR_eq (d : Decl) : wrapR d = w! "__wrap_" ++ (w! "__real_" ++ d.name) := rfl

private theorem wrapN_ne {c d : Decl} (hc : ¬ starts w! "__real_" c.name) : wrapN c ≠ wrapR d := by
  intro h
  rw [wrapR_eq] at h
  have := List.append_cancel_left h
  exact hc (by rw [this]; simp [starts, List.isPrefixOf])

private theorem fns_nodup {D : Decls} (hv : D.Valid) (hm : Bool) : ((fns hm D).map (·.name)).Nodup := by
  unfold fns
  rw [List.map_flatMap]
  unfold List.Nodup
  rw [List.pairwise_flatMap]
  constructor
  · intro t ht
    rcases t with ⟨m, d⟩
    have hr := hv.reserved d (tagged_all ht)
    cases m <;> simp [fnsOf, wrapN_ne hr]
  · have := tagged_names hv
    unfold List.Nodup at this
    rw [List.pairwise_map] at this
    refine List.Pairwise.imp_of_mem ?_ this
    intro t u ht hu hne x hx y hy
    have hrt := hv.reserved _ (tagged_all ht)
    have hru := hv.reserved _ (tagged_all hu)
    rcases fn_names hx with rfl | ⟨rfl, _⟩ <;> rcases fn_names hy with rfl | ⟨rfl, _⟩
    · exact fun h => hne (wrapN_inj h)
    · exact wrapN_ne hrt
    · exact (wrapN_ne hru).symm
    · exact fun h => hne (wrapR_inj h)

private theorem compiled_eq {D : Decls} (hv : D.Valid) (hm : Bool) : compiled hm (invs D) = some (fns hm D) := by
  unfold compiled
  rw [expand_all hv hm]
  simp only
  have hf : ((tagged D).map fun t => fnsOf hm t.1 t.2).flatten = fns hm D := rfl
  rw [hf, if_pos]
  refine ⟨fns_nodup hv hm, ?_⟩
  intro i hi hs
  rw [invs_eq] at hi ⊢
  obtain ⟨t, ht, rfl⟩ := List.mem_map.1 hi
  have hd : t.2 ∈ D.subfree := by
    rcases mem_tagged ht with ⟨h, _⟩ | ⟨h, _⟩ | ⟨_, h2⟩ | ⟨h, _⟩
    · rw [h] at hs; exact absurd hs (by simp [inv])
    · rw [h] at hs; exact absurd hs (by simp [inv])
    · exact h2
    · rw [h] at hs; exact absurd hs (by simp [inv])
  obtain ⟨c, hc, he⟩ := List.mem_map.1 (hv.of _ hd)
  have ht1 : t.1 = .subfree := hs
  refine ⟨inv .suballoc c, List.mem_map.2 ⟨(.suballoc, c), ?_, rfl⟩, rfl, ?_⟩
  · unfold tagged
    refine List.mem_append_left _ (List.mem_append_left _ (List.mem_append_right _ (List.mem_map.2 ⟨c, hc, rfl⟩)))
  · simp [inv, ht1, he]

private theorem find_name : ∀ {fs : List CFn} {f : CFn}, (fs.map (·.name)).Nodup → f ∈ fs → lookup fs f.name = some f := by
  unfold lookup
  intro fs
  induction fs with
  | nil => intro f _ h; simp at h
  | cons a t ih =>
    intro f hn hf
    rw [List.map_cons, List.nodup_cons] at hn
    by_cases he : a.name = f.name
    · rw [List.find?_cons_of_pos (by simp [he])]
      rcases List.mem_cons.1 hf with rfl | hf
      · rfl
      · exact absurd (by rw [he]; exact List.mem_map.2 ⟨f, hf, rfl⟩) hn.1
    · rw [List.find?_cons_of_neg (by simp [he])]
      rcases List.mem_cons.1 hf with rfl | hf
      · exact absurd rfl he
      · exact ih hn.2 hf

private theorem real_absent {D : Decls} (hv : D.Valid) (hm : Bool) (d : Decl) :
    lookup (fns hm D) (real hm d) = none := by
  unfold lookup
  rw [List.find?_eq_none]
  intro f hf
  simp only [decide_eq_true_eq]
  intro he
  obtain ⟨t, ht, hft⟩ := List.mem_flatMap.1 hf
  have hn := fn_names (hm := hm) (t := t) (List.mem_map.2 ⟨f, hft, rfl⟩)
  rw [he] at hn
  unfold real rename at hn
  by_cases hr : (hm && decide (w! "__real_" ++ d.name ∈ RENAMED)) = true
  · rw [if_pos hr] at hn
    simp only [Bool.and_eq_true, decide_eq_true_eq] at hr
    rcases hn with hn | ⟨hn, hs⟩
    · have : wrapN t.2 = wrapR d := hn.symm
      exact wrapN_ne (hv.reserved _ (tagged_all ht)) this
    · have h2 : t.2.name = d.name := wrapR_inj (c := t.2) (d := d) hn.symm
      have h3 : t.2 ∈ D.sub ++ D.subfree := by
        rcases mem_tagged ht with ⟨h, _⟩ | ⟨_, h⟩ | ⟨_, h⟩ | ⟨h, _⟩
        · rw [h] at hs; simp at hs
        · exact List.mem_append_left _ h
        · exact List.mem_append_right _ h
        · rw [h] at hs; simp at hs
      have h4 := hv.other _ h3
      rw [h2] at h4
      refine h4 ?_
      have h5 : RENAMED = FAMILY.map (w! "__real_" ++ ·) := rfl
      rw [h5] at hr
      obtain ⟨x, hx, hxe⟩ := List.mem_map.1 hr.2
      rw [← List.append_cancel_left hxe]
      exact hx
  · rw [if_neg hr] at hn
    rcases hn with hn | ⟨hn, _⟩
    · simp [wrapN] at hn
    · simp [wrapR] at hn

/-! ## C142 -/

/-- The function that a wrapper ends up calling: the program's own, or, for the standard allocator in the program itself, the one that indexes. -/
def target (hasMalloc : Bool) (n : W) : W := if hasMalloc && decide (n ∈ FAMILY) then w! "__wrap___real_" ++ n else w! "__real_" ++ n

private theorem real_target (hm : Bool) (d : Decl) : real hm d = target hm d.name := by
  unfold real rename target
  have h5 : RENAMED = FAMILY.map (w! "__real_" ++ ·) := rfl
  have : (w! "__real_" ++ d.name ∈ RENAMED) ↔ d.name ∈ FAMILY := by
    rw [h5, List.mem_map]
    constructor
    · rintro ⟨x, hx, he⟩; rw [← List.append_cancel_left he]; exact hx
    · intro h; exact ⟨_, h, rfl⟩
  simp only [this]
  by_cases hh : (hm && decide (d.name ∈ FAMILY)) = true
  · rw [if_pos hh, if_pos hh]; rfl
  · rw [if_neg hh, if_neg hh]

/-- The type of a function. -/
def typeIn (fs : List CFn) (n : W) : Option (List Ty × Ty) := (lookup fs n).map fun f => (f.params, f.ret)

/-- Whether the program defines `malloc`. -/
def definesMalloc (D : Decls) (syms : List Sym) : Bool :=
  decide (w! "malloc" ∈ D.all.map (·.name)) && syms.any fun s => s.letter != 'U' && decide (s.name = w! "malloc")

/-- **C142 (partial).** For every declared function there is one wrapper, with the parameters and result declared; the linker is asked to put it in the
function's place. A wrapper of an allocation function notes the value of the marked argument and calls the function with all arguments in order, once; for a
suballocator what is returned is then indexed. A wrapper of a free function calls it with all arguments; for a suballocator, the marked argument
is unindexed first. Partial: there are no functions that are to leave the size noted (`sz_never`), each function is declared once, and has one marked
argument (free functions of the heap need none). -/
theorem wrapped_partial (D : Decls) (e : Env) (syms : List Sym) (hv : D.Valid) (h : D.In e) :
    ∃ fs, generate e syms = some (fs, D.all.map fun d => w! "-Wl,-plugin-opt=" ++ d.name) ∧ (fs.map (·.name)).Nodup ∧
      (∀ d ∈ D.dflt ++ D.alloc ++ D.sub, typeIn fs (w! "__wrap_" ++ d.name) = some (d.params.map (·.ty), d.ret.ty)) ∧
      (∀ d ∈ D.dfltFree ++ D.free ++ D.subfree, typeIn fs (w! "__wrap_" ++ d.name) = some (d.params.map (·.ty), .void)) ∧
      (∀ d ∈ D.dflt ++ D.alloc, ∀ args : List Nat, args.length = d.params.length →
        ∃ v, (v, true) ∈ args.zip (d.params.map (·.marked)) ∧
          call fs (w! "__wrap_" ++ d.name) args = some [.note v, .call (target (definesMalloc D syms) d.name) args]) ∧
      (∀ d ∈ D.sub, ∀ args : List Nat, args.length = d.params.length →
        ∃ v, (v, true) ∈ args.zip (d.params.map (·.marked)) ∧
          call fs (w! "__wrap_" ++ d.name) args = some [.note v, .call (w! "__real_" ++ d.name) args, .index]) ∧
      (∀ d ∈ D.dfltFree ++ D.free, ∀ args : List Nat, args.length = d.params.length →
        call fs (w! "__wrap_" ++ d.name) args = some [.call (target (definesMalloc D syms) d.name) args]) ∧
      (∀ d ∈ D.subfree, ∀ args : List Nat, args.length = d.params.length →
        ∃ v, (v, true) ∈ args.zip (d.params.map (·.marked)) ∧
          call fs (w! "__wrap_" ++ d.name) args = some [.unindex v, .call (w! "__real_" ++ d.name) args]) := by
  have hmal : decide (w! "malloc" ∈ definedAmong syms (D.all.map (·.name))) = definesMalloc D syms := by
    unfold definedAmong definesMalloc
    rw [Bool.eq_iff_iff]
    simp only [decide_eq_true_eq, List.mem_map, List.mem_filter, Bool.and_eq_true, List.any_eq_true]
    constructor
    · rintro ⟨s, ⟨⟨h1, h2⟩, h3⟩, h4⟩
      exact ⟨by rw [← h4]; exact h3, s, h1, h2, h4⟩
    · rintro ⟨h1, s, h2, h3, h4⟩
      exact ⟨s, ⟨⟨h2, h3⟩, by rw [h4]; exact h1⟩, h4⟩
  generalize hm : definesMalloc D syms = m at hmal
  have hn := fns_nodup hv m
  have find : ∀ {t : Macro × Decl} {f : CFn}, t ∈ tagged D → f ∈ fnsOf m t.1 t.2 → lookup (fns m D) f.name = some f :=
    fun ht hf => find_name hn (List.mem_flatMap.2 ⟨_, ht, hf⟩)
  have tc : ∀ d ∈ D.dflt ++ D.alloc, (Macro.caller, d) ∈ tagged D := fun d hd =>
    List.mem_append_left _ (List.mem_append_left _ (List.mem_append_left _ (List.mem_map.2 ⟨d, hd, rfl⟩)))
  have ts : ∀ d ∈ D.sub, (Macro.suballoc, d) ∈ tagged D := fun d hd =>
    List.mem_append_left _ (List.mem_append_left _ (List.mem_append_right _ (List.mem_map.2 ⟨d, hd, rfl⟩)))
  have tb : ∀ d ∈ D.subfree, (Macro.subfree, d) ∈ tagged D := fun d hd =>
    List.mem_append_left _ (List.mem_append_right _ (List.mem_map.2 ⟨d, hd, rfl⟩))
  have tf : ∀ d ∈ D.dfltFree ++ D.free, (Macro.free, d) ∈ tagged D := fun d hd => List.mem_append_right _ (List.mem_map.2 ⟨d, hd, rfl⟩)
  have other : ∀ d ∈ D.sub ++ D.subfree, real m d = w! "__real_" ++ d.name := by
    intro d hd
    rw [real_target, target, if_neg (by simp [hv.other d hd])]
  have mark : ∀ d ∈ D.dflt ++ D.alloc ++ D.sub ++ D.subfree, ∀ args : List Nat, args.length = d.params.length →
      ∃ v, (v, true) ∈ args.zip (d.params.map (·.marked)) ∧ args[d.at]? = some v := by
    intro d hd args hl
    obtain ⟨a, p, b, h1, h2, h3⟩ := hv.mark d hd
    have hat := at_eq h1 h2 h3
    have hlt : a.length < args.length := by rw [hl, h1]; simp
    refine ⟨args[a.length], ?_, by rw [hat]; exact List.getElem?_eq_getElem hlt⟩
    rw [List.mem_iff_getElem?]
    refine ⟨a.length, ?_⟩
    rw [List.getElem?_zip_eq_some]
    refine ⟨List.getElem?_eq_getElem hlt, ?_⟩
    rw [h1]
    simp [h2]
  refine ⟨fns m D, ?_, hn, ?_, ?_, ?_, ?_, ?_, ?_⟩
  · unfold generate pluginOpts
    rw [wrapped_eq hv h, written_eq hv h]
    simp only [hmal, compiled_eq hv m, List.map_map, Function.comp_def]
  · intro d hd
    unfold typeIn
    rcases List.mem_append.1 hd with hd | hd
    · have := find (tc d hd) (f := ⟨wrapN d, d.params.map (·.ty), d.ret.ty, .noting (real m d) d.at false⟩) (by simp [fnsOf])
      simp only [wrapN] at this
      rw [this]; rfl
    · have := find (ts d hd) (f := ⟨wrapN d, d.params.map (·.ty), d.ret.ty, .noting (wrapR d) d.at false⟩) (by simp [fnsOf])
      simp only [wrapN] at this
      rw [this]; rfl
  · intro d hd
    unfold typeIn
    rcases List.mem_append.1 hd with hd | hd
    · have := find (tf d hd) (f := ⟨wrapN d, d.params.map (·.ty), .void, .freeing (real m d)⟩) (by simp [fnsOf])
      simp only [wrapN] at this
      rw [this]; rfl
    · have := find (tb d hd) (f := ⟨wrapN d, d.params.map (·.ty), .void, .freeing (wrapR d)⟩) (by simp [fnsOf])
      simp only [wrapN] at this
      rw [this]; rfl
  · intro d hd args hl
    obtain ⟨v, hv1, hv2⟩ := mark d (List.mem_append_left _ (List.mem_append_left _ hd)) args hl
    refine ⟨v, hv1, ?_⟩
    have := find (tc d hd) (f := ⟨wrapN d, d.params.map (·.ty), d.ret.ty, .noting (real m d) d.at false⟩) (by simp [fnsOf])
    simp only [wrapN] at this
    unfold call callInner
    rw [this]
    have ha := real_absent hv m d
    rw [real_target] at ha
    simp only [List.length_map, hl, if_true, hv2, real_target, ha]
  · intro d hd args hl
    obtain ⟨v, hv1, hv2⟩ := mark d (List.mem_append_left _ (List.mem_append_right _ hd)) args hl
    refine ⟨v, hv1, ?_⟩
    have h1 := find (ts d hd) (f := ⟨wrapN d, d.params.map (·.ty), d.ret.ty, .noting (wrapR d) d.at false⟩) (by simp [fnsOf])
    have h2 := find (ts d hd) (f := ⟨wrapR d, d.params.map (·.ty), d.ret.ty, .indexing (real m d)⟩) (by simp [fnsOf])
    simp only [wrapN] at h1
    simp only at h2
    unfold call callInner
    rw [h1]
    simp only [List.length_map, hl, if_true, hv2, h2, other d (List.mem_append_left _ hd)]
  · intro d hd args hl
    have := find (tf d hd) (f := ⟨wrapN d, d.params.map (·.ty), .void, .freeing (real m d)⟩) (by simp [fnsOf])
    simp only [wrapN] at this
    unfold call callInner
    rw [this]
    have ha := real_absent hv m d
    rw [real_target] at ha
    simp only [List.length_map, hl, if_true, real_target, ha]
  · intro d hd args hl
    obtain ⟨v, hv1, hv2⟩ := mark d (List.mem_append_right _ hd) args hl
    refine ⟨v, hv1, ?_⟩
    have h1 := find (tb d hd) (f := ⟨wrapN d, d.params.map (·.ty), .void, .freeing (wrapR d)⟩) (by simp [fnsOf])
    have h2 := find (tb d hd) (f := ⟨wrapR d, d.params.map (·.ty), .void, .unindexing (real m d) d.at⟩) (by simp [fnsOf])
    simp only [wrapN] at h1
    simp only at h2
    unfold call callInner
    rw [h1]
    simp only [List.length_map, hl, if_true, hv2, h2, other d (List.mem_append_right _ hd)]

/-! ## Where it goes wrong -/

private theorem mapAll_mem {α β : Type} {f : α → Option β} : ∀ {l : List α} {r : List β}, mapAll f l = some r → ∀ a ∈ l, ∃ b ∈ r, f a = some b := by
  intro l
  induction l with
  | nil => intro r _ a ha; simp at ha
  | cons c t ih =>
    intro r h a ha
    rw [mapAll] at h
    cases hc : f c with
    | none => rw [hc] at h; simp at h
    | some v =>
      rw [hc] at h
      simp only at h
      cases ht : mapAll f t with
      | none => rw [ht] at h; simp at h
      | some r' =>
        rw [ht] at h
        simp only [Option.some.injEq] at h
        subst h
        rcases List.mem_cons.1 ha with rfl | ha
        · exact ⟨v, List.mem_cons_self .., hc⟩
        · obtain ⟨b, hb, he⟩ := ih ht a ha
          exact ⟨b, List.mem_cons_of_mem _ hb, he⟩

/-- No program for which a function is declared that is to leave the size noted can be linked: the macro for it does not exist. -/
theorem sz_never (e : Env) (syms : List Sym) (w : W) (hw : w ∈ splitWords [] e.allocsz) (hp : w ∉ e.plain) : generate e syms = none := by
  unfold generate
  cases h1 : wrapped e with
  | none => rfl
  | some ns =>
    cases h2 : written e with
    | none => rfl
    | some is =>
      simp only
      have hc : ∀ hm, compiled hm is = none := by
        intro hm
        unfold written at h2
        cases ha : mapAll (allocInv e) e.allocs with
        | none => rw [ha] at h2; simp at h2
        | some a =>
          cases hb : mapAll subfreeInv (splitWords [] e.subfree) with
          | none => rw [ha, hb] at h2; simp at h2
          | some b =>
            cases hf : mapAll freeInv e.frees with
            | none => rw [ha, hb, hf] at h2; simp at h2
            | some f =>
              rw [ha, hb, hf] at h2
              simp only [Option.some.injEq] at h2
              obtain ⟨i, hi, he⟩ := mapAll_mem ha w (by unfold Env.allocs; exact List.mem_append_right _ hw)
              have hmac : i.mac = .size := by
                unfold allocInv at he
                cases hd : matchDecl restRet w with
                | none => rw [hd] at he; simp at he
                | some r =>
                  rcases r with ⟨n, s, r⟩
                  rw [hd] at he
                  simp only at he
                  cases hu : firstUpper s with
                  | none => rw [hu] at he; simp at he
                  | some k =>
                    rw [hu] at he
                    simp only [if_neg hp, if_pos hw, Option.some.injEq] at he
                    rw [← he]
              unfold compiled
              cases hx : mapAll (expand hm) is with
              | none => rfl
              | some fs =>
                obtain ⟨g, _, hg⟩ := mapAll_mem hx i (by rw [← h2]; exact List.mem_append_left _ (List.mem_append_left _ hi))
                unfold expand at hg
                rw [hmac] at hg
                cases hps : paramsOf i.sig with
                | none => rw [hps] at hg; simp at hg
                | some ps => rw [hps] at hg; simp at hg
      rw [hc]

/-- The declarations that C has (tools/lang/c/lib/allocscc.py:32-36), and others. -/
private def C (alloc suballoc allocsz free subfree : W) : Env :=
  ⟨[w! "malloc(Z)p", w! "calloc(zZ)p", w! "realloc(pZ)p", w! "memalign(zZ)p"], [w! "free(P)"], alloc, suballoc, allocsz, free, subfree⟩

/-- Declaring `malloc` again, though C has it, makes the link fail. -/
theorem again_fails : generate (C w! "malloc(Z)p" [] [] [] []) [] = none := by decide +kernel

/-- So does a function without a size, which is what allocates one object of a type, -/
theorem unsized_fails : generate (C w! "make_thing(p)p" [] [] [] []) [] = none ∧ generate (C w! "make_thing()p" [] [] [] []) [] = none := by decide +kernel

/-- one with two marked arguments, -/
theorem marks_fail : generate (C w! "take(PZ)p" [] [] [] []) [] = none := by decide +kernel

/-- one with a type that has no letter, -/
theorem letters_fail : generate (C w! "take(dZ)p" [] [] [] []) [] = none := by decide +kernel

/-- and a suballocator's free function that does not name the allocation function. -/
theorem arrow_fails : generate (C [] w! "take(Z)p" [] [] w! "give(P)") [] = none := by decide +kernel

/-- A program with a weak reference to `malloc`, and no definition, is taken for one that defines it (`nm` shows it as `w`). -/
theorem weak_fails : ((generate (C [] [] [] [] []) [⟨'w', w! "malloc"⟩]).bind fun r => call r.1 w! "__wrap_malloc" [5]) =
    some [.note 5, .call w! "__wrap___real_malloc" [5]] := by decide +kernel

/-- The size noted for `calloc` is that of one element. -/
theorem calloc_fails : ((generate (C [] [] [] [] []) []).bind fun r => call r.1 w! "__wrap_calloc" [10, 8]) =
    some [.note 8, .call w! "__real_calloc" [10, 8]] := by decide +kernel

/-! ## Symbols made global -/

theorem upper_not_lower (c : Char) : c.toUpper.isLower = false := by
  unfold Char.toUpper
  split
  · rename_i h
    obtain ⟨h1, h2⟩ := h
    simp only [Char.isLower, Bool.and_eq_false_iff, decide_eq_false_iff_not, ge_iff_le]
    left
    intro h3
    rw [UInt32.le_iff_toNat_le] at h1 h2 h3
    simp only [UInt32.toNat_add] at h3
    have e1 : 'a'.val.toNat = 97 := rfl
    have e2 : 'z'.val.toNat = 122 := rfl
    have e3 : ('A'.val - 'a'.val).toNat = 4294967264 := rfl
    rw [e1] at h1 h3
    rw [e2] at h2
    rw [e3] at h3
    omega
  · rename_i h
    simp only [Char.isLower, Bool.and_eq_false_iff, decide_eq_false_iff_not, ge_iff_le]
    by_cases h1 : 'a'.val ≤ c.val
    · right; exact fun h2 => h ⟨h1, h2⟩
    · left; exact h1

/-- After an object was made, no function that is to be wrapped is local to it or shown as local, and all else is as it was. -/
theorem fixup_exact (names : List W) (syms : List ObjSym) (h : ∀ s ∈ syms, s.defined = true → s.isLocal = true → s.letter.isLower = true) :
    (∀ s ∈ fixup names syms, s.defined = true → s.name ∈ names → s.isLocal = false ∧ s.letter.isLower = false) ∧
    (fixup names syms).map (fun s => (s.name, s.defined)) = syms.map (fun s => (s.name, s.defined)) ∧
    (fixup names syms).filter (fun s => decide (s.name ∉ names)) = syms.filter (fun s => decide (s.name ∉ names)) := by
  unfold fixup
  by_cases hc : (syms.any fun s => s.defined && decide (s.name ∈ names) && s.letter.isLower) = true
  · rw [if_pos hc]
    refine ⟨?_, ?_, ?_⟩
    · intro s hs _ hn
      obtain ⟨r, hr, he⟩ := List.mem_map.1 hs
      by_cases hm : r.name ∈ names
      · rw [if_pos hm] at he; rw [← he]; exact ⟨rfl, upper_not_lower _⟩
      · rw [if_neg hm] at he; rw [he] at hm; exact absurd hn hm
    · rw [List.map_map]
      refine List.map_congr_left fun s _ => ?_
      by_cases hm : s.name ∈ names <;> simp [hm]
    · clear hc h
      induction syms with
      | nil => rfl
      | cons a t ih =>
        by_cases hm : a.name ∈ names
        · rw [List.map_cons, if_pos hm, List.filter_cons_of_neg (by simp [hm]), List.filter_cons_of_neg (by simp [hm]), ih]
        · rw [List.map_cons, if_neg hm, List.filter_cons_of_pos (by simp [hm]), List.filter_cons_of_pos (by simp [hm]), ih]
  · rw [if_neg hc]
    refine ⟨?_, rfl, rfl⟩
    intro s hs hd hn
    have hlow : s.letter.isLower = false := by
      cases hl : s.letter.isLower with
      | false => rfl
      | true => exact absurd (List.any_eq_true.2 ⟨s, hs, by simp [hd, hn, hl]⟩) hc
    refine ⟨?_, hlow⟩
    by_cases hl : s.isLocal = true
    · rw [h s hs hd hl] at hlow; cases hlow
    · simpa using hl

/-! ## Cases -/

private instance (w : W) : Decidable (Ident w) := by unfold Ident; exact inferInstance

private def z : Param := ⟨.size, false⟩
private def Z : Param := ⟨.size, true⟩
private def ptr : Param := ⟨.ptr, false⟩
private def PTR : Param := ⟨.ptr, true⟩

/-- What C has, a wrapper, and a suballocator. -/
private def D0 : Decls :=
  ⟨[⟨w! "malloc", [Z], ptr, []⟩, ⟨w! "calloc", [z, Z], ptr, []⟩], [⟨w! "xmalloc", [Z], ptr, []⟩], [⟨w! "take", [ptr, Z, z], ptr, []⟩], [⟨w! "free", [PTR], z, []⟩],
    [⟨w! "xfree", [ptr, ptr], z, []⟩], [⟨w! "give", [z, PTR], z, w! "take"⟩]⟩

private theorem D0_valid : D0.Valid := by
  refine ⟨by decide +kernel, by decide +kernel, by decide +kernel, by decide +kernel, by decide +kernel, ?_, by decide +kernel, by decide +kernel⟩
  intro d hd
  simp only [D0, List.cons_append, List.nil_append, List.mem_cons, List.not_mem_nil, or_false] at hd
  rcases hd with rfl | rfl | rfl | rfl | rfl
  · exact ⟨[], Z, [], rfl, rfl, by simp⟩
  · exact ⟨[z], Z, [], rfl, rfl, by simp [z]⟩
  · exact ⟨[], Z, [], rfl, rfl, by simp⟩
  · exact ⟨[ptr], Z, [z], rfl, rfl, by simp [z, ptr]⟩
  · exact ⟨[z], PTR, [], rfl, rfl, by simp [z]⟩

example : D0.In ⟨[w! "malloc(Z)p", w! "calloc(zZ)p"], [w! "free(P)"], w! "  xmalloc(Z)p", w! "take(pZz)p ", w! " ", w! "xfree(pp)", w! "give(zP)->take"⟩ :=
  ⟨by decide +kernel, by decide +kernel, .last 2 _, .cons 0 _ [] [] (.nil 1), .nil 1, .last 0 _, .last 0 _⟩


example : ((generate (C w! " xmalloc(Z)p  xcalloc(zZ)p" w! "take(pZi)p" [] w! "xfree(P)" w! "give(pP)->take") [⟨'T', w! "malloc"⟩, ⟨'U', w! "free"⟩]).map fun r =>
      ([w! "__wrap_xcalloc", w! "__wrap_take", w! "__wrap_give", w! "__wrap_xfree", w! "__wrap_malloc"].map (call r.1 · [3, 4]), r.2.length)) =
    some ([some [.note 4, .call w! "__real_xcalloc" [3, 4]], none, some [.unindex 4, .call w! "__real_give" [3, 4]], none, none], 10) := by decide +kernel

example : ((generate (C [] w! "take(pZi)p" [] [] []) [⟨'T', w! "malloc"⟩]).map fun r =>
      [call r.1 w! "__wrap_take" [3, 4, 5], call r.1 w! "__wrap_realloc" [1, 2], call r.1 w! "__wrap_free" [1]]) =
    some [some [.note 4, .call w! "__real_take" [3, 4, 5], .index], some [.note 2, .call w! "__wrap___real_realloc" [1, 2]],
      some [.call w! "__wrap___real_free" [1]]] := by decide +kernel

/-- Functions have at most 64 arguments. -/
example : paramsOf (List.replicate 64 'i') = some (List.replicate 64 .int) ∧ paramsOf (List.replicate 65 'i') = none := by decide +kernel

end Liballocs.StubGen
