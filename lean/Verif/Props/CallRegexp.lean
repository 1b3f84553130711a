import Verif.Model.CallRegexp
import Verif.Proofs.LdFlags
import Verif.Props.ObjdumpMeta
/-!
# C161: which instructions are taken for allocating ones

An instruction is written as a line: its address, the place in angle brackets, its bytes, and what it does. It is to be taken when it calls or jumps to something whose name begins
with a declared name, when it calls or jumps through a pointer, or when it is a call that is not yet bound. Nothing else is to be taken. What was declared is in the environment.
-/
namespace Liballocs.CallRegexp
open Liballocs.LinkArgs (Text)
open Liballocs.LdFlags (Re accepts_iff)

/-! ## Specification -/

/-- A lower-case hexadecimal digit. -/
def Hex (c : Char) : Prop := ('0' ≤ c ∧ c ≤ '9') ∨ ('a' ≤ c ∧ c ≤ 'f')

/-- What an instruction does, as text, to be taken: `known` are the names. -/
inductive Does (known : List Text) : Text → Prop where
  /-- a call or jump to something whose name begins with a known one -/
  | named (a k x n y : Text) : k = (w! "call") ∨ k = (w! "jmp") → n ∈ known → Does known (a ++ k ++ x ++ '<' :: n ++ y)
  /-- through a pointer -/
  | pointer (a k x y : Text) : k = (w! "call") ∨ k = (w! "jmp") → Does known (a ++ k ++ x ++ '*' :: y)
  /-- not bound -/
  | unbound (a x y : Text) : Does known (a ++ (w! " 00 00 00 00") ++ x ++ (w! "call") ++ y)

/-- A line to be taken. -/
def Taken (known : List Text) (line : Text) : Prop :=
  ∃ addr place what : Text, line = addr ++ ' ' :: '<' :: place ++ '>' :: what ∧ (∀ c ∈ addr, Hex c) ∧ '>' ∉ place ∧ Does known what

/-- A declared function: its name, the letters of its arguments, and that of its result. -/
structure Decl where
  name : Text
  args : Text
  res : Option Char

def Decl.text (d : Decl) : Text := d.name ++ '(' :: (d.args ++ ')' :: d.res.toList)

/-- A name is of letters, digits and underscores. -/
def Decl.Ok (d : Decl) : Prop :=
  d.name ≠ [] ∧ (∀ c ∈ d.name, c.isAlphanum = true ∨ c = '_') ∧ (∀ c ∈ d.args, c ≠ ')' ∧ c ≠ '\\') ∧ (∀ c ∈ d.res, c.isAlpha = true)

/-- Declarations with blanks between them, and perhaps after the last. -/
inductive Row : List Decl → Text → Prop where
  | last (d : Decl) (g : Nat) : d.Ok → Row [d] (d.text ++ List.replicate g ' ')
  | cons (d : Decl) (g : Nat) (ds : List Decl) (t : Text) : d.Ok → Row ds t → Row (d :: ds) (d.text ++ (' ' :: List.replicate g ' ' ++ t))

/-- A variable that is not set, or is empty, or has declarations. -/
def Holds (x : Text) (ds : List Decl) : Prop := (x = [] ∧ ds = []) ∨ Row ds x

/-- What is always declared. -/
def standard : List Decl :=
  [⟨w! "malloc", ['Z'], some 'p'⟩, ⟨w! "calloc", ['z', 'Z'], some 'p'⟩, ⟨w! "realloc", ['p', 'Z'], some 'p'⟩, ⟨w! "memalign", ['z', 'Z'], some 'p'⟩, ⟨w! "alloca", ['Z'], some 'p'⟩]

/-- A declared function is known by its name and by that of its wrapper. -/
def Decl.names (d : Decl) : List Text := [d.name, (w! "__wrap_") ++ d.name]

/-! ## Reading an expression -/

theorem run_append : ∀ (a b : Text) (s : State), run s (a ++ b) = (run s a).bind fun s' => run s' b
  | [], b, s => rfl
  | c :: a, b, s => by
    rw [List.cons_append, run, run]
    cases step s c with
    | none => rfl
    | some s' => exact run_append a b s'

theorem stepPlain_lit {c : Char} (h : isMeta c = false) (s : State) : stepPlain s c = some { s with top := s.top.add (.chr c) } := by
  unfold stepPlain
  split <;> first | rfl | (exact absurd h (by decide))

theorem run_escape : ∀ (l : Text) (f : Frame) (st : List Frame),
    run ⟨.plain, f, st⟩ (escapeE l) = some ⟨.plain, ⟨f.alts, f.cur ++ l.map .chr⟩, st⟩
  | [], f, st => by simp [escapeE, run]
  | c :: l, f, st => by
    have hl := run_escape l (f.add (.chr c)) st
    by_cases h : isMeta c = true
    · have : escapeE (c :: l) = '\\' :: c :: escapeE l := by simp [escapeE, h]
      rw [this, run]
      change run ⟨.esc, f, st⟩ (c :: escapeE l) = _
      rw [run]
      simp only [step, h, if_true]
      rw [hl]; simp [Frame.add]
    · have h' : isMeta c = false := by simpa using h
      have : escapeE (c :: l) = c :: escapeE l := by simp [escapeE, h']
      rw [this, run]
      simp only [step, stepPlain_lit h']
      rw [hl]; simp [Frame.add]

/-- The text of a line as an expression. -/
def lit (l : Text) : Re := seqOf (l.map .chr)

def group (l : Text) : List Re := [altOf [l.map .chr]]

theorem run_group (l : Text) (f : Frame) (st : List Frame) (t : Text) :
    run ⟨.plain, f, st⟩ ('(' :: (escapeE l ++ ')' :: t)) = run ⟨.plain, f.add (altOf [l.map .chr]), st⟩ t := by
  rw [run]
  change run ⟨.plain, ⟨[], []⟩, f :: st⟩ (escapeE l ++ ')' :: t) = _
  rw [run_append, run_escape, Option.bind_some, run]
  rfl

theorem run_alts : ∀ (ls : List Text) (a : List (List Re)) (st : List Frame), ls ≠ [] →
    ∃ f : Frame, run ⟨.plain, ⟨a, []⟩, st⟩ (alts ls) = some ⟨.plain, f, st⟩ ∧ f.alts ++ [f.cur] = a ++ ls.map group
  | [], _, _, h => absurd rfl h
  | [l], a, st, _ => by
    refine ⟨⟨a, group l⟩, ?_, by simp⟩
    rw [alts, run_group, run]; rfl
  | l :: m :: ls, a, st, _ => by
    obtain ⟨f, h1, h2⟩ := run_alts (m :: ls) (a ++ [group l]) st (by simp)
    refine ⟨f, ?_, by rw [h2]; simp⟩
    rw [alts, run_group]
    · rw [run]; exact h1
    · simp

/-! ## Languages -/

theorem lang_chr (c : Char) (s : Text) : (Re.chr c).Lang s ↔ s = [c] := by
  simp only [Re.chr, Re.Lang, decide_eq_true_eq]
  constructor
  · rintro ⟨d, h, e⟩; rw [h, e]
  · intro h; exact ⟨c, h, rfl⟩

theorem lang_starCls (p : Char → Bool) : ∀ s : Text, (Re.star (.cls p)).Lang s ↔ ∀ c ∈ s, p c = true := by
  intro s
  constructor
  · rintro ⟨l, h, hl⟩ c hc
    rw [h] at hc
    obtain ⟨x, hx, hcx⟩ := List.mem_flatten.1 hc
    obtain ⟨d, h1, h2⟩ := hl x hx
    rw [h1] at hcx
    rw [List.mem_singleton.1 hcx]; exact h2
  · intro h
    refine ⟨s.map fun c => [c], ?_, ?_⟩
    · induction s with
      | nil => rfl
      | cons c s ih => simp only [List.map_cons, List.flatten_cons, List.singleton_append]; rw [← ih fun d hd => h d (List.mem_cons_of_mem _ hd)]
    · intro x hx
      obtain ⟨c, hc, e⟩ := List.mem_map.1 hx
      exact ⟨c, e.symm, h c hc⟩

theorem lang_any (s : Text) : (Re.star (.cls fun _ => true)).Lang s ↔ True := by rw [lang_starCls]; simp

theorem lang_altOf : ∀ (rs : List (List Re)) (s : Text), (altOf rs).Lang s ↔ ∃ r ∈ rs, (seqOf r).Lang s
  | [], s => by simp [altOf, Re.Lang]
  | r :: rs, s => by simp [altOf, Re.Lang, lang_altOf rs s]

theorem lang_cons (r : Re) (rs : List Re) (s : Text) : (seqOf (r :: rs)).Lang s ↔ ∃ u v, s = u ++ v ∧ r.Lang u ∧ (seqOf rs).Lang v := Iff.rfl

theorem lang_nil (s : Text) : (seqOf []).Lang s ↔ s = [] := Iff.rfl

theorem lang_app : ∀ (r q : List Re) (s : Text), (seqOf (r ++ q)).Lang s ↔ ∃ u v, s = u ++ v ∧ (seqOf r).Lang u ∧ (seqOf q).Lang v
  | [], q, s => by
    rw [List.nil_append]
    constructor
    · intro h; exact ⟨[], s, rfl, rfl, h⟩
    · rintro ⟨u, v, h, h1, h2⟩
      rw [h, (lang_nil u).1 h1]; exact h2
  | a :: r, q, s => by
    rw [List.cons_append, lang_cons]
    constructor
    · rintro ⟨u, v, h, h1, h2⟩
      obtain ⟨u', v', g, g1, g2⟩ := (lang_app r q v).1 h2
      exact ⟨u ++ u', v', by rw [h, g, List.append_assoc], ⟨u, u', rfl, h1, g1⟩, g2⟩
    · rintro ⟨u, v, h, ⟨u1, u2, g, g1, g2⟩, h2⟩
      exact ⟨u1, u2 ++ v, by rw [h, g, List.append_assoc], g1, (lang_app r q _).2 ⟨u2, v, rfl, g2, h2⟩⟩

theorem lang_lit : ∀ (l s : Text), (seqOf (l.map .chr)).Lang s ↔ s = l
  | [], s => Iff.rfl
  | c :: l, s => by
    rw [List.map_cons, lang_cons]
    constructor
    · rintro ⟨u, v, h, h1, h2⟩
      rw [h, (lang_chr c u).1 h1, (lang_lit l v).1 h2]; rfl
    · intro h; exact ⟨[c], l, h, (lang_chr c _).2 rfl, (lang_lit l l).2 rfl⟩

theorem lang_one (r : Re) (s : Text) : (seqOf [r]).Lang s ↔ r.Lang s := by
  rw [lang_cons]
  constructor
  · rintro ⟨u, v, h, h1, h2⟩; rw [h, (lang_nil v).1 h2, List.append_nil]; exact h1
  · intro h; exact ⟨s, [], by simp, h, rfl⟩

/-- An escaped text, as an expression, is the expression for just this text. -/
theorem escape_literal (l s : Text) : ∃ r, parse ('^' :: escapeE l) = some r ∧ (r.accepts s = true ↔ s = l) := by
  refine ⟨seqOf (l.map .chr), ?_, ?_⟩
  · simp only [parse, run_escape, List.nil_append]
  · rw [accepts_iff, lang_lit]

/-! ## The expression -/

def anys : Re := .star (.cls fun _ => true)

/-- The whole, with the known names. -/
def whole (known : List Text) : List Re :=
  [altOf [[.star (bracket false [('a', 'f'), ('0', '9')])]], .chr ' ', .chr '<', altOf [[.star (bracket true [('>', '>')])]], .chr '>', anys,
    altOf [[altOf [(w! "call").map .chr, (w! "jmp").map .chr], anys, altOf [[.chr '<', altOf (known.map group)], [anys, .chr '*']]],
      anys :: ((w! " 00 00 00 00").map .chr ++ anys :: (w! "call").map .chr)]]

theorem awk_double : ∀ s : Text, awkV (double s) = some s
  | [] => rfl
  | c :: s => by
    by_cases h : c = '\\'
    · subst h
      have : double ('\\' :: s) = '\\' :: '\\' :: double s := rfl
      rw [this, awkV, if_pos rfl, awk_double s]; rfl
    · have : double (c :: s) = c :: double s := by simp [double, h]
      rw [this, awkV, awk_double s]
      · rfl
      · intro h1; exact absurd h1 h
      · intro d t h1; exact absurd h1 h

theorem rewriteN_ne {n : Nat} {s : Text} (h : s ≠ []) : rewriteN (n + 1) s ≠ [] := by
  unfold rewriteN
  split
  · simp
  · exact absurd rfl h
  · simp

theorem lines_ne : ∀ (s acc : Text), acc ++ s ≠ [] → lines acc s ≠ []
  | [], acc, h => by rw [lines, if_neg (by simpa using h)]; simp
  | c :: s, acc, _ => by
    rw [lines]
    split
    · simp
    · exact lines_ne s _ (by simp)

theorem names_ne (v : Vars) : names v ≠ [] := by
  refine lines_ne _ _ ?_
  rw [List.nil_append]
  exact rewriteN_ne (by simp [descriptors])

def outer : List Frame :=
  [⟨[], [.chr '<']⟩, ⟨[], [altOf [(w! "call").map .chr, (w! "jmp").map .chr], anys]⟩, ⟨[], (whole []).take 6⟩]

theorem run_before : run ⟨.plain, ⟨[], []⟩, []⟩ (w! "([0-9a-f]*) <([^>]*)>.*((call|jmp).*(<(") = some ⟨.plain, ⟨[], []⟩, outer⟩ := by
  rfl

theorem run_after (f : Frame) : run ⟨.plain, f, outer⟩ (w! ")|.*\\*)|.* 00 00 00 00.*call)") =
    some ⟨.plain, ⟨[], (whole []).take 6 ++ [altOf [[altOf [(w! "call").map .chr, (w! "jmp").map .chr], anys, altOf [[.chr '<', f.close], [anys, .chr '*']]],
      anys :: ((w! " 00 00 00 00").map .chr ++ anys :: (w! "call").map .chr)]]⟩, []⟩ := by
  rfl

theorem parse_regexp (v : Vars) : parse (regexp v) = some (seqOf (whole (builtin ++ names v))) := by
  obtain ⟨f, h1, h2⟩ := run_alts builtin [] outer (by simp [builtin])
  obtain ⟨g, g1, g2⟩ := run_alts (names v) (builtin.map group) outer (names_ne v)
  have hr : run ⟨.plain, ⟨[], []⟩, []⟩ ((w! "([0-9a-f]*) <([^>]*)>.*((call|jmp).*(<(") ++ (alts builtin ++ '|' :: (alts (names v) ++ w! ")|.*\\*)|.* 00 00 00 00.*call)"))) =
      some ⟨.plain, ⟨[], whole (builtin ++ names v)⟩, []⟩ := by
    rw [run_append, run_before, Option.bind_some, run_append, h1, Option.bind_some, run]
    have : step ⟨.plain, f, outer⟩ '|' = some ⟨.plain, ⟨builtin.map group, []⟩, outer⟩ := by
      change some (State.mk .plain ⟨f.alts ++ [f.cur], []⟩ outer) = _
      rw [h2, List.nil_append]
    rw [this]
    dsimp only
    rw [run_append, g1, Option.bind_some, run_after, Frame.close, g2, ← List.map_append]
    rfl
  have he : regexp v = '^' :: ((w! "([0-9a-f]*) <([^>]*)>.*((call|jmp).*(<(") ++ (alts builtin ++ '|' :: (alts (names v) ++ w! ")|.*\\*)|.* 00 00 00 00.*call)"))) := rfl
  rw [he, parse, hr]

theorem hex_iff (c : Char) : (if false then !inItems [('a', 'f'), ('0', '9')] c else inItems [('a', 'f'), ('0', '9')] c) = true ↔ Hex c := by
  simp [inItems, Hex, or_comm]

theorem close_iff (c : Char) : (if true then !inItems [('>', '>')] c else inItems [('>', '>')] c) = true ↔ c ≠ '>' := by
  simp only [inItems, if_true, List.any_cons, List.any_nil, Bool.or_false, Bool.not_eq_true', decide_eq_false_iff_not]
  constructor
  · intro h e; rw [e] at h; exact h ⟨Char.le_refl _, Char.le_refl _⟩
  · intro h e; exact h (Char.le_antisymm e.2 e.1)

theorem lang_known (known : List Text) (s : Text) : (altOf (known.map group)).Lang s ↔ s ∈ known := by
  rw [lang_altOf]
  constructor
  · rintro ⟨r, hr, h⟩
    obtain ⟨l, hl, e⟩ := List.mem_map.1 hr
    rw [← e, group, lang_one, lang_altOf] at h
    obtain ⟨q, hq, h⟩ := h
    rw [List.mem_singleton.1 hq, lang_lit] at h
    rw [h]; exact hl
  · intro h
    refine ⟨group s, List.mem_map.2 ⟨s, h, rfl⟩, ?_⟩
    rw [group, lang_one, lang_altOf]
    exact ⟨_, List.mem_singleton.2 rfl, (lang_lit s s).2 rfl⟩

theorem lang_callJmp (s : Text) : (altOf [(w! "call").map .chr, (w! "jmp").map .chr]).Lang s ↔ s = (w! "call") ∨ s = (w! "jmp") := by
  rw [lang_altOf]
  constructor
  · rintro ⟨r, hr, h⟩
    rcases List.mem_cons.1 hr with e | hr
    · rw [e] at h; exact Or.inl ((lang_lit _ s).1 h)
    · rw [List.mem_singleton.1 hr] at h; exact Or.inr ((lang_lit _ s).1 h)
  · rintro (h | h)
    · exact ⟨_, List.mem_cons_self .., (lang_lit _ s).2 h⟩
    · exact ⟨_, List.mem_cons_of_mem _ (List.mem_singleton.2 rfl), (lang_lit _ s).2 h⟩

/-- The last part of the expression, after any text and before any text. -/
theorem lang_does (known : List Text) (what : Text) : Does known what ↔ ∃ a b c, what = a ++ b ++ c ∧
    (altOf [[altOf [(w! "call").map .chr, (w! "jmp").map .chr], anys, altOf [[.chr '<', altOf (known.map group)], [anys, .chr '*']]],
      anys :: ((w! " 00 00 00 00").map .chr ++ anys :: (w! "call").map .chr)]).Lang b := by
  constructor
  · intro h
    cases h with
    | named a k x n y hk hn =>
      refine ⟨a, k ++ (x ++ ('<' :: n)), y, by simp, (lang_altOf _ _).2 ⟨_, List.mem_cons_self .., ?_⟩⟩
      refine ⟨k, _, rfl, (lang_callJmp k).2 hk, x, _, rfl, (lang_any x).2 trivial, ?_⟩
      exact (lang_one _ _).2 ((lang_altOf _ _).2 ⟨_, List.mem_cons_self .., ['<'], n, rfl, (lang_chr _ _).2 rfl, (lang_one _ _).2 ((lang_known _ _).2 hn)⟩)
    | pointer a k x y hk =>
      refine ⟨a, k ++ (x ++ ['*']), y, by simp, (lang_altOf _ _).2 ⟨_, List.mem_cons_self .., ?_⟩⟩
      refine ⟨k, _, rfl, (lang_callJmp k).2 hk, x, _, rfl, (lang_any x).2 trivial, ?_⟩
      refine (lang_one _ _).2 ((lang_altOf _ _).2 ⟨_, List.mem_cons_of_mem _ (List.mem_singleton.2 rfl), [], ['*'], rfl, (lang_any _).2 trivial, ?_⟩)
      exact (lang_one _ _).2 ((lang_chr _ _).2 rfl)
    | unbound a x y =>
      refine ⟨a, (w! " 00 00 00 00") ++ (x ++ (w! "call")), y, by simp only [List.append_assoc], (lang_altOf _ _).2 ⟨_, List.mem_cons_of_mem _ (List.mem_singleton.2 rfl), ?_⟩⟩
      refine ⟨[], _, rfl, (lang_any _).2 trivial, (lang_app _ _ _).2 ⟨_, _, rfl, (lang_lit _ _).2 rfl, x, _, rfl, (lang_any _).2 trivial, (lang_lit _ _).2 rfl⟩⟩
  · rintro ⟨a, b, c, h, hb⟩
    obtain ⟨r, hr, hb⟩ := (lang_altOf _ _).1 hb
    rcases List.mem_cons.1 hr with e | hr
    · rw [e] at hb
      obtain ⟨k, b', e1, hk, x, b'', e2, _, hb⟩ := hb
      have hk := (lang_callJmp k).1 hk
      obtain ⟨r', hr', hb⟩ := (lang_altOf _ _).1 ((lang_one _ _).1 hb)
      rcases List.mem_cons.1 hr' with e' | hr'
      · rw [e'] at hb
        obtain ⟨lt, n, e3, h3, hn⟩ := hb
        have hn := (lang_known _ _).1 ((lang_one _ _).1 hn)
        rw [(lang_chr _ _).1 h3] at e3
        have := Does.named (known := known) a k x n c hk hn
        rw [h, e1, e2, e3]
        simpa using this
      · rw [List.mem_singleton.1 hr'] at hb
        obtain ⟨x', t, e3, _, ht⟩ := hb
        rw [(lang_chr _ _).1 ((lang_one _ _).1 ht)] at e3
        have := Does.pointer (known := known) a k (x ++ x') c hk
        rw [h, e1, e2, e3]
        simpa using this
    · rw [List.mem_singleton.1 hr] at hb
      obtain ⟨x, b', e1, _, hb⟩ := hb
      obtain ⟨z, b'', e2, hz, x', t, e3, _, ht⟩ := (lang_app _ _ _).1 hb
      have hz := (lang_lit _ _).1 hz
      have ht := (lang_lit _ _).1 ht
      have := Does.unbound (known := known) (a ++ x) x' c
      rw [h, e1, e2, e3, hz, ht]
      simpa using this

theorem lang_whole (known : List Text) (line : Text) : (Re.seq (seqOf (whole known)) (.star (.cls fun _ => true))).Lang line ↔ Taken known line := by
  constructor
  · rintro ⟨u, w, h, ⟨g1, t1, e1, h1, sp, t2, e2, h2, lt, t3, e3, h3, g2, t4, e4, h4, gt, t5, e5, h5, x, t6, e6, _, h6⟩, _⟩
    rw [lang_one] at h6
    have h1 := (lang_one _ _).1 (by simpa [altOf, Re.Lang] using h1 : (seqOf [Re.star (bracket false [('a', 'f'), ('0', '9')])]).Lang g1)
    have h4 := (lang_one _ _).1 (by simpa [altOf, Re.Lang] using h4 : (seqOf [Re.star (bracket true [('>', '>')])]).Lang g2)
    rw [bracket, lang_starCls] at h1 h4
    refine ⟨g1, g2, x ++ t6 ++ w, ?_, fun c hc => (hex_iff c).1 (h1 c hc), fun hc => (close_iff _).1 (h4 _ hc) rfl, (lang_does _ _).2 ⟨x, t6, w, rfl, h6⟩⟩
    rw [h, e1, e2, e3, e4, e5, e6, (lang_chr _ _).1 h2, (lang_chr _ _).1 h3, (lang_chr _ _).1 h5]
    simp
  · rintro ⟨addr, place, what, h, ha, hp, hw⟩
    obtain ⟨a, b, c, e, hb⟩ := (lang_does _ _).1 hw
    refine ⟨addr ++ ([' '] ++ (['<'] ++ (place ++ (['>'] ++ (a ++ b))))), c, by rw [h, e]; simp, ?_, (lang_any c).2 trivial⟩
    refine ⟨addr, _, rfl, ?_, [' '], _, rfl, (lang_chr _ _).2 rfl, ['<'], _, rfl, (lang_chr _ _).2 rfl, place, _, rfl, ?_, ['>'], _, rfl, (lang_chr _ _).2 rfl,
      a, b, rfl, (lang_any a).2 trivial, (lang_one _ _).2 hb⟩
    · refine (lang_altOf _ _).2 ⟨_, List.mem_singleton.2 rfl, (lang_one _ _).2 ((lang_starCls _ _).2 fun c hc => (hex_iff c).2 (ha c hc))⟩
    · refine (lang_altOf _ _).2 ⟨_, List.mem_singleton.2 rfl, (lang_one _ _).2 ((lang_starCls _ _).2 fun c hc => (close_iff c).2 fun e => hp (e ▸ hc))⟩

/-- **C161** The script decides for every line, and takes just those that the names in its list ask for. -/
theorem taken_iff (v : Vars) (line : Text) : ∃ b, isSite v line = some b ∧ (b = true ↔ Taken (builtin ++ names v) line) := by
  refine ⟨_, by rw [isSite, awk_double, Option.bind_some, parse_regexp]; rfl, ?_⟩
  rw [accepts_iff, lang_whole]

/-! ## The names -/

theorem isId_iff (c : Char) : isId c = true ↔ c.isAlphanum = true ∨ c = '_' := by simp [isId]

theorem take_name {n : Text} (h : ∀ c ∈ n, isId c = true) (t : Text) : (n ++ '(' :: t).takeWhile isId = n ∧ (n ++ '(' :: t).dropWhile isId = '(' :: t := by
  induction n with
  | nil => exact ⟨rfl, rfl⟩
  | cons c n ih =>
    have hc := h c (List.mem_cons_self ..)
    obtain ⟨h1, h2⟩ := ih fun d hd => h d (List.mem_cons_of_mem _ hd)
    rw [List.cons_append, List.takeWhile_cons, List.dropWhile_cons, if_pos hc, if_pos hc, h1, h2]
    exact ⟨rfl, rfl⟩

theorem drop_args {n : Text} (h : ∀ c ∈ n, c ≠ ')' ∧ c ≠ '\\') (t : Text) : (n ++ ')' :: t).dropWhile (fun c => decide (c ≠ ')' ∧ c ≠ '\\')) = ')' :: t := by
  induction n with
  | nil => rfl
  | cons c n ih =>
    rw [List.cons_append, List.dropWhile_cons, if_pos (by simpa using h c (List.mem_cons_self ..))]
    exact ih fun d hd => h d (List.mem_cons_of_mem _ hd)

theorem descr_decl {d : Decl} (h : d.Ok) {t u : Text} (hg : gap t = some u) : descr (d.text ++ t) = some (d.name, u) := by
  obtain ⟨h1, h2, h3, h4⟩ := h
  obtain ⟨g1, g2⟩ := take_name (fun c hc => (isId_iff c).2 (h2 c hc)) (d.args ++ ')' :: d.res.toList ++ t)
  have e : d.text ++ t = d.name ++ '(' :: (d.args ++ ')' :: d.res.toList ++ t) := by simp [Decl.text]
  rw [e, descr, g1, g2]
  show (if d.name = [] then none else (sig (d.args ++ ')' :: d.res.toList ++ t)).map fun t => (d.name, t)) = _
  rw [if_neg h1, sig]
  have e2 : d.args ++ ')' :: d.res.toList ++ t = d.args ++ ')' :: (d.res.toList ++ t) := by simp
  rw [e2, drop_args h3]
  have hr : result (d.res.toList ++ t) = some u := by
    cases hres : d.res with
    | some c =>
      simp only [Option.toList, List.singleton_append, result]
      rw [if_pos (h4 c (by rw [hres]; rfl))]; exact hg
    | none =>
      simp only [Option.toList, List.nil_append]
      cases t with
      | nil => exact hg
      | cons c t =>
        rw [result]
        by_cases hc : c = ' '
        · subst hc; rw [if_neg (by decide)]; exact hg
        · rw [gap, if_neg hc] at hg; cases hg
  show (result (d.res.toList ++ t)).map _ = _
  rw [hr]; rfl

theorem drop_blanks (g : Nat) (t : Text) : (List.replicate g ' ' ++ t).dropWhile (fun d => decide (d = ' ')) = t.dropWhile (fun d => decide (d = ' ')) := by
  induction g with
  | zero => rfl
  | succ g ih => rw [List.replicate_succ, List.cons_append, List.dropWhile_cons, if_pos (by simp)]; exact ih

theorem text_head {d : Decl} (h : d.Ok) (t : Text) : (d.text ++ t).dropWhile (fun c => decide (c = ' ')) = d.text ++ t := by
  obtain ⟨h1, h2, _, _⟩ := h
  unfold Decl.text
  cases hn : d.name with
  | nil => exact absurd hn h1
  | cons c n =>
    have hc : c ≠ ' ' := by
      intro e; have := h2 c (by rw [hn]; exact List.mem_cons_self ..)
      rw [e] at this; revert this; decide
    rw [List.cons_append, List.cons_append, List.dropWhile_cons, if_neg (by simpa using hc)]

theorem row_head {ds : List Decl} {t : Text} (h : Row ds t) : t.dropWhile (fun c => decide (c = ' ')) = t := by
  cases h with
  | last d g hd => exact text_head hd _
  | cons d g ds t hd _ => exact text_head hd _

theorem gap_blanks (g : Nat) : gap (List.replicate g ' ') = some [] := by
  cases g with
  | zero => rfl
  | succ g =>
    rw [List.replicate_succ, gap, if_pos rfl]
    have := drop_blanks g []
    rw [List.append_nil] at this
    rw [this]; rfl

theorem lines_app : ∀ (n acc t : Text), (∀ c ∈ n, c ≠ '\n') → lines acc (n ++ '\n' :: t) = (acc ++ n) :: lines [] t
  | [], acc, t, _ => by simp [lines]
  | c :: n, acc, t, h => by
    rw [List.cons_append, lines, if_neg (h c (List.mem_cons_self ..)), lines_app n _ t fun d hd => h d (List.mem_cons_of_mem _ hd)]
    simp

theorem name_nl {d : Decl} (h : d.Ok) : ∀ c ∈ d.name, c ≠ '\n' := by
  intro c hc e
  have := h.2.1 c hc
  rw [e] at this; revert this; decide

theorem wrap_nl {d : Decl} (h : d.Ok) : ∀ c ∈ (w! "__wrap_") ++ d.name, c ≠ '\n' := by
  intro c hc
  rcases List.mem_append.1 hc with hc | hc
  · intro e; rw [e] at hc; revert hc; decide
  · exact name_nl h c hc

theorem lines_decl {d : Decl} (h : d.Ok) (t : Text) : lines [] (d.name ++ '\n' :: ((w! "__wrap_") ++ (d.name ++ '\n' :: t))) = d.names ++ lines [] t := by
  rw [lines_app _ _ _ (name_nl h), ← List.append_assoc, lines_app _ _ _ (wrap_nl h)]
  rfl

theorem rewriteN_some {n : Nat} {s : Text} {p : Text × Text} (h : descr s = some p) :
    rewriteN (n + 1) s = p.1 ++ '\n' :: ((w! "__wrap_") ++ (p.1 ++ '\n' :: rewriteN n p.2)) := by
  conv => lhs; unfold rewriteN
  rw [h]

theorem rewriteN_nil (n : Nat) : rewriteN n [] = [] := by
  cases n with
  | zero => rfl
  | succ n => unfold rewriteN; rfl

theorem text_length (d : Decl) : 2 ≤ d.text.length := by simp [Decl.text]; omega

theorem names_row {ds : List Decl} {t : Text} (h : Row ds t) : ∀ n, t.length < n → lines [] (rewriteN n t) = ds.flatMap Decl.names := by
  induction h with
  | last d g hd =>
    intro n hn
    cases n with
    | zero => omega
    | succ n =>
      rw [rewriteN_some (descr_decl hd (gap_blanks g)), lines_decl hd, rewriteN_nil]
      simp [lines]
  | cons d g ds t hd ht ih =>
    intro n hn
    cases n with
    | zero => omega
    | succ n =>
      have hg : gap (' ' :: List.replicate g ' ' ++ t) = some t := by
        rw [List.cons_append, gap, if_pos rfl, drop_blanks, row_head ht]
      rw [rewriteN_some (descr_decl hd hg), lines_decl hd]
      dsimp only
      rw [ih n (by simp at hn; omega)]
      rfl

theorem Row.append {a b : List Decl} {s t : Text} (h : Row a s) (h' : Row b t) : Row (a ++ b) (s ++ ' ' :: t) := by
  induction h with
  | last d g hd =>
    have := Row.cons d g b t hd h'
    rw [show d.text ++ List.replicate g ' ' ++ ' ' :: t = d.text ++ (' ' :: List.replicate g ' ' ++ t) by
      have e : List.replicate g ' ' ++ [' '] = ' ' :: List.replicate g ' ' := by rw [← List.replicate_succ, List.replicate_succ']
      rw [← e]; simp]
    exact this
  | cons d g ds t' hd _ ih =>
    have := Row.cons d g (ds ++ b) _ hd ih
    simpa using this

theorem Row.plus {a b : List Decl} {s x : Text} (h : Row a s) (h' : Holds x b) : Row (a ++ b) (s ++ CallRegexp.plus x) := by
  rcases h' with ⟨h1, h2⟩ | h'
  · rw [h1, h2]; simpa [CallRegexp.plus] using h
  · have hx : x ≠ [] := by
      intro e; subst e
      generalize hx : ([] : Text) = x at h'
      cases h' with
      | last d g => have := text_length d; have h3 := congrArg List.length hx; simp at h3; omega
      | cons d g ds t => have := text_length d; have h3 := congrArg List.length hx; simp at h3
    rw [CallRegexp.plus, if_neg hx]
    exact h.append h'

theorem standard_row : Row standard (w! "malloc(Z)p calloc(zZ)p realloc(pZ)p memalign(zZ)p alloca(Z)p") := by
  have ok : ∀ d ∈ standard, d.Ok := by
    intro d hd
    simp only [standard, List.mem_cons, List.not_mem_nil, or_false] at hd
    rcases hd with e | e | e | e | e <;> (subst e; refine ⟨by decide, by decide, by decide, by decide⟩)
  exact .cons ⟨w! "malloc", ['Z'], some 'p'⟩ 0 _ _ (ok _ (by simp [standard])) (.cons ⟨w! "calloc", ['z', 'Z'], some 'p'⟩ 0 _ _ (ok _ (by simp [standard]))
    (.cons ⟨w! "realloc", ['p', 'Z'], some 'p'⟩ 0 _ _ (ok _ (by simp [standard])) (.cons ⟨w! "memalign", ['z', 'Z'], some 'p'⟩ 0 _ _ (ok _ (by simp [standard]))
    (.last ⟨w! "alloca", ['Z'], some 'p'⟩ 0 (ok _ (by simp [standard]))))))

/-- The names, when there is a declaration of a general allocator. -/
theorem names_declared {v : Vars} {a b c : List Decl} (ha : Row a v.alloc) (hb : Holds v.suballoc b) (hc : Holds v.allocsz c) :
    names v = (a ++ standard ++ b ++ c).flatMap Decl.names := by
  have h := ((ha.append standard_row).plus hb).plus hc
  have e : descriptors v = v.alloc ++ ' ' :: (w! "malloc(Z)p calloc(zZ)p realloc(pZ)p memalign(zZ)p alloca(Z)p") ++ plus v.suballoc ++ plus v.allocsz := by simp [descriptors]
  rw [names, rewrite, e]
  exact names_row h _ (Nat.lt_succ_self _)

/-- The names, when there is none: that of `malloc` is spoilt. -/
theorem names_none {v : Vars} {b c : List Decl} (ha : v.alloc = []) (hb : Holds v.suballoc b) (hc : Holds v.allocsz c) :
    names v = (w! " malloc") :: ((standard ++ b ++ c).flatMap Decl.names).tail := by
  have h := (standard_row.plus hb).plus hc
  have e : descriptors v = ' ' :: ((w! "malloc(Z)p calloc(zZ)p realloc(pZ)p memalign(zZ)p alloca(Z)p") ++ plus v.suballoc ++ plus v.allocsz) := by simp [descriptors, ha]
  have h2 := names_row h _ (Nat.lt_succ_self _)
  rw [names, rewrite, e, List.length_cons]
  generalize hs : (w! "malloc(Z)p calloc(zZ)p realloc(pZ)p memalign(zZ)p alloca(Z)p") ++ plus v.suballoc ++ plus v.allocsz = s at h2 ⊢
  have h3 : rewriteN (s.length + 1 + 1) (' ' :: s) = ' ' :: rewriteN (s.length + 1) s := by
    conv => lhs; unfold rewriteN
    have : descr (' ' :: s) = none := rfl
    rw [this]
  rw [h3]
  generalize rewriteN (s.length + 1) s = r at h2
  have h4 : ∀ (r acc : Text) (n : Text) (ns : List Text), lines acc r = n :: ns → lines (' ' :: acc) r = (' ' :: n) :: ns := by
    intro r
    induction r with
    | nil =>
      intro acc n ns h
      rw [lines] at h ⊢
      rw [if_neg (by simp)]
      split at h
      · cases h
      · injection h with h1 h2; rw [h1, h2]
    | cons c r ih =>
      intro acc n ns h
      rw [lines] at h ⊢
      split at h
      · rename_i hc; rw [if_pos hc]; injection h with h1 h2; rw [h1, h2]
      · rename_i hc; rw [if_neg hc]; exact ih _ _ _ h
  rw [lines, if_neg (by decide)]
  have := h4 r [] (w! "malloc") ((standard ++ b ++ c).flatMap Decl.names).tail (by rw [h2]; rfl)
  exact this

/-- **C161** A call or jump to a declared function, or to its wrapper, is taken, whatever address, place and bytes it is shown with, and whatever follows the name. -/
theorem declared_taken {v : Vars} {a b c : List Decl} (ha : Holds v.alloc a) (hb : Holds v.suballoc b) (hc : Holds v.allocsz c) {d : Decl} (hd : d ∈ a ++ standard ++ b ++ c)
    {n : Text} (hn : n ∈ d.names) {addr place x y z k : Text} (h1 : ∀ c ∈ addr, Hex c) (h2 : '>' ∉ place) (hk : k = (w! "call") ∨ k = (w! "jmp")) :
    isSite v (addr ++ ' ' :: '<' :: place ++ '>' :: (x ++ k ++ y ++ '<' :: n ++ z)) = some true := by
  obtain ⟨t, h3, h4⟩ := taken_iff v (addr ++ ' ' :: '<' :: place ++ '>' :: (x ++ k ++ y ++ '<' :: n ++ z))
  have hm : n ∈ builtin ++ names v := by
    rcases ha with ⟨ha, ha'⟩ | ha
    · rw [names_none ha hb hc]
      rw [ha', List.nil_append] at hd
      have : n ∈ (standard ++ b ++ c).flatMap Decl.names := List.mem_flatMap.2 ⟨d, hd, hn⟩
      have e : (standard ++ b ++ c).flatMap Decl.names = (w! "malloc") :: ((standard ++ b ++ c).flatMap Decl.names).tail := rfl
      rw [e] at this
      rcases List.mem_cons.1 this with this | this
      · exact List.mem_append_left _ (by rw [this]; exact List.mem_cons_self ..)
      · exact List.mem_append_right _ (List.mem_cons_of_mem _ this)
    · rw [names_declared ha hb hc]
      exact List.mem_append_right _ (List.mem_flatMap.2 ⟨d, hd, hn⟩)
  rw [h3, h4.2 ⟨addr, place, _, rfl, h1, h2, .named x k y n z hk hm⟩]

/-- **C161** What is taken is asked for by a declared name, that of a standard function, or the space left before the first. -/
theorem taken_declared {v : Vars} {a b c : List Decl} (ha : Holds v.alloc a) (hb : Holds v.suballoc b) (hc : Holds v.allocsz c) {line : Text} (h : isSite v line = some true) :
    Taken (builtin ++ (w! " malloc") :: (a ++ standard ++ b ++ c).flatMap Decl.names) line := by
  obtain ⟨t, h3, h4⟩ := taken_iff v line
  rw [h3] at h; injection h with h
  obtain ⟨addr, place, what, e, g1, g2, g3⟩ := h4.1 h
  refine ⟨addr, place, what, e, g1, g2, ?_⟩
  cases g3 with
  | named a' k x n y hk hn =>
    refine .named a' k x n y hk ?_
    rcases List.mem_append.1 hn with hn | hn
    · exact List.mem_append_left _ hn
    · refine List.mem_append_right _ ?_
      rcases ha with ⟨ha, ha'⟩ | ha
      · rw [names_none ha hb hc] at hn
        rw [ha', List.nil_append]
        rcases List.mem_cons.1 hn with hn | hn
        · rw [hn]; exact List.mem_cons_self ..
        · exact List.mem_cons_of_mem _ (List.mem_of_mem_tail hn)
      · rw [names_declared ha hb hc] at hn
        exact List.mem_cons_of_mem _ hn
  | pointer a' k x y hk => exact .pointer a' k x y hk
  | unbound a' x y => exact .unbound a' x y

/-- **C161** Calls and jumps through pointers are always taken, with any declarations, readable or not. -/
theorem pointer_taken (v : Vars) {addr place x y z k : Text} (h1 : ∀ c ∈ addr, Hex c) (h2 : '>' ∉ place) (hk : k = (w! "call") ∨ k = (w! "jmp")) :
    isSite v (addr ++ ' ' :: '<' :: place ++ '>' :: (x ++ k ++ y ++ '*' :: z)) = some true := by
  obtain ⟨t, h3, h4⟩ := taken_iff v (addr ++ ' ' :: '<' :: place ++ '>' :: (x ++ k ++ y ++ '*' :: z))
  rw [h3, h4.2 ⟨addr, place, _, rfl, h1, h2, .pointer x k y z hk⟩]

/-! ## Through the script -/

/-- **C161** With `objdumpmeta.awk`: wherever an instruction that calls a declared function stands in a listing before another instruction, a line is printed that has its own
address, and that of the other as its return address. -/
theorem call_recorded_partial {v : Vars} {a b c : List Decl} (ha : Holds v.alloc a) (hb : Holds v.suballoc b) (hc : Holds v.allocsz c) (ss : List ObjdumpMeta.Sect)
    (hg : ∀ x ∈ ss, ∀ g ∈ x.groups, g.Good) (text : ObjdumpMeta.Insn → Text) (hs : ∀ q ∈ ObjdumpMeta.insnsOf ss, isSite v (text q.1) = some q.1.alloc)
    {pre post : List (ObjdumpMeta.Insn × ObjdumpMeta.Place)} {i j : ObjdumpMeta.Insn × ObjdumpMeta.Place} (hi : ObjdumpMeta.insnsOf ss = pre ++ i :: j :: post)
    {d : Decl} (hd : d ∈ a ++ standard ++ b ++ c) {n : Text} (hn : n ∈ d.names) {addr place x y z k : Text} (h1 : ∀ c ∈ addr, Hex c) (h2 : '>' ∉ place)
    (hk : k = (w! "call") ∨ k = (w! "jmp")) (ht : text i.1 = addr ++ ' ' :: '<' :: place ++ '>' :: (x ++ k ++ y ++ '<' :: n ++ z)) :
    ∃ o ∈ ObjdumpMeta.script (ObjdumpMeta.listing ss), o.addr = i.1.addr ∧ o.ret = j.1.addr := by
  have hal : i.1.alloc = true := by
    have h3 := hs i (by rw [hi]; simp)
    rw [ht, declared_taken ha hb hc hd hn h1 h2 hk] at h3
    injection h3 with h3; exact h3.symm
  refine ⟨ObjdumpMeta.report i.1 i.2 j.1, ?_, rfl, rfl⟩
  rw [ObjdumpMeta.script_partial ss hg, ObjdumpMeta.mem_reports]
  exact ⟨pre, i, j, post, hi, hal, rfl⟩

/-- **C161** And nothing is printed but for such an instruction, one that goes through a pointer, or one not bound. -/
theorem recorded_taken_partial {v : Vars} {a b c : List Decl} (ha : Holds v.alloc a) (hb : Holds v.suballoc b) (hc : Holds v.allocsz c) (ss : List ObjdumpMeta.Sect)
    (hg : ∀ x ∈ ss, ∀ g ∈ x.groups, g.Good) (text : ObjdumpMeta.Insn → Text) (hs : ∀ q ∈ ObjdumpMeta.insnsOf ss, isSite v (text q.1) = some q.1.alloc)
    {o : ObjdumpMeta.Out} (ho : o ∈ ObjdumpMeta.script (ObjdumpMeta.listing ss)) :
    ∃ q ∈ ObjdumpMeta.insnsOf ss, o.addr = q.1.addr ∧ Taken (builtin ++ (w! " malloc") :: (a ++ standard ++ b ++ c).flatMap Decl.names) (text q.1) := by
  rw [ObjdumpMeta.script_partial ss hg, ObjdumpMeta.mem_reports] at ho
  obtain ⟨pre, x, y, post, h1, h2, h3⟩ := ho
  have hx : x ∈ ObjdumpMeta.insnsOf ss := by rw [h1]; simp
  refine ⟨x, hx, by rw [h3]; rfl, taken_declared ha hb hc ?_⟩
  rw [hs x hx, h2]

/-! ## What is lost -/

/-- **C161 fails** A result may be written `->p`, and the linker plugin reads it so; but no call of the function is then found, nor is that of the function declared after it. -/
theorem arrow_fails :
    (match LdFlags.check (LdFlags.rewriteVar (w! "f(Z)->p g(Z)p")) with | .ok _ => true | .error _ => false) = true ∧
    isSite ⟨w! "f(Z)p g(Z)p", [], []⟩ (w! "401000 <main+0x4> e8 10 00 00 00 call 401015 <f>") = some true ∧
    isSite ⟨w! "f(Z)->p g(Z)p", [], []⟩ (w! "401000 <main+0x4> e8 10 00 00 00 call 401015 <f>") = some false ∧
    isSite ⟨w! "f(Z)->p g(Z)p", [], []⟩ (w! "401000 <main+0x4> e8 10 00 00 00 call 401015 <g>") = some false := by
  decide +kernel

/-- **C161 fails** With a blank before the first declaration, calls of its function are not found, though those of its wrapper are. -/
theorem blank_fails :
    isSite ⟨w! " f(Z)p g(Z)p", [], []⟩ (w! "401000 <main+0x4> e8 10 00 00 00 call 401015 <f>") = some false ∧
    isSite ⟨w! " f(Z)p g(Z)p", [], []⟩ (w! "401000 <main+0x4> e8 10 00 00 00 call 401015 <__wrap_f>") = some true ∧
    isSite ⟨w! " f(Z)p g(Z)p", [], []⟩ (w! "401000 <main+0x4> e8 10 00 00 00 call 401015 <g>") = some true := by
  decide +kernel

/-- **C161 fails** No names would give an expression that "matches nothing", says the comment; it matches the empty text, and so a call of anything. -/
theorem no_names_fails :
    (parse ((w! "^call <(") ++ alts [] ++ [')'])).map (fun r => (Re.seq r (.star (.cls fun _ => true))).accepts (w! "call <free>")) = some true ∧
    (parse ((w! "^call <(") ++ alts [w! "malloc"] ++ [')'])).map (fun r => (Re.seq r (.star (.cls fun _ => true))).accepts (w! "call <free>")) = some false := by decide +kernel

/-- **C161 fails** A name is known by its beginning: `malloc_stats` allocates nothing, but its calls are taken for calls of `malloc`. -/
theorem prefix_fails (v : Vars) : isSite v (w! "401000 <main+0x4> e8 10 00 00 00 call 401015 <malloc_stats>") = some true := by
  obtain ⟨t, h3, h4⟩ := taken_iff v (w! "401000 <main+0x4> e8 10 00 00 00 call 401015 <malloc_stats>")
  have hx : ∀ c ∈ w! "401000", Hex c := by
    intro c hc
    simp only [List.mem_cons, List.not_mem_nil, or_false] at hc
    rcases hc with e | e | e | e | e | e <;> (subst e; exact .inl (by decide))
  rw [h3, h4.2 ⟨w! "401000", w! "main+0x4", w! " e8 10 00 00 00 call 401015 <malloc_stats>", by decide, hx, by decide,
    .named (w! " e8 10 00 00 00 ") (w! "call") (w! " 401015 ") (w! "malloc") (w! "_stats>") (.inl rfl) (List.mem_append_left _ (List.mem_cons_self ..))⟩]

/-! ## A case -/

example : Row [⟨w! "xmalloc", ['Z'], some 'p'⟩, ⟨w! "xdup", ['p', 'p'], none⟩] (w! "xmalloc(Z)p  xdup(pp) ") :=
  .cons ⟨w! "xmalloc", ['Z'], some 'p'⟩ 1 _ _ ⟨by decide, by decide, by decide, by decide⟩ (.last ⟨w! "xdup", ['p', 'p'], none⟩ 1 ⟨by decide, by decide, by decide, by decide⟩)

example : isSite ⟨w! "xmalloc(Z)p  xdup(pp) ", [], w! "ysz()Z"⟩ (w! "401000 <main+0x4> e8 10 00 00 00 call 401015 <ysz>") = some true := by decide +kernel
example : isSite ⟨w! "xmalloc(Z)p  xdup(pp) ", [], w! "ysz()Z"⟩ (w! "401000 <main+0x4> e8 10 00 00 00 call 401015 <free@plt>") = some false := by decide +kernel
example : isSite ⟨[], [], []⟩ (w! "401000 <main+0x4> ff d0 call *%rax") = some true := by decide +kernel
example : isSite ⟨[], [], []⟩ (w! "401000 <main+0x4> e8 00 00 00 00 call 401005 <main+0x9>") = some true := by decide +kernel
example : isSite ⟨[], [], []⟩ (w! "401000 <main+0x4> 89 c7 mov %eax,%edi") = some false := by decide +kernel
example : escapeE (w! "f.1(x)") = (w! "f\\.1\\(x\\)") := by decide +kernel

end Liballocs.CallRegexp
