import Verif.Model.LinkArgs
namespace Liballocs.LinkArgs

/-! ## Specification: how the shell splits a command into words -/

inductive Mode where
  | plain
  | single
  | double

/-- Characters with a meaning to the shell outside of quotes, other than blanks and quotes. -/
def special (c : Char) : Bool := c ∈ ['|', '&', ';', '<', '>', '(', ')', '$', '`', '\\', '*', '?', '[', '#', '~', '\n', '\t']

/-- Words, with the word begun so far, if any.  Expansions are not described: `none`. -/
def words : Mode → Option Text → Text → Option (List Text)
  | .plain, cur, [] => some cur.toList
  | .plain, cur, c :: s =>
    if c = ' ' then (words .plain none s).map (cur.toList ++ ·)
    else if c = '\'' then words .single (some (cur.toList.flatten)) s
    else if c = '"' then words .double (some (cur.toList.flatten)) s
    else if special c then none
    else words .plain (some (cur.toList.flatten ++ [c])) s
  | .single, _, [] => none
  | .single, cur, c :: s => if c = '\'' then words .plain cur s else words .single (some (cur.toList.flatten ++ [c])) s
  | .double, _, [] => none
  | .double, cur, c :: s =>
    if c = '"' then words .plain cur s
    else if c = '$' ∨ c = '`' ∨ c = '\\' then none
    else words .double (some (cur.toList.flatten ++ [c])) s

theorem words_body : ∀ (s w rest : Text), words .single (some w) (quoteBody s ++ rest) = words .single (some (w ++ s)) rest
  | [], w, rest => by simp [quoteBody]
  | c :: s, w, rest => by
    by_cases h : c = '\''
    · subst h
      rw [quoteBody, if_pos rfl]
      simp only [List.cons_append]
      rw [words, if_pos rfl, words, if_neg (by decide), if_neg (by decide), if_pos rfl, words, if_neg (by decide), if_neg (by decide), words,
        if_pos rfl, words, if_neg (by decide), if_pos rfl]
      simp only [Option.toList, List.flatten_cons, List.flatten_nil, List.append_nil]
      rw [words_body s _ rest]
      simp
    · rw [quoteBody, if_neg h, List.cons_append, words, if_neg h]
      simp only [Option.toList, List.flatten_cons, List.flatten_nil, List.append_nil]
      rw [words_body s _ rest]
      simp

/-- **C125**.  Quoted text is one word to the shell, or part of one: just that text, whatever is in it. -/
theorem quote_word (s : Text) (cur : Option Text) (rest : Text) :
    words .plain cur (shellQuote s ++ rest) = words .plain (some (cur.toList.flatten ++ s)) rest := by
  unfold shellQuote
  rw [List.cons_append, words, if_neg (by decide), if_pos rfl, List.append_assoc, words_body]
  rw [List.singleton_append, words, if_pos rfl]

theorem args_gen : ∀ (as : List Text) (w : Text), words .plain (some w) (argsText as) = some (w :: as)
  | [], w => by rw [argsText, words]; rfl
  | a :: as, w => by
    rw [argsText, words, if_pos rfl, quote_word]
    simp only [Option.toList, List.flatten_nil, List.nil_append]
    rw [args_gen as a]
    rfl

/-- **C125**.  So the tool that gathers types is given just the names of the input files, whatever characters they have. -/
theorem args_words (cmd : Text) (as : List Text) (h : ∀ c ∈ cmd, c ≠ ' ' ∧ c ≠ '\'' ∧ c ≠ '"' ∧ special c = false) (hn : cmd ≠ []) :
    words .plain none (cmd ++ argsText as) = some (cmd :: as) := by
  have key : ∀ (t w rest : Text), (∀ c ∈ t, c ≠ ' ' ∧ c ≠ '\'' ∧ c ≠ '"' ∧ special c = false) →
      words .plain (some w) (t ++ rest) = words .plain (some (w ++ t)) rest := by
    intro t
    induction t with
    | nil => intro w rest _; simp
    | cons c t ih =>
      intro w rest h
      obtain ⟨h1, h2, h3, h4⟩ := h c (by simp)
      rw [List.cons_append, words, if_neg h1, if_neg h2, if_neg h3, if_neg (by rw [h4]; exact Bool.false_ne_true)]
      simp only [Option.toList, List.flatten_cons, List.flatten_nil, List.append_nil]
      rw [ih _ _ fun d hd => h d (by simp [hd])]
      simp
  cases cmd with
  | nil => exact absurd rfl hn
  | cons c t =>
    obtain ⟨h1, h2, h3, h4⟩ := h c (by simp)
    rw [List.cons_append, words, if_neg h1, if_neg h2, if_neg h3, if_neg (by rw [h4]; exact Bool.false_ne_true)]
    simp only [Option.toList, List.flatten_nil, List.nil_append]
    rw [key t _ _ fun d hd => h d (by simp [hd]), args_gen]
    rfl

/-! ## Symbols -/

/-- **C126**.  A global symbol is wrapped just if it is named. -/
theorem wrap_spec (ids : List Text) (s : Text) : wrap (ids.map interest) s = true ↔ s ∈ ids ∧ splitLast s = none := by
  unfold wrap
  rw [List.any_eq_true]
  constructor
  · rintro ⟨i, hi, he⟩
    rw [decide_eq_true_eq] at he
    obtain ⟨d, hd, rfl⟩ := List.mem_map.mp hi
    unfold interest at he
    split at he
    · cases he
    · rename_i h
      cases he
      exact ⟨hd, h⟩
  · rintro ⟨h1, h2⟩
    exact ⟨interest s, List.mem_map.mpr ⟨s, h1, rfl⟩, by simp [interest, h2]⟩

/-- A local symbol is never found under its own name: the file would have to be called what is meant to name file and symbol. -/
theorem globalize_only (ids : List Text) (file sym : Text) (h : globalize (ids.map interest) file sym = true) :
    file ∈ ids ∧ ∃ r, splitLast file = some (sym, r) := by
  unfold globalize at h
  rw [List.any_eq_true] at h
  obtain ⟨i, hi, he⟩ := h
  rw [decide_eq_true_eq] at he
  obtain ⟨d, hd, rfl⟩ := List.mem_map.mp hi
  unfold interest at he
  split at he
  · rename_i p hp
    cases he
    exact ⟨hd, p.2, hp⟩
  · cases he

def t (s : String) : Text := s.toList

theorem local_fails : interest (t "m.o::f") = .locl (t "m.o::f") (t "m.o") ∧ globalize [interest (t "m.o::f")] (t "m.o") (t "f") = false := by decide +kernel

/-- The command that would make it global has no space between its input and its output. -/
theorem objcopy_fails : words .plain none (t "objcopy " ++ globalizeArg (t "f") (t "g") ++ globalizeEnd (t "m.o") (t "/tmp/x")) =
    some [t "objcopy", t "--redefine-sym", t "f=g", t "--globalize-sym", t "f", t "m.o/tmp/x"] := by decide +kernel

/-! ## Relocations -/

/-- **C127**.  The linker is told to keep relocations, by one more argument if need be, and not restarted a second time. -/
theorem emit_spec (cmd : List Text) : (emitRelocs cmd = .keep ↔ sQ ∈ cmd ∨ sEmit ∈ cmd) ∧
    ∀ new, emitRelocs cmd = .restart new → new = cmd ++ [sEmit] ∧ emitRelocs new = .keep := by
  unfold emitRelocs
  split
  · rename_i h; exact ⟨by simp [h], fun _ h => by cases h⟩
  · rename_i h
    refine ⟨by simp [h], fun new hn => ?_⟩
    cases hn
    exact ⟨rfl, by rw [if_pos]; simp⟩

/-! ## Wrapping -/

/-- The last argument does not want another. -/
def Full (cmd : List Text) : Prop := cmd.getLast? ≠ some sPlugin ∧ cmd.getLast? ≠ some sOpt

theorem startsWith_drop {p s : Text} (h : startsWith p s = true) (hn : s ≠ p) : s.drop p.length ≠ [] := by
  unfold startsWith at h
  rw [List.isPrefixOf_iff_prefix] at h
  obtain ⟨r, rfl⟩ := h
  rw [List.drop_left]
  intro e
  subst e
  exact hn (by simp)

theorem getArg_next {p s : Text} (h : startsWith p s = true) (hn : s ≠ p) (a b : Option Text) : getArg p s a = getArg p s b := by
  have := startsWith_drop h hn
  unfold getArg
  split
  · rename_i h; exact absurd h this
  · rfl
  · rfl

theorem scanStep_next (isX : Text → Bool) (i : Nat) {s : Text} (h1 : s ≠ sPlugin) (h2 : s ≠ sOpt) (a b : Option Text) (st : Scan) :
    scanStep isX i s a st = scanStep isX i s b st := by
  unfold scanStep
  split
  · rename_i h; rw [getArg_next h.2 h1 a b]
  · split
    · rename_i h; rw [getArg_next h.1 h2 a b]
    · rfl

theorem scan_append (isX : Text → Bool) : ∀ (l b : List Text) (i : Nat) (st : Scan), Full l →
    scan isX (l ++ b) i st = scan isX b (i + l.length) (scan isX l i st)
  | [], b, i, st, _ => rfl
  | [s], b, i, st, h => by
    simp only [List.cons_append, List.nil_append, List.length_singleton, scan]
    rw [scanStep_next isX i (fun e => h.1 (by simp [e])) (fun e => h.2 (by simp [e]))]
  | s :: s' :: l, b, i, st, h => by
    rw [List.cons_append, scan, scan_append isX (s' :: l) b (i + 1) _ ⟨by simpa using h.1, by simpa using h.2⟩]
    rw [show (s' :: l ++ b).head? = (s' :: l).head? from rfl]
    rw [show scan isX (s :: s' :: l) i st = scan isX (s' :: l) (i + 1) (scanStep isX i s (s' :: l).head? st) from rfl]
    congr 1
    simp only [List.length_cons]; omega

/-- Until the plugin is found there is nothing after it. -/
def Start (st : Scan) : Prop := st.x = none → st.later = none ∧ st.syms = []

theorem scan_start (isX : Text → Bool) : ∀ (l : List Text) (i : Nat) (st : Scan), Start st → Start (scan isX l i st)
  | [], _, _, h => h
  | s :: l, i, st, h => by
    rw [scan]
    refine scan_start isX l (i + 1) _ ?_
    unfold scanStep
    split
    · split
      · intro e; cases e
      · split
        · rename_i h1; intro e; exact absurd e h1.1
        · exact h
    · split
      · rename_i h1; intro e; exact absurd e h1.2.1
      · exact h

def optFor (s : Text) : Text := sOpt ++ '=' :: s

/-- Options for the plugin are counted. -/
theorem scan_opts (isX : Text → Bool) : ∀ (ss : List Text) (b : List Text) (i : Nat) (st : Scan), st.x ≠ none → st.later = none →
    scan isX (ss.map optFor ++ b) i st = scan isX b (i + ss.length) { st with syms := st.syms ++ ss }
  | [], b, i, st, _, _ => by simp
  | s :: ss, b, i, st, h1, h2 => by
    rw [List.map_cons, List.cons_append, scan]
    have : ∀ n, scanStep isX i (optFor s) n st = { st with syms := st.syms ++ [s] } := by
      intro n
      unfold scanStep
      have ho : startsWith sOpt (optFor s) = true := by simp [optFor, startsWith, sOpt, List.isPrefixOf]
      rw [if_neg (fun h => by rw [ho] at h; exact absurd h.1 (by decide)), if_pos ⟨ho, h1, h2⟩]
      rfl
    rw [this, scan_opts isX ss b (i + 1) { st with syms := st.syms ++ [s] } h1 h2]
    simp only [List.append_assoc, List.singleton_append, List.length_cons]
    congr 1
    omega

/-- The plugin itself, in one argument. -/
theorem scan_plugin {isX : Text → Bool} {path : Text} (hp : isX path = true) (b : List Text) (i : Nat) (st : Scan) :
    scan isX ((sPlugin ++ '=' :: path) :: b) i st = scan isX b (i + 1) { st with x := some i } := by
  rw [scan]
  congr 1
  unfold scanStep
  rw [if_pos, if_pos]
  · exact hp
  · exact ⟨by simp [startsWith, sPlugin, sOpt, List.isPrefixOf], by simp [startsWith, sPlugin, List.isPrefixOf]⟩

/-- Arguments that do not name a plugin. -/
def NoPlugin (l : List Text) : Prop := ∀ s ∈ l, startsWith sPlugin s = true → startsWith sOpt s = true

theorem scan_noPlugin (isX : Text → Bool) : ∀ {l : List Text}, NoPlugin l → ∀ (i : Nat) (st : Scan),
    (scan isX l i st).x = st.x ∧ (scan isX l i st).later = st.later ∧ ∀ s ∈ st.syms, s ∈ (scan isX l i st).syms
  | [], _, _, _ => ⟨rfl, rfl, fun _ h => h⟩
  | s :: l, h, i, st => by
    rw [scan]
    obtain ⟨h1, h2, h3⟩ := scan_noPlugin isX (l := l) (fun x hx => h x (by simp [hx])) (i + 1) (scanStep isX i s l.head? st)
    have hno : ¬ (startsWith sOpt s = false ∧ startsWith sPlugin s = true) := by
      rintro ⟨h4, h5⟩
      rw [h s (by simp) h5] at h4
      cases h4
    rw [h1, h2]
    unfold scanStep at h3 ⊢
    rw [if_neg hno] at h3 ⊢
    split
    · rename_i h6
      rw [if_pos h6] at h3
      exact ⟨rfl, rfl, fun x hx => h3 x (by simp [hx])⟩
    · rename_i h6
      rw [if_neg h6] at h3
      exact ⟨rfl, rfl, h3⟩

theorem xwrap_keep {isX : Text → Bool} {path : Text} {needed cmd : List Text} (h : ∀ s ∈ needed, s ∈ (scan isX cmd 0 ⟨none, none, []⟩).syms) :
    xwrap isX path needed cmd = .keep := by
  unfold xwrap
  simp only
  rw [if_pos]
  rw [List.filter_eq_nil_iff]
  intro s hs
  simp [h s hs]

/-- **C127** (partial: there are at least as many arguments as symbols).  If the plugin that wraps symbols is not there, it is put at the end with an option for each
symbol; then the linker is not restarted again. -/
theorem xwrap_new_partial {isX : Text → Bool} {path : Text} {needed cmd : List Text} (hp : isX path = true) (hf : Full cmd)
    (hx : (scan isX cmd 0 ⟨none, none, []⟩).x = none) (hn : needed ≠ []) (hl : needed.length ≤ cmd.length) :
    xwrap isX path needed cmd = .restart (cmd ++ (sPlugin ++ '=' :: path) :: needed.reverse.map optFor) ∧
    xwrap isX path needed (cmd ++ (sPlugin ++ '=' :: path) :: needed.reverse.map optFor) = .keep := by
  have hst := scan_start isX cmd 0 ⟨none, none, []⟩ (fun _ => ⟨rfl, rfl⟩) hx
  constructor
  · unfold xwrap
    simp only [hst.2]
    have : (needed.filter fun s => decide (s ∉ ([] : List Text))) = needed := by
      rw [List.filter_eq_self]; intro a _; simp
    rw [this, if_neg hn, hx]
    simp only
    rw [if_pos (by omega)]
    rfl
  · apply xwrap_keep
    rw [scan_append isX _ _ _ _ hf, scan_plugin hp]
    have := scan_opts isX needed.reverse [] (0 + cmd.length + 1) { scan isX cmd 0 ⟨none, none, []⟩ with x := some (0 + cmd.length) } (by simp) hst.1
    rw [List.append_nil] at this
    rw [this]
    intro s hs
    simp only [scan, List.mem_append, List.mem_reverse]
    exact .inr hs

/-- **C127** (partial: one symbol is missing, the plugin is named in one argument, and no other plugin follows).  If the plugin is there, an option is put after it. -/
theorem xwrap_old_partial {isX : Text → Bool} {path path' : Text} {needed a b : List Text} {s : Text} (hp : isX path' = true) (hf : Full a)
    (ha : (scan isX a 0 ⟨none, none, []⟩).x = none) (hb : NoPlugin b)
    (hm : (needed.filter fun s => decide (s ∉ (scan isX (a ++ (sPlugin ++ '=' :: path') :: b) 0 ⟨none, none, []⟩).syms)) = [s]) :
    xwrap isX path needed (a ++ (sPlugin ++ '=' :: path') :: b) = .restart (a ++ (sPlugin ++ '=' :: path') :: optFor s :: b) ∧
    xwrap isX path needed (a ++ (sPlugin ++ '=' :: path') :: optFor s :: b) = .keep := by
  have hst := scan_start isX a 0 ⟨none, none, []⟩ (fun _ => ⟨rfl, rfl⟩) ha
  have hsc : scan isX (a ++ (sPlugin ++ '=' :: path') :: b) 0 ⟨none, none, []⟩ = scan isX b (a.length + 1) ⟨some a.length, none, []⟩ := by
    rw [scan_append isX _ _ _ _ hf, scan_plugin hp, Nat.zero_add]
    congr 1
    cases hh : scan isX a 0 ⟨none, none, []⟩
    rw [hh] at hst
    simp_all
  have hx : (scan isX (a ++ (sPlugin ++ '=' :: path') :: b) 0 ⟨none, none, []⟩).x = some a.length := by
    rw [hsc]; exact (scan_noPlugin isX hb _ _).1
  constructor
  · unfold xwrap
    simp only
    rw [hm, if_neg (by simp), hx]
    simp only
    rw [if_pos (by simp)]
    congr 1
    have e : a ++ (sPlugin ++ '=' :: path') :: b = (a ++ [sPlugin ++ '=' :: path']) ++ b := by simp
    rw [e, show a.length + 1 = (a ++ [sPlugin ++ '=' :: path']).length by simp, List.take_left, List.drop_left]
    simp [optFor]
  · apply xwrap_keep
    have hsc2 : scan isX (a ++ (sPlugin ++ '=' :: path') :: optFor s :: b) 0 ⟨none, none, []⟩ = scan isX b (a.length + 1 + 1) ⟨some a.length, none, [s]⟩ := by
      rw [scan_append isX _ _ _ _ hf, scan_plugin hp, Nat.zero_add]
      have := scan_opts isX [s] b (a.length + 1) { scan isX a 0 ⟨none, none, []⟩ with x := some a.length } (by simp) hst.1
      simp only [List.map_cons, List.map_nil, List.singleton_append, List.length_singleton] at this
      rw [this]
      congr 1
      cases hh : scan isX a 0 ⟨none, none, []⟩
      rw [hh] at hst
      simp_all
    rw [hsc2]
    -- what was counted is still counted
    have mono : ∀ (l : List Text) (i j : Nat) (x y : Nat) (us vs : List Text), NoPlugin l → (∀ u ∈ us, u ∈ vs) →
        ∀ u ∈ (scan isX l i ⟨some x, none, us⟩).syms, u ∈ (scan isX l j ⟨some y, none, vs⟩).syms := by
      intro l
      induction l with
      | nil => intro i j x y us vs _ h u hu; exact h u hu
      | cons c l ih =>
        intro i j x y us vs hno h
        have hno' : ¬ (startsWith sOpt c = false ∧ startsWith sPlugin c = true) := by
          rintro ⟨h4, h5⟩
          rw [hno c (by simp) h5] at h4
          cases h4
        simp only [scan]
        unfold scanStep
        rw [if_neg hno', if_neg hno']
        by_cases ho : startsWith sOpt c = true
        · rw [if_pos ⟨ho, by simp, rfl⟩, if_pos ⟨ho, by simp, rfl⟩]
          refine ih _ _ _ _ _ _ (fun x hx => hno x (by simp [hx])) ?_
          intro u hu
          rcases List.mem_append.mp hu with hu | hu
          · exact List.mem_append.mpr (.inl (h u hu))
          · exact List.mem_append.mpr (.inr hu)
        · rw [if_neg (fun h => ho h.1), if_neg (fun h => ho h.1)]
          exact ih _ _ _ _ _ _ (fun x hx => hno x (by simp [hx])) h
    intro u hu
    by_cases hc : u ∈ (scan isX (a ++ (sPlugin ++ '=' :: path') :: b) 0 ⟨none, none, []⟩).syms
    · rw [hsc] at hc
      exact mono b _ _ _ _ _ _ hb (fun _ h => by cases h) u hc
    · have : u ∈ needed.filter fun s => decide (s ∉ (scan isX (a ++ (sPlugin ++ '=' :: path') :: b) 0 ⟨none, none, []⟩).syms) := by
        rw [List.mem_filter]; exact ⟨hu, by simpa using hc⟩
      rw [hm, List.mem_singleton] at this
      subst this
      exact (scan_noPlugin isX hb _ _).2.2 u (by simp)

/-- **C127**.  Whatever is there, the restarted command line has all its arguments, in order. -/
theorem xwrap_sublist {isX : Text → Bool} {path : Text} {needed cmd new : List Text} (h : xwrap isX path needed cmd = .restart new) : cmd.Sublist new := by
  unfold xwrap at h
  simp only at h
  split at h
  · cases h
  · split at h
    · split at h
      · cases h; exact List.sublist_append_left _ _
      · cases h
    · split at h
      · rename_i x _ _
        cases h
        conv => lhs; rw [← List.take_append_drop (x + 1) cmd]
        exact (List.Sublist.refl _).append (List.sublist_append_right _ _)
      · cases h

def isX (s : Text) : Bool := decide (s = t "xwrap.so")

/-- If the plugin is named in two arguments, the option goes between them. -/
theorem separate_fails : xwrap isX (t "xwrap.so") [t "malloc"] [t "-plugin", t "xwrap.so", t "m.o"] =
    .restart [t "-plugin", t "-plugin-opt=malloc", t "xwrap.so", t "m.o"] := by decide +kernel

/-- If the plugin is there and two symbols are missing, an invalid iterator is used. -/
theorem iterator_fails : xwrap isX (t "xwrap.so") [t "calloc", t "malloc"] [t "-plugin=xwrap.so", t "m.o"] = .undefined := by decide +kernel

/-- So it is if the plugin is not there and the symbols are more than the arguments. -/
theorem iterator_new_fails : xwrap isX (t "xwrap.so") [t "calloc", t "malloc"] [t "ld"] = .undefined := by decide +kernel

/-! ## The library's directory -/

theorem rpaths_tail (isDir : Text → Bool) (s d : Text) (l : List Text) (h : d ∈ rpaths isDir l) : d ∈ rpaths isDir (s :: l) := by
  simp only [rpaths]
  repeat' split
  all_goals first | exact h | exact List.mem_cons_of_mem _ h

theorem mem_rpaths (isDir : Text → Bool) (dir : Text) : ∀ cmd : List Text, dir ∈ rpaths isDir (cmd ++ [sRpath, dir])
  | [] => by
    simp only [List.nil_append, rpaths]
    rw [show startsWith sRpath sRpath = true by decide]
    simp
  | s :: l => rpaths_tail isDir s dir _ (mem_rpaths isDir dir l)

/-- **C127** (partial: the library's directory exists).  The directory is put at the end if it is not there, and the linker is not restarted again. -/
theorem rpath_partial {isDir same : Text → Bool} {dir : Text} {cmd new : List Text} (hd : same dir = true) (h : rpath isDir same dir cmd = .restart new) :
    new = cmd ++ [sRpath, dir] ∧ rpath isDir same dir new = .keep := by
  unfold rpath at h
  split at h
  · cases h
  · cases h
    refine ⟨rfl, ?_⟩
    unfold rpath
    rw [if_pos]
    rw [List.any_eq_true]
    exact ⟨dir, mem_rpaths isDir dir cmd, hd⟩

/-- **C127**.  The directory also counts as there if it is given with `-R` in one argument, wherever that is. -/
theorem rpath_R {isDir same : Text → Bool} {dir d : Text} {c : Char} (hd : isDir (c :: d) = true) (hs : same (c :: d) = true) (hc : c ≠ '=') (a b : List Text) :
    rpath isDir same dir (a ++ (sR ++ c :: d) :: b) = .keep := by
  have hm : ∀ a : List Text, (c :: d) ∈ rpaths isDir (a ++ (sR ++ c :: d) :: b) := by
    intro a
    induction a with
    | cons s a ih => exact rpaths_tail isDir s _ _ ih
    | nil =>
      have h1 : startsWith sRpath (sR ++ c :: d) = false := by simp [startsWith, sRpath, sR, List.isPrefixOf]
      have h2 : startsWith sR (sR ++ c :: d) = true := by simp [startsWith, sR, List.isPrefixOf]
      have h3 : ∀ n, getArg sR (sR ++ c :: d) n = c :: d := by
        intro n
        simp only [getArg, sR, List.length_cons, List.length_nil, List.cons_append, List.nil_append, List.drop_succ_cons, List.drop_zero]
        split
        · rename_i h; cases h
        · rename_i h; cases h; exact absurd rfl hc
        · rfl
      simp only [List.nil_append, rpaths, h1]
      rw [if_pos h2, h3, if_pos hd]
      exact List.mem_cons_self
  unfold rpath
  rw [if_pos]
  rw [List.any_eq_true]
  exact ⟨_, hm a, hs⟩

def same (s : Text) : Bool := decide (s = t "/la/lib")

/-- A directory that is only for finding libraries at link time counts as one for run time. -/
theorem rpath_link_fails : rpath (fun _ => true) same (t "/la/lib") [t "-rpath-link", t "/la/lib", t "m.o"] = .keep := by decide +kernel

/-- If the directory does not exist, it is put there again and again. -/
theorem no_dir_fails (isDir : Text → Bool) (dir : Text) (cmd : List Text) : rpath isDir (fun _ => false) dir cmd = .restart (cmd ++ [sRpath, dir]) := by
  unfold rpath
  rw [if_neg]
  simp

/-! ## The dynamic linker -/

def isOpt (s : Text) : Bool := startsWith sDyn2 s || startsWith sDyn s

/-- Whatever the arguments are, what is found is given by an option at the position that is returned. -/
theorem dyn_found : ∀ (l : List Text) (i : Nat) (r : Option (Text × Nat)) (n : Text) (k : Nat), dynLinker l i r = some (n, k) →
    r = some (n, k) ∨ ∃ (a : List Text) (o : Text) (b : List Text), l = a ++ o :: b ∧ k = i + a.length ∧
      (isOpt o = true ∧ b.head? = some n ∨ startsWith sI o = true ∧ n = getArg sI o b.head?)
  | [], _, _, _, _, h => .inl h
  | s :: l, i, r, n, k, h => by
    have step : ∀ r' : Option (Text × Nat), dynLinker l (i + 1) r' = some (n, k) → r' = some (n, k) ∨
        ∃ (a : List Text) (o : Text) (b : List Text), s :: l = a ++ o :: b ∧ k = i + a.length ∧
          (isOpt o = true ∧ b.head? = some n ∨ startsWith sI o = true ∧ n = getArg sI o b.head?) := by
      intro r' h
      rcases dyn_found l (i + 1) r' n k h with h | ⟨a, o, b, h1, h2, h3⟩
      · exact .inl h
      · exact .inr ⟨s :: a, o, b, by rw [h1]; rfl, by simp only [List.length_cons]; omega, h3⟩
    simp only [dynLinker] at h
    split at h
    · rcases step _ h with h' | h'
      · cases h'; exact .inr ⟨[], s, _, rfl, rfl, .inl ⟨by assumption, rfl⟩⟩
      · exact .inr h'
    · split at h
      · rename_i hs
        rcases step _ h with h' | h'
        · cases h'; exact .inr ⟨[], s, _, rfl, rfl, .inr ⟨hs, rfl⟩⟩
        · exact .inr h'
      · exact step _ h

/-- Nothing that looks like `-I`. -/
def NoI (cmd : List Text) : Prop := ∀ s ∈ cmd, startsWith sI s = false

theorem dyn_cons {s : Text} {l : List Text} (hs : startsWith sI s = false) (i : Nat) (r : Option (Text × Nat)) :
    dynLinker (s :: l) i r = dynLinker l (i + 1) (match isOpt s, l with | true, n :: _ => some (n, i) | _, _ => r) := by
  simp only [dynLinker, isOpt]
  split
  · rename_i h; rw [h]
  · rename_i hh
    rw [if_neg (by rw [hs]; exact Bool.false_ne_true)]
    congr 1
    split
    · rename_i h; exact absurd rfl (fun e => hh _ _ h e)
    · rfl

/-- The result does not depend on what was found before, unless nothing is found. -/
theorem dyn_or : ∀ (l : List Text) (_ : NoI l) (i : Nat) (r : Option (Text × Nat)), dynLinker l i r = (dynLinker l i none).or r
  | [], _, _, r => by simp [dynLinker]
  | s :: l, h, i, r => by
    have ih := dyn_or l (fun x hx => h x (by simp [hx])) (i + 1)
    rw [dyn_cons (h s (by simp)), dyn_cons (h s (by simp)), ih]
    conv => rhs; rw [ih]
    split <;> simp

theorem dyn_split : ∀ (l : List Text) (_ : NoI l) (i : Nat) (n : Text) (k : Nat), dynLinker l i none = some (n, k) →
    ∃ (a : List Text) (o : Text) (b : List Text), l = a ++ o :: n :: b ∧ isOpt o = true ∧ k = i + a.length ∧ ∀ j, dynLinker (n :: b) j none = none
  | [], _, _, _, _, h => by cases h
  | s :: l, hi, i, n, k, h => by
    rw [dyn_cons (hi s (by simp)), dyn_or l fun x hx => hi x (by simp [hx])] at h
    cases hl : dynLinker l (i + 1) none with
    | some p =>
      rw [hl, Option.some_or] at h
      cases h
      obtain ⟨a, o, b, h1, h2, h3, h4⟩ := dyn_split l (fun x hx => hi x (by simp [hx])) (i + 1) n k hl
      exact ⟨s :: a, o, b, by rw [h1]; rfl, h2, by simp only [List.length_cons]; omega, h4⟩
    | none =>
      rw [hl, Option.none_or] at h
      cases ho : isOpt s with
      | false => rw [ho] at h; cases h
      | true =>
        cases l with
        | nil => rw [ho] at h; cases h
        | cons m b =>
          rw [ho] at h
          cases h
          refine ⟨[], s, b, rfl, ho, by simp, fun j => ?_⟩
          have indep : ∀ (l : List Text) (_ : NoI l) (i j : Nat), dynLinker l i none = none → dynLinker l j none = none := by
            intro l
            induction l with
            | nil => intro _ _ _ _; rfl
            | cons c l ih =>
              intro hi i j h
              rw [dyn_cons (hi c (by simp)), dyn_or l fun x hx => hi x (by simp [hx])] at h
              rw [dyn_cons (hi c (by simp)), dyn_or l fun x hx => hi x (by simp [hx])]
              rw [Option.or_eq_none_iff] at h
              rw [Option.or_eq_none_iff]
              refine ⟨ih (fun x hx => hi x (by simp [hx])) _ _ h.1, ?_⟩
              have := h.2
              split at this
              · cases this
              · rfl
          exact indep _ (fun x hx => hi x (by simp [hx])) _ j hl

theorem dyn_append : ∀ (a : List Text) {c : List Text} (_ : NoI (a ++ c)) (i : Nat) (r : Option (Text × Nat)) (x : Text × Nat),
    dynLinker c (i + a.length) none = some x → dynLinker (a ++ c) i r = some x
  | [], c, hi, i, r, x, h => by
    rw [List.nil_append, dyn_or c (by simpa using hi)]
    simp only [List.length_nil, Nat.add_zero] at h
    rw [h, Option.some_or]
  | s :: a, c, hi, i, r, x, h => by
    rw [List.cons_append, dyn_cons (hi s (by simp))]
    refine dyn_append a (fun y hy => hi y (by simp only [List.cons_append, List.mem_cons]; exact .inr hy)) (i + 1) _ x ?_
    rw [← h]
    congr 1
    simp only [List.length_cons]; omega

theorem dyn_at {o n : Text} {b : List Text} (hi : NoI (o :: n :: b)) (ho : isOpt o = true) (i : Nat) (hb : ∀ j, dynLinker (n :: b) j none = none) :
    dynLinker (o :: n :: b) i none = some (n, i) := by
  rw [dyn_cons (hi o (by simp)), ho]
  rw [dyn_or _ fun x hx => hi x (by simp [hx]), hb]
  rfl

/-- **C127** (partial: the option and the dynamic linker are two arguments, and nothing begins with `-I`).  If the system's dynamic linker is named last, just that argument
becomes ours; then the linker is not restarted again. -/
theorem allocsld_partial {same : Text → Bool} {sys ld : Text} {cmd new : List Text} (hi : NoI cmd) (hl : same ld = true) (hl2 : isOpt ld = false)
    (hl3 : startsWith sI ld = false) (hl4 : ld ≠ []) (h : allocsld same sys ld cmd = .restart new) :
    ((∃ (a : List Text) (o : Text) (b : List Text), cmd = a ++ o :: sys :: b ∧ new = a ++ o :: ld :: b ∧ isOpt o = true) ∨ new = cmd ++ [sDyn2, ld]) ∧
    allocsld same sys ld new = .keep := by
  have keep : ∀ new k, dynLinker new 0 none = some (ld, k) → allocsld same sys ld new = .keep := by
    intro new k h
    unfold allocsld
    rw [h]
    simp only
    rw [if_neg hl4, if_pos hl]
  unfold allocsld at h
  cases hd : dynLinker cmd 0 none with
  | none =>
    rw [hd] at h
    cases h
    refine ⟨.inr rfl, ?_⟩
    refine keep _ cmd.length (dyn_append cmd (c := [sDyn2, ld]) ?_ 0 none (ld, cmd.length) ?_)
    · intro s hs
      rcases List.mem_append.mp hs with hs | hs
      · exact hi s hs
      · simp only [List.mem_cons, List.not_mem_nil, or_false] at hs
        rcases hs with rfl | rfl
        · decide
        · exact hl3
    · rw [Nat.zero_add]
      refine dyn_at (b := []) ?_ (by decide) _ ?_
      · intro s hs
        simp only [List.mem_cons, List.not_mem_nil, or_false] at hs
        rcases hs with rfl | rfl
        · decide
        · exact hl3
      · intro j
        rw [dyn_cons hl3, hl2]
        rfl
  | some p =>
    obtain ⟨n, k⟩ := p
    rw [hd] at h
    simp only at h
    obtain ⟨a, o, b, h1, h2, h3, h4⟩ := dyn_split cmd hi 0 n k hd
    split at h
    · cases h
    · split at h
      · cases h
      · split at h
        · cases h
        · rename_i hsys
          have hsys : n = sys := Decidable.not_not.mp hsys
          subst hsys
          split at h
          · cases h
            have hnew : cmd.set (k + 1) ld = a ++ o :: ld :: b := by
              rw [h1, h3, Nat.zero_add]
              rw [List.set_append_right _ _ (by omega)]
              rw [show a.length + 1 - a.length = 1 by omega]
              rfl
            have hi2 : NoI (a ++ o :: ld :: b) := by
              intro s hs
              simp only [List.mem_append, List.mem_cons] at hs
              rcases hs with hs | rfl | rfl | hs
              · exact hi s (by rw [h1]; simp [hs])
              · exact hi s (by rw [h1]; simp)
              · exact hl3
              · exact hi s (by rw [h1]; simp [hs])
            refine ⟨.inl ⟨a, o, b, h1, hnew, h2⟩, ?_⟩
            rw [hnew]
            refine keep _ (0 + a.length) (dyn_append a hi2 0 none _ ?_)
            refine dyn_at (fun s hs => hi2 s (by simp only [List.mem_append]; exact .inr hs)) h2 _ ?_
            intro j
            rw [dyn_cons hl3, hl2]
            have hib : NoI b := fun s hs => hi s (by rw [h1]; simp [hs])
            have hin : startsWith sI n = false := hi n (by rw [h1]; simp)
            have h4' := h4 j
            rw [dyn_cons hin, dyn_or b hib, Option.or_eq_none_iff] at h4'
            exact h4'.1
          · cases h

/-- If the system's dynamic linker is named in one argument with the option, the argument after it is lost. -/
theorem joined_fails : allocsld (fun s => decide (s = t "/la/ld.so")) (t "/lib/ld.so") (t "/la/ld.so") [t "-I/lib/ld.so", t "m.o", t "n.o"] =
    .restart [t "-I/lib/ld.so", t "/la/ld.so", t "n.o"] := by decide +kernel

/-! ## Concrete cases -/

/-- If it is the last argument, what is after the end is written. -/
theorem joined_last_fails : allocsld (fun s => decide (s = t "/la/ld.so")) (t "/lib/ld.so") (t "/la/ld.so") [t "ld", t "m.o", t "-I/lib/ld.so"] =
    .undefined := by decide +kernel

example : words .plain none (t "usedtypes" ++ argsText [t "it's.o", t "a b$.o"]) = some [t "usedtypes", t "it's.o", t "a b$.o"] := by decide +kernel

example : xwrap isX (t "xwrap.so") [t "free", t "malloc"] [t "-o", t "m", t "m.o"] =
    .restart [t "-o", t "m", t "m.o", t "-plugin=xwrap.so", t "-plugin-opt=malloc", t "-plugin-opt=free"] := by decide +kernel

example : allocsld (fun s => decide (s = t "/la/ld.so")) (t "/lib/ld.so") (t "/la/ld.so") [t "-dynamic-linker", t "/lib/ld.so", t "m.o"] =
    .restart [t "-dynamic-linker", t "/la/ld.so", t "m.o"] := by decide +kernel

end Liballocs.LinkArgs
