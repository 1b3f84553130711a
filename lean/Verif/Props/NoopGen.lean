import Verif.Model.NoopGen
import Verif.Props.IfuncPos
/-! # C186: Functions that do nothing, and those that choose -/
namespace Liballocs.NoopGen

open CcArgs
open IfuncPos (Text basename)

/-! ## The list of symbols -/

/-- Fields with tabs between them. -/
def tabbed : List Text → Text
  | [] => []
  | [x] => x
  | x :: y :: l => x ++ '\t' :: tabbed (y :: l)

theorem take_field {x : Text} (t : Text) (h : '\t' ∉ x) : (x ++ '\t' :: t).takeWhile (fun c => decide (c ≠ '\t')) = x ∧
    (x ++ '\t' :: t).dropWhile (fun c => decide (c ≠ '\t')) = '\t' :: t := by
  induction x with
  | nil => simp
  | cons c x ih =>
    have h1 : c ≠ '\t' := fun e => h (by rw [e]; exact List.mem_cons_self)
    have h2 := ih (fun m => h (List.mem_cons_of_mem _ m))
    simp only [List.cons_append, List.takeWhile_cons, List.dropWhile_cons, h1, ne_eq, not_false_eq_true, decide_true, if_true]
    exact ⟨by rw [h2.1], h2.2⟩

theorem take_last {x : Text} (h : '\t' ∉ x) : x.takeWhile (fun c => decide (c ≠ '\t')) = x ∧ x.dropWhile (fun c => decide (c ≠ '\t')) = [] := by
  induction x with
  | nil => simp
  | cons c x ih =>
    have h1 : c ≠ '\t' := fun e => h (by rw [e]; exact List.mem_cons_self)
    have h2 := ih (fun m => h (List.mem_cons_of_mem _ m))
    simp only [List.takeWhile_cons, List.dropWhile_cons, h1, ne_eq, not_false_eq_true, decide_true, if_true]
    exact ⟨by rw [h2.1], h2.2⟩

theorem field_nil : ∀ n, field n [] = []
  | 0 => rfl
  | n + 1 => by rw [field]; exact field_nil n

/-- The fields of a line are what is between the tabs; those that a line does not have are empty. -/
theorem field_tabbed : ∀ (fs : List Text) (n : Nat), (∀ x ∈ fs, '\t' ∉ x) → (∀ x, fs[n]? = some x → field n (tabbed fs) = x) ∧ (fs[n]? = none → field n (tabbed fs) = [])
  | [], n, _ => ⟨fun x h => by simp at h, fun _ => field_nil n⟩
  | [x], 0, h => ⟨fun y e => by simp at e; subst e; exact (take_last (h x List.mem_cons_self)).1, fun e => by simp at e⟩
  | [x], n + 1, h => by
    refine ⟨fun y e => by simp at e, fun _ => ?_⟩
    rw [tabbed, field, (take_last (h x List.mem_cons_self)).2]
    exact field_nil n
  | x :: y :: l, 0, h => ⟨fun z e => by
      simp at e
      subst e
      rw [tabbed, field]
      exact (take_field _ (h x List.mem_cons_self)).1, fun e => by simp at e⟩
  | x :: y :: l, n + 1, h => by
    rw [tabbed, field, (take_field _ (h x List.mem_cons_self)).2, List.getElem?_cons_succ]
    exact field_tabbed (y :: l) n (fun z hz => h z (List.mem_cons_of_mem _ hz))

/-- A list whose lines are of six fields and not too long is read whole: the names are the sixth ones, with the fifth ones as their visibility. Missing: others
(`long_never`, `short_never`). -/
theorem symbols_partial : ∀ (ls : List (Text × Text × Text × Text × Text × Text)),
    (∀ x ∈ ls, '\t' ∉ x.1 ∧ '\t' ∉ x.2.1 ∧ '\t' ∉ x.2.2.1 ∧ '\t' ∉ x.2.2.2.1 ∧ '\t' ∉ x.2.2.2.2.1 ∧ '\t' ∉ x.2.2.2.2.2) →
    (∀ x ∈ ls, (tabbed [x.1, x.2.1, x.2.2.1, x.2.2.2.1, x.2.2.2.2.1, x.2.2.2.2.2]).length < 4095) →
    symbols (ls.map (fun x => tabbed [x.1, x.2.1, x.2.2.1, x.2.2.2.1, x.2.2.2.2.1, x.2.2.2.2.2])) = ls.map (fun x => (x.2.2.2.2.2, x.2.2.2.2.1))
  | [], _, _ => rfl
  | x :: ls, ht, hl => by
    have ih := symbols_partial ls (fun y hy => ht y (List.mem_cons_of_mem _ hy)) (fun y hy => hl y (List.mem_cons_of_mem _ hy))
    have h1 := hl x List.mem_cons_self
    obtain ⟨t1, t2, t3, t4, t5, t6⟩ := ht x List.mem_cons_self
    have hf : ∀ y ∈ [x.1, x.2.1, x.2.2.1, x.2.2.2.1, x.2.2.2.2.1, x.2.2.2.2.2], '\t' ∉ y := by
      intro y hy
      simp only [List.mem_cons, List.not_mem_nil, or_false] at hy
      rcases hy with e | e | e | e | e | e <;> rw [e] <;> assumption
    rw [List.map_cons, List.map_cons, symbols, if_pos (by unfold LINE; omega), ih, (field_tabbed _ 5 hf).1 _ rfl, (field_tabbed _ 4 hf).1 _ rfl]

/-- **Fails** after a line that is too long: the rest of the list is left unread, and nothing is said. -/
theorem long_never (ls ms : List Text) (t : Text) (h : 4095 ≤ t.length) : symbols (ls ++ t :: ms) = symbols ls := by
  induction ls with
  | nil =>
    show symbols (t :: ms) = []
    rw [symbols.eq_2, if_neg (by unfold LINE; omega)]
  | cons x l ih => rw [List.cons_append, symbols, symbols, ih]

/-- **Fails** for lines of fewer fields: they are taken to name the empty symbol. -/
theorem short_never (fs : List Text) (ht : ∀ x ∈ fs, '\t' ∉ x) (h : fs.length ≤ 5) (hl : (tabbed fs).length < 4095) : (symbols [tabbed fs]).map (·.1) = [[]] := by
  rw [symbols, if_pos (by unfold LINE; omega), symbols, List.map_cons, List.map_nil, (field_tabbed fs 5 ht).2 (List.getElem?_eq_none h)]

/-! ## What is generated -/

/-- An entry that is to be generated. -/
def Wanted (syms : List (Text × Text)) (n : Text) (d : Die) : Prop :=
  d.name = some n ∧ (∃ v, (n, v) ∈ syms) ∧ d.exported ≠ some false ∧ (d.kind = .var true ∨ ∃ e f, d.kind = .sub e f ∧ (e = some true → f = none))

theorem eligible_iff {syms : List (Text × Text)} {n : Text} {d : Die} (hn : d.name = some n) : eligible syms d = true ↔ Wanted syms n d := by
  unfold eligible Wanted
  rw [hn]
  have h1 : kindOk d.kind = true ↔ (d.kind = .var true ∨ ∃ e f, d.kind = .sub e f ∧ (e = some true → f = none)) := by
    cases hk : d.kind with
    | var s => simp [kindOk]
    | other => simp [kindOk]
    | sub e f =>
      have h3 : (Kind.sub e f = .var true ∨ ∃ e' f', Kind.sub e f = .sub e' f' ∧ (e' = some true → f' = none)) ↔ (e = some true → f = none) := by
        constructor
        · rintro (h | ⟨_, _, h, h'⟩)
          · cases h
          · cases h; exact h'
        · exact fun h => Or.inr ⟨e, f, rfl, h⟩
      rw [h3]
      cases e with
      | none => simp [kindOk]
      | some e => cases e <;> cases f <;> simp [kindOk]
  have h2 : syms.any (fun x => decide (x.1 = n)) = true ↔ ∃ v, (n, v) ∈ syms := by
    rw [List.any_eq_true]
    constructor
    · rintro ⟨⟨a, v⟩, hm, e⟩; exact ⟨v, by simp at e; subst e; exact hm⟩
    · rintro ⟨v, hm⟩; exact ⟨_, hm, by simp⟩
  simp only [Bool.and_eq_true, h1, h2, bne_iff_ne, ne_eq, true_and]
  constructor
  · rintro ⟨⟨a, b⟩, c⟩; exact ⟨c, b, a⟩
  · rintro ⟨c, b, a⟩; exact ⟨⟨a, b⟩, c⟩

theorem chosen_concat (syms : List (Text × Text)) (ds : List Die) (d : Die) : chosen syms (ds ++ [d]) =
    match d.name with
    | none => chosen syms ds
    | some n => if eligible syms d then (if (chosen syms ds).any (fun x => decide (x.1 = n)) then chosen syms ds else chosen syms ds ++ [(n, d)]) else chosen syms ds := by
  unfold chosen
  rw [List.foldl_append]
  rfl

/-- For each name what is generated is the first entry of the name that is to be, and if there is one then it is generated. -/
theorem chosen_iff (syms : List (Text × Text)) (n : Text) (d : Die) (ds : List Die) :
    (n, d) ∈ chosen syms ds ↔ ∃ l r, ds = l ++ d :: r ∧ Wanted syms n d ∧ ∀ x ∈ l, ¬ Wanted syms n x := by
  suffices H : ∀ k (ds : List Die), ds.length = k → ∀ n d, (n, d) ∈ chosen syms ds ↔ ∃ l r, ds = l ++ d :: r ∧ Wanted syms n d ∧ ∀ x ∈ l, ¬ Wanted syms n x from
    H _ ds rfl n d
  intro k
  induction k with
  | zero =>
    intro ds hk n d
    rw [List.length_eq_zero_iff] at hk
    subst hk
    simp [chosen]
  | succ k ih =>
    intro ds hk n d
    obtain ⟨ds, c, rfl⟩ : ∃ l c, ds = l ++ [c] := by
      rcases List.eq_nil_or_concat ds with rfl | ⟨l, c, e⟩
      · cases hk
      · exact ⟨l, c, by rw [e, List.concat_eq_append]⟩
    have hl : ds.length = k := by simpa using hk
    have ih := ih ds hl
    -- what the right side says of a list with one more entry
    have ext : (∃ l r, ds ++ [c] = l ++ d :: r ∧ Wanted syms n d ∧ ∀ x ∈ l, ¬ Wanted syms n x) ↔
        ((n, d) ∈ chosen syms ds ∨ (d = c ∧ Wanted syms n c ∧ ∀ x ∈ ds, ¬ Wanted syms n x)) := by
      rw [ih]
      constructor
      · rintro ⟨l, r, e, h1, h2⟩
        rcases List.eq_nil_or_concat r with rfl | ⟨r', y, rfl⟩
        · obtain ⟨e1, e2⟩ := List.append_inj' e rfl
          simp only [List.cons.injEq, and_true] at e2
          subst e1; subst e2
          exact Or.inr ⟨rfl, h1, h2⟩
        · have : ds ++ [c] = (l ++ d :: r') ++ [y] := by rw [e]; simp
          obtain ⟨e1, _⟩ := List.append_inj' this rfl
          exact Or.inl ⟨l, r', e1, h1, h2⟩
      · rintro (⟨l, r, e, h1, h2⟩ | ⟨rfl, h1, h2⟩)
        · exact ⟨l, r ++ [c], by rw [e]; simp, h1, h2⟩
        · exact ⟨ds, [], rfl, h1, h2⟩
    rw [ext, chosen_concat]
    cases hn : c.name with
    | none =>
      constructor
      · exact Or.inl
      · rintro (h | ⟨_, h, _⟩)
        · exact h
        · rw [h.1] at hn; cases hn
    | some m =>
      simp only
      by_cases he : eligible syms c = true
      · have hw := (eligible_iff hn).1 he
        rw [if_pos he]
        by_cases ha : (chosen syms ds).any (fun x => decide (x.1 = m)) = true
        · rw [if_pos ha]
          constructor
          · exact Or.inl
          · rintro (h | ⟨_, h, h2⟩)
            · exact h
            · have : n = m := by have := h.1; rw [hn] at this; cases this; rfl
              subst this
              obtain ⟨⟨a, y⟩, hm, e⟩ := List.any_eq_true.1 ha
              simp at e
              subst e
              obtain ⟨l, r, e, w, _⟩ := (ih _ _).1 hm
              exact absurd w (h2 y (by rw [e]; simp))
        · rw [if_neg ha, List.mem_append, List.mem_singleton]
          constructor
          · rintro (h | h)
            · exact Or.inl h
            · cases h
              refine Or.inr ⟨rfl, hw, fun x hx hwx => ?_⟩
              -- the first entry that is wanted would have been chosen
              have first : ∀ (l : List Die), (∃ x ∈ l, Wanted syms n x) → ∃ a y b, l = a ++ y :: b ∧ Wanted syms n y ∧ ∀ x ∈ a, ¬ Wanted syms n x := by
                intro l
                induction l with
                | nil => rintro ⟨x, hx, _⟩; cases hx
                | cons z l ihl =>
                  intro hx
                  by_cases hz : Wanted syms n z
                  · exact ⟨[], z, l, rfl, hz, by simp⟩
                  · obtain ⟨x, hx, hw⟩ := hx
                    rcases List.mem_cons.1 hx with rfl | hx
                    · exact absurd hw hz
                    · obtain ⟨a, y, b, e, w, h⟩ := ihl ⟨x, hx, hw⟩
                      exact ⟨z :: a, y, b, by rw [e]; rfl, w, fun u hu => by
                        rcases List.mem_cons.1 hu with rfl | hu
                        · exact hz
                        · exact h u hu⟩
              obtain ⟨a, y, b, e, w, h⟩ := first ds ⟨x, hx, hwx⟩
              exact ha (List.any_eq_true.2 ⟨(n, y), (ih n y).2 ⟨a, b, e, w, h⟩, by simp⟩)
          · rintro (h | ⟨rfl, h, _⟩)
            · exact Or.inl h
            · have : n = m := by have := h.1; rw [hn] at this; cases this; rfl
              subst this
              exact Or.inr rfl
      · rw [if_neg he]
        constructor
        · exact Or.inl
        · rintro (h | ⟨_, h, _⟩)
          · exact h
          · have : n = m := by have := h.1; rw [hn] at this; cases this; rfl
            subst this
            exact absurd ((eligible_iff hn).2 h) he

/-- No name is generated twice. -/
theorem chosen_nodup (syms : List (Text × Text)) (ds : List Die) : ((chosen syms ds).map (·.1)).Nodup := by
  suffices H : ∀ k (ds : List Die), ds.length = k → ((chosen syms ds).map (·.1)).Nodup from H _ ds rfl
  intro k
  induction k with
  | zero =>
    intro ds hk
    rw [List.length_eq_zero_iff] at hk
    subst hk
    simp [chosen]
  | succ k ih =>
    intro ds hk
    rcases List.eq_nil_or_concat ds with rfl | ⟨l, c, e⟩
    · cases hk
    · rw [List.concat_eq_append] at e
      subst e
      have ih := ih l (by simpa using hk)
      rw [chosen_concat]
      cases c.name with
      | none => exact ih
      | some m =>
        simp only
        split
        · split
          · exact ih
          · rename_i ha
            rw [List.map_append, List.nodup_append]
            refine ⟨ih, by simp, ?_⟩
            intro a ha' b hb e
            simp only [List.map_cons, List.map_nil, List.mem_singleton] at hb
            subst hb
            subst e
            obtain ⟨x, hx, e⟩ := List.mem_map.1 ha'
            exact ha (List.any_eq_true.2 ⟨x, hx, by simp [e]⟩)
        · exact ih

/-- Every symbol of a list that is read whole gets a definition just when an entry of its name is to be generated, and nothing else gets one. -/
theorem generated_iff (syms : List (Text × Text)) (ds : List Die) (n : Text) : n ∈ (chosen syms ds).map (·.1) ↔ ∃ d ∈ ds, Wanted syms n d := by
  rw [List.mem_map]
  constructor
  · rintro ⟨⟨a, d⟩, h, rfl⟩
    obtain ⟨l, r, e, w, _⟩ := (chosen_iff syms a d ds).1 h
    exact ⟨d, by rw [e]; simp, w⟩
  · intro hx
    suffices first : ∀ l : List Die, (∃ x ∈ l, Wanted syms n x) → ∃ a y b, l = a ++ y :: b ∧ Wanted syms n y ∧ ∀ x ∈ a, ¬ Wanted syms n x by
      obtain ⟨a, y, b, e, w, h⟩ := first ds hx
      exact ⟨(n, y), (chosen_iff syms n y ds).2 ⟨a, b, e, w, h⟩, rfl⟩
    intro l
    induction l with
    | nil => rintro ⟨x, hx, _⟩; cases hx
    | cons z l ihl =>
      rintro ⟨x, hx, hw⟩
      by_cases hz : Wanted syms n z
      · exact ⟨[], z, l, rfl, hz, by simp⟩
      · rcases List.mem_cons.1 hx with rfl | hx
        · exact absurd hw hz
        · obtain ⟨a, y, b, e, w, h⟩ := ihl ⟨x, hx, hw⟩
          exact ⟨z :: a, y, b, by rw [e]; rfl, w, fun u hu => by
            rcases List.mem_cons.1 hu with rfl | hu
            · exact hz
            · exact h u hu⟩

/-- What has no name is not to be generated. -/
theorem nameless (syms : List (Text × Text)) (d : Die) : eligible syms d = true ↔ ∃ n, Wanted syms n d := by
  cases hn : d.name with
  | none =>
    constructor
    · intro h; simp [eligible, hn] at h
    · rintro ⟨n, w⟩; rw [w.1] at hn; cases hn
  | some m =>
    rw [eligible_iff hn]
    exact ⟨fun h => ⟨m, h⟩, fun ⟨n, w⟩ => by have := w.1; rw [hn] at this; cases this; exact w⟩

/-- **Fails** for an alias: nothing is generated for a symbol that no entry has as its name. -/
theorem alias_never (syms : List (Text × Text)) (n : Text) (ds : List Die) (h : ∀ d ∈ ds, d.name ≠ some n) (d : Die) : (n, d) ∉ chosen syms ds := by
  intro hm
  obtain ⟨l, r, e, w, _⟩ := (chosen_iff syms n d ds).1 hm
  exact h d (by rw [e]; simp) w.1

/-! ## Functions that choose -/

theorem visibility_some {syms : List (Text × Text)} {s v : Text} (h : (s, v) ∈ syms) (hu : ∀ w, (s, w) ∈ syms → w = v) : visibility syms s = some v := by
  unfold visibility
  cases e : syms.reverse.find? (fun x => decide (x.1 = s)) with
  | none =>
    rw [List.find?_eq_none] at e
    exact absurd (by simp) (e (s, v) (by simpa using h))
  | some x =>
    have h1 := List.find?_some e
    have h2 := List.mem_of_find?_eq_some e
    obtain ⟨a, w⟩ := x
    simp at h1 h2
    subst h1
    rw [hu w h2]
    rfl

/-- A function whose name is its symbol's gets one that chooses, of the symbol's name and visibility, which returns the real one or the one that does nothing, both declared
before. Missing: other functions (`renamed_never`, `nolinkage_aborts`). -/
theorem ifunc_partial {syms : List (Text × Text)} {n v : Text} {d : Die} (hd : d.linkage = some n) (h : (n, v) ∈ syms) (hu : ∀ w, (n, w) ∈ syms → w = v) :
    ∃ g, ifuncOf syms n d = some (some g) ∧ g.name = n ∧ g.vis = lower v ∧ g.head = w! "__yesop_" ++ n ∧ g.rest = w! "__noop_" ++ n ∧ g.head ∈ g.declared ∧ g.rest ∈ g.declared :=
  ⟨⟨[no n, yes n], n, yes n, no n, lower v⟩, by simp only [ifuncOf, hd, visibility_some h hu], rfl, rfl, rfl, rfl, by simp, by simp⟩

/-- **Fails** for a function whose symbol has another name than the function: what is returned is not declared. -/
theorem renamed_never {syms : List (Text × Text)} {n s : Text} {d : Die} (hd : d.linkage = some s) (hs : s ≠ n) {g : Ifunc} (h : ifuncOf syms n d = some (some g)) :
    g.head ∉ g.declared ∧ g.rest ∉ g.declared := by
  simp only [ifuncOf, hd] at h
  split at h
  · cases h
  · simp only [Option.some.injEq] at h
    subst h
    have h1 : ∀ a b : Text, yes a ≠ no b := fun a b e => by
      have := congrArg (fun t => t[2]?) e
      simp [yes, no] at this
    refine ⟨?_, ?_⟩
    · simp only [List.mem_cons, List.not_mem_nil, or_false, not_or]
      exact ⟨h1 _ _, fun e => hs (List.append_cancel_left e)⟩
    · simp only [List.mem_cons, List.not_mem_nil, or_false, not_or]
      exact ⟨fun e => hs (List.append_cancel_left e), fun e => h1 _ _ e.symm⟩

/-- A function without a linkage name, as those of C are in debugging information, ends the program. -/
theorem nolinkage_aborts (syms : List (Text × Text)) (n : Text) (d : Die) (h : d.linkage = none) : ifuncOf syms n d = none := by
  simp only [ifuncOf, h]

/-- The program's name decides what is generated, whatever directory it is in. -/
theorem mode_iff (dir : Text) (name : Text) (h : '/' ∉ name) (m : Mode) :
    modeOf (dir ++ ['/'] ++ name) = some m ↔ (name = w! "noopgen" ∧ m = .noop) ∨ (name = w! "ifuncgen" ∧ m = .ifunc) := by
  unfold modeOf
  rw [IfuncPos.basename_dir name h dir]
  by_cases h1 : name = w! "noopgen"
  · subst h1; cases m <;> simp
  · by_cases h2 : name = w! "ifuncgen"
    · subst h2; cases m <;> simp
    · simp [h1, h2]

/-! ## Cases -/

def exLines : List Text := [w! "a.so\t10\tFUNC\tGLOBAL\tDEFAULT\tf", w! "a.so\t20\tOBJECT\tGLOBAL\tPROTECTED\tv", w! "a.so\t10\tFUNC\tGLOBAL\tDEFAULT\tf_alias"]
def exDies : List Die := [⟨1, some (w! "f"), .sub (some true) (some true), none, none⟩, ⟨2, some (w! "f"), .sub none (some true), none, some (w! "f")⟩,
  ⟨3, some (w! "v"), .var true, none, none⟩, ⟨4, some (w! "f"), .sub none (some true), none, some (w! "f")⟩, ⟨5, some (w! "g"), .sub none none, none, none⟩]

example : symbols exLines = [(w! "f", w! "DEFAULT"), (w! "v", w! "PROTECTED"), (w! "f_alias", w! "DEFAULT")] := by decide +kernel
example : (chosen (symbols exLines) exDies).map (fun x => (x.1, x.2.id)) = [(w! "f", 2), (w! "v", 3)] := by decide +kernel
example : (ifuncOf (symbols exLines) (w! "f") ⟨2, some (w! "f"), .sub none (some true), none, some (w! "f")⟩) =
    some (some ⟨[w! "__noop_f", w! "__yesop_f"], w! "f", w! "__yesop_f", w! "__noop_f", w! "default"⟩) := by decide +kernel
example : modeOf (w! "/usr/bin/ifuncgen") = some .ifunc := by decide +kernel

end Liballocs.NoopGen
