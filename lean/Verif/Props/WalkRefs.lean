import Verif.Model.WalkRefs
import Verif.Props.Walk
namespace Liballocs.WalkRefs
open Liballocs.Walk

/-! # Walks of references and environment elements -/

variable {σ : Type}

/-! ## Specification -/

/-- The topmost items of a forest that are wanted, reached only through items that may be entered, in pre-order. -/
def tops (want enter : Rep → Bool) : Forest → List Rep
  | .nil => []
  | .cons r kids sibs =>
    (if want r then [r] else if enter r then tops want enter kids else []) ++ tops want enter sibs

/-- The client is called for each in turn; an answer other than 0 and -1 ends the walk and is its result. -/
def feed (cb : σ → Rep → σ × Int) : List Rep → σ → σ × Int
  | [], s => (s, 0)
  | r :: l, s => if (cb s r).2 = 0 ∨ (cb s r).2 = -1 then feed cb l (cb s r).1 else cb s r

/-- `x` is a proper part of a forest item: `Below F a b` says `b` is strictly inside `a`. -/
inductive Occurs : Forest → Rep → Prop where
  | here (r k s) : Occurs (.cons r k s) r
  | kid {r k s x} : Occurs k x → Occurs (.cons r k s) x
  | sib {r k s x} : Occurs s x → Occurs (.cons r k s) x

inductive Inside : Forest → Rep → Rep → Prop where
  | here {r k s x} : Occurs k x → Inside (.cons r k s) r x
  | kid {r k s x y} : Inside k x y → Inside (.cons r k s) x y
  | sib {r k s x y} : Inside s x y → Inside (.cons r k s) x y

/-! ## The walk does what the specification says -/

theorem feed_append (cb : σ → Rep → σ × Int) (l l' : List Rep) (s : σ) :
    feed cb (l ++ l') s = if (feed cb l s).2 ≠ 0 then feed cb l s else feed cb l' (feed cb l s).1 := by
  induction l generalizing s with
  | nil => rfl
  | cons r l ih =>
    rw [List.cons_append, feed, feed]
    by_cases h : (cb s r).2 = 0 ∨ (cb s r).2 = -1
    · rw [if_pos h, if_pos h, ih]
    · rw [if_neg h, if_neg h, if_pos (by omega)]

/-- A walk callback that answers as a filter in front of a client's. -/
structure Filters {τ : Type} (f : τ → Rep → τ × Int) (cb : τ → Rep → τ × Int) (want enter : Rep → Bool) : Prop where
  hit : ∀ s r, want r = true → (f s r).1 = (cb s r).1 ∧ (f s r).2 = if (cb s r).2 ≠ 0 then (cb s r).2 else -1
  miss : ∀ s r, want r = false → f s r = (s, if enter r then 0 else -1)

theorem scan_tops {τ : Type} {f cb : τ → Rep → τ × Int} {want enter : Rep → Bool} (hf : Filters f cb want enter) :
    ∀ (F : Forest) (s : τ) (d : Nat) (rest : List (Nat × Rep)), (∀ e, rest.head? = some e → e.1 ≤ d) →
      scan f none s (flat F d ++ rest) =
        if (feed cb (tops want enter F) s).2 ≠ 0 then feed cb (tops want enter F) s
        else scan f none (feed cb (tops want enter F) s).1 rest := by
  intro F
  induction F with
  | nil => intro s d rest _; rfl
  | cons r kids sibs ihk ihs =>
    intro s d rest hr
    have hhead : ∀ e, (flat sibs d ++ rest).head? = some e → e.1 ≤ d := by
      intro e he
      cases sibs with
      | nil => exact hr e he
      | cons r' k' s' => cases he; exact Nat.le_refl _
    rw [flat, List.cons_append, scan, if_neg (by simp [inside]), List.append_assoc, tops]
    have skip : ∀ s', scan f (some d) s' (flat kids (d+1) ++ (flat sibs d ++ rest)) = scan f none s' (flat sibs d ++ rest) := by
      intro s'
      rw [scan_pass f d s' kids (d+1) (by omega), scan_skip f d d (Nat.le_refl _) _ _ hhead]
    cases hw : want r with
    | true =>
      obtain ⟨h1, h2⟩ := hf.hit s r hw
      rw [if_pos rfl, List.singleton_append, feed]
      by_cases c0 : (cb s r).2 = 0
      · rw [if_neg (by omega)] at h2
        rw [if_pos h2, skip, if_pos (Or.inl c0), h1, ihs _ d rest hr]
      · rw [if_pos c0] at h2
        by_cases c1 : (cb s r).2 = -1
        · rw [if_pos (by omega), skip, if_pos (Or.inr c1), h1, ihs _ d rest hr]
        · have c2 : ¬ ((cb s r).2 = 0 ∨ (cb s r).2 = -1) := by omega
          rw [if_neg (by omega), if_pos (by omega), if_neg c2, if_pos c0]
          exact Prod.ext h1 h2
    | false =>
      have h := hf.miss s r hw
      rw [if_neg Bool.false_ne_true]
      cases he : enter r with
      | false =>
        rw [he, if_neg Bool.false_ne_true] at h
        rw [if_neg Bool.false_ne_true, h, if_pos (show ((s, (-1 : Int)) : τ × Int).2 = -1 from rfl), skip, ihs _ d rest hr, List.nil_append]
      | true =>
        rw [he, if_pos rfl] at h
        rw [if_pos (show true = true from rfl), h, if_neg (show ¬ ((s, (0 : Int)) : τ × Int).2 = -1 from by simp),
          if_neg (show ¬ ((s, (0 : Int)) : τ × Int).2 ≠ 0 from by simp), feed_append,
          ihk s (d+1) _ (fun e he => by have := hhead e he; omega)]
        by_cases c : (feed cb (tops want enter kids) s).2 ≠ 0
        · rw [if_pos c, if_pos c, if_pos c]
        · rw [if_neg c, if_neg c, ihs _ d rest hr]

theorem walk_tops {τ : Type} {f cb : τ → Rep → τ × Int} {want enter : Rep → Bool} (hf : Filters f cb want enter)
    (w : World) {p : Pos} {l : List Raw} (hu : Under w p l) {F : Forest} (hF : IsForest w [] l F) {fuel : Nat}
    (hh : height F ≤ fuel) (s : τ) : walkDf w fuel false p f s = .ok (feed cb (tops want enter F) s) := by
  rw [walk_df_partial w f hu hF hh]
  have := scan_tops hf F s 0 [] (by simp)
  rw [List.append_nil] at this
  rw [this]
  split
  · rfl
  · rename_i h
    rw [scan]
    congr 1
    exact Prod.ext rfl (Classical.not_not.mp h).symm

/-- What a client of a reference walk is called with: its state, and the interpreter's word on how the object refers. -/
def refClient (i : Interp) (cb : RefCb σ) (s : RefState σ) (r : Rep) : RefState σ × Int :=
  (⟨(cb ⟨s.user, i.canInterp r⟩ r).1, 0⟩, (cb ⟨s.user, i.canInterp r⟩ r).2)

/-- **C118** (partial).  On every finite allocation tree whose big allocations have a suballocator, a reference walk calls the
client for exactly the topmost references that can be reached through things that may contain references, in
pre-order, each with how it refers in `seen_how`; and it ends at the first answer other than 0 and -1, which it returns, with
`seen_how` cleared. -/
theorem refs_partial (w : World) (i : Interp) (cb : RefCb σ) {p : Pos} {l : List Raw} (hu : Under w p l)
    {F : Forest} (hF : IsForest w [] l F) {fuel : Nat} (hh : height F ≤ fuel) (s : σ) :
    walkRefs w fuel i cb p s =
      .ok (feed (refClient i cb) (tops (fun r => i.canInterp r != 0) i.mayContain F) ⟨s, 0⟩) := by
  refine walk_tops ⟨?_, ?_⟩ w hu hF hh _
  · intro s r h
    have h : i.canInterp r ≠ 0 := by simpa using h
    simp only [refsCb, refClient]
    rw [if_pos h]
    exact ⟨rfl, rfl⟩
  · intro s r h
    have h : i.canInterp r = 0 := by simpa using h
    simp only [refsCb, h, ne_eq, not_true_eq_false, if_false]
    cases i.mayContain r <;> rfl

/-- **C118** (partial).  An environment walk calls the client for exactly the topmost environment elements, in pre-order,
each with its key, until an answer other than 0 and -1. -/
theorem environ_partial (w : World) (i : Interp) (cb : σ → Nat → Rep → σ × Int) {p : Pos} {l : List Raw} (hu : Under w p l)
    {F : Forest} (hF : IsForest w [] l F) {fuel : Nat} (hh : height F ≤ fuel) (s : σ) :
    walkEnviron w fuel i cb p s =
      .ok (feed (fun s r => cb s (i.isEnviron r) r) (tops (fun r => i.isEnviron r != 0) (fun _ => true) F) s) := by
  refine walk_tops ⟨?_, ?_⟩ w hu hF hh _
  · intro s r h
    have h : i.isEnviron r ≠ 0 := by simpa using h
    simp only [environCb]
    rw [if_pos h]
    exact ⟨rfl, rfl⟩
  · intro s r h
    have h : i.isEnviron r = 0 := by simpa using h
    simp [environCb, h]

/-! ## What the topmost ones are -/

/-- Only wanted items are among them, and all of them are in the tree. -/
theorem tops_sound (want enter : Rep → Bool) : ∀ (F : Forest) (r : Rep), r ∈ tops want enter F → want r = true ∧ Occurs F r := by
  intro F
  induction F with
  | nil => intro r h; cases h
  | cons a k s ihk ihs =>
    intro r h
    rw [tops, List.mem_append] at h
    rcases h with h | h
    · by_cases hw : want a = true
      · rw [if_pos hw, List.mem_singleton] at h
        subst h
        exact ⟨hw, .here _ _ _⟩
      · rw [if_neg hw] at h
        by_cases he : enter a = true
        · rw [if_pos he] at h
          exact ⟨(ihk r h).1, .kid (ihk r h).2⟩
        · rw [if_neg he] at h; cases h
    · exact ⟨(ihs r h).1, .sib (ihs r h).2⟩

/-- Every wanted item is among them unless it is inside another wanted item, or inside one that may not be entered. -/
theorem tops_complete (want enter : Rep → Bool) : ∀ (F : Forest) (r : Rep), Occurs F r → want r = true →
    r ∈ tops want enter F ∨ ∃ a, Inside F a r ∧ (want a = true ∨ enter a = false) := by
  intro F
  induction F with
  | nil => intro r h; cases h
  | cons a k s ihk ihs =>
    intro r h hw
    rw [tops, List.mem_append]
    cases h with
    | here => left; left; rw [if_pos hw]; exact List.mem_singleton.mpr rfl
    | kid h =>
      by_cases hwa : want a = true
      · exact .inr ⟨a, .here h, .inl hwa⟩
      · by_cases hea : enter a = true
        · rcases ihk r h hw with h' | ⟨b, hb, hc⟩
          · left; left; rw [if_neg hwa, if_pos hea]; exact h'
          · exact .inr ⟨b, .kid hb, hc⟩
        · exact .inr ⟨a, .here h, .inr (by simpa using hea)⟩
    | sib h =>
      rcases ihs r h hw with h' | ⟨b, hb, hc⟩
      · exact .inl (.inr h')
      · exact .inr ⟨b, .sib hb, hc⟩

/-- If the interpreter is right about what may contain references, then every reference is reported or is inside one that is
a reference itself. -/
theorem tops_all (want enter : Rep → Bool) (F : Forest)
    (hright : ∀ a r : Rep, Inside F a r → want r = true → want a = true ∨ enter a = true)
    (r : Rep) (h : Occurs F r) (hw : want r = true) :
    r ∈ tops want enter F ∨ ∃ a, Inside F a r ∧ want a = true := by
  rcases tops_complete want enter F r h hw with h' | ⟨a, ha, hc⟩
  · exact .inl h'
  · rcases hc with hc | hc
    · exact .inr ⟨a, ha, hc⟩
    · rcases hright a r ha hw with h1 | h1
      · exact .inr ⟨a, ha, h1⟩
      · rw [hc] at h1; cases h1

/-! ## A concrete tree, and where the claim fails -/

/-- An object at 1000 of type 10, with members at 0 (type 1, a pointer), 8 (type 11, itself with a pointer at 0 and a number
at 8) and 24 (type 2, a number). -/
def exW : World where
  bigs := fun _ => ⟨0, 0, [], 0, none, []⟩
  subobjs := fun t => if t = 10 then [(0, 1), (8, 11), (24, 2)] else if t = 11 then [(0, 1), (8, 2)] else []

def exI : Interp where
  canInterp := fun r => if r.t = some 1 then 5 else 0
  mayContain := fun r => r.t == some 11
  isEnviron := fun r => if r.t = some 11 then r.obj else if r.t = some 1 then r.obj else 0

def logCb (answer : Int) : RefCb (List (Nat × Int)) := fun s r => (s.user ++ [(r.obj, s.seenHow)], answer)

def seen : Out (RefState (List (Nat × Int)) × Int) → Option (List (Nat × Int) × Int × Int)
  | .ok (s, ret) => some (s.user, s.seenHow, ret)
  | _ => none

/-- Both pointers are reported, once, with their meaning. -/
example : seen (walkRefs exW 5 exI (logCb 0) (.typed 1000 10) []) = some ([(1000, 5), (1008, 5)], 0, 0) := by decide +kernel

/-- A positive answer stops at the first. -/
example : seen (walkRefs exW 5 exI (logCb 7) (.typed 1000 10) []) = some ([(1000, 5)], 0, 7) := by decide +kernel

/-- Environment elements: the one at 1008 hides the one inside it. -/
example : (match walkEnviron exW 5 exI (fun s key r => (s ++ [(r.obj, key)], 0)) (.typed 1000 10) [] with
    | .ok x => some x | _ => none) = some ([(1000, 1000), (1008, 1008)], 0) := by decide +kernel

/-- The assumptions of the theorems hold of this tree. -/
theorem exW_forest : ∃ l F, Under exW (.typed 1000 10) l ∧ IsForest exW [] l F ∧ height F ≤ 5 := by
  refine ⟨_, .cons ⟨none, 1000, some 1, [(.typed 1000 10, 1)]⟩ .nil
    (.cons ⟨none, 1008, some 11, [(.typed 1000 10, 2)]⟩
      (.cons ⟨none, 1008, some 1, [(.typed 1008 11, 1), (.typed 1000 10, 2)]⟩ .nil
        (.cons ⟨none, 1016, some 2, [(.typed 1008 11, 2), (.typed 1000 10, 2)]⟩ .nil .nil))
      (.cons ⟨none, 1024, some 2, [(.typed 1000 10, 3)]⟩ .nil .nil)), .typed 1000 10, ?_, by decide⟩
  have none_below : ∀ (base t : Nat), (t = 1 ∨ t = 2) → ∃ below, Under exW (.typed base t) below ∧ below = [] := by
    rintro base t (rfl | rfl) <;> exact ⟨_, .typed _ _, rfl⟩
  refine ⟨⟨rfl, rfl, rfl, rfl⟩, ?_, ⟨rfl, rfl, rfl, rfl⟩, ?_, ⟨rfl, rfl, rfl, rfl⟩, ?_, trivial⟩
  · obtain ⟨b, h, rfl⟩ := none_below 1000 1 (.inl rfl); exact ⟨_, h, trivial⟩
  · refine ⟨_, .typed 1008 11, ⟨rfl, rfl, rfl, rfl⟩, ?_, ⟨rfl, rfl, rfl, rfl⟩, ?_, trivial⟩
    · obtain ⟨b, h, rfl⟩ := none_below 1008 1 (.inl rfl); exact ⟨_, h, trivial⟩
    · obtain ⟨b, h, rfl⟩ := none_below 1016 2 (.inr rfl); exact ⟨_, h, trivial⟩
  · obtain ⟨b, h, rfl⟩ := none_below 1024 2 (.inr rfl); exact ⟨_, h, trivial⟩

/-- **C118 fails**: "non-zero means stop" (src/walk.c:349) does not hold of -1: the walk goes on and returns 0. -/
theorem stop_fails : seen (walkRefs exW 5 exI (logCb (-1)) (.typed 1000 10) []) = some ([(1000, 5), (1008, 5)], 0, 0) := by
  decide +kernel

end Liballocs.WalkRefs
