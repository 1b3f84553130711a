import Verif.Proofs.Sizeof
import Verif.Props.CilTypes
/-!
# What an allocation site allocates

`dumpallocs` decides, for each call of an allocation function, of what type it allocates. Here: when its iteration ends, and that in every run of the
program the number of bytes is a multiple of that type's size.
-/
namespace Liballocs.Sizeof
open CilTypes

/-! ## What the program does -/

/-- Sizes of types. -/
structure Sizes where
  sz : Ty → Nat
  char : sz (.int .char) = 1
  arr : ∀ t n, sz (.arr t (some n)) = n * sz t
  flex : ∀ t, sz (.arr t none) = 0

/-- Values of parts of local variables. -/
abbrev Store := Nat → Nat → Option Nat

/-- What a run makes of globals, addresses and other expressions. -/
structure World where
  glob : Nat → Nat → Nat
  addr : Ty → Off → Nat
  rest : Nat → Nat

/-- Results must fit a machine word. -/
def fit (n : Nat) : Option Nat := if n < 2 ^ 64 then some n else none

/-- The value of an expression; none if it has none (an unset variable, a division by zero, a result that does not fit). -/
inductive Val (S : Sizes) (w : World) (ρ : Store) : Ex → Nat → Prop
  | mul {a b : Ex} {x y n : Nat} : Val S w ρ a x → Val S w ρ b y → fit (x * y) = some n → Val S w ρ (.mul a b) n
  | add {a b : Ex} {x y n : Nat} : Val S w ρ a x → Val S w ρ b y → fit (x + y) = some n → Val S w ρ (.add a b) n
  | div {a b : Ex} {x y : Nat} : Val S w ρ a x → Val S w ρ b y → y ≠ 0 → Val S w ρ (.div a b) (x / y)
  | sub {a b : Ex} {x y : Nat} : Val S w ρ a x → Val S w ρ b y → y ≤ x → Val S w ρ (.sub a b) (x - y)
  | size {t : Ty} {c : Bool} : Val S w ρ (.size t c) (S.sz t)
  | str {len : Nat} : Val S w ρ (.str len) len
  | local {v part n : Nat} : ρ v part = some n → Val S w ρ (.var false v part) n
  | glob {v part : Nat} : Val S w ρ (.var true v part) (w.glob v part)
  | cast {e : Ex} {n : Nat} : Val S w ρ e n → Val S w ρ (.cast e) n
  | addr {null : Bool} {t : Ty} {o : Off} : Val S w ρ (.addr null t o) (w.addr t o)
  | other {k : Nat} : Val S w ρ (.other k) (w.rest k)

/-- A store with a part of a variable set. -/
def Store.put (ρ : Store) (v part n : Nat) : Store := fun v' p' => if v' = v ∧ p' = part then some n else ρ v' p'

/-- A statement contains another. -/
inductive In : Stmt → Stmt → Prop
  | self (s : Stmt) : In s s
  | seq1 {s a b : Stmt} : In s a → In s (.seq a b)
  | seq2 {s a b : Stmt} : In s b → In s (.seq a b)
  | if1 {s a b : Stmt} : In s a → In s (.ifs a b)
  | if2 {s a b : Stmt} : In s b → In s (.ifs a b)
  | sw1 {s a b : Stmt} : In s a → In s (.switch a b)
  | sw2 {s a b : Stmt} : In s b → In s (.switch a b)
  | loop {s a : Stmt} : In s a → In s (.loop a)

/-- A function has a statement. -/
def Has (f : List Stmt) (s : Stmt) : Prop := ∃ t ∈ f, In s t

/-- Stores that a function's run may reach, whatever the order of its statements. -/
inductive Reach (S : Sizes) (f : List Stmt) (ρ₀ : Store) : Store → Prop
  | start : Reach S f ρ₀ ρ₀
  | set {ρ : Store} {w : World} {v part n : Nat} {e : Ex} : Reach S f ρ₀ ρ → Has f (.set false v part e) → Val S w ρ e n → Reach S f ρ₀ (ρ.put v part n)
  | call {ρ : Store} {v part : Nat} (n : Nat) : Reach S f ρ₀ ρ → Has f (.call (some (v, part))) → Reach S f ρ₀ (ρ.put v part n)

/-- A sum of multiples of the sizes of types; an array of unknown size stands for its elements. -/
def unit (S : Sizes) : Ty → Nat
  | .arr t none => S.sz t
  | t => S.sz t

inductive Sum (S : Sizes) : List Ty → Nat → Prop
  | nil : Sum S [] 0
  | cons {t : Ty} {l : List Ty} {n : Nat} (k : Nat) : Sum S l n → Sum S (t :: l) (k * unit S t + n)

/-- What the analysis says of a number of bytes. -/
def Means (S : Sizes) : Sz → Nat → Prop
  | .undet, _ => True
  | .existing t _, n => S.sz t ∣ n
  | .synthetic l, n => Sum S l n
  | .tooComplex, _ => True

/-! ## What the theorems ask of programs -/

/-- Assignments in a function are to variables without sizes, from variables of lower rank, or keep the variable's size. -/
structure Orderly (P : Nat → Prop) (rank : Nat → Nat) (bound : Nat) (f : List Stmt) : Prop where
  quiet : ∀ v part e, Has f (.set false v part e) → P v → Quiet P e
  low : ∀ v part e, Has f (.set false v part e) → ¬ P v → (∀ u ∈ reads e, P u ∨ rank u < rank v) ∨ Keeps P v e
  bound : ∀ v part e, Has f (.set false v part e) → rank v < bound

/-- The analysis fails on none of the assignments. -/
def Total (gs : Structs) (f : List Stmt) : Prop := ∀ v part e, Has f (.set false v part e) → ∀ env, (getSize gs env e).isSome

/-- At most one assignment of a variable from others, and no call's result, if the variable has a size. -/
structure Once (P : Nat → Prop) (rank : Nat → Nat) (f : List Stmt) : Prop where
  one : ∀ v part e part' e', Has f (.set false v part e) → Has f (.set false v part' e') → ¬ P v → (∀ u ∈ reads e, P u ∨ rank u < rank v) →
    (∀ u ∈ reads e', P u ∨ rank u < rank v) → e = e'
  calls : ∀ v part, Has f (.call (some (v, part))) → P v ∨ ∀ part' e, ¬ Has f (.set false v part' e)

/-- Expressions of which the analysis is right: sizes only multiplied and added; a sum's sides both have sizes. -/
inductive Clean (gs : Structs) (env : Env) : Ex → Prop
  | none {e : Ex} : getSize gs env e = some .undet → Clean gs env e
  | size (t : Ty) (c : Bool) : Clean gs env (.size t c)
  | str (len : Nat) : Clean gs env (.str len)
  | var (v part : Nat) : Clean gs env (.var false v part)
  | cast {e : Ex} : Clean gs env e → Clean gs env (.cast e)
  | mulL {a b : Ex} : Clean gs env a → getSize gs env a ≠ some .undet → Clean gs env (.mul a b)
  | mulR {a b : Ex} : getSize gs env a = some .undet → Clean gs env b → Clean gs env (.mul a b)
  | add {a b : Ex} : Clean gs env a → Clean gs env b → getSize gs env a ≠ some .undet → getSize gs env b ≠ some .undet → Clean gs env (.add a b)

/-! ## Visits and statements -/

theorem visits_in : ∀ (s : Stmt) (v : Nat) (e : Ex), (v, e) ∈ visits s ↔ ∃ part, In (.set false v part e) s
  | .skip, v, e => by
    constructor
    · intro h; cases h
    · rintro ⟨p, h⟩; cases h
  | .set glob v' p' e', v, e => by
    cases glob
    · simp only [visits, Bool.false_eq_true, if_false, List.mem_singleton, Prod.mk.injEq]
      constructor
      · rintro ⟨rfl, rfl⟩; exact ⟨p', .self _⟩
      · rintro ⟨p, h⟩; cases h; exact ⟨rfl, rfl⟩
    · constructor
      · intro h; cases h
      · rintro ⟨p, h⟩; cases h
  | .call _, v, e => by
    constructor
    · intro h; cases h
    · rintro ⟨p, h⟩; cases h
  | .seq a b, v, e => by
    rw [visits, List.mem_append, visits_in a, visits_in b]
    constructor
    · rintro (⟨p, h⟩ | ⟨p, h⟩)
      · exact ⟨p, .seq1 h⟩
      · exact ⟨p, .seq2 h⟩
    · rintro ⟨p, h⟩
      cases h with
      | seq1 h => exact Or.inl ⟨p, h⟩
      | seq2 h => exact Or.inr ⟨p, h⟩
  | .ifs a b, v, e => by
    rw [visits, List.mem_append, visits_in a, visits_in b]
    constructor
    · rintro (⟨p, h⟩ | ⟨p, h⟩)
      · exact ⟨p, .if2 h⟩
      · exact ⟨p, .if1 h⟩
    · rintro ⟨p, h⟩
      cases h with
      | if1 h => exact Or.inr ⟨p, h⟩
      | if2 h => exact Or.inl ⟨p, h⟩
  | .switch a b, v, e => by
    rw [visits, List.mem_append, visits_in a, visits_in b]
    constructor
    · rintro (⟨p, h⟩ | ⟨p, h⟩)
      · exact ⟨p, .sw2 h⟩
      · exact ⟨p, .sw1 h⟩
    · rintro ⟨p, h⟩
      cases h with
      | sw1 h => exact Or.inr ⟨p, h⟩
      | sw2 h => exact Or.inl ⟨p, h⟩
  | .loop a, v, e => by
    rw [visits, visits_in a]
    constructor
    · rintro ⟨p, h⟩; exact ⟨p, .loop h⟩
    · rintro ⟨p, h⟩
      cases h with
      | loop h => exact ⟨p, h⟩

theorem visitsAll_has : ∀ (f : List Stmt) (v : Nat) (e : Ex), (v, e) ∈ visitsAll f ↔ ∃ part, Has f (.set false v part e)
  | [], v, e => by
    constructor
    · intro h; cases h
    · rintro ⟨p, t, h, _⟩; cases h
  | s :: f, v, e => by
    rw [visitsAll, List.mem_append, visits_in, visitsAll_has f]
    constructor
    · rintro (⟨p, h⟩ | ⟨p, t, h1, h2⟩)
      · exact ⟨p, s, by simp, h⟩
      · exact ⟨p, t, by simp [h1], h2⟩
    · rintro ⟨p, t, h1, h2⟩
      rcases List.mem_cons.mp h1 with rfl | h1
      · exact Or.inl ⟨p, h2⟩
      · exact Or.inr ⟨p, t, h1, h2⟩

theorem Total.sized {gs : Structs} {f : List Stmt} (h : Total gs f) : Sized gs (visitsAll f) (fun e env => (getSize gs env e).getD .undet) := by
  intro p hp env
  obtain ⟨part, hh⟩ := (visitsAll_has f p.1 p.2).mp hp
  have := h p.1 part p.2 hh env
  cases h : getSize gs env p.2 with
  | none => rw [h] at this; cases this
  | some s => simp [h]

theorem Orderly.ranked {P : Nat → Prop} {rank : Nat → Nat} {bound : Nat} {f : List Stmt} (h : Orderly P rank bound f) : Ranked P rank bound (visitsAll f) := by
  constructor
  · intro p hp
    obtain ⟨part, hh⟩ := (visitsAll_has f p.1 p.2).mp hp
    exact h.quiet p.1 part p.2 hh
  · intro p hp
    obtain ⟨part, hh⟩ := (visitsAll_has f p.1 p.2).mp hp
    exact h.low p.1 part p.2 hh
  · intro p hp
    obtain ⟨part, hh⟩ := (visitsAll_has f p.1 p.2).mp hp
    exact h.bound p.1 part p.2 hh

theorem after_iter {gs : Structs} {f : List Stmt} {g : Ex → Env → Sz} (hs : Sized gs (visitsAll f) g) : ∀ n, after gs f n = some (iter g (visitsAll f) n)
  | 0 => rfl
  | n + 1 => by
    rw [after, after_iter hs n]
    simp only [pass_run]
    exact run_final _ _ hs

/-! ## Termination -/

/-- In orderly functions the iteration ends, after at most as many passes as there are ranks and two more. Not covered: functions in which sizes go
around in a circle. -/
theorem terminates_partial {gs : Structs} {P : Nat → Prop} {rank : Nat → Nat} {bound : Nat} {f : List Stmt} (ht : Total gs f) (ho : Orderly P rank bound f) :
    ∃ env, Ends gs f env ∧ after gs f (bound + 1) = some env ∧ after gs f (bound + 2) = some env := by
  have hs := ht.sized
  have hr := ho.ranked
  refine ⟨_, ⟨bound + 1, after_iter hs _, ?_⟩, after_iter hs _, ?_⟩
  · have h1 := after_iter hs (bound + 2)
    rw [after, after_iter hs (bound + 1)] at h1
    simp only at h1
    rw [h1, iter_ends hs hr]
  · rw [after_iter hs, iter_ends hs hr]

/-- It ends in only one way. -/
theorem Ends.unique {gs : Structs} {f : List Stmt} {env env' : Env} (h : Ends gs f env) (h' : Ends gs f env') : env = env' := by
  obtain ⟨n, h1, h2⟩ := h
  obtain ⟨m, k1, k2⟩ := h'
  have stay : ∀ {n : Nat} {env : Env}, after gs f n = some env → pass gs f env = some env → ∀ j, after gs f (n + j) = some env := by
    intro n env h1 h2 j
    induction j with
    | zero => exact h1
    | succ j ih => rw [← Nat.add_assoc, after, ih]; exact h2
  have e1 := stay h1 h2 m
  have e2 := stay k1 k2 n
  rw [Nat.add_comm m n, e1] at e2
  exact Option.some.inj e2

/-! ## Soundness -/

theorem decay_dvd (S : Sizes) : ∀ t : Ty, S.sz (decay t) ∣ S.sz t
  | .arr u n => by
    rw [decay]
    cases n with
    | none => rw [S.flex]; exact Nat.dvd_zero _
    | some n => rw [S.arr]; exact Nat.dvd_trans (decay_dvd S u) (Nat.dvd_mul_left _ _)
  | .void => Nat.dvd_refl _
  | .int _ => Nat.dvd_refl _
  | .float _ => Nat.dvd_refl _
  | .valist => Nat.dvd_refl _
  | .ptr _ => Nat.dvd_refl _
  | .comp .. => Nat.dvd_refl _
  | .enum _ => Nat.dvd_refl _
  | .fn .. => Nat.dvd_refl _

theorem unit_of (S : Sizes) {t : Ty} {n : Nat} (h : S.sz t ∣ n) : ∃ k, n = k * unit S t := by
  obtain ⟨k, hk⟩ := h
  cases t with
  | arr u m =>
    cases m with
    | none =>
      rw [S.flex, Nat.zero_mul] at hk
      exact ⟨0, by rw [hk, Nat.zero_mul]⟩
    | some m => exact ⟨k, by rw [hk, Nat.mul_comm]; rfl⟩
  | _ => exact ⟨k, by rw [hk, Nat.mul_comm]; rfl⟩

theorem Sum.scale {S : Sizes} {l : List Ty} {n : Nat} (h : Sum S l n) (j : Nat) : Sum S l (j * n) := by
  induction h with
  | nil => exact .nil
  | cons k _ ih => rw [Nat.mul_add, ← Nat.mul_assoc]; exact .cons _ ih

theorem Sum.plus {S : Sizes} {l : List Ty} {n m : Nat} (h : Sum S l n) (h' : Sum S l m) : Sum S l (n + m) := by
  induction h generalizing m with
  | nil => simpa using h'
  | @cons t l n k _ ih =>
    cases h' with
    | @cons _ _ n' k' h' =>
      have := Sum.cons (t := t) (k + k') (ih h')
      rw [Nat.add_mul] at this
      have e : ∀ a b c d : Nat, a + b + (c + d) = a + c + (b + d) := by omega
      rw [e]
      exact this

theorem Sum.append {S : Sizes} {l l' : List Ty} {n m : Nat} (h : Sum S l n) (h' : Sum S l' m) : Sum S (l ++ l') (n + m) := by
  induction h with
  | nil => simpa using h'
  | cons k _ ih => rw [Nat.add_assoc]; exact .cons k ih

theorem Sum.single {S : Sizes} {t : Ty} {n : Nat} (h : S.sz t ∣ n) : Sum S [t] n := by
  obtain ⟨k, rfl⟩ := unit_of S h
  have := Sum.cons (t := t) k (Sum.nil (S := S))
  simpa using this

theorem Means.scale {S : Sizes} {s : Sz} {n : Nat} (h : Means S s n) (j : Nat) : Means S s (j * n) := by
  cases s with
  | undet => trivial
  | existing t c => exact Nat.dvd_trans h (Nat.dvd_mul_left _ _)
  | synthetic l => exact Sum.scale h j
  | tooComplex => trivial

theorem Means.add {S : Sizes} {s s' : Sz} {n m : Nat} (h : Means S s n) (h' : Means S s' m) (hs : s ≠ .undet) (hs' : s' ≠ .undet) : Means S (addS s s') (n + m) := by
  cases s with
  | undet => exact absurd rfl hs
  | tooComplex => cases s' <;> first | trivial | exact absurd rfl hs'
  | existing t c =>
    cases s' with
    | undet => exact absurd rfl hs'
    | tooComplex => trivial
    | existing t' c' =>
      rw [addS]
      split
      · rename_i he
        refine Nat.dvd_add (Nat.dvd_trans (decay_dvd S t) h) ?_
        rw [he]
        exact Nat.dvd_trans (decay_dvd S t') h'
      · show Sum S [t, .arr t' none] (n + m)
        obtain ⟨k, hk⟩ := h'
        have h2 : Sum S [.arr t' none] m := by
          have := Sum.cons (S := S) (t := .arr t' none) k .nil
          rw [hk, Nat.mul_comm]
          simpa [unit] using this
        exact Sum.append (Sum.single h) h2
    | synthetic l =>
      rw [addS]
      split
      · trivial
      · exact Sum.append (Sum.single h) h'
  | synthetic l =>
    cases s' with
    | undet => exact absurd rfl hs'
    | tooComplex => trivial
    | existing t' c' =>
      rw [addS]
      split
      · trivial
      · exact Sum.append h (Sum.single h')
    | synthetic l' =>
      rw [addS]
      split
      · rename_i he
        subst he
        exact Sum.plus h h'
      · split
        · trivial
        · exact Sum.append h h'

/-- Of clean expressions the analysis is right, in any store that fits the environment. -/
theorem expr_sound {gs : Structs} {S : Sizes} {w : World} {ρ : Store} {env : Env} (hρ : ∀ v part n, ρ v part = some n → Means S (look env v) n) {e : Ex}
    (hc : Clean gs env e) : ∀ {n : Nat} {s : Sz}, Val S w ρ e n → getSize gs env e = some s → Means S s n := by
  induction hc with
  | none h => intro n s _ hg; rw [h] at hg; cases hg; trivial
  | size t c => intro n s hv hg; cases hv; cases hg; exact Nat.dvd_refl _
  | str len => intro n s hv hg; cases hg; show S.sz _ ∣ n; rw [S.char]; exact Nat.one_dvd _
  | var v part => intro n s hv hg; cases hv with | «local» h => cases hg; exact hρ v part n h
  | cast _ ih => intro n s hv hg; cases hv with | cast hv => exact ih hv hg
  | @mulL a b _ hne ih =>
    intro n s hv hg
    cases hv with
    | @mul _ _ x y _ hx hy hf =>
      rw [getSize] at hg
      cases ha : getSize gs env a with
      | none => rw [ha] at hg; cases hg
      | some sa =>
        cases hb : getSize gs env b with
        | none => rw [ha, hb] at hg; cases hg
        | some sb =>
          rw [ha, hb] at hg
          have hsa : sa ≠ .undet := by rintro rfl; exact hne ha
          have hm := ih hx ha
          have hn : n = y * x := by
            unfold fit at hf
            split at hf
            · rw [Nat.mul_comm]; exact (Option.some.inj hf).symm
            · cases hf
          have hs : s = sa := by
            cases sa <;> cases sb <;> first | exact absurd rfl hsa | exact (Option.some.inj hg).symm
          rw [hs, hn]
          exact hm.scale y
  | @mulR a b hu _ ih =>
    intro n s hv hg
    cases hv with
    | @mul _ _ x y _ hx hy hf =>
      rw [getSize, hu] at hg
      cases hb : getSize gs env b with
      | none => rw [hb] at hg; cases hg
      | some sb =>
        rw [hb] at hg
        have hm := ih hy hb
        have hn : n = x * y := by
          unfold fit at hf
          split at hf
          · exact (Option.some.inj hf).symm
          · cases hf
        have hs : s = sb := by
          cases sb <;> exact (Option.some.inj hg).symm
        rw [hs, hn]
        exact hm.scale x
  | @add a b _ _ hna hnb iha ihb =>
    intro n s hv hg
    cases hv with
    | @add _ _ x y _ hx hy hf =>
      rw [getSize] at hg
      cases ha : getSize gs env a with
      | none => rw [ha] at hg; cases hg
      | some sa =>
        cases hb : getSize gs env b with
        | none => rw [ha, hb] at hg; cases hg
        | some sb =>
          rw [ha, hb] at hg
          have hn : n = x + y := by
            unfold fit at hf
            split at hf
            · exact (Option.some.inj hf).symm
            · cases hf
          have hs : s = addS sa sb := (Option.some.inj hg).symm
          rw [hs, hn]
          exact Means.add (iha hx ha) (ihb hy hb) (by rintro rfl; exact hna ha) (by rintro rfl; exact hnb hb)

theorem look_undet_of {gs : Structs} {P : Nat → Prop} {rank : Nat → Nat} {bound : Nat} {f : List Stmt} {env : Env} (ht : Total gs f) (ho : Orderly P rank bound f)
    (h1 : Once P rank f) (he : Ends gs f env) {v part : Nat} {e : Ex} (hset : Has f (.set false v part e)) (hP : ¬ P v)
    (hl : ∀ u ∈ reads e, P u ∨ rank u < rank v) (hg : Grows e) (hu : getSize gs env e = some .undet) : look env v = .undet := by
  have hs := ht.sized
  have hr := ho.ranked
  obtain ⟨n, hn, -⟩ := he
  rw [after_iter hs] at hn
  have hn := Option.some.inj hn
  rw [← hn]
  refine iter_no_size hs hr hP ?_ n (Nat.le_refl _)
  intro p hp hpv hlow
  obtain ⟨part', hh⟩ := (visitsAll_has f p.1 p.2).mp hp
  rw [hpv] at hh
  have : e = p.2 := h1.one v part e part' p.2 hset hh hP hl (by intro u hu; have := hlow u hu; rwa [hpv] at this)
  rw [← this, hn]
  exact ⟨hg, by simp [hu]⟩

theorem ends_solution {gs : Structs} {P : Nat → Prop} {rank : Nat → Nat} {bound : Nat} {f : List Stmt} {env : Env} (ht : Total gs f) (ho : Orderly P rank bound f)
    (h1 : Once P rank f) (he : Ends gs f env) : (∀ v, P v → look env v = .undet) ∧ (∀ v, (∀ part e, ¬ Has f (.set false v part e)) → look env v = .undet) ∧
      ∀ v part e, Has f (.set false v part e) → getSize gs env e = some .undet ∨ getSize gs env e = some (look env v) := by
  have hs := ht.sized
  have hr := ho.ranked
  obtain ⟨n, hn, hp⟩ := he
  rw [after_iter hs] at hn
  have hn := Option.some.inj hn
  have hfix : final (fun e env => (getSize gs env e).getD .undet) (visitsAll f) env = env := by
    rw [pass_run, run_final _ _ hs] at hp
    exact Option.some.inj hp
  have hsil : Silent P env := by rw [← hn]; exact iter_silent hs hr n
  refine ⟨hsil, ?_, ?_⟩
  · intro v hv
    rw [← hn]
    apply iter_other
    intro p hp heq
    obtain ⟨part, hh⟩ := (visitsAll_has f p.1 p.2).mp hp
    rw [heq] at hh
    exact hv part p.2 hh
  · intro v part e hh
    have hmem := (visitsAll_has f v e).mpr ⟨part, hh⟩
    have hone : ∀ p ∈ visitsAll f, ∀ q ∈ visitsAll f, p.1 = q.1 → ¬ P p.1 → Low P rank p.1 p.2 → Low P rank q.1 q.2 → p.2 = q.2 := by
      intro p hp q hq hpq hP hl hl'
      obtain ⟨x, hx⟩ := (visitsAll_has f p.1 p.2).mp hp
      obtain ⟨y, hy⟩ := (visitsAll_has f q.1 q.2).mp hq
      rw [← hpq] at hy hl'
      exact h1.one p.1 x p.2 y q.2 hx hy hP hl hl'
    have hsol := solution hs hr hone hfix hsil hmem
    have hsz := hs _ hmem env
    simp only at hsz hsol
    rcases hsol with h | h
    · left; rw [hsz, h]
    · right; rw [hsz, h]

/-- In every run, in every order of the statements: where the analysis knows a type for a local variable, the variable's value is a multiple of the
type's size, or for a made-up structure a sum of multiples. Not covered: variables assigned at several places, from calls, differences, quotients and
offsets, padding, and numbers that overflow. -/
theorem sound_partial {gs : Structs} {P : Nat → Prop} {rank : Nat → Nat} {bound : Nat} {f : List Stmt} {env : Env} (ht : Total gs f) (ho : Orderly P rank bound f)
    (h1 : Once P rank f) (hc : ∀ v part e, Has f (.set false v part e) → Clean gs env e ∧ Grows e) (he : Ends gs f env) {S : Sizes} {ρ₀ ρ : Store}
    (h0 : ∀ v part e part', Has f (.set false v part e) → ¬ P v → ρ₀ v part' = none) (hr : Reach S f ρ₀ ρ) {v part n : Nat} (hv : ρ v part = some n) :
    Means S (look env v) n := by
  obtain ⟨hP, hO, hS⟩ := ends_solution ht ho h1 he
  induction hr generalizing v part n with
  | start =>
    by_cases hset : ∃ part e, Has f (.set false v part e)
    · obtain ⟨p, e, hset⟩ := hset
      by_cases hp : P v
      · rw [hP v hp]; trivial
      · rw [h0 v p e part hset hp] at hv; cases hv
    · rw [hO v (fun p e h => hset ⟨p, e, h⟩)]; trivial
  | @set ρ w v' p' n' e _ hset hval ih =>
    unfold Store.put at hv
    split at hv
    · rename_i heq
      cases hv
      rw [heq.1]
      rcases hS v' p' e hset with h | h
      · -- a size unknown: then the variable has none, for its other assignments keep that
        by_cases hp : P v'
        · rw [hP v' hp]; trivial
        · rcases ho.low v' p' e hset hp with hl | hk
          · -- no assignment gives it a size
            have hu : look env v' = .undet := by
              exact look_undet_of ht ho h1 he hset hp hl (hc v' p' e hset).2 h
            rw [hu]; trivial
          · rw [hk.size gs hP] at h
            rw [Option.some.inj h]; trivial
      · exact expr_sound (fun v part n h => ih h) (hc v' p' e hset).1 hval h
    · exact ih hv
  | @call ρ v' p' n' _ hcall ih =>
    unfold Store.put at hv
    split at hv
    · rename_i heq
      rw [heq.1]
      rcases h1.calls v' p' hcall with h | h
      · rw [hP _ h]; trivial
      · rw [hO _ h]; trivial
    · exact ih hv

/-- An allocation that is said to be of a type has a multiple of the type's size for its number of bytes, in every run. The same is missing as above. -/
theorem alloc_partial {gs : Structs} {P : Nat → Prop} {rank : Nat → Nat} {bound : Nat} {f : List Stmt} {env : Env} (ht : Total gs f) (ho : Orderly P rank bound f)
    (h1 : Once P rank f) (hc : ∀ v part e, Has f (.set false v part e) → Clean gs env e ∧ Grows e) (he : Ends gs f env) {S : Sizes} {ρ₀ ρ : Store}
    (h0 : ∀ v part e part', Has f (.set false v part e) → ¬ P v → ρ₀ v part' = none) (hr : Reach S f ρ₀ ρ) {w : World} {arg : Ex} (ha : Clean gs env arg) {n : Nat}
    (hv : Val S w ρ arg n) {sz : Sz} (hs : getSize gs env arg = some sz) {t : Ty} {many : Bool} (hout : output sz = (.named t, many)) : S.sz t ∣ n := by
  have hm := expr_sound (fun v part n h => sound_partial ht ho h1 hc he h0 hr h) ha hv hs
  unfold output at hout
  split at hout
  · rename_i t' c
    split at hout
    · cases hout
    · cases hout; exact hm
  · cases hout
  · cases hout
  · cases hout

/-! ## What is recognised -/

/-- Expressions for a number of things of one type. -/
inductive Of (gs : Structs) (env : Env) (t : Ty) : Ex → Prop
  | size (c : Bool) : Of gs env t (.size t c)
  | array (n : Option Nat) (c : Bool) {e : Ex} : Of gs env t e → Of gs env t (.add (.size (.arr t n) c) e)
  | var {v part : Nat} {c : Bool} : look env v = .existing t c → Of gs env t (.var false v part)
  | cast {e : Ex} : Of gs env t e → Of gs env t (.cast e)
  | times {e k : Ex} : Of gs env t e → getSize gs env k = some .undet → Of gs env t (.mul e k)
  | timesR {e k : Ex} : Of gs env t e → getSize gs env k = some .undet → Of gs env t (.mul k e)
  | plus {a b : Ex} : Of gs env t a → Of gs env t b → Of gs env t (.add a b)

/-- Of these the analysis finds the type. -/
theorem recognised {gs : Structs} {env : Env} {t : Ty} (ht : ∀ u n, t ≠ .arr u n) {e : Ex} (h : Of gs env t e) : ∃ c, getSize gs env e = some (.existing t c) := by
  have hd : decay t = t := by
    cases t with
    | arr u n => exact absurd rfl (ht u n)
    | _ => rfl
  induction h with
  | size c => exact ⟨c, rfl⟩
  | array n c _ ih =>
    obtain ⟨c', h'⟩ := ih
    refine ⟨c, ?_⟩
    rw [getSize, h']
    simp [getSize, addS, decay, hd]
  | var h => exact ⟨_, by simp only [getSize, Bool.false_eq_true, if_false]; rw [h]⟩
  | cast _ ih => obtain ⟨c, h'⟩ := ih; exact ⟨c, by rw [getSize]; exact h'⟩
  | times _ hk ih => obtain ⟨c, h'⟩ := ih; exact ⟨c, by rw [getSize, h', hk]; rfl⟩
  | timesR _ hk ih => obtain ⟨c, h'⟩ := ih; exact ⟨c, by rw [getSize, h', hk]; rfl⟩
  | plus _ _ iha ihb =>
    obtain ⟨c, h⟩ := iha
    obtain ⟨c', h'⟩ := ihb
    exact ⟨c, by rw [getSize, h, h']; simp [addS, hd]⟩

/-- Expressions in which every size is of a whole type: without offsets of fields, and with no variable that has a size less a part. -/
inductive Whole (env : Env) : Ex → Prop
  | size (t : Ty) : Whole env (.size t true)
  | str (n : Nat) : Whole env (.str n)
  | var {v part : Nat} : (∀ t, look env v ≠ .existing t false) → Whole env (.var false v part)
  | glob (v part : Nat) : Whole env (.var true v part)
  | cast {e : Ex} : Whole env e → Whole env (.cast e)
  | mul {a b : Ex} : Whole env a → Whole env b → Whole env (.mul a b)
  | add {a b : Ex} : Whole env a → Whole env b → Whole env (.add a b)
  | div {a b : Ex} : Whole env a → Whole env b → Whole env (.div a b)
  | object (null : Bool) (t : Ty) : Whole env (.addr null t .no)
  | pointer (t : Ty) (o : Off) : Whole env (.addr false t o)
  | other (n : Nat) : Whole env (.other n)

theorem whole_size {gs : Structs} {env : Env} {e : Ex} (h : Whole env e) : ∃ s, getSize gs env e = some s ∧ ∀ t, s ≠ .existing t false := by
  induction h with
  | size t => exact ⟨_, rfl, fun _ e => by cases e⟩
  | str n => exact ⟨_, rfl, fun _ e => by cases e⟩
  | @var v part h => exact ⟨look env v, by simp [getSize], h⟩
  | glob v part => exact ⟨.undet, by simp [getSize], fun _ e => by cases e⟩
  | cast _ ih => obtain ⟨s, h, h'⟩ := ih; exact ⟨s, by rw [getSize]; exact h, h'⟩
  | mul _ _ iha ihb =>
    obtain ⟨x, hx, hx'⟩ := iha
    obtain ⟨y, hy, hy'⟩ := ihb
    refine ⟨mulS x y, by rw [getSize, hx, hy], ?_⟩
    intro t
    cases x <;> cases y <;> simp only [mulS] <;> first | exact hx' t | exact hy' t
  | add _ _ iha ihb =>
    obtain ⟨x, hx, hx'⟩ := iha
    obtain ⟨y, hy, hy'⟩ := ihb
    refine ⟨addS x y, by rw [getSize, hx, hy], ?_⟩
    intro t
    unfold addS
    split <;> (try split) <;> (try split) <;> first
      | exact hx' t
      | exact hy' t
      | (intro e; cases e; done)
      | skip
    all_goals
      intro e
      cases e
      exact hx' _ rfl
  | div _ _ iha ihb =>
    obtain ⟨x, hx, hx'⟩ := iha
    obtain ⟨y, hy, hy'⟩ := ihb
    refine ⟨divS x y, by rw [getSize, hx, hy], ?_⟩
    intro t
    cases x with
    | existing d c =>
      cases c with
      | false => exact absurd rfl (hx' d)
      | true =>
        intro e
        unfold divS at e
        simp only [decayS] at e
        split at e
        · rename_i h1 _
          cases h1
          split at e <;> cases e
        · rename_i h1 _
          cases h1
          cases e
        · cases e
    | undet => intro e; simp [divS, decayS] at e
    | synthetic l => intro e; simp [divS, decayS] at e
    | tooComplex => intro e; simp [divS, decayS] at e
  | object null t =>
    cases null <;> exact ⟨.undet, by simp [getSize, trailing], fun _ e => by cases e⟩
  | pointer t o => exact ⟨.undet, by simp [getSize], fun _ e => by cases e⟩
  | other n => exact ⟨_, rfl, fun _ e => by cases e⟩

/-- **C112**.  Where only whole types' sizes occur, the output says that there may be an array of the type printed, except with a
made-up structure, of which it says that there is just one. -/
theorem flag_whole {gs : Structs} {env : Env} {e : Ex} (h : Whole env e) :
    ∃ s, getSize gs env e = some s ∧ ((output s).2 = false ↔ ∃ l, (output s).1 = .idl l) := by
  obtain ⟨s, hs, hw⟩ := whole_size (gs := gs) h
  refine ⟨s, hs, ?_⟩
  cases s with
  | existing t c =>
    cases c with
    | false => exact absurd rfl (hw t)
    | true =>
      simp only [output]
      split <;> simp
  | undet => simp [output]
  | synthetic l => simp [output]
  | tooComplex => simp [output]

/-- **C112**.  What is printed: any pointer, just for pointers to `void` or `char` (or arrays of such); otherwise the type found, or bytes if none is. -/
theorem printed (s : Sz) :
    ((output s).1 = .anyPtr ↔ ∃ u c, s = .existing (.ptr u) c ∧ (∀ v, u ≠ .ptr v) ∧ (strip u = .void ∨ strip u = .int .char)) ∧
    ((output s).1 = .bytes ↔ s = .undet ∨ s = .tooComplex) ∧ (∀ l, (output s).1 = .idl l ↔ s = .synthetic l) ∧
    (∀ t, (output s).1 = .named t → ∃ c, s = .existing t c) := by
  cases s with
  | existing t c =>
    simp only [output]
    by_cases h : singlyGeneric t = true
    · rw [if_pos h]
      obtain ⟨u, rfl, hu⟩ := (singly_spec t).mp h
      refine ⟨⟨fun _ => ⟨u, c, rfl, hu⟩, fun _ => rfl⟩, by simp, by simp, by simp⟩
    · rw [if_neg h]
      refine ⟨⟨fun e => (by cases e), ?_⟩, by simp, by simp, fun t' e => by cases e; exact ⟨c, rfl⟩⟩
      rintro ⟨u, c', e, hu⟩
      cases e
      exact absurd ((singly_spec _).mpr ⟨u, rfl, hu⟩) h
  | undet => simp [output]
  | synthetic l => simp [output]
  | tooComplex => simp [output]

/-- **C112**.  A structure's size less that of its last member is recognised, and as one that no array is of: just if the last member is no bit field,
and is of the type subtracted but for signs, or an array of one such. -/
theorem less_last {gs : Structs} {env : Env} {name : List Char} {fs : List (Ty × Bool)} {f : Ty × Bool} {t : Ty} (hg : gs name = some (fs ++ [f])) :
    getSize gs env (.sub (.size (.comp true name) true) (.size t true)) = some (.existing (.comp true name) false) ↔
      f.2 = false ∧ (Signs f.1 t ∨ ∃ u, f.1 = .arr u (some 1) ∧ Signs u t) := by
  simp only [getSize, subS, hg, List.getLast?_append, List.getLast?_singleton, Option.some_or]
  have key : dropsLast f t = true ↔ f.2 = false ∧ (Signs f.1 t ∨ ∃ u, f.1 = .arr u (some 1) ∧ Signs u t) := by
    unfold dropsLast
    rw [Bool.and_eq_true, Bool.or_eq_true, Bool.not_eq_true', CilTypes.match_spec]
    refine and_congr_right fun _ => or_congr_right ?_
    split
    · rename_i u e
      rw [CilTypes.match_spec, e]
      constructor
      · exact fun h => ⟨u, rfl, h⟩
      · rintro ⟨u', e', h⟩; cases e'; exact h
    · rename_i hne
      constructor
      · intro h; cases h
      · rintro ⟨u, e, _⟩; exact absurd e (hne u)
  rw [← key]
  by_cases h : dropsLast f t = true <;> simp [h]

/-- Without sizes there is no type. -/
theorem nothing_from_nothing {gs : Structs} {P : Nat → Prop} {f : List Stmt} {env : Env} (hq : ∀ v part e, Has f (.set false v part e) → P v ∧ Quiet P e) (he : Ends gs f env) :
    env = [] := by
  obtain ⟨n, hn, -⟩ := he
  have hpass : ∀ us : List (Nat × Ex), (∀ p ∈ us, Quiet P p.2) → run gs us [] = some [] := by
    intro us
    induction us with
    | nil => intro _; rfl
    | cons p us ih =>
      intro h
      rw [run, assign_upd, Quiet.undet gs (env := []) (fun _ _ => rfl) p.2 (h p (by simp))]
      exact ih (fun q hq => h q (by simp [hq]))
  have hall : pass gs f [] = some [] := by
    rw [pass_run]
    apply hpass
    intro p hp
    obtain ⟨part, hh⟩ := (visitsAll_has f p.1 p.2).mp hp
    exact (hq _ _ _ hh).2
  have : ∀ n, after gs f n = some [] := by
    intro n
    induction n with
    | zero => rfl
    | succ n ih => rw [after, ih]; exact hall
  rw [this n] at hn
  exact (Option.some.inj hn).symm

/-- Made-up structures have at most a hundred members. -/
def Short : Sz → Prop
  | .synthetic l => l.length ≤ 100
  | _ => True

theorem addS_short {x y : Sz} (hx : Short x) (hy : Short y) : Short (addS x y) := by
  cases x <;> cases y <;> simp only [addS] <;> (try trivial)
  · split
    · trivial
    · show 2 ≤ 100; omega
  · split
    · trivial
    · rename_i h
      simp only [threshold] at h
      show List.length _ ≤ 100
      simp only [List.length_cons]
      omega
  · split
    · trivial
    · rename_i h
      simp only [threshold] at h
      show List.length _ ≤ 100
      simp only [List.length_append, List.length_cons, List.length_nil]
      omega
  · split
    · exact hx
    · split
      · trivial
      · rename_i h
        simp only [threshold] at h
        show List.length _ ≤ 100
        simp only [List.length_append]
        omega

theorem getSize_short {gs : Structs} {env : Env} (h : ∀ v, Short (look env v)) : ∀ (e : Ex) {s : Sz}, getSize gs env e = some s → Short s
  | .mul a b, s, hs => by
    rw [getSize] at hs
    split at hs
    · rename_i x y hx hy
      cases hs
      have h1 := getSize_short h a hx
      have h2 := getSize_short h b hy
      cases x <;> cases y <;> first | exact h1 | exact h2
    · cases hs
  | .add a b, s, hs => by
    rw [getSize] at hs
    split at hs
    · rename_i x y hx hy
      cases hs
      exact addS_short (getSize_short h a hx) (getSize_short h b hy)
    · cases hs
  | .div a b, s, hs => by
    rw [getSize] at hs
    split at hs
    · rename_i x y hx hy
      cases hs
      unfold divS
      split
      · split <;> trivial
      · trivial
      · trivial
    · cases hs
  | .sub a b, s, hs => by
    rw [getSize] at hs
    split at hs
    · rename_i x y hx hy
      unfold subS at hs
      split at hs
      · split at hs
        · cases hs
        · split at hs
          · cases hs; trivial
          · cases hs
            split <;> trivial
      · cases hs; trivial
    · cases hs
  | .size _ _, s, hs => by cases hs; trivial
  | .str _, s, hs => by cases hs; trivial
  | .var glob v _, s, hs => by
    cases glob
    · cases hs; exact h v
    · cases hs; trivial
  | .cast e, s, hs => by rw [getSize] at hs; exact getSize_short h e hs
  | .addr null t o, s, hs => by
    rw [getSize] at hs
    split at hs
    · split at hs
      · cases hs
      · cases hs; trivial
      · cases hs; trivial
    · cases hs; trivial
  | .other _, s, hs => by cases hs; trivial

/-- However sizes are added up, in any number of passes. -/
theorem short {gs : Structs} {f : List Stmt} : ∀ {n : Nat} {env : Env}, after gs f n = some env → ∀ v, Short (look env v) := by
  have hrun : ∀ (us : List (Nat × Ex)) (env env' : Env), (∀ v, Short (look env v)) → run gs us env = some env' → ∀ v, Short (look env' v) := by
    intro us
    induction us with
    | nil => intro env env' h he; cases he; exact h
    | cons p us ih =>
      intro env env' h he
      rw [run, assign_upd] at he
      cases hg : getSize gs env p.2 with
      | none => rw [hg] at he; cases he
      | some s =>
        rw [hg] at he
        refine ih _ env' ?_ he
        intro v
        by_cases hv : v = p.1
        · subst hv
          rw [look_upd_self]
          split
          · exact h _
          · exact getSize_short h p.2 hg
        · rw [look_upd_ne _ _ _ _ hv]; exact h v
  intro n
  induction n with
  | zero => intro env he v; cases he; trivial
  | succ n ih =>
    intro env he
    rw [after] at he
    cases ha : after gs f n with
    | none => rw [ha] at he; cases he
    | some env' =>
      rw [ha] at he
      simp only [pass_run] at he
      exact hrun _ env' env (ih ha) he

/-! ## Examples -/

namespace Ex1
def A : Ty := .comp true "A".toList
def B : Ty := .comp true "B".toList
def gs : Structs := fun n => if n = "A".toList then some [(.int .int, false), (.arr (.comp true "B".toList) (some 1), false)] else none
def x (v : Nat) : Ex := .var false v 0
def st (v : Nat) (e : Ex) : Stmt := .set false v 0 e

/-- `n = foo(); loop { s = n * sizeof (A); s = s * 2; if (..) h = s + 3 * sizeof (A) else skip }; malloc(h)`. -/
def f : List Stmt := [.call (some (0, 0)), .loop (.seq (st 1 (.mul (x 0) (.size A true))) (.seq (st 1 (.mul (x 1) (.other 2)))
  (.ifs (st 2 (.add (x 1) (.mul (.other 3) (.size A true)))) .skip)))]

def P : Nat → Prop := fun v => v = 0
def env : Env := [(1, .existing A true), (2, .existing A true)]

theorem sets {v part : Nat} {e : Ex} (h : Has f (.set false v part e)) :
    (v = 1 ∧ e = .mul (x 0) (.size A true)) ∨ (v = 1 ∧ e = .mul (x 1) (.other 2)) ∨ (v = 2 ∧ e = .add (x 1) (.mul (.other 3) (.size A true))) := by
  have := (visitsAll_has f v e).mpr ⟨part, h⟩
  simpa [f, visitsAll, visits, st] using this

theorem total : Total gs f := by
  intro v part e h env
  rcases sets h with ⟨-, rfl⟩ | ⟨-, rfl⟩ | ⟨-, rfl⟩ <;> simp [getSize, x]

theorem orderly : Orderly P id 3 f := by
  constructor
  · intro v part e h hp
    rcases sets h with ⟨rfl, -⟩ | ⟨rfl, -⟩ | ⟨rfl, -⟩ <;> simp [P] at hp
  · intro v part e h _
    rcases sets h with ⟨rfl, rfl⟩ | ⟨rfl, rfl⟩ | ⟨rfl, rfl⟩
    · left; simp [reads, x, P]
    · right; exact .mulL (.var 0) trivial
    · left; simp [reads, x, P]
  · intro v part e h
    rcases sets h with ⟨rfl, -⟩ | ⟨rfl, -⟩ | ⟨rfl, -⟩ <;> decide

theorem once : Once P id f := by
  constructor
  · intro v part e part' e' h h' _ hl hl'
    rcases sets h with ⟨rfl, rfl⟩ | ⟨rfl, rfl⟩ | ⟨rfl, rfl⟩ <;> rcases sets h' with ⟨hv, rfl⟩ | ⟨hv, rfl⟩ | ⟨hv, rfl⟩ <;>
      first | rfl | (cases hv; done) | (simp [reads, x, P] at hl; done) | (simp [reads, x, P] at hl'; done)
  · rintro v part ⟨t, ht, hin⟩
    simp only [f, List.mem_cons, List.not_mem_nil, or_false] at ht
    rcases ht with rfl | rfl
    · cases hin; exact Or.inl rfl
    · cases hin with
      | loop h =>
        cases h with
        | seq1 h => cases h
        | seq2 h =>
          cases h with
          | seq1 h => cases h
          | seq2 h =>
            cases h with
            | if1 h => cases h
            | if2 h => cases h

theorem ends : Ends gs f [(2, .existing A true), (1, .existing A true)] := ⟨1, by decide +kernel, by decide +kernel⟩

theorem clean : ∀ v part e, Has f (.set false v part e) → Clean gs [(2, .existing A true), (1, .existing A true)] e ∧ Grows e := by
  intro v part e h
  rcases sets h with ⟨-, rfl⟩ | ⟨-, rfl⟩ | ⟨-, rfl⟩
  · exact ⟨.mulR rfl (.size _ _), ⟨trivial, trivial⟩⟩
  · exact ⟨.mulL (.var _ _) (by decide), ⟨trivial, trivial⟩⟩
  · exact ⟨.add (.var _ _) (.mulR rfl (.size _ _)) (by decide) (by decide), ⟨trivial, trivial, trivial⟩⟩

/-- In every run, `h` is a multiple of the size of `A`, and `malloc(h)` is found to allocate `A`s. -/
example {S : Sizes} {ρ : Store} (hr : Reach S f (fun _ _ => none) ρ) {n : Nat} (h : ρ 2 0 = some n) : S.sz A ∣ n :=
  alloc_partial total orderly once clean ends (fun _ _ _ _ _ _ => rfl) hr (w := ⟨fun _ _ => 0, fun _ _ => 0, fun _ => 0⟩) (arg := x 2) (.var _ _) (.local h)
    (sz := .existing A true) rfl (t := A) (many := true) (by decide +kernel)

/-- Sizes on a 64-bit machine. -/
def sz : Ty → Nat
  | .int .char => 1
  | .int .int => 4
  | .arr t (some n) => n * sz t
  | .arr _ none => 0
  | .comp _ n => if n = "A".toList then 24 else if n = "B".toList then 16 else 40
  | _ => 8

def S : Sizes := ⟨sz, rfl, fun _ _ => rfl, fun _ => rfl⟩

/-- There are such runs. -/
theorem run_exists : ∃ ρ, Reach S f (fun _ _ => none) ρ ∧ ρ 2 0 = some 312 := by
  let w : World := ⟨fun _ _ => 0, fun _ _ => 0, id⟩
  have h1 : Reach S f (fun _ _ => none) _ := .call (v := 0) (part := 0) 5 .start ⟨.call (some (0, 0)), by simp [f], .self _⟩
  have h2 := Reach.set (w := w) (v := 1) (part := 0) (n := 120) (e := .mul (x 0) (.size A true)) h1 ⟨_, List.mem_cons_of_mem _ (List.mem_singleton.mpr rfl), .loop (.seq1 (.self _))⟩
    (.mul (.local (n := 5) rfl) (.size) rfl)
  have h3 := Reach.set (w := w) (v := 1) (part := 0) (n := 240) (e := .mul (x 1) (.other 2)) h2 ⟨_, List.mem_cons_of_mem _ (List.mem_singleton.mpr rfl), .loop (.seq2 (.seq1 (.self _)))⟩
    (.mul (.local (n := 120) rfl) .other rfl)
  have h4 := Reach.set (w := w) (v := 2) (part := 0) (n := 312) (e := .add (x 1) (.mul (.other 3) (.size A true))) h3
    ⟨_, List.mem_cons_of_mem _ (List.mem_singleton.mpr rfl), .loop (.seq2 (.seq2 (.if1 (.self _))))⟩
    (.add (.local (n := 240) rfl) (.mul .other (.size) (n := 72) rfl) rfl)
  exact ⟨_, h4, rfl⟩

/-- A sum of sizes that grows in a loop is given up. -/
theorem growing : Ends gs [.loop (.seq (st 0 (.add (x 1) (.size A true))) (st 1 (.add (x 0) (.size B true))))] [(1, .tooComplex), (0, .tooComplex)] :=
  ⟨51, by decide +kernel, by decide +kernel⟩

/-- Dividing by an element's size leaves a number; dividing by another type's does not. -/
example : getSize gs [] (.div (.size (.arr A (some 7)) true) (.size A true)) = some .undet ∧
    getSize gs [] (.div (.size (.arr A (some 7)) true) (.size B true)) = some (.existing A true) := by decide +kernel

/-- A structure less its last member is the structure, of which there is only one. -/
example : getSize gs [] (.add (.sub (.size A true) (.size B true)) (.other 1)) = some (.existing A false) ∧
    getSize gs [] (.sub (.size A true) (.size (.int .int) true)) = some .undet ∧ getSize gs [] (.sub (.size B true) (.size A true)) = none := by decide +kernel
end Ex1

/-! ## Where the analysis is wrong, or does not end -/

open Ex1 in
/-- `c = sizeof (A); u = q * c; q = sizeof (B); t = w; w = v; v = t * u`. -/
def circle : List Stmt := [st 0 (.size A true), st 1 (.mul (x 2) (x 0)), st 2 (.size B true), st 3 (x 4), st 4 (x 5), st 5 (.mul (x 3) (x 1))]

/-- The iteration need not end: there is a program of six assignments on which every pass changes the environment. -/
theorem diverges_fails : ¬ ∃ env, Ends Ex1.gs circle env := by
  have h3 : after Ex1.gs circle 5 = after Ex1.gs circle 3 := by decide +kernel
  have hne : after Ex1.gs circle 4 ≠ after Ex1.gs circle 3 := by decide +kernel
  have hper : ∀ n, after Ex1.gs circle (3 + n + 2) = after Ex1.gs circle (3 + n) := by
    intro n
    induction n with
    | zero => exact h3
    | succ n ih =>
      show after Ex1.gs circle (3 + n + 2 + 1) = after Ex1.gs circle (3 + n + 1)
      have hs : ∀ m, after Ex1.gs circle (m + 1) = (after Ex1.gs circle m).bind (pass Ex1.gs circle) := by
        intro m
        rw [after]
        cases after Ex1.gs circle m <;> rfl
      rw [hs (3 + n + 2), ih, ← hs]
  have hstep : ∀ n, after Ex1.gs circle (3 + n + 1) ≠ after Ex1.gs circle (3 + n) := by
    intro n
    induction n with
    | zero => exact hne
    | succ n ih =>
      intro h
      apply ih
      have h' : after Ex1.gs circle (3 + n + 2) = after Ex1.gs circle (3 + n + 1) := h
      rw [hper n] at h'
      exact h'.symm
  rintro ⟨env, n, h1, h2⟩
  have hstay : ∀ j, after Ex1.gs circle (n + j) = some env := by
    intro j
    induction j with
    | zero => exact h1
    | succ j ih => rw [← Nat.add_assoc, after, ih]; exact h2
  apply hstep n
  have e1 := hstay 3
  have e2 := hstay 4
  have : 3 + n + 1 = n + 4 := by omega
  rw [this, Nat.add_comm 3 n, e1, e2]

open Ex1 in
/-- The last assignment in the text decides: `s = sizeof (A); malloc(s); s = sizeof (B)` is said to allocate a `B`, though 24 bytes are no multiple of
16. -/
theorem flow_fails : ∃ (f : List Stmt) (env : Env) (ρ : Store), Ends gs f env ∧ Reach S f (fun _ _ => none) ρ ∧ ρ 0 0 = some 24 ∧
    getSize gs env (x 0) = some (.existing B true) ∧ ¬ S.sz B ∣ 24 := by
  refine ⟨[st 0 (.size A true), st 0 (.size B true)], [(0, .existing B true)], _, ⟨1, by decide +kernel, by decide +kernel⟩,
    .set (w := ⟨fun _ _ => 0, fun _ _ => 0, id⟩) (v := 0) (part := 0) (n := 24) (e := .size A true) .start ⟨_, List.mem_cons_self, .self _⟩ .size, rfl, by decide +kernel, by decide +kernel⟩

open Ex1 in
/-- A call's result does not count: after `s = sizeof (B); s = foo()` the size is said to be of a `B`. -/
theorem call_fails : ∃ (f : List Stmt) (env : Env) (ρ : Store), Ends gs f env ∧ Reach S f (fun _ _ => none) ρ ∧ ρ 0 0 = some 3 ∧
    getSize gs env (x 0) = some (.existing B true) ∧ ¬ S.sz B ∣ 3 := by
  refine ⟨[st 0 (.size B true), .call (some (0, 0))], [(0, .existing B true)], _, ⟨1, by decide +kernel, by decide +kernel⟩,
    .call (v := 0) (part := 0) 3 .start ⟨_, List.mem_cons_of_mem _ (List.mem_singleton.mpr rfl), .self _⟩, rfl, by decide +kernel, by decide +kernel⟩

open Ex1 in
/-- Parts of a variable are confused: with `s.a = sizeof (A); s.b = sizeof (B)`, `malloc(s.a)` is said to allocate a `B`. -/
theorem part_fails : ∃ (f : List Stmt) (env : Env) (ρ : Store), Ends gs f env ∧ Reach S f (fun _ _ => none) ρ ∧ ρ 0 1 = some 24 ∧ ρ 0 2 = some 16 ∧
    getSize gs env (.var false 0 1) = some (.existing B true) ∧ ¬ S.sz B ∣ 24 := by
  refine ⟨[.set false 0 1 (.size A true), .set false 0 2 (.size B true)], [(0, .existing B true)], _, ⟨1, by decide +kernel, by decide +kernel⟩,
    .set (w := ⟨fun _ _ => 0, fun _ _ => 0, id⟩) (v := 0) (part := 2) (n := 16) (e := .size B true)
      (.set (w := ⟨fun _ _ => 0, fun _ _ => 0, id⟩) (v := 0) (part := 1) (n := 24) (e := .size A true) .start ⟨_, List.mem_cons_self, .self _⟩ .size)
      ⟨_, List.mem_cons_of_mem _ (List.mem_singleton.mpr rfl), .self _⟩ .size, rfl, rfl, by decide +kernel, by decide +kernel⟩

open Ex1 in
/-- Sizes that were divided away stay: the first pass does not yet know the divisor. With `n = sizeof (A) / d; d = sizeof (A)`, `n` is said to be an
`A`'s size for good. -/
theorem stale_fails : Ends gs [st 0 (.div (.size A true) (x 1)), st 1 (.size A true)] [(1, .existing A true), (0, .existing A true)] ∧
    getSize gs [(1, .existing A true), (0, .existing A true)] (.div (.size A true) (x 1)) = some .undet := ⟨⟨1, by decide +kernel, by decide +kernel⟩, by decide +kernel⟩

open Ex1 in
/-- Of products only the first factor counts, of sums with padding only the size: `sizeof (A) + 3` is said to be an `A` (or some), and
`sizeof (A) * sizeof (B)` is said to be `A`s. -/
theorem padding_fails : ∃ e n, getSize gs [] e = some (.existing A true) ∧ output (.existing A true) = (.named A, true) ∧
    Val S ⟨fun _ _ => 0, fun _ _ => 0, id⟩ (fun _ _ => none) e n ∧ ¬ S.sz A ∣ n :=
  ⟨.add (.size A true) (.other 3), 27, by decide +kernel, by decide +kernel, .add .size .other rfl, by decide +kernel⟩

open Ex1 in
/-- Only the first side of a sum says whether there may be many: `sizeof (A)` and a part of an `A` are said to be many `A`s, the other way round one. -/
theorem flag_fails : getSize gs [] (.add (.size A true) (.addr true A (.field true B .no))) = some (.existing A true) ∧
    getSize gs [] (.add (.addr true A (.field true B .no)) (.size A true)) = some (.existing A false) := by decide +kernel

open Ex1 in
/-- A member that is the last of a member, which is not itself last, counts as trailing. -/
theorem trailing_fails : getSize gs [] (.addr true A (.field false B (.field true (.int .int) .no))) = some (.existing A false) := by decide +kernel

open Ex1 in
/-- Made-up structures do not say how many: `sizeof (A) + sizeof (B)` and `5 * sizeof (A) + sizeof (B)` are the same. -/
theorem count_fails : getSize gs [] (.add (.size A true) (.size B true)) = getSize gs [] (.add (.mul (.other 5) (.size A true)) (.size B true)) := by decide +kernel

end Liballocs.Sizeof
