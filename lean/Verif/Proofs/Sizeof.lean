import Verif.Model.Sizeof
/-!
# What an allocation site allocates: the iteration
-/
namespace Liballocs.Sizeof
open CilTypes

/-! ## Visits -/

/-- The local variables that an expression reads. -/
def reads : Ex → List Nat
  | .mul a b => reads a ++ reads b
  | .add a b => reads a ++ reads b
  | .div a b => reads a ++ reads b
  | .sub a b => reads a ++ reads b
  | .var glob v _ => if glob then [] else [v]
  | .cast e => reads e
  | _ => []

theorem getSize_congr (gs : Structs) (env env' : Env) : ∀ e : Ex, (∀ w ∈ reads e, look env w = look env' w) → getSize gs env e = getSize gs env' e
  | .mul a b, h => by
    rw [getSize, getSize, getSize_congr gs env env' a (fun w hw => h w (by simp [reads, hw])), getSize_congr gs env env' b (fun w hw => h w (by simp [reads, hw]))]
  | .add a b, h => by
    rw [getSize, getSize, getSize_congr gs env env' a (fun w hw => h w (by simp [reads, hw])), getSize_congr gs env env' b (fun w hw => h w (by simp [reads, hw]))]
  | .div a b, h => by
    rw [getSize, getSize, getSize_congr gs env env' a (fun w hw => h w (by simp [reads, hw])), getSize_congr gs env env' b (fun w hw => h w (by simp [reads, hw]))]
  | .sub a b, h => by
    rw [getSize, getSize, getSize_congr gs env env' a (fun w hw => h w (by simp [reads, hw])), getSize_congr gs env env' b (fun w hw => h w (by simp [reads, hw]))]
  | .size _ _, _ => rfl
  | .str _, _ => rfl
  | .var glob v p, h => by
    cases glob
    · simp only [getSize, Bool.false_eq_true, if_false]
      rw [h v (by simp [reads])]
    · rfl
  | .cast e, h => by
    rw [getSize, getSize, getSize_congr gs env env' e (fun w hw => h w (by simpa [reads] using hw))]
  | .addr .., _ => rfl
  | .other _, _ => rfl

/-- The assignments of local variables, in the order in which a pass visits them. -/
def visits : Stmt → List (Nat × Ex)
  | .skip => []
  | .set glob v _ e => if glob then [] else [(v, e)]
  | .call _ => []
  | .seq a b => visits a ++ visits b
  | .ifs b1 b2 => visits b2 ++ visits b1
  | .switch b ss => visits ss ++ visits b
  | .loop b => visits b

def visitsAll : List Stmt → List (Nat × Ex)
  | [] => []
  | s :: ss => visits s ++ visitsAll ss

/-- The effect of visits. -/
def run (gs : Structs) : List (Nat × Ex) → Env → Option Env
  | [], env => some env
  | (v, e) :: vs, env =>
    match assign gs env v e with
    | none => none
    | some env' => run gs vs env'

theorem run_append (gs : Structs) : ∀ (a b : List (Nat × Ex)) (env : Env), run gs (a ++ b) env = (run gs a env).bind (run gs b)
  | [], _, _ => rfl
  | (v, e) :: a, b, env => by
    rw [List.cons_append, run, run]
    cases assign gs env v e with
    | none => rfl
    | some env' => exact run_append gs a b env'

theorem accumulate_run (gs : Structs) : ∀ (s : Stmt) (env : Env), accumulate gs s env = run gs (visits s) env
  | .skip, _ => rfl
  | .set glob v _ e, env => by
    cases glob
    · simp only [accumulate, visits, Bool.false_eq_true, if_false, run]
      cases assign gs env v e <;> rfl
    · rfl
  | .call _, _ => rfl
  | .seq a b, env => by
    rw [accumulate, visits, run_append, accumulate_run gs a]
    cases run gs (visits a) env with
    | none => rfl
    | some env' => exact accumulate_run gs b env'
  | .ifs b1 b2, env => by
    rw [accumulate, visits, run_append, accumulate_run gs b2]
    cases run gs (visits b2) env with
    | none => rfl
    | some env' => exact accumulate_run gs b1 env'
  | .switch b ss, env => by
    rw [accumulate, visits, run_append, accumulate_run gs ss]
    cases run gs (visits ss) env with
    | none => rfl
    | some env' => exact accumulate_run gs b env'
  | .loop b, env => accumulate_run gs b env

theorem pass_run (gs : Structs) : ∀ (f : List Stmt) (env : Env), pass gs f env = run gs (visitsAll f) env
  | [], _ => rfl
  | s :: ss, env => by
    rw [pass, visitsAll, run_append, accumulate_run]
    cases run gs (visits s) env with
    | none => rfl
    | some env' => exact pass_run gs ss env'

/-! ## Updates -/

/-- An update of an environment. -/
def upd (env : Env) (v : Nat) : Sz → Env
  | .undet => env
  | s => (v, s) :: remove v env

theorem assign_upd (gs : Structs) (env : Env) (v : Nat) (e : Ex) : assign gs env v e = (getSize gs env e).map (upd env v) := by
  unfold assign
  cases getSize gs env e with
  | none => rfl
  | some s => cases s <;> rfl

theorem look_remove (v w : Nat) (h : w ≠ v) : ∀ env : Env, look (remove v env) w = look env w
  | [] => rfl
  | (u, s) :: r => by
    unfold remove
    split
    · rename_i hu
      subst hu
      simp [look, Ne.symm h]
    · simp only [look]
      split
      · rfl
      · exact look_remove v w h r

theorem look_upd_ne (env : Env) (v w : Nat) (s : Sz) (h : w ≠ v) : look (upd env v s) w = look env w := by
  cases s <;> simp [upd, look, Ne.symm h, look_remove v w h]

theorem look_upd_self (env : Env) (v : Nat) (s : Sz) : look (upd env v s) v = if s = .undet then look env v else s := by
  cases s <;> simp [upd, look]

/-- The names of an environment. -/
def keys (env : Env) : List Nat := env.map (·.1)

theorem remove_filter (v : Nat) : ∀ env : Env, (keys env).Nodup → remove v env = env.filter (fun p => decide (p.1 ≠ v))
  | [], _ => rfl
  | (u, s) :: r, h => by
    simp only [keys, List.map_cons, List.nodup_cons] at h
    unfold remove
    split
    · rename_i hu
      subst hu
      rw [List.filter_cons_of_neg (by simp)]
      symm
      rw [List.filter_eq_self]
      intro p hp
      simp only [decide_eq_true_eq]
      intro he
      exact h.1 (List.mem_map.mpr ⟨p, hp, he⟩)
    · rename_i hu
      rw [List.filter_cons_of_pos (by simpa using hu), remove_filter v r h.2]

/-- An update by filtering. -/
def put (env : Env) (u : Nat × Sz) : Env := u :: env.filter (fun p => decide (p.1 ≠ u.1))

theorem put_nodup (env : Env) (u : Nat × Sz) (h : (keys env).Nodup) : (keys (put env u)).Nodup := by
  simp only [keys, put, List.map_cons, List.nodup_cons]
  constructor
  · intro hm
    obtain ⟨p, hp, he⟩ := List.mem_map.mp hm
    have := (List.mem_filter.mp hp).2
    simp at this
    exact this he
  · exact List.Sublist.nodup (List.Sublist.map _ List.filter_sublist) h

theorem upd_put (env : Env) (v : Nat) (s : Sz) (h : (keys env).Nodup) : upd env v s = if s = .undet then env else put env (v, s) := by
  cases s <;> simp [upd, put, remove_filter v env h]

theorem upd_nodup (env : Env) (v : Nat) (s : Sz) (h : (keys env).Nodup) : (keys (upd env v s)).Nodup := by
  rw [upd_put env v s h]
  split
  · exact h
  · exact put_nodup env _ h

theorem puts_append (us : List (Nat × Sz)) : ∀ (A B : Env), us.foldl put (A ++ B) = us.foldl put A ++ B.filter (fun p => decide (p.1 ∉ keys us)) := by
  induction us with
  | nil =>
    intro A B
    have : B.filter (fun p => decide (p.1 ∉ keys ([] : List (Nat × Sz)))) = B := List.filter_eq_self.mpr (fun p _ => by simp [keys])
    rw [this]
    rfl
  | cons u us ih =>
    intro A B
    simp only [List.foldl_cons]
    have : put (A ++ B) u = put A u ++ B.filter (fun p => decide (p.1 ≠ u.1)) := by simp [put]
    rw [this, ih, List.filter_filter]
    congr 1
    apply List.filter_congr
    intro p _
    by_cases h1 : p.1 = u.1 <;> by_cases h2 : p.1 ∈ us.map (·.1) <;> simp [keys, h1, h2]

theorem puts_keys (us : List (Nat × Sz)) : ∀ (A : Env), ∀ p ∈ us.foldl put A, p.1 ∈ keys us ∨ p ∈ A := by
  induction us with
  | nil => intro A p hp; exact Or.inr hp
  | cons u us ih =>
    intro A p hp
    simp only [List.foldl_cons] at hp
    rcases ih _ p hp with h | h
    · left; simp only [keys, List.map_cons, List.mem_cons]; exact Or.inr h
    · simp only [put, List.mem_cons] at h
      rcases h with rfl | h
      · left; simp [keys]
      · exact Or.inr (List.mem_filter.mp h).1

/-- The same updates again change nothing, not even the order. -/
theorem puts_idem (us : List (Nat × Sz)) (L : Env) : us.foldl put (us.foldl put L) = us.foldl put L := by
  have h1 : us.foldl put L = us.foldl put [] ++ L.filter (fun p => decide (p.1 ∉ keys us)) := puts_append us [] L
  have h2 : us.foldl put (us.foldl put []) = us.foldl put [] := by
    have := puts_append us [] (us.foldl put [])
    rw [List.nil_append] at this
    rw [this]
    have : (us.foldl put []).filter (fun p => decide (p.1 ∉ keys us)) = [] := by
      rw [List.filter_eq_nil_iff]
      intro p hp
      rcases puts_keys us [] p hp with h | h
      · simpa using h
      · cases h
    rw [this, List.append_nil]
  rw [h1, puts_append, h2, List.filter_filter]
  congr 1
  apply List.filter_congr
  intro p _
  simp

/-! ## Passes that do not fail -/

/-- The visits' expressions have sizes `g`. -/
def Sized (gs : Structs) (vs : List (Nat × Ex)) (g : Ex → Env → Sz) : Prop := ∀ p ∈ vs, ∀ env, getSize gs env p.2 = some (g p.2 env)

/-- The environment after visits. -/
def final (g : Ex → Env → Sz) : List (Nat × Ex) → Env → Env
  | [], env => env
  | (v, e) :: vs, env => final g vs (upd env v (g e env))

theorem run_final {gs : Structs} {g : Ex → Env → Sz} : ∀ (vs : List (Nat × Ex)) (env : Env), Sized gs vs g → run gs vs env = some (final g vs env)
  | [], _, _ => rfl
  | (v, e) :: vs, env, h => by
    rw [run, assign_upd, h (v, e) (by simp) env]
    simp only [Option.map_some]
    exact run_final vs _ (fun p hp => h p (by simp [hp]))

theorem final_append (g : Ex → Env → Sz) : ∀ (a b : List (Nat × Ex)) (env : Env), final g (a ++ b) env = final g b (final g a env)
  | [], _, _ => rfl
  | (v, e) :: a, b, env => final_append g a b _

theorem final_nodup (g : Ex → Env → Sz) : ∀ (vs : List (Nat × Ex)) (env : Env), (keys env).Nodup → (keys (final g vs env)).Nodup
  | [], _, h => h
  | (v, e) :: vs, env, h => final_nodup g vs _ (upd_nodup env v _ h)

/-- The updates made. -/
def updates (g : Ex → Env → Sz) : List (Nat × Ex) → Env → List (Nat × Sz)
  | [], _ => []
  | (v, e) :: vs, env => (if g e env = .undet then [] else [(v, g e env)]) ++ updates g vs (upd env v (g e env))

theorem final_puts (g : Ex → Env → Sz) : ∀ (vs : List (Nat × Ex)) (env : Env), (keys env).Nodup → final g vs env = (updates g vs env).foldl put env
  | [], _, _ => rfl
  | (v, e) :: vs, env, h => by
    rw [final, updates, List.foldl_append, final_puts g vs _ (upd_nodup env v _ h), upd_put env v _ h]
    split
    · rfl
    · rfl

theorem updates_congr {gs : Structs} {g : Ex → Env → Sz} : ∀ (vs : List (Nat × Ex)) (env env' : Env), Sized gs vs g → (∀ w, look env w = look env' w) →
    updates g vs env = updates g vs env'
  | [], _, _, _, _ => rfl
  | (v, e) :: vs, env, env', hs, h => by
    have he : g e env = g e env' := by
      have := getSize_congr gs env env' e (fun w _ => h w)
      rw [hs (v, e) (by simp) env, hs (v, e) (by simp) env'] at this
      exact Option.some.inj this
    rw [updates, updates, he, updates_congr vs _ (upd env' v (g e env')) (fun p hp => hs p (by simp [hp]))]
    intro w
    by_cases hw : w = v
    · subst hw
      rw [look_upd_self, look_upd_self, h]
    · rw [look_upd_ne _ _ _ _ hw, look_upd_ne _ _ _ _ hw, h]

/-- When a pass changes no size, the next changes nothing. -/
theorem final_twice {gs : Structs} {g : Ex → Env → Sz} {vs : List (Nat × Ex)} (hs : Sized gs vs g) {env : Env} (hn : (keys env).Nodup)
    (h : ∀ w, look env w = look (final g vs env) w) : final g vs (final g vs env) = final g vs env := by
  rw [final_puts g vs _ (final_nodup g vs env hn), ← updates_congr vs env (final g vs env) hs h, final_puts g vs env hn, puts_idem]

/-! ## Ranked programs -/

/-- An expression without sizes, which reads only variables without. -/
def Quiet (P : Nat → Prop) : Ex → Prop
  | .mul a b => Quiet P a ∧ Quiet P b
  | .add a b => Quiet P a ∧ Quiet P b
  | .div a b => Quiet P a ∧ Quiet P b
  | .sub a b => Quiet P a ∧ Quiet P b
  | .size _ _ => False
  | .str _ => False
  | .var glob v _ => glob = true ∨ P v
  | .cast e => Quiet P e
  | .addr null _ _ => null = false
  | .other _ => True

/-- An expression whose size is that of a variable: the variable scaled, or with padding added. -/
inductive Keeps (P : Nat → Prop) (v : Nat) : Ex → Prop
  | var (part : Nat) : Keeps P v (.var false v part)
  | cast {e : Ex} : Keeps P v e → Keeps P v (.cast e)
  | mulL {a b : Ex} : Keeps P v a → Quiet P b → Keeps P v (.mul a b)
  | mulR {a b : Ex} : Quiet P a → Keeps P v b → Keeps P v (.mul a b)
  | addL {a b : Ex} : Keeps P v a → Quiet P b → Keeps P v (.add a b)
  | addR {a b : Ex} : Quiet P a → Keeps P v b → Keeps P v (.add a b)

theorem Quiet.undet {P : Nat → Prop} (gs : Structs) {env : Env} (h : ∀ v, P v → look env v = .undet) : ∀ e : Ex, Quiet P e → getSize gs env e = some .undet
  | .mul a b, hq => by rw [getSize, Quiet.undet gs h a hq.1, Quiet.undet gs h b hq.2]; rfl
  | .add a b, hq => by rw [getSize, Quiet.undet gs h a hq.1, Quiet.undet gs h b hq.2]; rfl
  | .div a b, hq => by rw [getSize, Quiet.undet gs h a hq.1, Quiet.undet gs h b hq.2]; rfl
  | .sub a b, hq => by rw [getSize, Quiet.undet gs h a hq.1, Quiet.undet gs h b hq.2]; rfl
  | .size _ _, hq => hq.elim
  | .str _, hq => hq.elim
  | .var glob v _, hq => by
    cases glob
    · have : P v := by rcases hq with h | h; cases h; exact h
      simp [getSize, h v this]
    · rfl
  | .cast e, hq => by rw [getSize]; exact Quiet.undet gs h e hq
  | .addr null _ _, hq => by
    have : null = false := hq
    subst this
    rfl
  | .other _, _ => rfl

theorem Keeps.size {P : Nat → Prop} (gs : Structs) {env : Env} (h : ∀ v, P v → look env v = .undet) {v : Nat} {e : Ex} (hk : Keeps P v e) :
    getSize gs env e = some (look env v) := by
  induction hk with
  | var _ => rfl
  | cast _ ih => rw [getSize]; exact ih
  | mulL _ hq ih => rw [getSize, ih, Quiet.undet gs h _ hq]; cases look env v <;> rfl
  | mulR hq _ ih => rw [getSize, ih, Quiet.undet gs h _ hq]; cases look env v <;> rfl
  | addL _ hq ih => rw [getSize, ih, Quiet.undet gs h _ hq]; cases look env v <;> rfl
  | addR hq _ ih => rw [getSize, ih, Quiet.undet gs h _ hq]; cases look env v <;> rfl

/-- An assignment from variables of lower rank. -/
def Low (P : Nat → Prop) (rank : Nat → Nat) (v : Nat) (e : Ex) : Prop := ∀ w ∈ reads e, P w ∨ rank w < rank v

/-- Each assignment is one to a variable without size, from variables of lower rank, or keeps the variable's size. -/
structure Ranked (P : Nat → Prop) (rank : Nat → Nat) (bound : Nat) (vs : List (Nat × Ex)) : Prop where
  quiet : ∀ p ∈ vs, P p.1 → Quiet P p.2
  low : ∀ p ∈ vs, ¬ P p.1 → Low P rank p.1 p.2 ∨ Keeps P p.1 p.2
  bound : ∀ p ∈ vs, rank p.1 < bound

/-- Variables without sizes have none. -/
def Silent (P : Nat → Prop) (env : Env) : Prop := ∀ v, P v → look env v = .undet

/-- Agreement on variables of low rank. -/
def Agree (rank : Nat → Nat) (k : Nat) (X Y : Env) : Prop := ∀ w, rank w < k → look X w = look Y w

section
variable {gs : Structs} {g : Ex → Env → Sz} {P : Nat → Prop} {rank : Nat → Nat} {bound : Nat}

theorem Sized.eq {vs : List (Nat × Ex)} (hs : Sized gs vs g) {p : Nat × Ex} (hp : p ∈ vs) {env : Env} {s : Sz} (h : getSize gs env p.2 = some s) : g p.2 env = s := by
  have := hs p hp env
  rw [h] at this
  exact (Option.some.inj this).symm

theorem upd_silent {vs : List (Nat × Ex)} (hs : Sized gs vs g) (hr : Ranked P rank bound vs) {p : Nat × Ex} (hp : p ∈ vs) {env : Env} (h : Silent P env) :
    Silent P (upd env p.1 (g p.2 env)) := by
  intro w hw
  by_cases hv : w = p.1
  · subst hv
    rw [look_upd_self, hs.eq hp (Quiet.undet gs h _ (hr.quiet p hp hw))]
    simp [h _ hw]
  · rw [look_upd_ne _ _ _ _ hv]; exact h w hw

theorem final_silent {vs : List (Nat × Ex)} (hs : Sized gs vs g) (hr : Ranked P rank bound vs) : ∀ (us : List (Nat × Ex)) (env : Env), (∀ p ∈ us, p ∈ vs) →
    Silent P env → Silent P (final g us env)
  | [], _, _, h => h
  | p :: us, env, hu, h => final_silent hs hr us _ (fun q hq => hu q (by simp [hq])) (upd_silent hs hr (hu p (by simp)) h)

theorem g_congr {vs : List (Nat × Ex)} (hs : Sized gs vs g) {p : Nat × Ex} (hp : p ∈ vs) {X Y : Env} (h : ∀ w ∈ reads p.2, look X w = look Y w) : g p.2 X = g p.2 Y := by
  have := getSize_congr gs X Y p.2 h
  rw [hs p hp, hs p hp] at this
  exact Option.some.inj this

theorem low_congr {vs : List (Nat × Ex)} (hs : Sized gs vs g) {p : Nat × Ex} (hp : p ∈ vs) (hl : Low P rank p.1 p.2) {k : Nat} {X Y : Env} (ha : Agree rank k X Y)
    (hX : Silent P X) (hY : Silent P Y) (hk : rank p.1 ≤ k) : g p.2 X = g p.2 Y := by
  apply g_congr hs hp
  intro w hw
  rcases hl w hw with h | h
  · rw [hX w h, hY w h]
  · exact ha w (by omega)

theorem agree_step {vs : List (Nat × Ex)} (hs : Sized gs vs g) (hr : Ranked P rank bound vs) {p : Nat × Ex} (hp : p ∈ vs) {k : Nat} {X Y : Env}
    (ha : Agree rank k X Y) (hX : Silent P X) (hY : Silent P Y) : Agree rank k (upd X p.1 (g p.2 X)) (upd Y p.1 (g p.2 Y)) := by
  intro w hw
  by_cases hv : w = p.1
  · subst hv
    rw [look_upd_self, look_upd_self, ← ha _ hw]
    by_cases hP : P p.1
    · rw [hs.eq hp (Quiet.undet gs hX _ (hr.quiet p hp hP)), hs.eq hp (Quiet.undet gs hY _ (hr.quiet p hp hP))]
    · rcases hr.low p hp hP with hl | hk
      · rw [low_congr hs hp hl ha hX hY (by omega)]
      · rw [hs.eq hp (hk.size gs hX), hs.eq hp (hk.size gs hY), ha _ hw]
  · rw [look_upd_ne _ _ _ _ hv, look_upd_ne _ _ _ _ hv]
    exact ha w hw

/-- Two runs side by side: a variable of the next rank is either in agreement or has not changed in either. -/
theorem agree_next {vs : List (Nat × Ex)} (hs : Sized gs vs g) (hr : Ranked P rank bound vs) {k : Nat} (L L' : Env) : ∀ (us : List (Nat × Ex)) (X Y : Env),
    (∀ p ∈ us, p ∈ vs) → Agree rank k X Y → Silent P X → Silent P Y →
    (∀ v, rank v = k → look X v = look Y v ∨ (look X v = look L v ∧ look Y v = look L' v)) →
      Agree rank k (final g us X) (final g us Y) ∧
      ∀ v, rank v = k → look (final g us X) v = look (final g us Y) v ∨ (look (final g us X) v = look L v ∧ look (final g us Y) v = look L' v)
  | [], _, _, _, ha, _, _, hi => ⟨ha, hi⟩
  | p :: us, X, Y, hu, ha, hX, hY, hi => by
    have hp := hu p (by simp)
    refine agree_next hs hr L L' us _ _ (fun q hq => hu q (by simp [hq])) (agree_step hs hr hp ha hX hY) (upd_silent hs hr hp hX) (upd_silent hs hr hp hY) ?_
    intro v hv
    by_cases hvp : v = p.1
    · subst hvp
      rw [look_upd_self, look_upd_self]
      by_cases hP : P p.1
      · rw [hs.eq hp (Quiet.undet gs hX _ (hr.quiet p hp hP)), hs.eq hp (Quiet.undet gs hY _ (hr.quiet p hp hP))]
        simpa using hi _ hv
      · rcases hr.low p hp hP with hl | hk
        · rw [low_congr hs hp hl ha hX hY (by omega)]
          split
          · exact hi _ hv
          · exact Or.inl rfl
        · rw [hs.eq hp (hk.size gs hX), hs.eq hp (hk.size gs hY)]
          have e : ∀ s : Sz, (if s = .undet then s else s) = s := by intro s; split <;> rfl
          rw [e, e]
          exact hi _ hv
    · rw [look_upd_ne _ _ _ _ hvp, look_upd_ne _ _ _ _ hvp]
      exact hi v hv

/-- The environments after each pass. -/
def iter (g : Ex → Env → Sz) (vs : List (Nat × Ex)) : Nat → Env
  | 0 => []
  | n + 1 => final g vs (iter g vs n)

theorem iter_silent {vs : List (Nat × Ex)} (hs : Sized gs vs g) (hr : Ranked P rank bound vs) : ∀ n, Silent P (iter g vs n)
  | 0 => fun _ _ => rfl
  | n + 1 => final_silent hs hr vs _ (fun _ h => h) (iter_silent hs hr n)

theorem iter_nodup (g : Ex → Env → Sz) (vs : List (Nat × Ex)) : ∀ n, (keys (iter g vs n)).Nodup
  | 0 => List.nodup_nil
  | n + 1 => final_nodup g vs _ (iter_nodup g vs n)

theorem iter_agree {vs : List (Nat × Ex)} (hs : Sized gs vs g) (hr : Ranked P rank bound vs) : ∀ (k n : Nat), k ≤ n → Agree rank k (iter g vs n) (iter g vs (n + 1))
  | 0, _, _ => fun w hw => by omega
  | k + 1, 0, h => by omega
  | k + 1, n + 1, h => by
    have ih := iter_agree hs hr k n (by omega)
    obtain ⟨h1, h2⟩ := agree_next hs hr (iter g vs n) (iter g vs (n + 1)) vs (iter g vs n) (iter g vs (n + 1)) (fun _ h => h) ih
      (iter_silent hs hr n) (iter_silent hs hr (n + 1)) (fun v _ => Or.inr ⟨rfl, rfl⟩)
    intro w hw
    rcases Nat.lt_succ_iff_lt_or_eq.mp hw with hw | hw
    · exact h1 w hw
    · rcases h2 w hw with h3 | ⟨h3, h4⟩
      · exact h3
      · show look (final g vs (iter g vs n)) w = look (final g vs (iter g vs (n + 1))) w
        rw [h4, h3, ← h3]
        rfl

theorem final_other (g : Ex → Env → Sz) : ∀ (vs : List (Nat × Ex)) (env : Env) (w : Nat), (∀ p ∈ vs, p.1 ≠ w) → look (final g vs env) w = look env w
  | [], _, _, _ => rfl
  | (v, e) :: vs, env, w, h => by
    rw [final, final_other g vs _ w (fun p hp => h p (by simp [hp])), look_upd_ne _ _ _ _ (Ne.symm (h (v, e) (by simp)))]

theorem iter_other (g : Ex → Env → Sz) (vs : List (Nat × Ex)) (w : Nat) (h : ∀ p ∈ vs, p.1 ≠ w) : ∀ n, look (iter g vs n) w = .undet
  | 0 => rfl
  | n + 1 => by rw [iter, final_other g vs _ w h, iter_other g vs w h n]

/-- After as many passes as there are ranks, and one more, nothing changes. -/
theorem iter_ends {vs : List (Nat × Ex)} (hs : Sized gs vs g) (hr : Ranked P rank bound vs) : iter g vs (bound + 2) = iter g vs (bound + 1) := by
  refine final_twice hs (iter_nodup g vs bound) ?_
  intro w
  by_cases hw : ∃ p ∈ vs, p.1 = w
  · obtain ⟨p, hp, rfl⟩ := hw
    exact iter_agree hs hr bound bound (Nat.le_refl _) _ (hr.bound p hp)
  · have h : ∀ p ∈ vs, p.1 ≠ w := fun p hp he => hw ⟨p, hp, he⟩
    rw [iter_other g vs w h bound]
    exact (iter_other g vs w h (bound + 1)).symm

/-! ## Solutions -/

/-- During a pass that ends where it began, no size changes. -/
theorem steady {vs : List (Nat × Ex)} (hs : Sized gs vs g) (hr : Ranked P rank bound vs)
    (hone : ∀ p ∈ vs, ∀ q ∈ vs, p.1 = q.1 → ¬ P p.1 → Low P rank p.1 p.2 → Low P rank q.1 q.2 → p.2 = q.2) {env : Env} (hfix : final g vs env = env)
    (hsil : Silent P env) : ∀ k, ∀ (a b : List (Nat × Ex)), vs = a ++ b → Agree rank k (final g a env) env
  | 0 => fun _ _ _ w hw => by omega
  | k + 1 => by
    have ih := steady hs hr hone hfix hsil k
    -- what a low assignment gives
    have hg : ∀ (a : List (Nat × Ex)) (p : Nat × Ex) (b : List (Nat × Ex)), vs = a ++ p :: b → rank p.1 ≤ k → Low P rank p.1 p.2 →
        g p.2 (final g a env) = g p.2 env := by
      intro a p b hv hk hl
      exact low_congr hs (by rw [hv]; simp) hl (ih a (p :: b) hv) (final_silent hs hr a env (fun q hq => by rw [hv]; simp [hq]) hsil) hsil hk
    -- either the old size, or that of the one low assignment
    have hA : ∀ (n : Nat) (a b : List (Nat × Ex)), a.length = n → vs = a ++ b → ∀ v, rank v = k →
        (look (final g a env) v = look env v ∧ ∀ p ∈ a, p.1 = v → ¬ P v → Low P rank p.1 p.2 → g p.2 env = .undet) ∨
        (∃ p ∈ vs, p.1 = v ∧ ¬ P v ∧ Low P rank p.1 p.2 ∧ g p.2 env ≠ .undet ∧ look (final g a env) v = g p.2 env) := by
      intro n
      induction n with
      | zero =>
        intro a b ha hv v hr'
        rw [List.length_eq_zero_iff.mp ha]
        exact Or.inl ⟨rfl, fun p hp => by cases hp⟩
      | succ n ihn =>
        intro a b ha hv v hrv
        have hne : a ≠ [] := by intro h; rw [h] at ha; cases ha
        obtain ⟨a', q, rfl⟩ : ∃ a' q, a = a' ++ [q] := ⟨a.dropLast, a.getLast hne, (List.dropLast_concat_getLast hne).symm⟩
        have hv' : vs = a' ++ q :: b := by rw [hv]; simp
        have hlen : a'.length = n := by simp at ha; exact ha
        have hq : q ∈ vs := by rw [hv']; simp
        have hX := final_silent hs hr a' env (fun p hp => by rw [hv']; simp [hp]) hsil
        have hprev := ihn a' (q :: b) hlen hv' v hrv
        have hfin : final g (a' ++ [q]) env = upd (final g a' env) q.1 (g q.2 (final g a' env)) := by rw [final_append]; rfl
        rw [hfin]
        by_cases hvq : v = q.1
        · subst hvq
          rw [look_upd_self]
          by_cases hP : P q.1
          · rw [hs.eq hq (Quiet.undet gs hX _ (hr.quiet q hq hP))]
            simp only [if_true]
            rcases hprev with ⟨h1, h2⟩ | ⟨p, h1, h2, h3, h4⟩
            · exact Or.inl ⟨h1, fun p hp h3 h4 => absurd hP h4⟩
            · exact absurd hP h3
          · rcases Classical.em (Low P rank q.1 q.2) with hl | hl
            · rw [hg a' q b hv' (by omega) hl]
              by_cases hu : g q.2 env = .undet
              · rw [if_pos hu]
                rcases hprev with ⟨h1, h2⟩ | ⟨p, h1, h2, h3, h4, h5, h6⟩
                · refine Or.inl ⟨h1, fun p hp h3 h4 h5 => ?_⟩
                  rcases List.mem_append.mp hp with hp | hp
                  · exact h2 p hp h3 h4 h5
                  · simp at hp; subst hp; exact hu
                · have := hone p h1 q hq h2 (by rw [h2]; exact hP) h4 hl
                  rw [this] at h5
                  exact absurd hu h5
              · rw [if_neg hu]
                exact Or.inr ⟨q, hq, rfl, hP, hl, hu, rfl⟩
            · have hk : Keeps P q.1 q.2 := by
                rcases hr.low q hq hP with h | h
                · exact absurd h hl
                · exact h
              rw [hs.eq hq (hk.size gs hX)]
              have e : ∀ s : Sz, (if s = .undet then s else s) = s := by intro s; split <;> rfl
              rw [e]
              rcases hprev with ⟨h1, h2⟩ | h1
              · refine Or.inl ⟨h1, fun p hp h3 h4 h5 => ?_⟩
                rcases List.mem_append.mp hp with hp | hp
                · exact h2 p hp h3 h4 h5
                · simp at hp; subst hp; exact absurd h5 hl
              · exact Or.inr h1
        · rw [look_upd_ne _ _ _ _ hvq]
          rcases hprev with ⟨h1, h2⟩ | h1
          · refine Or.inl ⟨h1, fun p hp h3 h4 h5 => ?_⟩
            rcases List.mem_append.mp hp with hp | hp
            · exact h2 p hp h3 h4 h5
            · simp at hp; subst hp; exact absurd h3.symm hvq
          · exact Or.inr h1
    intro a b hv w hw
    rcases Nat.lt_succ_iff_lt_or_eq.mp hw with hw | hw
    · exact ih a b hv w hw
    · rcases hA a.length a b rfl hv w hw with ⟨h1, _⟩ | ⟨p, h1, h2, h3, h4, h5, h6⟩
      · exact h1
      · rw [h6]
        -- at the end it is the old size
        rcases hA vs.length vs [] rfl (by simp) w hw with ⟨k1, k2⟩ | ⟨q, k1, k2, k3, k4, k5, k6⟩
        · exact absurd (k2 p h1 h2 h3 h4) h5
        · rw [hfix] at k6
          rw [k6, hone p h1 q k1 (by rw [h2, k2]) (by rw [h2]; exact h3) h4 k4]

theorem Agree.all {vs : List (Nat × Ex)} (hr : Ranked P rank bound vs) {a b : List (Nat × Ex)} (hv : vs = a ++ b) {env : Env}
    (h : Agree rank bound (final g a env) env) (w : Nat) : look (final g a env) w = look env w := by
  by_cases hw : ∃ p ∈ vs, p.1 = w
  · obtain ⟨p, hp, rfl⟩ := hw
    exact h _ (hr.bound p hp)
  · exact final_other g a env w (fun p hp he => hw ⟨p, by rw [hv]; simp [hp], he⟩)

/-- Such an environment has for each variable what its assignments give. -/
theorem solution {vs : List (Nat × Ex)} (hs : Sized gs vs g) (hr : Ranked P rank bound vs)
    (hone : ∀ p ∈ vs, ∀ q ∈ vs, p.1 = q.1 → ¬ P p.1 → Low P rank p.1 p.2 → Low P rank q.1 q.2 → p.2 = q.2) {env : Env} (hfix : final g vs env = env)
    (hsil : Silent P env) {p : Nat × Ex} (hp : p ∈ vs) : g p.2 env = .undet ∨ g p.2 env = look env p.1 := by
  by_cases hu : g p.2 env = .undet
  · exact Or.inl hu
  · right
    obtain ⟨a, b, hv⟩ := List.append_of_mem hp
    have hst := steady hs hr hone hfix hsil bound
    have h1 := fun w => Agree.all (g := g) hr hv (hst a (p :: b) hv) w
    have hv2 : vs = (a ++ [p]) ++ b := by rw [hv]; simp
    have h2 := Agree.all (g := g) hr hv2 (hst (a ++ [p]) b hv2) p.1
    have hfin : final g (a ++ [p]) env = upd (final g a env) p.1 (g p.2 (final g a env)) := by rw [final_append]; rfl
    have hgeq : g p.2 (final g a env) = g p.2 env := g_congr hs hp (fun w _ => h1 w)
    rw [hfin, look_upd_self, hgeq, if_neg hu] at h2
    exact h2

/-! ## Sizes are not lost -/

/-- Whatever has a size in one environment has one in another. -/
def Less (X Y : Env) : Prop := ∀ w, look Y w = .undet → look X w = .undet

/-- Expressions that do not lose sizes when variables get some. -/
def Grows : Ex → Prop
  | .mul a b => Grows a ∧ Grows b
  | .add a b => Grows a ∧ Grows b
  | .div a b => reads a = [] ∧ reads b = []
  | .sub a b => reads a = [] ∧ reads b = []
  | .cast e => Grows e
  | _ => True

theorem mulS_undet {x y : Sz} : mulS x y = .undet ↔ x = .undet ∧ y = .undet := by cases x <;> cases y <;> simp [mulS]

theorem addS_undet {x y : Sz} : addS x y = .undet ↔ x = .undet ∧ y = .undet := by
  cases x <;> cases y <;> simp [addS] <;> (repeat (first | split | simp))

theorem Grows.undet (gs : Structs) {X Y : Env} (h : Less X Y) : ∀ e : Ex, Grows e → getSize gs Y e = some .undet → getSize gs X e = some .undet
  | .mul a b, hg, hy => by
    rw [getSize] at hy
    cases ha : getSize gs Y a with
    | none => rw [ha] at hy; cases hy
    | some x =>
      cases hb : getSize gs Y b with
      | none => rw [ha, hb] at hy; cases hy
      | some y =>
        rw [ha, hb] at hy
        obtain ⟨rfl, rfl⟩ := mulS_undet.mp (Option.some.inj hy)
        rw [getSize, Grows.undet gs h a hg.1 ha, Grows.undet gs h b hg.2 hb]
        rfl
  | .add a b, hg, hy => by
    rw [getSize] at hy
    cases ha : getSize gs Y a with
    | none => rw [ha] at hy; cases hy
    | some x =>
      cases hb : getSize gs Y b with
      | none => rw [ha, hb] at hy; cases hy
      | some y =>
        rw [ha, hb] at hy
        obtain ⟨rfl, rfl⟩ := addS_undet.mp (Option.some.inj hy)
        rw [getSize, Grows.undet gs h a hg.1 ha, Grows.undet gs h b hg.2 hb]
        rfl
  | .div a b, hg, hy => by
    rw [getSize_congr gs X Y (.div a b) (by intro w hw; simp [reads, hg.1, hg.2] at hw)]
    exact hy
  | .sub a b, hg, hy => by
    rw [getSize_congr gs X Y (.sub a b) (by intro w hw; simp [reads, hg.1, hg.2] at hw)]
    exact hy
  | .size _ _, _, hy => hy
  | .str _, _, hy => hy
  | .var glob v p, _, hy => by
    cases glob
    · simp only [getSize, Bool.false_eq_true, if_false] at hy ⊢
      rw [h v (Option.some.inj hy)]
    · rfl
  | .cast e, hg, hy => by
    rw [getSize] at hy ⊢
    exact Grows.undet gs h e hg hy
  | .addr .., _, hy => hy
  | .other _, _, hy => hy

theorem upd_less (X : Env) (v : Nat) (s : Sz) : Less X (upd X v s) := by
  intro w hw
  by_cases h : w = v
  · subst h
    rw [look_upd_self] at hw
    split at hw
    · exact hw
    · rename_i hs; exact absurd hw hs
  · rwa [look_upd_ne _ _ _ _ h] at hw

theorem final_less : ∀ (us : List (Nat × Ex)) (X : Env), Less X (final g us X)
  | [], _ => fun _ h => h
  | (v, e) :: us, X => fun w hw => upd_less X v _ w (final_less us _ w hw)

theorem iter_less (vs : List (Nat × Ex)) (n : Nat) : ∀ j, Less (iter g vs n) (iter g vs (n + j))
  | 0 => fun _ h => h
  | j + 1 => fun w hw => iter_less vs n j w (final_less vs _ w hw)

/-- A variable gets no size when its one low assignment gives none in the end. -/
theorem no_size {vs : List (Nat × Ex)} (hs : Sized gs vs g) (hr : Ranked P rank bound vs) {env : Env} {v : Nat} (hP : ¬ P v)
    (hu : ∀ p ∈ vs, p.1 = v → Low P rank p.1 p.2 → Grows p.2 ∧ g p.2 env = .undet) : ∀ (us : List (Nat × Ex)) (X : Env), (∀ p ∈ us, p ∈ vs) → Silent P X →
      Less (final g us X) env → look X v = .undet → look (final g us X) v = .undet
  | [], _, _, _, _, h => h
  | p :: us, X, hm, hX, hl, h => by
    have hp := hm p (by simp)
    have hlX : Less X env := fun w hw => upd_less X p.1 (g p.2 X) w (final_less (g := g) us _ w (hl w hw))
    refine no_size hs hr hP hu us _ (fun q hq => hm q (by simp [hq])) (upd_silent hs hr hp hX) hl ?_
    by_cases hv : v = p.1
    · subst hv
      rw [look_upd_self]
      rcases hr.low p hp hP with hlow | hk
      · obtain ⟨h1, h2⟩ := hu p hp rfl hlow
        have h3 : getSize gs env p.2 = some .undet := by rw [hs p hp, h2]
        rw [hs.eq hp (Grows.undet gs hlX _ h1 h3)]
        simpa using h
      · rw [hs.eq hp (hk.size gs hX), h]
        rfl
    · rw [look_upd_ne _ _ _ _ hv]; exact h

theorem iter_no_size {vs : List (Nat × Ex)} (hs : Sized gs vs g) (hr : Ranked P rank bound vs) {n : Nat} {v : Nat} (hP : ¬ P v)
    (hu : ∀ p ∈ vs, p.1 = v → Low P rank p.1 p.2 → Grows p.2 ∧ g p.2 (iter g vs n) = .undet) : ∀ m, m ≤ n → look (iter g vs m) v = .undet
  | 0, _ => rfl
  | m + 1, h => by
    refine no_size hs hr hP hu vs _ (fun _ h => h) (iter_silent hs hr m) ?_ (iter_no_size hs hr hP hu m (by omega))
    have := iter_less (g := g) vs (m + 1) (n - (m + 1))
    rwa [Nat.add_sub_cancel' h] at this

end

end Liballocs.Sizeof
