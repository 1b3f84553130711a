import Verif.Model.MonAlloca
import Verif.Props.Alloca
/-!
# Instrumentation of alloca: the program does what it did, and what it allocates is indexed until it returns

The specification is a function as C has it, in which a call to alloca gives some place between the old and the new stack pointer.
-/
namespace Liballocs.MonAlloca
open Alloca (allocaSize adjust)

/-! ## The function as it was -/

/-- A call that allocated on the stack: place in the program, name, size and result. -/
structure Rec where
  loc : Nat
  name : Name
  n : Nat
  u : Nat

structure OSt where
  vars : Vars
  mem : Mem
  sp : Nat
  log : List Rec

/-- What a call to alloca gives: an address, the stack pointer and the memory then. -/
inductive Got
  | ok (u sp : Nat) (m : Mem)
  | fault
  | abort

/-- An implementation of alloca, for each place and name, given stack pointer, memory and size. -/
abbrev Al := Nat → Name → Nat → Mem → Nat → Got

def ostep (al : Al) (ext : Name ⊕ Nat → List Nat → Mem → Nat × Mem) (o : OSt) (i : Instr) : Out OSt :=
  match stackAlloc i with
  | some (tgt, nm, e, loc) =>
    match al loc nm o.sp o.mem (e o.vars o.mem) with
    | .ok u sp m => .ok ⟨assign o.vars tgt u, m, sp, ⟨loc, nm, e o.vars o.mem, u⟩ :: o.log⟩
    | .fault => .fault
    | .abort => .abort
  | none => .ok { o with vars := (plain ext o.vars o.mem i).1, mem := (plain ext o.vars o.mem i).2 }

def osteps (al : Al) (ext : Name ⊕ Nat → List Nat → Mem → Nat × Mem) : OSt → List Instr → Out OSt
  | o, [] => .ok o
  | o, i :: l =>
    match ostep al ext o i with
    | .ok o' => osteps al ext o' l
    | .fault => .fault
    | .abort => .abort
    | .more => .more
    | .stuck => .stuck

def orun (al : Al) (ext : Name ⊕ Nat → List Nat → Mem → Nat × Mem) (body : List (List Instr × Next)) :
    Nat → Nat → OSt → Out (Nat × OSt)
  | 0, _, _ => .more
  | k + 1, pc, o =>
    match body[pc]? with
    | none => .stuck
    | some (is, n) =>
      match osteps al ext o is with
      | .ok o' =>
        match n with
        | .goto q => orun al ext body k q o'
        | .branch e a b => orun al ext body k (if e o'.vars o'.mem ≠ 0 then a else b) o'
        | .ret e => .ok (e o'.vars o'.mem, o')
      | .fault => .fault
      | .abort => .abort
      | .more => .more
      | .stuck => .stuck

/-- The compiler's allocation on the stack: the bytes asked for are free, and addresses are multiples of 8. -/
def WorldOk (W : World) : Prop :=
  8 ≤ W.t ∧ ∀ sp n p, W.drop sp n = some p → p + n ≤ sp ∧ p % 8 = 0

/-- What C has of alloca: the bytes are between the new and the old stack pointer, and nothing outside is changed. It fails only if
a request for at most `t + 31` more bytes would, and it aborts only for sizes of some 32 MiB. -/
def Legal (W : World) (al : Al) : Prop :=
  ∀ loc nm sp m n,
    match al loc nm sp m n with
    | .ok u sp' m' => sp' ≤ u ∧ u + n ≤ sp ∧ u % 8 = 0 ∧ ∀ x, x < sp' ∨ sp ≤ x → m' x = m x
    | .fault => ∃ j, n ≤ j ∧ j ≤ n + W.t + 31 ∧ W.drop sp j = none
    | .abort => Alloca.SANE < n + W.t + 23

/-- Calls that are to be monitored: all in functions other than the library's own, by the usual names. -/
def monitored (encl nm : Name) : Bool :=
  decide (encl ≠ SKIP2) && decide (encl ≠ SKIP1) && (decide (nm = ALLOCA) || decide (nm = BUILTIN))

/-- Two outcomes of the same kind. -/
def OutRel {α β : Type} (R : α → β → Prop) : Out α → Out β → Prop
  | .ok a, .ok b => R a b
  | .fault, .fault => True
  | .abort, .abort => True
  | .more, .more => True
  | .stuck, .stuck => True
  | _, _ => False

/-! ## Proofs -/

private def got (W : World) (encl : Name) : Al := fun loc nm sp m n =>
  if monitored encl nm = true then
    match W.drop sp (allocaSize W.t n) with
    | none => .fault
    | some p =>
      if Alloca.SANE < (adjust p (allocaSize W.t n) 0).nonHeader then .abort
      else .ok (adjust p (allocaSize W.t n) 0).userchunk p (notifyMem W m p n (allocaSize W.t n) (W.site loc))
  else
    match W.drop sp n with
    | none => .fault
    | some p => .ok p p m

private theorem size_bounds (t n : Nat) : n + t + 16 ≤ allocaSize t n ∧ allocaSize t n ≤ n + t + 31 := by
  have h1 := Alloca.padTo_spec (n + t) 16 (by decide)
  have h2 : Alloca.padTo 8 16 = 16 := by decide
  simp only [allocaSize, h2]
  omega

private theorem user_bounds (p f c : Nat) : p + 8 ≤ (adjust p f c).userchunk ∧ (adjust p f c).userchunk < p + 24 ∧
    (adjust p f c).userchunk % 16 = 0 := by
  have h1 := Alloca.padTo_spec (p + 8) 16 (by decide)
  simp only [adjust]
  omega

private theorem nonHeader_eq (p f c : Nat) (h : 24 ≤ f) :
    (adjust p f c).userchunk + (adjust p f c).nonHeader = p + f := by
  have h1 := user_bounds p f c
  have h2 : (adjust p f c).nonHeader = f - ((adjust p f c).userchunk - p) := rfl
  omega

private theorem user8 (p f c : Nat) (h : p % 8 = 0) : (adjust p f c).userchunk ≤ p + 16 := by
  simp only [adjust, Alloca.padTo]
  split <;> omega

private theorem notifyMem_outside (W : World) (m : Mem) (p n st x : Nat) (ht : 8 ≤ W.t)
    (h : x < p ∨ p + allocaSize W.t n ≤ x) (hp8 : p % 8 = 0) : notifyMem W m p n (allocaSize W.t n) st x = m x := by
  have hs := size_bounds W.t n
  have hu := user_bounds p (allocaSize W.t n) 0
  have h8 := user8 p (allocaSize W.t n) 0 hp8
  have hn := nonHeader_eq p (allocaSize W.t n) 0 (by omega)
  unfold notifyMem
  rw [if_neg (by omega), if_neg (by omega), if_neg (by omega)]

/-- What a chunk holds just after it was allocated, `u` being the address given to the function and `k` the size usable: the word below `u`
holds `k`, the last bytes are the metadata, and all before these is zero. -/
structure Holds (W : World) (m : Mem) (u k n site : Nat) : Prop where
  size : ∀ i, i < 8 → m (u - 8 + i) = k / 256 ^ i % 256
  trailer : ∀ i, i < W.t → m (u + k - W.t + i) = W.trailer site n i
  zero : ∀ x, u ≤ x → x + W.t < u + k → m x = 0

/-- The notification leaves the chunk with its size and metadata. -/
theorem notify_holds (W : World) (ht : 8 ≤ W.t) (m : Mem) (p n site : Nat) (hp8 : p % 8 = 0) :
    Holds W (notifyMem W m p n (allocaSize W.t n) site) (adjust p (allocaSize W.t n) 0).userchunk (adjust p (allocaSize W.t n) 0).nonHeader n site := by
  have hs := size_bounds W.t n
  have hu := user_bounds p (allocaSize W.t n) 0
  have h8 := user8 p (allocaSize W.t n) 0 hp8
  have hn := nonHeader_eq p (allocaSize W.t n) 0 (by omega)
  refine ⟨?_, ?_, ?_⟩
  · intro i hi
    unfold notifyMem
    rw [if_neg (by omega), if_pos (by omega),
      show (adjust p (allocaSize W.t n) 0).userchunk - 8 + i - ((adjust p (allocaSize W.t n) 0).userchunk - 8) = i by omega]
  · intro i hi
    unfold notifyMem
    rw [if_pos (by omega)]
    congr 1
    omega
  · intro x h1 h2
    unfold notifyMem
    rw [if_neg (by omega), if_neg (by omega), if_pos (by omega)]

private theorem got_legal (W : World) (hW : WorldOk W) (encl : Name) : Legal W (got W encl) := by
  intro loc nm sp m n
  have hs := size_bounds W.t n
  unfold got
  by_cases hm : monitored encl nm = true
  · simp only [hm, if_true]
    cases hd : W.drop sp (allocaSize W.t n) with
    | none => exact ⟨_, by omega, hs.2, hd⟩
    | some p =>
      have hp := hW.2 _ _ _ hd
      have hu := user_bounds p (allocaSize W.t n) 0
      have h8 := user8 p (allocaSize W.t n) 0 hp.2
      have hn := nonHeader_eq p (allocaSize W.t n) 0 (by have := hW.1; omega)
      simp only
      by_cases hb : Alloca.SANE < (adjust p (allocaSize W.t n) 0).nonHeader
      · rw [if_pos hb]
        simp only
        omega
      · rw [if_neg hb]
        refine ⟨by omega, by omega, by omega, fun x hx => notifyMem_outside W m p n _ x hW.1 (by omega) hp.2⟩
  · simp only [hm]
    cases hd : W.drop sp n with
    | none => exact ⟨n, by omega, by omega, hd⟩
    | some p =>
      have hp := hW.2 _ _ _ hd
      exact ⟨Nat.le_refl _, by omega, hp.2, fun _ _ => rfl⟩

/-- The states agree, the counter is the sum of the usable sizes, and the chunks lie one below the other, each with its header. -/
private structure Rel (W : World) (encl : Name) (b sp0 : Nat) (s : TSt) (o : OSt) : Prop where
  vars : s.vars = o.vars
  mem : s.mem = o.mem
  sp : s.sp = o.sp
  chunks : s.chunks.map (fun c => (c.user, c.n, c.site)) =
    (o.log.filter fun r => monitored encl r.name).map (fun r => (r.u, r.n, W.site r.loc))
  counter : s.new 0 = b + (s.chunks.map (·.usable)).sum
  below : s.sp ≤ sp0
  each : ∀ c ∈ s.chunks, s.sp + 8 ≤ c.user ∧ c.user + c.usable ≤ sp0 ∧ c.user % 16 = 0 ∧ c.n + W.t ≤ c.usable ∧ c.usable ≤ Alloca.SANE
  order : s.chunks.Pairwise (fun c d => c.user + c.usable + 8 ≤ d.user)

private theorem stackAlloc_mon {encl : Name} {tgt : Option Nat} {f : Callee} {e : Expr} {loc : Nat} (h : isAllocaFun encl f = true) :
    ∃ nm, f = .direct nm ∧ monitored encl nm = true ∧ stackAlloc (.call tgt f [e] loc) = some (tgt, nm, e, loc) := by
  cases f with
  | computed e => exact absurd h (by simp [isAllocaFun])
  | direct nm =>
    refine ⟨nm, rfl, h, ?_⟩
    simp only [isAllocaFun, Bool.and_eq_true, Bool.or_eq_true, decide_eq_true_eq] at h
    simp only [stackAlloc]
    rw [if_pos h.2]

private theorem stackAlloc_unmon {encl : Name} {v : VSt} {i : Instr} (h : (vinst encl v i).1 = [.keep i]) {x : Option Nat × Name × Expr × Nat}
    (hx : stackAlloc i = some x) : monitored encl x.2.1 = false := by
  unfold stackAlloc at hx
  split at hx
  · rename_i tgt n e loc
    split at hx
    · cases hx
      simp only [vinst] at h
      split at h
      · simp at h
      · rename_i hf
        simpa [isAllocaFun, monitored] using hf
    · cases hx
  · rename_i tgt n e loc
    split at hx
    · rename_i hn
      cases hx
      subst hn
      have h1 : ALIGNED ≠ ALLOCA := by decide
      have h2 : ALIGNED ≠ BUILTIN := by decide
      simp [monitored, h1, h2]
    · cases hx
  · cases hx

private theorem vinst_cases (encl : Name) (v : VSt) (i : Instr) :
    ((vinst encl v i).1 = [.keep i] ∧ (vinst encl v i).2 = v) ∨
    ∃ tgt nm e loc, monitored encl nm = true ∧ stackAlloc i = some (tgt, nm, e, loc) ∧
      vinst encl v i = ([.size (v.next + 1) e, .site v.next loc, .alloca (v.next + 2) (v.next + 1),
        .notify tgt (v.next + 2) e (v.next + 1) 0 v.next], ⟨v.next + 3, true⟩) := by
  unfold vinst
  split
  · rename_i tgt f e loc
    by_cases h : isAllocaFun encl f = true
    · obtain ⟨nm, _, hm, hs⟩ := stackAlloc_mon (tgt := tgt) (e := e) (loc := loc) h
      rw [if_pos h]
      exact .inr ⟨tgt, nm, e, loc, hm, hs, rfl⟩
    · rw [if_neg h]
      exact .inl ⟨rfl, rfl⟩
  · exact .inl ⟨rfl, rfl⟩

private theorem step_sim {W : World} (hW : WorldOk W) {encl : Name} {b sp0 : Nat} {s : TSt} {o : OSt} (h : Rel W encl b sp0 s o) {v : VSt}
    (hv : 1 ≤ v.next) (i : Instr) :
    OutRel (Rel W encl b sp0) (tsteps W s (vinst encl v i).1) (ostep (got W encl) W.ext o i) := by
  obtain ⟨h1, h2, h3, h4, h5, h6, h7, h8⟩ := h
  rcases vinst_cases encl v i with ⟨hk, _⟩ | ⟨tgt, nm, e, loc, hm, hs, hk⟩
  · rw [hk]
    simp only [tsteps, tstep, ostep]
    cases hx : stackAlloc i with
    | none =>
      simp only [OutRel]
      exact ⟨by simp only [h1, h2], by simp only [h1, h2], h3, h4, h5, h6, h7, h8⟩
    | some x =>
      obtain ⟨tgt, nm, e, loc⟩ := x
      have hu := stackAlloc_unmon hk hx
      simp only at hu
      simp only [got, hu, ← h1, ← h2, ← h3]
      cases hd : W.drop s.sp (e s.vars s.mem) with
      | none => simp [OutRel]
      | some p =>
        have hp := hW.2 _ _ _ hd
        simp only [Bool.false_eq_true, if_false, OutRel]
        refine ⟨rfl, rfl, rfl, ?_, h5, by simp only; omega, fun c hc => ?_, h8⟩
        · simp only [List.filter_cons, hu, h4]
          rfl
        · have := h7 c hc
          simp only
          omega
  · rw [hk]
    have e1 : v.next + 1 ≠ v.next := by omega
    have e2 : v.next + 2 ≠ v.next := by omega
    have e3 : v.next + 2 ≠ v.next + 1 := by omega
    have e4 : (0 : Nat) ≠ v.next := by omega
    have e5 : (0 : Nat) ≠ v.next + 1 := by omega
    have e6 : (0 : Nat) ≠ v.next + 2 := by omega
    have e7 : v.next ≠ v.next + 1 := by omega
    have e8 : v.next ≠ v.next + 2 := by omega
    have e9 : v.next + 1 ≠ v.next + 2 := by omega
    simp only [ostep, hs, got, hm, if_true, ← h1, ← h2, ← h3]
    simp only [tsteps, tstep, setNew, e1, e2, e3, e4, e5, e6, e7, e8, e9, if_true, if_false]
    cases hd : W.drop s.sp (allocaSize W.t (e s.vars s.mem)) with
    | none => simp [OutRel]
    | some p =>
      have hp := hW.2 _ _ _ hd
      have ht := hW.1
      have hsz := size_bounds W.t (e s.vars s.mem)
      have hu := user_bounds p (allocaSize W.t (e s.vars s.mem)) 0
      have hu8 := user8 p (allocaSize W.t (e s.vars s.mem)) 0 hp.2
      have hn := nonHeader_eq p (allocaSize W.t (e s.vars s.mem)) 0 (by omega)
      have ec : ∀ c, (adjust p (allocaSize W.t (e s.vars s.mem)) c).nonHeader = (adjust p (allocaSize W.t (e s.vars s.mem)) 0).nonHeader := fun _ => rfl
      have eu : ∀ c, (adjust p (allocaSize W.t (e s.vars s.mem)) c).userchunk = (adjust p (allocaSize W.t (e s.vars s.mem)) 0).userchunk := fun _ => rfl
      have ek : ∀ c, (adjust p (allocaSize W.t (e s.vars s.mem)) c).counter = c + (adjust p (allocaSize W.t (e s.vars s.mem)) 0).nonHeader := fun _ => rfl
      simp only [e1, e2, e3, e4, e5, e6, e7, e8, e9, if_true, if_false, ec, eu, ek]
      by_cases hb : Alloca.SANE < (adjust p (allocaSize W.t (e s.vars s.mem)) 0).nonHeader
      · rw [if_pos hb, if_pos hb]
        simp [OutRel]
      · rw [if_neg hb, if_neg hb]
        simp only [OutRel]
        refine ⟨rfl, rfl, rfl, ?_, ?_, by simp only; omega, fun c hc => ?_, ?_⟩
        · simp only [List.filter_cons, hm, if_true, List.map_cons, h4]
        · simp only [if_true, List.map_cons, List.sum_cons, h5]
          omega
        · simp only at hc ⊢
          rcases List.mem_cons.1 hc with rfl | hc
          · simp only
            omega
          · have := h7 c hc
            omega
        · simp only [List.pairwise_cons]
          refine ⟨fun d hd' => ?_, h8⟩
          have := h7 d hd'
          omega

/-- When a call that is monitored has been carried out, its chunk is in the index, and holds its size and metadata, and zeros. -/
theorem alloca_holds (W : World) (hW : WorldOk W) (encl : Name) (v : VSt) (i : Instr) (s s' : TSt) (h : tsteps W s (vinst encl v i).1 = .ok s')
    (hi : (vinst encl v i).1 ≠ [.keep i]) :
    ∃ c, s'.chunks = c :: s.chunks ∧ Holds W s'.mem c.user c.usable c.n c.site := by
  rcases vinst_cases encl v i with ⟨hk, _⟩ | ⟨tgt, nm, e, loc, hm, hs, hk⟩
  · exact absurd hk hi
  · rw [hk] at h
    have e1 : v.next + 1 ≠ v.next := by omega
    have e2 : v.next + 2 ≠ v.next := by omega
    have e3 : v.next + 2 ≠ v.next + 1 := by omega
    have e7 : v.next ≠ v.next + 1 := by omega
    have e8 : v.next ≠ v.next + 2 := by omega
    have e9 : v.next + 1 ≠ v.next + 2 := by omega
    simp only [tsteps, tstep, setNew, e1, e2, e3, e7, e8, e9, if_true, if_false] at h
    cases hd : W.drop s.sp (allocaSize W.t (e s.vars s.mem)) with
    | none => rw [hd] at h; cases h
    | some p =>
      rw [hd] at h
      simp only [e1, e2, e3, e7, e8, e9, if_true, if_false] at h
      by_cases hb : Alloca.SANE < (adjust p (allocaSize W.t (e s.vars s.mem)) 0).nonHeader
      · rw [if_pos (by exact hb)] at h; cases h
      · rw [if_neg (by exact hb)] at h
        cases h
        exact ⟨_, rfl, notify_holds W hW.1 s.mem p _ _ (hW.2 _ _ _ hd).2⟩

private theorem next_mono (encl : Name) (v : VSt) (i : Instr) (hv : 1 ≤ v.next) : 1 ≤ (vinst encl v i).2.next := by
  rcases vinst_cases encl v i with ⟨_, h⟩ | ⟨_, _, _, _, _, _, h⟩
  · rw [h]; exact hv
  · rw [h]; simp only; omega

private theorem nexts_mono (encl : Name) (l : List Instr) : ∀ v : VSt, 1 ≤ v.next → 1 ≤ (vinsts encl v l).2.next := by
  induction l with
  | nil => intro v hv; exact hv
  | cons i l ih => intro v hv; exact ih _ (next_mono encl v i hv)

private theorem tsteps_append (W : World) (l r : List TInstr) : ∀ s, tsteps W s (l ++ r) =
    match tsteps W s l with
    | .ok s' => tsteps W s' r
    | .fault => .fault
    | .abort => .abort
    | .more => .more
    | .stuck => .stuck := by
  induction l with
  | nil => intro s; rfl
  | cons i l ih =>
    intro s
    simp only [List.cons_append, tsteps]
    cases tstep W s i with
    | ok s' => exact ih s'
    | _ => rfl

private theorem steps_sim {W : World} (hW : WorldOk W) {encl : Name} {b sp0 : Nat} (l : List Instr) :
    ∀ (v : VSt), 1 ≤ v.next → ∀ (s : TSt) (o : OSt), Rel W encl b sp0 s o →
      OutRel (Rel W encl b sp0) (tsteps W s (vinsts encl v l).1) (osteps (got W encl) W.ext o l) := by
  induction l with
  | nil => intro v _ s o h; exact h
  | cons i l ih =>
    intro v hv s o h
    have h1 := step_sim hW h hv i
    simp only [vinsts, osteps]
    rw [tsteps_append]
    revert h1
    cases tsteps W s (vinst encl v i).1 with
    | ok s' =>
      cases ostep (got W encl) W.ext o i with
      | ok o' => intro h1; exact ih _ (next_mono encl v i hv) s' o' h1
      | _ => intro h1; exact absurd h1 (by simp [OutRel])
    | _ =>
      cases ostep (got W encl) W.ext o i <;> intro h1 <;> first | exact trivial | exact False.elim h1

private theorem body_get (encl : Name) (body : List (List Instr × Next)) : ∀ (v : VSt), 1 ≤ v.next → ∀ pc : Nat,
    (body[pc]? = none ∧ (vbody encl v body).1[pc]? = none) ∨
    ∃ is n v', 1 ≤ v'.next ∧ body[pc]? = some (is, n) ∧ (vbody encl v body).1[pc]? = some ((vinsts encl v' is).1, n) := by
  induction body with
  | nil => intro v _ pc; exact .inl ⟨by simp, by simp [vbody]⟩
  | cons x l ih =>
    intro v hv pc
    obtain ⟨is, n⟩ := x
    cases pc with
    | zero => exact .inr ⟨is, n, v, hv, by simp, by simp [vbody]⟩
    | succ pc =>
      have := ih (vinsts encl v is).2 (nexts_mono encl is v hv) pc
      simpa [vbody] using this

private theorem run_sim {W : World} (hW : WorldOk W) {encl : Name} {b sp0 : Nat} (body : List (List Instr × Next)) (v : VSt) (hv : 1 ≤ v.next)
    (k : Nat) : ∀ (pc : Nat) (s : TSt) (o : OSt), Rel W encl b sp0 s o →
      OutRel (fun x y => x.1 = y.1 ∧ Rel W encl b sp0 x.2 y.2) (trun W (vbody encl v body).1 k pc s)
        (orun (got W encl) W.ext body k pc o) := by
  induction k with
  | zero => intro pc s o _; simp [trun, orun, OutRel]
  | succ k ih =>
    intro pc s o h
    rw [trun, orun]
    rcases body_get encl body v hv pc with ⟨e1, e2⟩ | ⟨is, n, v', hv', e1, e2⟩
    · rw [e1, e2]; simp [OutRel]
    · rw [e1, e2]
      simp only
      have h1 := steps_sim hW is v' hv' s o h
      revert h1
      cases tsteps W s (vinsts encl v' is).1 with
      | ok s' =>
        cases osteps (got W encl) W.ext o is with
        | ok o' =>
          intro h1
          simp only [OutRel] at h1
          cases n with
          | goto q => exact ih q s' o' h1
          | branch e a b => simp only [h1.vars, h1.mem]; exact ih _ s' o' h1
          | ret e => simp only [OutRel, h1.vars, h1.mem]; exact ⟨trivial, h1⟩
        | _ => intro h1; exact absurd h1 (by simp [OutRel])
      | _ =>
        cases osteps (got W encl) W.ext o is <;> intro h1 <;> first | exact trivial | exact False.elim h1

private theorem call_sim {W : World} (hW : WorldOk W) (f : Fun) (k : Nat) (s : TSt) (hs : s.chunks = []) :
    ∃ b, ((vfunc f).cleanup = true → b = 0) ∧
      OutRel (fun x y => x.1 = y.1 ∧ Rel W f.name b s.sp x.2 y.2) (tcall W (vfunc f) k s)
        (orun (got W f.name) W.ext f.body k 0 ⟨s.vars, s.mem, s.sp, []⟩) := by
  have h0 : ∀ s' : TSt, s'.vars = s.vars → s'.mem = s.mem → s'.sp = s.sp → s'.chunks = [] →
      Rel W f.name (s'.new 0) s.sp s' ⟨s.vars, s.mem, s.sp, []⟩ := by
    intro s' a1 a2 a3 a4
    refine ⟨a1, a2, a3, by simp [a4], by simp [a4], by simp [a3], by simp [a4], by simp [a4]⟩
  unfold tcall
  by_cases hc : (vbody f.name ⟨1, false⟩ f.body).2.counter = true
  · refine ⟨0, fun _ => rfl, ?_⟩
    have he : tsteps W s (vfunc f).entry = .ok (setNew s 0 0) := by simp [vfunc, hc, tsteps, tstep]
    rw [he]
    have hr := h0 (setNew s 0 0) rfl rfl rfl hs
    simp only [setNew, if_true] at hr
    exact run_sim hW f.body ⟨1, false⟩ (Nat.le_refl _) k 0 _ _ hr
  · refine ⟨s.new 0, fun h => absurd h hc, ?_⟩
    have he : tsteps W s (vfunc f).entry = .ok s := by simp [vfunc, hc, tsteps]
    rw [he]
    exact run_sim hW f.body ⟨1, false⟩ (Nat.le_refl _) k 0 _ _ (h0 s rfl rfl rfl hs)

/-- **C145, behaviour.** Whatever the function, its arguments, the memory and the functions it calls, for some implementation of
alloca that C allows: after any number of steps the changed function has ended as the original one has, with the same result,
variables and memory, or neither has ended. -/
theorem behaves (W : World) (hW : WorldOk W) (f : Fun) : ∃ al, Legal W al ∧ ∀ k (s : TSt), s.chunks = [] →
    OutRel (fun x y => x.1 = y.1 ∧ x.2.vars = y.2.vars ∧ x.2.mem = y.2.mem ∧ x.2.sp = y.2.sp) (tcall W (vfunc f) k s)
      (orun al W.ext f.body k 0 ⟨s.vars, s.mem, s.sp, []⟩) := by
  refine ⟨got W f.name, got_legal W hW f.name, fun k s hs => ?_⟩
  obtain ⟨b, _, h⟩ := call_sim hW f k s hs
  revert h
  cases tcall W (vfunc f) k s <;> cases orun (got W f.name) W.ext f.body k 0 ⟨s.vars, s.mem, s.sp, []⟩ <;> simp only [OutRel] <;>
    intro h <;> first | trivial | exact h | exact ⟨h.1, h.2.vars, h.2.mem, h.2.sp⟩

private theorem counter_set (encl : Name) (l : List Instr) : ∀ v : VSt, v.counter = true → (vinsts encl v l).2.counter = true := by
  induction l with
  | nil => intro v h; exact h
  | cons i l ih =>
    intro v h
    refine ih _ ?_
    rcases vinst_cases encl v i with ⟨_, e⟩ | ⟨_, _, _, _, _, _, e⟩ <;> rw [e]
    exact h

private theorem body_set (encl : Name) (l : List (List Instr × Next)) : ∀ v : VSt, v.counter = true → (vbody encl v l).2.counter = true := by
  induction l with
  | nil => intro v h; exact h
  | cons x l ih => intro v h; exact ih _ (counter_set encl x.1 v h)

/-- A notification is only where there is a counter. -/
private def quiet : TInstr → Bool
  | .notify .. => false
  | _ => true

private theorem insts_quiet (encl : Name) (l : List Instr) : ∀ v : VSt, (vinsts encl v l).2.counter = false →
    ∀ i ∈ (vinsts encl v l).1, quiet i = true := by
  induction l with
  | nil => intro v _ i hi; exact absurd hi (by simp [vinsts])
  | cons x l ih =>
    intro v h i hi
    simp only [vinsts] at h hi
    rcases vinst_cases encl v x with ⟨e, e'⟩ | ⟨_, _, _, _, _, _, e⟩
    · rcases List.mem_append.1 hi with hi | hi
      · rw [e] at hi
        simp only [List.mem_singleton] at hi
        subst hi
        rfl
      · exact ih _ h i hi
    · rw [counter_set encl l _ (by rw [e])] at h
      exact absurd h (by decide)

private theorem body_quiet (encl : Name) (l : List (List Instr × Next)) : ∀ v : VSt, (vbody encl v l).2.counter = false →
    ∀ x ∈ (vbody encl v l).1, ∀ i ∈ x.1, quiet i = true := by
  induction l with
  | nil => intro v _ x hx; exact absurd hx (by simp [vbody])
  | cons y l ih =>
    intro v h x hx
    obtain ⟨is, n⟩ := y
    simp only [vbody] at h hx
    rcases List.mem_cons.1 hx with rfl | hx
    · refine insts_quiet encl is v ?_
      cases hb : (vinsts encl v is).2.counter with
      | false => rfl
      | true => rw [body_set encl l _ hb] at h; exact absurd h (by decide)
    · exact ih _ h x hx

private theorem steps_quiet (W : World) (l : List TInstr) : ∀ s s', (∀ i ∈ l, quiet i = true) → tsteps W s l = .ok s' →
    s'.chunks = s.chunks := by
  induction l with
  | nil => intro s s' _ h; simp only [tsteps, Out.ok.injEq] at h; rw [h]
  | cons i l ih =>
    intro s s' hq h
    simp only [tsteps] at h
    have hqi := hq i (by simp)
    cases hi : tstep W s i with
    | ok s1 =>
      rw [hi] at h
      have h2 := ih s1 s' (fun j hj => hq j (by simp [hj])) h
      rw [h2]
      cases i with
      | notify _ _ _ _ _ _ => exact absurd hqi (by simp [quiet])
      | keep i =>
        simp only [tstep] at hi
        split at hi
        · split at hi
          · cases hi
          · simp only [Out.ok.injEq] at hi; rw [← hi]
        · simp only [Out.ok.injEq] at hi; rw [← hi]
      | alloca v n =>
        simp only [tstep] at hi
        split at hi
        · cases hi
        · simp only [Out.ok.injEq] at hi; rw [← hi]; rfl
      | _ =>
        simp only [tstep, Out.ok.injEq] at hi; rw [← hi]; rfl
    | _ => rw [hi] at h; cases h

private theorem run_quiet (W : World) (body : List (List TInstr × Next)) (hq : ∀ x ∈ body, ∀ i ∈ x.1, quiet i = true) (k : Nat) :
    ∀ pc s r s', trun W body k pc s = .ok (r, s') → s'.chunks = s.chunks := by
  induction k with
  | zero => intro pc s r s' h; cases h
  | succ k ih =>
    intro pc s r s' h
    rw [trun] at h
    cases hb : body[pc]? with
    | none => rw [hb] at h; cases h
    | some x =>
      obtain ⟨is, n⟩ := x
      rw [hb] at h
      simp only at h
      cases hs : tsteps W s is with
      | ok s1 =>
        have h1 := steps_quiet W is s s1 (hq (is, n) (List.mem_of_getElem? hb)) hs
        rw [hs] at h
        simp only at h
        cases n with
        | goto q => exact (ih _ _ _ _ h).trans h1
        | branch e a b => exact (ih _ _ _ _ h).trans h1
        | ret e =>
          simp only [Out.ok.injEq, Prod.mk.injEq] at h
          rw [← h.2, h1]
      | _ => rw [hs] at h; cases h

/-- **C145, the index (partial).** When the changed function returns, the chunks indexed on its behalf are just those that the
original's calls to `alloca` or `__builtin_alloca` gave, in order, each with the size asked for and the place of its call; they do
not overlap, nor do their headers; if there are any then the function has a cleanup, and the counter given to it is the sum of the
chunks' usable sizes. Partial: `__builtin_alloca_with_align` (`aligned_fails`). -/
theorem indexed_partial (W : World) (hW : WorldOk W) (f : Fun) (hf : f.name ≠ SKIP1 ∧ f.name ≠ SKIP2) : ∃ al, Legal W al ∧
    ∀ k (s : TSt) r s', s.chunks = [] → tcall W (vfunc f) k s = .ok (r, s') →
    ∃ o', orun al W.ext f.body k 0 ⟨s.vars, s.mem, s.sp, []⟩ = .ok (r, o') ∧
      s'.chunks.map (fun c => (c.user, c.n, c.site)) =
        (o'.log.filter fun r => decide (r.name = ALLOCA ∨ r.name = BUILTIN)).map (fun r => (r.u, r.n, W.site r.loc)) ∧
      (s'.chunks ≠ [] → (vfunc f).cleanup = true ∧ s'.new 0 = (s'.chunks.map (·.usable)).sum) ∧
      (∀ c ∈ s'.chunks, s'.sp + 8 ≤ c.user ∧ c.user + c.usable ≤ s.sp ∧ c.user % 16 = 0 ∧ c.n + W.t ≤ c.usable ∧ c.usable ≤ Alloca.SANE) ∧
      s'.chunks.Pairwise (fun c d => c.user + c.usable + 8 ≤ d.user) := by
  refine ⟨got W f.name, got_legal W hW f.name, fun k s r s' hs he => ?_⟩
  obtain ⟨b, hb, h⟩ := call_sim hW f k s hs
  rw [he] at h
  revert h
  cases orun (got W f.name) W.ext f.body k 0 ⟨s.vars, s.mem, s.sp, []⟩ with
  | ok y =>
    obtain ⟨r', o'⟩ := y
    intro h
    simp only [OutRel] at h
    obtain ⟨rfl, hr⟩ := h
    refine ⟨o', rfl, ?_, ?_, hr.each, hr.order⟩
    · rw [hr.chunks]
      congr 1
      apply List.filter_congr
      intro x _
      simp [monitored, hf.1, hf.2]
    · intro hne
      have hcl : (vfunc f).cleanup = true := by
        cases hc : (vbody f.name ⟨1, false⟩ f.body).2.counter with
        | true => exact hc
        | false =>
          refine absurd ?_ hne
          unfold tcall at he
          have hen : tsteps W s (vfunc f).entry = .ok s := by simp [vfunc, hc, tsteps]
          rw [hen] at he
          simp only at he
          rw [run_quiet W _ (body_quiet f.name f.body ⟨1, false⟩ hc) k 0 s r s' he, hs]
      refine ⟨hcl, ?_⟩
      have := hr.counter
      rw [hb hcl] at this
      omega
  | _ => intro h; exact absurd h (by simp [OutRel])

private theorem sorted_ext : ∀ l r : List Nat, l.Pairwise (· < ·) → r.Pairwise (· < ·) → (∀ x, x ∈ l ↔ x ∈ r) → l = r := by
  intro l
  induction l with
  | nil =>
    intro r _ _ h
    cases r with
    | nil => rfl
    | cons y r => exact absurd ((h y).2 (by simp)) (by simp)
  | cons x l ih =>
    intro r hl hr h
    cases r with
    | nil => exact absurd ((h x).1 (by simp)) (by simp)
    | cons y r =>
      rw [List.pairwise_cons] at hl hr
      have hxy : x = y := by
        rcases List.mem_cons.1 ((h x).1 (by simp)) with e | h1
        · exact e
        · rcases List.mem_cons.1 ((h y).2 (by simp)) with e | h2
          · exact e.symm
          · have := hl.1 y h2; have := hr.1 x h1; omega
      subst hxy
      rw [ih r hl.2 hr.2]
      intro z
      constructor
      · intro hz
        rcases List.mem_cons.1 ((h z).1 (by simp [hz])) with e | h1
        · have := hl.1 z hz; omega
        · exact h1
      · intro hz
        rcases List.mem_cons.1 ((h z).2 (by simp [hz])) with e | h1
        · have := hr.1 z hz; omega
        · exact h1

private theorem exit_chunks (chunks : List Chunk) (sp sp0 spx base nwords : Nat) (sz : Nat → Nat) (bits : Nat → Bool)
    (order : chunks.Pairwise (fun c d => c.user + c.usable + 8 ≤ d.user))
    (each : ∀ c ∈ chunks, sp + 8 ≤ c.user ∧ c.user + c.usable ≤ sp0 ∧ c.user % 16 = 0 ∧ 0 < c.usable ∧ c.usable ≤ 131072)
    (hb : base % 16 = 0) (hbx : base ≤ spx) (hx : spx ≤ sp)
    (hbits : ∀ i, bits i = true → (∃ c ∈ chunks, c.user = base + 16 * i) ∨
      (sp0 ≤ base + 16 * i ∧ 0 < sz (base + 16 * i) ∧ sz (base + 16 * i) ≤ 131072))
    (own : ∀ c ∈ chunks, bits ((c.user - base) / 16) = true ∧ (c.user - base) / 16 < 64 * nwords ∧ sz c.user = c.usable) :
    ∃ bits', Alloca.unindex sz base nwords spx (chunks.map (·.usable)).sum bits = some bits' ∧
      ∀ i, bits' i = true ↔ bits i = true ∧ ∀ c ∈ chunks, c.user ≠ base + 16 * i := by
  generalize hL : Alloca.chunksFrom bits ((spx - base) / 16) (64 * nwords - (spx - base) / 16) = L
  have idx : ∀ c ∈ chunks, base + 16 * ((c.user - base) / 16) = c.user := by
    intro c hc
    have := each c hc
    omega
  have memL : ∀ i, i ∈ L ↔ ((spx - base) / 16 ≤ i ∧ i < 64 * nwords) ∧ bits i = true := by
    intro i
    rw [← hL]
    simp only [Alloca.chunksFrom, List.mem_filter, List.mem_range'_1]
    constructor
    · rintro ⟨h1, h2⟩; exact ⟨by omega, h2⟩
    · rintro ⟨h1, h2⟩; exact ⟨by omega, h2⟩
  have sortL : L.Pairwise (· < ·) := by
    rw [← hL]
    exact List.Pairwise.filter _ (List.pairwise_lt_range' (s := (spx - base) / 16))
  have splitL : L = chunks.map (fun c => (c.user - base) / 16) ++ L.filter (fun i => decide (sp0 ≤ base + 16 * i)) := by
    refine sorted_ext _ _ sortL ?_ ?_
    · rw [List.pairwise_append]
      refine ⟨?_, List.Pairwise.filter _ sortL, ?_⟩
      · rw [List.pairwise_map]
        refine List.Pairwise.imp_of_mem ?_ order
        intro c d hc hd h
        have := idx c hc
        have := idx d hd
        omega
      · intro i hi j hj
        obtain ⟨c, hc, rfl⟩ := List.mem_map.1 hi
        have h1 := idx c hc
        have h2 := each c hc
        have h3 := (List.mem_filter.1 hj).2
        simp only [decide_eq_true_eq] at h3
        omega
    · intro i
      rw [List.mem_append]
      constructor
      · intro hi
        rcases hbits i ((memL i).1 hi).2 with ⟨c, hc, h⟩ | h
        · exact .inl (List.mem_map.2 ⟨c, hc, by omega⟩)
        · exact .inr (List.mem_filter.2 ⟨hi, by simpa using h.1⟩)
      · rintro (hi | hi)
        · obtain ⟨c, hc, rfl⟩ := List.mem_map.1 hi
          have h1 := each c hc
          exact (memL _).2 ⟨⟨by omega, (own c hc).2.1⟩, (own c hc).1⟩
        · exact (List.mem_filter.1 hi).1
  have takeL : L.take chunks.length = chunks.map (fun c => (c.user - base) / 16) := by
    rw [splitL, List.take_append_of_le_length (by simp), List.take_of_length_le (by simp)]
  have hsz : ∀ i, bits i = true → 0 < sz (base + 16 * i) ∧ sz (base + 16 * i) ≤ 131072 := by
    intro i hi
    rcases hbits i hi with ⟨c, hc, h⟩ | h
    · rw [← h, (own c hc).2.2]
      exact ⟨(each c hc).2.2.2.1, (each c hc).2.2.2.2⟩
    · exact h.2
  have sumL : ∀ l : List Chunk, (∀ c ∈ l, c ∈ chunks) → (l.map (·.usable)).sum =
      ((l.map (fun c => (c.user - base) / 16)).map (fun i => sz (base + 16 * i))).sum := by
    intro l
    induction l with
    | nil => intro _; rfl
    | cons c l ih =>
      intro h
      have hc := h c (by simp)
      simp only [List.map_cons, List.sum_cons]
      rw [ih (fun d hd => h d (by simp [hd])), idx c hc, (own c hc).2.2]
  obtain ⟨bits', h1, h2⟩ := Alloca.frame_exit_partial sz base nwords spx (chunks.map (·.usable)).sum chunks.length bits hsz
    (by rw [hL, splitL]; simp) (by rw [hL, takeL]; exact sumL chunks (fun _ h => h))
  refine ⟨bits', h1, fun i => ?_⟩
  rw [h2 i, hL, takeL]
  constructor
  · rintro ⟨hi, hn⟩
    refine ⟨hi, fun c hc he => hn (List.mem_map.2 ⟨c, hc, by omega⟩)⟩
  · rintro ⟨hi, hn⟩
    refine ⟨hi, fun h => ?_⟩
    obtain ⟨c, hc, rfl⟩ := List.mem_map.1 h
    exact hn c hc (idx c hc).symm

/-- **C145, on return (partial).** Let a frame's bitmap have just the chunks that the function indexed, and those of frames above
it, with their sizes below them. The cleanup, given the function's counter, removes all of its chunks and no other. Partial: no
chunk is larger than 131072 bytes (`Alloca.frame_exit_fails`). -/
theorem exit_partial (W : World) (hW : WorldOk W) (f : Fun) (hf : f.name ≠ SKIP1 ∧ f.name ≠ SKIP2) (k : Nat) (s s' : TSt) (r : Nat)
    (hs : s.chunks = []) (he : tcall W (vfunc f) k s = .ok (r, s')) (hc : (vfunc f).cleanup = true)
    (spx base nwords : Nat) (sz : Nat → Nat) (bits : Nat → Bool) (hb : base % 16 = 0) (hbx : base ≤ spx) (hx : spx ≤ s'.sp)
    (small : ∀ c ∈ s'.chunks, c.usable ≤ 131072)
    (hbits : ∀ i, bits i = true → (∃ c ∈ s'.chunks, c.user = base + 16 * i) ∨
      (s.sp ≤ base + 16 * i ∧ 0 < sz (base + 16 * i) ∧ sz (base + 16 * i) ≤ 131072))
    (own : ∀ c ∈ s'.chunks, bits ((c.user - base) / 16) = true ∧ (c.user - base) / 16 < 64 * nwords ∧ sz c.user = c.usable) :
    ∃ bits', Alloca.unindex sz base nwords spx (s'.new 0) bits = some bits' ∧
      ∀ i, bits' i = true ↔ bits i = true ∧ ∀ c ∈ s'.chunks, c.user ≠ base + 16 * i := by
  obtain ⟨b, hb0, h⟩ := call_sim hW f k s hs
  rw [he] at h
  revert h
  cases orun (got W f.name) W.ext f.body k 0 ⟨s.vars, s.mem, s.sp, []⟩ with
  | ok y =>
    intro h
    simp only [OutRel] at h
    have hr := h.2
    have hcnt := hr.counter
    rw [hb0 hc, Nat.zero_add] at hcnt
    rw [hcnt]
    refine exit_chunks s'.chunks s'.sp s.sp spx base nwords sz bits hr.order (fun c hc => ?_) hb hbx hx hbits own
    have h1 := hr.each c hc
    have h2 := small c hc
    have h3 := hW.1
    exact ⟨h1.1, h1.2.1, h1.2.2.1, by omega, h2⟩
  | _ => intro h; exact absurd h (by simp [OutRel])

/-- A world for the cases below: the stack pointer goes down to a multiple of 16. -/
def exW : World :=
  ⟨fun _ _ m => (0, m), fun sp n => if n + 16 ≤ sp then some ((sp - n) / 16 * 16) else none, fun l => 0x400000 + l, fun _ _ _ => 1, 8⟩

theorem exW_ok : WorldOk exW := by
  refine ⟨by decide, fun sp n p h => ?_⟩
  simp only [exW] at h
  split at h
  · simp only [Option.some.injEq] at h; omega
  · cases h

/-- `do p = alloca(n); while (--n); return p;` -/
def exF (nm : Name) (args : List Expr) : Fun :=
  ⟨['f'], [([.call (some 0) (.direct nm) args 7, .other fun vs m => (fun y => if y = 1 then vs 1 - 1 else vs y, m)],
     .branch (fun vs _ => vs 1) 0 1), ([], .ret fun vs _ => vs 0)]⟩

def exS : TSt := ⟨fun _ => 3, fun _ => 9, 0x10000, fun _ => 5, []⟩

/-- Three calls in a loop: three chunks, and a counter of 48. -/
example : ∃ s', tcall exW (vfunc (exF ALLOCA [fun vs _ => vs 1])) 5 exS = .ok (0xffb0, s') ∧
    s'.chunks = [⟨0xffb0, 1, 0x400007, 16⟩, ⟨0xffd0, 2, 0x400007, 16⟩, ⟨0xfff0, 3, 0x400007, 16⟩] ∧ s'.new 0 = 48 := by
  refine ⟨_, rfl, ?_⟩
  decide

/-- **C145, another name.** A call of `__builtin_alloca_with_align` is not changed: the function has no cleanup, and what it
allocates is not in the index. -/
theorem aligned_fails : (vfunc (exF ALIGNED [fun vs _ => vs 1, fun _ _ => 256])).cleanup = false ∧
    ∃ s', tcall exW (vfunc (exF ALIGNED [fun vs _ => vs 1, fun _ _ => 256])) 5 exS = .ok (0xffd0, s') ∧ s'.chunks = [] := by
  refine ⟨by decide, ?_⟩
  refine ⟨_, rfl, ?_⟩
  decide

/-- **C145, large chunks.** A program that allocates 32 MiB on a stack that is large enough is aborted. -/
theorem large_aborts : tcall exW (vfunc (exF ALLOCA [fun _ _ => 33554432])) 5 { exS with sp := 0x10000000 } = .abort := rfl

/-- The names of a function that is left alone, and of one whose calls are. -/
example : SKIP1 = "__liballocs_alloca".toList ∧ ALIGNED = "__builtin_alloca_with_align".toList := by decide

end Liballocs.MonAlloca
