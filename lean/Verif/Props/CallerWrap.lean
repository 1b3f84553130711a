import Verif.Model.CallerWrap
/-! # C76, C77: attribution of allocations to call sites and sizes -/
namespace Liballocs.CallerWrap

/-! ## What should be recorded, from the nesting of calls alone -/

/-- An active call of a declared allocation function. -/
structure Frame where
  ra : Nat
  size : Nat

inductive Ev where
  | alloc (ptr size caller : Nat)
  | resize (ptr modified caller : Nat)
  | sub (ptr : Nat)
  | unindex (ptr : Nat)

/-- Does a `longjmp` leave the program? -/
def escapes : Prog → Bool
  | .ret => false
  | .alloc _ _ _ rest => escapes rest
  | .resize _ _ _ rest => escapes rest
  | .call _ _ _ _ _ body rest => escapes body || escapes rest
  | .free _ body rest => escapes body || escapes rest
  | .guard _ rest => escapes rest
  | .jump => true

def evs (f : Nat → Ev) : Option Nat → List Ev
  | none => []
  | some p => [f p]

/-- The size kept from the latest finished outermost call, `l` being the one kept before. -/
def kept : Prog → Nat → Nat
  | .ret, l => l
  | .alloc _ _ _ rest, l => kept rest l
  | .resize _ _ _ rest, l => kept rest l
  | .call _ _ size keep _ _ rest, _ => kept rest (if keep then size else 0)
  | .free _ body rest, l => kept rest (kept body l)
  | .guard body rest, l => kept rest (kept body l)
  | .jump, l => l

/-- An event with the calls active at it (innermost first), whether a freeing function is active, and the size kept. -/
structure At where
  ev : Ev
  stack : List Frame
  freeing : Bool
  kept : Nat

/-- The events of a program in order. -/
def trace : Prog → List Frame → Bool → Nat → List At
  | .ret, _, _, _ => []
  | .alloc ptr size caller rest, k, f, l => ⟨.alloc ptr size caller, k, f, l⟩ :: trace rest k f l
  | .resize ptr modified caller rest, k, f, l => ⟨.resize ptr modified caller, k, f, l⟩ :: trace rest k f l
  | .call _ ra size keep sub body rest, k, f, l =>
    trace body (⟨ra, size⟩ :: k) f l ++ (evs .sub sub).map (⟨·, ⟨ra, size⟩ :: k, f, l⟩) ++
      trace rest k f (if k.isEmpty then if keep then size else 0 else l)
  | .free sub body rest, k, f, l =>
    (evs .unindex sub).map (⟨·, k, true, l⟩) ++ trace body k true l ++ trace rest k f (if k.isEmpty then kept body l else l)
  | .guard body rest, k, f, l => trace body k f l ++ trace rest k f (if k.isEmpty then kept body l else l)
  | .jump, _, _, _ => []

/-- No `longjmp` leaves a wrapped function. -/
def Calm : Prog → Prop
  | .ret => True
  | .alloc _ _ _ rest => Calm rest
  | .resize _ _ _ rest => Calm rest
  | .call _ _ _ _ _ body rest => escapes body = false ∧ Calm body ∧ Calm rest
  | .free _ body rest => escapes body = false ∧ Calm body ∧ Calm rest
  | .guard body rest => Calm body ∧ Calm rest
  | .jump => True

/-- Functions and return addresses are not null. -/
def NonNull : Prog → Prop
  | .ret => True
  | .alloc _ _ _ rest => NonNull rest
  | .resize _ _ _ rest => NonNull rest
  | .call fn ra _ _ _ body rest => fn ≠ 0 ∧ ra ≠ 0 ∧ NonNull body ∧ NonNull rest
  | .free _ body rest => NonNull body ∧ NonNull rest
  | .guard body rest => NonNull body ∧ NonNull rest
  | .jump => True

/-- The outermost active call. -/
def outermost (k : List Frame) : Option Frame := k.getLast?

/-- The site of the outermost active call, else the underlying allocator's caller. -/
def siteAt (k : List Frame) (caller : Nat) : Nat :=
  match outermost k with
  | some fr => fr.ra
  | none => caller

/-- The size noted at an event: of the outermost active call, else the kept one. -/
def noted (a : At) : Nat :=
  match outermost a.stack with
  | some fr => fr.size
  | none => a.kept

/-- What is recorded for an event. -/
def recorded (a : At) : Log :=
  match a.ev with
  | .alloc ptr size caller => .index ptr (siteAt a.stack caller) size (!a.stack.isEmpty) a.freeing
  | .resize ptr modified caller =>
    .index ptr (siteAt a.stack caller) (if noted a = 0 then modified - 8 else noted a) (!a.stack.isEmpty) a.freeing
  | .sub ptr => .suballoc ptr (siteAt a.stack 0) (noted a) (!a.stack.isEmpty) a.freeing
  | .unindex ptr => .unindex ptr (!a.stack.isEmpty) a.freeing

/-! ## Proof -/

/-- The thread-local variables for a stack of active calls. -/
def Rel (s : St) (k : List Frame) (f : Bool) (l : Nat) : Prop :=
  s.freeing = f ∧
  match outermost k with
  | none => s.fn = 0 ∧ s.site = 0 ∧ s.allocating = false ∧ s.sz = l
  | some fr => s.fn ≠ 0 ∧ s.site = fr.ra ∧ fr.ra ≠ 0 ∧ s.allocating = true ∧ s.sz = fr.size

theorem outermost_nil : outermost [] = none := rfl
theorem outermost_cons (a : Frame) (k : List Frame) : outermost (a :: k) = some ((outermost k).getD a) := by
  unfold outermost
  cases k with
  | nil => rfl
  | cons b k => simp [List.getLast?_cons]

theorem isEmpty_outermost (k : List Frame) : k.isEmpty = (outermost k).isNone := by
  cases k with
  | nil => rfl
  | cons b k => rw [outermost_cons]; rfl

theorem andThen_go (s : St) (l : List Log) (k : St → Res) : andThen (s, l, false) k = ((k s).1, l ++ (k s).2.1, (k s).2.2) := rfl

theorem andThen_false {r : Res} (h : r.2.2 = false) (k : St → Res) :
    andThen r k = ((k r.1).1, r.2.1 ++ (k r.1).2.1, (k r.1).2.2) := by
  unfold andThen; rw [h]; rfl

theorem siteFor_eq {s k f l} (h : Rel s k f l) (caller : Nat) : siteFor s caller = siteAt k caller := by
  unfold Rel at h
  unfold siteFor siteAt
  cases ho : outermost k with
  | none => rw [ho] at h; simp only at h; simp [h.2.2.1]
  | some fr => rw [ho] at h; simp only at h; simp only; rw [if_pos (by rw [h.2.2.1]; exact h.2.2.2.1)]; exact h.2.2.1

theorem flags_eq {s k f l} (h : Rel s k f l) : s.allocating = (!k.isEmpty) ∧ s.freeing = f := by
  unfold Rel at h
  rw [isEmpty_outermost]
  cases ho : outermost k with
  | none => rw [ho] at h; simp only at h; exact ⟨by simp [h.2.2.2.1], h.1⟩
  | some fr => rw [ho] at h; simp only at h; exact ⟨by simp [h.2.2.2.2.1], h.1⟩

theorem sz_eq {s k f l} (h : Rel s k f l) (ev : Ev) : s.sz = noted ⟨ev, k, f, l⟩ := by
  unfold Rel at h
  unfold noted
  simp only
  cases ho : outermost k with
  | none => rw [ho] at h; simp only at h; exact h.2.2.2.2
  | some fr => rw [ho] at h; simp only at h; exact h.2.2.2.2.2

theorem exec_trace : ∀ (p : Prog) (s : St) (k : List Frame) (f : Bool) (l : Nat), Calm p → NonNull p → Rel s k f l →
    Rel (exec p s).1 k f (if k.isEmpty then kept p l else l) ∧ (exec p s).2.1 = (trace p k f l).map recorded ∧
      (exec p s).2.2 = escapes p := by
  intro p
  induction p with
  | ret =>
    intro s k f l _ _ h
    refine ⟨?_, rfl, rfl⟩
    simp only [exec, kept, ite_self]; exact h
  | jump =>
    intro s k f l _ _ h
    refine ⟨?_, rfl, rfl⟩
    simp only [exec, kept, ite_self]; exact h
  | alloc ptr size caller rest ih =>
    intro s k f l hc hn h
    obtain ⟨i1, i2, i3⟩ := ih s k f l hc hn h
    simp only [exec, andThen_go]
    refine ⟨i1, ?_, i3⟩
    rw [i2, siteFor_eq h, (flags_eq h).1, (flags_eq h).2]
    rfl
  | resize ptr modified caller rest ih =>
    intro s k f l hc hn h
    obtain ⟨i1, i2, i3⟩ := ih s k f l hc hn h
    simp only [exec, andThen_go]
    refine ⟨i1, ?_, i3⟩
    rw [i2, siteFor_eq h, (flags_eq h).1, (flags_eq h).2]
    simp only [trace, List.map_cons, recorded, List.cons_append, List.nil_append]
    rw [← sz_eq h (.resize ptr modified caller)]
    unfold resizeFor
    by_cases h0 : s.sz = 0 <;> simp [h0]
  | call fn ra size keep sub body rest ih1 ih2 =>
    intro s k f l hc hn h
    have hin : Rel (enter s fn ra size) (⟨ra, size⟩ :: k) f l := by
      unfold Rel at h ⊢
      rw [outermost_cons]
      unfold enter
      cases ho : outermost k with
      | none =>
        rw [ho] at h; simp only at h
        rw [if_pos h.2.1]
        exact ⟨h.1, hn.1, by simp [h.2.2.1], hn.2.1, rfl, rfl⟩
      | some fr =>
        rw [ho] at h; simp only at h
        rw [if_neg h.2.1]
        exact h
    obtain ⟨i1, i2, i3⟩ := ih1 _ _ _ _ hc.2.1 hn.2.2.1 hin
    simp only [List.isEmpty_cons, Bool.false_eq_true, if_false] at i1
    have hb : (exec body (enter s fn ra size)).2.2 = false := i3.trans hc.1
    have hout : Rel (leave s (exec body (enter s fn ra size)).1 keep) k f (if k.isEmpty then if keep then size else 0 else l) := by
      unfold Rel at h i1 ⊢
      rw [outermost_cons] at i1
      rw [isEmpty_outermost]
      unfold leave
      cases ho : outermost k with
      | none =>
        rw [ho] at h i1; simp only [Option.getD] at h i1
        rw [if_pos h.2.1]
        refine ⟨i1.1, rfl, rfl, by simp [h.2.2.2.1], ?_⟩
        simp only [Option.isNone, if_true]
        rw [i1.2.2.2.2.2]
      | some fr =>
        rw [ho] at h i1; simp only [Option.getD] at h i1
        rw [if_neg h.2.1]
        exact i1
    obtain ⟨j1, j2, j3⟩ := ih2 _ _ _ _ hc.2.2 hn.2.2.2 hout
    simp only [exec]
    rw [andThen_false hb, andThen_go]
    refine ⟨?_, ?_, ?_⟩
    · simp only [kept]
      cases hk : k.isEmpty
      · simp only [hk, Bool.false_eq_true, if_false] at j1 ⊢; exact j1
      · simp only [hk, if_true] at j1 ⊢; exact j1
    · simp only
      rw [i2, j2]
      simp only [trace, List.map_append]
      congr 2
      cases sub with
      | none => rfl
      | some p =>
        simp only [indexSub, evs, List.map_cons, List.map_nil, recorded]
        have e := siteFor_eq i1 0
        have e' : siteFor (exec body (enter s fn ra size)).1 0 = (exec body (enter s fn ra size)).1.site := by
          unfold siteFor; split
          · rfl
          · rename_i h0; exact (Classical.not_not.mp h0).symm
        rw [← e, e', ← sz_eq i1 (.sub p), (flags_eq i1).1, (flags_eq i1).2]
    · simp only; rw [j3]; simp [escapes, hc.1]
  | free sub body rest ih1 ih2 =>
    intro s k f l hc hn h
    have hin : Rel { s with freeing := true } k true l := by
      unfold Rel at h ⊢
      exact ⟨rfl, h.2⟩
    obtain ⟨i1, i2, i3⟩ := ih1 _ _ _ _ hc.2.1 hn.1 hin
    have hb : (exec body { s with freeing := true }).2.2 = false := i3.trans hc.1
    have hout : Rel { (exec body { s with freeing := true }).1 with
        freeing := if s.freeing then (exec body { s with freeing := true }).1.freeing else false } k f (if k.isEmpty then kept body l else l) := by
      unfold Rel at i1 h ⊢
      refine ⟨?_, i1.2⟩
      simp only
      rw [i1.1, h.1]
      cases f <;> rfl
    obtain ⟨j1, j2, j3⟩ := ih2 _ _ _ _ hc.2.2 hn.2 hout
    simp only [exec, andThen_go, hb]
    refine ⟨?_, ?_, ?_⟩
    · simp only [kept]
      cases hk : k.isEmpty
      · simp only [hk, Bool.false_eq_true, if_false] at j1 ⊢; exact j1
      · simp only [hk, if_true] at j1 ⊢; exact j1
    · rw [i2, j2]
      simp only [trace, List.map_append, List.append_nil]
      congr 2
      cases sub with
      | none => rfl
      | some p =>
        simp only [unindexSub, evs, List.map_cons, List.map_nil, recorded]
        rw [(flags_eq h).1]
    · rw [j3]; simp [escapes, hc.1]
  | guard body rest ih1 ih2 =>
    intro s k f l hc hn h
    obtain ⟨i1, i2, i3⟩ := ih1 _ _ _ _ hc.1 hn.1 h
    obtain ⟨j1, j2, j3⟩ := ih2 _ _ _ _ hc.2 hn.2 i1
    simp only [exec]
    rw [andThen_go]
    refine ⟨?_, ?_, ?_⟩
    · simp only [kept]
      cases hk : k.isEmpty
      · simp only [hk, Bool.false_eq_true, if_false] at j1 ⊢; exact j1
      · simp only [hk, if_true] at j1 ⊢; exact j1
    · simp only
      rw [i2, j2]
      simp only [trace, List.map_append]
    · simp only; rw [j3]; rfl

/-- A thread at rest. -/
def rest : St := ⟨0, 0, 0, false, false⟩

theorem rest_rel : Rel rest [] false 0 := ⟨rfl, rfl, rfl, rfl, rfl⟩

/-! ## C76 -/

/-- From a thread at rest, everything recorded is what the nesting of calls alone prescribes: an allocation is attributed
to the return address of the outermost active declared function, else to the allocator's own caller, and is seen by the
index with "allocating" and "freeing" set exactly inside such functions. Missing: programs that `longjmp` out of a wrapped
function (`jump_site_fails`). -/
theorem sites_partial (p : Prog) (hc : Calm p) (hn : NonNull p) :
    (exec p rest).2.1 = (trace p [] false 0).map recorded :=
  (exec_trace p rest [] false 0 hc hn rest_rel).2.1

/-- Afterwards the thread is at rest again, but for a size kept by an outermost function without a size argument; also
after a caught `longjmp` outside every wrapped function. Missing: as `sites_partial`. -/
theorem at_rest_partial (p : Prog) (hc : Calm p) (hn : NonNull p) : (exec p rest).1 = { rest with sz := kept p 0 } := by
  obtain ⟨h1, h2, h3, h4, h5⟩ := (exec_trace p rest [] false 0 hc hn rest_rel).1
  have h5' : (exec p rest).1.sz = kept p 0 := h5
  generalize (exec p rest).1 = r at *
  cases r
  simp only at h1 h2 h3 h4 h5'
  simp [rest, h1, h2, h3, h4, h5']

/-- However deep the nesting, an allocation in a declared function called by the program is attributed to that call:
`wrapped` puts `inner` under any number of further declared functions. -/
def wrapped : List (Nat × Nat × Nat) → Prog → Prog
  | [], p => p
  | (fn, ra, size) :: ws, p => .call fn ra size false none (wrapped ws p) .ret

theorem wrapped_calm : ∀ ws p, (∀ w ∈ ws, w.1 ≠ 0 ∧ w.2.1 ≠ 0) → Calm p → NonNull p → escapes p = false →
    Calm (wrapped ws p) ∧ NonNull (wrapped ws p) ∧ escapes (wrapped ws p) = false := by
  intro ws
  induction ws with
  | nil => intro p _ h1 h2 h3; exact ⟨h1, h2, h3⟩
  | cons w ws ih =>
    intro p hw h1 h2 h3
    obtain ⟨i1, i2, i3⟩ := ih p (fun w h => hw w (List.mem_cons_of_mem _ h)) h1 h2 h3
    have := hw w List.mem_cons_self
    exact ⟨⟨i3, i1, trivial⟩, ⟨this.1, this.2, i2, trivial⟩, by simp [wrapped, escapes, i3]⟩

theorem exec_wrapped (ws : List (Nat × Nat × Nat)) (p : Prog) (s : St) (hf : s.fn ≠ 0) (hb : (exec p s).2.2 = false) :
    exec (wrapped ws p) s = exec p s := by
  induction ws with
  | nil => rfl
  | cons w ws ih =>
    simp only [wrapped, exec]
    have he : enter s w.1 w.2.1 w.2.2 = s := by unfold enter; rw [if_neg hf]
    rw [he, ih, andThen_false hb, andThen_go]
    unfold leave
    rw [if_neg hf]
    simp only [indexSub, List.append_nil]
    rw [← hb]

/-- An allocation below a declared function called at `ra`, through any further declared functions, is attributed to `ra`. -/
theorem outermost_site (fn ra size : Nat) (hf : fn ≠ 0) (hr : ra ≠ 0) (ws : List (Nat × Nat × Nat)) (ptr sz caller : Nat) :
    (exec (.call fn ra size false none (wrapped ws (.alloc ptr sz caller .ret)) .ret) rest).2.1 =
      [.index ptr ra sz true false] := by
  have he : enter rest fn ra size = ⟨ra, fn, size, false, true⟩ := by simp [enter, rest]
  simp only [exec]
  rw [he, exec_wrapped _ _ _ hf rfl]
  simp [exec, andThen, siteFor, hr, indexSub, leave, rest]

/-- A site preset by the program takes the place of the return address for the whole of the next outermost call, and is
cleared with it. -/
theorem preset_site (x fn ra size : Nat) (keep : Bool) (sub : Option Nat) (body after : Prog) (hx : x ≠ 0) :
    exec (.call fn ra size keep sub body after) { rest with site := x } = exec (.call fn x size keep sub body after) rest := by
  have he : enter { rest with site := x } fn ra size = enter rest fn x size := by simp [enter, rest, hx]
  simp only [exec]
  rw [he]
  rfl

/-- A preset site is not cleared by an allocation outside any declared function: it is reused by every later one. -/
theorem preset_reused (x : Nat) (hx : x ≠ 0) (p1 s1 c1 p2 s2 c2 : Nat) :
    (exec (.alloc p1 s1 c1 (.alloc p2 s2 c2 .ret)) { rest with site := x }).2.1 =
      [.index p1 x s1 false false, .index p2 x s2 false false] := by
  simp [exec, andThen, siteFor, hx, rest]

/-- A `longjmp` out of a declared function leaves its site behind for ever: every later allocation, in or outside
declared functions, is attributed to it. -/
theorem jump_site_fails (fn ra size fn' ra' size' ptr sz caller : Nat) (hf : fn ≠ 0) (hr : ra ≠ 0) :
    (exec (.guard (.call fn ra size false none .jump .ret)
      (.call fn' ra' size' false none (.alloc ptr sz caller .ret) .ret)) rest).2.1 = [.index ptr ra sz true false] ∧
    (exec (.guard (.call fn ra size false none .jump .ret)
      (.call fn' ra' size' false none (.alloc ptr sz caller .ret) .ret)) rest).1 = ⟨ra, fn, size, false, true⟩ := by
  have he : enter rest fn ra size = ⟨ra, fn, size, false, true⟩ := by simp [enter, rest]
  simp only [exec, he, andThen]
  have he' : enter ⟨ra, fn, size, false, true⟩ fn' ra' size' = ⟨ra, fn, size, false, true⟩ := by simp [enter, hf]
  simp [he', siteFor, hr, indexSub, leave, hf]

/-- A `longjmp` out of a freeing function leaves the thread marked as freeing. -/
theorem jump_freeing_fails : (exec (.guard (.free none .jump .ret) .ret) rest).1 = { rest with freeing := true } := rfl

example : Calm (.guard (.alloc 1 2 3 .jump) (.call 7 100 24 false none (.free (some 9) .ret (.alloc 5 32 900 .ret)) .ret)) ∧
    (exec (.guard (.alloc 1 2 3 .jump) (.call 7 100 24 false none (.free (some 9) .ret (.alloc 5 32 900 .ret)) .ret)) rest).2.1 =
      [.index 1 3 2 false false, .unindex 9 true true, .index 5 100 32 true false] :=
  ⟨⟨trivial, rfl, ⟨rfl, trivial, trivial⟩, trivial⟩, by decide +kernel⟩

/-! ## C77 -/

/-- A suballocation made by a function the program calls directly is recorded at its caller and with the size asked for.
Missing: suballocations nested in other declared functions (`nested_size_fails`). -/
theorem suballoc_partial (fn ra size ptr : Nat) (keep : Bool) (hf : fn ≠ 0) (hr : ra ≠ 0) (body after : Prog)
    (hc : Calm body) (hn : NonNull body) (he : escapes body = false) :
    (exec (.call fn ra size keep (some ptr) body after) rest).2.1 =
      (trace body [⟨ra, size⟩] false 0).map recorded ++ [.suballoc ptr ra size true false] ++
        (exec after { rest with sz := if keep then size else 0 }).2.1 := by
  have hin : Rel (enter rest fn ra size) [⟨ra, size⟩] false 0 := ⟨rfl, by simp [outermost, enter, rest, hf, hr]⟩
  obtain ⟨i1, i2, i3⟩ := exec_trace body _ _ _ _ hc hn hin
  obtain ⟨j1, j2, j3, j4, j5, j6⟩ := i1
  simp only [exec]
  have hb : (exec body (enter rest fn ra size)).2.2 = false := i3.trans he
  rw [andThen_false hb, andThen_go]
  have hl : leave rest (exec body (enter rest fn ra size)).1 keep = { rest with sz := if keep then size else 0 } := by
    simp only [leave, rest] at *
    simp [j1, j6]
  rw [hl, i2]
  simp only [indexSub]
  rw [j3, j6, j5, j1]
  rfl

/-- The size recorded for a reallocated chunk is the size asked for, in or outside a single declared function, whether
or not the function has a size argument, as long as no earlier function kept its size. Missing: nested functions
(`nested_resize_fails`) and sizes kept from earlier calls (`stale_size_fails`). -/
theorem resize_partial (fn ra asked ptr caller : Nat) (hf : fn ≠ 0) (hr : ra ≠ 0) :
    (exec (.resize ptr (asked + 8) caller .ret) rest).2.1 = [.index ptr caller asked false false] ∧
    (exec (.call fn ra asked false none (.resize ptr (asked + 8) caller .ret) .ret) rest).2.1 = [.index ptr ra asked true false] ∧
    (exec (.call fn ra 0 false none (.resize ptr (asked + 8) caller .ret) .ret) rest).2.1 = [.index ptr ra asked true false] := by
  refine ⟨?_, ?_, ?_⟩
  · simp [exec, andThen, siteFor, resizeFor, rest]
  · simp only [exec]
    have he : enter rest fn ra asked = ⟨ra, fn, asked, false, true⟩ := by simp [enter, rest]
    rw [he]
    by_cases h0 : asked = 0 <;> simp [exec, andThen, siteFor, resizeFor, indexSub, hr, h0]
  · simp only [exec]
    have he : enter rest fn ra 0 = ⟨ra, fn, 0, false, true⟩ := by simp [enter, rest]
    rw [he]
    simp [exec, andThen, siteFor, resizeFor, indexSub, hr]

/-- A suballocation nested in another declared function is recorded with the size of that function instead of its own. -/
theorem nested_size_fails (fn ra size fn' ra' size' ptr : Nat) (hf : fn ≠ 0) :
    (exec (.call fn ra size false none (.call fn' ra' size' false (some ptr) .ret .ret) .ret) rest).2.1 =
      [.suballoc ptr ra size true false] := by
  have he : enter rest fn ra size = ⟨ra, fn, size, false, true⟩ := by simp [enter, rest]
  simp only [exec, he, andThen]
  have he' : enter ⟨ra, fn, size, false, true⟩ fn' ra' size' = ⟨ra, fn, size, false, true⟩ := by simp [enter, hf]
  simp [he', indexSub, leave, hf]

/-- A chunk reallocated in a declared function with a size argument is recorded with that argument, whatever size was
asked for. -/
theorem nested_resize_fails (fn ra size ptr modified caller : Nat) (hs : size ≠ 0) (hr : ra ≠ 0) :
    (exec (.call fn ra size false none (.resize ptr modified caller .ret) .ret) rest).2.1 = [.index ptr ra size true false] := by
  have he : enter rest fn ra size = ⟨ra, fn, size, false, true⟩ := by simp [enter, rest]
  simp only [exec, he]
  simp [exec, andThen, siteFor, resizeFor, indexSub, hs, hr]

/-- A function that keeps its size leaves it behind: a chunk reallocated later, outside any declared function, is recorded
with it, however large it is made. -/
theorem stale_size_fails (fn ra size ptr modified caller : Nat) (hs : size ≠ 0) :
    (exec (.call fn ra size true none .ret (.resize ptr modified caller .ret)) rest).2.1 = [.index ptr caller size false false] := by
  have he : enter rest fn ra size = ⟨ra, fn, size, false, true⟩ := by simp [enter, rest]
  simp only [exec, he]
  simp [exec, andThen, siteFor, resizeFor, indexSub, hs, leave, rest]

example : (exec (.call 7 100 24 false (some 4096) (.alloc 5 24 900 .ret) (.resize 5 72 901 .ret)) rest).2.1 =
    [.index 5 100 24 true false, .suballoc 4096 100 24 true false, .index 5 901 64 false false] := by decide +kernel

end Liballocs.CallerWrap
