import Verif.Model.Syscalls
/-!
# C69 System calls act as without the library, C70 the memory map changes are all notified, C71 the library's `mmap`,
C72 the library's own mappings, C73 the trap handler stays installed
-/
namespace Liballocs.Syscalls

/-! ## Specification -/

/-- What the kernel did to the memory map, read off the call performed and its answer: an answer is an error if, as a signed
number, it lies in `-4096 ..< 0`. -/
def Ok (r : Word) : Prop := ¬ (2 ^ 64 - 4096 ≤ r.toNat)

/-- The change made by a call, as a notification. -/
inductive Change (caller : Word) : Call → Word → Note → Prop
  | mmap {m r} : Ok r → Change caller (.mmap m) r (.mmap r m caller)
  | munmap {a l r} : r = 0 → Change caller (.munmap a l) r (.munmap a l caller)
  | moved {o ol nl f n r} : Ok r → f.getLsbD 1 = true → Change caller (.mremap o ol nl f n) r (.mremap r o ol nl f n caller)
  | resized {o ol nl f n r} : Ok r → f.getLsbD 1 = false → Change caller (.mremap o ol nl f n) r (.mremap r o ol nl f (BitVec.allOnes 64) caller)
  | protected' {a l p r} : r = 0 → Change caller (.mprotect a l p) r (.mprotect a l p)
  | brk {a r} : Change caller (.brk a) r (.brk r caller)

/-- A program: given the answers so far (latest first), the next call and where it is made. -/
abbrev Program := List Word → Option (Call × Word)

/-- The program on the bare kernel. -/
def bare {K : Type} (k : Kernel K) (p : Program) : Nat → K → List Word → K × List Word
  | 0, s, ans => (s, ans)
  | n + 1, s, ans =>
    match p ans with
    | none => (s, ans)
    | some (c, _) => bare k p n (k.step s c).1 ((k.step s c).2 :: ans)

/-- The program with all its calls trapped. -/
def trapped {K : Type} (k : Kernel K) (e : Env) (p : Program) : Nat → K → List Word → Word → K × List Word
  | 0, s, ans, _ => (s, ans)
  | n + 1, s, ans, area =>
    match p ans with
    | none => (s, ans)
    | some (c, caller) =>
      let t := trap k e s area c caller
      trapped k e p n t.1 (t.2.1 :: ans) t.2.2.2

/-- Calls the library has no business with: not its own, not during an open by libdlbind (which affects only calls that map or open),
and no unplaced `mremap` if the trap handler counts as the library. -/
def Foreign (e : Env) (c : Call) (caller : Word) : Prop :=
  match c with
  | .mmap _ => e.dlbind = false ∧ e.isSelf caller = false
  | .open' _ _ | .openat _ _ _ => e.dlbind = false
  | .mremap _ _ _ f n => e.dlbind = true ∨ e.isSelf e.ret = false ∨ (f.getLsbD 1 = true ∧ n ≠ 0 ∧ n ≠ BitVec.allOnes 64)
  | _ => True

/-- Answers a kernel gives: `munmap` and `mprotect` give 0 or an error. -/
def Answers (c : Call) (r : Word) : Prop :=
  match c with
  | .munmap _ _ | .mprotect _ _ _ => r = 0 ∨ ¬ Ok r
  | _ => True

/-- Of the library's own, and free to be placed anywhere. -/
def Unplaced (e : Env) (m : Map) (caller : Word) : Prop :=
  e.isSelf caller = true ∧ m.addr = 0 ∧ m.flags.getLsbD 4 = false ∧ m.flags.getLsbD 20 = false

/-! ## Facts about words -/

theorem isError_iff (r : Word) : isError r = true ↔ ¬ Ok r := by
  unfold isError Ok
  rw [decide_eq_true_eq, BitVec.toNat_sub, BitVec.toNat_allOnes]
  have := r.isLt
  omega

theorem isError_false (r : Word) : isError r = false ↔ Ok r := by
  rw [← Bool.not_eq_true, isError_iff]
  exact Classical.not_not

theorem bit1 (f : Flags) : (f &&& 2#32 ≠ 0) ↔ f.getLsbD 1 = true := by
  constructor
  · intro h
    cases hb : f.getLsbD 1 with
    | true => rfl
    | false =>
      exfalso; apply h
      apply BitVec.eq_of_getLsbD_eq
      intro i hi
      by_cases h1 : i = 1
      · subst h1; rw [BitVec.getLsbD_and, hb]; rfl
      · have : (2#32 : BitVec 32).getLsbD i = false := by
          have : ∀ j : Fin 32, j.val ≠ 1 → (2#32 : BitVec 32).getLsbD j.val = false := by decide
          exact this ⟨i, hi⟩ h1
        simp [this]
  · intro h h0
    have := congrArg (fun v => BitVec.getLsbD v 1) h0
    simp only [BitVec.getLsbD_and, h] at this
    exact absurd this (by decide)

theorem or2 (f : Flags) (h : f.getLsbD 1 = true) : f ||| 2#32 = f := by
  apply BitVec.eq_of_getLsbD_eq
  intro i hi
  rw [BitVec.getLsbD_or]
  by_cases h1 : i = 1
  · subst h1; rw [h]; rfl
  · have : ∀ j : Fin 32, j.val ≠ 1 → (2#32 : BitVec 32).getLsbD j.val = false := by decide
    rw [this ⟨i, hi⟩ h1, Bool.or_false]

theorem bitN (f : Flags) (n : Nat) (hn : n < 32) : (f &&& BitVec.twoPow 32 n ≠ 0) ↔ f.getLsbD n = true := by
  constructor
  · intro h
    cases hb : f.getLsbD n with
    | true => rfl
    | false =>
      exfalso; apply h
      apply BitVec.eq_of_getLsbD_eq
      intro i hi
      rw [BitVec.getLsbD_and, BitVec.getLsbD_twoPow]
      by_cases h1 : n = i
      · subst h1; simp [hb]
      · simp [h1]
  · intro h h0
    have := congrArg (fun v => BitVec.getLsbD v n) h0
    simp only [BitVec.getLsbD_and, h, BitVec.getLsbD_twoPow] at this
    simp [hn] at this

/-! ## Transparency -/

theorem nudge_foreign {e : Env} (area : Word) (m : Map) (caller : Word) (h : e.dlbind = false) (hs : e.isSelf caller = false ∨ m.addr ≠ 0) :
    nudgeMmap e area m caller = (m, area) := by
  unfold nudgeMmap
  rw [if_neg (by simp [h]), if_neg]
  rintro ⟨h1, h2, _⟩
  rcases hs with h3 | h3
  · rw [h3] at h2; cases h2
  · exact h3 h1

/-- A call of the program is performed as it is. -/
theorem call_same {e : Env} {c : Call} {caller : Word} (area : Word) (h : Foreign e c caller) : (action e area c caller).call = c := by
  cases c with
  | mmap m =>
    show Call.mmap (nudgeMmap e area m caller).1 = _
    rw [nudge_foreign area m caller h.1 (Or.inl h.2)]
  | munmap a l => rfl
  | mprotect a l p => rfl
  | brk a => rfl
  | other n => rfl
  | open' f m => show Call.open' (nudgeOpen e f) m = _; unfold nudgeOpen; rw [if_neg (by simp [show e.dlbind = false from h])]
  | openat d f m => show Call.openat d (nudgeOpen e f) m = _; unfold nudgeOpen; rw [if_neg (by simp [show e.dlbind = false from h])]
  | mremap o ol nl f n =>
    unfold action mremapRepl
    simp only
    generalize hw : (if f &&& 2#32 ≠ 0 then n else BitVec.allOnes 64) = want
    generalize ha : (if want = BitVec.allOnes 64 then (0 : Word) else want) = addr
    have hn : (nudgeMmap e area ⟨addr, nl, 0, 0, BitVec.allOnes 32, 0⟩ e.ret).1.addr = addr ∧
        (nudgeMmap e area ⟨addr, nl, 0, 0, BitVec.allOnes 32, 0⟩ e.ret).1.len = nl := by
      cases hd : e.dlbind with
      | true => unfold nudgeMmap; rw [if_pos hd]; exact ⟨rfl, rfl⟩
      | false =>
        rw [nudge_foreign area _ _ hd]
        · exact ⟨rfl, rfl⟩
        · rcases h with h | h | ⟨h1, h2, h3⟩
          · rw [hd] at h; cases h
          · exact Or.inl h
          · right
            show addr ≠ 0
            rw [if_pos ((bit1 f).mpr h1)] at hw
            subst hw
            rw [if_neg h3] at ha
            rw [← ha]
            exact h2
    rw [hn.1, hn.2]
    by_cases hz : addr = 0
    · simp [hz]
    · have hne : want ≠ BitVec.allOnes 64 := fun h => by rw [if_pos h] at ha; exact hz ha.symm
      rw [if_neg hne] at ha
      subst ha
      have hf : f &&& 2#32 ≠ 0 := Classical.byContradiction fun h => by rw [if_neg h] at hw; exact hne hw.symm
      rw [if_pos hf] at hw
      subst hw
      simp only [ne_eq, hz, not_false_iff, if_true]
      rw [or2 f ((bit1 f).mp hf)]

/-- For any kernel and any program, deciding on each call by the answers to the earlier ones: as long as its calls are its own
affair, the kernel goes through the same states and the program gets the same answers as without the library. -/
theorem transparent_partial {K : Type} (k : Kernel K) (e : Env) (p : Program)
    (hp : ∀ ans c caller, p ans = some (c, caller) → Foreign e c caller) :
    ∀ n s ans area, trapped k e p n s ans area = bare k p n s ans := by
  intro n
  induction n with
  | zero => intro s ans area; rfl
  | succ n ih =>
    intro s ans area
    rw [trapped, bare]
    cases hc : p ans with
    | none => rfl
    | some x =>
      obtain ⟨c, caller⟩ := x
      simp only [trap]
      rw [call_same area (hp _ _ _ hc)]
      exact ih _ _ _

/-! ## Notification -/

/-- Whatever call is trapped, foreign or not, apart from `mprotect`: the allocators are told of exactly the change that the kernel made for the
call performed. -/
theorem notified_partial {K : Type} (k : Kernel K) (e : Env) (s : K) (area : Word) (c : Call) (caller : Word)
    (hans : ∀ c', Answers c' (k.step s c').2) (hc : ∀ a l p, c ≠ .mprotect a l p) :
    ∃ c', trap k e s area c caller = ((k.step s c').1, (k.step s c').2, (trap k e s area c caller).2.2) ∧
      (trap k e s area c caller).2.2.1.length ≤ 1 ∧
      ∀ n, n ∈ (trap k e s area c caller).2.2.1 ↔ Change caller c' (k.step s c').2 n := by
  refine ⟨(action e area c caller).call, rfl, ?_⟩
  show ((action e area c caller).notes (k.step s (action e area c caller).call).2).length ≤ 1 ∧
    ∀ n, n ∈ (action e area c caller).notes (k.step s (action e area c caller).call).2 ↔ _
  cases c with
  | mmap m =>
    simp only [action, mmapRepl]
    generalize (nudgeMmap e area m caller).1 = m'
    generalize (k.step s (.mmap m')).2 = r
    cases hr : isError r with
    | true =>
      refine ⟨by simp, fun n => ⟨fun h => by simp at h, fun h => ?_⟩⟩
      cases h with | mmap h => exact absurd h ((isError_iff r).mp hr)
    | false =>
      refine ⟨by simp, fun n => ⟨fun h => ?_, fun h => ?_⟩⟩
      · simp at h; subst h; exact .mmap ((isError_false r).mp hr)
      · cases h with | mmap _ => simp
  | munmap a l =>
    simp only [action, munmapRepl]
    have ha := hans (.munmap a l)
    generalize (k.step s (.munmap a l)).2 = r at ha
    by_cases hr : r.setWidth 32 = 0
    · have h0 : r = 0 := by
        rcases ha with h | h
        · exact h
        · exfalso
          have h1 : ¬ ¬ (2 ^ 64 - 4096 ≤ r.toNat) := h
          have := congrArg BitVec.toNat hr
          rw [BitVec.toNat_setWidth] at this
          have := r.isLt
          simp only [BitVec.ofNat_eq_ofNat, BitVec.toNat_ofNat, Nat.zero_mod] at this ‹r.toNat % 2 ^ 32 = _›
          omega
      rw [if_pos hr]
      refine ⟨by simp, fun n => ⟨fun h => ?_, fun h => ?_⟩⟩
      · simp at h; subst h; exact .munmap h0
      · cases h with | munmap _ => simp
    · rw [if_neg hr]
      refine ⟨by simp, fun n => ⟨fun h => by simp at h, fun h => ?_⟩⟩
      cases h with | munmap h => subst h; exact absurd rfl hr
  | mprotect a l p => exact absurd rfl (hc a l p)
  | brk a =>
    refine ⟨by simp [action, brkRepl], fun n => ⟨fun h => ?_, fun h => ?_⟩⟩
    · simp [action, brkRepl] at h; subst h; exact .brk
    · cases h with | brk => simp [action, brkRepl]
  | other n => exact ⟨by simp [action], fun n => ⟨fun h => by simp [action] at h, fun h => by cases h⟩⟩
  | open' f m => exact ⟨by simp [action], fun n => ⟨fun h => by simp [action] at h, fun h => by cases h⟩⟩
  | openat d f m => exact ⟨by simp [action], fun n => ⟨fun h => by simp [action] at h, fun h => by cases h⟩⟩
  | mremap o ol nl f n =>
    simp only [action, mremapRepl]
    generalize nudgeMmap e area _ e.ret = m'
    generalize (if m'.1.addr ≠ 0 then m'.1.addr else n) = new'
    generalize (if m'.1.addr ≠ 0 then f ||| 2#32 else f) = f'
    generalize (k.step s (.mremap o ol m'.1.len f' new')).2 = r
    cases hr : isError r with
    | true =>
      refine ⟨by simp, fun n => ⟨fun h => by simp at h, fun h => ?_⟩⟩
      cases h with
      | moved h => exact absurd h ((isError_iff r).mp hr)
      | resized h => exact absurd h ((isError_iff r).mp hr)
    | false =>
      have hok := (isError_false r).mp hr
      by_cases hf : f' &&& 2#32 ≠ 0
      · rw [if_pos hf]
        refine ⟨by simp, fun n => ⟨fun h => ?_, fun h => ?_⟩⟩
        · simp at h; subst h; exact .moved hok ((bit1 f').mp hf)
        · cases h with
          | moved _ _ => simp
          | resized _ h => rw [(bit1 f').mp hf] at h; cases h
      · rw [if_neg hf]
        have hf0 : f'.getLsbD 1 = false := by
          cases hb : f'.getLsbD 1 with
          | false => rfl
          | true => exact absurd ((bit1 f').mpr hb) hf
        refine ⟨by simp, fun n => ⟨fun h => ?_, fun h => ?_⟩⟩
        · simp at h; subst h; exact .resized hok hf0
        · cases h with
          | moved _ h => rw [hf0] at h; cases h
          | resized _ _ => simp

/-! ## The library's `mmap` -/

/-- The call made, the answer, the notification of the library's own `mmap`, and `errno` where it is right: the same call as a
trapped one, its answer or -1, a notification exactly on success of a mapping of at most four gigabytes once trapping is set up. -/
theorem preload_exact_partial {K : Type} (k : Kernel K) (e : Env) (systrap : Bool) (s : K) (area : Word) (m : Map) (caller : Word) :
    ∃ m' r, (trap k e s area (.mmap m) caller).1 = (k.step s (.mmap m')).1 ∧ (trap k e s area (.mmap m) caller).2.1 = r ∧
      r = (k.step s (.mmap m')).2 ∧
      (preloadMmap k e systrap s area m caller).1 = (k.step s (.mmap m')).1 ∧
      (preloadMmap k e systrap s area m caller).2.2 = (trap k e s area (.mmap m) caller).2.2.2 ∧
      ((Ok r ∧ (preloadMmap k e systrap s area m caller).2.1 =
          ⟨r, none, if systrap = true ∧ m'.len.toNat ≤ 2 ^ 32 then [.mmap r m' caller] else []⟩) ∨
        (¬ Ok r ∧ (preloadMmap k e systrap s area m caller).2.1.ret = BitVec.allOnes 64 ∧ (preloadMmap k e systrap s area m caller).2.1.notes = [] ∧
          ((preloadMmap k e systrap s area m caller).2.1.errno = some (2 ^ 64 - r.toNat) ↔ 2 ^ 32 < m'.len.toNat ∨ r.toNat = 2 ^ 64 - 1))) := by
  refine ⟨(nudgeMmap e area m caller).1, _, rfl, rfl, rfl, rfl, rfl, ?_⟩
  show (Ok (k.step s (.mmap (nudgeMmap e area m caller).1)).2 ∧ preloadAfter systrap _ caller _ = _) ∨ (¬ Ok _ ∧ (preloadAfter systrap _ caller _).ret = _ ∧
    (preloadAfter systrap _ caller _).notes = _ ∧ ((preloadAfter systrap _ caller _).errno = _ ↔ _))
  simp only [trap, action, mmapRepl]
  generalize (k.step s (.mmap (nudgeMmap e area m caller).1)).2 = r
  generalize (nudgeMmap e area m caller).1 = m'
  unfold preloadAfter BIGGEST
  cases hr : isError r with
  | false =>
    left
    refine ⟨(isError_false r).mp hr, ?_⟩
    by_cases hl : 2 ^ 32 < m'.len.toNat
    · rw [if_pos hl]; simp [Nat.not_le.mpr hl]
    · rw [if_neg hl]
      simp only [Bool.false_eq_true, if_false, hr]
      cases systrap <;> simp [Nat.not_lt.mp hl]
  | true =>
    right
    have hno := (isError_iff r).mp hr
    have hno' : 2 ^ 64 - 4096 ≤ r.toNat := Classical.not_not.mp hno
    have hlt := r.isLt
    have hneg : (0 - r).toNat = 2 ^ 64 - r.toNat := by
      rw [BitVec.toNat_sub]
      simp only [BitVec.ofNat_eq_ofNat, BitVec.toNat_ofNat, Nat.zero_mod]
      omega
    have h1 : (0 - BitVec.allOnes 64 : Word).toNat = 1 := by decide
    have h2 : isError (BitVec.allOnes 64) = true := by decide
    refine ⟨hno, ?_⟩
    by_cases hl : 2 ^ 32 < m'.len.toNat
    · rw [if_pos hl]; simp only [if_true, hneg, hl, true_or, and_self]
    · rw [if_neg hl]
      simp only [if_true, h2, h1, true_and, Option.some.injEq, hl, false_or]
      omega

/-! ## Placing the library's own mappings -/

/-- Requests one after the other, with what becomes of each. -/
def placed (e : Env) : Word → List (Map × Word) → List ((Map × Word) × Map)
  | _, [] => []
  | area, x :: xs => (x, (nudgeMmap e area x.1 x.2).1) :: placed e (nudgeMmap e area x.1 x.2).2 xs

/-- Bytes asked for by unplaced requests of the library's own. -/
noncomputable def total (e : Env) : List (Map × Word) → Nat
  | [] => 0
  | x :: xs => (open Classical in if Unplaced e x.1 x.2 then x.1.len.toNat else 0) + total e xs

theorem nudge_own {e : Env} (area : Word) (m : Map) (caller : Word) (hd : e.dlbind = false) (h : Unplaced e m caller) :
    nudgeMmap e area m caller = ({ m with addr := area }, area + m.len) := by
  unfold nudgeMmap
  obtain ⟨h1, h2, h3, h4⟩ := h
  rw [if_neg (by simp [hd]), if_pos]
  refine ⟨h2, h1, ?_⟩
  have e1 : (0x10#32 : BitVec 32) = BitVec.twoPow 32 4 := by decide
  have e2 : (0x100000#32 : BitVec 32) = BitVec.twoPow 32 20 := by decide
  rw [e1, e2, bitN _ 4 (by decide), bitN _ 20 (by decide), h3, h4]
  simp

theorem nudge_rest {e : Env} (area : Word) (m : Map) (caller : Word) (hd : e.dlbind = false) (h : ¬ Unplaced e m caller) :
    nudgeMmap e area m caller = (m, area) := by
  unfold nudgeMmap
  rw [if_neg (by simp [hd]), if_neg]
  rintro ⟨h1, h2, h3⟩
  apply h
  have e1 : (0x10#32 : BitVec 32) = BitVec.twoPow 32 4 := by decide
  have e2 : (0x100000#32 : BitVec 32) = BitVec.twoPow 32 20 := by decide
  rw [e1, e2, bitN _ 4 (by decide), bitN _ 20 (by decide)] at h3
  refine ⟨h2, h1, ?_, ?_⟩
  · cases hb : m.flags.getLsbD 4 with
    | false => rfl
    | true => exact absurd (Or.inl hb) h3
  · cases hb : m.flags.getLsbD 20 with
    | false => rfl
    | true => exact absurd (Or.inr hb) h3

theorem placed_above {e : Env} (hd : e.dlbind = false) : ∀ (xs : List (Map × Word)) (area : Word), area.toNat + total e xs < 2 ^ 64 →
    ∀ y ∈ placed e area xs, Unplaced e y.1.1 y.1.2 → area.toNat ≤ y.2.addr.toNat ∧ y.2.addr.toNat + y.2.len.toNat ≤ area.toNat + total e xs := by
  intro xs
  induction xs with
  | nil => intro area _ y hy; cases hy
  | cons x xs ih =>
    intro area hsum y hy hu
    rw [placed] at hy
    rw [total] at hsum ⊢
    by_cases hx : Unplaced e x.1 x.2
    · rw [if_pos hx] at hsum ⊢
      rw [nudge_own area _ _ hd hx] at hy
      have hadd : (area + x.1.len).toNat = area.toNat + x.1.len.toNat := by
        rw [BitVec.toNat_add]; exact Nat.mod_eq_of_lt (by omega)
      rcases List.mem_cons.mp hy with rfl | hy
      · exact ⟨Nat.le_refl _, by show area.toNat + x.1.len.toNat ≤ _; omega⟩
      · have := ih (area + x.1.len) (by omega) y hy hu
        omega
    · rw [if_neg hx] at hsum ⊢
      rw [nudge_rest area _ _ hd hx] at hy
      rcases List.mem_cons.mp hy with rfl | hy
      · exact absurd hu hx
      · have := ih area (by omega) y hy hu
        omega

/-- The library's unplaced mappings are asked for one above the other, disjoint; all other requests are left as they are. -/
theorem own_disjoint {e : Env} (hd : e.dlbind = false) : ∀ (xs : List (Map × Word)) (area : Word), area.toNat + total e xs < 2 ^ 64 →
    (placed e area xs).Pairwise (fun a b => Unplaced e a.1.1 a.1.2 → Unplaced e b.1.1 b.1.2 → a.2.addr.toNat + a.2.len.toNat ≤ b.2.addr.toNat) ∧
    ∀ y ∈ placed e area xs, (Unplaced e y.1.1 y.1.2 → area.toNat ≤ y.2.addr.toNat ∧ y.2 = { y.1.1 with addr := y.2.addr }) ∧
      (¬ Unplaced e y.1.1 y.1.2 → y.2 = y.1.1) := by
  intro xs
  induction xs with
  | nil => intro area _; exact ⟨List.Pairwise.nil, fun y hy => by cases hy⟩
  | cons x xs ih =>
    intro area hsum
    rw [total] at hsum
    rw [placed]
    by_cases hx : Unplaced e x.1 x.2
    · rw [if_pos hx] at hsum
      rw [nudge_own area _ _ hd hx]
      have hadd : (area + x.1.len).toNat = area.toNat + x.1.len.toNat := by
        rw [BitVec.toNat_add]; exact Nat.mod_eq_of_lt (by omega)
      obtain ⟨i1, i2⟩ := ih (area + x.1.len) (by omega)
      refine ⟨List.Pairwise.cons ?_ i1, ?_⟩
      · intro b hb _ hu
        have := (placed_above hd xs (area + x.1.len) (by omega) b hb hu).1
        show area.toNat + x.1.len.toNat ≤ _
        omega
      · intro y hy
        rcases List.mem_cons.mp hy with rfl | hy
        · exact ⟨fun _ => ⟨Nat.le_refl _, rfl⟩, fun h => absurd hx h⟩
        · refine ⟨fun hu => ⟨?_, ((i2 y hy).1 hu).2⟩, (i2 y hy).2⟩
          have := ((i2 y hy).1 hu).1
          omega
    · rw [if_neg hx] at hsum
      rw [nudge_rest area _ _ hd hx]
      obtain ⟨i1, i2⟩ := ih area (by omega)
      refine ⟨List.Pairwise.cons (fun b _ hu => absurd hu hx) i1, ?_⟩
      intro y hy
      rcases List.mem_cons.mp hy with rfl | hy
      · exact ⟨fun h => absurd h hx, fun _ => rfl⟩
      · exact i2 y hy

/-- If all lengths are whole pages, all are asked for at page boundaries. -/
theorem own_aligned_partial {e : Env} (hd : e.dlbind = false) : ∀ (xs : List (Map × Word)) (area : Word), area.toNat % 4096 = 0 → (∀ x ∈ xs, x.1.len.toNat % 4096 = 0) →
    ∀ y ∈ placed e area xs, Unplaced e y.1.1 y.1.2 → y.2.addr.toNat % 4096 = 0 := by
  intro xs
  induction xs with
  | nil => intro area _ _ y hy; cases hy
  | cons x xs ih =>
    intro area ha hl y hy hu
    rw [placed] at hy
    have hrest : ∀ z ∈ xs, z.1.len.toNat % 4096 = 0 := fun z hz => hl z (List.mem_cons_of_mem _ hz)
    by_cases hx : Unplaced e x.1 x.2
    · rw [nudge_own area _ _ hd hx] at hy
      rcases List.mem_cons.mp hy with rfl | hy
      · exact ha
      · refine ih _ ?_ hrest y hy hu
        have := hl x (List.mem_cons_self ..)
        show (area + x.1.len).toNat % 4096 = 0
        rw [BitVec.toNat_add]
        omega
    · rw [nudge_rest area _ _ hd hx] at hy
      rcases List.mem_cons.mp hy with rfl | hy
      · exact absurd hu hx
      · exact ih _ ha hrest y hy hu

/-! ## Mappings and opens on behalf of libdlbind -/

/-- A mapping made then is shared, and is otherwise as asked for. -/
theorem dlbind_shared {e : Env} (h : e.dlbind = true) (area : Word) (m : Map) (caller : Word) :
    (nudgeMmap e area m caller).1 = { m with flags := (nudgeMmap e area m caller).1.flags } ∧
    ∀ i, (nudgeMmap e area m caller).1.flags.getLsbD i = if i = 0 then true else if i = 1 then false else m.flags.getLsbD i := by
  unfold nudgeMmap
  rw [if_pos h]
  refine ⟨rfl, ?_⟩
  intro i
  show ((m.flags &&& ~~~3#32) ||| 1#32).getLsbD i = _
  by_cases hi : i < 32
  · have h3 : ∀ j : Fin 32, (~~~3#32 : BitVec 32).getLsbD j.val = !(j.val == 0 || j.val == 1) := by decide
    have h1 : ∀ j : Fin 32, (1#32 : BitVec 32).getLsbD j.val = (j.val == 0) := by decide
    rw [BitVec.getLsbD_or, BitVec.getLsbD_and, h3 ⟨i, hi⟩, h1 ⟨i, hi⟩]
    by_cases i0 : i = 0
    · simp [i0]
    · by_cases i1 : i = 1
      · simp [i1]
      · rw [beq_false_of_ne i0, beq_false_of_ne i1]; simp [i0, i1]
  · rw [BitVec.getLsbD_of_ge _ _ (by omega), BitVec.getLsbD_of_ge _ _ (by omega), if_neg (by omega), if_neg (by omega)]

/-- A file opened then for reading, or for both, is opened for both, and otherwise as asked for. -/
theorem dlbind_open_partial {e : Env} (h : e.dlbind = true) (f : Flags) :
    ((nudgeOpen e f) &&& 3#32 = 2#32 ↔ f.getLsbD 0 = false) ∧ ∀ i, 2 ≤ i → (nudgeOpen e f).getLsbD i = f.getLsbD i := by
  have h2 : ∀ j : Fin 32, (2#32 : BitVec 32).getLsbD j.val = (j.val == 1) := by decide
  have hn : ∀ j : Fin 32, (~~~2#32 : BitVec 32).getLsbD j.val = !(j.val == 1) := by decide
  have h3 : ∀ j : Fin 32, (3#32 : BitVec 32).getLsbD j.val = (j.val == 0 || j.val == 1) := by decide
  unfold nudgeOpen
  rw [if_pos h]
  constructor
  · constructor
    · intro he
      have := congrArg (fun v => BitVec.getLsbD v 0) he
      simp only [BitVec.getLsbD_or, BitVec.getLsbD_and] at this
      have a1 := h2 0; have a2 := hn 0; have a3 := h3 0
      simp only [Fin.val_zero] at a1 a2 a3
      rw [a1, a2, a3] at this
      simpa using this
    · intro hf
      apply BitVec.eq_of_getLsbD_eq
      intro i hi
      rw [BitVec.getLsbD_and, BitVec.getLsbD_or, BitVec.getLsbD_and, h2 ⟨i, hi⟩, hn ⟨i, hi⟩, h3 ⟨i, hi⟩]
      by_cases i0 : i = 0
      · simp [i0]; simpa using hf
      · by_cases i1 : i = 1
        · simp [i1]
        · rw [beq_false_of_ne i0, beq_false_of_ne i1]; simp
  · intro i hi
    by_cases hlt : i < 32
    · rw [BitVec.getLsbD_or, BitVec.getLsbD_and, h2 ⟨i, hlt⟩, hn ⟨i, hlt⟩]
      rw [beq_false_of_ne (show i ≠ 1 by omega)]; simp
    · rw [BitVec.getLsbD_of_ge _ _ (by omega), BitVec.getLsbD_of_ge _ _ (by omega)]

/-! ## Signals -/

/-- The last request to install something for a signal that is not reserved. -/
def lastSet (n : Nat) : Handler → List SigCall → Handler
  | h, [] => h
  | h, .signal m x :: cs => lastSet n (if m = n then x else h) cs
  | h, .sigaction m (some x) :: cs => lastSet n (if m = n then x else h) cs
  | h, .sigaction _ none :: cs => lastSet n h cs

/-- Whatever the program asks for, the library's handler of the trapping signal stays, and every other signal has the handler last asked for. -/
theorem trap_handler_stays : ∀ (cs : List SigCall) (d : Nat → Handler),
    (sigRun d cs).1 4 = d 4 ∧ ∀ n, n ≠ 4 → (sigRun d cs).1 n = lastSet n (d n) cs := by
  intro cs
  induction cs with
  | nil => intro d; exact ⟨rfl, fun n _ => rfl⟩
  | cons c cs ih =>
    intro d
    have hi := ih (sigStep d c).1
    refine ⟨?_, ?_⟩
    · show (sigRun (sigStep d c).1 cs).1 4 = d 4
      rw [hi.1]
      rcases c with ⟨m, h⟩ | ⟨m, _ | h⟩
      · by_cases hm : m = 4
        · simp [sigStep, SIGILL, hm]
        · simp [sigStep, SIGILL, hm, Ne.symm hm]
      · rfl
      · by_cases hm : m = 4
        · simp [sigStep, SIGILL, hm]
        · simp [sigStep, SIGILL, hm, Ne.symm hm]
    · intro n hn
      show (sigRun (sigStep d c).1 cs).1 n = _
      rw [hi.2 n hn]
      rcases c with ⟨m, h⟩ | ⟨m, _ | h⟩
      · rw [lastSet]
        congr 1
        by_cases hm : m = 4
        · simp [sigStep, SIGILL, hm, Ne.symm hn]
        · simp [sigStep, SIGILL, hm, eq_comm]
      · rfl
      · rw [lastSet]
        congr 1
        by_cases hm : m = 4
        · simp [sigStep, SIGILL, hm, Ne.symm hn]
        · simp [sigStep, SIGILL, hm, eq_comm]

/-- The answer to each request: what was there before, or a refusal of `signal` on the reserved one. -/
theorem signal_answers : ∀ (cs : List SigCall) (d : Nat → Handler) (i : Nat) (c : SigCall), cs[i]? = some c →
    (sigRun d cs).2[i]? = some (match c with
      | .signal n _ => if n = 4 then .notsup else .old (lastSet n (d n) (cs.take i))
      | .sigaction n _ => if n = 4 then .old (d 4) else .old (lastSet n (d n) (cs.take i))) := by
  intro cs
  induction cs with
  | nil => intro d i c h; simp at h
  | cons a cs ih =>
    intro d i c h
    cases i with
    | zero =>
      simp only [List.getElem?_cons_zero, Option.some.injEq] at h
      subst h
      show some (sigStep d a).2 = _
      rcases a with ⟨m, h⟩ | ⟨m, _ | h⟩ <;> by_cases hm : m = 4 <;> simp [sigStep, SIGILL, hm, lastSet]
    | succ i =>
      simp only [List.getElem?_cons_succ] at h
      show (sigRun (sigStep d a).1 cs).2[i]? = _
      rw [ih _ i c h, List.take_succ_cons]
      have h4 := (trap_handler_stays [a] d).1
      have hn := (trap_handler_stays [a] d).2
      have e : (sigRun d [a]).1 = (sigStep d a).1 := rfl
      rw [e] at h4 hn
      have hl : ∀ n, n ≠ 4 → lastSet n ((sigStep d a).1 n) (cs.take i) = lastSet n (d n) (a :: cs.take i) := by
        intro n hne
        rw [hn n hne]
        rcases a with ⟨m, h⟩ | ⟨m, _ | h⟩ <;> rfl
      rcases c with ⟨n, h⟩ | ⟨n, h⟩
      · by_cases hne : n = 4
        · simp [hne]
        · simp only [hne, if_false, hl n hne]
      · by_cases hne : n = 4
        · simp [hne, h4]
        · simp only [hne, if_false, hl n hne]

/-! ## Concrete cases and what goes wrong -/

/-- Callers at `0x7f..` are the library. -/
def exEnv : Env := ⟨false, fun a => decide (0x7f0000000000#64 ≤ a), 0x7f0000001000⟩

/-- A kernel that answers every call with its own address argument, or `ENOMEM` (12) if there is none, and remembers all calls. -/
def exKernel : Kernel (List Call) := ⟨fun s c => (c :: s, match c with
  | .mmap m => if m.addr = 0 then 0 - 12 else m.addr
  | .mremap _ _ _ f n => if f &&& 2#32 = 0 then 0 - 12 else n
  | _ => 0)⟩

def exMap (addr len : Word) : Map := ⟨addr, len, 3, 0x22, 0xffffffff, 0⟩

example : Foreign exEnv (.mmap (exMap 0x10000 0x1000)) 0x401000 := ⟨by decide +kernel, by decide +kernel⟩

example : trap exKernel exEnv [] AREA (.mmap (exMap 0x10000 0x1000)) 0x401000 =
    ([.mmap (exMap 0x10000 0x1000)], 0x10000, [.mmap 0x10000 (exMap 0x10000 0x1000) 0x401000], AREA) := by decide +kernel

example : (placed exEnv AREA [(exMap 0 0x2000, 0x7f0000000100), (exMap 0x5000 0x1000, 0x7f0000000100), (exMap 0 0x1000, 0x7f0000000100)]).map (fun x => x.2.addr) =
    [0x70fffffff000, 0x5000, 0x710000001000] := by decide +kernel

/-- A program's `mremap` that says nothing about where is given a place, since the return address is in the library: a resize in place becomes a move,
without leave to move (so the kernel refuses it). -/
theorem mremap_placed_fails : ∃ e area, e.isSelf 0x401000 = false ∧
    (action e area (.mremap 0x10000 0x1000 0x2000 0 0) 0x401000).call = .mremap 0x10000 0x1000 0x2000 2 0x70fffffff000 :=
  ⟨exEnv, AREA, by decide +kernel, by decide +kernel⟩

/-- `mprotect` is performed and not notified. -/
theorem mprotect_fails : ∃ n, Change 0x401000 (.mprotect 0x10000 0x1000 1) 0 n ∧
    n ∉ (trap exKernel exEnv [] AREA (.mprotect 0x10000 0x1000 1) 0x401000).2.2.1 :=
  ⟨_, .protected' rfl, by decide +kernel⟩

/-- Running out of memory is reported by the library's `mmap` as lack of permission (1, not 12). -/
theorem errno_fails : (preloadMmap exKernel exEnv true [] AREA (exMap 0 0x1000) 0x401000).2.1 = ⟨BitVec.allOnes 64, some 1, []⟩ := by decide +kernel

/-- A mapping of more than four gigabytes is notified if trapped, not if made with the library's `mmap`. -/
theorem big_mapping_fails : (trap exKernel exEnv [] AREA (.mmap (exMap 0x10000 0x200000000)) 0x401000).2.2.1.length = 1 ∧
    (preloadMmap exKernel exEnv true [] AREA (exMap 0x10000 0x200000000) 0x401000).2.1.notes = [] := by decide +kernel

/-- After a length that is not whole pages the next place is not at a page boundary. -/
theorem own_unaligned_fails : (placed exEnv AREA [(exMap 0 0x1001, 0x7f0000000100), (exMap 0 0x1000, 0x7f0000000100)]).map (fun x => x.2.addr) =
    [0x70fffffff000, 0x710000000001] := by decide +kernel

/-- A file opened only for writing while libdlbind is at work gets an access mode that is neither. -/
theorem dlbind_wronly_fails : nudgeOpen { exEnv with dlbind := true } 1 = 3 := by decide +kernel

/-- The signal by which the index grows is not kept for the library. -/
theorem index_handler_fails : (sigRun (fun _ => 99) [.signal SIGBUS 5]).1 SIGBUS = 5 := by decide +kernel

/-- `sigaction` on the reserved signal answers as if it had done it. -/
theorem sigaction_ignored_fails : (sigRun (fun _ => 99) [.sigaction SIGILL (some 5), .sigaction SIGILL none]).2 = [.old 99, .old 99] := by decide +kernel

end Liballocs.Syscalls
