import Verif.Model.Query
/-!
# C97 The simple queries agree with each other and with the full query
# C98 A query does not change the answers of later queries
# C99 Setting an object's type sets it
-/
namespace Liballocs.Query

/-! ## Specification -/

/-- What is known of an object: 0 for an unknown type or site. -/
structure Facts where
  base : Nat
  size : Option Nat
  type : Nat
  site : Nat

/-- A chunk's word gives its type directly or through its allocation site. -/
def wordFacts (B : Build) : Ins → Nat × Nat
  | .typed t => (t, 0)
  | .site a => (B.sites a, a)

/-- What is known of what was found; `none` if nothing was. -/
def facts (B : Build) : Obj → Option Facts
  | .chunk _ f => f.map (fun c => ⟨c.base, some c.size, (wordFacts B c.ins).1, (wordFacts B c.ins).2⟩)
  | .linear f _ => f.map (fun c => ⟨c.base, some c.size, (wordFacts B c.ins).1, (wordFacts B c.ins).2⟩)
  | .small f => f.map (fun s => ⟨s.base, s.size, B.sites s.site, s.site⟩)
  | .stack => none
  | .table _ f => f.map (fun r => ⟨r.base, some r.size, r.type, r.site⟩)
  | .whole r => some ⟨r.base, some r.size, r.type, r.site⟩
  | .mapping b sz k => some ⟨b, some sz, 0, k.getD 0⟩

/-- A fact, or 0. -/
def orZero (f : Facts → Nat) : Option Facts → Nat
  | none => 0
  | some x => f x

/-- Each allocator has its own errors. -/
def ErrOk : Obj → Prop
  | .chunk e _ => e = .heap ∨ e = .alloca
  | .table e _ => e = .static ∨ e = .walk ∨ e = .storage
  | _ => True

/-- A chunk of the linker's malloc. -/
def Linear : Obj → Prop
  | .linear (some _) _ => True
  | _ => False

/-- One of the library's own pools. -/
def Pool : Obj → Prop
  | .mapping _ _ none => True
  | _ => False

/-- Nothing found. -/
def Missing : Obj → Prop
  | .chunk _ none => True
  | .linear none _ => True
  | .small none => True
  | .table e none => e ≠ .static
  | _ => False

instance : DecidablePred Missing := fun o => by
  unfold Missing
  split <;> infer_instance

/-! ## C97 -/

theorem extract_quiet (B : Build) (w : Want) (i : Ins) : (extract B w i).1 = (if (wordFacts B i).1 = 0 then some .site else none) ∧
    (extract B w i).2.1 = (if (wordFacts B i).1 = 0 then none else put w.type (wordFacts B i).1) ∧
    (extract B w i).2.2.1 = put w.site (wordFacts B i).2 := by
  cases i with
  | typed t => by_cases h : t = 0 <;> simp [extract, wordFacts, h]
  | site a => by_cases h : B.sites a = 0 <;> simp [extract, wordFacts, h]

/-- **C97.** The base query. -/
theorem base_partial (B : Build) (a : Nat) {o : Obj} (he : ErrOk o) (hs : o ≠ .stack) :
    (getBase B (some (a, o))).1 = .val (orZero (·.base) (facts B o)) := by
  cases o with
  | chunk e f =>
    cases f with
    | none => rcases he with rfl | rfl <;> rfl
    | some c => simp [getBase, info, getInfo, chunkInfo, baseR, read, put, facts, orZero]
  | linear f bits =>
    cases f with
    | none => rfl
    | some c => cases hi : c.ins <;> simp [getBase, info, getInfo, linearInfo, hi, baseR, read, put, facts, orZero]
  | small f =>
    cases f with
    | none => rfl
    | some s => simp [getBase, info, getInfo, smallInfo, baseR, read, put, facts, orZero]
  | stack => exact absurd rfl hs
  | table e f =>
    cases f with
    | none => rcases he with rfl | rfl | rfl <;> rfl
    | some r => rfl
  | whole r => rfl
  | mapping b sz k => cases k <;> rfl

/-- **C97.** The size query. -/
theorem size_partial (B : Build) (a : Nat) {o : Obj} (he : ErrOk o) (hs : o ≠ .stack) (hk : ∀ f, facts B o = some f → f.size ≠ none) :
    (getSize B (some (a, o))).1 = .val (orZero (fun f => f.size.getD 0) (facts B o)) := by
  cases o with
  | chunk e f =>
    cases f with
    | none => rcases he with rfl | rfl <;> rfl
    | some c => simp [getSize, info, getInfo, chunkInfo, sizeR, read, put, facts, orZero]
  | linear f bits =>
    cases f with
    | none => rfl
    | some c => cases hi : c.ins <;> simp [getSize, info, getInfo, linearInfo, hi, sizeR, read, put, facts, orZero]
  | small f =>
    cases f with
    | none => rfl
    | some s =>
      have h := hk _ rfl
      cases hz : s.size with
      | none => exact absurd hz h
      | some n => simp [getSize, info, getInfo, smallInfo, sizeR, read, facts, orZero, hz]
  | stack => exact absurd rfl hs
  | table e f =>
    cases f with
    | none => rcases he with rfl | rfl | rfl <;> rfl
    | some r => rfl
  | whole r => rfl
  | mapping b sz k => cases k <;> rfl

/-- **C97.** The type query. -/
theorem type_partial (B : Build) (a : Nat) {o : Obj} (hl : ¬ Linear o) : (getType B (some (a, o))).1 = .val (orZero (·.type) (facts B o)) := by
  cases o with
  | chunk e f =>
    cases f with
    | none => rfl
    | some c =>
      obtain ⟨h1, h2, _⟩ := extract_quiet B ⟨true, false, false, false⟩ c.ins
      simp only [getType, info, getInfo, chunkInfo, Bool.true_or, if_true, typeR, facts, Option.map_some, orZero, h1]
      by_cases hz : (wordFacts B c.ins).1 = 0
      · simp [hz]
      · simp [hz, h2, read, put]
  | linear f bits =>
    cases f with
    | none => rfl
    | some c => exact absurd trivial hl
  | small f =>
    cases f with
    | none => rfl
    | some s => by_cases hz : B.sites s.site = 0 <;> simp [getType, info, getInfo, smallInfo, typeR, read, put, facts, orZero, hz]
  | stack => rfl
  | table e f => cases f <;> rfl
  | whole r => rfl
  | mapping b sz k => cases k <;> rfl

/-- **C97.** The site query. -/
theorem site_partial (B : Build) (a : Nat) {o : Obj} (hp : ¬ Pool o) : (getSite B (some (a, o))).1 = .val (orZero (·.site) (facts B o)) := by
  cases o with
  | chunk e f =>
    cases f with
    | none => rfl
    | some c =>
      obtain ⟨_, _, h3⟩ := extract_quiet B ⟨false, false, false, true⟩ c.ins
      simp only [getSite, info, getInfo, chunkInfo, Bool.or_true, if_true, siteR, facts, Option.map_some, orZero, h3, put]
  | linear f bits =>
    cases f with
    | none => rfl
    | some c => cases hi : c.ins <;> simp [getSite, info, getInfo, linearInfo, hi, siteR, put, facts, orZero, wordFacts]
  | small f =>
    cases f with
    | none => rfl
    | some s => simp [getSite, info, getInfo, smallInfo, siteR, put, facts, orZero]
  | stack => rfl
  | table e f => cases f <;> rfl
  | whole r => rfl
  | mapping b sz k =>
    cases k with
    | none => exact absurd trivial hp
    | some k => rfl

/-- **C97.** Whatever the full query says, the simple queries say. -/
theorem agree (B : Build) (a : Nat) {o : Obj} {t b s k : Nat} (h : (info B ⟨true, true, true, true⟩ (some (a, o))).1 = .ret none ⟨some t, some b, some s, some k⟩) :
    (getType B (some (a, o))).1 = .val t ∧ (getBase B (some (a, o))).1 = .val b ∧ (getSize B (some (a, o))).1 = .val s ∧
      (getSite B (some (a, o))).1 = .val k ∧ (getLeaf B (some (a, o))).1 = .val a := by
  cases o with
  | chunk e f =>
    cases f with
    | none => simp [info, getInfo] at h
    | some c =>
      obtain ⟨x1, x2, x3⟩ := extract_quiet B ⟨true, true, true, true⟩ c.ins
      simp only [info, getInfo, chunkInfo, Bool.true_or, if_true, x1, x2, x3, Ans.ret.injEq, Outs.mk.injEq] at h
      obtain ⟨h0, h1, h2, h3, h4⟩ := h
      have hz : (wordFacts B c.ins).1 ≠ 0 := by intro hz; rw [if_pos hz] at h0; cases h0
      rw [if_neg hz] at h1
      simp only [put, if_true, Option.some.injEq] at h1 h2 h3 h4
      refine ⟨?_, ?_, ?_, ?_, ?_⟩
      · rw [type_partial B a (o := .chunk e (some c)) (fun h => h), ← h1]; rfl
      · simp [getBase, info, getInfo, chunkInfo, baseR, read, put, h2]
      · simp [getSize, info, getInfo, chunkInfo, sizeR, read, put, h3]
      · rw [site_partial B a (o := .chunk e (some c)) (fun h => h), ← h4]; rfl
      · rfl
  | linear f bits =>
    cases f with
    | none => simp [info, getInfo] at h
    | some c => cases hi : c.ins <;> simp [info, getInfo, linearInfo, hi] at h
  | small f =>
    cases f with
    | none => simp [info, getInfo] at h
    | some s =>
      by_cases hz : B.sites s.site = 0
      · simp [info, getInfo, smallInfo, hz] at h
      · simp [info, getInfo, smallInfo, hz, put] at h
        obtain ⟨h1, h2, h3, h4⟩ := h
        subst h4 h1 h2
        simp [getType, getBase, getSize, getSite, getLeaf, info, getInfo, smallInfo, typeR, baseR, sizeR, siteR, leafR, leafOf, read, put, hz, h3]
  | stack => simp [info, getInfo] at h
  | table e f =>
    cases f with
    | none => simp [info, getInfo] at h
    | some r =>
      simp [info, getInfo, put] at h
      obtain ⟨h1, h2, h3, h4⟩ := h
      subst h1 h2 h3 h4
      exact ⟨rfl, rfl, rfl, rfl, rfl⟩
  | whole r =>
    simp [info, getInfo, put] at h
    obtain ⟨h1, h2, h3, h4⟩ := h
    subst h1 h2 h3 h4
    exact ⟨rfl, rfl, rfl, rfl, rfl⟩
  | mapping b' sz k' =>
    cases k' with
    | none => simp [info, getInfo] at h
    | some k' =>
      simp [info, getInfo, put] at h
      obtain ⟨h1, h2, h3, h4⟩ := h
      subst h1 h2 h3 h4
      exact ⟨rfl, rfl, rfl, rfl, rfl⟩

/-- **C97.** And the full query says exactly the facts, where type and size are known. -/
theorem full_partial (B : Build) (a : Nat) {o : Obj} {f : Facts} {n : Nat} (hf : facts B o = some f) (ht : f.type ≠ 0) (hs : f.size = some n)
    (hl : ¬ Linear o) :
    (info B ⟨true, true, true, true⟩ (some (a, o))).1 = .ret none ⟨some f.type, some f.base, some n, some f.site⟩ := by
  cases o with
  | chunk e c =>
    cases c with
    | none => cases hf
    | some c =>
      obtain ⟨x1, x2, x3⟩ := extract_quiet B ⟨true, true, true, true⟩ c.ins
      cases hf
      simp only [info, getInfo, chunkInfo, Bool.true_or, if_true, x1, x2, x3]
      have hz : (wordFacts B c.ins).1 ≠ 0 := ht
      have hn : c.size = n := Option.some.inj hs
      simp [hz, hn, put]
  | linear c bits =>
    cases c with
    | none => cases hf
    | some c => exact absurd trivial hl
  | small c =>
    cases c with
    | none => cases hf
    | some c =>
      cases hf
      have hz : B.sites c.site ≠ 0 := ht
      have hn : c.size = some n := hs
      simp [info, getInfo, smallInfo, hz, hn, put]
  | stack => cases hf
  | table e c =>
    cases c with
    | none => cases hf
    | some c => cases hf; simp [info, getInfo, put]; exact Option.some.inj hs
  | whole r => cases hf; simp [info, getInfo, put]; exact Option.some.inj hs
  | mapping b sz k => cases hf; exact absurd rfl ht

/-- **C97.** An address that nobody knows. -/
theorem unknown (B : Build) : (getType B none).1 = .val 0 ∧ (getBase B none).1 = .val 0 ∧ (getSize B none).1 = .val 0 ∧ (getSite B none).1 = .val 0 ∧
    (getLeaf B none).1 = .val 0 := ⟨rfl, rfl, rfl, rfl, rfl⟩

/-- **C97.** The leaf allocator is told unless it found nothing. -/
theorem leaf_exact (B : Build) (a : Nat) {o : Obj} (he : ErrOk o) : (getLeaf B (some (a, o))).1 = .val (if Missing o then 0 else a) := by
  cases o with
  | chunk e f =>
    cases f with
    | none => rcases he with rfl | rfl <;> rfl
    | some c => rfl
  | linear f bits => cases f with
    | none => rfl
    | some c => cases hi : c.ins <;> simp [getLeaf, info, getInfo, linearInfo, hi, leafR, leafOf, Missing]
  | small f => cases f with
    | none => rfl
    | some s => simp [getLeaf, info, getInfo, smallInfo, leafR, leafOf, Missing]
  | stack => rfl
  | table e f =>
    cases f with
    | none => rcases he with rfl | rfl | rfl <;> rfl
    | some r => rfl
  | whole r => rfl
  | mapping b sz k => cases k <;> rfl

/-! ### Where the answer is whatever was on the stack -/

/-- **C97 fails** for the stack outside frames: base and size are variables never written. -/
theorem stack_garbage_fails (B : Build) (a : Nat) : (getBase B (some (a, .stack))).1 = .garbage ∧ (getSize B (some (a, .stack))).1 = .garbage := ⟨rfl, rfl⟩

/-- Only there is the base. -/
theorem base_garbage_iff (B : Build) (a : Nat) {o : Obj} (he : ErrOk o) : (getBase B (some (a, o))).1 = .garbage ↔ o = .stack := by
  constructor
  · intro h
    apply Classical.byContradiction
    intro hs
    rw [base_partial B a he hs] at h
    cases h
  · rintro rfl; rfl

/-- **C97 fails** for a small object found by a continuation: its size is a variable never written. -/
theorem size_garbage_iff (B : Build) (a : Nat) {o : Obj} (he : ErrOk o) :
    (getSize B (some (a, o))).1 = .garbage ↔ o = .stack ∨ ∃ b k, o = .small (some ⟨b, none, k⟩) := by
  constructor
  · intro h
    apply Classical.byContradiction
    intro hs
    rw [not_or] at hs
    rw [size_partial B a he hs.1] at h
    · cases h
    · intro f hf hn
      apply hs.2
      cases o with
      | small s =>
        cases s with
        | none => cases hf
        | some s =>
          cases hf
          exact ⟨s.base, s.site, by rw [← show s.size = none from hn]⟩
      | chunk e c => cases c <;> cases hf <;> cases hn
      | linear c bits => cases c <;> cases hf <;> cases hn
      | stack => cases hf
      | table e c => cases c <;> cases hf <;> cases hn
      | whole r => cases hf; cases hn
      | mapping b sz k => cases hf; cases hn
  · rintro (rfl | ⟨b, k, rfl⟩) <;> rfl

/-- **C97 fails** for the linker's malloc: the type of a chunk whose word holds an allocation site is a variable never written, -/
theorem type_garbage_iff (B : Build) (a : Nat) (o : Obj) :
    (getType B (some (a, o))).1 = .garbage ↔ ∃ b sz k bits, o = .linear (some ⟨b, sz, .site k⟩) bits := by
  constructor
  · intro h
    by_cases hl : Linear o
    · cases o with
      | linear f bits =>
        cases f with
        | none => exact absurd hl (fun h => h)
        | some c =>
          obtain ⟨b, sz, i⟩ := c
          cases i with
          | site k => exact ⟨b, sz, k, bits, rfl⟩
          | typed t => cases h
      | _ => exact absurd hl (fun h => h)
    · rw [type_partial B a hl] at h; cases h
  · rintro ⟨b, sz, k, bits, rfl⟩; rfl

/-- and that of one whose word holds a type is computed from the word's address. -/
theorem linear_type_fails (B : Build) (a b sz t bits : Nat) : (getType B (some (a, .linear (some ⟨b, sz, .typed t⟩) bits))).1 = .val bits := rfl

/-- **C97 fails** for the library's own pools: asking for the site crashes, and nothing else does. -/
theorem crash_iff (B : Build) (a : Nat) (o : Obj) : (getSite B (some (a, o))).1 = .crash ↔ Pool o := by
  constructor
  · intro h
    apply Classical.byContradiction
    intro hp
    rw [site_partial B a hp] at h
    cases h
  · intro h
    cases o with
    | mapping b sz k => cases k with
      | none => rfl
      | some k => exact absurd h (fun h => h)
    | _ => exact absurd h (fun h => h)

/-! ## C98 -/

/-- All the queries of a list, one after the other. -/
def afterAll (B : Build) (x : At) (qs : List Ask) : At := qs.foldl (after B) x

/-- What a query may do to a chunk's word: nothing, or replace a site by the site's type. -/
def Settled (B : Build) (o o' : Obj) : Prop :=
  o' = o ∨ (B.ndebug = true ∧ ∃ e b sz k, o = .chunk e (some ⟨b, sz, .site k⟩) ∧ o' = .chunk e (some ⟨b, sz, .typed (B.sites k)⟩))

theorem getInfo_settled (B : Build) (w : Want) (o : Obj) : Settled B o (getInfo B w o).2 := by
  cases o with
  | chunk e f =>
    cases f with
    | none => exact Or.inl rfl
    | some c =>
      obtain ⟨b, sz, i⟩ := c
      simp only [getInfo, chunkInfo]
      split
      · cases i with
        | typed t =>
          left
          by_cases h : t = 0 <;> simp [extract, h]
        | site k =>
          by_cases hn : B.ndebug = true
          · right
            refine ⟨hn, e, b, sz, k, rfl, ?_⟩
            by_cases h : B.sites k = 0 <;> simp [extract, h, hn]
          · left
            by_cases h : B.sites k = 0 <;> simp [extract, h, hn]
      · exact Or.inl rfl
  | linear f bits => cases f <;> exact Or.inl rfl
  | small f => cases f <;> exact Or.inl rfl
  | stack => exact Or.inl rfl
  | table e f => cases f <;> exact Or.inl rfl
  | whole r => exact Or.inl rfl
  | mapping b sz k => cases k <;> exact Or.inl rfl

theorem settled_trans {B : Build} {o o' o'' : Obj} (h : Settled B o o') (h' : Settled B o' o'') : Settled B o o'' := by
  rcases h with rfl | ⟨hn, e, b, sz, k, rfl, rfl⟩
  · exact h'
  · rcases h' with rfl | ⟨_, e', b', sz', k', h1, _⟩
    · exact Or.inr ⟨hn, e, b, sz, k, rfl, rfl⟩
    · cases h1

theorem after_settled (B : Build) (a : Nat) (o : Obj) (q : Ask) : ∃ o', after B (some (a, o)) q = some (a, o') ∧ Settled B o o' := by
  cases q <;> exact ⟨_, rfl, getInfo_settled B _ o⟩

theorem afterAll_settled (B : Build) (a : Nat) (qs : List Ask) (o : Obj) : ∃ o', afterAll B (some (a, o)) qs = some (a, o') ∧ Settled B o o' := by
  induction qs generalizing o with
  | nil => exact ⟨o, rfl, Or.inl rfl⟩
  | cons q qs ih =>
    obtain ⟨o1, h1, h2⟩ := after_settled B a o q
    obtain ⟨o2, h3, h4⟩ := ih o1
    refine ⟨o2, ?_, settled_trans h2 h4⟩
    show afterAll B (after B (some (a, o)) q) qs = _
    rw [h1, h3]

theorem afterAll_none (B : Build) (qs : List Ask) : afterAll B none qs = none := by
  induction qs with
  | nil => rfl
  | cons q qs ih =>
    show afterAll B (after B none q) qs = none
    rw [show after B none q = none by cases q <;> rfl, ih]

/-- **C98.** In a debugging build no query changes anything. -/
theorem debug_unchanged (B : Build) (hB : B.ndebug = false) (x : At) (qs : List Ask) : afterAll B x qs = x := by
  cases x with
  | none => exact afterAll_none B qs
  | some x =>
    obtain ⟨a, o⟩ := x
    obtain ⟨o', h1, h2⟩ := afterAll_settled B a qs o
    rcases h2 with rfl | ⟨hn, _⟩
    · exact h1
    · rw [hB] at hn; cases hn

/-- **C98.** In any build, type, base, size and allocator are answered the same after any queries. -/
theorem stable_partial (B : Build) (x : At) (qs : List Ask) :
    (getType B (afterAll B x qs)).1 = (getType B x).1 ∧ (getBase B (afterAll B x qs)).1 = (getBase B x).1 ∧
      (getSize B (afterAll B x qs)).1 = (getSize B x).1 ∧ (getLeaf B (afterAll B x qs)).1 = (getLeaf B x).1 := by
  cases x with
  | none => rw [afterAll_none]; exact ⟨rfl, rfl, rfl, rfl⟩
  | some x =>
    obtain ⟨a, o⟩ := x
    obtain ⟨o', h1, h2⟩ := afterAll_settled B a qs o
    rw [h1]
    rcases h2 with rfl | ⟨_, e, b, sz, k, rfl, rfl⟩
    · exact ⟨rfl, rfl, rfl, rfl⟩
    · refine ⟨?_, rfl, rfl, rfl⟩
      rw [type_partial B a (o := .chunk e (some ⟨b, sz, .typed (B.sites k)⟩)) (fun h => h),
        type_partial B a (o := .chunk e (some ⟨b, sz, .site k⟩)) (fun h => h)]
      rfl

/-- **C98.** Asking for base, size or allocator changes nothing in any build; so the site is still told afterwards. -/
theorem plain_unchanged (B : Build) (x : At) (q : Ask) (hq : q = .base ∨ q = .size ∨ q = .leaf) : after B x q = x := by
  match x with
  | none => rcases hq with rfl | rfl | rfl <;> rfl
  | some (a, .chunk e f) => cases f <;> rcases hq with rfl | rfl | rfl <;> rfl
  | some (a, .linear f bits) => cases f <;> rcases hq with rfl | rfl | rfl <;> rfl
  | some (a, .small f) => cases f <;> rcases hq with rfl | rfl | rfl <;> rfl
  | some (a, .stack) => rcases hq with rfl | rfl | rfl <;> rfl
  | some (a, .table e f) => cases f <;> rcases hq with rfl | rfl | rfl <;> rfl
  | some (a, .whole r) => rcases hq with rfl | rfl | rfl <;> rfl
  | some (a, .mapping b sz k) => cases k <;> rcases hq with rfl | rfl | rfl <;> rfl

theorem plain_site (B : Build) (x : At) : ∀ qs : List Ask, (∀ q ∈ qs, q = .base ∨ q = .size ∨ q = .leaf) → (getSite B (afterAll B x qs)).1 = (getSite B x).1
  | [], _ => rfl
  | q :: qs, h => by
    show (getSite B (afterAll B (after B x q) qs)).1 = _
    rw [plain_unchanged B x q (h q List.mem_cons_self)]
    exact plain_site B x qs (fun q hq => h q (List.mem_cons_of_mem _ hq))

/-- **C98 fails** for the site, in a build without debugging: after a query for type or site of a malloc'd object, its site is NULL. -/
theorem site_lost_fails (B : Build) (hB : B.ndebug = true) (a b sz k : Nat) (e : Err) (q : Ask) (hq : q = .type ∨ q = .site ∨ q = .full) :
    (getSite B (some (a, .chunk e (some ⟨b, sz, .site k⟩)))).1 = .val k ∧
      (getSite B (after B (some (a, .chunk e (some ⟨b, sz, .site k⟩))) q)).1 = .val 0 := by
  refine ⟨site_partial B a (fun h => h), ?_⟩
  have h : after B (some (a, .chunk e (some ⟨b, sz, .site k⟩))) q = some (a, .chunk e (some ⟨b, sz, .typed (B.sites k)⟩)) := by
    rcases hq with rfl | rfl | rfl <;>
      by_cases hz : B.sites k = 0 <;> simp [after, getType, getSite, info, getInfo, chunkInfo, extract, hz, hB]
  rw [h]
  exact site_partial B a (fun h => h)

/-! ## C99 -/

/-- **C99.** Setting the type of a malloc'd object: that is its type from then on, whatever is asked in between; its base and size stay. -/
theorem set_partial (B : Build) (a b sz t : Nat) (i : Ins) :
    ∃ x, setType B (some (a, .chunk .heap (some ⟨b, sz, i⟩))) t = some x ∧
      ∀ qs, (getType B (afterAll B x qs)).1 = .val t ∧ (getBase B (afterAll B x qs)).1 = .val b ∧ (getSize B (afterAll B x qs)).1 = .val sz := by
  have hg : (getType B (some (a, .chunk .heap (some ⟨b, sz, .typed t⟩)))).1 = .val t := type_partial B a (fun h => h)
  have hx : setType B (some (a, .chunk .heap (some ⟨b, sz, i⟩))) t = some (some (a, .chunk .heap (some ⟨b, sz, .typed t⟩))) := by
    simp only [setType, hasSet, setInfo, if_true]
    by_cases hB : B.ndebug = true
    · rw [if_pos hB]
    · rw [if_neg hB, if_pos hg]
      have := debug_unchanged B (by simpa using hB) (some (a, .chunk .heap (some ⟨b, sz, .typed t⟩))) [.type]
      rw [show (getType B (some (a, .chunk .heap (some ⟨b, sz, .typed t⟩)))).2 = _ from this]
  refine ⟨_, hx, fun qs => ?_⟩
  obtain ⟨h1, h2, h3, _⟩ := stable_partial B (some (a, .chunk .heap (some ⟨b, sz, .typed t⟩))) qs
  rw [h1, h2, h3]
  exact ⟨hg, rfl, rfl⟩

/-- **C99 fails** for objects of other allocators, silently: nothing changes. -/
theorem set_silent_fails (B : Build) (a t : Nat) {o : Obj} (h : hasSet o = false) : setType B (some (a, o)) t = some (some (a, o)) := by
  simp [setType, h]

/-- The allocators concerned: all but the mallocs. -/
theorem hasSet_iff (o : Obj) : hasSet o = true ↔ (∃ f, o = .chunk .heap f) ∨ ∃ f bits, o = .linear f bits := by
  cases o with
  | chunk e f => cases e <;> simp [hasSet]
  | linear f bits => simp [hasSet]
  | _ => simp [hasSet]

/-- **C99 fails** in the linker's malloc, and (in a debugging build) where malloc finds no chunk: the program ends. -/
theorem set_ends_fails (B : Build) (a t bits : Nat) (f : Option Chunk) : setType B (some (a, .linear f bits)) t = none ∧
    (B.ndebug = false → t ≠ 0 → setType B (some (a, .chunk .heap none)) t = none) := by
  refine ⟨rfl, fun hB ht => ?_⟩
  simp only [setType, hasSet, setInfo, if_true, hB]
  rw [if_neg (by simp), if_neg (by simp [getType, info, getInfo, typeR]; exact fun h => ht h.symm)]

/-- Setting the type loses the site, though its id is kept. -/
theorem set_site_fails (B : Build) (a b sz k t : Nat) :
    ∃ x, setType B (some (a, .chunk .heap (some ⟨b, sz, .site k⟩))) t = some x ∧ (getSite B x).1 = .val 0 := by
  obtain ⟨x, hx, _⟩ := set_partial B a b sz t (.site k)
  refine ⟨x, hx, ?_⟩
  simp only [setType, hasSet, setInfo, if_true] at hx
  by_cases hB : B.ndebug = true
  · rw [if_pos hB] at hx
    cases hx
    exact site_partial B a (fun h => h)
  · rw [if_neg hB] at hx
    split at hx
    · have h := debug_unchanged B (by simpa using hB) (some (a, .chunk .heap (some ⟨b, sz, .typed t⟩))) [.type]
      have h' : (getType B (some (a, .chunk .heap (some ⟨b, sz, .typed t⟩)))).2 = some (a, .chunk .heap (some ⟨b, sz, .typed t⟩)) := h
      rw [h'] at hx
      cases hx
      exact site_partial B a (fun h => h)
    · cases hx

/-! ### Concrete cases -/

/-- The site `0x400123` allocates objects of type 77. -/
def exBuild (ndebug : Bool) : Build := ⟨ndebug, fun a => if a = 0x400123 then 77 else 0⟩

def exHeap : At := some (5, .chunk .heap (some ⟨0x1000, 40, .site 0x400123⟩))

example : (getType (exBuild false) exHeap).1 = .val 77 ∧ (getBase (exBuild false) exHeap).1 = .val 0x1000 ∧ (getSize (exBuild false) exHeap).1 = .val 40 ∧
    (getSite (exBuild false) exHeap).1 = .val 0x400123 ∧ (getLeaf (exBuild false) exHeap).1 = .val 5 := by decide +kernel

/-- An object of an unknown site: no type, but base and size. -/
example : (getType (exBuild false) (some (5, .chunk .heap (some ⟨0x1000, 40, .site 0x400999⟩)))).1 = .val 0 ∧
    (getBase (exBuild false) (some (5, .chunk .heap (some ⟨0x1000, 40, .site 0x400999⟩)))).1 = .val 0x1000 ∧
    (info (exBuild false) ⟨true, true, true, true⟩ (some (5, .chunk .heap (some ⟨0x1000, 40, .site 0x400999⟩)))).1 =
      .ret (some .site) ⟨none, some 0x1000, some 40, some 0x400999⟩ := by decide +kernel

/-- Asked twice for the site without debugging. -/
example : (getSite (exBuild true) exHeap).1 = .val 0x400123 ∧ (getSite (exBuild true) (getSite (exBuild true) exHeap).2).1 = .val 0 := by decide +kernel

end Liballocs.Query
