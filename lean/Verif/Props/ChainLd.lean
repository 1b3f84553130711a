import Verif.Model.ChainLd
/-!
# Handing over to the system's dynamic linker: what the program and a debugger see

The statements use the following only: a string in memory (`CStr`), a program loaded at a base address (`Loaded`), and where
the code at an address jumps to (`landing`).
-/
namespace Liballocs.ChainLd
open Detour (Mem rd wr W)

/-- The bytes of `s` are at `a`, and a zero byte follows. -/
def CStr (m : Mem) (a : Nat) (s : List Nat) : Prop := (∀ i (h : i < s.length), m (a + i) = s[i]) ∧ m (a + s.length) = 0

/-- The headers at `at_` are those of a program loaded at `base`. -/
def Loaded (base at_ : Nat) (ps : List Phdr) : Prop :=
  base < W ∧ (∃ p ∈ ps, p.type = .phdr) ∧ ∀ p ∈ ps, p.type = .phdr → (base + p.vaddr) % W = at_

theorem put_outside (bs : List Nat) : ∀ (m : Mem) (a x : Nat), x < a ∨ a + bs.length ≤ x → put m a bs x = m x := by
  induction bs with
  | nil => intro m a x _; rfl
  | cons b bs ih =>
    intro m a x h
    simp only [List.length_cons] at h
    rw [put, ih _ _ _ (by omega), if_neg (by omega)]

theorem put_inside (bs : List Nat) : ∀ (m : Mem) (a i : Nat) (h : i < bs.length), put m a bs (a + i) = bs[i] := by
  induction bs with
  | nil => intro m a i h; exact absurd h (by simp)
  | cons b bs ih =>
    intro m a i h
    rw [put]
    cases i with
    | zero => rw [put_outside _ _ _ _ (by omega)]; simp
    | succ i =>
      have := ih (fun x => if x = a then b else m x) (a + 1) i (by simpa using h)
      rw [show a + (i + 1) = a + 1 + i by omega, this]; rfl

theorem mayPut_iff (w : Nat → Bool) (n : Nat) : ∀ a, mayPut w a n = true ↔ ∀ i < n, w (a + i) = true := by
  induction n with
  | zero => intro a; simp [mayPut]
  | succ n ih =>
    intro a
    rw [mayPut, Bool.and_eq_true, ih]
    constructor
    · rintro ⟨h0, h⟩ i hi
      cases i with
      | zero => exact h0
      | succ i => have := h i (by omega); rwa [show a + (i + 1) = a + 1 + i by omega]
    · intro h
      refine ⟨h 0 (by omega), fun i hi => ?_⟩
      have := h (i + 1) (by omega)
      rwa [show a + (i + 1) = a + 1 + i by omega] at this

theorem sub_base (base at_ v : Nat) (hb : base < W) (h : (base + v) % W = at_) : (at_ + (W - v % W)) % W = base := by
  simp only [W] at *; omega

theorem baseOf_none (at_ : Nat) (ps : List Phdr) :
    ∀ f, (∀ p ∈ ps, p.type ≠ .phdr) → baseOf at_ f ps = f := by
  induction ps with
  | nil => intro f _; rfl
  | cons p l ih =>
    intro f h
    rw [baseOf, if_neg (h p (by simp)), ih _ (fun q hq => h q (by simp [hq]))]

theorem baseOf_some (base at_ : Nat) (hb : base < W) (ps : List Phdr) :
    ∀ f, (∀ p ∈ ps, p.type = .phdr → (base + p.vaddr) % W = at_) → (f = some base ∨ ∃ p ∈ ps, p.type = .phdr) →
      baseOf at_ f ps = some base := by
  induction ps with
  | nil => intro f _ h; rcases h with h | ⟨p, hp, _⟩
           · exact h
           · exact absurd hp (by simp)
  | cons p l ih =>
    intro f h hf
    rw [baseOf]
    apply ih _ (fun q hq => h q (by simp [hq]))
    by_cases ht : p.type = .phdr
    · rw [if_pos ht, sub_base base at_ p.vaddr hb (h p (by simp) ht)]; exact .inl rfl
    · rw [if_neg ht]
      rcases hf with hf | ⟨q, hq, hqt⟩
      · exact .inl hf
      · rcases List.mem_cons.1 hq with rfl | hq
        · exact absurd hqt ht
        · exact .inr ⟨q, hq, hqt⟩

theorem interpOf_none (base : Nat) (ps : List Phdr) :
    ∀ f, (∀ p ∈ ps, p.type ≠ .interp) → interpOf base f ps = .ok f := by
  induction ps with
  | nil => intro f _; rfl
  | cons p l ih =>
    intro f h
    rw [interpOf, if_neg (h p (by simp)), ih _ (fun q hq => h q (by simp [hq]))]

theorem interpOf_ro (base : Nat) (ps : List Phdr) :
    ∀ f, (∃ p ∈ ps, p.type = .interp ∧ p.writable = false) → interpOf base f ps = .die .notWritable := by
  induction ps with
  | nil => rintro f ⟨p, hp, _⟩; exact absurd hp (by simp)
  | cons p l ih =>
    rintro f ⟨q, hq, ht, hw⟩
    rw [interpOf]
    by_cases hp : p.type = .interp
    · rw [if_pos hp]
      by_cases hpw : p.writable = true
      · rw [if_pos hpw]
        rcases List.mem_cons.1 hq with rfl | hq
        · rw [hw] at hpw; exact absurd hpw (by decide)
        · exact ih _ ⟨q, hq, ht, hw⟩
      · rw [if_neg hpw]
    · rw [if_neg hp]
      rcases List.mem_cons.1 hq with rfl | hq
      · exact absurd ht hp
      · exact ih _ ⟨q, hq, ht, hw⟩

theorem interpOf_some (base : Nat) (q : Phdr) (hw : q.writable = true) (ps : List Phdr) :
    ∀ f, (∀ p ∈ ps, p.type = .interp → p = q) → (f = some ((base + q.vaddr) % W, q.filesz) ∨ (q ∈ ps ∧ q.type = .interp)) →
      interpOf base f ps = .ok (some ((base + q.vaddr) % W, q.filesz)) := by
  induction ps with
  | nil => intro f _ h; rcases h with rfl | ⟨h, _⟩
           · rfl
           · exact absurd h (by simp)
  | cons p l ih =>
    intro f hu hf
    rw [interpOf]
    by_cases hp : p.type = .interp
    · have := hu p (by simp) hp
      subst this
      rw [if_pos hp, if_pos hw]
      exact ih _ (fun r hr => hu r (by simp [hr])) (.inl rfl)
    · rw [if_neg hp]
      apply ih _ (fun r hr => hu r (by simp [hr]))
      rcases hf with h | ⟨h, ht⟩
      · exact .inl h
      · rcases List.mem_cons.1 h with rfl | h
        · exact absurd ht hp
        · exact .inr ⟨h, ht⟩

/-- **C144, programs refused.** Without headers, without a header that tells the base address, without a header for the
linker's name, or with one that is not writable, each of its own message. -/
theorem interp_refused (w : Nat → Bool) (m : Mem) (path : List Nat) :
    fixInterp w m none path = .die .noPhdrs ∧
    (∀ at_ ps, (∀ p ∈ ps, p.type ≠ .phdr) → fixInterp w m (some (at_, ps)) path = .die .noBase) ∧
    (∀ base at_ ps, Loaded base at_ ps → (∀ p ∈ ps, p.type ≠ .interp) →
      fixInterp w m (some (at_, ps)) path = .die .noInterp) ∧
    (∀ base at_ ps, Loaded base at_ ps → (∃ p ∈ ps, p.type = .interp ∧ p.writable = false) →
      fixInterp w m (some (at_, ps)) path = .die .notWritable) := by
  refine ⟨rfl, fun at_ ps h => ?_, fun base at_ ps ⟨hb, he, ha⟩ h => ?_, fun base at_ ps ⟨hb, he, ha⟩ h => ?_⟩
  · simp only [fixInterp, baseOf_none at_ ps none h]
  · simp only [fixInterp, baseOf_some base at_ hb ps none ha (.inr he), interpOf_none base ps none h]
  · simp only [fixInterp, baseOf_some base at_ hb ps none ha (.inr he), interpOf_ro base ps none h]

/-- **C144, the name of the linker.** In a program loaded at `base`, with one header for the linker's name, that is writable: if
there is no room for the system linker's path and its end mark, the program ends; else, if memory there may be written to, the
string found at the header's address is the path, and no other byte is changed. -/
theorem interp_exact (w : Nat → Bool) (m : Mem) (path : List Nat) (base at_ : Nat) (ps : List Phdr) (q : Phdr)
    (hl : Loaded base at_ ps) (hq : q ∈ ps) (ht : q.type = .interp) (hu : ∀ p ∈ ps, p.type = .interp → p = q)
    (hw : q.writable = true) (h0 : (base + q.vaddr) % W ≠ 0) :
    (q.filesz ≤ path.length → fixInterp w m (some (at_, ps)) path = .die .noSpace) ∧
    (path.length < q.filesz → (∃ i ≤ path.length, w ((base + q.vaddr) % W + i) = false) →
      fixInterp w m (some (at_, ps)) path = .fault) ∧
    (path.length < q.filesz → (∀ i ≤ path.length, w ((base + q.vaddr) % W + i) = true) →
      ∃ m', fixInterp w m (some (at_, ps)) path = .ok m' ∧ CStr m' ((base + q.vaddr) % W) path ∧
        ∀ x, x < (base + q.vaddr) % W ∨ (base + q.vaddr) % W + path.length < x → m' x = m x) := by
  obtain ⟨hb, he, ha⟩ := hl
  have e1 := baseOf_some base at_ hb ps none ha (.inr he)
  have e2 := interpOf_some base q hw ps none hu (.inr ⟨hq, ht⟩)
  refine ⟨fun h => ?_, fun h hn => ?_, fun h hy => ?_⟩
  · simp only [fixInterp, e1, e2]
    rw [if_neg h0, if_pos (by omega)]
  · simp only [fixInterp, e1, e2]
    rw [if_neg h0, if_neg (by omega), if_neg]
    intro hm
    obtain ⟨i, hi, hf⟩ := hn
    rw [(mayPut_iff w _ _).1 hm i (by omega)] at hf
    exact absurd hf (by decide)
  · refine ⟨put m ((base + q.vaddr) % W) (path ++ [0]), ?_, ⟨fun i hi => ?_, ?_⟩, fun x hx => ?_⟩
    · simp only [fixInterp, e1, e2]
      rw [if_neg h0, if_neg (by omega), if_pos ((mayPut_iff w _ _).2 (fun i hi => hy i (by omega)))]
    · rw [put_inside _ _ _ i (by simp; omega), List.getElem_append_left hi]
    · rw [put_inside _ _ _ path.length (by simp)]; simp
    · exact put_outside _ _ _ _ (by simp; omega)

/-- **C144, the section made for it.** With the contents of tools/interp-pad.S, the kernel finds allocsld's name and the
zero byte that it wants at the section's end, there is always room for the system linker's path, and after the change that path is found; nothing beyond the section is written to. -/
theorem padded (w : Nat → Bool) (m : Mem) (pre path : List Nat) (base at_ : Nat) (ps : List Phdr) (q : Phdr)
    (hl : Loaded base at_ ps) (hq : q ∈ ps) (ht : q.type = .interp) (hu : ∀ p ∈ ps, p.type = .interp → p = q)
    (hw : q.writable = true) (h0 : (base + q.vaddr) % W ≠ 0) (hs : q.filesz = (interpPad pre path).length)
    (hm : ∀ i (h : i < (interpPad pre path).length), m ((base + q.vaddr) % W + i) = (interpPad pre path)[i])
    (hy : ∀ i < q.filesz, w ((base + q.vaddr) % W + i) = true) :
    CStr m ((base + q.vaddr) % W) pre ∧ m ((base + q.vaddr) % W + (q.filesz - 1)) = 0 ∧
    ∃ m', fixInterp w m (some (at_, ps)) path = .ok m' ∧ CStr m' ((base + q.vaddr) % W) path ∧
      ∀ x, x < (base + q.vaddr) % W ∨ (base + q.vaddr) % W + q.filesz ≤ x → m' x = m x := by
  have hlen : (interpPad pre path).length = pre.length + path.length + 2 := by simp [interpPad]; omega
  refine ⟨⟨fun i hi => ?_, ?_⟩, ?_, ?_⟩
  · rw [hm i (by omega)]
    simp only [interpPad, List.append_assoc]
    rw [List.getElem_append_left hi]
  · rw [hm pre.length (by omega)]
    simp [interpPad]
  · rw [hm (q.filesz - 1) (by omega)]
    have : (interpPad pre path)[q.filesz - 1]? = some 0 := by
      rw [hs]
      simp only [interpPad]
      rw [List.length_append, List.length_singleton, Nat.add_sub_cancel, List.getElem?_append_right (Nat.le_refl _)]
      simp
    rw [List.getElem?_eq_getElem (by omega)] at this
    exact Option.some.inj this
  · obtain ⟨m', e, hc, ho⟩ := (interp_exact w m path base at_ ps q hl hq ht hu hw h0).2.2 (by omega)
      (fun i hi => hy i (by omega))
    exact ⟨m', e, hc, fun x hx => ho x (by omega)⟩

/-- **C144, started as a program.** The linker's own name is changed, the program's arguments are not. -/
theorem argv_exact (a0 path : List Nat) (l : List (List Nat)) : fixArgv (a0 :: l) path = some (path :: l) := rfl

/-- **C144, started with no arguments at all** there is no `argv[0]` to be changed. -/
theorem argv_empty_fails (path : List Nat) : fixArgv [] path = none := rfl

theorem rd_jump (m : Mem) (f ours : Nat) (h : ours < W) : rd (put m f (jumpBytes ours)) (f + 2) 8 = ours := by
  have g : ∀ i (hi : i < 12), put m f (jumpBytes ours) (f + i) = (jumpBytes ours)[i]'(by simpa [jumpBytes] using hi) :=
    fun i hi => put_inside _ _ _ _ _
  simp only [rd]
  rw [g 2 (by omega), show f + 2 + 1 = f + 3 by omega, g 3 (by omega), show f + 3 + 1 = f + 4 by omega, g 4 (by omega),
    show f + 4 + 1 = f + 5 by omega, g 5 (by omega), show f + 5 + 1 = f + 6 by omega, g 6 (by omega),
    show f + 6 + 1 = f + 7 by omega, g 7 (by omega), show f + 7 + 1 = f + 8 by omega, g 8 (by omega),
    show f + 8 + 1 = f + 9 by omega, g 9 (by omega)]
  simp only [jumpBytes, List.getElem_cons_succ, List.getElem_cons_zero]
  simp only [W] at h
  omega

theorem landing_put (m : Mem) (f ours : Nat) (h : ours < W) : landing (put m f (jumpBytes ours)) f = some ours := by
  have g : ∀ i (hi : i < 12), put m f (jumpBytes ours) (f + i) = (jumpBytes ours)[i]'(by simpa [jumpBytes] using hi) :=
    fun i hi => put_inside _ _ _ _ _
  have g0 := g 0 (by omega)
  rw [Nat.add_zero] at g0
  rw [landing, if_pos, rd_jump m f ours h]
  rw [g0, g 1 (by omega), g 10 (by omega), g 11 (by omega)]
  exact ⟨rfl, rfl, rfl, rfl⟩

/-- **C144, the debugger's function (partial).** If the linker has both symbols, and its function does not begin within the last
eleven bytes of a page, then calling it leads to allocsld's function; no byte outside the twelve from its beginning is changed;
its page is not writable afterwards, and other pages are as before. Missing: that what follows the function within the twelve
bytes is kept (`near_fails`), functions at the end of a page (`page_fails`), and linkers without `_r_debug`
(`no_r_debug_fails`). -/
theorem chain_partial (w : Nat → Bool) (m : Mem) (base r v ours : Nat) (hp : (base + v) % W % 4096 ≤ 4084) (ho : ours < W) :
    ∃ m' w', chainHook w m base (some r) (some v) ours = .ok (m', w') ∧ landing m' ((base + v) % W) = some ours ∧
      (∀ x, x < (base + v) % W ∨ (base + v) % W + 12 ≤ x → m' x = m x) ∧
      (∀ x, x / 4096 = (base + v) % W / 4096 → w' x = false) ∧ (∀ x, x / 4096 ≠ (base + v) % W / 4096 → w' x = w x) := by
  refine ⟨put m ((base + v) % W) (jumpBytes ours), protect w (((base + v) % W) / 4096 * 4096) false, ?_, landing_put m _ ours ho,
    fun x hx => put_outside _ _ _ _ (by simpa [jumpBytes] using hx), fun x hx => ?_, fun x hx => ?_⟩
  · simp only [chainHook]
    rw [if_pos]
    rw [mayPut_iff]
    intro i hi
    rw [protect, if_pos]
    omega
  · rw [protect, if_pos (by rw [hx])]
  · rw [protect, if_neg (by omega)]

/-- **C144, a linker without the function** is refused. -/
theorem no_hook (w : Nat → Bool) (m : Mem) (base r ours : Nat) : chainHook w m base (some r) none ours = .die .noHook := rfl

/-- **C144, what follows the function.** A function of one byte (`ret`, as in glibc) followed by another within twelve bytes: the
first bytes of the other one are those of the jump. -/
theorem near_fails (w : Nat → Bool) (m : Mem) (base r v ours k : Nat) (hp : (base + v) % W % 4096 ≤ 4084)
    (hk : k = 1 ∨ k = 10 ∨ k = 11) (hm : m ((base + v) % W + k) = 0x55) :
    ∃ m' w', chainHook w m base (some r) (some v) ours = .ok (m', w') ∧ m' ((base + v) % W + k) ≠ m ((base + v) % W + k) := by
  refine ⟨put m ((base + v) % W) (jumpBytes ours), protect w (((base + v) % W) / 4096 * 4096) false, ?_, ?_⟩
  · simp only [chainHook]
    rw [if_pos]
    rw [mayPut_iff]
    intro i hi
    rw [protect, if_pos]
    omega
  · rw [hm]
    rcases hk with rfl | rfl | rfl
    all_goals
      rw [put_inside _ _ _ _ (by simp [jumpBytes])]
      simp [jumpBytes]

/-- **C144, the end of a page.** A function that begins within the last eleven bytes of a page, the next page being code that may
not be written to: only the function's own page is made writable, and the copy faults. -/
theorem page_fails (w : Nat → Bool) (m : Mem) (base r v ours : Nat) (hp : 4084 < (base + v) % W % 4096)
    (hn : ∀ x, x / 4096 = (base + v) % W / 4096 + 1 → w x = false) :
    chainHook w m base (some r) (some v) ours = .fault := by
  simp only [chainHook]
  rw [if_neg]
  rw [mayPut_iff]
  intro h
  have := h 11 (by omega)
  rw [protect, if_neg (by omega), hn _ (by omega)] at this
  exact absurd this (by decide)

/-- **C144, a linker without `_r_debug`.** Its symbol is read without a check, though its address is not used. -/
theorem no_r_debug_fails (w : Nat → Bool) (m : Mem) (base v ours : Nat) : chainHook w m base none (some v) ours = .fault := rfl

/-! ## Concrete cases -/

def exPs : List Phdr := [⟨.phdr, 0x40, 0x1f8, false⟩, ⟨.interp, 0x3000, 7, true⟩, ⟨.other, 0, 0x800, false⟩]

/-- A position-independent program at `0x555500000000`: the first three bytes of the section are those of a path "/l". -/
example : ∃ m', fixInterp (fun _ => true) (fun _ => 0x41) (some (0x555500000040, exPs)) [47, 108] = .ok m' ∧
    m' 0x555500003000 = 47 ∧ m' 0x555500003001 = 108 ∧ m' 0x555500003002 = 0 ∧ m' 0x555500003003 = 0x41 := by
  refine ⟨put (fun _ => 0x41) 0x555500003000 [47, 108, 0], rfl, ?_⟩
  decide +kernel

example : Loaded 0x555500000000 0x555500000040 exPs := by
  refine ⟨by decide, ⟨_, List.mem_cons_self, rfl⟩, ?_⟩
  decide +kernel

example : fixInterp (fun _ => true) (fun _ => 0x41) (some (0x555500000040, exPs)) [1, 2, 3, 4, 5, 6, 7] = .die .noSpace := rfl

example : landing (put (fun _ => 0x90) 0x7f0000001000 (jumpBytes 0x7e12345678)) 0x7f0000001000 = some 0x7e12345678 := by
  decide +kernel

end Liballocs.ChainLd
