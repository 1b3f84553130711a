import Verif.Model.BuildSteps

/-!
# Steps of a build: properties
-/

namespace Liballocs.BuildSteps

open CcArgs (W)

/-! ## What is expected -/

/-- A program that is linked dynamically. -/
def Dynamic (e : Env) : Prop := e.static = false ∧ e.shared = false

/-- A build that is asked to use the library itself, not a preloaded one. -/
def Direct (e : Env) : Prop := e.preload = some ['n', 'o']

/-! ## Lemmas -/

theorem noPreload_iff (e : Env) : noPreload e = true ↔ Direct e := by
  unfold noPreload Direct
  exact beq_iff_eq

theorem linkArgs_none (e : Env) : linkArgs e = none ↔ e.shared = true ∧ Direct e := by
  rw [← noPreload_iff]
  unfold linkArgs
  cases e.static <;> cases e.shared <;> cases noPreload e <;> simp

theorem cstr_spec (p t : W) (h : Char.ofNat 0 ∉ p) : cstr (p ++ Char.ofNat 0 :: t) = p := by
  induction p with
  | nil => rfl
  | cons ch p ih =>
    have h1 : ch ≠ Char.ofNat 0 := fun he => h (by rw [he]; exact List.mem_cons_self ..)
    show (if ch = Char.ofNat 0 then [] else ch :: cstr (p ++ Char.ofNat 0 :: t)) = _
    rw [if_neg h1, ih fun hm => h (List.mem_cons_of_mem _ hm)]

/-- The commands, and the end, of a build. -/
theorem main_eq (e : Env) (l r : List W) (h : linkArgs e = some (l, r)) (h1 : e.first = 0) :
    ∃ cs, (main e).1 = [.first, .used, .usedCc, .final ([w! "-Wl,--export-dynamic"] ++ l ++ (if e.relocs then [] else [w! "-Wl,-q"]))
        (r ++ [e.out ++ w! ".usedtypes.o", e.base ++ w! "/tools/libroottypes.a"])] ++ cs ∧
      ((e.final ≠ 0 ∧ cs = [] ∧ (main e).2 = .status e.final) ∨ (e.final = 0 ∧ cs = (post e).1 ∧ (main e).2 = .status (post e).2)) := by
  unfold main
  rw [h]
  dsimp only
  rw [if_neg (by simpa using h1)]
  by_cases h2 : e.final = 0
  · rw [if_neg (by simpa using h2)]
    exact ⟨_, rfl, Or.inr ⟨h2, rfl, rfl⟩⟩
  · rw [if_pos h2]
    exact ⟨[], by simp, Or.inl ⟨h2, rfl, rfl⟩⟩

theorem final_mem (e : Env) (l r : List W) (h : Cmd.final l r ∈ (main e).1) :
    ∃ l0 r0, linkArgs e = some (l0, r0) ∧ l = [w! "-Wl,--export-dynamic"] ++ l0 ++ (if e.relocs then [] else [w! "-Wl,-q"]) ∧
      r = r0 ++ [e.out ++ w! ".usedtypes.o", e.base ++ w! "/tools/libroottypes.a"] := by
  cases hl : linkArgs e with
  | none => unfold main at h; rw [hl] at h; cases h
  | some lr =>
    obtain ⟨l0, r0⟩ := lr
    by_cases h1 : e.first = 0
    · obtain ⟨cs, h2, h3⟩ := main_eq e l0 r0 hl h1
      rw [h2] at h
      have hcs : Cmd.final l r ∉ cs := by
        rcases h3 with ⟨_, h3, _⟩ | ⟨_, h3, _⟩ <;> rw [h3]
        · simp
        · unfold post
          split <;> simp
      rcases List.mem_append.mp h with h | h
      · simp only [List.mem_cons, reduceCtorEq, List.not_mem_nil, or_false, false_or, Cmd.final.injEq] at h
        exact ⟨l0, r0, rfl, h.1, h.2⟩
      · exact absurd h hcs
    · unfold main at h
      rw [hl] at h
      dsimp only at h
      rw [if_pos h1] at h
      simp at h

/-! ## Theorems -/

/-- The build succeeds just if both links succeed, the output exists, its metadata could be made, and it is not a shared library that is to use
the library itself. -/
theorem status_iff (e : Env) :
    (main e).2 = .status 0 ↔ ¬ (e.shared = true ∧ Direct e) ∧ e.first = 0 ∧ e.final = 0 ∧ e.exist = true ∧ e.make = 0 := by
  rw [← linkArgs_none]
  cases hl : linkArgs e with
  | none =>
    unfold main
    rw [hl]
    simp
  | some lr =>
    obtain ⟨l, r⟩ := lr
    by_cases h1 : e.first = 0
    · obtain ⟨cs, _, h3⟩ := main_eq e l r hl h1
      rcases h3 with ⟨h4, _, h5⟩ | ⟨h4, _, h5⟩ <;> rw [h5]
      · simp [h4]
      · unfold post
        cases e.exist <;> simp [h1, h4]
    · unfold main
      rw [hl]
      dsimp only
      rw [if_pos h1]
      simp [h1]

/-- A link that fails ends the build with its status, and nothing is run after it. -/
theorem fails_at_once (e : Env) (h : ¬ (e.shared = true ∧ Direct e)) :
    (e.first ≠ 0 → main e = ([.first], .status e.first)) ∧
    (e.first = 0 → e.final ≠ 0 → (main e).2 = .status e.final ∧ Cmd.make ∉ (main e).1) := by
  rw [← linkArgs_none] at h
  cases hl : linkArgs e with
  | none => exact absurd hl h
  | some lr =>
    obtain ⟨l, r⟩ := lr
    refine ⟨fun h1 => ?_, fun h1 h2 => ?_⟩
    · unfold main
      rw [hl]
      dsimp only
      rw [if_pos h1]
    · obtain ⟨cs, h0, h3⟩ := main_eq e l r hl h1
      rcases h3 with ⟨_, h4, h5⟩ | ⟨h4, _⟩
      · refine ⟨h5, ?_⟩
        rw [h0, h4]
        simp
      · exact absurd h4 h2

/-- The final link is run after a first link that succeeds. -/
theorem final_run (e : Env) (h : ¬ (e.shared = true ∧ Direct e)) (h1 : e.first = 0) : ∃ l r, Cmd.final l r ∈ (main e).1 := by
  rw [← linkArgs_none] at h
  cases hl : linkArgs e with
  | none => exact absurd hl h
  | some lr =>
    obtain ⟨cs, h0, _⟩ := main_eq e lr.1 lr.2 hl h1
    rw [h0]
    exact ⟨_, _, List.mem_append_left _ (List.mem_cons_of_mem _ (List.mem_cons_of_mem _ (List.mem_cons_of_mem _ (List.mem_cons_self ..))))⟩

theorem path_option (b t q : W) (hb : b.head? ≠ some '-') (ht : t.head? = some '/') : b ++ t ≠ '-' :: q := by
  intro h
  cases b with
  | nil =>
    rw [List.nil_append] at h
    rw [h] at ht
    simp at ht
  | cons a b =>
    rw [List.cons_append, List.cons.injEq] at h
    exact hb (by rw [h.1]; rfl)

/-- A program that is linked dynamically names just the dynamic linker that interp-pad.o has as its first string, is linked with interp-pad.o,
and finds the library at run time where it was at link time. -/
theorem loader (e : Env) (p t : W) (hd : Dynamic e) (hp : e.pad = p ++ Char.ofNat 0 :: t) (h0 : Char.ofNat 0 ∉ p)
    (hb : e.base.head? ≠ some '-') (l r : List W) (h : Cmd.final l r ∈ (main e).1) :
    w! "-Wl,--dynamic-linker," ++ p ∈ l ∧ e.base ++ w! "/lib/interp-pad.o" ∈ l ∧ w! "-Wl,-rpath," ++ (e.base ++ w! "/lib") ∈ l ∧
    w! "-L" ++ (e.base ++ w! "/lib") ∈ l ∧
    ∀ q, w! "-Wl,--dynamic-linker," ++ q ∈ l → q = p := by
  obtain ⟨l0, r0, h1, h2, _⟩ := final_mem e l r h
  unfold linkArgs at h1
  rw [hd.1, hd.2, hp, cstr_spec p t h0] at h1
  simp only [Bool.not_false, Bool.and_self, if_true] at h1
  cases h1
  subst h2
  refine ⟨by simp, by simp [libDir], by simp [libDir], by simp [libDir], ?_⟩
  intro q hq
  simp only [List.mem_append, List.mem_cons, List.not_mem_nil, or_false] at hq
  rcases hq with (hq | hq | hq | hq | hq) | hq
  · simp at hq
  · simp at hq
  · exact List.append_cancel_left hq
  · unfold libDir at hq
    rw [List.append_assoc] at hq
    exact absurd hq.symm (path_option _ _ _ hb rfl)
  · simp at hq
  · split at hq <;> simp at hq

/-- Other outputs name no dynamic linker, and are not linked with interp-pad.o. -/
theorem loader_none (e : Env) (hd : ¬ Dynamic e) (l r : List W) (h : Cmd.final l r ∈ (main e).1) :
    (∀ q, w! "-Wl,--dynamic-linker," ++ q ∉ l) ∧ (e.base.head? ≠ some '-' → e.base ++ w! "/lib/interp-pad.o" ∉ l) := by
  obtain ⟨l0, r0, h1, h2, h3⟩ := final_mem e l r h
  have hk : l0 = [w! "-L" ++ libDir e] := by
    unfold linkArgs at h1
    rw [if_neg (by unfold Dynamic at hd; cases hs : e.static <;> cases hh : e.shared <;> simp [hs, hh] at hd ⊢)] at h1
    split at h1
    · split at h1
      · cases h1
      · cases h1; rfl
    · cases h1; rfl
  subst hk
  subst h2
  refine ⟨fun q hq => ?_, fun hb hq => ?_⟩
  · simp only [List.mem_append, List.mem_cons, List.not_mem_nil, or_false] at hq
    rcases hq with (hq | hq) | hq
    · simp at hq
    · simp at hq
    · split at hq <;> simp at hq
  · simp only [List.mem_append, List.mem_cons, List.not_mem_nil, or_false] at hq
    rcases hq with (hq | hq) | hq
    · exact path_option _ _ _ hb rfl hq
    · exact path_option _ _ _ hb rfl hq
    · split at hq
      · cases hq
      · exact path_option _ _ _ hb rfl (List.mem_singleton.mp hq)

/-- The end of what is added is the object that has the used types, and the library of types of the root. -/
theorem used_last (e : Env) (l r : List W) (h : Cmd.final l r ∈ (main e).1) :
    [e.out ++ w! ".usedtypes.o", e.base ++ w! "/tools/libroottypes.a"] <:+ r := by
  obtain ⟨_, r0, _, _, h3⟩ := final_mem e l r h
  exact ⟨r0, h3.symm⟩

/-- How the library is linked: weak definitions that a preloaded library overrides, kept even if they are not needed; or, if asked for, the library
itself; and, for a program that is linked statically, the archive. -/
theorem library (e : Env) (l r : List W) (h : Cmd.final l r ∈ (main e).1) :
    (e.static = false ∨ e.shared = true → ¬ Direct e →
      [w! "-Wl,--push-state", w! "-Wl,--no-as-needed", w! "-lallocs_dummyweaks", w! "-Wl,--pop-state"] <+: r) ∧
    (Direct e → w! "-lallocs" ∈ r ∧ w! "-lallocs_dummyweaks" ∉ r.dropLast.dropLast) ∧
    (e.static = true → e.shared = false → ¬ Direct e → e.base ++ w! "/lib/liballocs.a" ∈ r) := by
  obtain ⟨l0, r0, h1, _, h3⟩ := final_mem e l r h
  rw [← noPreload_iff]
  have hr : r.dropLast.dropLast = r0 := by
    rw [h3, List.append_cons, List.dropLast_concat, List.dropLast_concat]
  rw [hr]
  subst h3
  unfold linkArgs at h1
  cases hs : e.static <;> cases hh : e.shared <;> cases hn : noPreload e <;> rw [hs, hh, hn] at h1 <;> simp at h1 <;>
    obtain ⟨_, rfl⟩ := h1 <;> simp [dummyWeak, libDir]

/-- Relocation records that are kept for making metadata are never removed from the output: if they are not asked for then the final link is
told to keep them, and nothing removes them. -/
theorem relocs_never (e : Env) : Cmd.strip ∉ (main e).1 ∧
    (e.relocs = false → ∀ l r, Cmd.final l r ∈ (main e).1 → w! "-Wl,-q" ∈ l) := by
  constructor
  · cases hl : linkArgs e with
    | none => unfold main; rw [hl]; simp
    | some lr =>
      obtain ⟨l, r⟩ := lr
      by_cases h1 : e.first = 0
      · obtain ⟨cs, h0, h3⟩ := main_eq e l r hl h1
        rw [h0]
        rcases h3 with ⟨_, h4, _⟩ | ⟨_, h4, _⟩ <;> rw [h4]
        · simp
        · unfold post
          cases e.exist <;> simp
      · unfold main
        rw [hl]
        dsimp only
        rw [if_pos h1]
        simp
  · intro hr l r h
    obtain ⟨l0, r0, _, h2, _⟩ := final_mem e l r h
    rw [h2, hr]
    simp

/-- A shared library that is to use the library itself cannot be built: the wrapper ends with an exception before anything is linked. -/
theorem shared_aborts (e : Env) (h1 : e.shared = true) (h2 : Direct e) : main e = ([], .raised) := by
  unfold main
  rw [(linkArgs_none e).mpr ⟨h1, h2⟩]

/-! ## Cases -/

/-- A program, all of whose commands succeed. -/
def E0 : Env where
  static := false
  shared := false
  preload := none
  base := w! "/la"
  pad := w! "/la/ld" ++ Char.ofNat 0 :: w! "/ld" ++ [Char.ofNat 0]
  out := w! "p"
  relocs := false
  first := 0
  used := 0
  usedCc := 0
  final := 0
  exist := true
  make := 0

/-- The commands of a build that succeeds. -/
theorem case_program : main E0 = ([.first, .used, .usedCc,
    .final [w! "-Wl,--export-dynamic", w! "-L/la/lib", w! "-Wl,--dynamic-linker,/la/ld", w! "/la/lib/interp-pad.o", w! "-Wl,-rpath,/la/lib", w! "-Wl,-q"]
      [w! "-Wl,--push-state", w! "-Wl,--no-as-needed", w! "-lallocs_dummyweaks", w! "-Wl,--pop-state", w! "-ldl", w! "p.usedtypes.o",
        w! "/la/tools/libroottypes.a"], .make], .status 0) := by
  decide +kernel

/-- A shared library, whose metadata cannot be made: the build fails, though the library is there. -/
theorem case_shared : main { E0 with shared := true, make := 2 } = ([.first, .used, .usedCc,
    .final [w! "-Wl,--export-dynamic", w! "-L/la/lib", w! "-Wl,-q"]
      [w! "-Wl,--push-state", w! "-Wl,--no-as-needed", w! "-lallocs_dummyweaks", w! "-Wl,--pop-state", w! "-ldl", w! "p.usedtypes.o",
        w! "/la/tools/libroottypes.a"], .make], .status 2) := by
  decide +kernel

/-- A program that is linked statically. -/
theorem case_static : main { E0 with static := true, relocs := true } = ([.first, .used, .usedCc,
    .final [w! "-Wl,--export-dynamic", w! "-L/la/lib"] [w! "/la/lib/liballocs.a", w! "-ldl", w! "p.usedtypes.o", w! "/la/tools/libroottypes.a"],
    .make], .status 0) := by
  decide +kernel

/-- Finding out which types are used fails, but the build does not. -/
theorem used_fails : (main { E0 with used := 134 }).2 = .status 0 := by
  decide +kernel

end Liballocs.BuildSteps
