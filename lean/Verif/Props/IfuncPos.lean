import Verif.Model.IfuncPos
/-!
# C180 A reference is bound to the real definition just when the library is loaded ahead of all others
-/
namespace Liballocs.IfuncPos

open CcArgs

/-! ## Specification -/

/-- The link map's entries are the executable, which has no name, the kernel's object, and then that of the path. -/
def Ahead (map : List Text) (path : Text) : Prop :=
  ∃ pre post, map = pre ++ path :: post ∧ (∀ n ∈ pre, n = [] ∨ n = w! "linux-vdso.so.1") ∧ path ≠ [] ∧ path ≠ w! "linux-vdso.so.1"

/-- The path is that of a file of the given name, in some directory. -/
def FileNamed (path name : Text) : Prop := '/' ∉ name ∧ (path = name ∨ ∃ dir, path = dir ++ ['/'] ++ name)

/-! ## Proofs -/

theorem basename_none : ∀ l : Text, '/' ∉ l → basename l = l
  | [], _ => rfl
  | c :: l, h => by rw [basename, if_neg h]

theorem basename_dir (name : Text) (h : '/' ∉ name) : ∀ dir : Text, basename (dir ++ ['/'] ++ name) = name
  | [] => by
    show basename ('/' :: name) = name
    rw [basename, if_pos List.mem_cons_self, basename_none name h]
  | c :: dir => by
    show basename (c :: (dir ++ ['/'] ++ name)) = name
    rw [basename, if_pos (by simp), basename_dir name h dir]

theorem basename_spec : ∀ l : Text, FileNamed l (basename l)
  | [] => ⟨by simp [basename], Or.inl rfl⟩
  | c :: l => by
    rw [basename]
    by_cases h : '/' ∈ c :: l
    · rw [if_pos h]
      obtain ⟨h1, h2⟩ := basename_spec l
      refine ⟨h1, Or.inr ?_⟩
      rcases h2 with h2 | ⟨dir, h2⟩
      · refine ⟨[], ?_⟩
        rw [← h2] at h1
        rcases List.mem_cons.mp h with h3 | h3
        · rw [← h3, ← h2]; rfl
        · exact absurd h3 h1
      · exact ⟨c :: dir, by rw [List.cons_append, List.cons_append, ← h2]⟩
    · rw [if_neg h]
      exact ⟨h, Or.inl rfl⟩

/-- The name of the file is what is compared. -/
theorem basename_iff (path name : Text) : basename path = name ↔ FileNamed path name := by
  constructor
  · rintro rfl; exact basename_spec path
  · rintro ⟨h, rfl | ⟨dir, rfl⟩⟩
    · exact basename_none _ h
    · exact basename_dir _ h dir

theorem skipped_iff (n : Text) : skipped n = true ↔ n = [] ∨ n = w! "linux-vdso.so.1" := by
  unfold skipped
  rw [Bool.or_eq_true, beq_iff_eq, beq_iff_eq]

theorem firstEntry_iff (path : Text) : ∀ map : List Text, firstEntry map = some path ↔ Ahead map path
  | [] => by
    refine ⟨fun h => (nomatch h), ?_⟩
    rintro ⟨pre, post, h, _⟩
    cases pre <;> simp at h
  | n :: l => by
    rw [firstEntry]
    by_cases h : skipped n = true
    · rw [if_pos h, firstEntry_iff path l]
      have hn := (skipped_iff n).mp h
      constructor
      · rintro ⟨pre, post, h1, h2, h3⟩
        exact ⟨n :: pre, post, by rw [h1]; rfl, by
          intro m hm
          rcases List.mem_cons.mp hm with rfl | hm
          · exact hn
          · exact h2 m hm, h3⟩
      · rintro ⟨pre, post, h1, h2, h3⟩
        cases pre with
        | nil =>
          simp only [List.nil_append, List.cons.injEq] at h1
          rw [h1.1] at hn
          rcases hn with hn | hn
          · exact absurd hn h3.1
          · exact absurd hn h3.2
        | cons p pre =>
          simp only [List.cons_append, List.cons.injEq] at h1
          exact ⟨pre, post, h1.2, fun m hm => h2 m (List.mem_cons_of_mem _ hm), h3⟩
    · rw [if_neg h]
      have hn : ¬ (n = [] ∨ n = w! "linux-vdso.so.1") := fun x => h ((skipped_iff n).mpr x)
      constructor
      · intro e
        rw [← Option.some.inj e]
        exact ⟨[], l, rfl, by simp, fun x => hn (Or.inl x), fun x => hn (Or.inr x)⟩
      · rintro ⟨pre, post, h1, h2, h3⟩
        cases pre with
        | nil =>
          simp only [List.nil_append, List.cons.injEq] at h1
          rw [h1.1]
        | cons p pre =>
          simp only [List.cons_append, List.cons.injEq] at h1
          exact absurd (h2 n (by rw [h1.1]; exact List.mem_cons_self)) hn

/-- The link map has entries for nothing but the executable and the kernel's object just when nothing is ahead. -/
theorem firstEntry_none (map : List Text) : firstEntry map = none ↔ ∀ n ∈ map, n = [] ∨ n = w! "linux-vdso.so.1" := by
  induction map with
  | nil => simp [firstEntry]
  | cons n l ih =>
    rw [firstEntry]
    by_cases h : skipped n = true
    · rw [if_pos h, ih]
      have hn := (skipped_iff n).mp h
      constructor
      · intro h1 m hm
        rcases List.mem_cons.mp hm with rfl | hm
        · exact hn
        · exact h1 m hm
      · exact fun h1 m hm => h1 m (List.mem_cons_of_mem _ hm)
    · rw [if_neg h]
      exact ⟨fun x => (nomatch x), fun x => absurd ((skipped_iff n).mpr (x n List.mem_cons_self)) h⟩

/-- Of a process that has bound nothing yet. -/
def start : Memo := ⟨false, false⟩

/-- C180, partly: the first reference is bound to the real definition just when a file of the library's name is ahead of all
others. What is missing: that this file is the library, or that the library has that name; see `name_fails`, `other_fails`. -/
theorem resolve_partial {map : List Text} {path : Text} (h : Ahead map path) :
    ∃ m d, resolve start map = some (m, d) ∧ m = ⟨true, decide (d = .preload)⟩ ∧ (d = .preload ↔ FileNamed path (w! "liballocs_preload.so")) := by
  have h1 := (firstEntry_iff path map).mpr h
  have h2 := basename_iff path soname
  unfold resolve check
  rw [h1]
  by_cases hb : basename path = soname
  · refine ⟨_, .preload, ?_, rfl, fun _ => h2.mp hb, fun _ => rfl⟩
    simp [start, hb]
  · refine ⟨_, .nopreload, ?_, rfl, fun x => (nomatch x), fun x => absurd (h2.mpr x) hb⟩
    simp [start, hb]

/-- If there is nothing but the executable and the kernel's object, the process ends. -/
theorem alone_aborts {map : List Text} (h : ∀ n ∈ map, n = [] ∨ n = w! "linux-vdso.so.1") : resolve start map = none := by
  unfold resolve check
  rw [(firstEntry_none map).mpr h]
  rfl

theorem bindAll_checked (b : Bool) : ∀ l : List (List Text), bindAll ⟨true, b⟩ l = some (List.replicate l.length (if b then .preload else .nopreload))
  | [] => rfl
  | map :: l => by
    have : resolve ⟨true, b⟩ map = some (⟨true, b⟩, if b then .preload else .nopreload) := by simp [resolve, check]
    rw [bindAll, this]
    simp only [bindAll_checked b l, Option.map_some, List.length_cons, List.replicate_succ]

/-- All references are bound to the same definition, whatever is loaded or unloaded in between. -/
theorem bound_alike {map : List Text} {path : Text} (h : Ahead map path) (l : List (List Text)) :
    ∃ d, bindAll start (map :: l) = some (List.replicate (l.length + 1) d) ∧ (d = .preload ↔ FileNamed path (w! "liballocs_preload.so")) := by
  obtain ⟨m, d, h1, h2, h3⟩ := resolve_partial h
  refine ⟨d, ?_, h3⟩
  rw [bindAll, h1]
  simp only [h2, bindAll_checked, Option.map_some, List.replicate_succ]
  cases d <;> simp

/-- The library under any other name, be it ahead of all others, is not taken for the library. -/
theorem renamed_never {map : List Text} {path : Text} (h : Ahead map path) (hn : ¬ FileNamed path (w! "liballocs_preload.so")) (l : List (List Text)) :
    bindAll start (map :: l) = some (List.replicate (l.length + 1) .nopreload) := by
  obtain ⟨d, h1, h2⟩ := bound_alike h l
  cases d with
  | nopreload => exact h1
  | preload => exact absurd (h2.mp rfl) hn

/-! ## Cases -/

/-- Preloaded, and linked. -/
theorem case_bound : bindAll start [[[], w! "linux-vdso.so.1", w! "/usr/lib/liballocs_preload.so", w! "/lib/libc.so.6"], []] = some [.preload, .preload] ∧
    bindAll start [[[], w! "linux-vdso.so.1", w! "/lib/libm.so.6", w! "/usr/lib/liballocs_preload.so", w! "/lib/libc.so.6"]] = some [.nopreload] := by
  decide +kernel

/-- The library is ahead of all others under the name that a symbolic link to it has. -/
theorem name_fails : bindAll start [[[], w! "linux-vdso.so.1", w! "/usr/lib/liballocs.so", w! "/lib/libc.so.6"]] = some [.nopreload] := by decide +kernel

/-- A file of the same name that is ahead of the library is taken for it. -/
theorem other_fails : bindAll start [[[], w! "/tmp/liballocs_preload.so", w! "/lib/libc.so.6", w! "/usr/lib/liballocs_preload.so"]] = some [.preload] := by
  decide +kernel

/-- On systems where the kernel's object has another name, the library is never ahead. -/
theorem kernel_fails : bindAll start [[[], w! "linux-gate.so.1", w! "/usr/lib/liballocs_preload.so", w! "/lib/libc.so.6"]] = some [.nopreload] := by decide +kernel

end Liballocs.IfuncPos
