import Verif.Model.CuFiles
import Verif.Model.CcArgs
/-! # C185: The source files of a binary -/
namespace Liballocs.CuFiles

open CcArgs

/-! ## Which files -/

theorem mem_fileLines {cu dir : Text} : ∀ {files : List Text} {i : Nat} {x : Line}, x ∈ fileLines cu dir i files ↔
    x.cu = cu ∧ x.path = sourcePath dir x.file ∧ i ≤ x.num ∧ files[x.num - i]? = some x.file
  | [], i, x => by simp [fileLines]
  | f :: l, i, x => by
    rw [fileLines, List.mem_cons, mem_fileLines (files := l)]
    constructor
    · rintro (rfl | ⟨h1, h2, h3, h4⟩)
      · simp
      · refine ⟨h1, h2, by omega, ?_⟩
        rw [show x.num - i = (x.num - (i + 1)) + 1 by omega, List.getElem?_cons_succ]
        exact h4
    · rintro ⟨h1, h2, h3, h4⟩
      by_cases e : x.num = i
      · left
        rw [e, Nat.sub_self, List.getElem?_cons_zero] at h4
        cases x
        simp_all
      · right
        rw [show x.num - i = (x.num - (i + 1)) + 1 by omega, List.getElem?_cons_succ] at h4
        exact ⟨h1, h2, by omega, h4⟩

theorem mem_lines : ∀ {cus : List Cu} {x : Line}, x ∈ lines cus ↔ ∃ c ∈ cus, x ∈ cuLines c
  | [], x => by simp [lines]
  | c :: l, x => by rw [lines, List.mem_append, mem_lines (cus := l)]; simp

/-- What is listed: the source files of the units that have a name and a directory, each by its number in its unit. -/
theorem listed_iff (cus : List Cu) (n f : Text) (k : Nat) :
    (∃ p, (⟨n, k, f, p⟩ : Line) ∈ lines cus) ↔ ∃ c ∈ cus, c.name = some n ∧ c.dir ≠ none ∧ 1 ≤ k ∧ c.files[k - 1]? = some f := by
  constructor
  · rintro ⟨p, h⟩
    obtain ⟨c, hc, h1⟩ := mem_lines.1 h
    unfold cuLines at h1
    split at h1
    · rename_i m d e1 e2
      obtain ⟨g1, _, g3, g4⟩ := mem_fileLines.1 h1
      exact ⟨c, hc, by rw [e1]; exact congrArg some g1.symm, by rw [e2]; simp, g3, g4⟩
    · exact absurd h1 List.not_mem_nil
  · rintro ⟨c, hc, h1, h2, h3, h4⟩
    cases hd : c.dir with
    | none => exact absurd hd h2
    | some d =>
      refine ⟨sourcePath d f, mem_lines.2 ⟨c, hc, ?_⟩⟩
      simp only [cuLines, h1, hd]
      exact mem_fileLines.2 ⟨rfl, rfl, h3, h4⟩

theorem fileLines_length (cu dir : Text) : ∀ (i : Nat) (files : List Text), (fileLines cu dir i files).length = files.length
  | _, [] => rfl
  | i, _ :: l => by rw [fileLines, List.length_cons, fileLines_length cu dir (i + 1) l, List.length_cons]

/-- If every unit has a name and a directory, there are as many lines as the units have source files. Missing: other units (`nodir_never`). -/
theorem count_partial : ∀ (cus : List Cu), (∀ c ∈ cus, c.name ≠ none ∧ c.dir ≠ none) → (lines cus).length = (cus.map (fun c => c.files.length)).sum
  | [], _ => rfl
  | c :: l, h => by
    obtain ⟨h1, h2⟩ := h c List.mem_cons_self
    rw [lines, List.length_append, count_partial l (fun x hx => h x (List.mem_cons_of_mem _ hx)), List.map_cons, List.sum_cons]
    congr 1
    cases hn : c.name with
    | none => exact absurd hn h1
    | some n =>
      cases hd : c.dir with
      | none => exact absurd hd h2
      | some d => simp only [cuLines, hn, hd]; exact fileLines_length n d 1 c.files

/-- **Fails** for a unit without a directory: none of its files are listed, though their names may be absolute. -/
theorem nodir_never (c : Cu) (h : c.dir = none) : lines [c] = [] := by
  simp [lines, cuLines, h]

/-! ## Where they are -/

/-- The components of a path; the second argument has what has been read of one. -/
def comps : Text → Text → List Text
  | [], cur => if cur = [] then [] else [cur]
  | ch :: l, cur => if ch = '/' then (if cur = [] then [] else [cur]) ++ comps l [] else comps l (cur ++ [ch])

theorem comps_append (b : Text) : ∀ (a cur : Text), comps (a ++ '/' :: b) cur = comps a cur ++ comps b []
  | [], cur => by simp [comps]
  | ch :: a, cur => by
    rw [List.cons_append, comps, comps, comps_append b a [], comps_append b a (cur ++ [ch])]
    split
    · rw [List.append_assoc]
    · rfl

/-- The steps from a directory on; `look` says what an entry of a directory is, `.` and `..` and links among them. -/
def steps {N : Type} (look : N → Text → Option N) : N → List Text → Option N
  | x, [] => some x
  | x, t :: l => (look x t).bind (fun y => steps look y l)

theorem steps_append {N : Type} (look : N → Text → Option N) : ∀ (l m : List Text) (x : N), steps look x (l ++ m) = (steps look x l).bind (fun y => steps look y m)
  | [], _, _ => rfl
  | t :: l, m, x => by
    rw [List.cons_append, steps, steps]
    cases look x t with
    | none => rfl
    | some y => simp only [Option.bind_some]; exact steps_append look l m y

/-- The file that a path is, for a process in a directory: from the root if the path starts with a slash; none for the empty path. -/
def opened {N : Type} (look : N → Text → Option N) (root cwd : N) (p : Text) : Option N :=
  match p with
  | [] => none
  | ch :: _ => steps look (if ch = '/' then root else cwd) (comps p [])

theorem opened_under {N : Type} (look : N → Text → Option N) {root cwd dn : N} {dir f : Text} (hd : opened look root cwd dir = some dn) :
    opened look root cwd (sourcePath dir f) = opened look root (if f.head? = some '/' then cwd else dn) f := by
  cases f with
  | nil => rfl
  | cons ch l =>
    by_cases hc : ch = '/'
    · subst hc; simp [sourcePath]
    · cases dir with
      | nil => cases hd
      | cons a d =>
        have e : comps ((a :: d) ++ '/' :: ch :: l) [] = comps (a :: d) [] ++ comps (ch :: l) [] := comps_append _ _ _
        have hd' : steps look (if a = '/' then root else cwd) (comps (a :: d) []) = some dn := hd
        have g : opened look root cwd ((a :: d) ++ '/' :: ch :: l) = steps look (if a = '/' then root else cwd) (comps ((a :: d) ++ '/' :: ch :: l) []) := rfl
        have g2 : opened look root (if (ch :: l).head? = some '/' then cwd else dn) (ch :: l) = steps look dn (comps (ch :: l) []) := by
          simp [opened, hc]
        rw [g2, show sourcePath (a :: d) (ch :: l) = (a :: d) ++ '/' :: ch :: l by simp [sourcePath, hc], g, e, steps_append, hd', Option.bind_some]

/-- The path that is listed is, wherever one is, the file that the source file's name was for the compiler, which was in the unit's directory. Missing: directories
that are not absolute (`relative_fails`, `emptydir_never`). -/
theorem path_partial {N : Type} (look : N → Text → Option N) {root dn : N} {d : Text} (hd : ∀ cwd, opened look root cwd ('/' :: d) = some dn) (f : Text) (cwd : N) :
    opened look root cwd (sourcePath ('/' :: d) f) = opened look root dn f := by
  rw [opened_under look (hd cwd)]
  cases f with
  | nil => rfl
  | cons ch l =>
    by_cases hc : ch = '/'
    · subst hc; simp [opened]
    · simp [hc]

/-- So it is for every line of a unit whose directory is absolute. -/
theorem lines_partial {N : Type} (look : N → Text → Option N) {root dn : N} {c : Cu} {d : Text} (hc : c.dir = some ('/' :: d))
    (hd : ∀ cwd, opened look root cwd ('/' :: d) = some dn) {x : Line} (hx : x ∈ lines [c]) (cwd : N) :
    opened look root cwd x.path = opened look root dn x.file := by
  obtain ⟨c', hc', h1⟩ := mem_lines.1 hx
  rw [List.mem_singleton] at hc'
  subst hc'
  unfold cuLines at h1
  split at h1
  · rename_i n e e1 e2
    rw [hc] at e2
    cases e2
    obtain ⟨_, g2, _, _⟩ := mem_fileLines.1 h1
    rw [g2]
    exact path_partial look hd _ cwd
  · exact absurd h1 List.not_mem_nil

/-- **Fails** when the directory is empty, as a compiler's option that maps directories to others can make it: a file's name is taken from the root. -/
theorem emptydir_never {N : Type} (look : N → Text → Option N) (root cwd : N) (f : Text) (h : f.head? ≠ some '/') :
    opened look root cwd (sourcePath [] f) = opened look root root f := by
  cases f with
  | nil => rfl
  | cons ch l =>
    have hc : ch ≠ '/' := fun e => h (by rw [e]; rfl)
    simp [sourcePath, opened, hc, comps]

/-! ## The program -/

/-- It succeeds just when it has a file that can be opened, and then gives the first one's lines. -/
theorem run_spec (args : List Text) (load : Text → Option (List Cu)) :
    (∀ f l cus, args = f :: l → load f = some cus → run args load = (0, lines cus)) ∧
    ((∀ f l, args = f :: l → load f = none) → run args load = (1, [])) := by
  constructor
  · rintro f l cus rfl h; simp [run, h]
  · intro h
    cases args with
    | nil => rfl
    | cons f l => simp [run, h f l rfl]

/-! ## Cases -/

def exCus : List Cu := [⟨some (w! "m.c"), some (w! "/src/"), [w! "m.c", w! "../inc/a.h", w! "/usr/b.h"]⟩, ⟨some (w! "n.c"), none, [w! "/src/n.c"]⟩,
  ⟨some (w! "o.c"), some (w! "."), [w! "o.c"]⟩]

example : (lines exCus).map (fun x => (x.num, x.path)) = [(1, w! "/src//m.c"), (2, w! "/src//../inc/a.h"), (3, w! "/usr/b.h"), (1, w! "./o.c")] := by decide +kernel

/-- Directories by number: the root 0, with `src`, 1, and `inc`, 2; files have larger numbers. -/
def exLook (x : Nat) (t : Text) : Option Nat :=
  if t = w! "." then some x else if t = w! ".." then some 0
  else if x = 0 ∧ t = w! "src" then some 1 else if x = 0 ∧ t = w! "inc" then some 2
  else if x = 1 ∧ t = w! "m.c" then some 10 else if x = 2 ∧ t = w! "a.h" then some 11 else if x = 1 ∧ t = w! "o.c" then some 12 else none

example : ([w! "m.c", w! "../inc/a.h"].map (fun f => opened exLook 0 2 (sourcePath (w! "/src/") f))) = [some 10, some 11] := by decide +kernel
theorem case_dir : ∀ cwd, opened exLook 0 cwd (w! "/src/") = some 1 := by
  intro cwd
  have h : opened exLook 0 cwd (w! "/src/") = opened exLook 0 0 (w! "/src/") := rfl
  rw [h]
  decide +kernel

/-- **Fails** for a directory that is not absolute: the path is another file, or none, unless one is where the compiler was. -/
theorem relative_fails : opened exLook 0 1 (w! "o.c") = some 12 ∧ opened exLook 0 1 (sourcePath (w! ".") (w! "o.c")) = some 12 ∧
    opened exLook 0 2 (sourcePath (w! ".") (w! "o.c")) = none := by decide +kernel

end Liballocs.CuFiles
