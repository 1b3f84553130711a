/-!
# The source files of a binary (tools/cufiles.cpp)

Simplifications: compilation units are what dwarfpp gives, in its order, with their source files in the order of their numbers, from 1; the lines are
those of the standard error stream.
-/
namespace Liballocs.CuFiles

/-- `std::string` (tools/cufiles.cpp:67-68). -/
abbrev Text := List Char

/-- A compilation unit's name, the directory that it was compiled in, and the names of its source files (tools/cufiles.cpp:59-68). -/
structure Cu where
  name : Option Text
  dir : Option Text
  files : List Text
  deriving DecidableEq

/-- The path of a source file (tools/cufiles.cpp:67-74). -/
def sourcePath (dir file : Text) : Text :=
  match file with
  | [] => []
  | ch :: _ => if ch ≠ '/' then dir ++ '/' :: file else file

/-- What a line says (tools/cufiles.cpp:76-80). -/
structure Line where
  cu : Text
  num : Nat
  file : Text
  path : Text
  deriving DecidableEq

/-- The loop over a unit's source files (tools/cufiles.cpp:64-81), from a number on. -/
def fileLines (cu dir : Text) : Nat → List Text → List Line
  | _, [] => []
  | i, f :: l => ⟨cu, i, f, sourcePath dir f⟩ :: fileLines cu dir (i + 1) l

/-- The body of the loop over units (tools/cufiles.cpp:59-82). -/
def cuLines (c : Cu) : List Line :=
  match c.name, c.dir with
  | some n, some d => fileLines n d 1 c.files
  | _, _ => []

/-- The loop over units (tools/cufiles.cpp:55-83). -/
def lines : List Cu → List Line
  | [] => []
  | c :: l => cuLines c ++ lines l

/-- How the program ends, and the lines; `args` has its arguments, `load` what there is in a file, `none` if it can not be opened (tools/cufiles.cpp:34-53, 123). -/
def run (args : List Text) (load : Text → Option (List Cu)) : Nat × List Line :=
  match args with
  | [] => (1, [])
  | f :: _ =>
    match load f with
    | none => (1, [])
    | some cus => (0, lines cus)

end Liballocs.CuFiles
