import Verif.Model.CcArgs

/-!
# The symbolic links on the way to a file (tools/dump-symlinks.sh)

The script prints a line for every symbolic link that is followed on the way to the file that a
name leads to; tools/Makefile.meta:57-63 reads the lines to mirror the links.

* A directory is the list of names from the root to it; a path is a list of names. Texts have no
  doubled or trailing slashes, and every name on the way that is not a link is there.
* `readlink -f` is by its contract: the directory that a path leads to (see `Real` in the
  properties); without it, when links lead in a circle.
* A line is the directory and the name of the link; the target is what the link says.
* Recursion of the shell's functions is bounded by a number, and `none` is that the number does
  not suffice. `exit 1` is a distinct outcome: the lines printed until then.
-/

namespace Liballocs.Symlinks

open Liballocs.CcArgs (W)

/-- A path, or a directory without links on the way to it. -/
abbrev Path := List W

/-- What `readlink` prints: whether it begins with a slash, and the names in it. -/
structure Target where
  abs : Bool
  names : Path
deriving DecidableEq

/-- The links of a file system, by directory and name. -/
abbrev Fs := Path → W → Option Target

/-- A line printed. -/
abbrev Line := Path × W

/-- How the script ends. -/
inductive Out
  | done (ls : List Line)
  | exit (ls : List Line)
  /-- `readlink -f` printed nothing. -/
  | lost (ls : List Line)
deriving DecidableEq

/-- Lines printed before. -/
def Out.after (before : List Line) : Out → Out
  | .done ls => .done (before ++ ls)
  | .exit ls => .exit (before ++ ls)
  | .lost ls => .lost (before ++ ls)

/-- A path without its last name, and its last name (`dirname`, `basename`); `none` for the root. -/
def split : Path → Option (Path × W)
  | [] => none
  | [b] => some ([], b)
  | a :: c :: t => (split (c :: t)).map fun r => (a :: r.1, r.2)

/-- `[ -h ]` of a path from a directory (tools/dump-symlinks.sh:49). -/
def isLink (fs : Fs) (real : Path → Path → Option Path) (d t : Path) : Bool :=
  match split t with
  | none => false
  | some (ds, b) =>
    match real d ds with
    | none => false
    | some r => (fs r b).isSome

/-- The two functions of the script. -/
inductive Task
  | all (p : Path)
  | one (d : Path) (n : W)

/-- `resolve_one_and_maybe_print` for a relative target (tools/dump-symlinks.sh:43-52), `again` being its call of itself. A target of
more than one name has a slash in it, and the function does not take it (18-21). -/
def relative (fs : Fs) (real : Path → Path → Option Path) (again : W → Option Out) (d : Path) (n : W) (t : Path) : Option Out :=
  if isLink fs real d t = true then
    match t with
    | [m] => (again m).map (Out.after [(d, n)])
    | _ => some (.exit [(d, n)])
  else some (.done [(d, n)])

/-- What is done with the last name when the lines for the directory have been printed (tools/dump-symlinks.sh:69). -/
def last (real : Path → Path → Option Path) (one : Path → W → Option Out) (ds : Path) (b : W) : Out → Option Out
  | .done ls =>
    match real [] ds with
    | none => some (.lost ls)
    | some d => (one d b).map (Out.after ls)
  | .exit ls => some (.exit ls)
  | .lost ls => some (.lost ls)

/-- `resolve_one_and_maybe_print` (tools/dump-symlinks.sh:11-55) and `resolve_all` (57-72). The root itself is, for `basename`, a
name with a slash, which is not taken. -/
def run (fs : Fs) (real : Path → Path → Option Path) : Nat → Task → Option Out
  | 0, _ => none
  | k + 1, .one d n =>
    if real [] d = some d then
      match fs d n with
      | none => some (.done [])
      | some ⟨true, t⟩ => (run fs real k (.all t)).map (Out.after [(d, n)])
      | some ⟨false, t⟩ => relative fs real (fun m => run fs real k (.one d m)) d n t
    else some (.exit [])
  | k + 1, .all p =>
    match split p with
    | none => some (.exit [])
    | some ([], b) => run fs real k (.one [] b)
    | some (a :: ds, b) =>
      (run fs real k (.all (a :: ds))).bind (last real (fun d n => run fs real k (.one d n)) (a :: ds) b)

end Liballocs.Symlinks
