import Verif.Model.MetaDso
import Verif.Model.CcArgs
/-!
# Making the metadata of a linked file, and where it is put

When a link has ended, the linker plugin's destructor (tools/gold-plugin.cpp:844-902) runs `make` for the metadata of what was linked. tools/Makefile.meta makes it under a name
that mirrors that of the linked file, and links it under the file's build ID, which `read_build_id` (tools/debug-funcs.sh) takes from the output of `od`.

Simplifications: names are lists of characters; of the shell's work on the command only the splitting at blanks is there. The file system is a function from names to files, and
names are not resolved (no symbolic links, `.` and `..`). A file of metadata is the binary it was made from, with its time in nanoseconds; the tools that make its contents
are elsewhere, and `ok` says whether they succeed. The compiler makes a new file rather than write into an old one that has other names. `make` takes, of the pattern rules that
match, that with the shortest stem, and of those the first. `operator/` of `boost::filesystem` is that of its version 3.
-/
namespace Liballocs.MetaBuild

open CcArgs MetaDso

/-! ## `read_build_id` -/

/-- `od -t x1 -w20 -N20` (tools/debug-funcs.sh:87) of what is at some address: `a` and `b` are the addresses printed. -/
def od (a b : Name) (bytes : List (Fin 256)) : Name := a ++ (bytes.take 20).flatMap (fun x => ' ' :: hexByte x) ++ '\n' :: (b ++ ['\n'])

/-- `tr -s '[:space:]' '\t'` (tools/debug-funcs.sh:83, 85, 87); the last character written is kept. -/
def trs : Bool → Name → Name
  | _, [] => []
  | tab, c :: s => if c = ' ' ∨ c = '\n' ∨ c = '\t' then (if tab then trs true s else '\t' :: trs true s) else c :: trs false s

/-- The fields of a line, at tabs. -/
def fields : Name → List Name
  | [] => [[]]
  | c :: s =>
    if c = '\t' then [] :: fields s
    else
      match fields s with
      | [] => [[c]]
      | f :: fs => (c :: f) :: fs

/-- `cut -f2-21 | tr -d '\t'` (tools/debug-funcs.sh:87). -/
def cut (s : Name) : Name := (((fields s).drop 1).take 20).flatten

/-- `read_build_id` of a file with a build ID's section (tools/debug-funcs.sh:69-93): `desc` is what is in the file from the ID on. -/
def readId (a b : Name) (desc : List (Fin 256)) : Name := cut (trs false (od a b desc))

/-! ## The rules -/

/-- A linked file: what it is, whether it has the build ID's section and what follows there, and its size. -/
structure Bin where
  tag : Nat
  desc : Option (List (Fin 256))
  size : Nat
  deriving DecidableEq

/-- A file of metadata: when it was made, and from what. -/
structure Meta where
  time : Nat
  from' : Bin
  deriving DecidableEq

/-- The files: those linked, with their times, and those of metadata. -/
structure State where
  disk : Name → Option (Bin × Nat)
  repo : Name → Option Meta

/-- The addresses that `od` prints, which depend on where in the file the section is. -/
structure Addrs where
  a : Bin → Name
  b : Bin → Name

/-- The name under the build ID (tools/Makefile.meta:167-169). -/
def linkName (base txt : Name) : Name := base ++ w! "/.build-id/" ++ txt.take 2 ++ '/' :: txt.drop 2 ++ w! "-meta.so"

/-- `$$build_id` (tools/Makefile.meta:165). -/
def buildId (ad : Addrs) (b : Bin) : Name :=
  match b.desc with
  | none => []
  | some d => readId (ad.a b) (ad.b b) d

/-- The files of metadata when one has been made (tools/Makefile.meta:164-181). -/
def made (ad : Addrs) (base target : Name) (m : Meta) (repo : Name → Option Meta) : Name → Option Meta :=
  if buildId ad m.from' = [] then fun n => if n = target then some m else repo n
  else fun n => if n = linkName base (buildId ad m.from') then some m else if n = target then some m else repo n

/-- The stem of a name in `$(META_BASE)/%-meta.so` (tools/Makefile.meta:178). -/
def stem (base t : Name) : Option Name :=
  if (base ++ ['/']).isPrefixOf t ∧ (w! "-meta.so").isSuffixOf t ∧ base.length + 9 < t.length then some ((t.drop (base.length + 1)).take (t.length - base.length - 9)) else none

/-- Whether the rule that refuses is taken, given the other's stem (tools/Makefile.meta:85). -/
def refused (base t s : Name) : Bool := (base ++ base ++ ['/']).isPrefixOf t && decide (2 * base.length + 1 < t.length) && decide (t.length - (2 * base.length + 1) ≤ s.length)

/-- `make` for one name (tools/Makefile.meta:85-86, 178-181). `none`: it fails. -/
def make (ad : Addrs) (base : Name) (ok : Bool) (now : Nat) (s : State) (t : Name) : Option State :=
  match stem base t with
  | none => none
  | some st =>
    if refused base t st then none
    else
      match s.disk ('/' :: st) with
      | none => none
      | some (b, tb) =>
        match s.repo t with
        | some m => if tb ≤ m.time then some s else if ok then some { s with repo := made ad base t ⟨now, b⟩ s.repo } else none
        | none => if ok then some { s with repo := made ad base t ⟨now, b⟩ s.repo } else none

/-- `make` for some names; it ends with the first that fails. -/
def makeAll (ad : Addrs) (base : Name) (ok : Bool) (now : Nat) : State → List Name → State
  | s, [] => s
  | s, t :: ts =>
    match make ad base ok now s t with
    | none => s
    | some s' => makeAll ad base ok now s' ts

/-- What a directory of the mirrored name leads to: each symbolic link on the way is reported, and a command written to make its like (tools/Makefile.meta:57-63). -/
inductive Eff where
  | printed (line : Name)
  | ran (line : Name)
  deriving DecidableEq

/-- `ensure_mirror_dir_for_target` of the links on the way to a file (tools/Makefile.meta:57-63): name, whether absolute, target, directory and last part. `there` says what has
been mirrored. -/
def mirror (base : Name) (there : Name → Bool) : List (Name × Bool × Name × Name × Name) → List Eff
  | [] => []
  | (link, absol, target, dir, last) :: ls =>
    (if there (base ++ '/' :: link) then []
     else (if there (base ++ dir) then [] else [.printed (w! "mkdir -p " ++ base ++ '/' :: dir)]) ++
      [.printed (w! "cd " ++ base ++ dir ++ w! " && ln -s " ++ (if absol then base else []) ++ target ++ ' ' :: last)]) ++ mirror base there ls

/-! ## The plugin -/

/-- `p / q` of `boost::filesystem`. -/
def append (p q : Name) : Name :=
  match q with
  | [] => p
  | c :: _ => if c = '/' ∨ p = [] ∨ p.getLast? = some '/' then p ++ q else p ++ '/' :: q

/-- `META_BASE` in the plugin (tools/gold-plugin.cpp:854-856). -/
def metaBase : Name := w! "/usr/lib/meta"

/-- The linked file's own name. -/
def own (cwd out : Name) : Name := if out.head? = some '/' then out else append cwd out

/-- The words of a text. -/
def words (acc : Name) : Name → List Name
  | [] => if acc = [] then [] else [acc]
  | c :: s => if c = ' ' then (if acc = [] then words [] s else acc :: words [] s) else words (acc ++ [c]) s

/-- The words after the command (tools/gold-plugin.cpp:880-884), which is not quoted. -/
def targets (cwd out : Name) : List Name := words [] (append metaBase (own cwd out) ++ w! "-meta.so")

/-- The destructor (tools/gold-plugin.cpp:844-902), when the output is not to be linked again. `env` is the environment's `META_BASE`, which is for `make` (tools/Makefile.meta:13). -/
def plugin (ad : Addrs) (env : Option Name) (ok : Bool) (now : Nat) (s : State) (cwd out : Name) : State :=
  match s.disk (own cwd out) with
  | none => s
  | some (b, _) =>
    if b.size = 0 then s
    else makeAll ad (match env with | some e => e | none => metaBase) ok now s (targets cwd out)

/-! ## What happens to files -/

inductive Ev where
  /-- a link that writes a file at a time, and the plugin's work after it -/
  | link (cwd out : Name) (b : Bin) (written : Nat) (ok : Bool) (now : Nat)
  /-- a file is put in a place, by copying or moving or otherwise, with any time -/
  | put (name : Name) (b : Bin) (time : Nat)
  | remove (name : Name)

/-- One event. -/
def step (ad : Addrs) (env : Option Name) (s : State) : Ev → State
  | .link cwd out b written ok now => plugin ad env ok now { s with disk := fun n => if n = own cwd out then some (b, written) else s.disk n } cwd out
  | .put name b time => { s with disk := fun n => if n = name then some (b, time) else s.disk n }
  | .remove name => { s with disk := fun n => if n = name then none else s.disk n }

def run (ad : Addrs) (env : Option Name) (s : State) (es : List Ev) : State := es.foldl (step ad env) s

/-! ## At run time -/

def second : Nat := 1000000000

/-- The build ID that a loaded file has at run time: 20 bytes, zero if there is none. -/
def Bin.id (b : Bin) : List (Fin 256) :=
  match b.desc with
  | none => List.replicate 20 0
  | some d => d.take 20

/-- What the search for metadata sees (src/meta-dso.c:125-148): times in seconds. -/
def world (s : State) (name : Name) : World :=
  { stat := fun n => (s.repo n).map fun m => some ((m.time / second : Nat) : Int),
    base := (s.disk name).map fun p => ((p.2 / second : Nat) : Int) }

/-- `find_and_open_meta_libfile` for a file loaded under a name; the environment has the same `META_BASE` as when it was linked (src/meta-dso.c:24-32). -/
def found (env : Option Name) (junk : Nat → Int) (s : State) (name : Name) (b : Bin) : Option (Option Name) :=
  (find (world s name) junk (match env with | some e => e | none => metaBase) name b.id).map Prod.fst

end Liballocs.MetaBuild
