import Verif.Model.CcArgs
import Verif.Model.TwoLinks

/-!
# What the linker plugin adds to a link (tools/gold-plugin.cpp)

When the linker has read all symbols it calls the plugin, which adds further inputs: a library of dummy definitions, the padding of the dynamic linker's name, the types
that the inputs use, the stubs, and the dynamic linker.

Simplifications: commands and the file system are given by their outcomes; that names reach the command as they are is in `LinkArgs`, and the macros that the stubs are compiled
with are in `LdFlags`. What the base class keeps of the inputs (another project) is a name, the offset in an archive and the bytes read, which are up to 64. Names of
temporary files are given. An abort ends what is done.
-/

namespace Liballocs.GoldRead

abbrev Text := List Char

/-- `output_file_type`. -/
inductive Out
  | rel | exec | pie | dyn
  deriving DecidableEq

/-- An entry of `job->input_files`. -/
structure In where
  name : Text
  offset : Nat
  bytes : List Nat

/-- Which of the two compilations (tools/gold-plugin.cpp:276-277, 289-302). -/
inductive Label
  | usedtypes | allocstubs
  deriving DecidableEq

/-- What is done, in order. -/
inductive Act
  | addLib (name : Text)
  | addFile (name : Text)
  | run (args : List Text)
  | compile (l : Label)
  deriving DecidableEq

/-- Settings, and outcomes of commands: `dump_usedtypes`, the compiler, and the size of what it made, if there is such a file. -/
structure Env where
  out : Out
  liballocs : Option Text
  inputs : List In
  dump : List Text → Int
  cc : Label → Int
  size : Label → Option Nat
  obj : Label → Text

/-- The order of `std::string`. -/
def lt : Text → Text → Bool
  | _, [] => false
  | [], _ :: _ => true
  | a :: s, b :: t => if a.toNat < b.toNat then true else if a.toNat = b.toNat then lt s t else false

/-- `insert` of `std::set<string>` (tools/gold-plugin.cpp:258). -/
def ins (x : Text) : List Text → List Text
  | [] => [x]
  | y :: l => if lt x y then x :: y :: l else if lt y x then y :: ins x l else y :: l

/-- Is it a relocatable file (tools/gold-plugin.cpp:253-256)? `e_type` is in the bytes 16 and 17. -/
def isRel (b : List Nat) : Bool :=
  b.length == 64 && b.take 4 == [0x7f, 0x45, 0x4c, 0x46] &&
    match b.drop 16 with
    | x :: y :: _ => x + 256 * y == 1
    | _ => false

/-- The loop over the inputs (tools/gold-plugin.cpp:245-260). -/
def names : List In → List Text → List Text
  | [], acc => acc
  | i :: l, acc => names l (if isRel i.bytes then ins i.name acc else acc)

/-- `main` of usedtypes (tools/usedtypes.cpp:14-32). -/
def usedtypes (dump : List Text → Int) (args : List Text) : Int := if args = [] then 1 else dump args

/-- `operator/` of a path. -/
def join (d f : Text) : Text := if d = [] then f else if d.getLast? = some '/' then d ++ f else d ++ '/' :: f

/-- `compile_c_source_and_add_as_input` (tools/gold-plugin.cpp:155-186). -/
def compile (e : Env) (l : Label) : List Act × Bool :=
  if e.cc l ≠ 0 then ([.compile l], false)
  else
    match e.size l with
    | none => ([.compile l], false)
    | some n => if n > 0 then ([.compile l, .addFile (e.obj l)], true) else ([.compile l], true)

/-- What is added at first (tools/gold-plugin.cpp:191-206). -/
def before (e : Env) : List Act :=
  (if e.out ≠ .rel then [Act.addLib (w! "allocs_dummyweaks")] else []) ++
  (if e.out = .pie ∨ e.out = .exec then [Act.addFile (join (match e.liballocs with | some d => d | none => []) (w! "lib/interp-pad.o"))] else [])

/-- `all_symbols_read` (tools/gold-plugin.cpp:188-317), and whether it comes to its end. -/
def read (e : Env) : List Act × Bool :=
  let args := names e.inputs []
  if usedtypes e.dump args ≠ 0 then (before e ++ [.run args], false)
  else
    let u := compile e .usedtypes
    if u.2 = false then (before e ++ [.run args] ++ u.1, false)
    else
      let v := compile e .allocstubs
      if v.2 = false then (before e ++ [.run args] ++ u.1 ++ v.1, false)
      else (before e ++ [.run args] ++ u.1 ++ v.1 ++ [.addFile (w! "/lib64/ld-linux-x86-64.so.2")], true)

/-- The files that have been added. -/
def added : List Act → List Text
  | [] => []
  | .addFile t :: l => t :: added l
  | _ :: l => added l

end Liballocs.GoldRead
