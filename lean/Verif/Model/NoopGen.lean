import Verif.Model.IfuncPos
/-!
# Generated functions that do nothing, and those that choose (tools/noopgen.cpp)

The tool reads a list of symbols and generates, from debugging information, for each of the library's functions one that does nothing or one that chooses between this
and the real one.

Simplifications: the text of declarations, which dwarfpp generates, is left out, but for the names that are declared; debugging information is what
`visible_named_grandchildren` gives, in its order; the list of symbols is given by lines; reading errors other than those of formats are left out.
-/
namespace Liballocs.NoopGen

open CcArgs
open IfuncPos (Text basename)

/-- What is to be generated (tools/noopgen.cpp:56-60). -/
inductive Mode
  | noop | ifunc
  deriving DecidableEq

/-- By the name that the program is called by (tools/noopgen.cpp:63-70); `none`: it ends with status 1. -/
def modeOf (argv0 : Text) : Option Mode :=
  if basename argv0 = w! "noopgen" then some .noop else if basename argv0 = w! "ifuncgen" then some .ifunc else none

/-- `std::getline(s, name, '\t')`, the `n`th of them, from 0 (tools/noopgen.cpp:120-128); empty when the line has ended. -/
def field : Nat → Text → Text
  | 0, t => t.takeWhile (fun c => decide (c ≠ '\t'))
  | n + 1, t => field n ((t.dropWhile (fun c => decide (c ≠ '\t'))).drop 1)

/-- The longest line that `getline` reads (tools/noopgen.cpp:93, 141). -/
def LINE : Nat := 4094

/-- The loop over lines (tools/noopgen.cpp:141-156): each symbol's name and visibility. A line that is too long sets the stream's state to failure, which ends the loop. -/
def symbols : List Text → List (Text × Text)
  | [] => []
  | t :: l => if t.length ≤ LINE then (field 5 t, field 4 t) :: symbols l else []

/-- `visibility_by_symbol_name` (tools/noopgen.cpp:155): what was stored last. -/
def visibility (l : List (Text × Text)) (name : Text) : Option Text := ((l.reverse.find? (fun x => decide (x.1 = name))).map (·.2))

/-- What an entry is: a variable, with whether its storage is static; a subprogram, with its attributes for declarations and external ones; or something else
(tools/noopgen.cpp:172-181). -/
inductive Kind
  | var (static : Bool)
  | sub (decl ext : Option Bool)
  | other
  deriving DecidableEq

/-- An entry of the debugging information (tools/noopgen.cpp:163-187, 249-250); `exported` is whether its visibility, if it has one, is that of exported entries. -/
structure Die where
  id : Nat
  name : Option Text
  kind : Kind
  exported : Option Bool
  linkage : Option Text
  deriving DecidableEq

/-- Which kinds are looked at (tools/noopgen.cpp:172-182). -/
def kindOk : Kind → Bool
  | .var s => s
  | .sub d e => !(d == some true && e.isSome && d == some true)
  | .other => false

/-- The test of an entry (tools/noopgen.cpp:171-185). -/
def eligible (syms : List (Text × Text)) (d : Die) : Bool :=
  match d.name with
  | none => false
  | some n => kindOk d.kind && d.exported != some false && syms.any (fun x => decide (x.1 = n))

/-- `named_element_dies` (tools/noopgen.cpp:163-189): `insert` keeps the first of each name. -/
def chosen (syms : List (Text × Text)) : List Die → List (Text × Die)
  | ds => ds.foldl (fun m d =>
      match d.name with
      | none => m
      | some n => if eligible syms d then (if m.any (fun x => decide (x.1 = n)) then m else m ++ [(n, d)]) else m) []

/-- The prefixes (tools/noopgen.cpp:199-200). -/
def yes (n : Text) : Text := w! "__yesop_" ++ n
@[inherit_doc yes] def no (n : Text) : Text := w! "__noop_" ++ n

/-- A generated function that chooses: what is declared before it, its name, and what it returns at the head of the preloads and elsewhere
(tools/noopgen.cpp:267-284, 307-309). -/
structure Ifunc where
  declared : List Text
  name : Text
  head : Text
  rest : Text
  vis : Text
  deriving DecidableEq

/-- `to_lower_copy` (tools/noopgen.cpp:260), for letters without accents. -/
def lower (t : Text) : Text := t.map Char.toLower

/-- `defn_of_die` and `body_of_subprogram_die` for functions that choose (tools/noopgen.cpp:254-285, 296-311). `none`: an assertion fails, in the body of a function without
a linkage name; the inner `none`: the function is not one of the symbols. -/
def ifuncOf (syms : List (Text × Text)) (n : Text) (d : Die) : Option (Option Ifunc) :=
  match d.linkage with
  | none => none
  | some s =>
    match visibility syms s with
    | none => some none
    | some v => some (some ⟨[no n, yes n], s, yes s, no s, lower v⟩)

end Liballocs.NoopGen
