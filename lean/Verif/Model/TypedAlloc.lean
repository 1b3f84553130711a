import Verif.Model.CcArgs
/-!
# The sizes that typed allocation functions allocate (tools/find-allocated-type-size.cpp, tools/allocscompilerwrapper.py:384-404)

An allocation function without a size argument allocates one object of the type that it returns a pointer to; its wrapper, which is generated at link time, takes the
size from the debugging information of the objects that are linked.

Simplifications: the debugging information of an object is its compilation units, each with what `named_child` gives for the function's name; types are those that a pointer
can lead to, with typedefs and qualifiers as aliases; a number that was printed is read back as it was.
-/
namespace Liballocs.TypedAlloc

open CcArgs

/-- Types, as `get_type`, `get_concrete_type` and `calculate_byte_size` see them (tools/find-allocated-type-size.cpp:80-91); `void` is the lack of a type, `opaque` one that is
declared only. -/
inductive Ty
  | void
  | alias (t : Ty)
  | ptr (t : Ty)
  | sized (n : Nat)
  | opaque
  deriving DecidableEq

/-- `get_concrete_type` (tools/find-allocated-type-size.cpp:84, 88). -/
def concrete : Ty → Ty
  | .alias t => concrete t
  | t => t

/-- `calculate_byte_size` of a concrete type (tools/find-allocated-type-size.cpp:90-91). -/
def byteSize : Ty → Option Nat
  | .sized n => some n
  | .ptr _ => some 8
  | _ => none

/-- What a unit has by the function's name: a function, with its return type, or something else (tools/find-allocated-type-size.cpp:77-80). -/
inductive Entry
  | fn (ret : Ty)
  | other
  deriving DecidableEq

/-- What is printed for a unit's entry (tools/find-allocated-type-size.cpp:77-106). -/
def printed : Option Entry → Option Nat
  | some (.fn r) =>
    match concrete r with
    | .ptr t => byteSize (concrete t)
    | _ => none
  | _ => none

/-- The loop over objects (tools/find-allocated-type-size.cpp:61-114); one that can not be opened is passed over. -/
def run : List (Option (List (Option Entry))) → List Nat
  | [] => []
  | none :: l => run l
  | some cus :: l => cus.filterMap printed ++ run l

/-- `endswith(".o")` (tools/allocscompilerwrapper.py:393). -/
def isObj (arg : List Char) : Bool := List.isPrefixOf ['o', '.'] arg.reverse

/-- What the wrapper takes as the size (tools/allocscompilerwrapper.py:391-403), of the linker's arguments; `none`: it gives up, with status 1. -/
def sizeFor (load : List Char → Option (List (Option Entry))) (args : List (List Char)) : Option Nat :=
  (run ((args.filter isObj).map load)).head?

end Liballocs.TypedAlloc
