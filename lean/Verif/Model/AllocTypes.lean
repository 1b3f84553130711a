/-!
# The types that allocation sites need (tools/alloctypes.cpp)

For the types that the allocation sites of a file are of, the tool declares the name of every type that is needed, and then defines those types that the
file's debugging information does not have.

Simplifications: the debugging information is a graph. `walk_type` is of libdwarfpp (external): it calls the function it is given on a type and the
reason for coming to it, and if the function says so goes on to the types that this one is made of, with the member (or the other element) that
mentions each as the reason. `ensure_needed_types_and_assign_to_allocsites` and `write_master_relation` are external too. A set of names is a list
without repetitions; its order is the order of insertion.
-/
namespace Liballocs.AllocTypes

/-- Why `walk_type` comes to a type: nothing, or an element that mentions it. A member is static if it is a declaration and external. -/
inductive Reason
  | start | member (static : Bool) | other
  deriving DecidableEq, Repr

/-- The debugging information. A type is a number, or none for `void`. -/
structure Info where
  /-- What a type is made of, in order. -/
  kids : Nat → List (Option Nat × Reason)
  /-- `get_concrete_type`: without typedefs and qualifiers. -/
  concrete : Nat → Option Nat
  /-- The type that the entry of this one is inside of, if it is inside of a type. -/
  parent : Nat → Option Nat
  /-- `codeful_name`. -/
  name : Option Nat → Nat

inductive Stop
  | assertion | deep
  deriving DecidableEq, Repr

def isConcrete (I : Info) : Option Nat → Bool
  | none => true
  | some t => I.concrete t = some t

/-- The assertions about members (tools/alloctypes.cpp:92-97): there is a type, and it is not the same, when concrete, as what its entry is inside of. -/
def memberOk (I : Info) : Option Nat → Bool
  | none => false
  | some t => I.concrete t ≠ I.parent t

/-- The function passed to `walk_type` (tools/alloctypes.cpp:79-104): whether to go on, and the names. -/
def visit (I : Info) (seen : List Nat) (t : Option Nat) (r : Reason) : Except Stop (Bool × List Nat) :=
  if r = .member true then .ok (false, seen)
  else if r = .member false ∧ memberOk I t = false then .error .assertion
  else if isConcrete I t = false then .ok (true, seen)
  else if I.name t ∈ seen then .ok (false, seen)
  else .ok (true, seen ++ [I.name t])

def kidsOf (I : Info) : Option Nat → List (Option Nat × Reason)
  | none => []
  | some t => I.kids t

/-- A step over the elements of a list, as long as nothing stops it. -/
def steps (f : List Nat → Option Nat × Reason → Except Stop (List Nat)) : List Nat → List (Option Nat × Reason) → Except Stop (List Nat)
  | s, [] => .ok s
  | s, k :: l =>
    match f s k with
    | .error e => .error e
    | .ok s' => steps f s' l

/-- `walk_type` (external) with the function above, in so many frames of the stack. -/
def walk (I : Info) : Nat → List Nat → Option Nat × Reason → Except Stop (List Nat)
  | 0, _, _ => .error .deep
  | n + 1, seen, k =>
    match visit I seen k.1 k.2 with
    | .error e => .error e
    | .ok (false, s) => .ok s
    | .ok (true, s) => steps (walk I n) s (kidsOf I k.1)

/-- `get_names_depended_on` (tools/alloctypes.cpp:71-107). -/
def names (I : Info) (n : Nat) (sites : List (Option Nat)) : Except Stop (List Nat) := steps (walk I n) [] (sites.map fun t => (t, .start))

/-- A line of the output: a declaration, or a definition of a type. -/
inductive Line
  | declare (name : Nat) | define (t : Nat)
  deriving DecidableEq, Repr

/-- What `main` writes (tools/alloctypes.cpp:143-166): the declarations, then the types created for the sites. -/
def output (I : Info) (n : Nat) (sites : List (Option Nat)) (created : List Nat) : Except Stop (List Line) :=
  match names I n sites with
  | .error e => .error e
  | .ok ns => .ok (ns.map .declare ++ created.map .define)

end Liballocs.AllocTypes
