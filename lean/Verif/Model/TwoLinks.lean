import Verif.Model.CcArgs

/-!
# What comes of linking twice (tools/allocscompilerwrapper.py)

To build a program, the wrapped compiler first links what it takes for objects and archives to one relocatable file, and then links that file
with what it takes for shared libraries. This is a model of what is in the result.

The linker is not in the repository, and is modelled by its contract: inputs are taken in order; all of an object is taken; of an archive those
members are taken that define a symbol which is undefined so far, until there are none; a symbol must not be defined by two objects; a symbol
that a shared library defines is not undefined; and linking to a relocatable file fails if there is a shared library. What the names of items
stand for, and in which directories libraries are found, is an argument.

Not modelled: what the wrapper adds to the final link (stubs, dummy definitions and used types), whose names are reserved; weak and versioned
symbols; `--as-needed`, `--whole-archive` and groups; libraries that the compiler adds by itself, which come last in both.
-/

namespace Liballocs.TwoLinks

open CcArgs (W deferred)

/-- An object file: the files it was made of, the symbols that it defines, and those it uses. -/
structure Obj where
  parts : List Nat
  defs : List Nat
  refs : List Nat
  deriving DecidableEq

/-- An input of the linker. -/
inductive Input
  | obj (o : Obj)
  | archive (ms : List Obj)
  | shared (defs : List Nat)
  deriving DecidableEq

/-- A linker at work: what has been taken, the symbols that this defines, those that shared libraries define, and the undefined ones. -/
structure St where
  incl : List Nat
  defs : List Nat
  shared : List Nat
  undef : List Nat
  deriving DecidableEq

/-- The linker's contract: taking an object; with a second definition, linking fails. -/
def take (s : St) (o : Obj) : Option St :=
  if o.defs.any (fun d => decide (d ∈ s.defs)) then none
  else
    some { incl := s.incl ++ o.parts, defs := s.defs ++ o.defs, shared := s.shared,
           undef := (s.undef ++ o.refs).filter fun x => decide (x ∉ s.defs ++ o.defs ∧ x ∉ s.shared) }

/-- The linker's contract: members of an archive, at most `n`, are taken while one of them defines an undefined symbol. -/
def pull (ms : List Obj) : Nat → St → Option St
  | 0, s => some s
  | n + 1, s =>
    match ms.find? (fun m => m.defs.any fun d => decide (d ∈ s.undef)) with
    | none => some s
    | some m =>
      match take s m with
      | none => none
      | some t => pull ms n t

/-- The linker's contract: one input. -/
def step (s : St) : Input → Option St
  | .obj o => take s o
  | .archive ms => pull ms ms.length s
  | .shared ds => some { s with shared := s.shared ++ ds, undef := s.undef.filter fun x => decide (x ∉ ds) }

/-- The linker's contract: inputs in order. -/
def link : St → List Input → Option St
  | s, [] => some s
  | s, i :: is =>
    match step s i with
    | none => none
    | some t => link t is

/-- Nothing taken yet. -/
def start : St := ⟨[], [], [], []⟩

/-- The linker's contract: linking to a relocatable file, which has no place for shared libraries. -/
def relocatable (is : List Input) : Option Obj :=
  if is.any (fun i => match i with | .shared _ => true | _ => false) then none
  else
    match link start is with
    | none => none
    | some s => some ⟨s.incl, s.defs, s.undef⟩

/-- The first link, then the final one (tools/allocscompilerwrapper.py:661-733), of items whose contents are given by `E`. -/
def two (E : W → Input) (items : List W) : Option St :=
  match relocatable ((items.filter fun i => !deferred i).map E) with
  | none => none
  | some o => link start (.obj o :: (items.filter deferred).map E)

end Liballocs.TwoLinks
