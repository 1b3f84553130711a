import Verif.Model.Subobject
/-!
# The innermost type at an address (src/query.c:101-144, include/liballocs.h:431-515)

Simplifications: types are numbered as in `Subobject`; what `__liballocs_get_alloc_info` gives and `make_precise` are
parameters.
-/
namespace Liballocs.InnerType

open Subobject

/-- What `__liballocs_get_alloc_info` gives: an error, or the start, size and type (0 for NULL) of the allocation. -/
inductive Info
  | err
  | ok (start size ty : Nat)

/-- One step of `__liballocs_first_subobject_spanning` (include/liballocs.h:431-515): the subobject and the offset in it.
`none` for a failed assertion, `some none` for return value 0. -/
def first (env : Env) (u t : Nat) : Option (Option (Nat × Nat)) :=
  match env u with
  | .other _ => some none
  | .arr _ e len =>
    if size env e ≠ 0 ∧ len > t / size env e then some (some (e, t % size env e)) else some none
  | .comp _ ms =>
    match firstMember ms t with
    | none => none
    | some none => some none
    | some (some lo) =>
      match ms[lo]? with
      | none => none
      | some m => some (some (m.2, t - m.1))

/-- The loop (src/query.c:128-137): the innermost type, the offset in it and the containing type (0 for NULL). -/
def descend (env : Env) : Nat → (u t c : Nat) → Option (Nat × Nat × Nat)
  | 0, _, _, _ => none
  | f + 1, u, t, c =>
    match first env u t with
    | none => none
    | some none => some (u, t, c)
    | some (some (v, t')) => descend env f v t' u

/-- Outcome: a type (0 for NULL), or the program ends (NULL dereferenced, or a failed assertion). -/
inductive Out
  | ret (u : Nat)
  | crash
  deriving DecidableEq

/-- `__liballocs_get_inner_type` (src/query.c:101-144); `precise u obj start size` is the result of the type's `make_precise`,
if it has one (0 for NULL). -/
def getInner (env : Env) (precise : Nat → Option (Nat → Nat → Nat → Nat)) (fuel : Nat) (info : Info) (obj skip : Nat) : Out :=
  match info with
  | .err => .ret 0
  | .ok start sz u =>
    if u = 0 then .crash
    else
      let u' := match precise u with
        | none => u
        | some f => f obj start sz
      if u' = 0 then .crash
      else match descend env fuel u' ((obj - start) % 2 ^ 32) 0 with
        | none => .crash
        | some (v, _, c) => .ret (if skip = 0 then v else if skip = 1 then c else 0)

/-- `__liballocs_make_array_precise_with_memory_bounds` (src/uniqtype-util.c:271-287) as the `make_precise` of a flexible array type with
elements of `esz` bytes: `mk len` is the array type of `len` of them. Lengths from 2^31 - 1 on end the program (90), which is what 0
does in `getInner`. -/
def flexPrecise (esz : Nat) (mk : Nat → Nat) (obj start sz : Nat) : Nat :=
  let len := (start + sz + 2 ^ 64 - obj) % 2 ^ 64 / esz % 2 ^ 32
  if len < 2 ^ 31 - 1 then mk len else 0

end Liballocs.InnerType
