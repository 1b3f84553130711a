/-!
# Walking subobjects of a type

`include/liballocs.h`: `__liballocs_walk_subobjects_spanning`, `__liballocs_first_subobject_spanning`,
`__liballocs_find_matching_subobject`.  Types are numbered; equality of types is equality of numbers
(the code compares pointers).  Offsets are naturals (32-bit wrap-around is not modelled).
-/
namespace Liballocs.Subobject

/-- `struct uniqtype`: its size (`pos_maxoff`) and what it contains. -/
inductive Desc where
  /-- no contained objects -/
  | other (size : Nat)
  | arr (size : Nat) (elt len : Nat)
  /-- members as (offset, type) in `related[]` order -/
  | comp (size : Nat) (ms : List (Nat × Nat))

abbrev Env := Nat → Desc

/-- `pos_maxoff`. -/
def Desc.size : Desc → Nat
  | .other n => n
  | .arr n _ _ => n
  | .comp n _ => n

def size (env : Env) (u : Nat) : Nat := (env u).size

/-- What the callback is given: the type, its offset from the start, the depth, the containing type, the
index in `related[]`, and the offset of the containing object. -/
structure Visit where
  ty : Nat
  off : Nat
  depth : Nat
  containing : Nat
  pos : Nat
  containingOff : Nat
  deriving DecidableEq

/-- Result of a walk: the return value and the callbacks made so far; or a division by zero, a failed
assertion, or (never, for acyclic types) too deep a recursion. -/
inductive Res where
  | ret (r : Int) (tr : List Visit)
  | divZero
  | assertFail
  | tooDeep
  deriving DecidableEq

/-- The bisection loop (include/liballocs.h:362-372, 463-474), for at most the given number of rounds.
`none`: an index out of bounds, or too many rounds. -/
def bisect (ms : List (Nat × Nat)) (t : Nat) : Nat → Nat → Nat → Option (Nat × Nat)
  | 0, _, _ => none
  | fuel + 1, lo, hi =>
    if lo + 1 < hi then
      match ms[(hi + lo) / 2]? with
      | none => none
      | some m => if m.1 > t then bisect ms t fuel lo ((hi + lo) / 2) else bisect ms t fuel ((hi + lo) / 2) hi
    else some (lo, hi)

/-- The backwards scan to the first member at the same offset (include/liballocs.h:387-390,
493-499). -/
def scanBack (ms : List (Nat × Nat)) : Nat → Nat
  | 0 => 0
  | k + 1 => if (ms[k]?).map (·.1) = (ms[k + 1]?).map (·.1) then scanBack ms k else k + 1

/-- The composite case of both functions: the index of the first member of the group with the greatest
offset at or below the target.  `some none`: no such member. `none`: assertion failure. -/
def firstMember (ms : List (Nat × Nat)) (t : Nat) : Option (Option Nat) :=
  match bisect ms t (ms.length + 1) 0 ms.length with
  | none => none
  | some (lo, hi) =>
    if lo + 1 = hi then
      match ms[lo]? with
      | none => none
      | some m => if m.1 > t then some none else some (some (scanBack ms lo))
    else if ms.length = 0 then some none else none

/-- Run calls in order until one returns non-zero. -/
def seqCalls {α : Type} (f : List Visit → α → Res) (h : List Visit) : List α → Res
  | [] => .ret 0 h
  | x :: xs =>
    match f h x with
    | .ret r h' => if r ≠ 0 then .ret r h' else seqCalls f h' xs
    | e => e

/-- `__liballocs_walk_subobjects_spanning_rec` (include/liballocs.h:321-421).  The callback is an
arbitrary function of all calls made so far; `h` is the list of those. -/
def walk (env : Env) (cb : List Visit → Int) : Nat → List Visit → (acc d t u : Nat) → Res
  | 0, _, _, _, _, _ => .tooDeep
  | fuel + 1, h, acc, d, t, u =>
    match env u with
    | .other _ => .ret 0 h
    | .arr sz e len =>
      if size env e = 0 then .divZero
      else
        let div := t / size env e
        if len > div then
          if ¬ t < sz then .assertFail
          else
            let h' := h ++ [⟨e, acc + div * size env e, d + 1, u, 0, acc⟩]
            if cb h' ≠ 0 then .ret (cb h') h'
            else walk env cb fuel h' (acc + div * size env e) (d + 1) (t % size env e) e
        else .ret 0 h
    | .comp sz ms =>
      match firstMember ms t with
      | none => .assertFail
      | some none => .ret 0 h
      | some (some lo) =>
        let group := (ms.zipIdx.drop lo).takeWhile (fun m => decide (some m.1.1 = (ms[lo]?).map (·.1)))
        seqCalls (fun h m =>
          if t < sz then
            let h' := h ++ [⟨m.1.2, acc + m.1.1, d + 1, u, m.2, acc⟩]
            if cb h' ≠ 0 then .ret (cb h') h'
            else walk env cb fuel h' (acc + m.1.1) (d + 1) (t - m.1.1) m.1.2
          else .ret 0 h) h group

/-- Result of a search: found or not, with the cumulative offset searched. -/
inductive Found where
  | ret (b : Bool) (cum : Nat)
  | assertFail
  | tooDeep
  deriving DecidableEq

/-- The loop over later members at the same offset in `__liballocs_find_matching_subobject`. -/
def tryAll {α : Type} (f : Nat → α → Found) (cum : Nat) : List α → Found
  | [] => .ret false cum
  | x :: xs =>
    match f cum x with
    | .ret true cum => .ret true cum
    | .ret false cum => tryAll f cum xs
    | e => e

/-- `__liballocs_find_matching_subobject` with `__liballocs_first_subobject_spanning`
(include/liballocs.h:431-592).  `test = none` is a null test type.  `junk u` is what reading the
offset field of an array's element record yields (it is not set for arrays).  The composite loop
visits the members of the group in order; an array has only its one element. -/
def find (env : Env) (junk : Nat → Nat) (test : Option Nat) : Nat → (cum t u : Nat) → Found
  | 0, _, _, _ => .tooDeep
  | fuel + 1, cum, t, u =>
    if t = 0 ∧ (test = none ∨ test = some u) then .ret true cum
    else
      match env u with
      | .other _ => .ret false cum
      | .arr _ e len =>
        if size env e ≠ 0 ∧ len > t / size env e then
          find env junk test fuel (cum + junk u) (t % size env e) e
        else .ret false cum
      | .comp _ ms =>
        match firstMember ms t with
        | none => .assertFail
        | some none => .ret false cum
        | some (some lo) =>
          let group := (ms.drop lo).takeWhile (fun m => decide (some m.1 = (ms[lo]?).map (·.1)))
          match group with
          | [] => .ret false cum
          | g :: _ => tryAll (fun cum m => find env junk test fuel cum (t - m.1) m.2) (cum + g.1) group

end Liballocs.Subobject
