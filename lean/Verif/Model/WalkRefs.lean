import Verif.Model.Walk
/-!
# Walking references and environment elements (src/walk.c:328-399)

Two callbacks meant to be given to the depth-first walk of `Model/Walk.lean`.  Simplifications: the
interpreter's answers (`can_interp`, `may_contain`, `is_environ`) are functions of what is reported (object, type, links), as the
calls get no other argument; zero is "no".  The client's callback has its own state, and sees the reference's meaning through
`state->seen_how` (for references) or its key through the argument block (for environment elements).
-/
namespace Liballocs.WalkRefs
open Liballocs.Walk

/-- The parts of `struct interpreter` that are used (include/allocmeta.h:264-271). -/
structure Interp where
  canInterp : Rep → Int
  mayContain : Rep → Bool
  isEnviron : Rep → Nat

variable {σ : Type}

/-- The state of a reference walk: the client's and `seen_how` (include/allocmeta.h:384-390). -/
structure RefState (σ : Type) where
  user : σ
  seenHow : Int

/-- A client's callback sees the whole state; it does not write `seen_how`. -/
abbrev RefCb (σ : Type) := RefState σ → Rep → σ × Int

/-- `__liballocs_walk_refs_cb` (src/walk.c:328-359). -/
def refsCb (i : Interp) (cb : RefCb σ) (s : RefState σ) (r : Rep) : RefState σ × Int :=
  let how := i.canInterp r
  if how ≠ 0 then
    let x := cb ⟨s.user, how⟩ r
    (⟨x.1, 0⟩, if x.2 ≠ 0 then x.2 else -1)
  else if !i.mayContain r then (s, -1)
  else (s, 0)

/-- `__liballocs_walk_environ_cb` (src/walk.c:361-399); the client's callback gets the key. -/
def environCb (i : Interp) (cb : σ → Nat → Rep → σ × Int) (s : σ) (r : Rep) : σ × Int :=
  let key := i.isEnviron r
  if key ≠ 0 then
    let x := cb s key r
    (x.1, if x.2 ≠ 0 then x.2 else -1)
  else (s, 0)

/-- A reference walk (as in examples/elf-refs.c): the depth-first walk with `__liballocs_walk_refs_cb`. -/
def walkRefs (w : World) (fuel : Nat) (i : Interp) (cb : RefCb σ) (p : Pos) (s : σ) : Out (RefState σ × Int) :=
  walkDf w fuel false p (refsCb i cb) ⟨s, 0⟩

/-- An environment walk. -/
def walkEnviron (w : World) (fuel : Nat) (i : Interp) (cb : σ → Nat → Rep → σ × Int) (p : Pos) (s : σ) : Out (σ × Int) :=
  walkDf w fuel false p (environCb i cb) s

end Liballocs.WalkRefs
