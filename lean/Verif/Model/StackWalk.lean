/-!
# Walking the stack for a client (include/liballocs.h:772-834)

Simplifications: the unwinder (external) gives the frames, innermost first, and how the chain ends; instruction and stack pointers can
always be read, the frame pointer perhaps not, in which case the variable keeps its value. `BEGINNING_OF_STACK`, the highest user address
(external), is a parameter. The state is the callback's.
-/
namespace Liballocs.StackWalk

/-- A frame as the unwinder shows it. -/
structure Frame where
  ip : Nat
  sp : Nat
  bp : Option Nat
  deriving DecidableEq

/-- What the last step gives: 0 or a negative number. -/
inductive End where
  | top
  | failed
  deriving DecidableEq

/-- A callback: from `ip`, `sp`, `bp` and its state to what it returns and its new state. -/
abbrev Cb (σ : Type) := Nat → Nat → Nat → σ → Int × σ

/-- Reading the frame pointer into a variable that holds `old` (include/liballocs.h:800-801). -/
def readBp (b : Option Nat) (old : Nat) : Nat :=
  match b with
  | some b => b
  | none => old

/-- The loop of `__liballocs_walk_stack` (include/liballocs.h:790-830), at frame `f` with `rest` above it; `bp` is what the variable holds and `top` is `BEGINNING_OF_STACK`. -/
def loop {σ : Type} (top : Nat) (cb : Cb σ) (fin : End) : Frame → List Frame → Nat → σ → Int × σ
  | f, rest, bp, a =>
    let bp' := readBp f.bp bp
    let (ret, a) := cb f.ip f.sp bp' a
    if ret ≠ 0 then (ret, a)
    else
      match rest with
      | [] =>
        match fin with
        | .top => (ret, a)
        | .failed => (-1, a)
      | g :: rest => if g.sp ≠ top then loop top cb fin g rest bp' a else (ret, a)

/-- `__liballocs_walk_stack` (include/liballocs.h:772-834): `bp` is 0 at first. -/
def walk {σ : Type} (top : Nat) (cb : Cb σ) (fin : End) (f : Frame) (rest : List Frame) (a : σ) : Int × σ := loop top cb fin f rest 0 a

end Liballocs.StackWalk
