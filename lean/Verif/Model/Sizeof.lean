import Verif.Model.CilTypes
/-!
# What an allocation site allocates (tools/lang/c/dumpallocs/dumpallocs.ml)

The analysis of size expressions over the local variables of a function.

Simplifications: expressions that the analysis does not look into are one constructor; `failwith` is `none`; an assignment to a part of a variable
has a number for the part.
-/
namespace Liballocs.Sizeof
open CilTypes

/-- CIL's `offset`; a field comes with whether it is its structure's last, and its type. -/
inductive Off
  | no
  | field (last : Bool) (t : Ty) (o : Off)
  | index (o : Off)
  deriving DecidableEq

/-- CIL's `exp`: `size t c` stands for `SizeOf` and `SizeOfE`, `str` for `SizeOfStr`; `var` is a (part of a) variable; `addr` the address of an
lvalue in memory, by whether the pointer is statically null, its target and the offset; `other` anything else. -/
inductive Ex
  | mul (a b : Ex)
  | add (a b : Ex)
  | div (a b : Ex)
  | sub (a b : Ex)
  | size (t : Ty) (complete : Bool)
  | str (len : Nat)
  | var (glob : Bool) (v part : Nat)
  | cast (e : Ex)
  | addr (null : Bool) (t : Ty) (o : Off)
  | other (n : Nat)
  deriving DecidableEq

/-- `sz` (tools/lang/c/dumpallocs/dumpallocs.ml:70-74). -/
inductive Sz
  | undet
  | existing (t : Ty) (complete : Bool)
  | synthetic (l : List Ty)
  | tooComplex
  deriving DecidableEq

/-- `complexity_threshold` (tools/lang/c/dumpallocs/dumpallocs.ml:76). -/
def threshold : Nat := 100

/-- Sizes known of variables. -/
abbrev Env := List (Nat × Sz)

/-- `List.assoc`, or `Undet` (tools/lang/c/dumpallocs/dumpallocs.ml:301-305). -/
def look (env : Env) (v : Nat) : Sz :=
  match env with
  | [] => .undet
  | (w, s) :: r => if w = v then s else look r v

/-- The fields of a structure, with whether each is a bit field (`findStructTypeByName`). -/
abbrev Structs := List Char → Option (List (Ty × Bool))

/-- `isTrailingFieldOffsetExpr` (tools/lang/c/dumpallocs/dumpallocs.ml:114-125). -/
def trailing : Ty → Off → Option Bool
  | _, .no => some false
  | _, .field last _ .no => some last
  | t, .index o =>
    match t with
    | .arr u _ => trailing u o
    | _ => none
  | _, .field _ u o => trailing u o

/-- Multiplying (tools/lang/c/dumpallocs/dumpallocs.ml:180-191). -/
def mulS : Sz → Sz → Sz
  | .undet, .undet => .undet
  | .undet, s => s
  | s, .undet => s
  | s, _ => s

/-- Adding (tools/lang/c/dumpallocs/dumpallocs.ml:192-229). -/
def addS : Sz → Sz → Sz
  | .undet, .undet => .undet
  | .undet, s => s
  | s, .undet => s
  | .tooComplex, _ => .tooComplex
  | _, .tooComplex => .tooComplex
  | .existing s1 c1, .existing s2 _ => if decay s1 = decay s2 then .existing (decay s1) c1 else .synthetic [s1, .arr s2 none]
  | .synthetic l1, .existing s2 _ => if threshold ≤ l1.length then .tooComplex else .synthetic (l1 ++ [s2])
  | .existing s1 _, .synthetic l2 => if threshold ≤ l2.length then .tooComplex else .synthetic (s1 :: l2)
  | .synthetic l1, .synthetic l2 =>
    if l1 = l2 then .synthetic l1 else if threshold < l1.length + l2.length then .tooComplex else .synthetic (l1 ++ l2)

/-- `maybeDecayArrayTypesig` (tools/lang/c/dumpallocs/dumpallocs.ml:85-87). -/
def decayS : Sz → Sz
  | .existing t c => .existing (decay t) c
  | _ => .undet

/-- Dividing (tools/lang/c/dumpallocs/dumpallocs.ml:230-242). -/
def divS (a b : Sz) : Sz :=
  match decayS a, decayS b with
  | .existing d1 c1, .existing d2 _ => if d1 = d2 then .undet else .existing d1 c1
  | .existing s c, .undet => .existing s c
  | _, _ => .undet

/-- Whether a type matches the last field (tools/lang/c/dumpallocs/dumpallocs.ml:271-281). -/
def dropsLast (f : Ty × Bool) (t : Ty) : Bool :=
  !f.2 && (matchSign f.1 t || match f.1 with | .arr u (some 1) => matchSign u t | _ => false)

/-- Subtracting (tools/lang/c/dumpallocs/dumpallocs.ml:243-293). -/
def subS (gs : Structs) : Sz → Sz → Option Sz
  | .existing (.comp true name) true, .existing t2 true =>
    match gs name with
    | none => none
    | some fs =>
      match fs.getLast? with
      | none => some .undet
      | some f => some (if dropsLast f t2 then .existing (.comp true name) false else .undet)
  | _, _ => some .undet

/-- `getSizeExpr` (tools/lang/c/dumpallocs/dumpallocs.ml:89-335). -/
def getSize (gs : Structs) (env : Env) : Ex → Option Sz
  | .mul a b =>
    match getSize gs env a, getSize gs env b with
    | some x, some y => some (mulS x y)
    | _, _ => none
  | .add a b =>
    match getSize gs env a, getSize gs env b with
    | some x, some y => some (addS x y)
    | _, _ => none
  | .div a b =>
    match getSize gs env a, getSize gs env b with
    | some x, some y => some (divS x y)
    | _, _ => none
  | .sub a b =>
    match getSize gs env a, getSize gs env b with
    | some x, some y => subS gs x y
    | _, _ => none
  | .size t c => some (.existing t c)
  | .str _ => some (.existing (.int .char) true)
  | .var glob v _ => if glob then some .undet else some (look env v)
  | .cast e => getSize gs env e
  | .addr null t o =>
    if null then
      match trailing t o with
      | none => none
      | some true => some (.existing t false)
      | some false => some .undet
    else some .undet
  | .other _ => some .undet

/-! ## Functions -/

/-- CIL's statements: assignments, calls with a destination, sequences of statements, and those that contain blocks. -/
inductive Stmt
  | skip
  | set (glob : Bool) (v part : Nat) (e : Ex)
  | call (dst : Option (Nat × Nat))
  | seq (a b : Stmt)
  | ifs (b1 b2 : Stmt)
  | switch (b ss : Stmt)
  | loop (b : Stmt)
  deriving DecidableEq

/-- `remove_assoc`. -/
def remove (v : Nat) : Env → Env
  | [] => []
  | (w, s) :: r => if w = v then r else (w, s) :: remove v r

/-- An assignment of a local variable (tools/lang/c/dumpallocs/dumpallocs.ml:611-623). -/
def assign (gs : Structs) (env : Env) (v : Nat) (e : Ex) : Option Env :=
  match getSize gs env e with
  | none => none
  | some .undet => some env
  | some s => some ((v, s) :: remove v env)

/-- `accumulateOneStatement` (tools/lang/c/dumpallocs/dumpallocs.ml:608-650). -/
def accumulate (gs : Structs) : Stmt → Env → Option Env
  | .skip, env => some env
  | .set glob v _ e, env => if glob then some env else assign gs env v e
  | .call _, env => some env
  | .seq a b, env =>
    match accumulate gs a env with
    | none => none
    | some env' => accumulate gs b env'
  | .ifs b1 b2, env =>
    match accumulate gs b2 env with
    | none => none
    | some env' => accumulate gs b1 env'
  | .switch b ss, env =>
    match accumulate gs ss env with
    | none => none
    | some env' => accumulate gs b env'
  | .loop b, env => accumulate gs b env

/-- `propagateSizeEnv` over `sallstmts` (tools/lang/c/dumpallocs/dumpallocs.ml:599-656). -/
def pass (gs : Structs) : List Stmt → Env → Option Env
  | [], env => some env
  | s :: ss, env =>
    match accumulate gs s env with
    | none => none
    | some env' => pass gs ss env'

/-- The environment after some passes. -/
def after (gs : Structs) (f : List Stmt) : Nat → Option Env
  | 0 => some []
  | n + 1 =>
    match after gs f n with
    | none => none
    | some env => pass gs f env

/-- `untilFixedPoint` (tools/lang/c/dumpallocs/dumpallocs.ml:588-597, 701) ends after some passes with an environment. -/
def Ends (gs : Structs) (f : List Stmt) (env : Env) : Prop := ∃ n, after gs f n = some env ∧ pass gs f env = some env

/-- What is printed for an allocation (tools/lang/c/dumpallocs/dumpallocs.ml:813-822): a type's name, or a made-up structure, and whether there may be
an array of it. -/
inductive Out
  | anyPtr
  | named (t : Ty)
  | idl (l : List Ty)
  | bytes
  deriving DecidableEq

def output : Sz → Out × Bool
  | .existing t c => if singlyGeneric t then (.anyPtr, true) else (.named t, c)
  | .synthetic l => (.idl l, false)
  | .undet => (.bytes, true)
  | .tooComplex => (.bytes, true)

end Liballocs.Sizeof
