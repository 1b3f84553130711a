/-!
# Simplification of C expressions (tools/lang/c/cilallocs/cilallocs.ml:365-375, 423-469)

Simplifications.
* Types: whole numbers of some size, pointers, arrays, structures (given by name and size) and functions; `c` is whether there
  are attributes such as `const`. Type signatures are the types themselves, names of types being unrolled.
* A field carries its offset and type. Values are numbers; numbers are unsigned.
* `SizeOf` and the like, and constants, are `const`; conditional expressions and addresses of labels are left out, being left as
  they are (449).
* The meaning of expressions is that of C, for addresses that do not wrap: adding to a pointer counts in objects of the type
  that is pointed to.
-/
namespace Liballocs.CilSimp

/-- Types. -/
inductive Ty
  | int (c : Bool) (size : Nat)
  | ptr (c : Bool) (t : Ty)
  | arr (c : Bool) (t : Ty) (n : Nat)
  | comp (c : Bool) (id size : Nat)
  | fn (c : Bool) (id : Nat)
  deriving DecidableEq

/-- Size in bytes. -/
def Ty.size : Ty → Nat
  | .int _ n => n
  | .ptr _ _ => 8
  | .arr _ t n => n * t.size
  | .comp _ _ n => n
  | .fn _ _ => 1

/-- `getConcreteType` (tools/lang/c/cilallocs/cilallocs.ml:365-375): attributes are dropped, and arrays are taken for what they
are made of. -/
def concrete : Ty → Ty
  | .arr _ t _ => concrete t
  | .ptr _ t => .ptr false (concrete t)
  | .comp _ i n => .comp false i n
  | .fn _ i => .fn false i
  | .int _ n => .int false n

/-- What a pointer points to. -/
def target : Ty → Option Ty
  | .ptr _ t => some t
  | _ => none

/-- What an array is made of. -/
def element : Ty → Option Ty
  | .arr _ t _ => some t
  | _ => none

/-- Binary operators: of pointer and whole number (`PlusPI`), and others, by what they give. -/
inductive Op
  | plusPI
  | other (f : Nat → Nat → Nat)

structure Fld where
  off : Nat
  ty : Ty

mutual
/-- CIL's expressions. -/
inductive Exp
  | const (t : Ty) (v : Nat)
  | lval (h : Host) (o : Off)
  | un (f : Nat → Nat) (e : Exp) (t : Ty)
  | bin (op : Op) (a b : Exp) (t : Ty)
  | cast (t : Ty) (e : Exp)
  | addrOf (h : Host) (o : Off)
  | startOf (h : Host) (o : Off)
inductive Host
  | var (v : Nat) (t : Ty)
  | mem (e : Exp)
inductive Off
  | none
  | field (f : Fld) (o : Off)
  | index (e : Exp) (o : Off)
end

/-- The type of what an offset leads to (CIL's `typeOffset`). -/
def Off.ty : Off → Ty → Option Ty
  | .none, t => some t
  | .field f o, .comp _ _ _ => o.ty f.ty
  | .field _ _, _ => Option.none
  | .index _ o, t =>
    match element t with
    | some u => o.ty u
    | Option.none => Option.none

mutual
/-- CIL's `typeOf`; `none` for an expression that makes no sense. -/
def Exp.ty : Exp → Option Ty
  | .const t _ => some t
  | .lval h o =>
    match h.ty with
    | some t => o.ty t
    | none => none
  | .un _ _ t => some t
  | .bin _ _ _ t => some t
  | .cast t _ => some t
  | .addrOf h o =>
    match h.ty with
    | none => none
    | some t =>
      match o.ty t with
      | none => none
      | some u => some (.ptr false u)
  | .startOf h o =>
    match h.ty with
    | none => none
    | some t =>
      match o.ty t with
      | none => none
      | some u =>
        match element u with
        | none => none
        | some w => some (.ptr false w)
def Host.ty : Host → Option Ty
  | .var _ t => some t
  | .mem e =>
    match e.ty with
    | none => none
    | some t => target t
end

/-- `offsetFromList` of two offsets' lists put together (tools/lang/c/cilallocs/cilallocs.ml:453-457). -/
def Off.app : Off → Off → Off
  | .none, p => p
  | .field f o, p => .field f (o.app p)
  | .index e o, p => .index e (o.app p)

/-- Is a cast left out? (tools/lang/c/cilallocs/cilallocs.ml:441-444) -/
def dropCast (t : Ty) (u : Option Ty) : Bool :=
  match u with
  | some u => decide (concrete t = concrete u)
  | none => false

/-- The second half of `simplifyPtrExprs` (tools/lang/c/cilallocs/cilallocs.ml:451-469), for an expression with its parts
simplified. -/
def top : Exp → Exp
  | .lval (.mem (.addrOf (.mem a) p)) o => .lval (.mem a) (p.app o)
  | .lval (.mem (.addrOf (.var v t) p)) o => .lval (.var v t) (p.app o)
  | .addrOf (.mem a) .none => a
  | .startOf (.mem s) .none =>
    match Exp.ty (.startOf (.mem s) .none) with
    | some t => .cast t s
    | none => .startOf (.mem s) .none
  | e => e

mutual
/-- `simplifyPtrExprs` (tools/lang/c/cilallocs/cilallocs.ml:423-469). -/
def simp : Exp → Exp
  | .const t v => top (.const t v)
  | .lval h o => top (.lval (simpHost h) (simpOff o))
  | .un f e t => top (.un f (simp e) t)
  | .bin op a b t => top (.bin op (simp a) (simp b) t)
  | .cast t e => top (if dropCast t (simp e).ty = true then simp e else .cast t (simp e))
  | .addrOf h o => top (.addrOf (simpHost h) (simpOff o))
  | .startOf h o => top (.startOf (simpHost h) (simpOff o))
/-- The cases of `Var` and `Mem` (tools/lang/c/cilallocs/cilallocs.ml:435-449). -/
def simpHost : Host → Host
  | .var v t => .var v t
  | .mem e => .mem (simp e)
/-- `simplifyOffset` (tools/lang/c/cilallocs/cilallocs.ml:430-434). -/
def simpOff : Off → Off
  | .none => .none
  | .field f o => .field f (simpOff o)
  | .index e o => .index (simp e) (simpOff o)
end

/-- Values of whole numbers are less than a power of two. -/
def wrap (t : Ty) (v : Nat) : Nat :=
  match t with
  | .int _ n => v % 256 ^ n
  | _ => v

/-- The variables' addresses, and what is found in memory at an address, by size. -/
structure World where
  at_ : Nat → Nat
  load : Nat → Nat → Nat

mutual
/-- The value of an expression. -/
def eval (w : World) : Exp → Option Nat
  | .const t v => some (wrap t v)
  | .lval h o =>
    match h.ty, hostAddr w h with
    | some t, some a =>
      match o.ty t, offAddr w o t with
      | some u, some d => some (wrap u (w.load (a + d) u.size))
      | _, _ => none
    | _, _ => none
  | .un f e t =>
    match eval w e with
    | some v => some (wrap t (f v))
    | none => none
  | .bin op a b t =>
    match op with
    | .other f =>
      match eval w a, eval w b with
      | some x, some y => some (wrap t (f x y))
      | _, _ => none
    | .plusPI =>
      match eval w a, eval w b, a.ty with
      | some x, some y, some (.ptr _ u) => some (wrap t (x + y * u.size))
      | _, _, _ => none
  | .cast t e =>
    match eval w e with
    | some v => some (wrap t v)
    | none => none
  | .addrOf h o =>
    match h.ty, hostAddr w h with
    | some t, some a =>
      match o.ty t, offAddr w o t with
      | some _, some d => some (a + d)
      | _, _ => none
    | _, _ => none
  | .startOf h o =>
    match h.ty, hostAddr w h with
    | some t, some a =>
      match o.ty t, offAddr w o t with
      | some u, some d =>
        match element u with
        | some _ => some (a + d)
        | none => none
      | _, _ => none
    | _, _ => none
/-- The address of what an lvalue starts at. -/
def hostAddr (w : World) : Host → Option Nat
  | .var v _ => some (w.at_ v)
  | .mem e => eval w e
/-- How far an offset leads. -/
def offAddr (w : World) : Off → Ty → Option Nat
  | .none, _ => some 0
  | .field f o, _ =>
    match offAddr w o f.ty with
    | some d => some (f.off + d)
    | none => none
  | .index e o, t =>
    match element t with
    | none => none
    | some u =>
      match eval w e, offAddr w o u with
      | some i, some d => some (i * u.size + d)
      | _, _ => none
end

end Liballocs.CilSimp
