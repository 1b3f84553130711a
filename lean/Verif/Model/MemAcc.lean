/-!
# Listing the memory accesses of a C program (tools/lang/c/dumpmemacc/dumpmemacc.ml)

A pass over a C program, as CIL has parsed it, writes a file with a line for each reading or writing of memory: source file and line, the direction, whether the access is
real or only of a temporary, the type of what is accessed, and the type of the whole object that the program names on the way.

Simplifications: a location is a number, and so is a type up to CIL's signatures; what type an expression has is given (external, `Cil.typeOf`), and so is whether a signature is
that of a pointer. CIL's visitor (external) is its contract: an expression's parts are visited from left to right before the function that was given for afterwards is called; of an
lvalue first the host, then the offset; of an instruction first the lvalue that is written, then the function, then the arguments; the operands of `sizeof` and `_Alignof` are visited
as other expressions are. A program is its instructions and its other expressions (conditions, results of functions, initialisers) in the order in which they are visited. The
names of types are as in `CilTypes`. Writing succeeds.
-/
namespace Liballocs.MemAcc

mutual
/-- `Cil.exp`, as matched in tools/lang/c/dumpmemacc/dumpmemacc.ml:99-115. -/
inductive Exp
  | const (k : Nat)
  | lval (h : Host) (o : Off)
  | sizeOf (t : Nat)
  | sizeOfE (e : Exp)
  | sizeOfStr (k : Nat)
  | alignOf (t : Nat)
  | alignOfE (e : Exp)
  | unOp (op : Nat) (e : Exp)
  | binOp (op : Nat) (e f : Exp)
  | cast (t : Nat) (e : Exp)
  | addrOf (h : Host) (o : Off)
  | startOf (h : Host) (o : Off)
  | question (c e f : Exp)
  | addrOfLabel (k : Nat)
/-- `Cil.lhost`: a variable, or what an expression points to. -/
inductive Host
  | var (v : Nat)
  | mem (e : Exp)
/-- `Cil.offset`. -/
inductive Off
  | none
  | field (f : Nat) (o : Off)
  | index (e : Exp) (o : Off)
end

/-- What CIL knows about types: `typeSig (typeOf e)`, and which signatures are `TSPtr`. -/
structure Env where
  ty : Exp → Nat
  ptr : Nat → Bool

/-- A line of the file (tools/lang/c/dumpmemacc/dumpmemacc.ml:16-31): `loc` is `none` for `locUnknown`. -/
structure Row where
  loc : Option Nat
  write : Bool
  real : Bool
  type : Nat
  whole : Nat
  deriving DecidableEq

/-- `reportRead` (tools/lang/c/dumpmemacc/dumpmemacc.ml:33-38). -/
def reportRead (E : Env) (l : Option Nat) (h : Host) (o : Off) : Row := ⟨l, false, true, E.ty (.lval h o), E.ty (.lval h .none)⟩

/-- `reportVirtualRead` (tools/lang/c/dumpmemacc/dumpmemacc.ml:40-45). -/
def reportVirtualRead (E : Env) (l : Option Nat) (e : Exp) : Row := ⟨l, false, false, E.ty e, E.ty e⟩

/-- `reportWrite` (tools/lang/c/dumpmemacc/dumpmemacc.ml:47-52). -/
def reportWrite (E : Env) (l : Option Nat) (h : Host) (o : Off) : Row := ⟨l, true, true, E.ty (.lval h o), E.ty (.lval h .none)⟩

/-- `reportVirtualWrite` (tools/lang/c/dumpmemacc/dumpmemacc.ml:54-59). -/
def reportVirtualWrite (E : Env) (l : Option Nat) (e : Exp) : Row := ⟨l, true, false, E.ty e, E.ty e⟩

/-- `castIsRepChanging` (tools/lang/c/dumpmemacc/dumpmemacc.ml:88-97): the signatures differ, and not both are of pointers. -/
def repChanging (E : Env) (t : Nat) (e : Exp) : Bool := decide (t ≠ E.ty e) && !(E.ptr t && E.ptr (E.ty e))

mutual
/-- `vexpr` (tools/lang/c/dumpmemacc/dumpmemacc.ml:85-116), `currentLoc` being `l`. -/
def visit (E : Env) (l : Option Nat) : Exp → List Row
  | .const k => [reportVirtualRead E l (.const k)]
  | .lval h o => visitH E l h ++ visitO E l o ++ [reportRead E l h o]
  | .sizeOf _ => []
  | .sizeOfE e => visit E l e
  | .sizeOfStr _ => []
  | .alignOf _ => []
  | .alignOfE e => visit E l e
  | .unOp op e => visit E l e ++ [reportVirtualWrite E l (.unOp op e)]
  | .binOp op e f => visit E l e ++ visit E l f ++ [reportVirtualWrite E l (.binOp op e f)]
  | .cast t e => visit E l e ++ (if repChanging E t e then [reportVirtualWrite E l (.cast t e)] else [])
  | .addrOf h o => visitH E l h ++ visitO E l o
  | .startOf h o => visitH E l h ++ visitO E l o
  | .question c e f => visit E l c ++ visit E l e ++ visit E l f ++ [reportVirtualRead E l (.question c e f)]
  | .addrOfLabel _ => []
/-- An lvalue's host: only the expressions in it are of interest to the class. -/
def visitH (E : Env) (l : Option Nat) : Host → List Row
  | .var _ => []
  | .mem e => visit E l e
/-- An lvalue's offset. -/
def visitO (E : Env) (l : Option Nat) : Off → List Row
  | .none => []
  | .field _ o => visitO E l o
  | .index e o => visit E l e ++ visitO E l o
end

/-- `Cil.instr`, as matched in tools/lang/c/dumpmemacc/dumpmemacc.ml:119-138. -/
inductive Instr
  | call (out : Option (Host × Off)) (f : Exp) (args : List Exp) (loc : Nat)
  | set (h : Host) (o : Off) (e : Exp) (loc : Nat)
  | asm (outs : List (Host × Off)) (ins : List Exp) (loc : Nat)

/-- Visiting the lvalue that is written. -/
def visitL (E : Env) (l : Option Nat) (x : Host × Off) : List Row := visitH E l x.1 ++ visitO E l x.2

/-- The parts of an instruction, visited before `vinst`'s function is called (tools/lang/c/dumpmemacc/dumpmemacc.ml:118). -/
def parts (E : Env) (l : Option Nat) : Instr → List Row
  | .call none f args _ => visit E l f ++ args.flatMap (visit E l)
  | .call (some x) f args _ => visitL E l x ++ visit E l f ++ args.flatMap (visit E l)
  | .set h o e _ => visitL E l (h, o) ++ visit E l e
  | .asm outs ins _ => outs.flatMap (visitL E l) ++ ins.flatMap (visit E l)

/-- The location of an instruction. -/
def Instr.loc : Instr → Nat
  | .call _ _ _ l => l
  | .set _ _ _ l => l
  | .asm _ _ l => l

/-- The function of `vinst` (tools/lang/c/dumpmemacc/dumpmemacc.ml:118-139), after it has set `currentLoc`. -/
def after (E : Env) : Instr → List Row
  | .call none _ args l => args.map (reportVirtualWrite E (some l))
  | .call (some x) _ args l => reportWrite E (some l) x.1 x.2 :: args.map (reportVirtualWrite E (some l))
  | .set h o e l => [reportVirtualWrite E (some l) e, reportWrite E (some l) h o]
  | .asm _ _ _ => []

/-- What is visited: an instruction, or an expression that is not part of one, with its location, which is not looked at. -/
inductive Item
  | inst (i : Instr)
  | other (e : Exp) (loc : Nat)

/-- The visitor over the program (tools/lang/c/dumpmemacc/dumpmemacc.ml:143-155), with `currentLoc`. -/
def run (E : Env) : Option Nat → List Item → List Row
  | _, [] => []
  | l, .inst i :: is => parts E l i ++ after E i ++ run E (some i.loc) is
  | l, .other e _ :: is => visit E l e ++ run E l is

/-- The file that is written for a program: `currentLoc` is `None` at first (tools/lang/c/dumpmemacc/dumpmemacc.ml:14). -/
def listing (E : Env) (is : List Item) : List Row := run E none is

end Liballocs.MemAcc
