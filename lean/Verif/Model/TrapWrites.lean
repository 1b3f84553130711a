/-!
# Notification of pointer writes (tools/lang/c/trapptrwrites/trapptrwrites.ml)

The CIL pass `trap-ptr-writes`, with a semantics of the program before and after it.

Simplifications.
* Memory is a function from addresses to bytes. Expressions without side effects (all of CIL's expressions) are functions of
  memory: an lvalue is given by its type, by whether it starts at a variable that is not global, and by its address; another
  expression by the bytes of its value. Nothing is volatile, and no other thread writes.
* A layout is part of a type: the fields of structures and unions carry their offsets.
* What called functions do, and inline assembly, is any change of memory, with a list of labels for whatever they do visibly.
* New temporary variables are numbered, and are kept apart from memory: the program has no pointers to them.
* `__notify_ptr_write` and `__notify_copy` (Lifetime) do not change what the program can see. An event holds the bytes that
  are found at the given place when the function is called.
* The C compiler may find out the address on the left of `lv = f()` before or after the call.
-/
namespace Liballocs.TrapWrites

mutual
/-- CIL's types as far as they are looked at (`TPtr`, `TFun`, `TComp`, `TArray`, `TNamed`; all others are `other`). -/
inductive Ty
  | ptr
  | fn
  | other (size : Nat)
  | arr (t : Ty) (n : Option Nat)
  | comp (size : Nat) (fs : Flds)
  | named (t : Ty)
inductive Flds
  | nil
  | cons (off : Nat) (t : Ty) (fs : Flds)
end

/-- Size in bytes (CIL's `SizeOf`). -/
def Ty.size : Ty → Nat
  | .ptr => 8
  | .fn => 1
  | .other n => n
  | .arr t (some n) => n * t.size
  | .arr _ none => 0
  | .comp n _ => n
  | .named t => t.size

/-- `unrollType` of CIL. -/
def unroll : Ty → Ty
  | .named t => unroll t
  | t => t

mutual
/-- `typNeedTrapCalls` (tools/lang/c/trapptrwrites/trapptrwrites.ml:72-81). -/
def needs : Ty → Bool
  | .ptr => true
  | .fn => true
  | .comp _ fs => needsAny fs
  | .arr t (some _) => needs t
  | .arr _ none => false
  | .named t => needs t
  | .other _ => false
/-- The fold over the fields (tools/lang/c/trapptrwrites/trapptrwrites.ml:75-76). -/
def needsAny : Flds → Bool
  | .nil => false
  | .cons _ t fs => needs t || needsAny fs
end

abbrev Mem := Nat → Nat

/-- `n` bytes from `a` on. -/
def get (m : Mem) (a : Nat) : Nat → List Nat
  | 0 => []
  | n + 1 => m a :: get m (a + 1) n

/-- A store. -/
def put (m : Mem) (a : Nat) : List Nat → Mem
  | [] => m
  | b :: bs => put (fun x => if x = a then b else m x) (a + 1) bs

/-- An lvalue. `loc`: it starts at a variable that is not global (`Var v` with `not v.vglob`). -/
structure Lv where
  loc : Bool
  ty : Ty
  addr : Mem → Nat

/-- What can be on the right-hand side. -/
inductive Exp
  | lval (l : Lv)
  | val (v : Mem → List Nat)

/-- CIL's instructions. -/
inductive Inst
  | set (l : Lv) (e : Exp)
  | callTo (l : Lv) (f : Mem → Mem × List Nat × List Nat)
  | rest (f : Mem → Mem × List Nat)

/-- Where a value comes from: an lvalue of the program at some offset, or a part of a new variable. -/
inductive Src
  | lv (l : Lv) (off : Nat)
  | tmp (k : Nat) (off : Nat)

/-- `addOffsetLval` on the source. -/
def Src.plus (o : Nat) : Src → Src
  | .lv l p => .lv l (p + o)
  | .tmp k p => .tmp k (p + o)

/-- Instructions after the pass. -/
inductive TInst
  | keep (i : Inst)
  | setTmp (k : Nat) (e : Exp)
  | callTmp (k : Nat) (f : Mem → Mem × List Nat × List Nat)
  | ptrWrite (l : Lv) (off : Nat) (s : Src)
  | copy (l : Lv) (off : Nat) (s : Src) (n : Nat)
  | setFrom (l : Lv) (k : Nat)

mutual
/-- `addTrapCallsForLval` (tools/lang/c/trapptrwrites/trapptrwrites.ml:88-106), for the part of `l` at offset `off`, of the
type given. -/
def traps (l : Lv) : Ty → Nat → Src → List TInst → List TInst
  | .ptr, off, s, tail => .ptrWrite l off s :: tail
  | .fn, off, s, tail => .ptrWrite l off s :: tail
  | .comp _ fs, off, s, tail => trapsAll l fs off s tail
  | .arr t (some n), off, s, tail => if needs t = true then .copy l off s (n * t.size) :: tail else tail
  | .arr _ none, _, _, tail => tail
  | .named t, off, s, tail => traps l t off s tail
  | .other _, _, _, tail => tail
/-- The fold over the fields (tools/lang/c/trapptrwrites/trapptrwrites.ml:94-98). -/
def trapsAll (l : Lv) : Flds → Nat → Src → List TInst → List TInst
  | .nil, _, _, tail => tail
  | .cons o t fs, off, s, tail => trapsAll l fs off s (traps l t (off + o) (s.plus o) tail)
end

/-- `lvNeedTrapCalls` (tools/lang/c/trapptrwrites/trapptrwrites.ml:83-86). -/
def lvNeeds (l : Lv) : Bool := if l.loc = true then false else needs l.ty

/-- `vinst` (tools/lang/c/trapptrwrites/trapptrwrites.ml:108-130); `k` is the number of the next new variable. -/
def trInst (k : Nat) : Inst → List TInst × Nat
  | .set l e =>
    if lvNeeds l = false then ([.keep (.set l e)], k)
    else
      match e with
      | .lval r => (traps l l.ty 0 (.lv r 0) [.keep (.set l (.lval r))], k)
      | .val v => (.setTmp k (.val v) :: traps l l.ty 0 (.tmp k 0) [.setFrom l k], k + 1)
  | .callTo l f =>
    if lvNeeds l = false then ([.keep (.callTo l f)], k)
    else (.callTmp k f :: traps l l.ty 0 (.tmp k 0) [.setFrom l k], k + 1)
  | .rest f => ([.keep (.rest f)], k)

/-- The instructions of a block. -/
def trBlock (k : Nat) : List Inst → List TInst × Nat
  | [] => ([], k)
  | i :: is => ((trInst k i).1 ++ (trBlock (trInst k i).2 is).1, (trBlock (trInst k i).2 is).2)

/-- Statements, over some kind of instructions. -/
inductive Stmt (I : Type)
  | block (is : List I)
  | seq (s t : Stmt I)
  | ite (c : Mem → Bool) (s t : Stmt I)
  | loop (c : Mem → Bool) (s : Stmt I)

/-- The visit of a function's body, which changes instructions only (tools/lang/c/trapptrwrites/trapptrwrites.ml:67-71). -/
def trStmt (k : Nat) : Stmt Inst → Stmt TInst × Nat
  | .block is => (.block (trBlock k is).1, (trBlock k is).2)
  | .seq s t => (.seq (trStmt k s).1 (trStmt (trStmt k s).2 t).1, (trStmt (trStmt k s).2 t).2)
  | .ite c s t => (.ite c (trStmt k s).1 (trStmt (trStmt k s).2 t).1, (trStmt (trStmt k s).2 t).2)
  | .loop c s => (.loop c (trStmt k s).1, (trStmt k s).2)

/-- A notification: of one pointer, or of bytes that are copied. -/
inductive Ev
  | ptrWrite (dest : Nat) (val : List Nat)
  | copy (dest : Nat) (bytes : List Nat)
  deriving DecidableEq

/-- What can be seen of a run. -/
inductive Tr
  | note (e : Ev)
  | write (loc : Bool) (ty : Ty) (a : Nat) (bs : List Nat)
  | theirs (x : Nat)

/-- The value of a right-hand side of type `t`. -/
def evalExp (m : Mem) (t : Ty) : Exp → List Nat
  | .lval r => get m (r.addr m) t.size
  | .val v => v m

/-- One instruction of the original program. `early`: for which lvalues on the left of a call the address is found out before
the call. -/
def step (early : Lv → Bool) (m : Mem) : Inst → Mem × List Tr
  | .set l e => (put m (l.addr m) (evalExp m l.ty e), [.write l.loc l.ty (l.addr m) (evalExp m l.ty e)])
  | .callTo l f =>
    (put (f m).1 (l.addr (if early l = true then m else (f m).1)) (f m).2.1,
      (f m).2.2.map .theirs ++ [.write l.loc l.ty (l.addr (if early l = true then m else (f m).1)) (f m).2.1])
  | .rest f => ((f m).1, (f m).2.map .theirs)

/-- The `n` bytes at a source. -/
def Src.bytes (m : Mem) (ts : Nat → List Nat) (n : Nat) : Src → List Nat
  | .lv l o => get m (l.addr m + o) n
  | .tmp k o => ((ts k).drop o).take n

abbrev TSt := Mem × (Nat → List Nat)

/-- One instruction of the changed program. -/
def tstep (early : Lv → Bool) (s : TSt) : TInst → TSt × List Tr
  | .keep i => (((step early s.1 i).1, s.2), (step early s.1 i).2)
  | .setTmp k e => ((s.1, fun j => if j = k then evalExp s.1 (.other 0) e else s.2 j), [])
  | .callTmp k f => (((f s.1).1, fun j => if j = k then (f s.1).2.1 else s.2 j), (f s.1).2.2.map .theirs)
  | .ptrWrite l o r => (s, [.note (.ptrWrite (l.addr s.1 + o) (r.bytes s.1 s.2 8))])
  | .copy l o r n => (s, [.note (.copy (l.addr s.1 + o) (r.bytes s.1 s.2 n))])
  | .setFrom l k => ((put s.1 (l.addr s.1) (s.2 k), s.2), [.write l.loc l.ty (l.addr s.1) (s.2 k)])

/-- A block of instructions, given what one instruction does. -/
def runBlock {I S : Type} (f : S → I → S × List Tr) (s : S) : List I → S × List Tr
  | [] => (s, [])
  | i :: is => ((runBlock f (f s i).1 is).1, (f s i).2 ++ (runBlock f (f s i).1 is).2)

/-- A statement; `none` if it takes more than `n` rounds. `mem` is the memory of a state. -/
def run {I S : Type} (f : S → I → S × List Tr) (mem : S → Mem) : Nat → S → Stmt I → Option (S × List Tr)
  | 0, _, _ => none
  | _ + 1, s, .block is => some (runBlock f s is)
  | n + 1, s, .seq a b =>
    match run f mem n s a with
    | none => none
    | some (s1, l1) =>
      match run f mem n s1 b with
      | none => none
      | some (s2, l2) => some (s2, l1 ++ l2)
  | n + 1, s, .ite c a b => if c (mem s) = true then run f mem n s a else run f mem n s b
  | n + 1, s, .loop c a =>
    if c (mem s) = true then
      match run f mem n s a with
      | none => none
      | some (s1, l1) =>
        match run f mem n s1 (.loop c a) with
        | none => none
        | some (s2, l2) => some (s2, l1 ++ l2)
    else some (s, [])

/-- The original program. -/
def runOrig (early : Lv → Bool) (n : Nat) (m : Mem) (s : Stmt Inst) : Option (Mem × List Tr) := run (step early) id n m s

/-- The changed program. -/
def runNew (early : Lv → Bool) (n : Nat) (s : TSt) (p : Stmt TInst) : Option (TSt × List Tr) := run (tstep early) Prod.fst n s p

end Liballocs.TrapWrites
