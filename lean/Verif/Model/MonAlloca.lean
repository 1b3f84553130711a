import Verif.Model.Alloca
/-!
# Instrumentation of calls to alloca (tools/lang/c/monalloca/monalloca.ml)

The CIL pass that rewrites functions, and what C makes of a function before and after.

Simplifications.
* A function is a list of statements, each a list of instructions and where to go next, which is what CIL's bodies are once
  `goto`s, loops and branches are resolved. Expressions and instructions other than calls are functions of the program's
  variables and memory: they cannot name the variables that the pass adds.
* The two assignments of zero that are put before a function's body (tools/lang/c/monalloca/monalloca.ml:94-95, 238-239) are one.
* A variable of the program is not called `__liballocs_alloca_cleanup_local`.
* Sizes are unbounded numbers; leaving a function by `longjmp` is not modelled, nor is the red zone.
* What is indexed is a list of chunks; the index itself is in `Verif.Model.Alloca`.
-/
namespace Liballocs.MonAlloca
open Alloca (allocaSize adjust)

abbrev Mem := Nat → Nat
abbrev Vars := Nat → Nat
abbrev Expr := Vars → Mem → Nat
abbrev Name := List Char

/-- What is called. -/
inductive Callee
  | direct (n : Name)
  | computed (e : Expr)

/-- An instruction of the program; `loc` is where it is. -/
inductive Instr
  | call (tgt : Option Nat) (f : Callee) (args : List Expr) (loc : Nat)
  | other (f : Vars → Mem → Vars × Mem)

/-- Where a statement leads. -/
inductive Next
  | goto (n : Nat)
  | branch (e : Expr) (a b : Nat)
  | ret (e : Expr)

structure Fun where
  name : Name
  body : List (List Instr × Next)

/-- An instruction afterwards; the pass's own variables are numbered, and 0 is the counter. -/
inductive TInstr
  | keep (i : Instr)
  | set (v c : Nat)
  | size (v : Nat) (e : Expr)
  | site (v loc : Nat)
  | alloca (v n : Nat)
  | notify (tgt : Option Nat) (ptr : Nat) (e : Expr) (fixed counter site : Nat)

structure TFun where
  entry : List TInstr
  cleanup : Bool
  body : List (List TInstr × Next)

def ALLOCA : Name := ['a', 'l', 'l', 'o', 'c', 'a']
def BUILTIN : Name := ['_', '_', 'b', 'u', 'i', 'l', 't', 'i', 'n', '_'] ++ ALLOCA
def ALIGNED : Name := BUILTIN ++ ['_', 'w', 'i', 't', 'h', '_', 'a', 'l', 'i', 'g', 'n']
def SKIP1 : Name := ['_', '_', 'l', 'i', 'b'] ++ ALLOCA.take 5 ++ ['s', '_'] ++ ALLOCA
def SKIP2 : Name := "__liballocs_unindex_stack_objects_counted_by".toList

/-- `isAllocaFun` (tools/lang/c/monalloca/monalloca.ml:109-115). -/
def isAllocaFun (encl : Name) : Callee → Bool
  | .direct v => decide (encl ≠ SKIP2) && decide (encl ≠ SKIP1) && (decide (v = ALLOCA) || decide (v = BUILTIN))
  | .computed _ => false

/-- What a visit changes: the number of the next variable, and whether there is a counter. -/
structure VSt where
  next : Nat
  counter : Bool

/-- `vinst` (tools/lang/c/monalloca/monalloca.ml:108-183). -/
def vinst (encl : Name) (v : VSt) (i : Instr) : List TInstr × VSt :=
  match i with
  | .call tgt f [e] loc =>
    if isAllocaFun encl f = true then
      ([.size (v.next + 1) e, .site v.next loc, .alloca (v.next + 2) (v.next + 1),
        .notify tgt (v.next + 2) e (v.next + 1) 0 v.next], ⟨v.next + 3, true⟩)
    else ([.keep i], v)
  | _ => ([.keep i], v)

def vinsts (encl : Name) : VSt → List Instr → List TInstr × VSt
  | v, [] => ([], v)
  | v, i :: l => ((vinst encl v i).1 ++ (vinsts encl (vinst encl v i).2 l).1, (vinsts encl (vinst encl v i).2 l).2)

def vbody (encl : Name) : VSt → List (List Instr × Next) → List (List TInstr × Next) × VSt
  | v, [] => ([], v)
  | v, (is, n) :: l =>
    (((vinsts encl v is).1, n) :: (vbody encl (vinsts encl v is).2 l).1, (vbody encl (vinsts encl v is).2 l).2)

/-- `vfunc` (tools/lang/c/monalloca/monalloca.ml:213-240): the counter is a variable with a cleanup function
(tools/lang/c/monalloca/monalloca.ml:85-96). -/
def vfunc (f : Fun) : TFun :=
  ⟨if (vbody f.name ⟨1, false⟩ f.body).2.counter = true then [.set 0 0] else [],
   (vbody f.name ⟨1, false⟩ f.body).2.counter, (vbody f.name ⟨1, false⟩ f.body).1⟩

/-! ## What C makes of them -/

/-- The surroundings: what other functions do, where the stack pointer is after so many bytes have been asked for (`none`: the
stack is exhausted), the address of the instruction after the call at a place, and what the index writes to a chunk's trailer, of
the size `t`. -/
structure World where
  ext : Name ⊕ Nat → List Nat → Mem → Nat × Mem
  drop : Nat → Nat → Option Nat
  site : Nat → Nat
  trailer : Nat → Nat → Nat → Nat
  t : Nat

/-- Assignment of a result. -/
def assign (vs : Vars) (tgt : Option Nat) (x : Nat) : Vars :=
  match tgt with
  | none => vs
  | some v => fun y => if y = v then x else vs y

def callee (vs : Vars) (m : Mem) : Callee → Name ⊕ Nat
  | .direct n => .inl n
  | .computed e => .inr (e vs m)

/-- An instruction that is not a call to alloca. -/
def plain (ext : Name ⊕ Nat → List Nat → Mem → Nat × Mem) (vs : Vars) (m : Mem) : Instr → Vars × Mem
  | .call tgt f args _ =>
    (assign vs tgt (ext (callee vs m f) (args.map fun e => e vs m) m).1, (ext (callee vs m f) (args.map fun e => e vs m) m).2)
  | .other f => f vs m

/-- Calls that allocate on the stack: target, name, size and place. -/
def stackAlloc : Instr → Option (Option Nat × Name × Expr × Nat)
  | .call tgt (.direct n) [e] loc => if n = ALLOCA ∨ n = BUILTIN then some (tgt, n, e, loc) else none
  | .call tgt (.direct n) [e, _] loc => if n = ALIGNED then some (tgt, n, e, loc) else none
  | _ => none

inductive Out (α : Type)
  | ok (a : α)
  | fault
  | abort
  /-- not ended yet -/
  | more
  /-- a statement that does not exist -/
  | stuck

/-- What a chunk in the index is: address, size asked for, site and usable size. -/
structure Chunk where
  user : Nat
  n : Nat
  site : Nat
  usable : Nat
  deriving DecidableEq

/-- The state of the changed function. -/
structure TSt where
  vars : Vars
  mem : Mem
  sp : Nat
  new : Nat → Nat
  chunks : List Chunk

def setNew (s : TSt) (v x : Nat) : TSt := { s with new := fun y => if y = v then x else s.new y }

/-- The stores of `__liballocs_notify_and_adjust_alloca` and of the index (include/liballocs_cil_inlines.h:144-155,
include/generic_malloc_index.h:371-375): the chunk is zeroed, the word below the user's address is the usable size, and the last
`t` bytes are the trailer. -/
def notifyMem (W : World) (m : Mem) (ptr n fixed site : Nat) : Mem := fun x =>
  if (adjust ptr fixed 0).userchunk + (adjust ptr fixed 0).nonHeader - W.t ≤ x ∧
      x < (adjust ptr fixed 0).userchunk + (adjust ptr fixed 0).nonHeader then
    W.trailer site n (x - ((adjust ptr fixed 0).userchunk + (adjust ptr fixed 0).nonHeader - W.t))
  else if (adjust ptr fixed 0).userchunk - 8 ≤ x ∧ x < (adjust ptr fixed 0).userchunk then
    (adjust ptr fixed 0).nonHeader / 256 ^ (x - ((adjust ptr fixed 0).userchunk - 8)) % 256
  else if ptr ≤ x ∧ x < ptr + fixed then 0
  else m x

/-- One instruction of the changed function. The assertion is src/allocators/alloca.c:254. -/
def tstep (W : World) (s : TSt) : TInstr → Out TSt
  | .keep i =>
    match stackAlloc i with
    | some (tgt, _, e, _) =>
      match W.drop s.sp (e s.vars s.mem) with
      | none => .fault
      | some p => .ok { s with vars := assign s.vars tgt p, sp := p }
    | none => .ok { s with vars := (plain W.ext s.vars s.mem i).1, mem := (plain W.ext s.vars s.mem i).2 }
  | .set v c => .ok (setNew s v c)
  | .size v e => .ok (setNew s v (allocaSize W.t (e s.vars s.mem)))
  | .site v loc => .ok (setNew s v (W.site loc))
  | .alloca v n =>
    match W.drop s.sp (s.new n) with
    | none => .fault
    | some p => .ok { setNew s v p with sp := p }
  | .notify tgt ptr e fixed counter site =>
    if Alloca.SANE < (adjust (s.new ptr) (s.new fixed) (s.new counter)).nonHeader then .abort
    else .ok
      { vars := assign s.vars tgt (adjust (s.new ptr) (s.new fixed) (s.new counter)).userchunk,
        mem := notifyMem W s.mem (s.new ptr) (e s.vars s.mem) (s.new fixed) (s.new site),
        sp := s.sp,
        new := fun y => if y = counter then (adjust (s.new ptr) (s.new fixed) (s.new counter)).counter else s.new y,
        chunks := ⟨(adjust (s.new ptr) (s.new fixed) (s.new counter)).userchunk, e s.vars s.mem, s.new site,
          (adjust (s.new ptr) (s.new fixed) (s.new counter)).nonHeader⟩ :: s.chunks }

def tsteps (W : World) : TSt → List TInstr → Out TSt
  | s, [] => .ok s
  | s, i :: l =>
    match tstep W s i with
    | .ok s' => tsteps W s' l
    | .fault => .fault
    | .abort => .abort
    | .more => .more
    | .stuck => .stuck

/-- Statements from `pc` on, at most `k` of them: the value returned and the state then. -/
def trun (W : World) (body : List (List TInstr × Next)) : Nat → Nat → TSt → Out (Nat × TSt)
  | 0, _, _ => .more
  | k + 1, pc, s =>
    match body[pc]? with
    | none => .stuck
    | some (is, n) =>
      match tsteps W s is with
      | .ok s' =>
        match n with
        | .goto q => trun W body k q s'
        | .branch e a b => trun W body k (if e s'.vars s'.mem ≠ 0 then a else b) s'
        | .ret e => .ok (e s'.vars s'.mem, s')
      | .fault => .fault
      | .abort => .abort
      | .more => .more
      | .stuck => .stuck

/-- A call of the changed function. -/
def tcall (W : World) (f : TFun) (k : Nat) (s : TSt) : Out (Nat × TSt) :=
  match tsteps W s f.entry with
  | .ok s' => trun W f.body k 0 s'
  | .fault => .fault
  | .abort => .abort
  | .more => .more
  | .stuck => .stuck

end Liballocs.MonAlloca
