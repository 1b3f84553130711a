/-!
# Compiled DWARF expressions (tools/dwarf-machine.hpp)

A program is a type-level list of instructions; a state's `eval` is instantiated for every suffix of the program.  Run-time stack: a chain of
sections.

Simplifications: a run-time index of a jump (`run_time_pc`, which is not used) is modelled on its own; a program is shorter than 4 GB, so that the
seek in `gobble_nbytes` cannot come back to 0 by wrapping round.  Signed overflow is undefined behaviour.
-/
namespace Liballocs.DwarfMachine

/-- The operations that `state` is specialised for (tools/dwarf-machine.hpp:427-576); any other has no `eval`. -/
inductive Op
  | bra | dup | nop | mod | plus | mul | lit2 | other
  deriving DecidableEq, Repr

/-- `struct program` (tools/dwarf-machine.hpp:19-27), the head of it. -/
structure Instr where
  op : Op
  arg : Int
  len : Nat
  deriving DecidableEq, Repr

/-- `struct stack_section` (tools/dwarf-machine.hpp:59-67), without its link: a stack is the list along `prev`. -/
structure Sec where
  words : List Int
  nspare : Nat
  deriving DecidableEq, Repr

/-- `operator[]` (tools/dwarf-machine.hpp:70-80); `none` is a failed assertion. -/
def get : List Sec → Nat → Option Int
  | [], _ => none
  | s :: prev, off =>
    if off < s.words.length - s.nspare then s.words[s.nspare + off]? else get prev (off - (s.words.length - s.nspare))

/-- Assignment through `operator[]`. -/
def put : List Sec → Nat → Int → Option (List Sec)
  | [], _, _ => none
  | s :: prev, off, v =>
    if off < s.words.length - s.nspare then some ({ s with words := s.words.set (s.nspare + off) v } :: prev)
    else (put prev (off - (s.words.length - s.nspare)) v).map (s :: ·)

/-- `drop_n` (tools/dwarf-machine.hpp:81-96); `none` is `abort`. -/
def drop : List Sec → Nat → Option (List Sec)
  | [], _ => none
  | s :: prev, n =>
    if n - min (s.words.length - s.nspare) n > 0 then
      match prev with
      | [] => none
      | _ :: _ => (drop prev (n - min (s.words.length - s.nspare) n)).map
          ({ s with nspare := s.nspare + min (s.words.length - s.nspare) n } :: ·)
    else some ({ s with nspare := s.nspare + min (s.words.length - s.nspare) n } :: prev)

/-- `initstack` (tools/dwarf-machine.hpp:103-109) and filling it with the arguments (tools/dwarf-machine.hpp:585-605). -/
def init (args : List Int) : List Sec := [⟨args, 0⟩]

/-- `morestack(sizeof (long))` and `end[0] = v` (tools/dwarf-machine.hpp:110-112, 492-493, 572-573). -/
def push (v : Int) (st : List Sec) : List Sec := ⟨[v], 0⟩ :: st

/-- `byte_length` (tools/dwarf-machine.hpp:129-140). -/
def byteLength : List Instr → Nat
  | [] => 0
  | i :: r => i.len + byteLength r

/-- `gobble_nbytes<n, Seq>::tail` (tools/dwarf-machine.hpp:186-215); `none` does not compile. -/
def gobbleTail : Nat → List Instr → Option (List Instr)
  | 0, [] => some []
  | 0, _ :: r => some r
  | _ + 1, [] => none
  | n + 1, i :: r => if i.len ≤ n + 1 then gobbleTail (n + 1 - i.len) r else none

/-- `drop_n_instructions<n, Program>` (tools/dwarf-machine.hpp:154-184): what follows from the nth instruction. -/
def dropInstrs : Nat → List Instr → List Instr
  | 0, p => p
  | _ + 1, [] => []
  | n + 1, _ :: r => dropInstrs n r

/-- Where a taken branch goes on (tools/dwarf-machine.hpp:461-471); `none` does not compile. -/
def target (whole : List Instr) (i : Instr) (r : List Instr) : Option (List Instr) :=
  if (byteLength whole : Int) - byteLength (i :: r) + i.len + i.arg < 0 then none
  else gobbleTail ((byteLength whole : Int) - byteLength (i :: r) + i.len + i.arg).toNat whole

/-- Whether `state` can be instantiated for all suffixes, which falling through comes to. -/
def compiles (whole : List Instr) : List Instr → Bool
  | [] => true
  | i :: r => decide (i.op ≠ .other) && (decide (i.op ≠ .bra) || (target whole i r).isSome) && compiles whole r

/-- A `long`. -/
def fits (v : Int) : Bool := decide (-2 ^ 63 ≤ v) && decide (v < 2 ^ 63)

/-- Arithmetic of `DW_OP_mod`, `DW_OP_plus` and `DW_OP_mul` (tools/dwarf-machine.hpp:524, 540, 556), on `end[1]` and `end[0]`; `none` is undefined
behaviour. -/
def arith (op : Op) (a b : Int) : Option Int :=
  match op with
  | .mod => if b ≠ 0 ∧ fits (a.tdiv b) then some (a.tmod b) else none
  | .plus => if fits (a + b) then some (a + b) else none
  | .mul => if fits (a * b) then some (a * b) else none
  | _ => none

/-- Outcomes of an evaluation: a value; a failed assertion or `abort`; undefined behaviour; no program; not yet. -/
inductive Out
  | ret (v : Int)
  | crash
  | ub
  | reject
  | more
  deriving DecidableEq, Repr

/-- `end[1] = end[1] op end[0]` and `lessstack` (tools/dwarf-machine.hpp:113-114, 524-525, 540-541, 556-557). -/
def binary (op : Op) (st : List Sec) : Except Out (List Sec) :=
  match get st 1, get st 0 with
  | some a, some b =>
    match arith op a b with
    | none => .error .ub
    | some v =>
      match put st 1 v with
      | none => .error .crash
      | some st' =>
        match drop st' 1 with
        | none => .error .crash
        | some st'' => .ok st''
  | _, _ => .error .crash

/-- `DW_OP_bra` (tools/dwarf-machine.hpp:435-478): where to go on. -/
def branch (whole : List Instr) (i : Instr) (r : List Instr) (st : List Sec) : Except Out (List Instr × List Sec) :=
  match get st 0 with
  | none => .error .crash
  | some t =>
    match drop st 1 with
    | none => .error .crash
    | some st' =>
      if t ≠ 0 then
        match target whole i r with
        | none => .error .reject
        | some r' => .ok (r', st')
      else .ok (r, st')

/-- One instruction (tools/dwarf-machine.hpp:427-576). -/
def step (whole : List Instr) (i : Instr) (r : List Instr) (st : List Sec) : Except Out (List Instr × List Sec) :=
  match i.op with
  | .bra => branch whole i r st
  | .dup =>
    match get st 0 with
    | none => .error .crash
    | some v => .ok (r, push v st)
  | .nop => .ok (r, st)
  | .lit2 => .ok (r, push 2 st)
  | .other => .error .reject
  | op =>
    match binary op st with
    | .error e => .error e
    | .ok st' => .ok (r, st')

/-- The end of the program (tools/dwarf-machine.hpp:223-235). -/
def finish (st : List Sec) : Out :=
  match get st 0 with
  | none => .crash
  | some v => .ret v

/-- `state<WholeProgram, ProgramTail>::eval`; the fuel is for backward branches. -/
def eval (whole : List Instr) : Nat → List Instr → List Sec → Out
  | _, [], st => finish st
  | 0, _ :: _, _ => .more
  | fuel + 1, i :: r, st =>
    match step whole i r st with
    | .error e => e
    | .ok (r', st') => eval whole fuel r' st'

/-- `invoke` (tools/dwarf-machine.hpp:585-605), the first argument on top. -/
def invoke (p : List Instr) (args : List Int) (fuel : Nat) : Out :=
  if compiles p p then eval p fuel p (init args) else .reject

/-- `state<WholeProgram, run_time_pc>` (tools/dwarf-machine.hpp:250-421), which is not used: where the branch to a byte offset goes on. -/
def runTimeTarget (whole : List Instr) (pc : Nat) : List Instr := dropInstrs pc whole

end Liballocs.DwarfMachine
