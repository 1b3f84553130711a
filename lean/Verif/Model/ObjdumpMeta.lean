import Verif.Model.MergeSites
/-!
# Finding allocating instructions in a disassembly (tools/objdumpmeta.awk)

The script reads the output of `objdump --line-numbers --prefix-addresses --show-raw-insn -S` and prints, for each call that looks like an
allocation, its return address, the file and a range of lines.

Simplifications.  Regular expressions are not modelled: a line comes as the first pattern that it matches, in the order of the script.
The text of source lines, which is printed only as a comment, is left out, and so is the offset of the return address in its symbol.
-/
namespace Liballocs.ObjdumpMeta

open MergeSites (Text)

/-- A disassembled instruction: address, symbol, and whether it matches `meta_instr_regexp`. -/
structure Insn where
  addr : Nat
  sym : Text
  alloc : Bool
  deriving DecidableEq

/-- A line, by the first pattern that it matches (tools/objdumpmeta.awk:36, 42, 62, 72, 104, 134, 141, 155). -/
inductive Line where
  | header
  | blank
  | section
  | file (name : Text) (line : Nat)
  | func
  | dots
  | other
  | insn (i : Insn)
  deriving DecidableEq

/-- What is remembered of an instruction until the next one (tools/objdumpmeta.awk:180-187). -/
structure Latch where
  addr : Nat
  loc : Option (Text × Nat)
  offset : Nat
  deriving DecidableEq

/-- The variables (tools/objdumpmeta.awk:5-33). -/
structure State where
  state : Nat
  fresh : Bool
  offset : Nat
  loc : Option (Text × Nat)
  latch : Option Latch
  deriving DecidableEq

def start : State := ⟨0, true, 0, none, none⟩

/-- A line printed (tools/objdumpmeta.awk:173). -/
structure Out where
  sym : Text
  ret : Nat
  addr : Nat
  file : Text
  first : Nat
  last : Nat
  deriving DecidableEq

/-- A source line (tools/objdumpmeta.awk:50-57 and the like). -/
def source (s : State) : State := { s with fresh := false, offset := (if s.fresh then 0 else s.offset) + 1, state := 1 }

/-- The name of the file, or `??`, and the line, or 0 (tools/objdumpmeta.awk:166-168). -/
def fileOf : Option (Text × Nat) → Text
  | none => ['?', '?']
  | some p => p.1

def lineOf : Option (Text × Nat) → Nat
  | none => 0
  | some p => p.2

/-- Printing, when the next instruction is `i` (tools/objdumpmeta.awk:161-176). -/
def print (l : Latch) (i : Insn) : Out :=
  ⟨i.sym, i.addr, l.addr, fileOf l.loc, lineOf l.loc, lineOf l.loc + (if l.offset = 0 then 1 else l.offset)⟩

/-- One line (tools/objdumpmeta.awk:36-194). -/
def step (s : State) : Line → State × Option Out
  | .header => ({ s with state := 0 }, none)
  | .blank => if s.state = 0 then (s, none) else (source s, none)
  | .section => ({ s with state := 4, fresh := false, offset := 0, loc := none }, none)
  | .file n l =>
    if s.state = 4 then ({ s with loc := some (n, l), state := 3, fresh := false, offset := 0 }, none)
    else if s.state = 2 then ({ s with loc := some (n, l), state := 1, fresh := false, offset := 0 }, none)
    else (source s, none)
  | .func =>
    if s.state = 3 ∨ s.state = 4 then ({ s with fresh := false, offset := 0, loc := none, state := 2 }, none)
    else (source s, none)
  | .dots => ({ s with state := 4 }, none)
  | .other => (source s, none)
  | .insn i => ({ s with latch := if i.alloc then some ⟨i.addr, s.loc, s.offset⟩ else none, state := 4 }, s.latch.map fun l => print l i)

def run : State → List Line → List Out
  | _, [] => []
  | s, l :: ls => (step s l).2.toList ++ run (step s l).1 ls

/-- The script. -/
def script (ls : List Line) : List Out := run start ls

end Liballocs.ObjdumpMeta
