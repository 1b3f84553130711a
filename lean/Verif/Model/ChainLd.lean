import Verif.Model.Detour
/-!
# Handing over to the system's dynamic linker (allocsld/chain.c, tools/interp-pad.S)

Simplifications.
* Memory is a function from addresses to bytes; which addresses may be written to is a predicate. A store elsewhere is a
  fault.
* `symbol_lookup_in_dyn` (librunt) is given by its results. The page size is 4096.
* The assembled instructions (allocsld/chain.c:227-231) are those of the comment there: `48 b8`, eight bytes, `ff e0`.
* What donald does before and after (finding the program headers, loading the system's dynamic linker, starting it) is not
  modelled.
-/
namespace Liballocs.ChainLd
open Detour (Mem rd wr W)

/-- A program header, as far as it is looked at. -/
inductive PType
  | phdr | interp | other
  deriving DecidableEq

structure Phdr where
  type : PType
  vaddr : Nat
  filesz : Nat
  writable : Bool
  deriving DecidableEq

/-- The messages of `die` in allocsld/chain.c:120-153, and the failed assertion (208). -/
inductive Why
  | noPhdrs | noBase | notWritable | noInterp | noSpace | noHook
  deriving DecidableEq

inductive Out (α : Type)
  | die (w : Why)
  | fault
  | ok (a : α)

/-- Stores of single bytes from an address on. -/
def put (m : Mem) (a : Nat) : List Nat → Mem
  | [] => m
  | b :: bs => put (fun x => if x = a then b else m x) (a + 1) bs

/-- May all of `n` bytes be written to? -/
def mayPut (w : Nat → Bool) (a : Nat) : Nat → Bool
  | 0 => true
  | n + 1 => w a && mayPut w (a + 1) n

/-- The loop that finds the base address (allocsld/chain.c:123-134): the last header of type PT_PHDR counts. -/
def baseOf (at_ : Nat) (found : Option Nat) : List Phdr → Option Nat
  | [] => found
  | p :: l => baseOf at_ (if p.type = .phdr then some ((at_ + (W - p.vaddr % W)) % W) else found) l

/-- The loop that finds the string (allocsld/chain.c:135-149): the last header of type PT_INTERP counts, and all must be
writable. -/
def interpOf (base : Nat) (found : Option (Nat × Nat)) : List Phdr → Out (Option (Nat × Nat))
  | [] => .ok found
  | p :: l =>
    if p.type = .interp then
      (if p.writable = true then interpOf base (some ((base + p.vaddr) % W, p.filesz)) l else .die .notWritable)
    else interpOf base found l

/-- `fix_link_map_paths` for a program that names allocsld (allocsld/chain.c:116-155). `phdrs` is `none` for a null pointer,
else where the headers are and what they say; `path` is the string without its end mark. An address of 0 counts as none. -/
def fixInterp (w : Nat → Bool) (m : Mem) (phdrs : Option (Nat × List Phdr)) (path : List Nat) : Out Mem :=
  match phdrs with
  | none => .die .noPhdrs
  | some (at_, ps) =>
    match baseOf at_ none ps with
    | none => .die .noBase
    | some base =>
      match interpOf base none ps with
      | .die y => .die y
      | .fault => .fault
      | .ok none => .die .noInterp
      | .ok (some (a, n)) =>
        if a = 0 then .die .noInterp
        else if n < path.length + 1 then .die .noSpace
        else if mayPut w a (path.length + 1) = true then .ok (put m a (path ++ [0]))
        else .fault

/-- `fix_link_map_paths` when allocsld was started as a program (allocsld/chain.c:156-189); `none`: there is no `argv[0]`. -/
def fixArgv (argv : List (List Nat)) (path : List Nat) : Option (List (List Nat)) :=
  match argv with
  | [] => none
  | _ :: l => some (path :: l)

/-- `mprotect` of one page (allocsld/chain.c:223-225, 233): what may be written to. -/
def protect (w : Nat → Bool) (page : Nat) (b : Bool) : Nat → Bool := fun x => if x / 4096 * 4096 = page then b else w x

/-- The instructions stored (allocsld/chain.c:227-232): `movabs` of the hook's address to `rax`, and a jump there. -/
def jumpBytes (hook : Nat) : List Nat :=
  [0x48, 0xb8, hook % 256, hook / 256 % 256, hook / 256 ^ 2 % 256, hook / 256 ^ 3 % 256, hook / 256 ^ 4 % 256,
    hook / 256 ^ 5 % 256, hook / 256 ^ 6 % 256, hook / 256 ^ 7 % 256, 0xff, 0xe0]

/-- `chain_dl_debug_state_function` (allocsld/chain.c:197-242) up to the call of the changed function. `rdebug` and `hookSym`
are the values of the symbols `_r_debug` and `_dl_debug_state`, `none` if there are none. -/
def chainHook (w : Nat → Bool) (m : Mem) (base : Nat) (rdebug hookSym : Option Nat) (ours : Nat) : Out (Mem × (Nat → Bool)) :=
  match rdebug with
  | none => .fault
  | some _ =>
    match hookSym with
    | none => .die .noHook
    | some v =>
      if mayPut (protect w (((base + v) % W) / 4096 * 4096) true) ((base + v) % W) 12 = true then
        .ok (put m ((base + v) % W) (jumpBytes ours), protect w (((base + v) % W) / 4096 * 4096) false)
      else .fault

/-- Where a jump of the form stored leads to, if there is one at `pc`. -/
def landing (m : Mem) (pc : Nat) : Option Nat :=
  if m pc = 0x48 ∧ m (pc + 1) = 0xb8 ∧ m (pc + 10) = 0xff ∧ m (pc + 11) = 0xe0 then some (rd m (pc + 2) 8) else none

/-- The contents of the section `.interp` (tools/interp-pad.S:27-28, Makefile.am:112-113). -/
def interpPad (pre path : List Nat) : List Nat := pre ++ [0] ++ path ++ [0]

end Liballocs.ChainLd
