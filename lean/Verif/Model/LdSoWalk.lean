import Verif.Model.CcArgs
import Verif.Model.Detour

/-!
# Instrumenting the dynamic linker's allocation functions (allocsld/allocinstr.c)

Before the real dynamic linker runs, its symbols are walked, and each of its four allocation functions gets a detour and a trampoline (`Detour`). This is
a model of the walk, of the two pages mapped before it, and of the protection of pages.

Simplifications: a page's protection is whether it can be written and whether it can be executed; `mprotect` does as asked (its result is not looked at);
memory is what it is after the index of allocations has been set up (allocsld/allocinstr.c:319-334), whose contents are in `LinearMalloc`; a symbol is its
name and its value, and `sym_to_addr_given_base` adds the value to the base; the file of metadata is given by what is found in it. The instruction decoder is
a parameter that is given memory and an address. An abort or a write to a page that is not writable is `none`.
-/

namespace Liballocs.LdSoWalk

open Detour (Mem Info write)

/-- The functions that `instr_cb` knows (allocsld/allocinstr.c:532-535). -/
inductive Fn
  | malloc | calloc | realloc | free
  deriving DecidableEq

/-- The comparisons of names (allocsld/allocinstr.c:532-535, 547, 559-562). -/
def which (name : List Char) : Option Fn :=
  if name = w! "__minimal_malloc" then some .malloc
  else if name = w! "__minimal_calloc" then some .calloc
  else if name = w! "__minimal_realloc" then some .realloc
  else if name = w! "__minimal_free" then some .free
  else none

/-- A symbol: `st_name` as a string, `st_value`, and whether it has a section (`st_shndx`), which is never looked at. -/
structure Sym where
  name : List Char
  value : Nat
  defined : Bool

/-- A page's protection, besides being readable. -/
structure Prot where
  w : Bool
  x : Bool
  deriving DecidableEq

/-- `page_size`. -/
def page : Nat := 4096

/-- `mprotect` of the pages from `b` to `e`. -/
def protect (prot : Nat → Prot) (b e : Nat) (p : Prot) : Nat → Prot := fun q => if b ≤ q * page ∧ q * page < e then p else prot q

/-- Where the dynamic linker is, the detours (`allocsld_detour_malloc` and so on), and the variables for the original functions (`orig_malloc`
and so on). -/
structure Env where
  base : Nat
  detour : Fn → Nat
  slot : Fn → Nat

/-- Memory, the protection of pages, and `trampoline_buf_info.nextfree`. `limit` is handed on, and never looked at (allocsld/allocinstr.c:103-184). -/
structure St where
  mem : Mem
  prot : Nat → Prot
  next : Nat

/-- `instr_cb` (allocsld/allocinstr.c:523-569). -/
def visit (dec : Mem → Nat → Info) (e : Env) (s : St) (y : Sym) : Option St :=
  match which y.name with
  | none => some s
  | some f =>
    let a := e.base + y.value
    let first := a / page * page
    let last := (a + 5 + page - 1) / page * page
    let prot := protect s.prot first last ⟨true, false⟩
    match write (dec s.mem) s.mem a (e.detour f) (e.slot f) s.next with
    | none => none
    | some (m, next) =>
      if (prot (a / page)).w && (prot ((a + 4) / page)).w && (prot (s.next / page)).w && (prot ((next - 1) / page)).w then
        some ⟨m, protect prot first last ⟨false, true⟩, next⟩
      else none

/-- `ITERATE_SYMTAB` (allocsld/allocinstr.c:204-208): the callback never says to stop. -/
def iterate (dec : Mem → Nat → Info) (e : Env) : St → List Sym → Option St
  | s, [] => some s
  | s, y :: l => (visit dec e s y).bind (fun s => iterate dec e s l)

/-- What is found of the metadata for the dynamic linker (allocsld/allocinstr.c:223-239): no file; a file without a dynamic section; one without the further
symbols or their strings; or the further symbols. -/
inductive Meta
  | none
  | noDynamic
  | noExtra
  | extra (syms : List Sym)

/-- `walk_all_ld_so_symbols` (allocsld/allocinstr.c:196-248). -/
def walk (dec : Mem → Nat → Info) (e : Env) (s : St) (dynsym : List Sym) (mt : Meta) : Option St :=
  (iterate dec e s dynsym).bind (fun s =>
    match mt with
    | .none => some s
    | .noDynamic => some s
    | .noExtra => Option.none
    | .extra l => iterate dec e s l)

/-- `instrument_ld_so_allocators` (allocsld/allocinstr.c:256-350) where there is `MAP_FIXED_NOREPLACE`; `mapped` says which pages are in use. -/
def instrument (dec : Mem → Nat → Info) (e : Env) (m : Mem) (prot : Nat → Prot) (mapped : Nat → Bool) (dynsym : List Sym) (mt : Meta) : Option St :=
  if mapped ((e.base - 4096) / page) then none
  else if mapped ((e.base - 8192) / page) then none
  else
    let prot := protect prot (e.base - 4096) e.base ⟨true, false⟩
    let prot := protect prot (e.base - 8192) (e.base - 4096) ⟨true, true⟩
    (walk dec e ⟨m, prot, e.base - 8192⟩ dynsym mt).map (fun s =>
      { s with prot := protect s.prot (e.base - 8192) (e.base - 4096) ⟨false, true⟩ })

end Liballocs.LdSoWalk
