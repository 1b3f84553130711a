import Verif.Model.IfuncPos
import Verif.Model.SegMeta
/-!
# Addresses in messages (src/util.c, src/preload.c:348-371)

Messages name places in the program by file, symbol and offset.

Simplifications: what librunt's `fake_dladdr_with_cache` finds for an address is an input, with the contract that a symbol it gives starts at or below the
address; `basename` is GNU's; `%p` prints as glibc does, `(nil)` for a null pointer.
-/
namespace Liballocs.SymAddr

open CcArgs
open IfuncPos (Text basename)

/-- `Dl_info`: the file's name, the symbol's, and the symbol's address, 0 for none. -/
structure Info where
  fname : Option Text
  sname : Option Text
  saddr : Nat
  deriving DecidableEq

/-- `%p`. -/
def ptr (n : Nat) : Text := if n = 0 then w! "(nil)" else '0' :: 'x' :: SegMeta.hex n

/-- The string for a name that is not known (src/util.c:15-16). -/
def unknown : Text := w! "unknown"

/-- What is printed for the file (src/util.c:15). -/
def fileOf (i : Info) : Text :=
  match i.fname with
  | some f => basename f
  | none => unknown

/-- What is printed for the symbol (src/util.c:16). -/
def symOf (i : Info) : Text :=
  match i.sname with
  | some s => s
  | none => unknown

/-- What is printed after the plus sign (src/util.c:17-19); the difference is of 64-bit addresses. -/
def offOf (i : Info) (addr : Nat) : Nat := if i.saddr = 0 then 0 else (addr + 2 ^ 64 - i.saddr) % 2 ^ 64

/-- The size of the buffer (src/util.c:12). -/
def BUF : Nat := 8192

/-- `format_symbolic_address` (src/util.c:8-24): what `snprintf` leaves in the buffer. -/
def format (i : Info) (addr : Nat) : Text := (fileOf i ++ '`' :: (symOf i ++ '+' :: ptr (offOf i addr))).take (BUF - 1)

/-- `CALL_INSTR_LENGTH` (src/liballocs_private.h:247). -/
def CALL : Nat := 5

/-- The place of the call that returns to an address, as in `abort` (src/preload.c:359) and the messages of src/allocators/mmap.c:670. -/
def callSite (ret : Nat) : Nat := ret - CALL

/-- The message for a return address, given what there is at each address (src/preload.c:359). -/
def caller (at' : Nat → Info) (ret : Nat) : Text := format (at' (callSite ret)) (callSite ret)

end Liballocs.SymAddr
