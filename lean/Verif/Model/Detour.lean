/-!
# Detours into allocsld

`allocsld/allocinstr.c` (prologue, trampoline, detour) and `allocsld/asmutil.h` (relocation).

Simplifications: memory is a function from addresses to bytes, code does not lie across the end of the address space; the instruction decoder of
libsystrap is a parameter giving an instruction's length and up to two relocatable fields, each by its offset in bytes and its relocation type;
the assembled `jmp` is the byte E9 and a 32-bit displacement. Uninitialised values used and relocation types other than those of `apply_one_reloc`
are `none`.
-/
namespace Liballocs.Detour

abbrev Mem := Nat → Nat

/-- Relocation types (allocsld/asmutil.h:84-93). -/
inductive Kind
  | pc32 | abs64 | abs32 | abs32s | tpoff32 | other
  deriving DecidableEq

/-- A little-endian number of `n` bytes. -/
def rd (m : Mem) (a : Nat) : Nat → Nat
  | 0 => 0
  | n + 1 => m a + 256 * rd m (a + 1) n

/-- Store of `n` bytes of a number. -/
def wr (m : Mem) (a v n : Nat) : Mem := fun x => if a ≤ x ∧ x < a + n then v / 256 ^ (x - a) % 256 else m x

/-- `memcpy` between places that do not overlap. -/
def copy (m : Mem) (dst src n : Nat) : Mem := fun x => if dst ≤ x ∧ x < dst + n then m (src + (x - dst)) else m x

def W : Nat := 2 ^ 64

/-- `apply_one_reloc` (allocsld/asmutil.h:76-94) with the symbol's address `s` and addend `a`, both modulo `2 ^ 64`. -/
def applyReloc (m : Mem) (tgt : Nat) (k : Kind) (s a : Nat) : Option Mem :=
  match k with
  | .pc32 => some (wr m tgt ((s + (W - tgt % W) + a) % W) 4)
  | .abs64 => some (wr m tgt ((s + a) % W) 8)
  | .abs32 => some (wr m tgt ((s + a) % W) 4)
  | .abs32s => some (wr m tgt ((s % 2 ^ 32 + a % 2 ^ 32) % 2 ^ 32) 4)
  | .tpoff32 => some (wr m tgt ((s + a) % W) 4)
  | .other => none

/-- `read_one_relocated_field` (allocsld/asmutil.h:95-111); the local variables are zeroed, and only their low half is stored to. -/
def readReloc (m : Mem) (tgt : Nat) (k : Kind) : Option Nat :=
  match k with
  | .pc32 => some ((tgt + rd m tgt 4) % W)
  | .abs64 => some (rd m tgt 8)
  | .abs32 => some (rd m tgt 4)
  | .abs32s => some (rd m tgt 4)
  | .tpoff32 => some (rd m tgt 4)
  | .other => none

/-- A relocatable field: offset and type. -/
abbrev Field := Nat × Kind

/-- What the decoder says of an instruction; length 0 is an error. -/
structure Info where
  len : Nat
  fields : List Field

/-- `MAYBE_APPEND_ONE_FIELD` (allocsld/allocinstr.c:62-66) for the fields of one instruction, at `n` bytes. -/
def append (cap n : Nat) : List Field → List Field → List Field
  | acc, [] => acc
  | acc, f :: l => append cap n (if acc.length < cap then acc ++ [(n + f.1, f.2)] else acc) l

/-- The loop of `prologue_get_first_non_displaced` (allocsld/allocinstr.c:57-85), from `n` bytes on: the number of displaced bytes and
the fields, by their offsets in the function. Each instruction has a byte, so five steps are enough. -/
def prologue (dec : Nat → Info) (func cap : Nat) : Nat → Nat → List Field → Option (Nat × List Field)
  | 0, n, acc => if n < 5 then none else some (n, acc)
  | k + 1, n, acc =>
    if n < 5 then
      if (dec (func + n)).len = 0 then none
      else prologue dec func cap k (n + (dec (func + n)).len) (append cap n acc (dec (func + n)).fields)
    else some (n, acc)

/-- The loop that relocates the fields (allocsld/allocinstr.c:131-143). -/
def relocate (func buf : Nat) : Mem → List Field → Option Mem
  | m, [] => some m
  | m, f :: l => (readReloc m (func + f.1) f.2).bind (fun s => (applyReloc m (buf + f.1) f.2 s 0).bind (fun m => relocate func buf m l))

/-- `memcpy_and_relocate` of one `jmp` to `t`, with the addend -4 (allocsld/asmutil.h:112-121, allocsld/allocinstr.c:144-150, 168-174). -/
def jmp (m : Mem) (p t : Nat) : Option Mem := applyReloc (wr m p 0xe9 5) (p + 1) .pc32 t (W - 4)

/-- `write_monopoline_and_detour` (allocsld/allocinstr.c:103-184): the memory and the next free place for a trampoline. If the prologue cannot
be decoded, the displaced bytes are counted from NULL and the four fields are not initialised. -/
def write (dec : Nat → Info) (m : Mem) (func detour slot buf : Nat) : Option (Mem × Nat) :=
  match prologue dec func 4 5 0 [] with
  | none => none
  | some (n, fs) =>
    (relocate func buf (copy m buf func n) fs).bind (fun m =>
      (jmp m (buf + n) (func + n)).bind (fun m =>
        (jmp (wr m slot buf 8) func detour).map (fun m => (m, buf + n + 5))))

/-- The decoder as it is in the code, where the call of the decoder is commented out (allocsld/allocinstr.c:75). -/
def stub : Nat → Info := fun _ => ⟨0, []⟩

end Liballocs.Detour
