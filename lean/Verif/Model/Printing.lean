/-!
# Small text routines: numbers in messages, copies of strings, names of static objects
(src/preload.c, src/pageindex.c, src/private-libc.c, src/allocators/static-symbol.c)

Simplifications: what is written is the list of character codes; a failed `write` is not modelled. A string is a list of
characters without NUL; memory for a copy is taken to be available.
-/
namespace Liballocs.Printing

/-! ## Numbers -/

/-- The lines of `write_decint` (src/preload.c:337-346) from the digit of weight `10^k` down: a digit is written if it is not
zero or one was written before; the last is always written. `/` and `%` round towards zero. -/
def decFrom : Nat → Bool → Int → List Int
  | 0, _, v => [48 + v.tmod 10]
  | k + 1, written, v =>
    let a := 48 + (v.tdiv (10 ^ (k + 1))).tmod 10
    if a ≠ 48 ∨ written = true then a :: decFrom k true v else decFrom k written v

/-- `write_decint` (src/preload.c:333-347). -/
def writeDecint (v : Int) : List Int := decFrom 9 false v

/-- The printing of the process number at start-up (src/pageindex.c:405-416) from the digit of weight `10^k` down; `seen`: a
digit other than zero was seen. The last character is written even if it is a space. -/
def pidFrom : Nat → Bool → Nat → List Nat
  | 0, seen, p => if p % 10 ≠ 0 then [48 + p % 10] else if seen = true then [48] else [32]
  | k + 1, seen, p =>
    let d := p / 10 ^ (k + 1) % 10
    if d ≠ 0 then (48 + d) :: pidFrom k true p
    else if seen = true then 48 :: pidFrom k seen p
    else pidFrom k seen p

/-- The five digits of a process number (src/pageindex.c:411-415). -/
def printPid (p : Nat) : List Nat := pidFrom 4 false p

/-! ## Copies of strings -/

abbrev Text := List Char

def nul : Char := Char.ofNat 0

/-- `__liballocs_private_strdup` (src/private-libc.c:9-15): the bytes of the new block. -/
def strdup (s : Text) : Text := (s ++ [nul]).take (s.length + 1)

/-- `__liballocs_private_strndup` (src/private-libc.c:17-24): the bytes of the new block. -/
def strndup (s : Text) (n : Nat) : Text :=
  let len := (if n > s.length then s.length else n) + 1
  (s ++ [nul]).take len

/-- What a reader of the block at its beginning takes for a string; `none`: the block has no end mark. -/
def readBack (b : Text) : Option Text := if nul ∈ b then some (b.takeWhile (fun c => c != nul)) else none

end Liballocs.Printing
