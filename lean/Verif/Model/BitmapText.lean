import Verif.Model.CcArgs
import Verif.Model.SegMeta
import Verif.Model.MetavecBuild
/-!
# Writing a segment's bitmap as C (tools/metavector.cpp)

The tool that describes a file's static objects writes, for each loadable segment, a bitmap of where objects start. It is written as a C array of words; before each
line of words a comment shows the same bits as a picture, 256 bytes of the segment to a line, under a heading of hexadecimal offsets.

Simplifications: the text is a list of characters. Words are numbers less than `2 ^ 64`. The array that holds the bitmap while it is made is a local variable, and running
out of stack is not modelled. Writing always succeeds. `unsigned` has 32 bits: this matters for the count of digits; the index of a word cannot reach `2 ^ 32` before that count
is found wrong.
-/
namespace Liballocs.BitmapText

abbrev W := List Char

/-- `setw(k) << setfill('0') << std::hex` (tools/metavector.cpp:561-562, 567-568, 578-579). -/
def padHex (k n : Nat) : W := List.replicate (k - (SegMeta.hex n).length) '0' ++ SegMeta.hex n

/-- The heading (tools/metavector.cpp:539). -/
def HEADING : W := w! "/*               |-00      |-08      |-10      |-18      |-20      |-28      |-30      |-38      |-40      |-48      |-50      |-58      |-60      |-68      |-70      |-78      |-80      |-88      |-90      |-98      |-a0      |-a8      |-b0      |-b8      |-c0      |-c8      |-d0      |-d8      |-e0      |-e8      |-f0      |-f8 ff-|  */"

/-- The words `bitmap[j]` up to `bitmap[idx - 1]` (tools/metavector.cpp:558-564), which are the given list. `n` is `bitmap_nwords`. -/
def wordsText (n idx : Nat) : Nat → List Nat → W
  | _, [] => []
  | j, w :: ws => '0' :: 'x' :: (padHex 16 w ++ ((if idx ≠ n ∨ j + 1 ≠ idx then [',', ' '] else []) ++ wordsText n idx (j + 1) ws))

/-- The start of a line of the picture (tools/metavector.cpp:567-569). -/
def lineStart (addr : Nat) : W := '\n' :: '/' :: '*' :: ' ' :: '0' :: 'x' :: (padHex 8 (addr / 256 * 256) ++ [':', ' ', '0', 'b'])

/-- `flush_content_up_to` (tools/metavector.cpp:551-572), but for the update of `printed_words_up_to_idx`; `none`: an assertion fails. -/
def flush (bm : List Nat) (addr printed idx : Nat) (newline : Bool) : Option W :=
  if newline = true ∨ idx = bm.length then
    if newline = false ∨ addr % 256 = 0 then
      some (' ' :: '*' :: '/' :: ' ' :: (wordsText bm.length idx printed ((bm.drop printed).take (idx - printed))
        ++ (if newline then lineStart addr else [])))
    else none
  else none

/-- The binary digits of a word (tools/metavector.cpp:596-602), `k` of them left to write; `d` is `digits_printed`; `none`: the assertion. -/
def bitsText (span w : Nat) : Nat → Nat → Option (Nat × W)
  | 0, d => some (d, [])
  | k + 1, d =>
    if (d + 1) % 2 ^ 32 ≤ span then
      match bitsText span w k ((d + 1) % 2 ^ 32) with
      | none => none
      | some (e, s) => some (e, (if 63 - k ≠ 0 ∧ (63 - k) % 4 = 0 then [' '] else []) ++ (if w.testBit k then '1' else '0') :: s)
    else none

/-- The loop over the words and what follows it (tools/metavector.cpp:587-609): `i`, `base_addr_of_current_word`, `printed_words_up_to_idx` and
`digits_printed`; the list is what is left of the bitmap. -/
def loop (bm : List Nat) (span : Nat) : Nat → Nat → Nat → Nat → List Nat → Option W
  | i, addr, printed, d, [] =>
    if d = span then (flush bm addr printed i false).map (· ++ ['\n']) else none
  | i, addr, printed, d, w :: ws =>
    let crossing := decide (i ≠ 0 ∧ addr % 256 = 0)
    match (if crossing then flush bm addr printed i true else some []) with
    | none => none
    | some s =>
      match bitsText span w 64 d with
      | none => none
      | some (e, t) =>
        match loop bm span (i + 1) (addr + 64) (if crossing then i else printed) e ws with
        | none => none
        | some u => some (s ++ (t ++ ' ' :: u))

/-- `nbytes_to_boundary` (tools/metavector.cpp:575): `ROUND_UP(base, 256) - base`. -/
def toBoundary (base : Nat) : Nat := (base + 255) / 256 * 256 - base

/-- What is written between the braces (tools/metavector.cpp:539, 546-609), for a bitmap whose first bit is for the address `base`, a multiple of 64. -/
def text (base : Nat) (bm : List Nat) : Option W :=
  if toBoundary base % 8 = 0 then
    match loop bm (64 * bm.length) 0 base 0 0 bm with
    | none => none
    | some u => some (HEADING ++ '\n' :: '/' :: '*' :: ' ' :: '0' :: 'x' :: (padHex 8 (base / 256 * 256) ++ ':' :: ' ' ::
        (List.replicate (toBoundary base / 4 * 5) ' ' ++ '0' :: 'b' :: u)))
  else none

/-- `bitmap_set_b` (external: bitmap.h; tools/metavector.cpp:532): the most significant bit of a word is for its first address. `none`: beyond the array. -/
def setBit (bm : List Nat) (i : Nat) : Option (List Nat) :=
  if i / 64 < bm.length then some (bm.modify (i / 64) (· ||| 2 ^ (63 - i % 64))) else none

/-- Setting the bits one after another. -/
def setBits : List Nat → List Nat → Option (List Nat)
  | bm, [] => some bm
  | bm, i :: is =>
    match setBit bm i with
    | none => none
    | some bm => setBits bm is

/-- Making the bitmap of a segment (tools/metavector.cpp:515-535). -/
def build (base limit : Nat) (recs : List (Nat × MetavecBuild.GRec)) : Option (List Nat) :=
  match MetavecBuild.bits base limit recs with
  | none => none
  | some is => setBits (List.replicate (MetavecBuild.bitmapWords base limit) 0) is

/-- Making it and writing it (tools/metavector.cpp:515-609). -/
def bitmapText (base limit : Nat) (recs : List (Nat × MetavecBuild.GRec)) : Option W :=
  match build base limit recs with
  | none => none
  | some bm => text (MetavecBuild.bitmapBase base) bm

end Liballocs.BitmapText
