import Verif.Model.MapSeq
import Verif.Model.Sizeof
import Verif.Model.CcArgs
import Verif.Model.Bfs
import Verif.Model.PackedSeq
/-!
# The project's own tests, run on the models

These are not properties. They compare the models with results that the project's authors wrote down in their tests: all assertions of `test_mapping_overlap`, and some of those of
the programs in `tests` that are about something modelled here.
-/
namespace Liballocs.RepoTests

/-! ## `test_mapping_overlap` (src/allocators/mmap.c:1605-1820) -/

namespace Overlap
open MapSeq

/-- The beginnings and ends of the mappings. -/
def ms : List (Nat × Nat) :=
  [(0xbeef10000, 0xbeef18000), (0xbeef18000, 0xbeef1c000), (0xbeef1c000, 0xbeef1e000), (0xbeef1e000, 0xbeef22000), (0xbeef22000, 0xbeef2a000)]

/-- `MAKE_FRESH_MAPPING_SEQUENCE` (src/allocators/mmap.c:1615-1619). -/
def fresh : Seq := ⟨0xbeef10000, 0xbeef2a000, 5, some 0, fun i =>
  match ms[i]? with
  | some m => ⟨m.1, m.2, 0, 0, 0, false, 0⟩
  | none => zero⟩

inductive Field
  | begin
  | «end»
  | flags

def Field.of : Field → Entry → Nat
  | .begin, e => e.begin
  | .end, e => e.end
  | .flags, e => e.flags

/-- What is asserted after the call: success, the number of mappings, and some of their fields. -/
def holds (lo hi nused : Nat) (fields : List (Nat × Field × Nat)) : Bool :=
  match augment (fun _ => 0) fresh ⟨lo, hi, 1, 1, 0xfeef, some 0, 0⟩ with
  | .ret true s => s.nused == nused && fields.all fun f => f.2.1.of (s.slots f.1) == f.2.2
  | _ => false

/-- Case 1: precise pre-overlap on first mapping only. -/
example : holds 0xbeef10000 0xbeef14000 6 [(0, .begin, 0xbeef10000), (0, .end, 0xbeef14000), (0, .flags, 1), (1, .begin, 0xbeef14000), (1, .end, 0xbeef18000), (1, .flags, 0), (5, .end, 0xbeef2a000)] = true := by decide +kernel
/-- Case 2: mid-overlap on first mapping only. -/
example : holds 0xbeef14000 0xbeef15000 7 [(0, .begin, 0xbeef10000), (0, .end, 0xbeef14000), (0, .flags, 0), (1, .begin, 0xbeef14000), (1, .end, 0xbeef15000), (1, .flags, 1), (2, .begin, 0xbeef15000), (2, .end, 0xbeef18000), (2, .flags, 0), (6, .end, 0xbeef2a000)] = true := by decide +kernel
/-- Case 3: precise end-overlap on first mapping only. -/
example : holds 0xbeef14000 0xbeef18000 6 [(0, .begin, 0xbeef10000), (0, .end, 0xbeef14000), (0, .flags, 0), (1, .begin, 0xbeef14000), (1, .end, 0xbeef18000), (1, .flags, 1), (5, .end, 0xbeef2a000)] = true := by decide +kernel
/-- Case 5: overrunning mid-overlap on first mapping spanning 1 more, no last-mapping overlap. -/
example : holds 0xbeef14000 0xbeef1c000 5 [(0, .begin, 0xbeef10000), (0, .end, 0xbeef14000), (0, .flags, 0), (1, .begin, 0xbeef14000), (1, .end, 0xbeef1c000), (1, .flags, 1), (4, .end, 0xbeef2a000)] = true := by decide +kernel
/-- Case 6: overrunning mid-overlap on first mapping spanning 2 more, no last-mapping overlap. -/
example : holds 0xbeef14000 0xbeef1e000 4 [(0, .begin, 0xbeef10000), (0, .end, 0xbeef14000), (0, .flags, 0), (1, .begin, 0xbeef14000), (1, .end, 0xbeef1e000), (1, .flags, 1), (3, .end, 0xbeef2a000)] = true := by decide +kernel
/-- Case 7: overrunning mid-overlap on first mapping spanning 0 more, last-mapping pre-overlap. -/
example : holds 0xbeef14000 0xbeef1a000 6 [(0, .begin, 0xbeef10000), (0, .end, 0xbeef14000), (0, .flags, 0), (1, .begin, 0xbeef14000), (1, .end, 0xbeef1a000), (1, .flags, 1), (2, .begin, 0xbeef1a000), (2, .end, 0xbeef1c000), (2, .flags, 0), (5, .end, 0xbeef2a000)] = true := by decide +kernel
/-- Case 8: overrunning mid-overlap on first mapping spanning 1 more, last-mapping pre-overlap. -/
example : holds 0xbeef14000 0xbeef1d000 5 [(0, .begin, 0xbeef10000), (0, .end, 0xbeef14000), (0, .flags, 0), (1, .begin, 0xbeef14000), (1, .end, 0xbeef1d000), (1, .flags, 1), (2, .begin, 0xbeef1d000), (2, .end, 0xbeef1e000), (2, .flags, 0), (4, .end, 0xbeef2a000)] = true := by decide +kernel
/-- Case 9: overrunning mid-overlap on first mapping spanning 2 more, last-mapping pre-overlap. -/
example : holds 0xbeef14000 0xbeef1f000 4 [(0, .begin, 0xbeef10000), (0, .end, 0xbeef14000), (0, .flags, 0), (1, .begin, 0xbeef14000), (1, .end, 0xbeef1f000), (1, .flags, 1), (2, .begin, 0xbeef1f000), (2, .end, 0xbeef22000), (2, .flags, 0), (3, .end, 0xbeef2a000)] = true := by decide +kernel
/-- Case 10: overlap spanning 1 middle mapping exactly. -/
example : holds 0xbeef18000 0xbeef1c000 5 [(0, .begin, 0xbeef10000), (0, .end, 0xbeef18000), (0, .flags, 0), (1, .begin, 0xbeef18000), (1, .end, 0xbeef1c000), (1, .flags, 1), (2, .begin, 0xbeef1c000), (2, .end, 0xbeef1e000), (2, .flags, 0), (4, .end, 0xbeef2a000)] = true := by decide +kernel
/-- Case 11: overlap spanning 2 middle mappings exactly. -/
example : holds 0xbeef18000 0xbeef1e000 4 [(0, .begin, 0xbeef10000), (0, .end, 0xbeef18000), (0, .flags, 0), (1, .begin, 0xbeef18000), (1, .end, 0xbeef1e000), (1, .flags, 1), (2, .begin, 0xbeef1e000), (2, .end, 0xbeef22000), (2, .flags, 0), (3, .end, 0xbeef2a000)] = true := by decide +kernel
/-- Case 12: precise overlap from first mapping, overrunning 1, precise end. -/
example : holds 0xbeef10000 0xbeef1c000 4 [(0, .begin, 0xbeef10000), (0, .end, 0xbeef1c000), (0, .flags, 1), (1, .begin, 0xbeef1c000), (1, .end, 0xbeef1e000), (1, .flags, 0), (3, .end, 0xbeef2a000)] = true := by decide +kernel
/-- Case 13: precise overlap from first mapping, overrunning 1, pre-overlapping end. -/
example : holds 0xbeef10000 0xbeef1d000 4 [(0, .begin, 0xbeef10000), (0, .end, 0xbeef1d000), (0, .flags, 1), (1, .begin, 0xbeef1d000), (1, .end, 0xbeef1e000), (1, .flags, 0), (3, .end, 0xbeef2a000)] = true := by decide +kernel

end Overlap

/-! ## Sizes: `tests/offsetof`, `tests/sizeof-subtract`, `tests/char-allocs`, `tests/sizeof-derived` -/

namespace Sizes
open Sizeof CilTypes CcArgs

def blah : Ty := .comp true (w! "blah")
def baz : Ty := .comp true (w! "baz")
def s1 : Ty := .comp true (w! "s1")
def ch : Ty := .int .char

/-- The structures of these programs. -/
def gs : Structs := fun n =>
  if n = (w! "blah") then some [(.int .int, false), (.float .float, false), (.arr ch (some 1), false)]
  else if n = (w! "baz") then some [(.ptr .void, false), (.arr blah (some 1), false)]
  else if n = (w! "s1") then some [(.float .float, false), (.arr (.int .uint) (some 1), false)] else none

/-- `offsetof(struct blah, z) + 10` is one `struct blah` (tests/offsetof/offsetof.c:22-29). -/
example : (getSize gs [] (.add (.cast (.addr true blah (.field true (.arr ch (some 1)) .no))) (.other 10))).map output = some (.named blah, false) := by decide +kernel
/-- `offsetof(struct baz, b) + 20 * sizeof (struct blah)` is a structure of a `struct baz` and an array of `struct blah` (tests/offsetof/offsetof.c:33-43). -/
example : (getSize gs [] (.add (.cast (.addr true baz (.field true (.arr blah (some 1)) .no))) (.mul (.other 20) (.size blah true)))).map output =
    some (.idl [baz, .arr blah none], false) := by decide +kernel
/-- `sizeof (struct s1) - sizeof (int) + 24` is a composite (tests/sizeof-subtract/sizeof-subtract.c:15-17). -/
example : (getSize gs [] (.add (.sub (.size s1 true) (.size (.int .int) true)) (.other 24))).map output = some (.named s1, false) := by decide +kernel
/-- `42` and `42 * sizeof (char)` and `42 * sizeof (unsigned char)` have types (tests/char-allocs/char-allocs.c:9-18). -/
example : (getSize gs [] (.other 42)).map output = some (.bytes, true) ∧ (getSize gs [] (.mul (.other 42) (.size ch true))).map output = some (.named ch, true) ∧
    (getSize gs [] (.mul (.other 42) (.size (.int .uchar) true))).map output = some (.named (.int .uchar), true) := by decide +kernel
/-- `argc * sizeof blah`, an array of 14, has a type (tests/sizeof-derived/sizeof-derived.c:10-12). -/
example : (getSize gs [] (.mul (.var true 1 0) (.size (.arr ch (some 14)) true))).map output = some (.named (.arr ch (some 14)), true) := by decide +kernel

end Sizes

/-! ## `tests/uniqtype-walk` -/

namespace Walk
open Bfs

/-- Ten nodes from 0x500000, each pointing to an integer, to itself and to the node made before. The types are 1 for nodes and 0 for `void`. -/
def world : World where
  mem a :=
    let i := (a - 0x500000) / 32
    if a % 32 = 0 then 0x600000 + 4 * i
    else if a % 32 = 8 then 0x500000 + 32 * i
    else if i = 0 then 0 else 0x500000 + 32 * (i - 1)
  types t := if t = 1 then .comp (.cons 0 (.comp (.cons 0 (.ptr 0) (.cons 8 (.ptr 0) .nil))) (.cons 16 (.ptr 1) .nil)) else .leaf
  follow p t := (p, t)

/-- Twenty objects are blackened (tests/uniqtype-walk/uniqtype-walk.c:64-67). -/
example : (walkFrom world 50 ⟨0x500000 + 32 * 9, 1⟩).map (·.length) = some 20 := by decide +kernel

end Walk

/-! ## `tests/packed-seq-walk` -/

namespace Packed
open PackedSeq

/-- A block of NULs has as many strings as bytes (tests/packed-seq-walk/packed-seq-walk.c:52-56, with a smaller block). -/
example : (match walk (string8 0x1000 (List.replicate 40 0) 7 (fun n _ => n)) empty none none (fun _ => 0) with
  | .ok r => some r.2.1.length
  | _ => none) = some 40 := by decide +kernel

end Packed

end Liballocs.RepoTests
