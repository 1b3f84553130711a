import Verif.Model.ObjdumpMeta
import Verif.Model.MergeSites
import Verif.Model.Allocsites
import Verif.Model.HeapObj
import Verif.Model.SegMeta
/-!
# From a source line to the type of a heap object (tools/Makefile.meta, tools/objdumpallocs, tools/allocsites.cpp, src/allocsites.c)

The tools that find allocating calls (`Verif.Model.ObjdumpMeta`) and their types (`Verif.Model.MergeSites`) put together with the tool that makes a
table of them, the run-time look-up in the tables of the loaded files (`Verif.Model.Allocsites`), and the heap index (`Verif.Model.HeapObj`).

Simplifications.
* The last field of the tools' lines, source text, is empty. Nothing reads it.
* `sort` (external) is its contract: a stable sort by bytes, of what follows the fourth tab.
* Reading the merged lines (external, liballocstool's `read_allocsites`) is its contract: object, address, and the type named by what the merge has
  added, if the name is that of some type in the debugging information. Types are numbers.
* The generated source, compiled and linked, is the list of the entries. `link` is where each type is loaded; 0 if it is nowhere, since the references
  are weak.
-/
namespace Liballocs.SitePipe
open MergeSites (Text pad6 le lt)

/-- The seventh field (tools/objdumpmeta.awk:171). -/
def FAILED : Text := ['$', 'F', 'A', 'I', 'L', 'E', 'D', '$']

/-- What follows the fourth tab of a line that the script prints (tools/objdumpmeta.awk:173). -/
def key (o : ObjdumpMeta.Out) : Text :=
  o.file ++ '\t' :: (pad6 o.first ++ '\t' :: (pad6 o.last ++ '\t' :: (FAILED ++ ['\t'])))

/-- `sort -s -t$'\t' -k5 -k6` (tools/objdumpallocs:137-139). -/
def sorted (l : List ObjdumpMeta.Out) : List ObjdumpMeta.Out := l.mergeSort fun a b => le (key a) (key b)

/-- A line as `format_output` prints it (tools/objdumpallocs:97-111), with the object file's name put before it
(tools/Makefile.meta:68-70). -/
def line (obj : Text) (o : ObjdumpMeta.Out) : Text :=
  obj ++ '\t' :: (o.sym ++ '\t' :: ('0' :: 'x' :: SegMeta.hex o.ret ++ '\t' :: key o))

/-- The value of a hexadecimal digit. -/
def digitVal (c : Char) : Option Nat :=
  if 48 ≤ c.toNat ∧ c.toNat < 58 then some (c.toNat - 48)
  else if 97 ≤ c.toNat ∧ c.toNat < 103 then some (c.toNat - 87) else none

def unhexFrom (n : Nat) : Text → Option Nat
  | [] => some n
  | c :: s =>
    match digitVal c with
    | none => none
    | some d => unhexFrom (n * 16 + d) s

/-- Reading an address (external). -/
def unhex : Text → Option Nat
  | '0' :: 'x' :: s => unhexFrom 0 s
  | _ => none

/-- An allocation site as the tool has it (external: liballocstool's `struct allocsite`). -/
structure Site where
  obj : Text
  addr : Nat
  type : Option Nat
  deriving DecidableEq

/-- `read_allocsites` and `ensure_needed_types_and_assign_to_allocsites` (external) on a merged line. -/
def readSite (typeOf : Text → Option Nat) (l : MergeSites.Obj × Option Text) : Option Site :=
  match unhex l.1.addr with
  | none => none
  | some a => some ⟨l.1.obj, a, match l.2 with | none => none | some t => typeOf t⟩

/-- The sites that the tool is given for an object file: its listing goes through the script, is sorted, and merged with the records of the sources
(tools/Makefile.meta:68-70, 88-94). -/
def sites (typeOf : Text → Option Nat) (obj : Text) (listing : List ObjdumpMeta.Line) (srcs : List Text) : List Site :=
  (MergeSites.script ((sorted (ObjdumpMeta.script listing)).map (line obj)) srcs).filterMap (readSite typeOf)

/-- The comparison of sites (tools/allocsites.cpp:74-76). -/
def siteLt (a b : Site) : Bool := lt a.obj b.obj || (decide (a.obj = b.obj) && decide (a.addr < b.addr))

/-- What `std::sort` may leave (tools/allocsites.cpp:74): equal ones are in any order. -/
def Sorting (l l' : List Site) : Prop := l'.Perm l ∧ l'.Pairwise fun a b => siteLt b a = false

/-- The entries printed: sites without a type are left out (tools/allocsites.cpp:85-99). -/
def entries : List Site → List (Nat × Nat)
  | [] => []
  | s :: l =>
    match s.type with
    | none => entries l
    | some t => (s.addr, t) :: entries l

/-- What tables the tool may make (tools/allocsites.cpp:64-102): none at all if there are no sites. -/
def Makes (l : List Site) : Option (List (Nat × Nat)) → Prop
  | none => l = []
  | some t => l ≠ [] ∧ ∃ l', Sorting l l' ∧ t = entries l'

/-- A loaded file and its table. -/
structure Module where
  lo : Nat
  hi : Nat
  base : Nat
  table : Option (List (Nat × Nat))

/-- As the run-time part sees it (src/allocsites.c:57-92). -/
def Module.file (m : Module) : Allocsites.File := ⟨m.lo, m.hi, m.base, m.table.map fun t => t.map fun e => e.1⟩

/-- The type in the `i`-th entry of the table of the file that an address is in. -/
def entryType (link : Nat → BitVec 64) (ms : List Module) (a i : Nat) : BitVec 64 :=
  match ms.find? fun m => decide (m.lo ≤ a ∧ a < m.hi) with
  | none => 0#64
  | some m =>
    match m.table with
    | none => 0#64
    | some t =>
      match t[i]? with
      | none => 0#64
      | some e => link e.2

/-- The type of a site, null if there is none (include/generic_malloc_index.h:778-779, src/allocsites.c:103-121). -/
def typeAt (link : Nat → BitVec 64) (ms : List Module) (s : Allocsites.State) (a : Nat) : BitVec 64 :=
  match Allocsites.entryAt s a with
  | none => 0#64
  | some p => entryType link ms a p.2

/-- What the heap index knows of sites (include/generic_malloc_index.h:778-798). -/
def build (ndebug : Bool) (link : Nat → BitVec 64) (ms : List Module) (s : Allocsites.State) : HeapObj.Build :=
  ⟨ndebug, fun a => typeAt link ms s a.toNat, fun a => BitVec.ofNat 15 (Allocsites.siteId s a.toNat)⟩

end Liballocs.SitePipe
