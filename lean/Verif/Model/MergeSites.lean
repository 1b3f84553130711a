/-!
# Merging source-level and object-level allocation sites (tools/merge-allocs.sh, tools/gather-srcallocs.sh)

Call instructions found in a binary, each with a file and a range of lines, are joined with the records that dumpallocs wrote
for source lines.  Both inputs are text files, sorted by file and line.

Simplifications.  Text is a list of characters, all of one byte; `sort` with `LANG=C` compares bytes.  `read -r` is modelled with the default `IFS`
(space, tab, newline).  Warnings on standard error are left out.
-/
namespace Liballocs.MergeSites

abbrev Text := List Char

/-- Bytewise comparison, as of `LANG=C sort`. -/
def le : Text → Text → Bool
  | [], _ => true
  | _ :: _, [] => false
  | a :: s, b :: t => decide (a.toNat < b.toNat) || (decide (a = b) && le s t)

/-- `lexicographic_compare_lt` (tools/merge-allocs.sh:27-34). -/
def lt (a b : Text) : Bool := !decide (a = b) && le a b

/-- `lexicographic_compare_ge` (tools/merge-allocs.sh:46-55). -/
def ge (a b : Text) : Bool := !lt a b

/-! ## Reading fields -/

def blank (c : Char) : Bool := decide (c = ' ') || decide (c = '\t')

def skip : Text → Text
  | [] => []
  | c :: s => if blank c then skip s else c :: s

/-- A field, and what follows it. -/
def field : Text → Text × Text
  | [] => ([], [])
  | c :: s => if blank c then ([], s) else (c :: (field s).1, (field s).2)

/-- Trailing blanks go from the last variable. -/
def trimEnd (s : Text) : Text := (skip s.reverse).reverse

/-- `read -r v1 … vn last` on one line: the fields for `v1 … vn`, and `last`. -/
def readFields : Nat → Text → List Text × Text
  | 0, s => ([], trimEnd (skip s))
  | n + 1, s => ((field (skip s)).1 :: (readFields n (field (skip s)).2).1, (readFields n (field (skip s)).2).2)

/-! ## The merge -/

/-- A line from objdumpallocs, as read at tools/merge-allocs.sh:64. -/
structure Obj where
  obj : Text
  func : Text
  addr : Text
  file : Text
  line : Text
  lineEnd : Text
  deriving DecidableEq

/-- A line from dumpallocs, as read at tools/merge-allocs.sh:74. -/
structure Src where
  file : Text
  line : Text
  lineEnd : Text
  rest : Text
  deriving DecidableEq

def readObj (l : Text) : Option Obj :=
  match readFields 7 l with
  | ([a, b, c, d, e, f, _], _) => some ⟨a, b, c, d, e, f⟩
  | _ => none

def readSrc (l : Text) : Option Src :=
  match readFields 3 l with
  | ([a, b, c], r) => some ⟨a, b, c, r⟩
  | _ => none

inductive Verdict where
  | hit
  | skip
  | past
  deriving DecidableEq

/-- The tests (tools/merge-allocs.sh:98-100 and 120-122). -/
def verdict (o : Obj) (s : Src) : Verdict :=
  if s.file = o.file ∧ ge s.line o.line = true ∧ lt s.line o.lineEnd = true then .hit
  else if lt s.file o.file = true ∨ (s.file = o.file ∧ lt s.line o.lineEnd = true) then .skip
  else .past

/-- The inner loop when a new source line has to be read (tools/merge-allocs.sh:68-145): what the object line is printed with, the
source line kept, and those not yet read. -/
def search (o : Obj) : List Src → Option Text × Option Src × List Src
  | [] => (none, none, [])
  | s :: l =>
    match verdict o s with
    | .hit => (some s.rest, some s, l)
    | .past => (none, some s, l)
    | .skip => search o l

/-- The inner loop (tools/merge-allocs.sh:68-149), with `keep_old_source_line` and its variables. -/
def serve (o : Obj) (kept : Option Src) (l : List Src) : Option Text × Option Src × List Src :=
  match kept with
  | none => search o l
  | some s =>
    match verdict o s with
    | .hit => (some s.rest, some s, l)
    | .past => (none, some s, l)
    | .skip => search o l

/-- The outer loop (tools/merge-allocs.sh:64-151): each object line is printed, with the rest of a source line or without. -/
def merge : List Obj → Option Src → List Src → List (Obj × Option Text)
  | [], _, _ => []
  | o :: os, kept, l => (o, (serve o kept l).1) :: merge os (serve o kept l).2.1 (serve o kept l).2.2

/-- The whole script on the lines of two files. -/
def script (objs srcs : List Text) : List (Obj × Option Text) := merge (objs.filterMap readObj) none (srcs.filterMap readSrc)

/-! ## Line numbers -/

/-- Digits of a number, least significant first. -/
def revDigits (fuel n : Nat) : Text :=
  match fuel with
  | 0 => []
  | fuel + 1 => if n < 10 then [Char.ofNat (48 + n)] else Char.ofNat (48 + n % 10) :: revDigits fuel (n / 10)

/-- `printf '%06d'` (tools/gather-srcallocs.sh:16-23, tools/objdumpmeta.awk:173). -/
def pad6 (n : Nat) : Text := List.replicate (6 - (revDigits (n + 1) n).length) '0' ++ (revDigits (n + 1) n).reverse

end Liballocs.MergeSites
