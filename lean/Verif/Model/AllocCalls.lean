import Verif.Model.Sizeof
/-!
# Which calls allocate (tools/lang/c/dumpallocs/dumpallocs.ml)

Matching calls against signatures such as `malloc(Z)p`, and grouping a statement's instructions.

Simplifications: strings are lists of characters, without line breaks; an exception (from `Str` or `getSizeExpr`) is `none`.
-/
namespace Liballocs.AllocCalls
open CilTypes Sizeof

/-- What is matched by the regular expression `(.*)` from the start of a string on: up to the last closing bracket. -/
def toLast : List Char → Option (List Char)
  | [] => none
  | c :: s =>
    match toLast s with
    | some r => some (c :: r)
    | none => if c = ')' then some [c] else none

/-- `search_forward (regexp "(.*)")` and `matched_string`, or the empty string (tools/lang/c/dumpallocs/dumpallocs.ml:378-389). -/
def argSpec : List Char → List Char
  | [] => []
  | c :: s =>
    if c = '(' then
      match toLast s with
      | some r => c :: r
      | none => argSpec s
    else argSpec s

/-- The place of the first capital in a string: `[^A-Z]*[A-Z]`. -/
def capital : List Char → Option Nat
  | [] => none
  | c :: s => if c.isUpper then some 0 else (capital s).map (· + 1)

/-- `sizeArgPos` (tools/lang/c/dumpallocs/dumpallocs.ml:390-393): the length of what is matched, less the bracket, less one. -/
def sizeArg (sig : List Char) : Option Nat := (capital (argSpec sig)).map (· + 1 - 1 - 1)

/-- `matchUserAllocArgs` (tools/lang/c/dumpallocs/dumpallocs.ml:377-429): `ret` is what the called function returns a pointer to, and whether that is
complete. -/
def matchArgs (gs : Structs) (env : Env) (args : List Ex) (sig : List Char) (ret : Option (Ty × Bool)) : Option Sz :=
  match sizeArg sig with
  | some p =>
    match args[p]? with
    | some e => getSize gs env e
    | none => some .undet
  | none =>
    match ret with
    | some (t, c) => some (.existing t c)
    | none => some .undet

/-- `parseSignature` (tools/lang/c/dumpallocs/dumpallocs.ml:436-451): the name and the letters for arguments; `none` is `Invalid_argument`, for an
offset behind the end. -/
def parse (sig : List Char) : Option (Option (List Char) × List Char) :=
  match sig.takeWhile (fun c => decide (c ≠ '(') && decide (c ≠ '\\')) with
  | [] => some (none, sig.takeWhile (fun c => decide (c ≠ ')') && decide (c ≠ '\\')))
  | name =>
    if sig.length < 1 + name.length then none
    else some (some name, (sig.drop (1 + name.length)).takeWhile (fun c => decide (c ≠ ')') && decide (c ≠ '\\')))

/-- `extractUserAllocMatchingSignature` (tools/lang/c/dumpallocs/dumpallocs.ml:470-485). -/
def extract (gs : Structs) (env : Env) (fname : Option (List Char)) (args : List Ex) (ret : Option (Ty × Bool)) (sig : List Char) : Option (Option Sz) :=
  match parse sig with
  | none => none
  | some (name, letters) =>
    match fname with
    | some f => if name = some f ∧ args.length = letters.length then (matchArgs gs env args sig ret).map some else some none
    | none => if args.length = letters.length then (matchArgs gs env args sig ret).map some else some none

/-- `getUserAllocExpr` (tools/lang/c/dumpallocs/dumpallocs.ml:504-532). -/
def allocExpr (gs : Structs) (env : Env) (fname : Option (List Char)) (args : List Ex) (ret : Option (Ty × Bool)) : List (List Char) → Option (Option Sz)
  | [] => some none
  | sig :: sigs =>
    match extract gs env fname args ret sig with
    | none => none
    | some none => allocExpr gs env fname args ret sigs
    | some (some s) => if s ≠ .undet ∨ fname ≠ none then some (some s) else allocExpr gs env fname args ret sigs

/-- `allAllocFunctions` (tools/lang/c/dumpallocs/dumpallocs.ml:534-537). -/
def allAllocs (user : List (List Char)) : List (List Char) :=
  ["malloc(Z)p".toList, "calloc(zZ)p".toList, "realloc(pZ)p".toList, "posix_memalign(pzZ)p".toList, "alloca(Z)p".toList, "__builtin_alloca(Z)p".toList] ++ user

/-! ## Grouping -/

/-- A group: instructions, and the attribute given to it. -/
abbrev Group := List Nat × Option (List Char)

/-- `List.find`. -/
def label (labels : List (Nat × List Char)) (x : Nat) : Option (List Char) :=
  match labels with
  | [] => none
  | (i, a) :: r => if i = x then some a else label r x

/-- `groupInstrs` (tools/lang/c/dumpallocs/dumpallocs.ml:734-757), on numbered instructions. -/
def groupFrom (labels : List (Nat × List Char)) (revAcc : List Group) (cur : Group) : List Nat → List Group
  | [] => (cur :: revAcc).reverse
  | x :: more =>
    match label labels x with
    | some a => groupFrom labels (([x], some a) :: cur :: revAcc) ([], none) more
    | none => groupFrom labels revAcc (cur.1 ++ [x], cur.2) more

/-- The grouping of a statement whose instructions got labels (tools/lang/c/dumpallocs/dumpallocs.ml:719-763). The list of labels is emptied before it
is used. -/
def regroup (_labels : List (Nat × List Char)) (instrs : List Nat) : List Group := groupFrom [] [] ([], none) instrs

end Liballocs.AllocCalls
