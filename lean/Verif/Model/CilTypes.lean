/-!
# C types as the instrumentation knows them (tools/lang/c/cilallocs/cilallocs.ml)

Simplifications: CIL's `typsig` is modelled without attributes; the names of functions, structures and so on are lists of characters.  `Str` and
`Printf` are external.
-/
namespace Liballocs.CilTypes

/-- Kinds of integers (CIL's `ikind`). -/
inductive IKind
  | char | schar | uchar | bool | int | uint | short | ushort | long | ulong | longlong | ulonglong
  deriving DecidableEq, Repr

/-- Kinds of floating-point numbers (CIL's `fkind`). -/
inductive FKind
  | float | double | longdouble
  deriving DecidableEq, Repr

mutual
/-- CIL's `typsig`. -/
inductive Ty
  | void
  | int (k : IKind)
  | float (k : FKind)
  | valist
  | ptr (t : Ty)
  | arr (t : Ty) (n : Option Nat)
  | comp (isStruct : Bool) (name : List Char)
  | enum (name : List Char)
  | fn (r : Ty) (known : Bool) (args : Tys) (va : Bool)
  deriving DecidableEq
/-- Argument types; `known` says whether there are any (`Some` or `None`). -/
inductive Tys
  | nil
  | cons (t : Ty) (ts : Tys)
  deriving DecidableEq
end

/-! ## Arrays -/

/-- `decayArrayInTypesig` (tools/lang/c/cilallocs/cilallocs.ml:378-380). -/
def decay : Ty → Ty
  | .arr t _ => decay t
  | t => t

/-- `accumulateArrayDimensionsInTypesig` (tools/lang/c/cilallocs/cilallocs.ml:383-391). -/
def dims : Ty → Ty × Option Nat
  | .arr t (some n) =>
    match dims t with
    | (u, some k) => (u, some (n * k))
    | (u, none) => (u, none)
  | .arr t none => (decay t, none)
  | t => (t, none)

/-- `collapseArrayDimensionsInTypesig` (tools/lang/c/cilallocs/cilallocs.ml:395-401). -/
def collapse : Ty → Ty
  | .arr (.arr t n) m => .arr (dims (.arr (.arr t n) m)).1 (dims (.arr (.arr t n) m)).2
  | t => t

/-! ## Matching -/

/-- `makeUnsigned` (tools/lang/c/cilallocs/cilallocs.ml:747-755). -/
def unsign : IKind → IKind
  | .char => .uchar
  | .schar => .uchar
  | .int => .uint
  | .short => .ushort
  | .long => .ulong
  | .longlong => .ulonglong
  | k => k

/-- `tsMatchModuloSignedness` (tools/lang/c/cilallocs/cilallocs.ml:744-765). -/
def matchSign (a b : Ty) : Bool :=
  decide (a = b) ||
    match a, b with
    | .int k, .int l => decide (unsign k = unsign l)
    | .ptr t, .ptr u => matchSign t u
    | .arr t n, .arr u m => decide (n = m) && matchSign t u
    | _, _ => false

/-- `indirectionLevel` (tools/lang/c/cilallocs/cilallocs.ml:501-503). -/
def level : Ty → Nat
  | .ptr t => 1 + level t
  | _ => 0

/-- `ultimatePointeeTs` (tools/lang/c/cilallocs/cilallocs.ml:505-508); `none` is `Not_found`. -/
def pointee : Ty → Option Ty
  | .ptr (.ptr t) => pointee (.ptr t)
  | .ptr t => some t
  | _ => none

/-- `getConcreteType` (tools/lang/c/cilallocs/cilallocs.ml:365-375), which here removes arrays. -/
def concrete : Ty → Ty
  | .arr t _ => concrete t
  | .ptr t => .ptr (concrete t)
  | t => t

/-- `isGenericPointerTypesig` (tools/lang/c/cilallocs/cilallocs.ml:511-516). -/
def generic (t : Ty) : Bool :=
  decide (1 ≤ level t) && (decide (pointee (concrete t) = some .void) || decide (pointee (concrete t) = some (.int .char)))

/-- `isSinglyIndirectGenericPointerTypesig` (tools/lang/c/cilallocs/cilallocs.ml:521-522). -/
def singlyGeneric (t : Ty) : Bool := decide (level t = 1) && generic t

/-! ## Names -/

/-- Characters that stay as they are (tools/lang/c/cilallocs/cilallocs.ml:241): the class `[^a-zA-Z0-9_\$]` also leaves out the backslash. -/
def plain (c : Char) : Bool := c.isAlphanum || decide (c = '_') || decide (c = '\\')

/-- A digit of `%02x`. -/
def hexDigit (n : Nat) : Char := if n < 10 then Char.ofNat (48 + n) else Char.ofNat (87 + n)

/-- `identFromString` (tools/lang/c/cilallocs/cilallocs.ml:239-244), for strings of bytes. -/
def ident : List Char → List Char
  | [] => []
  | c :: s =>
    if c = '$' then '$' :: '$' :: ident s
    else if plain c then c :: ident s
    else '$' :: hexDigit (c.toNat / 16) :: hexDigit (c.toNat % 16) :: ident s

/-- `string_of_int`. -/
def digits (n : Nat) : List Char := (Nat.repr n).toList

/-- `dwarfEncodingForBaseType` and `bitsSizeOf` (tools/lang/c/cilallocs/cilallocs.ml:268-284), on a 64-bit machine with signed characters. -/
def enc : IKind → List Char
  | .char => "signed_char$8".toList
  | .schar => "signed_char$8".toList
  | .uchar => "unsigned_char$8".toList
  | .bool => "boolean$8".toList
  | .int => "int$32".toList
  | .uint => "uint$32".toList
  | .short => "int$16".toList
  | .ushort => "uint$16".toList
  | .long => "int$64".toList
  | .ulong => "uint$64".toList
  | .longlong => "int$64".toList
  | .ulonglong => "uint$64".toList

/-- The same for floating-point numbers. -/
def fenc : FKind → List Char
  | .float => "float$32".toList
  | .double => "float$64".toList
  | .longdouble => "float$128".toList

/-- The pieces of which names are made (tools/lang/c/cilallocs/cilallocs.ml:297-320). -/
def kArr : List Char := ['_', '_', 'A', 'R', 'R']
def kPtr : List Char := ['_', '_', 'P', 'T', 'R', '_']
def kArg : List Char := ['_', '_', 'A', 'R', 'G']
def kFrom : List Char := ['_', '_', 'F', 'U', 'N', '_', 'F', 'R', 'O', 'M', '_']
def kTo : List Char := ['_', '_', 'F', 'U', 'N', '_', 'T', 'O', '_']
def kVa : List Char := ['_', '_', 'V', 'A', '_']
def kVoid : List Char := ['v', 'o', 'i', 'd']
def kValist : List Char := "__builtin_va_list".toList

/-- The bound in an array's name. -/
def boundName : Option Nat → List Char
  | some k => digits k
  | none => ['0']

/-- Between arguments and result. -/
def sep (va : Bool) : List Char := if va then kVa ++ kTo else kTo

mutual
/-- `barenameFromSig` (tools/lang/c/cilallocs/cilallocs.ml:297-320). -/
def bare : Ty → List Char
  | .arr t n => kArr ++ (boundName n ++ '_' :: bare t)
  | .ptr t => kPtr ++ bare t
  | .comp _ name => name
  | .fn r known args va => kFrom ++ ((if known then bareArgs args 0 else []) ++ (sep va ++ bare r))
  | .enum name => name
  | .void => kVoid
  | .int k => ident (enc k)
  | .float k => ident (fenc k)
  | .valist => ident kValist
/-- `labelledArgTs` (tools/lang/c/cilallocs/cilallocs.ml:298-304). -/
def bareArgs : Tys → Nat → List Char
  | .nil, _ => []
  | .cons t ts, k => kArg ++ (digits k ++ '_' :: (bare t ++ bareArgs ts (k + 1)))
end

/-- `symnameFromSig` (tools/lang/c/cilallocs/cilallocs.ml:352). -/
def symname (t : Ty) : List Char := "__uniqtype__".toList ++ bare t

end Liballocs.CilTypes
