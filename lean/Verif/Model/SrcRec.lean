import Verif.Model.AllocCalls
import Verif.Model.CcArgs
import Verif.Model.MergeSites
/-!
# The records of source lines (tools/lang/c/dumpallocs/dumpallocs.ml, tools/lang/c/bin/c-gather-srcallocs, tools/gather-srcallocs.sh)

What the compiler plug-in writes for the calls that allocate, both to a file beside the source and into a section of the object file, and how that is put
together again for a linked file.

Simplifications.
* A file is the list of its lines; text is bytes. That the section's contents come back from the assembler, the linker and `objcopy` as they
  were written is taken for granted (external).
* `sed`, `printf` and `uniq` (external) are their contracts; `sort` is a sort by bytes (no `LANG` is set by the script; this is what it does if the
  locale is `C`). Numbers with blanks around them, which are never written, are not padded in the model.
* A relative name of a source file is put behind the working directory, as it is; an empty one is an exception.
-/
namespace Liballocs.SrcRec
open CilTypes Sizeof AllocCalls
open MergeSites (Text pad6 revDigits le)

/-! ## What the plug-in writes -/

/-- `dwarfidlIdent` (tools/lang/c/cilallocs/cilallocs.ml:295): blanks and colons get a backslash before them. -/
def idlIdent : Text → Text
  | [] => []
  | c :: s => if c = ' ' ∨ c = ':' then '\\' :: c :: idlIdent s else c :: idlIdent s

/-- `string_of_int`. -/
def dec (n : Nat) : Text := (revDigits (n + 1) n).reverse

/-- The bound of an array (tools/lang/c/cilallocs/cilallocs.ml:335). -/
def idlBound : Option Nat → Text
  | some k => w! "subrange_type [upper_bound = " ++ (dec k ++ w! "];")
  | none => []

mutual
/-- `dwarfidlFromSig` (tools/lang/c/cilallocs/cilallocs.ml:322-348). -/
def idl : Ty → Text
  | .arr t n => w! "(array_type [type = " ++ (idl t ++ (w! "] {" ++ (idlBound n ++ w! " })")))
  | .ptr t => w! "(pointer_type [type = " ++ (idl t ++ w! "];)")
  | .comp _ name => name
  | .fn r true args false => '(' :: (idlArgs args ++ (w! ") => " ++ idl r))
  | .fn r true args true => '(' :: (idlArgs args ++ (w! ", ...)" ++ idl r))
  | .fn r false _ true => w! "(...) => " ++ bare r
  | .fn r false _ false => w! "() => " ++ bare r
  | .enum name => name
  | .void => w! "(unspecified_type)"
  | .int k => idlIdent (enc k)
  | .float k => idlIdent (fenc k)
  | .valist => idlIdent kValist
/-- `dwarfidlLabelledArgTs` (tools/lang/c/cilallocs/cilallocs.ml:323-330). -/
def idlArgs : Tys → Text
  | .nil => []
  | .cons t .nil => idl t
  | .cons t ts => idl t ++ (w! ", " ++ idlArgs ts)
end

/-- The members in `dwarfIdlExprFromSynthetic` (tools/lang/c/dumpallocs/dumpallocs.ml:83). -/
def members : List Ty → Text
  | [] => []
  | t :: l => w! "member : " ++ (idl t ++ (w! "; " ++ members l))

/-- `dwarfIdlExprFromSynthetic` (tools/lang/c/dumpallocs/dumpallocs.ml:78-83). -/
def structure_ (l : List Ty) (name : Text) : Text := w! "structure_type " ++ (name ++ (w! " { " ++ (members l ++ w! "};")))

/-- A call: where it is, the function called (`none` if it is called through a pointer), the arguments, and what the function returns a pointer to, with whether
that is complete (tools/lang/c/dumpallocs/dumpallocs.ml:764-844). -/
structure Call where
  file : Text
  line : Nat
  func : Option Text
  args : List Ex
  ret : Option (Ty × Bool)

/-- `abspath` (tools/lang/c/cilallocs/cilallocs.ml:213-214). -/
def abspath (cwd : Text) : Text → Option Text
  | [] => none
  | c :: f => if c = '/' then some (c :: f) else some (cwd ++ '/' :: c :: f)

/-- `fileAndLine` (tools/lang/c/dumpallocs/dumpallocs.ml:800). -/
def fileAndLine (path : Text) (line : Nat) : Text := path ++ '\t' :: (dec line ++ '\t' :: dec line)

/-- The name or description that is written (tools/lang/c/dumpallocs/dumpallocs.ml:813-823). `trim` leaves `fileAndLine` as it is, since that begins with a
slash and ends with a digit. -/
def allocString (path : Text) (line : Nat) : Out → Text
  | .anyPtr => w! "__uniqtype____EXISTS1___PTR__1"
  | .named t => symname t
  | .idl l => structure_ l (ident (w! "dumpallocs_synthetic_" ++ fileAndLine path line))
  | .bytes => w! "__uniqtype____uninterpreted_byte"

/-- `printAllocFn` (tools/lang/c/dumpallocs/dumpallocs.ml:682-696): a line, without its end. -/
def printed (path : Text) (c : Call) (o : Out × Bool) : Text :=
  fileAndLine path c.line ++ '\t' :: ((match c.func with | some f => f | none => w! "(indirect)") ++
    '\t' :: (allocString path c.line o.1 ++ '\t' :: (if o.2 then ['1'] else ['0'])))

/-- What a call is recorded with, if it allocates (tools/lang/c/dumpallocs/dumpallocs.ml:774-829); the outer `none` is an exception. -/
def record (gs : Structs) (env : Env) (user : List Text) (cwd : Text) (c : Call) : Option (Option Text) :=
  match abspath cwd c.file with
  | none => none
  | some path =>
    match allocExpr gs env c.func c.args c.ret (allAllocs user) with
    | none => none
    | some none => some none
    | some (some s) => some (some (printed path c (output s)))

/-- The calls of a function, visited after its environment of sizes is found (tools/lang/c/dumpallocs/dumpallocs.ml:698-719). -/
def recordAll (gs : Structs) (env : Env) (user : List Text) (cwd : Text) : List Call → Option (List Text)
  | [] => some []
  | c :: cs =>
    match record gs env user cwd c with
    | none => none
    | some r =>
      match recordAll gs env user cwd cs with
      | none => none
      | some ls =>
        match r with
        | none => some ls
        | some l => some (l :: ls)

/-! ## Where the records are looked for -/

/-- Does text begin so? -/
def begins : Text → Text → Bool
  | [], _ => true
  | _ :: _, [] => false
  | a :: p, b :: s => decide (a = b) && begins p s

/-- `sed "s/p[ci]/r/"`: the first place where `p` and then `c` or `i` are is replaced. -/
def replaceFirst (p r : Text) : Text → Text
  | [] => []
  | c :: s =>
    if begins (p ++ ['c']) (c :: s) ∨ begins (p ++ ['i']) (c :: s) then r ++ (c :: s).drop (p.length + 1)
    else c :: replaceFirst p r s

/-- `grep 'p$'`. -/
def endsWith (p s : Text) : Bool := begins p.reverse s.reverse

/-- `cu_allocspath` (tools/lang/c/bin/c-gather-srcallocs:57-63), the extension being `allocs`; empty if the name is of neither form. -/
def allocsPath (src : Text) : Text :=
  if endsWith w! ".cil.c" src ∨ endsWith w! ".cil.i" src then replaceFirst w! ".cil." w! ".i.allocs" src
  else if endsWith w! ".c" src then replaceFirst w! "." w! ".i.allocs" src
  else []

/-- The languages whose units are looked at (tools/gather-srcallocs.sh:78): C89, C, C99 and C11. -/
def isC (lang : Nat) : Bool := decide (lang = 1) || decide (lang = 2) || decide (lang = 12) || decide (lang = 29)

/-- What is found for the compilation units, each with its language and path (tools/gather-srcallocs.sh:76-86, tools/lang/c/bin/c-gather-srcallocs:65-69): `fs` is the contents of
readable files. -/
def found (fs : Text → Option (List Text)) : List (Nat × Text) → List Text
  | [] => []
  | u :: us =>
    if isC u.1 then
      match fs (allocsPath u.2) with
      | none => found fs us
      | some ls => ls ++ found fs us
    else found fs us

/-! ## Putting them in order -/

/-- Fields between tabs. -/
def splitTab : Text → List Text
  | [] => [[]]
  | c :: s =>
    if c = '\t' then [] :: splitTab s
    else
      match splitTab s with
      | [] => [[c]]
      | f :: fs => (c :: f) :: fs

def joinTab : List Text → Text
  | [] => []
  | [f] => f
  | f :: g :: fs => f ++ '\t' :: joinTab (g :: fs)

def digit (c : Char) : Bool := decide (48 ≤ c.toNat ∧ c.toNat < 58)

/-- The value of a digit. -/
def value (c : Char) : Nat := c.toNat - 48

def decVal (n : Nat) (s : Text) : Nat := s.foldl (fun n c => n * 10 + value c) n

/-- Up to a digit that is not octal. -/
def octVal (n : Nat) : Text → Nat
  | [] => n
  | c :: s => if c.toNat < 56 then octVal (n * 8 + value c) s else n

/-- The number that `printf '%d'` takes a string of digits for: a zero in front means octal. -/
def cNum : Text → Nat
  | [] => 0
  | c :: s => if c = '0' then octVal 0 s else decVal 0 (c :: s)

/-- A field of digits is padded (tools/gather-srcallocs.sh:16-20). -/
def padField (f : Text) : Text := if f ≠ [] ∧ f.all digit = true then pad6 (cNum f) else f

/-- `pad_numbers` (tools/gather-srcallocs.sh:3-23): in a line, every field of digits is padded. -/
def padLine (l : Text) : Text := joinTab ((splitTab l).map padField)

/-- `uniq`. -/
def uniq : List Text → List Text
  | [] => []
  | [a] => [a]
  | a :: b :: l => if a = b then uniq (b :: l) else a :: uniq (b :: l)

/-- `sort -t$'\t' -k1 -k2`: as the first key goes to the end of the line, whole lines are compared. -/
def sortLines (l : List Text) : List Text := l.mergeSort le

/-- `gather-srcallocs.sh` for a linked file (tools/gather-srcallocs.sh:65-88): what is found for its units, and what is in its section, or an empty line if
that is not there. -/
def gather (fs : Text → Option (List Text)) (units : List (Nat × Text)) (section_ : List Text) : List Text :=
  uniq (sortLines ((found fs units ++ (if section_ = [] then [[]] else section_)).map padLine))

/-! ## Reading a type's name back -/

/-- The name in what the merge adds to a line, the second of its fields (external: liballocstool's `read_allocsites`), looked up among the types. -/
def typeNamed (find : Text → Option Nat) (rest : Text) : Option Nat :=
  match splitTab rest with
  | _ :: name :: _ => find name
  | _ => none

end Liballocs.SrcRec
