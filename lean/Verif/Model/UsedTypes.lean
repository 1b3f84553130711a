import Verif.Model.CcArgs
/-!
# Binding references to types (tools/used-types-funcs.sh, tools/lang/c++/bin/link-used-types)

An object file refers to types by names such as `__uniqtype__foo`, or in C++ by `uniqtype<foo>::obj`. The script has C++ names rewritten as the plain ones, has the used types
generated in a second object, under names such as `__uniqtype_0123abcd_foo` that have a code in them, renames the references, and links the two.

Simplifications. Symbols have no blanks, newlines, backslashes or pattern characters. `sort` compares bytes. `objcopy --redefine-sym` is modelled by its contract: it stops if a name is
redefined twice or is the target twice, else renames symbols; anything that is not an option is a file, of which there may be two. Which types are generated, and the linker beyond binding undefined
symbols by name, are not modelled. The names that `nm` lists are given.
-/
namespace Liballocs.UsedTypes

abbrev Text := List Char

/-! ## Names with codes -/

def isHex (c : Char) : Bool := decide (48 ≤ c.toNat ∧ c.toNat < 58) || decide (97 ≤ c.toNat ∧ c.toNat < 103)

def strip : Text → Text → Option Text
  | [], s => some s
  | _ :: _, [] => none
  | p :: ps, c :: s => if p = c then strip ps s else none

/-- The code and what comes after it, where the pattern `__uniqtype_([0-9a-f]{8})_` matches at the start. -/
def codeHere (s : Text) : Option (Text × Text) :=
  match strip w! "__uniqtype_" s with
  | none => none
  | some r =>
    if (r.take 8).length = 8 ∧ (r.take 8).all isHex = true then
      match r.drop 8 with
      | c :: n => if c = '_' then some (r.take 8, n) else none
      | [] => none
    else none

/-- The first place where the pattern matches (tools/used-types-funcs.sh:63, 66): what is before it, the code, and the rest of the line. -/
def codeIn : Text → Option (Text × Text × Text)
  | [] => none
  | c :: s =>
    match codeHere (c :: s) with
    | some (k, n) => some ([], k, n)
    | none => (codeIn s).map fun r => (c :: r.1, r.2)

def endsWith (p s : Text) : Bool := (strip p.reverse s.reverse).isSome

/-- The two filters (tools/used-types-funcs.sh:63). -/
def listed (s : Text) : Bool := (codeIn s).isSome && !endsWith w! "_subobj_names" s

/-- The part of a line that is compared (tools/used-types-funcs.sh:64). -/
def key (s : Text) : Text := s.drop 20

def textLt : Text → Text → Bool
  | [], [] => false
  | [], _ :: _ => true
  | _ :: _, [] => false
  | a :: s, b :: t => if a.toNat < b.toNat then true else if b.toNat < a.toNat then false else textLt s t

/-- The order of `sort -k1.21`: by the key, then by whole lines. -/
def lineLt (a b : Text) : Bool := if key a = key b then textLt a b else textLt (key a) (key b)

def ins (x : Text) : List Text → List Text
  | [] => [x]
  | y :: l => if lineLt y x = true then y :: ins x l else x :: y :: l

def sort : List Text → List Text
  | [] => []
  | x :: l => ins x (sort l)

/-- `uniq -s20 -c` (tools/used-types-funcs.sh:64): the first of each group of lines with one key, and how many there are. -/
def uniqC : List Text → List (Nat × Text)
  | [] => []
  | x :: l =>
    match uniqC l with
    | [] => [(1, x)]
    | (n, y) :: r => if key x = key y then (n + 1, x) :: r else (1, x) :: (n, y) :: r

/-- Those that are alone (tools/used-types-funcs.sh:64-65). -/
def alone (l : List (Nat × Text)) : List Text := (l.filter fun p => decide (p.1 = 1)).map Prod.snd

/-- The words that the last command makes of a line (tools/used-types-funcs.sh:66). -/
def redefWords (s : Text) : List Text :=
  match codeIn s with
  | none => [s]
  | some (b, k, n) => [b ++ w! "--redefine-sym", w! "__uniqtype__" ++ n ++ '=' :: (w! "__uniqtype_" ++ k ++ '_' :: n)]

/-- `symbol_redefinitions` (tools/used-types-funcs.sh:53-67), of the names that the second object defines. -/
def redefinitions (defs : List Text) : List Text := (alone (uniqC (sort (defs.filter listed)))).flatMap redefWords

/-! ## `objcopy` -/

/-- An argument of `--redefine-sym`, at the first equals sign. -/
def atEquals : Text → Option (Text × Text)
  | [] => none
  | c :: s => if c = '=' then some ([], s) else (atEquals s).map fun r => (c :: r.1, r.2)

/-- The redefinitions among the arguments; anything else is not for here. -/
def parse : List Text → Option (List (Text × Text))
  | [] => some []
  | [_] => none
  | w :: a :: l =>
    if w = w! "--redefine-sym" then
      match atEquals a, parse l with
      | some r, some rs => some (r :: rs)
      | _, _ => none
    else none

/-- No name is redefined twice, and none is a target twice. -/
def clash : List (Text × Text) → Bool
  | [] => false
  | r :: rs => rs.any (fun q => decide (q.1 = r.1) || decide (q.2 = r.2)) || clash rs

def rename (rs : List (Text × Text)) (s : Text) : Text :=
  match rs.find? fun r => decide (r.1 = s) with
  | some r => r.2
  | none => s

/-- A symbol of the object file: its name, and whether it is defined there. -/
structure Sym where
  name : Text
  defined : Bool
  deriving DecidableEq

/-- `objcopy` with these arguments and one file; `none` if it fails. -/
def objcopy (args : List Text) (obj : List Sym) : Option (List Sym) :=
  match parse args with
  | none => none
  | some rs => if clash rs then none else some (obj.map fun s => { s with name := rename rs s.name })

/-- `objcopy_and_redefine_codeless_names` (tools/used-types-funcs.sh:69-78). -/
def bindCodes (defs : List Text) (obj : List Sym) : Option (List Sym) := objcopy (redefinitions defs) obj

/-! ## C++ -/

def isDigit (c : Char) : Bool := decide (48 ≤ c.toNat ∧ c.toNat < 58)

def number (s : Text) : Nat := s.foldl (fun n c => n * 10 + (c.toNat - 48)) 0

/-- The length and what comes after it (tools/lang/c++/bin/link-used-types:23-25, 29-33). -/
def numRest (s : Text) : Option (Nat × Text) :=
  match s.dropWhile (fun c => !isDigit c) with
  | [] => none
  | c :: r => some (number ((c :: r).takeWhile isDigit), (c :: r).dropWhile isDigit)

/-- `chomp_idents` (tools/lang/c++/bin/link-used-types:27-42), for a text of at most `k` characters. `read -N` sees a newline after the text; `tail -c+n` begins with the `n`th
character. -/
def chomp : Nat → Text → List Text
  | 0, _ => []
  | k + 1, s =>
    match numRest s with
    | none => []
    | some (n, r) => (r ++ ['\n']).take n :: (if r.drop (n - 1) = [] then [] else chomp k (r.drop (n - 1)))

/-- What a command's output is as a value: no newlines at the end. -/
def value (s : Text) : Text := (s.reverse.dropWhile fun c => decide (c = '\n')).reverse

/-- `idents` (tools/lang/c++/bin/link-used-types:58). -/
def idents (s : Text) : Text := value ((chomp (s.length + 1) s).flatMap fun i => i ++ ['\n'])

/-- The first form feed is replaced. -/
def dot : Text → Text
  | [] => []
  | c :: s => if c = '\x0c' then w! "__DOT_" ++ s else c :: dot s

/-- `fragment` (tools/lang/c++/bin/link-used-types:59). -/
def fragment (s : Text) : Text :=
  let t := (s ++ ['\n']).map fun c => if c = '\n' then '\x0c' else c
  let u := if t.head? = some '\x0c' then t.tail else t
  dot (if u.getLast? = some '\x0c' then u.dropLast else u)

/-- What is between the ends of a name of the form looked for (tools/lang/c++/bin/link-used-types:54-55). -/
def middle (s : Text) : Option Text :=
  match strip w! "_ZN8uniqtypeI" s with
  | none => none
  | some r => (strip w! "3objE".reverse r.reverse).map List.reverse

/-- `translate_symnames` for a line (tools/lang/c++/bin/link-used-types:53-67). -/
def translate (s : Text) : Text :=
  match middle s with
  | none => s
  | some m => w! "__uniqtype__" ++ fragment (idents m)

/-- The options for one candidate (tools/lang/c++/bin/link-used-types:86-89). -/
def cxxWords (s : Text) : List Text := if s = translate s then [] else [w! "--redefine-sym", s ++ '=' :: translate s]

/-- The candidates (tools/lang/c++/bin/link-used-types:73-74): undefined names of static members of `uniqtype`. -/
def candidates (obj : List Sym) : List Text := (obj.filter fun s => !s.defined && (strip w! "_ZN8uniqtype" s.name).isSome).map Sym.name

/-- `objcopy_and_redefine_cxx_names` (tools/lang/c++/bin/link-used-types:70-101). -/
def bindCxx (obj : List Sym) : Option (List Sym) :=
  match (candidates obj).flatMap cxxWords with
  | [] => some obj
  | w :: ws => objcopy (w :: ws) obj

/-! ## The script -/

/-- The names that are undefined after linking (tools/used-types-funcs.sh:39-51). -/
def unbound (obj : List Sym) (defs roots : List Text) : List Text :=
  (obj.filter fun s => !s.defined && !decide (s.name ∈ defs) && !decide (s.name ∈ roots) && !obj.any (fun t => t.defined && decide (t.name = s.name))).map Sym.name

/-- The script (tools/lang/c++/bin/link-used-types:104-115); `defs` is what is generated for the object. `none` is a failure. -/
def script (gen : List Sym → List Text) (obj : List Sym) : Option (List Sym × List Text) :=
  match bindCxx obj with
  | none => none
  | some o =>
    match bindCodes (gen o) o with
    | none => none
    | some p => some (p, gen o)

end Liballocs.UsedTypes
