import Verif.Model.CcArgs
/-!
# Generating wrappers of allocation functions (tools/allocscompilerwrapper.py, tools/stubgen.h)

The compiler wrapper reads declarations of allocation functions from the environment, and before the final link writes, preprocesses and compiles a C
file with a wrapper for each.

Simplifications: a Python exception, or C that does not compile, is `none`. No word of the environment has a line break. A macro's expansion is the C
function it defines, of which only what depends on the declaration is kept: names, parameters, the function called, which argument's value is noted or
looked up. The tuple macros take 64 elements. What else is in the C file (the library's indexing functions, if the program defines `malloc`) is not looked
at. Regular expressions made of symbol names are taken to match just these names.
-/
namespace Liballocs.StubGen
open Liballocs.CcArgs (W starts)

/-! ## Declarations -/

/-- `s.split(' ')` without the empty words (tools/allocscompilerwrapper.py:15-16): `acc` is the word begun. -/
def splitWords (acc : W) : W → List W
  | [] => if acc = [] then [] else [acc]
  | ch :: t => if ch = ' ' then (if acc = [] then splitWords [] t else acc :: splitWords [] t) else splitWords (acc ++ [ch]) t

/-- Ways to cut a word at a character, the last place first: how `.*` followed by the character is tried. -/
def cuts (ch : Char) : W → List (W × W)
  | [] => []
  | a :: t => (cuts ch t).map (fun p => (a :: p.1, p.2)) ++ if a = ch then [([], t)] else []

/-- `(.*)\((.*)\)` and then what `rest` accepts. -/
def matchDecl {α : Type} (rest : W → Option α) (w : W) : Option (W × W × α) :=
  ((cuts '(' w).flatMap fun p => (cuts ')' p.2).filterMap fun q => (rest q.2).map fun r => (p.1, q.1, r)).head?

/-- `(.?)`. -/
def restRet (t : W) : Option (Option Char) := some t.head?

/-- `[a-zA-Z0-9_]`. -/
def isName (ch : Char) : Bool := ch.isAlphanum || ch == '_'

/-- `(->([a-zA-Z0-9_]+))`. -/
def restArrow (t : W) : Option W :=
  if starts w! "->" t then
    match (t.drop 2).takeWhile isName with
    | [] => none
    | n => some n
  else none

/-- Nothing more. -/
def restAny (_ : W) : Option Unit := some ()

/-- The lists of declarations: those the language has, and those of the environment (tools/allocscompilerwrapper.py:9-42). -/
structure Env where
  dfltAlloc : List W
  dfltFree : List W
  alloc : W
  suballoc : W
  allocsz : W
  free : W
  subfree : W

/-- `allL1OrWrapperAllocFns` (tools/allocscompilerwrapper.py:21-22). -/
def Env.plain (e : Env) : List W := e.dfltAlloc ++ splitWords [] e.alloc
/-- `allAllocFns` (tools/allocscompilerwrapper.py:30-31). -/
def Env.allocs (e : Env) : List W := e.plain ++ splitWords [] e.suballoc ++ splitWords [] e.allocsz
/-- `allL1OrWrapperFreeFns` (tools/allocscompilerwrapper.py:36-37). -/
def Env.frees (e : Env) : List W := e.dfltFree ++ splitWords [] e.free
/-- `allFreeFns` (tools/allocscompilerwrapper.py:42-43). -/
def Env.allFrees (e : Env) : List W := e.frees ++ splitWords [] e.subfree

/-- All or nothing. -/
def mapAll {α β : Type} (f : α → Option β) : List α → Option (List β)
  | [] => some []
  | a :: t =>
    match f a with
    | none => none
    | some b =>
      match mapAll f t with
      | none => none
      | some r => some (b :: r)

/-- `allWrappedSymNames` (tools/allocscompilerwrapper.py:45-61). -/
def wrapped (e : Env) : Option (List W) :=
  mapAll (fun w => match matchDecl restAny w with | none => none | some r => some r.1) (e.allocs ++ e.allFrees)

/-- The options for the linker's plugin (tools/allocscompilerwrapper.py:236-238). -/
def pluginOpts (e : Env) : Option (List W) :=
  match wrapped e with
  | none => none
  | some l => some (l.map fun n => w! "-Wl,-plugin-opt=" ++ n)

/-- `findFirstUpperCase` (tools/allocscompilerwrapper.py:63-68). -/
def firstUpper : W → Option Nat
  | [] => none
  | ch :: t => if ch.isUpper then some 0 else (firstUpper t).map (· + 1)

/-! ## Symbols -/

/-- A line of `nm`: the type letter and the name. -/
structure Sym where
  letter : Char
  name : W
  deriving DecidableEq

/-- `listDefinedSymbolsMatching` (tools/allocscompilerwrapper.py:130-138). -/
def definedAmong (syms : List Sym) (names : List W) : List W :=
  ((syms.filter fun s => s.letter != 'U').filter fun s => decide (s.name ∈ names)).map (·.name)

/-- A symbol of an object: whether it is local, whether it is defined. -/
structure ObjSym where
  name : W
  isLocal : Bool
  defined : Bool
  letter : Char
  deriving DecidableEq

/-- `fixupPostAssemblyDotO` (tools/allocscompilerwrapper.py:140-165). -/
def fixup (names : List W) (syms : List ObjSym) : List ObjSym :=
  if syms.any fun s => s.defined && decide (s.name ∈ names) && s.letter.isLower then
    syms.map fun s => if s.name ∈ names then { s with isLocal := false, letter := s.letter.toUpper } else s
  else syms

/-! ## The C file -/

/-- The macros that are invoked. -/
inductive Macro where
  | caller | size | suballoc | subfree | free
  deriving DecidableEq

/-- An invocation: function, letters of the arguments, letter of the result, the allocation function that belongs to it. -/
structure Inv where
  mac : Macro
  fn : W
  sig : W
  ret : Option Char
  corr : W
  deriving DecidableEq

/-- What is written for an allocation function (tools/allocscompilerwrapper.py:371-418): with no upper-case letter there is a
`NameError` at `passedThroughArgs`. -/
def allocInv (e : Env) (w : W) : Option Inv :=
  match matchDecl restRet w with
  | none => none
  | some (n, s, r) =>
    match firstUpper s with
    | none => none
    | some _ =>
      if w ∈ e.plain then some ⟨.caller, n, s, r, []⟩
      else if w ∈ splitWords [] e.allocsz then some ⟨.size, n, s, r, []⟩
      else some ⟨.suballoc, n, s, r, []⟩

/-- What is written for a suballocator's free function (tools/allocscompilerwrapper.py:420-434). -/
def subfreeInv (w : W) : Option Inv :=
  match matchDecl restArrow w with
  | none => none
  | some (n, s, a) => some ⟨.subfree, n, s, none, a⟩

/-- What is written for other free functions (tools/allocscompilerwrapper.py:436-447). -/
def freeInv (w : W) : Option Inv :=
  match matchDecl restAny w with
  | none => none
  | some (n, s, _) => some ⟨.free, n, s, none, []⟩

/-- All that is written (tools/allocscompilerwrapper.py:371-447). -/
def written (e : Env) : Option (List Inv) :=
  match mapAll (allocInv e) e.allocs, mapAll subfreeInv (splitWords [] e.subfree), mapAll freeInv e.frees with
  | some a, some b, some c => some (a ++ b ++ c)
  | _, _, _ => none

/-- C types (tools/stubgen.h:18-25). -/
inductive Ty where
  | size | ptr | int | void
  deriving DecidableEq

/-- `type_for_argchar_*` (tools/stubgen.h:18-25). -/
def tyOf (ch : Char) : Option Ty :=
  if ch = 'z' ∨ ch = 'Z' then some .size
  else if ch = 'p' ∨ ch = 'P' then some .ptr
  else if ch = 'i' ∨ ch = 'I' then some .int
  else none

/-- `cap_arg` (tools/stubgen.h:27-34, 80-84): it must be the name of one argument. -/
def capArg (sig : W) : Option Nat :=
  match (sig.zipIdx.filter fun p => decide (p.1 = 'Z' ∨ p.1 = 'P' ∨ p.1 = 'I')).map (·.2) with
  | [i] => some i
  | _ => none

/-- Bodies of the functions. -/
inductive Body where
  /-- `make_caller_wrapper` (tools/stubgen.h:208-247): note the argument's value, call with all arguments -/
  | noting (callee : W) (arg : Nat) (keep : Bool)
  /-- `make_free_wrapper` (tools/stubgen.h:275-293): call with all arguments -/
  | freeing (callee : W)
  /-- `__wrap___real_*` of a suballocating function (tools/stubgen.h:311-319): call, and index what is returned -/
  | indexing (callee : W)
  /-- `__wrap___real_*` of a free function (tools/stubgen.h:324-329): unindex the argument, and call -/
  | unindexing (callee : W) (arg : Nat)
  deriving DecidableEq

/-- A C function. -/
structure CFn where
  name : W
  params : List Ty
  ret : Ty
  body : Body
  deriving DecidableEq

/-- The declarations of the parameters (tools/stubgen.h:51-53, 58-63), of which there is at least one. -/
def paramsOf (sig : W) : Option (List Ty) :=
  if sig = [] ∨ sig.length > 64 then none else mapAll tyOf sig

/-- The functions that a `#define` renames where the program defines `malloc` (tools/allocscompilerwrapper.py:317-334). -/
def RENAMED : List W :=
  [w! "__real_malloc", w! "__real_free", w! "__real_calloc", w! "__real_realloc", w! "__real_memalign", w! "__real_malloc_usable_size"]

def rename (hasMalloc : Bool) (n : W) : W := if hasMalloc && decide (n ∈ RENAMED) then w! "__wrap_" ++ n else n

/-- What an invocation expands to. `make_size_caller_wrapper` is not defined (tools/stubgen.h:301-302 has another name). -/
def expand (hasMalloc : Bool) (i : Inv) : Option (List CFn) :=
  match paramsOf i.sig with
  | none => none
  | some ps =>
    match i.mac with
    | .size => none
    | .free => some [⟨w! "__wrap_" ++ i.fn, ps, .void, .freeing (rename hasMalloc (w! "__real_" ++ i.fn))⟩]
    | .subfree =>
      match capArg i.sig with
      | none => none
      | some a => some [⟨w! "__wrap_" ++ i.fn, ps, .void, .freeing (w! "__wrap___real_" ++ i.fn)⟩,
          ⟨w! "__wrap___real_" ++ i.fn, ps, .void, .unindexing (rename hasMalloc (w! "__real_" ++ i.fn)) a⟩]
    | .caller =>
      match i.ret, capArg i.sig with
      | some ch, some a =>
        match tyOf ch with
        | none => none
        | some t => some [⟨w! "__wrap_" ++ i.fn, ps, t, .noting (rename hasMalloc (w! "__real_" ++ i.fn)) a false⟩]
      | _, _ => none
    | .suballoc =>
      match i.ret, capArg i.sig with
      | some ch, some a =>
        match tyOf ch with
        | none => none
        | some t => some [⟨w! "__wrap_" ++ i.fn, ps, t, .noting (w! "__wrap___real_" ++ i.fn) a false⟩,
            ⟨w! "__wrap___real_" ++ i.fn, ps, t, .indexing (rename hasMalloc (w! "__real_" ++ i.fn))⟩]
      | _, _ => none

/-- The functions of the C file, if it compiles: no function may be defined twice, and a suballocator's free function needs the variable of its
allocation function (tools/stubgen.h:308, 326-327). -/
def compiled (hasMalloc : Bool) (is : List Inv) : Option (List CFn) :=
  match mapAll (expand hasMalloc) is with
  | none => none
  | some fs =>
    if (fs.flatten.map (·.name)).Nodup ∧
        ∀ i ∈ is, i.mac = .subfree → ∃ j ∈ is, j.mac = .suballoc ∧ j.fn = i.corr then some fs.flatten
    else none

/-- `generateAllocatorMods` (tools/allocscompilerwrapper.py:226-529): the functions, and the options for the linker. -/
def generate (e : Env) (syms : List Sym) : Option (List CFn × List W) :=
  match wrapped e, written e with
  | some ns, some is =>
    match compiled (decide (w! "malloc" ∈ definedAmong syms ns)) is, pluginOpts e with
    | some fs, some o => some (fs, o)
    | _, _ => none
  | _, _ => none

/-! ## Calling the wrappers -/

/-- What is seen of a call. -/
inductive Ev where
  /-- the size is noted -/
  | note (size : Nat)
  /-- a function that is not in the file is called -/
  | call (fn : W) (args : List Nat)
  /-- what the last call returned is indexed -/
  | index
  /-- a pointer is unindexed -/
  | unindex (ptr : Nat)
  deriving DecidableEq

/-- A function of the file, by name. -/
def lookup (fs : List CFn) (n : W) : Option CFn := fs.find? fun f => f.name = n

/-- A call of a function that does not itself call a function of the file. -/
def callInner (fs : List CFn) (n : W) (args : List Nat) : Option (List Ev) :=
  match lookup fs n with
  | none => some [.call n args]
  | some f =>
    if args.length = f.params.length then
      match f.body with
      | .indexing r => some [.call r args, .index]
      | .unindexing r a =>
        match args[a]? with
        | some v => some [.unindex v, .call r args]
        | none => none
      | _ => none
    else none

/-- A call of a function. -/
def call (fs : List CFn) (n : W) (args : List Nat) : Option (List Ev) :=
  match lookup fs n with
  | none => some [.call n args]
  | some f =>
    if args.length = f.params.length then
      match f.body with
      | .noting r a _ =>
        match args[a]?, callInner fs r args with
        | some v, some l => some (.note v :: l)
        | _, _ => none
      | .freeing r => callInner fs r args
      | _ => callInner fs n args
    else none

end Liballocs.StubGen
