import Verif.Model.CcArgs
import Verif.Model.LinkArgs
/-!
# From environment to linker plugin (tools/allocs-wrapper, tools/gold-plugin.cpp, tools/allocstubs.c)

The user names allocation functions in environment variables. The script `allocs-ldflags` (a name of tools/allocs-wrapper) rewrites them as options for the linker's
plugin. The plugin checks the options, picks the symbols to be wrapped, and compiles wrappers.

Simplifications. No word of the environment has a backslash, `%`, a quotation mark, or a pattern character, and none is an option of `echo`. The client's shell reads what the
script writes as part of a command. `std::regex` is taken to accept the language of the expression, and to search for the leftmost match and there the longest, which for
the expressions here is what the greedy search finds. The input files and their symbols are given: how they are found is another project's code. The text of the
command that compiles the wrappers is not looked at, only the values of the macros.
-/
namespace Liballocs.LdFlags
open Liballocs.LinkArgs (Text interest wrap)

/-! ## The script -/

/-- The words of an unquoted expansion (tools/allocs-wrapper:26). -/
def shWords (acc : Text) : Text → List Text
  | [] => if acc = [] then [] else [acc]
  | c :: s =>
    if c = ' ' ∨ c = '\t' ∨ c = '\n' then (if acc = [] then shWords [] s else acc :: shWords [] s) else shWords (acc ++ [c]) s

/-- `tr '()' '\t'` (tools/allocs-wrapper:27). -/
def tabbed (s : Text) : Text := s.map fun c => if c = '(' ∨ c = ')' then '\t' else c

def isTab (c : Char) : Bool := decide (c = '\t')

/-- A field, and what follows the tabs after it: tabs are white space for `read` (tools/allocs-wrapper:27). -/
def field (s : Text) : Text × Text := (s.takeWhile (!isTab ·), (s.dropWhile (!isTab ·)).dropWhile isTab)

/-- `IFS=$'\t' read ident args after` (tools/allocs-wrapper:27). -/
def readFields (s : Text) : Text × Text × Text :=
  let s := s.dropWhile isTab
  let a := field s
  let b := field a.2
  (a.1, b.1, (b.2.reverse.dropWhile isTab).reverse)

/-- `sed 's/./&;/g' | sed 's/;$//'` (tools/allocs-wrapper:33). -/
def semis : Text → Text
  | [] => []
  | [c] => [c]
  | c :: s => c :: ';' :: semis s

/-- The first arrow is taken out (tools/allocs-wrapper:33). -/
def arrowless : Text → Text
  | '-' :: '>' :: s => s
  | c :: s => c :: arrowless s
  | [] => []

/-- `sed -E 's/.+/;&/'` (tools/allocs-wrapper:33). -/
def semiIf (s : Text) : Text := if s = [] then [] else ';' :: s

/-- What is written for a word (tools/allocs-wrapper:27-33). -/
def entry (v : Text) : Text :=
  match readFields (tabbed v) with
  | (ident, args, after) => ident ++ ';' :: '(' :: (semis args ++ ')' :: semiIf (arrowless after))

/-- Words with a blank between them (tools/allocs-wrapper:24-35). -/
def spaced : List Text → Text
  | [] => []
  | [w] => w
  | w :: ws => w ++ ' ' :: spaced ws

/-- `rewrite_liballocs_var` (tools/allocs-wrapper:23-36). -/
def rewriteVar (v : Text) : Text := spaced ((shWords [] v).map entry)

/-- `quote_metachars` (tools/allocs-wrapper:10-12). -/
def quoteMeta (s : Text) : Text := s.flatMap fun c => if c = '(' ∨ c = ')' ∨ c = ' ' ∨ c = ';' then ['\\', c] else [c]

/-- The variables (tools/allocs-wrapper:38-39). -/
structure Env where
  alloc : Text
  free : Text
  allocsz : Text
  suballoc : Text
  subfree : Text
  override : Text

def Env.vars (e : Env) : List Text := [e.alloc, e.free, e.allocsz, e.suballoc, e.subfree, e.override]

/-- What the script writes (tools/allocs-wrapper:37-42). -/
def ldflags (dir : Text) (e : Env) : Text :=
  w! "-Wl,-plugin=" ++ dir ++ w! "/gold-plugin.so" ++ e.vars.flatMap fun v => w! " -Wl,-plugin-opt=" ++ quoteMeta (rewriteVar v)

/-! ## The shell and the compiler -/

/-- The word so far. -/
def begun : Option Text → Text
  | none => []
  | some w => w

/-- The words of a command without quotation marks: `cur` is the word begun. -/
def cmdWords : Option Text → Text → List Text
  | cur, [] => cur.toList
  | cur, [c] => if c = ' ' then cur.toList else [begun cur ++ [c]]
  | cur, c :: d :: s =>
    if c = '\\' then cmdWords (some (begun cur ++ [d])) s
    else if c = ' ' then cur.toList ++ cmdWords none (d :: s)
    else cmdWords (some (begun cur ++ [c])) (d :: s)

/-- The pieces between commas. -/
def commas (acc : Text) : Text → List Text
  | [] => [acc]
  | c :: s => if c = ',' then acc :: commas [] s else commas (acc ++ [c]) s

/-- What the compiler gives to the linker for `-Wl,…`. -/
def forLinker (w : Text) : List Text := if (w! "-Wl,").isPrefixOf w then commas [] (w.drop 4) else []

/-- The options of the plugin, among the linker's arguments. -/
def plugOpts (args : List Text) : List Text := (args.filter fun a => (w! "-plugin-opt=").isPrefixOf a).map (List.drop 12)

/-- The options that the plugin gets. -/
def options (dir : Text) (e : Env) : List Text := plugOpts ((cmdWords none (ldflags dir e)).flatMap forLinker)

/-! ## Regular expressions -/

inductive Re where
  | fail
  | eps
  | cls (p : Char → Bool)
  | seq (a b : Re)
  | alt (a b : Re)
  | star (a : Re)

/-- Whether the empty text is accepted. -/
def Re.null : Re → Bool
  | .fail => false
  | .eps => true
  | .cls _ => false
  | .seq a b => a.null && b.null
  | .alt a b => a.null || b.null
  | .star _ => true

/-- What may follow a character. -/
def Re.der (c : Char) : Re → Re
  | .fail => .fail
  | .eps => .fail
  | .cls p => if p c then .eps else .fail
  | .seq a b => if a.null then .alt (.seq (a.der c) b) (b.der c) else .seq (a.der c) b
  | .alt a b => .alt (a.der c) (b.der c)
  | .star a => .seq (a.der c) (.star a)

/-- `regex_match`. -/
def Re.accepts (r : Re) : Text → Bool
  | [] => r.null
  | c :: s => (r.der c).accepts s

/-- The longest match at the start, and what follows it. -/
def Re.longest (r : Re) : Text → Option (Text × Text)
  | [] => if r.null then some ([], []) else none
  | c :: s =>
    match (r.der c).longest s with
    | some (m, t) => some (c :: m, t)
    | none => if r.null then some ([], c :: s) else none

def Re.chr (c : Char) : Re := .cls fun d => decide (d = c)
def Re.opt (r : Re) : Re := .alt r .eps

def isLetter (c : Char) : Bool := c.isAlpha
def isBlank (c : Char) : Bool := decide (c = ' ' ∨ c = '\t')
def isSep (c : Char) : Bool := decide (c = ';' ∨ c = ',')
def isIdent0 (c : Char) : Bool := c.isAlpha || decide (c = '_')
def isIdent1 (c : Char) : Bool := c.isAlphanum || decide (c = '_') || isBlank c || decide (c = ':')

/-- `ident` (tools/gold-plugin.cpp:327). -/
def reIdent : Re := .seq (.cls isIdent0) (.star (.cls isIdent1))
/-- `tuple` (tools/gold-plugin.cpp:328). -/
def reTuple : Re := .seq (.chr '(') (.seq (.cls isLetter) (.seq (.star (.seq (.cls isSep) (.cls isLetter))) (.chr ')')))
/-- `suffix` (tools/gold-plugin.cpp:329). -/
def reSuffix : Re := .opt (.seq (.opt (.seq (.chr '-') (.chr '>'))) (.cls isLetter))
/-- `one_entry` (tools/gold-plugin.cpp:330). -/
def reEntry : Re := .seq reIdent (.seq (.cls isSep) (.seq reTuple (.seq (.cls isSep) reSuffix)))
/-- `ws` (tools/gold-plugin.cpp:332). -/
def reWs : Re := .seq (.cls isBlank) (.star (.cls isBlank))
/-- `whole_var` (tools/gold-plugin.cpp:331). -/
def reWhole : Re := .opt (.seq reEntry (.star (.seq reWs reEntry)))
/-- `ident` and then anything (tools/gold-plugin.cpp:379). -/
def reIdentAny : Re := .seq reIdent (.star (.cls fun c => decide (c ≠ '\n' ∧ c ≠ '\r')))

/-! ## The plugin -/

/-- How the plugin can stop: `abort`, or an exception that is not caught. -/
inductive Stop where
  | abort
  | exception
  deriving DecidableEq

/-- `check_and_rewrite` (tools/gold-plugin.cpp:352-369). -/
def check (s : Text) : Except Stop Text := if reWhole.accepts s then .ok (s.map fun c => if c = ';' then ',' else c) else .error .abort

/-- `check_and_rewrite(job->options.at(n))` (tools/gold-plugin.cpp:394-399). -/
def checkAt (opts : List Text) (n : Nat) : Except Stop Text :=
  match opts[n]? with
  | none => .error .exception
  | some s => check s

/-- The values of the six members. -/
structure Lists where
  alloc : Text
  free : Text
  allocsz : Text
  suballoc : Text
  subfree : Text
  override : Text
  deriving DecidableEq

/-- The members' initialization (tools/gold-plugin.cpp:389-399). -/
def start (opts : List Text) : Except Stop Lists :=
  if opts.length < 5 then .error .abort
  else
    match checkAt opts 0 with
    | .error e => .error e
    | .ok a =>
    match checkAt opts 1 with
    | .error e => .error e
    | .ok b =>
    match checkAt opts 2 with
    | .error e => .error e
    | .ok c =>
    match checkAt opts 3 with
    | .error e => .error e
    | .ok d =>
    match checkAt opts 4 with
    | .error e => .error e
    | .ok f =>
    match checkAt opts 5 with
    | .error e => .error e
    | .ok g => .ok ⟨a, b, c, d, f, g⟩

/-- The pieces between white space (tools/gold-plugin.cpp:374-377). -/
def pieces (acc : Text) : Text → List Text
  | [] => [acc]
  | c :: s => if isBlank c then acc :: pieces [] s else pieces (acc ++ [c]) s

/-- The name at the start of a piece (tools/gold-plugin.cpp:378-384). -/
def identOf (piece : Text) : Option Text := if reIdentAny.accepts piece then (reIdent.longest piece).map (·.1) else none

/-- `extract_idents` (tools/gold-plugin.cpp:371-387). -/
def extract (s : Text) : List Text := (pieces [] s).filterMap identOf

/-- The names of all functions (tools/gold-plugin.cpp:455-460). -/
def idents (opts : List Text) : List Text := (opts.take 5).flatMap extract

/-- Symbols of an input file. -/
inductive SymType where
  | object | func | other
  deriving DecidableEq
inductive Place where
  | undef | abs | section
  deriving DecidableEq
structure Sym where
  typ : SymType
  place : Place
  isLocal : Bool
  name : Text
  deriving DecidableEq
structure Input where
  name : Text
  isRel : Bool
  syms : List Sym

/-- A function or variable that the file defines for others (tools/gold-plugin.cpp:554-557, 581-584). -/
def Sym.offered (s : Sym) : Bool := (decide (s.typ = .object) || decide (s.typ = .func)) && (decide (s.place ≠ .undef) && decide (s.place ≠ .abs)) && !s.isLocal

/-- `global_symnames_to_xwrap` (tools/gold-plugin.cpp:548-572). -/
def toWrap (ids : List Text) (ins : List Input) : List Text :=
  ins.flatMap fun f => (f.syms.filter fun s => s.offered && wrap (ids.map interest) s.name).map (·.name)

/-- `saw_malloc`: the last file that defines it (tools/gold-plugin.cpp:574-592). -/
def sawMalloc (ins : List Input) : Option Text :=
  ins.foldl (fun r f => if f.isRel && f.syms.any fun s => s.offered && decide (s.name = w! "malloc") then some f.name else r) none

/-- `wordify` (tools/gold-plugin.cpp:913-917), with as many steps as there are characters. -/
def wordifyN : Nat → Text → Text
  | 0, s => s
  | _ + 1, [] => []
  | n + 1, c :: s =>
    match reEntry.longest (c :: s) with
    | some (m, t) => 'w' :: '(' :: (m ++ ')' :: wordifyN n t)
    | none => c :: wordifyN n s

def wordify (s : Text) : Text := wordifyN s.length s

/-! ## The preprocessor -/

/-- Where the preprocessor is in a macro's value. -/
inductive Pos where
  | out
  | name
  | arg (depth : Nat) (done : List Text) (cur : Text)

/-- The invocations in a macro's value: the arguments of each. -/
def invocations : Pos → Text → Option (List (List Text))
  | .out, [] => some []
  | .name, [] => none
  | .arg _ _ _, [] => none
  | .out, c :: s => if c = ' ' ∨ c = '\t' then invocations .out s else if c = 'w' then invocations .name s else none
  | .name, c :: s => if c = '(' then invocations (.arg 0 [] []) s else none
  | .arg d done cur, c :: s =>
    if c = '(' then invocations (.arg (d + 1) done (cur ++ [c])) s
    else if c = ')' then
      if d = 0 then (invocations .out s).map ((done ++ [cur]) :: ·) else invocations (.arg (d - 1) done (cur ++ [c])) s
    else if c = ',' ∧ d = 0 then invocations (.arg 0 (done ++ [cur]) []) s
    else invocations (.arg d done (cur ++ [c])) s

/-- A tuple's elements. -/
def tuple (s : Text) : Option (List Text) :=
  match s with
  | '(' :: t =>
    match t.getLast? with
    | some ')' => some (commas [] t.dropLast)
    | _ => none
  | _ => none

/-- An invocation of a wrapper macro: the macro, the function, the elements of the tuple, the third argument. -/
structure Inv where
  mac : Text
  fn : Text
  args : List Text
  ret : Text
  deriving DecidableEq

/-- The parameter `w` is replaced wherever it is a token (tools/gold-plugin.cpp:293-298). -/
def subst (mac a : Text) : Text := if a = ['w'] then mac else a

def toInv (mac : Text) : List Text → Option Inv
  | [f, t, r] => (tuple t).map fun as => ⟨mac, subst mac f, as.map (subst mac), subst mac r⟩
  | _ => none

def mapAll {α β : Type} (f : α → Option β) : List α → Option (List β)
  | [] => some []
  | a :: as =>
    match f a, mapAll f as with
    | some b, some bs => some (b :: bs)
    | _, _ => none

/-- What a list in the C file becomes (tools/allocstubs.c:77-81). -/
def expandList (mac value : Text) : Option (List Inv) :=
  match invocations .out value with
  | none => none
  | some l => mapAll (toInv mac) l

/-- The invocations in the C file (tools/allocstubs.c:77-81). -/
def stubs (l : Lists) : Option (List Inv) :=
  match expandList (w! "make_caller_alloc_wrapper") (wordify l.alloc), expandList (w! "make_caller_free_wrapper") (wordify l.free),
      expandList (w! "make_caller_sz_wrapper") (wordify l.allocsz), expandList (w! "make_suballoc_wrapper") (wordify l.suballoc),
      expandList (w! "make_subfree_wrapper") (wordify l.subfree) with
  | some a, some b, some c, some d, some f => some (a ++ b ++ c ++ d ++ f)
  | _, _, _, _, _ => none

/-- What the plugin does for a link: the symbols it has wrapped, and the wrappers it makes. -/
def plugin (opts : List Text) (ins : List Input) : Except Stop (List Text × Option (List Inv)) :=
  match start opts with
  | .error e => .error e
  | .ok l => .ok (toWrap (idents opts) ins, stubs l)

end Liballocs.LdFlags
