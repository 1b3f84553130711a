/-!
# The linker plugin (tools/gold-plugin.cpp)

The plugin checks the linker's command line.  If an option is missing that it needs, it restarts the linker with a changed command line.  It also runs other
programs through the shell.

Simplifications.  `RESTART_IF`, `STARTS_WITH` and `GETARG` are macros from another project: the first is taken to restart the linker if its function says so, the last
to give what follows the option in the same argument (without `=`), or else the next argument.  `realpath` and the file system are given as predicates.  A vector is
taken to double its room when it is full, and to have no room to spare when it is copied.
-/
namespace Liballocs.LinkArgs

abbrev Text := List Char

/-! ## The shell -/

/-- The loop of `shell_quote` (tools/gold-plugin.cpp:138-151). -/
def quoteBody : Text → Text
  | [] => []
  | c :: s => if c = '\'' then '\'' :: '"' :: '\'' :: '"' :: '\'' :: quoteBody s else c :: quoteBody s

/-- `shell_quote` (tools/gold-plugin.cpp:133-153). -/
def shellQuote (s : Text) : Text := '\'' :: (quoteBody s ++ ['\''])

/-- The arguments of the command that gathers types (tools/gold-plugin.cpp:267). -/
def argsText : List Text → Text
  | [] => []
  | a :: as => ' ' :: (shellQuote a ++ argsText as)

/-- The arguments for making one local symbol global (tools/gold-plugin.cpp:112-118). -/
def globalizeArg (sym new : Text) : Text :=
  ['-', '-', 'r', 'e', 'd', 'e', 'f', 'i', 'n', 'e', '-', 's', 'y', 'm', ' ', '\''] ++ sym ++ ['='] ++ new ++ ['\'', ' ', '-', '-', 'g', 'l', 'o', 'b', 'a', 'l', 'i', 'z', 'e', '-', 's', 'y', 'm', ' ', '\''] ++ sym ++ ['\'', ' ']

/-- The end of that command (tools/gold-plugin.cpp:120). -/
def globalizeEnd (file tmp : Text) : Text := ' ' :: file ++ tmp

/-! ## Symbols of interest -/

/-- Split at the last `::`, as `(.*)::(.*)` does. -/
def splitLast : Text → Option (Text × Text)
  | [] => none
  | c :: s =>
    match splitLast s with
    | some p => some (c :: p.1, p.2)
    | none =>
      match c, s with
      | ':', ':' :: r => some ([], r)
      | _, _ => none

/-- What is looked for: a global symbol, or a local symbol in a file (tools/gold-plugin.cpp:516-525).  The pair is made of the whole and the first part. -/
inductive Interest where
  | glob (s : Text)
  | locl (file sym : Text)
  deriving DecidableEq

def interest (ident : Text) : Interest :=
  match splitLast ident with
  | some p => .locl ident p.1
  | none => .glob ident

/-- Whether a local symbol of a file is to be made global (tools/gold-plugin.cpp:527-547). -/
def globalize (l : List Interest) (file sym : Text) : Bool := l.any fun i => decide (i = .locl file sym)

/-- Whether a global symbol is to be wrapped (tools/gold-plugin.cpp:548-573). -/
def wrap (l : List Interest) (sym : Text) : Bool := l.any fun i => decide (i = .glob sym)

/-! ## The command line -/

inductive Pass where
  | keep
  | restart (cmd : List Text)
  | undefined
  deriving DecidableEq

def sEmit : Text := ['-', '-', 'e', 'm', 'i', 't', '-', 'r', 'e', 'l', 'o', 'c', 's']
def sQ : Text := ['-', 'q']
def sPlugin : Text := ['-', 'p', 'l', 'u', 'g', 'i', 'n']
def sOpt : Text := ['-', 'p', 'l', 'u', 'g', 'i', 'n', '-', 'o', 'p', 't']
def sRpath : Text := ['-', 'r', 'p', 'a', 't', 'h']
def sR : Text := ['-', 'R']
def sDyn : Text := ['-', 'd', 'y', 'n', 'a', 'm', 'i', 'c', '-', 'l', 'i', 'n', 'k', 'e', 'r']
def sDyn2 : Text := ['-', '-', 'd', 'y', 'n', 'a', 'm', 'i', 'c', '-', 'l', 'i', 'n', 'k', 'e', 'r']
def sI : Text := ['-', 'I']

/-- `missing_emit_relocs` (tools/gold-plugin.cpp:484-495). -/
def emitRelocs (cmd : List Text) : Pass := if sQ ∈ cmd ∨ sEmit ∈ cmd then .keep else .restart (cmd ++ [sEmit])

def startsWith (p s : Text) : Bool := p.isPrefixOf s

/-- `GETARG`, by its contract. -/
def getArg (opt s : Text) (next : Option Text) : Text :=
  match s.drop opt.length with
  | [] => match next with
    | some n => n
    | none => []
  | '=' :: r => r
  | r => r

/-- What is found out about the plugin that wraps symbols. -/
structure Scan where
  x : Option Nat
  later : Option Nat
  syms : List Text
  deriving DecidableEq

/-- Both forms of option (tools/gold-plugin.cpp:635-661). -/
def scanStep (isX : Text → Bool) (i : Nat) (s : Text) (next : Option Text) (st : Scan) : Scan :=
  if startsWith sOpt s = false ∧ startsWith sPlugin s = true then
    if isX (getArg sPlugin s next) then { st with x := some i }
    else if st.x ≠ none ∧ st.later = none then { st with later := some i }
    else st
  else if startsWith sOpt s = true ∧ st.x ≠ none ∧ st.later = none then { st with syms := st.syms ++ [getArg sOpt s next] }
  else st

def scan (isX : Text → Bool) : List Text → Nat → Scan → Scan
  | [], _, st => st
  | s :: l, i, st => scan isX l (i + 1) (scanStep isX i s l.head? st)

/-- `missing_xwrap_options` (tools/gold-plugin.cpp:596-693).  Options are inserted one by one at one iterator, which is no longer valid once the vector has
been moved (683-688). -/
def xwrap (isX : Text → Bool) (path : Text) (needed : List Text) (cmd : List Text) : Pass :=
  let st := scan isX cmd 0 ⟨none, none, []⟩
  let missing := needed.filter fun s => decide (s ∉ st.syms)
  let opts := missing.reverse.map fun s => sOpt ++ '=' :: s
  if missing = [] then .keep
  else match st.x with
    | none => if missing.length ≤ max 1 cmd.length then .restart (cmd ++ (sPlugin ++ '=' :: path) :: opts) else .undefined
    | some x => if missing.length ≤ 1 then .restart (cmd.take (x + 1) ++ (opts ++ cmd.drop (x + 1))) else .undefined

/-- The directories found (tools/gold-plugin.cpp:700-716). -/
def rpaths (isDir : Text → Bool) : List Text → List Text
  | [] => []
  | s :: l =>
    match startsWith sRpath s, l with
    | true, n :: _ => n :: rpaths isDir l
    | _, _ =>
      if startsWith sR s then
        if isDir (getArg sR s l.head?) then getArg sR s l.head? :: rpaths isDir l else rpaths isDir l
      else [] :: rpaths isDir l

/-- `missing_liballocs_rpath` (tools/gold-plugin.cpp:698-740); `same` is whether a path is that of the library. -/
def rpath (isDir same : Text → Bool) (dir : Text) (cmd : List Text) : Pass :=
  if (rpaths isDir cmd).any same then .keep else .restart (cmd ++ [sRpath, dir])

/-- The last dynamic linker named, and the position of the option (tools/gold-plugin.cpp:754-779). -/
def dynLinker : List Text → Nat → Option (Text × Nat) → Option (Text × Nat)
  | [], _, r => r
  | s :: l, i, r =>
    match startsWith sDyn2 s || startsWith sDyn s, l with
    | true, n :: _ => dynLinker l (i + 1) (some (n, i))
    | _, _ => if startsWith sI s then dynLinker l (i + 1) (some (getArg sI s l.head?, i)) else dynLinker l (i + 1) r

/-- `missing_allocsld` (tools/gold-plugin.cpp:752-822): `sys` is the system's dynamic linker, `ld` ours.  Writing past the end is undefined. -/
def allocsld (same : Text → Bool) (sys ld : Text) (cmd : List Text) : Pass :=
  match dynLinker cmd 0 none with
  | none => .restart (cmd ++ [sDyn2, ld])
  | some (a, i) =>
    if a = [] then .undefined
    else if same a then .keep
    else if a ≠ sys then .keep
    else if i + 1 < cmd.length then .restart (cmd.set (i + 1) ld) else .undefined

end Liballocs.LinkArgs
