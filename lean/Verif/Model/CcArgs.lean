/-!
# The compiler wrapper (tools/compilerwrapper.py, tools/allocscompilerwrapper.py)

`allocscc` stands in for the compiler: it sorts the words of its command line into items and options for each phase, compiles every source
file to a temporary object, links these into one relocatable object, and links that into what was asked for.

Simplifications: a Python exception is `none`, and ends the run. A word's place on the command line is its place in the list of items; the
dictionary of all arguments has nothing else that is read here. Phases are the numbers 0 to 4, sets of phases are lists in increasing
order. What is added by the wrapper itself (paths, stubs, the words that every compiler command has) is a parameter; commands are what is
handed to `runCompiler`; running the compiler to find out whether it knows an option is not counted. Whether a command or a fix-up succeeds is a parameter, and so are the names of temporary files. The set of output
options taken out and put back has the order of the options here.
-/
namespace Liballocs.CcArgs

/-- A word of a command line. -/
abbrev W := List Char

/-- A literal word. -/
macro:max "w!" s:str : term => do
  let cs := (s.getString.toList.map fun c => Lean.Syntax.mkCharLit c).toArray
  `(([$cs,*] : List Char))

/-- `str.startswith`. -/
def starts (p w : W) : Bool := p.isPrefixOf w

/-- What is before and after the last `c`. -/
def lastCut (c : Char) : W → Option (W × W)
  | [] => none
  | a :: t =>
    match lastCut c t with
    | some (x, y) => some (a :: x, y)
    | none => if a = c then some ([], t) else none

/-- `os.path.basename`. -/
def baseOf (w : W) : W :=
  match lastCut '/' w with
  | none => w
  | some (_, b) => b

/-- The extension of a last component (`os.path.splitext`): nothing if there are only dots before it. -/
def extOfBase (b : W) : W :=
  match lastCut '.' b with
  | none => []
  | some (pre, suf) => if pre.all (· == '.') then [] else '.' :: suf

/-- A last component without its extension. -/
def stemOfBase (b : W) : W :=
  match lastCut '.' b with
  | none => b
  | some (pre, _) => if pre.all (· == '.') then b else pre

/-- `guessInputLanguageFromFilename` (tools/compilerwrapper.py:61-96). -/
def guess (w : W) : Option W :=
  if extOfBase (baseOf w) ∈ [w! ".c"] then some w! "c"
  else if extOfBase (baseOf w) ∈ [w! ".h"] then some w! "c-header"
  else if extOfBase (baseOf w) ∈ [w! ".i"] then some w! "cpp-output"
  else if extOfBase (baseOf w) ∈ [w! ".C", w! ".cc", w! ".cpp", w! ".cxx", w! "CPP", w! "c++", w! ".cp"] then some w! "c++"
  else if extOfBase (baseOf w) ∈ [w! ".H", w! ".hh", w! ".hpp", w! ".hxx", w! "HPP", w! "h++", w! ".hp", w! ".tc"] then some w! "c++-header"
  else if extOfBase (baseOf w) ∈ [w! ".ii"] then some w! "c++-cpp-output"
  else if extOfBase (baseOf w) ∈ [w! ".s"] then some w! "assembler"
  else if extOfBase (baseOf w) ∈ [w! ".S"] then some w! "assembler-with-cpp"
  else none

/-- `phasesForInputLanguage` (tools/compilerwrapper.py:98-113): a language that is not listed raises `NameError` in the error message. -/
def phasesFor : Option W → Option (List Nat)
  | none => some [4]
  | some l =>
    if l = w! "c" ∨ l = w! "c-header" then some [1, 2, 3, 4]
    else if l = w! "c++" ∨ l = w! "c++-header" then some [1, 2, 3, 4]
    else if l = w! "cpp-output" ∨ l = w! "c++-cpp-output" then some [2, 3, 4]
    else if l = w! "assembler" then some [3, 4]
    else if l = w! "assembler-with-cpp" then some [1, 3, 4]
    else none

/-- An item: its text, the language if it is a `SourceFile`, and the phases it is for (tools/compilerwrapper.py:226-237). -/
structure Item where
  text : W
  lang : Option W
  phases : List Nat
  deriving DecidableEq

/-- Options of a phase, or of several: a dictionary, in the order in which keys were first set. -/
abbrev Dict := List (W × Option W)

/-- Setting a key of a dictionary. -/
def put : Dict → W × Option W → Dict
  | [], e => [e]
  | d :: t, e => if d.1 = e.1 then e :: t else d :: put t e

/-- `dict` of a list of pairs. -/
def dict (l : List (W × Option W)) : Dict := l.foldl put []

/-- What is known after some words (tools/compilerwrapper.py:191-216, 292-297). -/
structure St where
  lang : Option W
  items : List Item
  opts : Nat → Dict
  en : List Nat
  out : Option W

/-- `argItem` (tools/compilerwrapper.py:226-237). -/
def addItem (s : St) (ph : List Nat) (w : W) (lang : Option W) : St := { s with items := s.items ++ [⟨w, lang, ph⟩] }

/-- `argOption` (tools/compilerwrapper.py:239-248). -/
def addOpt (s : St) (ph : List Nat) (k : W) (v : Option W) : St :=
  { s with opts := fun p => if p ∈ ph then put (s.opts p) (k, v) else s.opts p }

/-- What a word is taken for. -/
inductive Kind where
  /-- end of options -/
  | marker
  /-- a file name -/
  | file
  /-- `-o` -/
  | out
  /-- an item by itself -/
  | item (ph : List Nat)
  /-- an item together with the next word -/
  | item2 (ph : List Nat)
  /-- an item, the next word being passed over -/
  | itemSkip (ph : List Nat)
  /-- an option by itself, under some name -/
  | opt (ph : List Nat) (k : W)
  /-- an option whose value is the next word -/
  | optNext (ph : List Nat) (k : W)
  /-- an option joined with the next word -/
  | optJoin (ph : List Nat) (pre : W)
  /-- an item that says which phases there are -/
  | stop (en : List Nat)
  /-- `-x` -/
  | lang
  deriving DecidableEq

/-- The cases of `classifyArguments` (tools/compilerwrapper.py:306-414), options not having ended. -/
def kind (w : W) : Kind :=
  if w = w! "--" then .marker
  else if w = w! "-" ∨ ¬ starts w! "-" w then .file
  else if w = w! "-o" then .out
  else if starts w! "-l" w then .item [4]
  else if w = w! "-I" then .optJoin [1] w! "-I"
  else if starts w! "-I" w then .opt [1] w
  else if w = w! "-L" then .item2 [4]
  else if starts w! "-L" w then .item [4]
  else if w ∈ [w! "-flto", w! "-fno-lto"] then .opt [2, 4] w
  else if starts w! "-f" w then .opt [2] w
  else if starts w! "-O" w then .opt [2] w
  else if starts w! "-std" w then .opt [1, 2] w
  else if starts w! "-g" w then .opt [2, 3, 4] w
  else if w = w! "-shared" ∨ w = w! "-G" then .opt [4] w! "-shared"
  else if w = w! "-c" then .stop [1, 2, 3]
  else if w = w! "-h" ∨ starts w! "--help" w ∨ starts w! "--target-help" w then .item [0]
  else if w = w! "-E" then .stop [1]
  else if w = w! "-S" then .stop [1, 2]
  else if w = w! "-x" then .lang
  else if w ∈ [w! "-include", w! "-isystem", w! "-idirafter", w! "-imacros", w! "-iprefix", w! "-iquote", w! "-iwithprefix",
      w! "-iwithprefixbefore"] then .item2 [1]
  else if w = w! "-param" ∨ w = w! "--param" then .item2 [2]
  else if w ∈ [w! "-M", w! "-MM", w! "-MG", w! "-MP", w! "-MD", w! "-MMD"] then .itemSkip [1]
  else if w ∈ [w! "-MT", w! "-MQ", w! "-MF"] then .optNext [1] w
  else if w = w! "-T" then .optNext [4] w
  else if w = w! "-u" then .item2 [4]
  else if starts w! "-Wl" w then .opt [4] w
  else if starts w! "-Xlinker" w then .optJoin [4] w! "-Wl,"
  else if starts w! "-Wp" w then .opt [1] w
  else if starts w! "-Xpreprocessor" w then .optJoin [1] w! "-Wp,"
  else if starts w! "-Wa" w then .opt [3] w
  else if starts w! "-Xassembler" w then .optJoin [3] w! "-Wa,"
  else if starts w! "-mllvm" w then if '=' ∈ w then .opt [1, 2, 3, 4] w else .optNext [1, 2, 3, 4] w
  else .opt [0, 1, 2, 3, 4] w

/-- A file name (tools/compilerwrapper.py:310-314). -/
def addFile (s : St) (w : W) : Option St :=
  match phasesFor (match s.lang with | some l => some l | none => guess w) with
  | none => none
  | some ph => some (addItem s ph w (match s.lang with | some l => some l | none => guess w))

/-- The loop of `classifyArguments` (tools/compilerwrapper.py:298-414), after the first word; none also where a word's argument is
missing, and at `--`, where `self.phases` does not exist. -/
def scan (s : St) : List W → Option St
  | [] => some s
  | w :: t =>
    match kind w with
    | .marker => none
    | .file =>
      match addFile s w with
      | none => none
      | some s' => scan s' t
    | .item ph => scan (addItem s ph w none) t
    | .opt ph k => scan (addOpt s ph k none) t
    | .stop en => scan { addItem s [0] w none with en := en } t
    | .itemSkip ph =>
      match t with
      | [] => some (addItem s ph w none)
      | _ :: t' => scan (addItem s ph w none) t'
    | .out =>
      match t with
      | [] => none
      | v :: t' => scan { addOpt s [0] w! "-o" (some v) with out := some v } t'
    | .item2 ph =>
      match t with
      | [] => none
      | v :: t' => scan (addItem (addItem s ph w none) ph v none) t'
    | .optNext ph k =>
      match t with
      | [] => none
      | v :: t' => scan (addOpt s ph k (some v)) t'
    | .optJoin ph pre =>
      match t with
      | [] => none
      | v :: t' => scan (addOpt s ph (pre ++ v) none) t'
    | .lang =>
      match t with
      | [] => none
      | v :: t' => scan { s with lang := if v = w! "none" then none else some v } t'

/-- Whether two sets of phases meet. -/
def meets (a b : List Nat) : Bool := a.any (· ∈ b)

/-- The largest phase. -/
def maxPhase (en : List Nat) : Nat := en.foldl max 0

/-- `classifyArguments` (tools/compilerwrapper.py:291-420). -/
def classify : List W → Option St
  | [] => none
  | prog :: t =>
    match scan ⟨none, [⟨prog, none, [0]⟩], fun _ => [], [1, 2, 3, 4], none⟩ t with
    | none => none
    | some s =>
      let s := match s.out with
        | none => s
        | some v => if v = [] then s else addOpt s [maxPhase s.en] w! "-o" (some v)
      if s.items.any fun i => meets i.phases [1, 2, 3, 4] then some s else some { s with en := [0] }

/-- `optionsForPhases` (tools/compilerwrapper.py:250-251). -/
def optionsFor (s : St) (ph : List Nat) : Dict := dict (ph.flatMap s.opts)

/-- Deleting keys (tools/compilerwrapper.py:255-257). -/
def without (d : Dict) (ks : List W) : Dict := d.filter fun e => decide (e.1 ∉ ks)

/-- An option with its argument, or one without. -/
def withArg : W × Option W → List W
  | (k, some v) => [k, v]
  | (_, none) => []
def noArg : W × Option W → List W
  | (_, some _) => []
  | (k, none) => [k]

/-- `flatOptions` (tools/compilerwrapper.py:262-265): those with an argument come first. -/
def flatOpts (d : Dict) : List W := d.flatMap withArg ++ d.flatMap noArg

/-- `nameAfterPhase(Phase.ASSEMBLE)` (tools/compilerwrapper.py:43-51): the directory is left out. -/
def objName (w : W) : W := stemOfBase (baseOf w) ++ w! ".o"

/-- The map of temporary files (tools/compilerwrapper.py:115-130). -/
abbrev Temps := List (W × W)

def setTemp : Temps → W → W → Temps
  | [], k, v => [(k, v)]
  | e :: t, k, v => if e.1 = k then (k, v) :: t else e :: setTemp t k v

def getTemp : Temps → W → W
  | [], k => k
  | e :: t, k => if e.1 = k then e.2 else getTemp t k

/-- `itemsForPhases` (tools/compilerwrapper.py:267-274) for phases from preprocessing on: source files keep their names, unless there is a
temporary file of that name, which is then just a string. -/
def itemsEarly (s : St) (tm : Temps) (ph : List Nat) : List Item :=
  (s.items.filter fun i => meets i.phases ph).map fun i =>
    match i.lang with
    | none => i
    | some _ => if getTemp tm i.text = i.text then i else ⟨getTemp tm i.text, none, i.phases⟩

/-- `itemsForPhases({Phase.LINK})`: the objects in place of the sources. -/
def itemsLink (s : St) (tm : Temps) : List W :=
  (s.items.filter fun i => meets i.phases [4]).map fun i =>
    match i.lang with
    | none => i.text
    | some _ => getTemp tm (objName i.text)

/-- `flatItems` (tools/compilerwrapper.py:276-285): a source file whose language is not that of its name is given the language of its
name, and where there is none the word is `None`, which cannot be made part of a command. -/
def flatItems : List Item → Option (List W)
  | [] => some []
  | i :: t =>
    match flatItems t with
    | none => none
    | some r =>
      match i.lang with
      | none => some (i.text :: r)
      | some l =>
        if guess i.text = some l then some (i.text :: r)
        else
          match guess i.text with
          | none => none
          | some g => some (w! "-x" :: g :: i.text :: w! "-x" :: w! "none" :: r)

/-- `optionToStopAfterPhase` (tools/compilerwrapper.py:563-570). -/
def stopOpt (p : Nat) : W :=
  if p = 1 then w! "-E" else if p = 2 then w! "-S" else w! "-c"

/-- What is outside: whether a command succeeds, whether fixing up an object succeeds, names of temporary files, and what the wrapper adds
to the links. -/
structure Env where
  ok : List W → Bool
  fix : W → Bool
  tmp : Nat → W
  noPie : Bool
  left : List W
  right : List W
  stubArgs : List W
  stubObj : W

/-- The source files (tools/compilerwrapper.py:454-455). -/
def sources (s : St) : List W := (s.items.filter fun i => i.lang.isSome).map (·.text)

/-- Compiling each source by itself (tools/compilerwrapper.py:615-628, 634-637): `n` temporary files have been made. The result is the
commands, the map, and whether all went well. -/
def compileEach (E : Env) (s : St) (opts : List W) : List W → Nat → Temps → Option (List (List W) × Temps × Bool)
  | [], _, tm => some ([], tm, true)
  | f :: t, n, tm =>
    match flatItems ((itemsEarly s (setTemp tm (objName f) (E.tmp n)) [1, 2, 3]).filter fun i => i.lang.isNone) with
    | none => none
    | some its =>
      let cmd := opts ++ [f] ++ its ++ [w! "-c", w! "-o", E.tmp n]
      if E.ok cmd && E.fix (E.tmp n) then
        match compileEach E s opts t (n + 1) (setTemp tm (objName f) (E.tmp n)) with
        | none => none
        | some (cs, tm', r) => some (cmd :: cs, tm', r)
      else some ([cmd], setTemp tm (objName f) (E.tmp n), false)

/-- The objects fixed up after one compilation of everything (tools/compilerwrapper.py:631-637). -/
def objsMade (s : St) : List W :=
  match (s.opts 3).find? (fun e => e.1 = w! "-o") with
  | some (_, some o) => if (sources s).length > 1 then (sources s).map objName else [o]
  | _ => (sources s).map objName

/-- `runPhasesBeforeLink` (tools/compilerwrapper.py:572-638). -/
def beforeLink (E : Env) (s : St) : Option (List (List W) × Temps × Bool) :=
  if (itemsEarly s [] s.en) = [] ∧ 4 ∉ s.en then
    let cmd := (itemsEarly s [] [0]).map (·.text) ++ flatOpts (optionsFor s [0])
    some ([cmd], [], E.ok cmd)
  else if sources s = [] then some ([], [], true)
  else
    let ph := s.en.filter fun p => p ≠ 0 ∧ p ≠ 4
    let opts := without (optionsFor s ph) [w! "-o"]
    match (optionsFor s [maxPhase ph]).find? (fun e => e.1 = w! "-o") with
    | none =>
      if 4 ∈ s.en then compileEach E s (flatOpts opts) (sources s) 0 []
      else
        match flatItems (itemsEarly s [] ph) with
        | none => none
        | some its =>
          let cmd := flatOpts opts ++ its ++ [stopOpt (maxPhase ph)]
          some ([cmd], [], E.ok cmd && (3 ∉ s.en || (objsMade s).all E.fix))
    | some o =>
      match flatItems (itemsEarly s [] ph) with
      | none => none
      | some its =>
        let cmd := flatOpts (opts ++ [o]) ++ its ++ [stopOpt (maxPhase ph)]
        some ([cmd], [], E.ok cmd && (3 ∉ s.en || (objsMade s).all E.fix))

/-- Whether a key is among the options of the link phase. -/
def linkKey (s : St) (k : W) : Bool := (s.opts 4).any fun e => e.1 = k

/-- `doingFinalLink` (tools/compilerwrapper.py:504-508). -/
def finalLink (s : St) : Bool :=
  decide (4 ∈ s.en) && !linkKey s w! "-r" && !linkKey s w! "-Wl,-r" && !linkKey s w! "-Wl,--relocatable"

/-- `getOutputFilename(Phase.LINK)` (tools/compilerwrapper.py:457-469). -/
def outName (s : St) : Option W :=
  match (s.opts 4).find? (fun e => e.1 = w! "-o") with
  | some (_, some v) => some v
  | _ => if finalLink s && !linkKey s w! "-shared" then some w! "a.out" else none

/-- Output options (tools/allocscompilerwrapper.py:652-654). -/
def OUTOPTS : List W :=
  [w! "-pie", w! "-shared", w! "--pic-executable", w! "-Wl,-pie", w! "-Wl,-shared", w! "-Wl,--pic-executable", w! "-Wl,-r",
   w! "-Wl,--relocatable"]

/-- `(\.[0-9]+)*$`; `seen` if digits have been seen since the last dot, none at the start. -/
def verTail : Option Bool → W → Bool
  | none, [] => true
  | some b, [] => b
  | none, ch :: t => ch == '.' && verTail (some false) t
  | some b, ch :: t => if ch.isDigit then verTail (some true) t else b && ch == '.' && verTail (some false) t

/-- `.*\.so(\.[0-9]+)*$` (tools/allocscompilerwrapper.py:679). -/
def soName : W → Bool
  | [] => false
  | ch :: t => (starts w! ".so" (ch :: t) && verTail none ((ch :: t).drop 3)) || soName t

/-- Whether a link item is left for the final link (tools/allocscompilerwrapper.py:679). -/
def deferred (w : W) : Bool := starts w! "-L" w || starts w! "-l" w || soName w

/-- `main` (tools/allocscompilerwrapper.py:585-741) from the classified command line: the commands, and whether all went well. Making stubs,
used types and metadata is not followed here. -/
def main (E : Env) (s : St) : Option (List (List W) × Bool) :=
  match beforeLink E s with
  | none => none
  | some (cs, tm, r) =>
    if !r || decide (4 ∉ s.en) then some (cs, r)
    else if finalLink s then
      match outName s with
      | none => none
      | some o =>
        let opts := flatOpts (without (optionsFor s [4]) (OUTOPTS ++ [w! "-o"]))
        let q := if w! "-Wl,-q" ∉ opts ∧ w! "-Wl,--emit-relocs" ∉ opts then [w! "-Wl,-q"] else []
        let c1 := opts ++ [w! "-Wl,-r", w! "-o", o ++ w! ".linked.o", w! "-nostartfiles", w! "-nodefaultlibs", w! "-nostdlib"]
          ++ (if E.noPie then [w! "-no-pie"] else []) ++ q ++ (itemsLink s tm).filter fun i => !deferred i
        let c2 := opts ++ ((optionsFor s [4]).filter fun e => decide (e.1 ∈ OUTOPTS)).map (·.1)
          ++ [E.stubObj, o ++ w! ".linked.o"] ++ [w! "-Wl,--export-dynamic"] ++ E.left ++ q ++ E.stubArgs ++ [w! "-o", o]
          ++ (itemsLink s tm).filter deferred ++ E.right
        if E.ok c1 then some (cs ++ [c1, c2], E.ok c2) else some (cs ++ [c1], false)
    else
      let c := flatOpts (s.opts 4) ++ itemsLink s tm
      some (cs ++ [c], E.ok c)

/-- A run with a command line. -/
def run (E : Env) (argv : List W) : Option (List (List W) × Bool) :=
  match classify argv with
  | none => none
  | some s => main E s

end Liballocs.CcArgs
