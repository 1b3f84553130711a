import Verif.Model.LdFlags
/-!
# Which instructions are taken for allocating ones (tools/objdumpallocs)

The script writes an extended regular expression from the declared allocation functions, and hands it to `gawk`, which matches it with each disassembled instruction
(`alloc` in the model of tools/objdumpmeta.awk).

Simplifications. The variables have no newline, form feed or NUL. A line has no newline. `sed` is modelled by what its expressions find: see each definition. Of extended
regular expressions, what the script can write is modelled: groups, alternatives, `*`, `+`, `?`, `.`, bracket expressions of characters and ranges, characters behind a backslash, and
`^` as first character. On anything else `parse` has no result, and it is proved that this does not happen. That `gawk` accepts the language of the expression is assumed.
-/
namespace Liballocs.CallRegexp
open Liballocs.LinkArgs (Text)
open Liballocs.LdFlags (Re)

/-! ## The script -/

/-- The characters behind which `escape_eregexp` is (tools/objdumpallocs:22). -/
def isMeta (c : Char) : Bool := decide (c ∈ w! "*.[^$]|{}?+()\\")

/-- `escape_eregexp` (tools/objdumpallocs:19-23). -/
def escapeE (s : Text) : Text := s.flatMap fun c => if isMeta c then ['\\', c] else [c]

/-- `make_match_any_line_floating_eregexp` of some lines (tools/objdumpallocs:62-66). Without lines nothing is written: the last `sed` has no line to work on. -/
def alts : List Text → Text
  | [] => []
  | [l] => '(' :: (escapeE l ++ [')'])
  | l :: ls => '(' :: (escapeE l ++ ')' :: '|' :: alts ls)

/-- `[a-zA-Z0-9_]` (tools/objdumpallocs:80). -/
def isId (c : Char) : Bool := c.isAlphanum || decide (c = '_')

/-- `( +|$)`: what follows it (tools/objdumpallocs:80). -/
def gap : Text → Option Text
  | [] => some []
  | c :: s => if c = ' ' then some (s.dropWhile fun d => decide (d = ' ')) else none

/-- `[a-zA-Z]?( +|$)`: what follows it (tools/objdumpallocs:80). -/
def result : Text → Option Text
  | [] => some []
  | c :: s => if c.isAlpha then gap s else gap (c :: s)

/-- What follows the signature: `[^\)]*\)`, in which the backslash stands for itself (tools/objdumpallocs:80). -/
def sig (s : Text) : Option Text :=
  match s.dropWhile fun c => decide (c ≠ ')' ∧ c ≠ '\\') with
  | ')' :: t => result t
  | _ => none

/-- `([a-zA-Z0-9_]+)\([^\)]*\)[a-zA-Z]?( +|$)` at the start of a text: the name, and what follows (tools/objdumpallocs:80). -/
def descr (s : Text) : Option (Text × Text) :=
  match s.dropWhile isId with
  | '(' :: r => if s.takeWhile isId = [] then none else (sig r).map fun t => (s.takeWhile isId, t)
  | _ => none

/-- `s/…/\1\n__wrap_\1\n/g` (tools/objdumpallocs:80). A descriptor is looked for at each position in turn; when there is none at the start of a name, there is none further on in that name. -/
def rewriteN : Nat → Text → Text
  | 0, _ => []
  | n + 1, s =>
    match descr s, s with
    | some (name, t), _ => name ++ '\n' :: ((w! "__wrap_") ++ (name ++ '\n' :: rewriteN n t))
    | none, [] => []
    | none, c :: t => c :: rewriteN n t

def rewrite (s : Text) : Text := rewriteN (s.length + 1) s

/-- The lines of a text. -/
def lines (acc : Text) : Text → List Text
  | [] => if acc = [] then [] else [acc]
  | c :: s => if c = '\n' then acc :: lines [] s else lines (acc ++ [c]) s

/-- The variables `LIBALLOCS_ALLOC_FNS`, `LIBALLOCS_SUBALLOC_FNS` and `LIBALLOCS_ALLOCSZ_FNS` (tools/objdumpallocs:69-71). -/
structure Vars where
  alloc : Text
  suballoc : Text
  allocsz : Text

/-- `${x:+ ${x}}`. -/
def plus (x : Text) : Text := if x = [] then [] else ' ' :: x

/-- `all_alloc_descriptors` (tools/objdumpallocs:69-72). -/
def descriptors (v : Vars) : Text :=
  v.alloc ++ ((w! " malloc(Z)p calloc(zZ)p realloc(pZ)p memalign(zZ)p alloca(Z)p") ++ (plus v.suballoc ++ plus v.allocsz))

/-- The lines of tools/objdumpallocs:77. -/
def builtin : List Text := [w! "malloc", w! "calloc", w! "realloc", w! "memalign", w! "posix_memalign", w! "valloc", w! "__monalloca_"]

/-- The lines of tools/objdumpallocs:79-80. -/
def names (v : Vars) : List Text := lines [] (rewrite (descriptors v))

/-- `meta_instr_regexp` (tools/objdumpallocs:68, 76-81). -/
def regexp (v : Vars) : Text :=
  (w! "^([0-9a-f]*) <([^>]*)>.*((call|jmp).*(<(") ++ (alts builtin ++ '|' :: (alts (names v) ++ w! ")|.*\\*)|.* 00 00 00 00.*call)"))

/-- `sed 's/\\/\\\\/g'` (tools/objdumpallocs:122). -/
def double (s : Text) : Text := s.flatMap fun c => if c = '\\' then ['\\', '\\'] else [c]

/-- What `gawk -v` makes of a value (tools/objdumpallocs:138). Escapes other than a double backslash are not modelled. -/
def awkV : Text → Option Text
  | [] => some []
  | ['\\'] => none
  | '\\' :: d :: s => if d = '\\' then (awkV s).map ('\\' :: ·) else none
  | c :: s => (awkV s).map (c :: ·)

/-! ## Extended regular expressions (POSIX; `gawk`) -/

/-- Alternatives that are complete, and the parts of the current one. -/
structure Frame where
  alts : List (List Re)
  cur : List Re

/-- Within a bracket expression: whether negated, and ranges. -/
inductive Mode where
  | plain
  | esc
  | open
  | brk (neg : Bool) (items : List (Char × Char))
  | range (neg : Bool) (items : List (Char × Char)) (from_ : Char)

structure State where
  mode : Mode
  top : Frame
  stack : List Frame

def seqOf : List Re → Re
  | [] => .eps
  | r :: rs => .seq r (seqOf rs)

def altOf : List (List Re) → Re
  | [] => .fail
  | r :: rs => .alt (seqOf r) (altOf rs)

def Frame.close (f : Frame) : Re := altOf (f.alts ++ [f.cur])

def Frame.add (f : Frame) (r : Re) : Frame := ⟨f.alts, f.cur ++ [r]⟩

/-- A postfix operator. -/
def Frame.post (f : Frame) (g : Re → Re) : Option Frame :=
  match f.cur.reverse with
  | [] => none
  | r :: rs => some ⟨f.alts, rs.reverse ++ [g r]⟩

def inItems (items : List (Char × Char)) (c : Char) : Bool := items.any fun p => decide (p.1 ≤ c ∧ c ≤ p.2)

def bracket (neg : Bool) (items : List (Char × Char)) : Re := .cls fun c => if neg then !inItems items c else inItems items c

def stepPlain (s : State) (c : Char) : Option State :=
  match c with
  | '\\' => some { s with mode := .esc }
  | '(' => some ⟨.plain, ⟨[], []⟩, s.top :: s.stack⟩
  | ')' =>
    match s.stack with
    | [] => none
    | f :: fs => some ⟨.plain, f.add s.top.close, fs⟩
  | '|' => some { s with top := ⟨s.top.alts ++ [s.top.cur], []⟩ }
  | '*' => (s.top.post .star).map fun f => { s with top := f }
  | '+' => (s.top.post fun r => .seq r (.star r)).map fun f => { s with top := f }
  | '?' => (s.top.post .opt).map fun f => { s with top := f }
  | '.' => some { s with top := s.top.add (.cls fun _ => true) }
  | '[' => some { s with mode := .open }
  | '^' => none
  | '$' => none
  | '{' => none
  | '}' => none
  | ']' => none
  | c => some { s with top := s.top.add (.chr c) }

def stepBrk (s : State) (neg : Bool) (items : List (Char × Char)) (c : Char) : Option State :=
  if c = ']' ∧ items ≠ [] then some ⟨.plain, s.top.add (bracket neg items), s.stack⟩
  else if c = '[' ∨ c = '\\' then none
  else
    match c, items with
    | '-', (a, b) :: items' => if a = b then some { s with mode := .range neg items' a } else none
    | c, items => some { s with mode := .brk neg ((c, c) :: items) }

def step (s : State) (c : Char) : Option State :=
  match s.mode with
  | .plain => stepPlain s c
  | .esc => if isMeta c then some ⟨.plain, s.top.add (.chr c), s.stack⟩ else none
  | .open => if c = '^' then some { s with mode := .brk true [] } else stepBrk s false [] c
  | .brk neg items => stepBrk s neg items c
  | .range neg items a =>
    if c = ']' then some ⟨.plain, s.top.add (bracket neg (('-', '-') :: (a, a) :: items)), s.stack⟩
    else if c = '[' ∨ c = '\\' then none
    else some { s with mode := .brk neg ((a, c) :: items) }

def run : State → Text → Option State
  | s, [] => some s
  | s, c :: t =>
    match step s c with
    | none => none
    | some s' => run s' t

/-- An expression of one alternative, which is bound to the start of the line. -/
def parse : Text → Option Re
  | '^' :: t =>
    match run ⟨.plain, ⟨[], []⟩, []⟩ t with
    | some ⟨.plain, ⟨[], cur⟩, []⟩ => some (seqOf cur)
    | _ => none
  | _ => none

/-- `$0 ~ meta_instr_regexp` (tools/objdumpmeta.awk:178) with the value of tools/objdumpallocs:137-138. -/
def isSite (v : Vars) (line : Text) : Option Bool :=
  ((awkV (double (regexp v))).bind parse).map fun r => (Re.seq r (.star (.cls fun _ => true))).accepts line

end Liballocs.CallRegexp
