/-!
# Trapping the code that is there at start-up (src/systrap.c)

The list of mappings is read into a buffer, and every executable mapping but our own is rewritten so that its system calls trap.

Simplifications: the list is the text given by the kernel, which does not change during the reading; each read gives at most what was
asked for, or fails. Splitting the buffer into lines is external code (librunt), taken to give what is between line ends, and what is
left at the end; the reading of one line is a parameter. `trap_one_executable_region` (external) is an event, and
`realpath` a parameter.
-/
namespace Liballocs.TrapScan

/-- `filebuf_sz` and `amt_to_read` (src/systrap.c:314, 317). -/
def BUF : Nat := 64 * 8192
def ASK : Nat := 4096

/-- The reading loop (src/systrap.c:316-324): `ks` says what each read gives at most, none for a failed read; `rest` is what the kernel has
left. None if `ks` is used up. -/
def fill : List (Option Nat) → List Char → List Char → Option (List Char)
  | [], _, buf => if BUF - buf.length < ASK then some buf else none
  | k :: ks, rest, buf =>
    if BUF - buf.length < ASK then some buf
    else
      match k with
      | none => some buf
      | some k =>
        if min k (min ASK rest.length) > 0 then fill ks (rest.drop (min k (min ASK rest.length))) (buf ++ rest.take (min k (min ASK rest.length)))
        else some buf

/-- Splitting into lines (external, `get_a_line_from_maps_buf`). -/
def linesOf : List Char → List Char → List (List Char)
  | [], cur => if cur = [] then [] else [cur]
  | ch :: t, cur => if ch = '\n' then cur :: linesOf t [] else linesOf t (cur ++ [ch])

/-- One entry of the list (external, `struct maps_entry`). -/
structure Entry where
  first : Nat
  second : Nat
  r : Bool
  w : Bool
  x : Bool
  name : List Char
  deriving DecidableEq

/-- A region rewritten: its bounds, name, and whether it is writable and readable. -/
structure Trap where
  lo : Nat
  hi : Nat
  name : List Char
  w : Bool
  r : Bool
  deriving DecidableEq

/-- `maybe_trap_map_cb` (src/systrap.c:219-238); `self` is its own address. -/
def maybeTrap (self : Nat) (e : Entry) : Option Trap :=
  if e.x ∧ ¬ (e.first ≤ self ∧ e.second > self) then some ⟨e.first, e.second, e.name, e.w, e.r⟩ else none

/-- The walk over the buffer (src/systrap.c:325-328); a line that is not understood ends it (external). -/
def walk (parse : List Char → Option Entry) (self : Nat) : List (List Char) → List Trap
  | [] => []
  | l :: ls =>
    match parse l with
    | none => []
    | some e => (maybeTrap self e).toList ++ walk parse self ls

/-- An object on the dynamic linker's list: load address and name. -/
structure Obj where
  addr : Nat
  name : List Char

/-- The dynamic linker's name (src/systrap.c:277-300): none means abort. When the dynamic linker is the program, its base is 0. -/
def interp (realpath : List Char → Option (List Char)) (execfn : List Char) (base : Option Nat) (objs : List Obj) : Option (List Char) :=
  match base with
  | none => none
  | some b =>
    if b = 0 then realpath execfn
    else objs.foldl (fun acc o => if o.addr = b then realpath o.name else acc) none

/-- What is asked of the program's surroundings. -/
structure Env where
  realpath : List Char → Option (List Char)
  execfn : List Char
  base : Option Nat
  objs : List Obj
  self : Nat
  parse : List Char → Option Entry

/-- State: the flag, the system calls replaced, the regions rewritten. -/
structure St where
  done : Bool
  replaced : List String
  traps : List Trap

/-- The system calls replaced (src/systrap.c:269-274). -/
def CALLS : List String := ["mmap", "munmap", "mremap", "brk", "open", "openat"]

/-- `__liballocs_systrap_init` (src/systrap.c:253-331); `fd` says whether the list could be opened. -/
def init (E : Env) (fd : Bool) (ks : List (Option Nat)) (maps : List Char) (s : St) : Option St :=
  if s.done then some s
  else
    match interp E.realpath E.execfn E.base E.objs with
    | none => none
    | some _ =>
      if !fd then none
      else
        match fill ks maps [] with
        | none => none
        | some buf => some ⟨true, CALLS, s.traps ++ walk E.parse E.self (linesOf buf [])⟩

end Liballocs.TrapScan
