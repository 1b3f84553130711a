/-!
# Creating and memoising types (src/uniqtype-util.c)

Simplifications: a type is identified by its index in the list of all types; the two symbol lookups
(the run-time types' own hash table, then `dlsym`) are one table; names are byte lists without the common prefix
`__uniqtype__`; the simple name of a synthesised type is its symbol name without that prefix (contract of the
external `UNIQTYPE_NAME`); allocation and binding succeed.
-/
namespace Liballocs.TypeMemo

abbrev Name := List Nat

/-- What a type is, as far as the creating functions are concerned. -/
inductive Kind where
  | other
  | array (len el : Nat)
  /-- unbounded; `precise` tells whether it has the `make_precise` function of flexible arrays -/
  | unbounded (el : Nat) (precise : Bool)
  | pointer (to ultimate indir : Nat)
  | union (ms : List Nat)
  | subprogram (ret : Nat) (args : List Nat)
  deriving DecidableEq

structure T where
  name : Name
  maxoff : Nat
  kind : Kind
  deriving DecidableEq

/-- All types and the symbol table. -/
structure S where
  ts : List T
  syms : List (Name × Nat)

/-- `UNIQTYPE_POS_MAXOFF_UNBOUNDED` (external header). -/
def UNB : Nat := 2 ^ 32 - 1
/-- `UNIQTYPE_ARRAY_LENGTH_UNBOUNDED` (external header). -/
def LENUNB : Nat := 2 ^ 31 - 1

/-- `%d` of a non-negative number: decimal digits as bytes (at most ten digits for 32 bits). -/
def decAux : Nat → Nat → Name
  | 0, _ => []
  | k + 1, n => if n < 10 then [48 + n] else decAux k (n / 10) ++ [48 + n % 10]

def dec (n : Nat) : Name := decAux 10 n

/-- What `snprintf` leaves of a name in the 4096-byte buffer, which also holds the 12-byte prefix
(src/uniqtype-util.c:35, 39-48). -/
def clip (n : Name) : Name := n.take 4083

/-- `__ARR%d_%s` (src/uniqtype-util.c:45-48). -/
def arrName (len : Nat) (el : Name) : Name := clip ([95, 95, 65, 82, 82] ++ dec len ++ 95 :: el)

/-- `__ARR_%s` (src/uniqtype-util.c:39-41 and 112-113). -/
def unbName (el : Name) : Name := clip ([95, 95, 65, 82, 82] ++ 95 :: el)

/-- `__PTR_%s` (src/uniqtype-util.c:155-156). -/
def ptrName (to : Name) : Name := clip ([95, 95, 80, 84, 82, 95] ++ to)

/-- `__SYNTHUNION_` and the members' names (src/uniqtype-util.c:328-330). -/
def unionName (ms : List Name) : Name := [95, 95, 83, 89, 78, 84, 72, 85, 78, 73, 79, 78, 95] ++ ms.flatten

/-- `__ARG%d_%s` for each argument, counting from `i` (src/uniqtype-util.c:213-218). -/
def argsName (i : Nat) : List Name → Name
  | [] => []
  | n :: ns => [95, 95, 65, 82, 71] ++ dec i ++ 95 :: n ++ argsName (i + 1) ns

/-- `__FUN_FROM_`, the arguments, `__FUN_TO_` and the result's name (src/uniqtype-util.c:211-222); what does not fit
is left off. -/
def funName (args : List Name) (ret : Name) : Name :=
  clip ([95, 95, 70, 85, 78, 95, 70, 82, 79, 77, 95] ++ argsName 0 args ++ [95, 95, 70, 85, 78, 95, 84, 79, 95] ++ ret)

/-- Writing the arguments' names, `pos` being the position in the buffer (src/uniqtype-util.c:212-221): `snprintf`
returns the length it would have written, so the position can pass the end of the buffer, and the size then handed to the next
`snprintf` (there always is one, for the result) is negative, that is, huge. `none` is that overrun. -/
def fillArgs (pos i : Nat) : List Name → Option Nat
  | [] => if pos > 4096 then none else some pos
  | n :: ns => if pos > 4096 then none else fillArgs (pos + (5 + (dec i).length + 1 + n.length)) (i + 1) ns

/-- `get_type_from_symname` (src/uniqtype-util.c:14-29). -/
def lookup (syms : List (Name × Nat)) (n : Name) : Option Nat :=
  match syms with
  | [] => none
  | (k, i) :: r => if k = n then some i else lookup r n

/-- Allocate, fill and bind a new type (e.g. src/uniqtype-util.c:56-83). -/
def create (s : S) (n : Name) (maxoff : Nat) (kind : Kind) : S × Nat :=
  (⟨s.ts ++ [⟨n, maxoff, kind⟩], (n, s.ts.length) :: s.syms⟩, s.ts.length)

/-- Look up by name, else create. -/
def findOrCreate (s : S) (n : Name) (maxoff : Nat) (kind : Kind) : S × Nat :=
  match lookup s.syms n with
  | some i => (s, i)
  | none => create s n maxoff kind

/-- A request. -/
inductive Req where
  | array (el len : Nat)
  | unbounded (el : Nat)
  | flexible (el : Nat)
  | pointer (to : Nat)
  | union (ms : List Nat)
  | subprogram (ret : Nat) (args : List Nat)

/-- Outcomes: the returned type (or null), or a failed assertion or invalid argument, or a name buffer overrun. -/
inductive Res where
  | ret (s : S) (t : Option Nat)
  | bad
  | overrun

/-- The names of given types, if they all exist. -/
def namesOf (ts : List T) : List Nat → Option (List Name)
  | [] => some []
  | m :: ms =>
    match ts[m]?, namesOf ts ms with
    | some t, some ns => some (t.name :: ns)
    | _, _ => none

/-- The largest member size (src/uniqtype-util.c:325), all sizes being positive and bounded (315-316). -/
def maxSize (ts : List T) : List Nat → Option Nat
  | [] => some 0
  | m :: ms =>
    match ts[m]?, maxSize ts ms with
    | some t, some n => if t.maxoff = 0 ∨ t.maxoff = UNB then none else some (max t.maxoff n)
    | _, _ => none

/-- Appending the members' names to the buffer (src/uniqtype-util.c:312-327; `cur_len` is never advanced, so only each
single name is checked against the buffer): the number of bytes written, or null, or an overrun. -/
def fillName : Nat → List Name → Option (Option Nat)
  | n, [] => some (some n)
  | n, m :: ms =>
    if m.length ≥ 4096 then some none
    else if n + m.length ≥ 4096 then none
    else fillName (n + m.length) ms

/-- The ultimate pointee and indirection level of a pointer to `to` (src/uniqtype-util.c:162-173). -/
def pointerKind (to : Nat) : Kind → Kind
  | .pointer _ ult n => .pointer to ult (n + 1)
  | _ => .pointer to to 1

/-- `__liballocs_get_or_create_array_type` (src/uniqtype-util.c:86-94 with 31-84), `..._unbounded_array_type`
(95-102), `..._flexible_array_type` (103-146), `..._address_type` (148-202), `..._union_type` (302-375) and
`..._subprogram_type` (204-269). -/
def step (s : S) : Req → Res
  | .array el len =>
    match s.ts[el]? with
    | none => .bad
    | some e =>
      if ¬ len < LENUNB then .bad
      else if e.maxoff = 0 ∨ e.maxoff = UNB then .ret s none
      else let r := findOrCreate s (arrName len e.name) (len * e.maxoff % 2 ^ 32) (.array len el); .ret r.1 (some r.2)
  | .unbounded el =>
    match s.ts[el]? with
    | none => .bad
    | some e =>
      if e.maxoff = 0 ∨ e.maxoff = UNB then .ret s none
      else let r := findOrCreate s (unbName e.name) UNB (.unbounded el false); .ret r.1 (some r.2)
  | .flexible el =>
    match s.ts[el]? with
    | none => .bad
    | some e =>
      if e.maxoff = 0 ∨ e.maxoff = UNB then .ret s none
      else let r := findOrCreate s (unbName e.name) UNB (.unbounded el true); .ret r.1 (some r.2)
  | .pointer to =>
    match s.ts[to]? with
    | none => .bad
    | some e =>
      let r := findOrCreate s (ptrName e.name) 8 (pointerKind to e.kind)
      .ret r.1 (some r.2)
  | .union ms =>
    match ms with
    | [] => .ret s none
    | _ =>
      match namesOf s.ts ms, maxSize s.ts ms with
      | some ns, some sz =>
        match fillName 0 ns with
        | none => .overrun
        | some none => .ret s none
        | some (some _) => let r := findOrCreate s (unionName ns) sz (.union ms); .ret r.1 (some r.2)
      | _, _ => .bad
  | .subprogram ret args =>
    match s.ts[ret]?, namesOf s.ts args with
    | some e, some ns =>
      match fillArgs 23 0 ns with
      | none => .overrun
      | some _ => let r := findOrCreate s (funName ns e.name) UNB (.subprogram ret args); .ret r.1 (some r.2)
    | _, _ => .bad

/-- A type's `make_precise`, if it has one: `__liballocs_make_array_precise_with_memory_bounds` (src/uniqtype-util.c:271-287) for
flexible arrays, with the length passed on as `unsigned`. -/
def makePrecise (s : S) (t obj base sz : Nat) : Res :=
  match s.ts[t]? with
  | none => .bad
  | some r =>
    match r.kind with
    | .unbounded el true =>
      match s.ts[el]? with
      | none => .bad
      | some e =>
        if e.maxoff = 0 ∨ e.maxoff = UNB then .bad
        else step s (.array el ((base + sz + 2 ^ 64 - obj) % 2 ^ 64 / e.maxoff % 2 ^ 32))
    | _ => .ret s (some t)

/-- What `__liballocs_add_type_to_block` does: the block gets a type and the result is 0, the result is 3 and the block is left
alone, or a failed assertion, invalid memory access or division by zero, or an overrun. -/
inductive Added where
  | done (s : S) (u : Nat)
  | code3 (s : S)
  | bad
  | overrun

/-- The last step of `__liballocs_add_type_to_block` (src/query.c:259-268). -/
def addUnion (s : S) (o n : Nat) : Added :=
  match step s (.union [o, n]) with
  | .ret s' (some u) => .done s' u
  | .ret _ none => .bad
  | .bad => .bad
  | .overrun => .overrun

/-- `__liballocs_add_type_to_block` (src/query.c:241-269) for a block of size `sz` at `block`, of type `old`. -/
def addType (s : S) (old t block sz : Nat) : Added :=
  match makePrecise s old block block sz with
  | .ret s1 (some o) =>
    match s1.ts[t]? with
    | none => .bad
    | some e =>
      if e.maxoff = 0 then .bad
      else match step s1 (.array t (sz / e.maxoff % 2 ^ 32)) with
        | .ret s2 (some n) => addUnion s2 o n
        | .ret s2 none => .code3 s2
        | .bad => .bad
        | .overrun => .overrun
  | .ret _ none => .bad
  | .bad => .bad
  | .overrun => .overrun

end Liballocs.TypeMemo
