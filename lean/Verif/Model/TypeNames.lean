/-!
# Names of types, and walks over the types of a metadata object
(src/uniqtype-util.c, src/meta-dso-util.c)

Simplifications: memory holding names is a list of characters, a string in it ends at the next NUL. `dladdr` is modelled by
the documented contract of the C library: of the symbols at or below the address and covering it, one with the greatest
address. Whether a type record is "sane" (`UNIQTYPE_IS_SANE`, from a header outside the repository) is a parameter.
-/
namespace Liballocs.TypeNames

abbrev Text := List Char

def nul : Char := Char.ofNat 0

/-! ## Names of types -/

/-- A symbol of a loaded object. -/
structure Sym where
  addr : Nat
  size : Nat
  name : Text
  deriving DecidableEq

/-- Whether a symbol covers an address, as `dladdr` has it: a symbol of size zero covers only its own address. -/
def Sym.covers (s : Sym) (a : Nat) : Bool := decide (s.addr ≤ a) && (decide (a < s.addr + s.size) || decide (s.addr = a))

/-- `dladdr` (contract): among the symbols covering the address, the first of those with the greatest address. -/
def dladdr (syms : List Sym) (a : Nat) : Option Sym :=
  syms.foldl (fun best s =>
    if s.covers a then
      match best with
      | none => some s
      | some b => if b.addr < s.addr then some s else some b
    else best) none

/-- `__liballocs_uniqtype_symbol_name` (src/uniqtype-util.c:391-399), for a type record that is not null: the symbol found one
byte into the record, if it begins where the record does. -/
def symbolName (syms : List Sym) (u : Nat) : Option Text :=
  match dladdr syms (u + 1) with
  | none => none
  | some s => if s.addr = u then some s.name else none

/-- `"__uniqtype_"` (src/uniqtype-util.c:412). -/
def pre : Text := ['_', '_', 'u', 'n', 'i', 'q', 't', 'y', 'p', 'e', '_']

/-- What a query for a name gives. -/
inductive Shown where
  | text (t : Text)
  /-- a pointer past the end of the symbol's name -/
  | outOfBounds
  deriving DecidableEq

/-- The part of a symbol's name that is shown (src/uniqtype-util.c:407-417): after `__uniqtype__`, or after `__uniqtype_` and
nine more characters. -/
def display (n : Text) : Shown :=
  if n.take 12 = pre ++ ['_'] then .text (n.drop 12)
  else if n.take 11 = pre then
    if 11 + 9 ≤ n.length then .text (n.drop (11 + 9)) else .outOfBounds
  else .text n

/-- `"(no type)"` (src/uniqtype-util.c:403). -/
def noType : Text := ['(', 'n', 'o', ' ', 't', 'y', 'p', 'e', ')']

/-- `"(unnamed type)"` (src/uniqtype-util.c:419). -/
def unnamed : Text := ['(', 'u', 'n', 'n', 'a', 'm', 'e', 'd', ' ', 't', 'y', 'p', 'e', ')']

/-- `__liballocs_uniqtype_name` (src/uniqtype-util.c:401-420); address 0 is the null pointer. -/
def typeName (syms : List Sym) (u : Nat) : Shown :=
  if u = 0 then .text noType
  else
    match symbolName syms u with
    | some n => display n
    | none => .text unnamed

/-! ## Walking the types of a metadata object -/

/-- An entry of the dynamic symbol table. -/
structure Entry where
  /-- `st_name`: offset in the string table -/
  stName : Nat
  /-- `STT_OBJECT` -/
  object : Bool
  /-- not `SHN_UNDEF` -/
  defined : Bool
  value : Nat
  deriving DecidableEq

/-- `"__uniqty"` (src/meta-dso-util.c:247). -/
def uniqty : Text := ['_', '_', 'u', 'n', 'i', 'q', 't', 'y']

/-- `"_subobj_names"` (src/meta-dso-util.c:248). -/
def subobj : Text := ['_', 's', 'u', 'b', 'o', 'b', 'j', '_', 'n', 'a', 'm', 'e', 's']

/-- The string at an offset of memory. -/
def cstr (m : Text) (i : Nat) : Text := (m.drop i).takeWhile (fun c => c != nul)

/-- Whether an entry is taken for a type (src/meta-dso-util.c:244-253): `m` is memory from some point before the string table,
which is at offset `base`. `none`: a null name, or memory before `m`, is read. -/
def wanted (m : Text) (base : Nat) (e : Entry) : Option Bool :=
  if e.object = true ∧ e.defined = true then
    if e.stName = 0 then none
    else
      let at' := base + e.stName
      let name := cstr m at'
      if name.take 8 = uniqty then
        if at' + name.length < 13 then none
        else some (decide (cstr m (at' + name.length - 13) ≠ subobj))
      else some false
  else some false

/-- The loop over the symbols (src/meta-dso-util.c:241-263). `cb` takes the address of a type and the caller's state, and gives
its answer and the new state; a walk ends at the first answer that is not zero. -/
def walkSyms {σ : Type} (m : Text) (base load : Nat) (sane : Nat → Bool) (cb : Nat → σ → Int × σ) :
    List Entry → σ → Option (Int × σ)
  | [], s => some (0, s)
  | e :: es, s =>
    match wanted m base e with
    | none => none
    | some false => walkSyms m base load sane cb es s
    | some true =>
      if sane (load + e.value) then
        match cb (load + e.value) s with
        | (r, s') => if r ≠ 0 then some (r, s') else walkSyms m base load sane cb es s'
      else walkSyms m base load sane cb es s

/-- The tables of an object as the dynamic linker has them. -/
structure Obj where
  load : Nat
  dynsym : Nat
  hash : Option Nat
  entries : List Entry
  mem : Text
  base : Nat

/-- `MINIMUM_USER_ADDRESS` (used at src/meta-dso-util.c:222; defined in the librunt submodule, 4 MiB on x86-64). -/
def minUser : Nat := 4194304

/-- An address with the top bit set, taken for the kernel's. -/
def kernelAddr (a : Nat) : Bool := decide (2 ^ 63 ≤ a)

/-- `__liballocs_iterate_types` (src/meta-dso-util.c:182-271). The first entry must be all zeros (an assertion). -/
def iterateTypes {σ : Type} (o : Obj) (sane : Nat → Bool) (cb : Nat → σ → Int × σ) (s : σ) : Option (Int × σ) :=
  if o.load = 0 ∨ kernelAddr o.load = true then some (0, s)
  else if o.dynsym = 0 then none
  else if kernelAddr o.dynsym = true ∨ (o.hash.any kernelAddr) = true then some (0, s)
  else
    match o.entries with
    | [] => none
    | z :: _ =>
      if z ≠ ⟨0, false, false, 0⟩ then none
      else if o.dynsym < minUser ∨ (o.hash.any (fun h => decide (h ≠ 0 ∧ h < minUser))) = true then some (0, s)
      else walkSyms o.mem o.base o.load sane cb o.entries s

end Liballocs.TypeNames
