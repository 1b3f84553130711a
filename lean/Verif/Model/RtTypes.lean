/-!
# The types liballocs makes for itself at start-up (src/rt-uniqtypes.c)

`init_rt_uniqtypes_obj` looks up a dozen types by symbol name, and creates those that no loaded object defines.  It is
straight-line code, modelled as a list of two kinds of step, with an interpreter.

Simplifications.  `dlsym(RTLD_DEFAULT, …)` finds the first binding in load order; libdlbind's object is the last one
loaded, so what `dlbind` adds comes last (contract of libdlbind, contrib/, not in the repository).  `dlalloc` returns fresh zeroed memory
(its failure aborts).  A `struct uniqtype` has its size (`pos_maxoff`, none being the unbounded value), its kind and as many
`related` entries as its allocation has room for; an entry is a pointer and an offset.  Reading or writing an entry beyond
that room, or through a null pointer, is `none` (undefined).
-/
namespace Liballocs.RtTypes

/-- What `un` says (include/allocmeta.h and liballocs' uniqtype definitions): only what this file sets. -/
inductive Kind where
  | void
  | base (enc : Nat)
  | address (indir : Nat)
  | composite (nmemb : Nat)
  | array (nelems : Option Nat)
  deriving DecidableEq

/-- `struct uniqtype_rel_info`: pointer (null or an address) and, for members, offset. -/
structure Rel where
  ptr : Option Nat
  off : Nat
  deriving DecidableEq

structure Ty where
  maxoff : Option Nat
  kind : Kind
  rel : List Rel
  deriving DecidableEq

/-- The variables `pointer_to___uniqtype__…` (src/rt-uniqtypes.c:25-36). -/
inductive Slot where
  | void | byte | schar | uchar | pschar | ppschar | ulong | long | auxv | arr0 | intptr
  deriving DecidableEq

structure St where
  syms : List (String × Nat)
  heap : Nat → Option Ty
  next : Nat
  env : Slot → Option Nat

/-- `dlsym(RTLD_DEFAULT, name)`. -/
def find (l : List (String × Nat)) (n : String) : Option Nat :=
  match l with
  | [] => none
  | (m, a) :: l => if m = n then some a else find l n

def St.dlsym (s : St) (n : String) : Option Nat := find s.syms n

/-- One step of `init_rt_uniqtypes_obj`: look a type up under `look` and, if there is none, make it and bind it under `bind`
(the macro CREATE, src/rt-uniqtypes.c:77-83, and each use of it); a `related` entry of the new type is null or one of the variables.  Or: give
`a` the complement `b` if it has none (126-129, 148-151).  Or: only look it up (210-214). -/
inductive Op where
  | get (v : Slot) (look bind : String) (maxoff : Option Nat) (kind : Kind) (rel : List (Option Slot))
  | pair (a b : Slot)
  | only (v : Slot) (name : String)

def setEnv (e : Slot → Option Nat) (v : Slot) (x : Option Nat) : Slot → Option Nat := fun w => if w = v then x else e w

def setHeap (h : Nat → Option Ty) (a : Nat) (t : Ty) : Nat → Option Ty := fun b => if b = a then some t else h b

def relOf (e : Slot → Option Nat) : Option Slot → Rel
  | none => ⟨none, 0⟩
  | some v => ⟨e v, 0⟩

/-- CREATE (src/rt-uniqtypes.c:77-83). -/
def create (s : St) (v : Slot) (bind : String) (maxoff : Option Nat) (kind : Kind) (rel : List (Option Slot)) : St where
  syms := s.syms ++ [(bind, s.next)]
  heap := setHeap s.heap s.next ⟨maxoff, kind, rel.map (relOf s.env)⟩
  next := s.next + 1
  env := setEnv s.env v (some s.next)

/-- Fill in a null first `related` entry (src/rt-uniqtypes.c:126-129). -/
def fill (s : St) (a : Nat) (b : Option Nat) : Option St :=
  match s.heap a with
  | none => none
  | some t =>
    match t.rel with
    | [] => none
    | r :: rs =>
      match r.ptr with
      | some _ => some s
      | none => some { s with heap := setHeap s.heap a { t with rel := ⟨b, 0⟩ :: rs } }

def step (s : St) : Op → Option St
  | .get v look bind maxoff kind rel =>
    match s.dlsym look with
    | some a => some { s with env := setEnv s.env v (some a) }
    | none => some (create s v bind maxoff kind rel)
  | .pair a b =>
    match s.env a with
    | none => none
    | some p => fill s p (s.env b)
  | .only v n => some { s with env := setEnv s.env v (s.dlsym n) }

def run : List Op → St → Option St
  | [], s => some s
  | o :: os, s =>
    match step s o with
    | none => none
    | some s => run os s

/-- `init_rt_uniqtypes_obj` (src/rt-uniqtypes.c:60-218). -/
def init : List Op := [
  .get .void "__uniqtype__void" "__uniqtype__void" (some 0) .void [none],                                   -- 75-92
  .get .byte "__uniqtype____uninterpreted_byte" "__uniqtype____uninterpreted_byte" (some 1) (.base 0) [none],  -- 93-100
  .get .schar "__uniqtype__signed_char$$8" "__uniqtype__signed_char$$8" (some 1) (.base 6) [none],          -- 101-108
  .get .uchar "__uniqtype__unsigned_char$$8" "__uniqtype__unsigned_char$$8" (some 1) (.base 8) [none],      -- 109-116
  .get .byte "__uniqtype____uninterpreted_byte" "__uniqtype____uninterpreted_byte" (some 1) (.base 0) [none],  -- 117-124
  .pair .uchar .schar,                                                                                        -- 126-127
  .pair .schar .uchar,                                                                                        -- 128-129
  .get .ulong "__uniqtype__uint$$64" "__uniqtype__uint$$64" (some 8) (.base 7) [none],                      -- 131-138
  .get .long "__uniqtype__int$$64" "__uniqtype__int$$64" (some 8) (.base 5) [none],                         -- 139-146
  .pair .ulong .long,                                                                                         -- 148-149
  .pair .long .ulong,                                                                                         -- 150-151
  .get .pschar "__uniqtype____PTR_signed_char$$8" "__uniqtype____PTR_signed_char$$8" (some 8) (.address 1) [some .schar],  -- 153-163
  .get .ppschar "__uniqtype____PTR___PTR_signed_char$$8" "__uniqtype____PTR___PTR_signed_char$$8" (some 8) (.address 2) [some .pschar],  -- 164-174
  .get .auxv "__uniqtype__Elf64_auxv_t" "__uniqtype__Elf64_auxv_t" (some 16) (.composite 2) [some .ulong, some .ulong],  -- 175-198
  .get .arr0 "__uniqtype____ARR0_signed_char$$8" "__uniqtype____ARR0_signed_char" none (.array none) [some .schar, none],  -- 199-209
  .only .intptr "__uniqtype__intptr_t"]                                                                        -- 210-214

/-- `UNIQTYPE_ULTIMATE_POINTEE_TYPE`, as used by `__liballocs_get_or_create_address_type` (src/uniqtype-util.c:162-173): the second
`related` entry of an address type; undefined if there is no room for one. -/
def ultimatePointee (s : St) (a : Nat) : Option (Option Nat) :=
  match s.heap a with
  | none => none
  | some t =>
    match t.rel with
    | _ :: r :: _ => some r.ptr
    | _ => none

end Liballocs.RtTypes
