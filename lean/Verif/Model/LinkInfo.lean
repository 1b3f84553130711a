import Verif.Model.Walk
/-!
# What a callback can ask of the link it is given (include/allocmeta.h:158-262)

A walk (C40, C41; src/walk.c) gives its callback a link: the container, as one word that is a pointer to a big allocation or to a
type with flags in its low bits, and a coordinate. The macros take it apart.

Simplifications: pointers are naturals; the flags are the low `k` bits of a word (three, by the comment at src/walk.c:64-65; `UNIQTYPE_PTR_MASK_FLAGS`, from the header of
uniqtypes, which is not part of this repository). A type is what is stored at its address; reading at an address where there is
none, or beyond the end of a type's tables, is a fault. The macros' assertions hold whenever they are reached, as the same
condition is tested before.
-/
namespace Liballocs.LinkInfo

open Walk

/-- Where `big_allocations` is, the size of an entry, and `NBIGALLOCS`. -/
structure Table where
  base : Nat
  size : Nat
  num : Nat

/-- What is stored at the address of a type. The names of a composite type's members may not be there. -/
inductive Ty
  | composite (members : List (Nat × Nat)) (names : Option (List (List Char)))
  | array (elem len elemSize : Nat)
  | other
  deriving DecidableEq

/-- A link: `container.base` is not used by the macros. -/
structure Link where
  word : Nat
  coord : Nat

/-- What a macro gives: a value, which may be null, or a fault. -/
inductive Res (α : Type)
  | val (a : α)
  | null
  | fault
  deriving DecidableEq

/-- `BOU_BIGALLOC_NOCHECK_`, `BOU_UNIQTYPE_NOCHECK_` (include/allocmeta.h:209-210). -/
def strip (k w : Nat) : Nat := w / 2 ^ k * 2 ^ k

/-- `BOU_IS_BIGALLOC` (include/allocmeta.h:215-216). -/
def isBig (T : Table) (k w : Nat) : Bool :=
  decide (T.base + T.size ≤ strip k w) && decide (strip k w < T.base + T.num * T.size)

/-- `BIDX`'s inverse `IDXB` of the pointer that `BOU_BIGALLOC` gives (include/allocmeta.h:212, include/pageindex.h:65). -/
def bigOf (T : Table) (k w : Nat) : Nat := (strip k w - T.base) / T.size

/-- `(l)->containee_coord - 1`, an `unsigned`. -/
def index (l : Link) : Nat := (l.coord + 2 ^ 32 - 1) % 2 ^ 32

/-- `LINK_UNIQTYPE_FIELD_NAME` (include/allocmeta.h:224-230). -/
def fieldName (T : Table) (k : Nat) (types : Nat → Option Ty) (l : Link) : Res (List Char) :=
  if isBig T k l.word then .null
  else match types (strip k l.word) with
    | none => .fault
    | some (.composite _ (some ns)) =>
      match ns[index l]? with
      | none => .fault
      | some n => .val n
    | some (.composite _ none) => .fault
    | some _ => .null

/-- `LINK_UNIQTYPE_FIELD` (include/allocmeta.h:231-236). -/
def field (T : Table) (k : Nat) (types : Nat → Option Ty) (l : Link) : Res Nat :=
  if isBig T k l.word then .null
  else match types (strip k l.word) with
    | none => .fault
    | some (.composite ms _) =>
      match ms[index l]? with
      | none => .fault
      | some m => .val m.2
    | some _ => .null

/-- `LINK_UNIQTYPE_ARRAY_ELEMENT` (include/allocmeta.h:237-243). -/
def element (T : Table) (k : Nat) (types : Nat → Option Ty) (l : Link) : Res Nat :=
  if isBig T k l.word then .null
  else match types (strip k l.word) with
    | none => .fault
    | some (.array e _ _) => .val e
    | some _ => .null

/-- `LINK_LOWER_UNIQTYPE` (include/allocmeta.h:244-252). -/
def lower (T : Table) (k : Nat) (types : Nat → Option Ty) (l : Link) : Res Nat :=
  if isBig T k l.word then .null
  else match types (strip k l.word) with
    | none => .fault
    | some (.array _ _ _) => element T k types l
    | some (.composite _ _) => field T k types l
    | some .other => .null

/-- `LINK_UPPER_UNIQTYPE` (include/allocmeta.h:253-257); 0 for a null type. -/
def upper (T : Table) (k : Nat) (l : Link) : Res Nat :=
  if isBig T k l.word then .null else .val (strip k l.word)

/-- The subobjects of a type, as `UNIQTYPE_FOR_EACH_SUBOBJECT` goes through them (src/walk.c:206-210). -/
def subobjects (types : Nat → Option Ty) (t : Nat) : List (Nat × Nat) :=
  match types t with
  | some (.composite ms _) => ms
  | some (.array e n sz) => (List.range n).map (fun i => (i * sz, e))
  | _ => []

/-- The word of a container that a walk has come to (src/walk.c:131-134, 188-190, 287-290): a pointer, and flags. -/
def encode (T : Table) (flags : Nat) : Pos → Nat
  | .big _ i => T.base + i * T.size + flags
  | .typed _ t => t + flags

/-- The link of a callback's arguments. -/
def linkOf (T : Table) (flags : Nat) (r : Raw) : Link := ⟨encode T flags r.container, r.coord⟩

end Liballocs.LinkInfo
