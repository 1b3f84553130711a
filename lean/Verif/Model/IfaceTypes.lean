import Verif.Model.CcArgs

/-!
# What is asked of the interface-types tool, and its answer (tools/ifacetypes.cpp)

The tool reads from its standard input what program elements (functions, variables with static
storage) the user is interested in, one on a line, by name or by address, and writes the types
that these are made of, then for each element asked for a pointer `__ifacetype_NAME` to the
element's type.

* Text is a list of characters; there are no NUL characters in it (a line would end there).
* libstdc++'s reading of an unsigned number, `num_get::_M_extract_int` in base 16 and in the C
  locale (no grouping), is modelled; it is not part of the checkout.
* `gather_interface_dies` (libdwarfidl, not in the checkout) is modelled by its contract: it asks
  the function given to it about each element in the order of the file, and puts the types of those
  chosen, and the types that these are made of, into a set in which types of the same structure
  are one.
* What is written of the types themselves (`write_master_relation`) is by name only; see the
  models of the type writer for their contents. `codeful_name` is that of the concrete type.
* The name given as an argument can be opened (`fopen` is not checked).
-/

namespace Liballocs.IfaceTypes

open Liballocs.CcArgs (W)

/-! ## The lines (tools/ifacetypes.cpp:71-76) -/

/-- The longest line that `getline(buf, sizeof buf - 1)` takes: one less than the size given
(tools/ifacetypes.cpp:71, 76). -/
def maxLine : Nat := 4094

/-- The text up to the first newline, and what is after it. -/
def cut : W → W × W
  | [] => ([], [])
  | c :: t =>
    if c = '\n' then ([], t)
    else
      let r := cut t
      (c :: r.1, r.2)

theorem cut_le : ∀ t : W, (cut t).2.length ≤ t.length
  | [] => Nat.le_refl _
  | c :: t => by
    unfold cut
    split
    · simp
    · have := cut_le t
      simp only [List.length_cons]
      omega

/-- The loop's condition (tools/ifacetypes.cpp:76): lines up to the end of the input or the first
that is too long, which ends the reading. A last line without a newline counts if it has a
character. -/
def lines (t : W) : List W :=
  match t with
  | [] => []
  | c :: t' =>
    let r := cut (c :: t')
    if maxLine < r.1.length then []
    else r.1 :: lines r.2
  termination_by t.length
  decreasing_by
    simp only [List.length_cons]
    unfold cut
    split
    · simp
    · have := cut_le t'
      simp only
      omega

/-! ## A number (tools/ifacetypes.cpp:80-81) -/

/-- `isspace` in the C locale. -/
def isSp (c : Char) : Bool := c == ' ' || (9 ≤ c.toNat && c.toNat ≤ 13)

/-- What a character is worth as a hexadecimal digit. -/
def digit (c : Char) : Option Nat :=
  if 48 ≤ c.toNat ∧ c.toNat ≤ 57 then some (c.toNat - 48)
  else if 97 ≤ c.toNat ∧ c.toNat ≤ 102 then some (c.toNat - 87)
  else if 65 ≤ c.toNat ∧ c.toNat ≤ 70 then some (c.toNat - 55)
  else none

/-- The greatest `unsigned long`. -/
def maxU : Nat := 2 ^ 64 - 1

/-- `_M_extract_int`'s loop over digits: the number so far, whether it has overflowed, and whether
a digit was taken. -/
def digits (acc : Nat) (ov seen : Bool) : W → Nat × Bool × Bool
  | [] => (acc, ov, seen)
  | c :: t =>
    match digit c with
    | none => (acc, ov, seen)
    | some d =>
      if maxU / 16 < acc then digits acc true seen t
      else digits ((acc * 16 + d) % 2 ^ 64) (ov || maxU - d < acc * 16) true t

/-- The sign, if there is one; and the rest. -/
def sign : W → Bool × W
  | '-' :: t => (true, t)
  | '+' :: t => (false, t)
  | t => (false, t)

/-- A leading zero and `0x`: whether there was a zero that is not part of a prefix; and the rest. -/
def lead : W → Bool × W
  | '0' :: 'x' :: t => (false, t)
  | '0' :: 'X' :: t => (false, t)
  | '0' :: t => (true, t)
  | t => (false, t)

/-- `s >> std::hex >> maybe_addr` (tools/ifacetypes.cpp:79-81): 0 if there is no number, the
greatest number if it is too great. What is after the number is not looked at. -/
def number (line : W) : Nat :=
  let sg := sign (line.dropWhile isSp)
  let l := lead sg.2
  let r := digits 0 false l.1 l.2
  if r.2.2 = false then 0
  else if r.2.1 then maxU
  else if sg.1 then (2 ^ 64 - r.1) % 2 ^ 64
  else r.1

/-! ## What is asked (tools/ifacetypes.cpp:72-99, 103) -/

/-- `element_names` and `element_addrs`. -/
structure Asked where
  names : List W
  addrs : List Nat
deriving DecidableEq

/-- What is done with a line (tools/ifacetypes.cpp:78-98). The interval from the greatest address
to the one after it, which is 0, is empty, and is not inserted. -/
def take (q : Asked) (line : W) : Asked :=
  if number line ≠ 0 then
    if number line < maxU then { q with addrs := q.addrs ++ [number line] } else q
  else { q with names := q.names ++ [line] }

/-- The loop over the input (tools/ifacetypes.cpp:76-99). -/
def asked (input : W) : Asked := (lines input).foldl take ⟨[], []⟩

/-- `match_all` (tools/ifacetypes.cpp:103). -/
def Asked.all (q : Asked) : Bool := q.names.isEmpty && q.addrs.isEmpty

/-! ## What is chosen (tools/ifacetypes.cpp:120-158) -/

/-- What an element is. -/
inductive Kind
  | sub
  | var (static : Bool)
  | other
deriving DecidableEq

/-- An entry of the debugging information. `ty` is the type: the entry itself for a subprogram,
the variable's type otherwise (tools/ifacetypes.cpp:192-197). -/
structure Die where
  kind : Kind
  name : Option W
  /-- `DW_AT_visibility`: whether it is `DW_VIS_exported`. -/
  vis : Option Bool
  /-- The addresses that it occupies. -/
  ivals : List (Nat × Nat)
  ty : Nat
deriving DecidableEq

/-- Whether the element has one of the addresses (tools/ifacetypes.cpp:136-138). -/
def meets (q : Asked) (d : Die) : Bool := q.addrs.any fun a => d.ivals.any fun i => decide (i.1 ≤ a ∧ a < i.2)

/-- Whether it is an element at all: a variable with static storage or a subprogram, and not
said to be local (tools/ifacetypes.cpp:130-132). -/
def element (d : Die) : Bool :=
  (match d.kind with
    | .sub => true
    | .var st => st
    | .other => false) &&
  (match d.vis with
    | none => true
    | some e => e)

/-- The function that is asked about each (tools/ifacetypes.cpp:120-158): whether the element is
chosen, and the name under which it is remembered. -/
def choose (q : Asked) (d : Die) : Bool × Option W :=
  match d.name with
  | none => (false, none)
  | some n =>
    if element d = true ∧ (q.all || q.names.contains n || meets q d) = true then
      if q.all then (true, none) else (true, some n)
    else (false, none)

/-- `named_element_dies`: a map from names; a later entry replaces an earlier one
(tools/ifacetypes.cpp:149, 154). -/
def remember (m : List (W × Die)) (n : W) (d : Die) : List (W × Die) :=
  match m with
  | [] => [(n, d)]
  | e :: m => if e.1 = n then (n, d) :: m else e :: remember m n d

/-! ## The types (tools/ifacetypes.cpp:160-217) -/

/-- What is known of types: which are of the same structure, what types they are made of, their
concrete types and their names. -/
structure Types where
  cls : Nat → Nat
  parts : Nat → List Nat
  conc : Nat → Nat
  name : Nat → W

/-- `type_set::find`. -/
def find (T : Types) (s : List Nat) (t : Nat) : Option Nat := s.find? fun u => T.cls u = T.cls t

/-- `type_set::insert`. -/
def ins (T : Types) (s : List Nat) (t : Nat) : List Nat :=
  match find T s t with
  | some _ => s
  | none => s ++ [t]

/-- What the walk over the elements has made: the types, and the names remembered. -/
structure Walk where
  types : List Nat
  named : List (W × Die)

/-- One element (`gather_interface_dies`, by contract; tools/ifacetypes.cpp:120-158). -/
def visit (T : Types) (q : Asked) (s : Walk) (d : Die) : Walk :=
  let r := choose q d
  { types := if r.1 then (d.ty :: T.parts d.ty).foldl (ins T) s.types else s.types
    named := match r.2 with
      | none => s.named
      | some n => remember s.named n d }

/-- All elements. -/
def walk (T : Types) (q : Asked) (ds : List Die) : Walk := ds.foldl (visit T q) ⟨[], []⟩

/-- The names of the types that are written (tools/ifacetypes.cpp:160-179). -/
def defined (T : Types) (s : Walk) : List W := s.types.map T.name

/-- The line for an element: its name, and that of its type; nothing, and a warning, if its type
is not in the set (tools/ifacetypes.cpp:183-217). -/
def lineOf (T : Types) (s : Walk) (e : W × Die) : Option (W × W) :=
  match find T s.types e.2.ty with
  | none => none
  | some t => some (e.1, T.name (T.conc t))

/-- The pointers written. -/
def pointers (T : Types) (s : Walk) : List (W × W) := s.named.filterMap (lineOf T s)

/-- The whole tool (tools/ifacetypes.cpp:47-220): the names of the types defined, and the pointers. -/
def run (T : Types) (ds : List Die) (input : W) : List W × List (W × W) :=
  let s := walk T (asked input) ds
  (defined T s, pointers T s)

end Liballocs.IfaceTypes
