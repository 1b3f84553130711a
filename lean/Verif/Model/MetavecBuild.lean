import Verif.Model.StaticSym
/-!
# Generating the per-segment tables of static objects (tools/metavector.cpp)

Simplifications.
* `get_sanely_described_statics` (contrib/liballocstool) is an input: intervals, each with the kind, symbol index and type
  its description set is summarised to.
* ELF reading (libelf) is an input: relocation sections, symbols and sections are lists.
* A record word is a value of `Word`: the macros packing it into 64 bits (contrib/liballocstool `allocmeta-defs.h`) are
  taken to keep kind, index, type, address and size.
* `std::map` is its contract: a list in key order, `insert` doing nothing for a key already present.
-/
namespace Liballocs.MetavecBuild

/-- Which symbol table a record refers to (tools/metavector.cpp:143-146). -/
inductive Kind where
  | dynsym
  | symtab
  | extrasym
  deriving DecidableEq

/-- An interval of `get_sanely_described_statics` with its summary (tools/metavector.cpp:379-385): `idx` is
`summary.maybe_idx`, used for kinds other than `extrasym`; `type` 0 is "no type". -/
structure Static where
  lo : Nat
  hi : Nat
  kind : Kind
  idx : Nat
  type : Nat
  deriving DecidableEq

/-- `sym_or_reloc_rec_to_generate` (tools/metavector.cpp:70-77). -/
inductive GRec where
  | sym (k : Kind) (idx : Nat) (type : Nat)
  | reloc
  deriving DecidableEq

/-- `std::map::insert`. -/
def insert (a : Nat) (r : GRec) : List (Nat × GRec) → List (Nat × GRec)
  | [] => [(a, r)]
  | (b, q) :: l => if a < b then (a, r) :: (b, q) :: l else if a = b then (b, q) :: l else (b, q) :: insert a r l

/-- The first loop of `generate_recs` (tools/metavector.cpp:380-400): statics needing an extra symbol.  The index is
incremented before it is used. -/
def addExtras (i : Nat) (recs : List (Nat × GRec)) : List Static → List (Nat × GRec)
  | [] => recs
  | s :: l =>
    match s.kind with
    | .extrasym => addExtras (i + 1) (insert s.lo (.sym .extrasym (i + 1) s.type) recs) l
    | _ => addExtras i recs l

/-- The second loop of `generate_recs` (tools/metavector.cpp:401-420): the other statics. -/
def addSyms (recs : List (Nat × GRec)) : List Static → List (Nat × GRec)
  | [] => recs
  | s :: l =>
    match s.kind with
    | .extrasym => addSyms recs l
    | k => addSyms (insert s.lo (.sym k s.idx s.type) recs) l

/-- `statics.find([t, t+1)) == statics.end()` (tools/metavector.cpp:320-324). -/
def clear (statics : List Static) (t : Nat) : Bool := statics.all (fun s => decide (t < s.lo ∨ s.hi ≤ t))

/-- `add_sane_reloc_intervals` (tools/metavector.cpp:305-373) for the targets of one relocation section, in order.  The
lengths it computes are not used, but the distance to the next static is kept in 32 bits and asserted nonzero
(tools/metavector.cpp:327-335): `none`. -/
def addRelocs (statics : List Static) (recs : List (Nat × GRec)) : List Nat → Option (List (Nat × GRec))
  | [] => some recs
  | t :: l =>
    match clear statics t with
    | false => addRelocs statics recs l
    | true =>
      match statics.find? (fun s => decide (t < s.lo)) with
      | none => addRelocs statics (insert t .reloc recs) l
      | some s =>
        if (s.lo - t) % 2 ^ 32 = 0 then none
        else addRelocs statics (insert t .reloc recs) l

/-- `Elf64_Sword` to `Dwarf_Addr`: 32 bits kept, then sign-extended to 64 (tools/metavector.cpp:281,291,298). -/
def sword (v : Nat) : Nat :=
  if v % 2 ^ 32 < 2 ^ 31 then v % 2 ^ 32 else v % 2 ^ 32 + (2 ^ 64 - 2 ^ 32)

/-- An ELF symbol, as far as it is looked at (tools/metavector.cpp:258-261). -/
structure Sym where
  value : Nat
  isSection : Bool
  isNotype : Bool
  isLocal : Bool
  deriving DecidableEq

/-- A relocation record.  `addend` is in 64-bit two's complement. -/
structure Reloc where
  sym : Nat
  type : Nat
  addend : Nat
  deriving DecidableEq

/-- A relocation section.  `scope` is `none` when `sh_info` is 0, else whether the relocated section is allocatable. -/
structure RelScn where
  isRela : Bool
  scope : Option Bool
  rels : List Reloc

/-- `reloc_distance_to_logical_target` (tools/metavector.cpp:187-210) on x86-64: R_X86_64_PC32 is 2, R_X86_64_PLT32 is 4,
R_X86_64_GOTPCREL is 9. -/
def distance (type : Nat) : Nat := if type = 2 ∨ type = 4 ∨ type = 9 then 4 else 0

/-- The test on the symbol referred to (tools/metavector.cpp:258-262). -/
def counts (s : Sym) : Bool := s.isSection || (s.isNotype && s.isLocal)

/-- The referenced address (tools/metavector.cpp:281-289): 64-bit arithmetic, then `Elf64_Sword`. -/
def target (isRela : Bool) (s : Sym) (r : Reloc) : Nat :=
  sword ((s.value + (match isRela with | true => r.addend | false => 0) + distance r.type) % 2 ^ 64)

/-- The loop of `scan_reloc_target_addr_end_pairs` (tools/metavector.cpp:253-301); `none`: a symbol index outside the
symbol table. -/
def scanRels (symtab : List Sym) (isRela : Bool) : List Reloc → Option (List Nat)
  | [] => some []
  | r :: l =>
    if r.sym = 0 then scanRels symtab isRela l
    else
      match symtab[r.sym]? with
      | none => none
      | some s =>
        match scanRels symtab isRela l with
        | none => none
        | some ts => some (match counts s with | true => target isRela s r :: ts | false => ts)

/-- `scan_reloc_target_addr_end_pairs` (tools/metavector.cpp:219-303). -/
def scan (symtab : List Sym) (sc : RelScn) : Option (List Nat) :=
  match sc.scope with
  | some false => some []
  | _ => scanRels symtab sc.isRela sc.rels

/-- The relocation part of `generate_recs` (tools/metavector.cpp:421-458). -/
def addScns (symtab : List Sym) (statics : List Static) (recs : List (Nat × GRec)) : List RelScn → Option (List (Nat × GRec))
  | [] => some recs
  | sc :: l =>
    match scan symtab sc with
    | none => none
    | some ts =>
      match addRelocs statics recs ts with
      | none => none
      | some recs => addScns symtab statics recs l

/-- `generate_recs` (tools/metavector.cpp:375-460).  `extrasym_idx` starts at 1. -/
def generate (symtab : List Sym) (statics : List Static) (scns : List RelScn) : Option (List (Nat × GRec)) :=
  addScns symtab statics (addSyms (addExtras 1 [] statics) statics) scns

/-- An emitted record word. -/
inductive Word where
  | sym (k : Kind) (idx : Nat) (type : Nat)
  | reloc (base : Nat) (size : Nat)
  deriving DecidableEq

/-- One record as emitted (tools/metavector.cpp:484-508): a relocation target's size is the distance to the next record of
the *whole* map, else to the end of the segment. -/
def emit (limit a : Nat) (r : GRec) (later : List (Nat × GRec)) : Word :=
  match r with
  | .sym k i ty => .sym k i ty
  | .reloc =>
    match later with
    | [] => .reloc a (limit - a)
    | (b, _) :: _ => .reloc a (b - a)

/-- `output_one_segment_metavec`, the vector (tools/metavector.cpp:462-513): records starting in the segment. -/
def segment (base limit : Nat) : List (Nat × GRec) → List Word
  | [] => []
  | (a, r) :: l =>
    if base ≤ a ∧ a < limit then emit limit a r l :: segment base limit l
    else segment base limit l

/-- `ROUND_DOWN(p_vaddr, BITMAP_WORD_NBITS)` (tools/metavector.cpp:517). -/
def bitmapBase (base : Nat) : Nat := base / 64 * 64

/-- `bitmap_nwords` (tools/metavector.cpp:518-520). -/
def bitmapWords (base limit : Nat) : Nat := ((limit + 63) / 64 * 64 - bitmapBase base + 63) / 64

/-- The bits set in the bitmap (tools/metavector.cpp:521-535); `none`: the assertion on the bit's index. -/
def bits (base limit : Nat) : List (Nat × GRec) → Option (List Nat)
  | [] => some []
  | (a, _) :: l =>
    if base ≤ a ∧ a < limit then
      if a - bitmapBase base < (limit + 63) / 64 * 64 - bitmapBase base then
        match bits base limit l with
        | none => none
        | some bs => some ((a - bitmapBase base) :: bs)
      else none
    else bits base limit l

/-- The symbol tables at run time: value and size of each entry. -/
structure Tabs where
  dynsym : List (Nat × Nat)
  symtab : List (Nat × Nat)
  extrasym : List (Nat × Nat)

/-- The table a kind of record refers to (include/allocmeta.h:513-518). -/
def Tabs.of (t : Tabs) : Kind → List (Nat × Nat)
  | .dynsym => t.dynsym
  | .symtab => t.symtab
  | .extrasym => t.extrasym

/-- `vaddr_from_rec` and the size and type lookups (include/allocmeta.h:508-522, src/allocators/static-symbol.c:321-334);
`none`: an index outside the table. -/
def resolve (t : Tabs) : Word → Option StaticSym.Rec
  | .reloc b n => some ⟨b, n, true, 0⟩
  | .sym k i ty =>
    match (t.of k)[i]? with
    | none => none
    | some (v, n) => some ⟨v, n, false, ty⟩

/-- All records of a vector resolved. -/
def resolveAll (t : Tabs) : List Word → Option (List StaticSym.Rec)
  | [] => some []
  | w :: l =>
    match resolve t w with
    | none => none
    | some r =>
      match resolveAll t l with
      | none => none
      | some rs => some (r :: rs)

/-- The extra symbols as emitted by tools/extrasyms.cpp:106,124-127,165-206: `lead` entries for nothing, then one for
each static of kind `extrasym`, in address order.  tools/extrasyms.cpp:165 skips one entry of `get_extrasyms`
(contrib/liballocstool) and tools/extrasyms.cpp:106 emits one. -/
def extraTab (lead : Nat) (statics : List Static) : List (Nat × Nat) :=
  List.replicate lead (0, 0) ++ (statics.filter (fun s => decide (s.kind = .extrasym))).map (fun s => (s.lo, s.hi - s.lo))

/-- A query of an address in a segment whose vector was generated, loaded and resolved. -/
def query (t : Tabs) (recs : List (Nat × GRec)) (base limit load pb obj : Nat) : Option (Option StaticSym.Info) :=
  match resolveAll t (segment base limit recs) with
  | none => none
  | some v => some (StaticSym.getInfo v load pb obj)

end Liballocs.MetavecBuild
