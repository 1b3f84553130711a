/-
Model of the per-chunk metadata word ("insert"/"trailer") and of the size arithmetic around it
(include/malloc-meta.h, include/generic_malloc_index.h, tools/stubgen.h).
-/
namespace Liballocs.Insert

/-- One metadata word: `struct insert` is a packed 64-bit union (include/malloc-meta.h:57-76). -/
abbrev W := BitVec 64

/-- Read a bit-field of `len` bits at bit `lo`.  The layout (first member at bit 0, packed) is the
x86-64 SysV little-endian bit-field layout the code relies on. -/
def getF (w : W) (lo len : Nat) : BitVec len := w.extractLsb' lo len

/-- Assign a bit-field at bit `lo`. -/
def setF (w : W) (lo : Nat) {len : Nat} (v : BitVec len) : W :=
  (w &&& ~~~((BitVec.allOnes len).setWidth 64 <<< lo)) ||| (v.setWidth 64 <<< lo)

/-- `initial.alloc_site` read as an address (include/malloc-meta.h:61; the cast at
include/generic_malloc_index.h:776). -/
def allocSite (w : W) : BitVec 64 := (getF w 1 47).setWidth 64

/-- `common.lifetime_policies` (include/malloc-meta.h:71-74). -/
def lifetime (w : W) : BitVec 4 := getF w 60 4

/-- `INSERT_IS_WITH_TYPE` (include/malloc-meta.h:109): `initial.unused != 0`. -/
def isWithType (w : W) : Bool := getF w 48 12 != 0#12

/-- `with_type.alloc_site_id` (include/malloc-meta.h:67), a signed 15-bit field. -/
def siteId (w : W) : BitVec 15 := getF w 1 15

/-- `UNIQTYPE_UNSHIFT_FROM_INSERT(with_type.uniqtype_shifted)` (include/malloc-meta.h:68,79). -/
def typeOf (w : W) : BitVec 64 := (getF w 16 44).setWidth 64 <<< 3

/-- The two field assignments `__generic_malloc_index_insert` makes to the word already in memory
(include/generic_malloc_index.h:374-375): `initial.unused = 0; initial.alloc_site = caller`. -/
def indexInsert (w : W) (caller : BitVec 64) : W :=
  setF (setF w 48 (0#12)) 1 (caller.setWidth 47)

/-- The hook's `lti->common.lifetime_policies |= initial_lifetime_policies`
(tools/stubgen.h:355-360). -/
def attachInitial (w : W) (init : BitVec 4) : W := setF w 60 (lifetime w ||| init)

/-- What a new chunk's word holds after the allocation hook (tools/stubgen.h:346-361), `w` being
whatever the memory held before. -/
def postAlloc (policies : BitVec 4) (w : W) (caller : BitVec 64) : W :=
  let w₁ := indexInsert w caller
  if policies ≠ 0#4 then attachInitial w₁ policies else w₁

/-- The compound literal `(struct insert){ .with_type = { .uniqtype_shifted = SHIFT(u),
.alloc_site_id = id, .always_1 = 1 } }` (include/generic_malloc_index.h:726-730, 799-804):
members not mentioned are zero. -/
def mkWithType (u : BitVec 64) (id : BitVec 15) : W :=
  setF (setF (setF 0#64 16 ((u >>> 3).setWidth 44)) 1 id) 0 (1#1)

/-- What a metadata query outputs: the site, and the type or an error
(`__liballocs_err_unrecognised_alloc_site`). -/
structure Out where
  site : BitVec 64
  type : Option (BitVec 64)
deriving DecidableEq, Repr

/-- `extract_and_output_alloc_site_and_type` (include/generic_malloc_index.h:735-841), for a
non-null insert.  `find s` is the type recorded for site `s` (null when there is none), `idOf` the
site numbering (src/allocsites.c).  Returns the new word and the outputs.  Simplification: the list
of unrecognised sites and the statistics counters are left out (the list is modelled in
`Verif.Model.Addrlist`). -/
def extract (ndebug : Bool) (find : BitVec 64 → BitVec 64) (idOf : BitVec 64 → BitVec 15) (w : W) :
    W × Out :=
  if isWithType w then
    let u := typeOf w
    if u = 0#64 then
      (if ndebug then mkWithType 0#64 (-1#15) else w, { site := 0#64, type := none })
    else (w, { site := 0#64, type := some u })
  else
    let s := allocSite w
    let u := find s
    let w₁ := if ndebug then mkWithType u (idOf s) else w
    if u = 0#64 then
      (if ndebug then mkWithType 0#64 (-1#15) else w₁, { site := s, type := none })
    else (w₁, { site := s, type := some u })

/-- `__generic_malloc_set_type` on the found insert (include/generic_malloc_index.h:716-732). -/
def setType (idOf : BitVec 64 → BitVec 15) (w : W) (u : BitVec 64) : W :=
  mkWithType u (if isWithType w then siteId w else idOf (allocSite w))

/-- `n` successive queries, collecting the outputs. -/
def queries (ndebug : Bool) (find : BitVec 64 → BitVec 64) (idOf : BitVec 64 → BitVec 15) :
    Nat → W → List Out
  | 0, _ => []
  | n + 1, w =>
    let r := extract ndebug find idOf w
    r.2 :: queries ndebug find idOf n r.1

/-! ### Sizes -/

/-- `PAD_TO_ALIGN` (include/malloc-meta.h:33-35), 64-bit arithmetic. -/
def padToAlign (n a : BitVec 64) : BitVec 64 :=
  if n.umod a = 0#64 then n else n + a - n.umod a

/-- `CHUNK_SIZE_WITH_TRAILER(sz, struct insert, void*)` (include/malloc-meta.h:39-40), as used by
the `pre_alloc` hook (tools/stubgen.h:363-371): the size really requested from the malloc. -/
def chunkSize (sz : BitVec 64) : BitVec 64 := padToAlign (sz + 8#64) 8#64

/-- `caller_usable_size_for_chunk_and_usable_size` (include/malloc-meta.h:81-85), also
`allocsize_to_usersize` (include/generic_malloc_index.h:141). -/
def callerUsable (usable : BitVec 64) : BitVec 64 := usable - 8#64

/-- `insert_for_chunk` (include/malloc-meta.h:89-95): address of the metadata word of the chunk
at `p` with usable size `usable`, as written at insertion
(include/generic_malloc_index.h:368-372). -/
def insertAddr (p usable : BitVec 64) : BitVec 64 := p + callerUsable usable

/-- The size `__generic_malloc_get_info` reports for an unpromoted chunk
(include/generic_malloc_index.h:687-705): `lookup_object_info_via_bitmap` outputs `usersize`
(line 624), from which line 704 subtracts the trailer again. -/
def reportedSize (usable : BitVec 64) : BitVec 64 := callerUsable (callerUsable usable)

/-- The address from which `__generic_malloc_get_info` reads the metadata of a promoted chunk
(include/generic_malloc_index.h:679-685): the big allocation has the requested size (line 404-405),
to which one trailer size is added. -/
def promotedReadAddr (p requested : BitVec 64) : BitVec 64 := p + (requested + 8#64)

end Liballocs.Insert
