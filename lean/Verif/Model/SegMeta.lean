/-!
# Giving each segment its table (src/allocators/static-segment.c, src/allocators/static-file.c, tools/metavector.cpp)

A tool writes one table for each loadable segment of a file, under a name made from the segment's address. When the file is loaded, each of its
segments is given a table that is looked up by name in the file's meta object.

Simplifications: a table is a number, its size included. Finding a symbol (external, `fake_dlsym`) gives the first with the name. A file's headers
and its meta object are given, opening which may fail. librunt's part of loading (external) is its contract: it records each loadable segment's header
number, in order, and calls back for each. Addresses are 64-bit words.
-/
namespace Liballocs.SegMeta

/-- A lower-case hexadecimal digit (`%x`, `std::hex`). -/
def digit (d : Nat) : Char := Char.ofNat (if d < 10 then 48 + d else 87 + d)

/-- A number in hexadecimal, at most `k` digits. -/
def hexN : Nat → Nat → List Char
  | 0, _ => []
  | k + 1, n => if n < 16 then [digit n] else hexN k (n / 16) ++ [digit (n % 16)]

/-- A 64-bit number in hexadecimal. -/
def hex (n : Nat) : List Char := hexN 16 n

/-- `METAVEC_SYM_PREFIX` (src/allocators/static-segment.c:57, tools/metavector.cpp:474-475). -/
def PREFIX : List Char := ['m', 'e', 't', 'a', 'v', 'e', 'c', '_', '0', 'x']

/-- The name that the tool gives to the table of the segment at `v` (tools/metavector.cpp:474-475). -/
def toolName (v : Nat) : List Char := PREFIX ++ hex v

/-- The name looked for (src/allocators/static-segment.c:58-59): the address is cast to `unsigned`, and the buffer has room for 18 characters. -/
def lookName (v : Nat) : List Char := (PREFIX ++ hex (v % 2 ^ 32)).take 18

/-- A program header: whether it is loadable, and its address. -/
structure Phdr where
  load : Bool
  vaddr : Nat
  deriving DecidableEq

/-- A meta object: names and tables. -/
abbrev MetaObj := List (List Char × Nat)

/-- The meta object that the tool makes, `tab` being the tables of segments by address (tools/metavector.cpp:474-513). -/
def make (tab : Nat → Nat) (phdrs : List Phdr) : MetaObj := (phdrs.filter Phdr.load).map (fun p => (toolName p.vaddr, tab p.vaddr))

/-- A segment's record: `phdr_idx` and `metavector`. -/
structure Seg where
  phndx : Nat
  vec : Option Nat
  deriving DecidableEq

/-- A file's record: headers, segments, and `meta_obj_handle`. -/
structure File where
  phdrs : List Phdr
  segs : List Seg
  handle : Option MetaObj

/-- Finding a symbol. -/
def find (m : MetaObj) (n : List Char) : Option Nat := (m.find? (fun x => x.1 = n)).map Prod.snd

/-- `__static_segment_setup_metavector` (src/allocators/static-segment.c:46-84): none if the assertion fails or an array is overrun. -/
def setup (f : File) (phndx loadndx : Nat) : Option File :=
  match f.phdrs[phndx]?, f.segs[loadndx]? with
  | some p, some s =>
    let vec := match f.handle with
      | some m => find m (lookName p.vaddr)
      | none => none
    if s.phndx = phndx then some { f with segs := f.segs.set loadndx { s with vec := vec } } else none
  | _, _ => none

/-- The loop over the program headers from number `i` on, of which `n` loadable ones have been seen (src/allocators/static-file.c:252-264;
for librunt's loop over segments, the same contract). -/
def setupAll : List Phdr → Nat → Nat → File → Option File
  | [], _, _, f => some f
  | p :: ps, i, n, f =>
    if p.load then
      match setup f i n with
      | none => none
      | some f => setupAll ps (i + 1) (n + 1) f
    else setupAll ps (i + 1) n f

/-- The segments as librunt records them. -/
def blank : List Phdr → Nat → List Seg
  | [], _ => []
  | p :: ps, i => if p.load then ⟨i, none⟩ :: blank ps (i + 1) else blank ps (i + 1)

/-- The load of a file (src/allocators/static-file.c:413-519): segments are defined, with no meta object so far, and then the meta object is loaded unless
the file is an early one (477-493). `m` is the meta object, if there is one. -/
def notifyLoad (early : Bool) (phdrs : List Phdr) (m : Option MetaObj) : Option File :=
  match setupAll phdrs 0 0 ⟨phdrs, blank phdrs 0, none⟩ with
  | none => none
  | some f => some (if early then f else { f with handle := m })

/-- What `load_meta_objects_for_early_libs` does for a file (src/allocators/static-file.c:240-265). -/
def loadEarly (f : File) (m : Option MetaObj) : Option File := setupAll f.phdrs 0 0 { f with handle := m }

end Liballocs.SegMeta
