/-!
# Allocation-site tables and ids

`src/allocsites.c`: every loaded file with an allocation-site table gets a slot in a spine; a site's
id is its file's start id plus its index.
-/
namespace Liballocs.Allocsites

/-- A loaded file: the address range it occupies, its load address, and its table of site addresses
(file-relative, sorted), if its metadata has one. -/
structure File where
  lo : Nat
  hi : Nat
  base : Nat
  sites : Option (List Nat)

/-- `struct allocsites_vectors_by_base_id_entry` (include/allocsites.h:78-84); `ptr` is the table it
points to. -/
structure Ent where
  start : Nat
  count : Nat
  base : Nat
  ptr : List Nat

/-- `ALLOCSITES_INDEX_SIZE` (include/allocsites.h:85). -/
def SIZE : Nat := 256

/-- The spine and the loaded files with their `allocsites_info` slot. -/
structure State where
  spine : List Ent
  files : List (File × Option Nat)

/-- Outcome of loading a file. -/
inductive Res where
  | ok (s : State)
  | abort
  | overrun

/-- The start id of the next spine entry (src/allocsites.c:68-80): none when the 16-bit sum wrapped. -/
def nextStart (spine : List Ent) : Option Nat :=
  match spine.getLast? with
  | none => some 0
  | some p =>
    let st := (p.start + p.count) % 65536
    if st < p.start then none else some st

/-- `init_allocsites_info` (src/allocsites.c:57-92) for a newly loaded file.  Ids and counts are
`unsigned short` (include/allocmeta.h:485).  `overrun`: the write past the end of the spine that the
check `slot_pos > ALLOCSITES_INDEX_SIZE` lets through. -/
def load (s : State) (f : File) : Res :=
  match f.sites with
  | none => .ok { s with files := s.files ++ [(f, none)] }
  | some ss =>
    let pos := s.spine.length
    if pos > SIZE then .abort
    else
      match nextStart s.spine with
      | none => .abort
      | some st =>
        if pos = SIZE then .overrun
        else .ok
          { spine := s.spine ++ [⟨st, ss.length % 65536, f.base, ss⟩],
            files := s.files ++ [(f, some pos)] }

/-- A sequence of loads. -/
def loadAll (s : State) : List File → Res
  | [] => .ok s
  | f :: fs =>
    match load s f with
    | .ok s => loadAll s fs
    | r => r

/-- `bsearch_leq_generic` (librunt, contract): the index of the last element of the first `n` of a
sorted array whose key is at most the target, if any. -/
def leq (keys : List Nat) (target : Nat) : Option Nat :=
  let k := (keys.takeWhile (· ≤ target)).length
  if k = 0 then none else some (k - 1)

/-- `get_file` (src/allocsites.c:94-101): the file whose range contains the address. -/
def getFile (s : State) (a : Nat) : Option (File × Option Nat) :=
  s.files.find? (fun f => decide (f.1.lo ≤ a ∧ a < f.1.hi))

/-- `__liballocs_find_allocsite_entry_at` (src/allocsites.c:103-121): the index of the entry found and
the spine entry it is in. -/
def entryAt (s : State) (a : Nat) : Option (Ent × Nat) :=
  match getFile s a with
  | none => none
  | some (f, slot) =>
    match slot with
    | none => none
    | some k =>
      match s.spine[k]? with
      | none => none
      | some e => (leq (e.ptr.take e.count) (a - f.base)).map (fun i => (e, i))

/-- `__liballocs_allocsite_id` (src/allocsites.c:123-131): 0 when there is no file (`NULL`
converted), 65535 when there is no entry. -/
def siteId (s : State) (a : Nat) : Nat :=
  match getFile s a with
  | none => 0
  | some _ =>
    match entryAt s a with
    | none => 65535
    | some (e, i) => (e.start + i) % 65536

/-- `__liballocs_allocsite_by_id` and `__liballocs_allocsite_entry_by_id` (src/allocsites.c:133-155).
`none`: null.  A read outside the table is `some none`. -/
def siteById (s : State) (id : Nat) : Option (Option Nat) :=
  match leq (s.spine.map (·.start)) id with
  | none => none
  | some k =>
    match s.spine[k]? with
    | none => some none
    | some e => some ((e.ptr[id - e.start]?).map (e.base + ·))

end Liballocs.Allocsites
