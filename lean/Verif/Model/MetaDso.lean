/-!
# Finding, opening and releasing meta-objects

`src/meta-dso.c` builds the candidate file names of a file's metadata and picks one; `src/meta-dso-util.c` loads it;
`src/allocators/static-file.c` releases it on unload.

Simplifications: names are lists of characters without NUL; the file system is a function from names to what `open` and
`fstat` give, constant during one search; a write past a buffer's end, a null handle given to `dlclose` and the release of
an object nobody holds are the outcome `none`.
-/
namespace Liballocs.MetaDso

/-- A C string. -/
abbrev Name := List Char

/-- `META_OBJ_SUFFIX` (src/liballocs_private.h:178). -/
def suffix : Name := "-meta.so".toList

/-- `BUILD_ID_INFIX` (src/meta-dso.c:74). -/
def infix' : Name := "/.build-id/".toList

/-- `PATH_BUFFER_SIZE` (src/meta-dso.c:34). -/
def bufSize : Nat := 4096

/-- Subtraction on `unsigned`. -/
def wsub (x y : Nat) : Nat := (x + 2 ^ 32 - y % 2 ^ 32) % 2 ^ 32

/-- `strncat(out, src, n)` into a buffer of `cap` bytes. -/
def strncat (cap : Nat) (out src : Name) (n : Nat) : Option Name :=
  if (out ++ src.take n).length + 1 ≤ cap then some (out ++ src.take n) else none

/-- `snprintf(out + strlen(out), n, …)` of a text, into a buffer of `cap` bytes. -/
def snprintf (cap : Nat) (out text : Name) (n : Nat) : Option Name :=
  if n = 0 then some out else strncat cap out text (n - 1)

/-- `bytes_left -= (bytes_left < len) ? bytes_left : len` (src/meta-dso.c:48, 54, 72, 76); `len` is `unsigned`. -/
def less (left len : Nat) : Nat := if left < len % 2 ^ 32 then wsub left left else wsub left len

/-- The contents of the buffer after `meta_libfile_name_by_path` (src/meta-dso.c:37-61), which the caller initialised to the
empty string (src/meta-dso.c:116) and uses whatever was returned. -/
def byPath (base obj : Name) : Option Name :=
  if obj.head? = some '/' then
    let left := wsub (wsub bufSize 1) 1
    (strncat bufSize [] base left).bind (fun out =>
      let left := less left base.length
      (strncat bufSize out obj left).bind (fun out =>
        let left := less left obj.length
        strncat bufSize out suffix left))
  else some []

/-- A hexadecimal digit. -/
def hexDigit (n : Nat) : Char := Char.ofNat (if n < 10 then '0'.toNat + n else 'a'.toNat + (n - 10))

/-- `%02hhx`. -/
def hexByte (b : Fin 256) : Name := [hexDigit (b.val / 16), hexDigit (b.val % 16)]

/-- The build ID as text, with a slash after the first byte (src/meta-dso.c:80-88). -/
def idText : List (Fin 256) → Name
  | [] => []
  | b :: r => hexByte b ++ '/' :: r.flatMap hexByte

/-- `meta_libfile_name_by_build_id` (src/meta-dso.c:63-96). -/
def byBuildId (base : Name) (id : List (Fin 256)) : Option Name :=
  let left := wsub (wsub bufSize 1) 1
  (strncat bufSize [] base left).bind (fun out =>
    let left := less left base.length
    (strncat bufSize out infix' left).bind (fun out =>
      let left := less left infix'.length
      (snprintf bufSize out (idText id) left).bind (fun out =>
        let left := wsub left 40
        strncat bufSize out suffix left)))

/-- No build ID is represented by one of all zeroes (src/meta-dso.c:105-111). -/
def haveId (id : List (Fin 256)) : Bool := id.any (fun b => decide (b ≠ 0))

/-- The candidates, in the order tried (src/meta-dso.c:114-121). -/
def candidates (base obj : Name) (id : List (Fin 256)) : Option (List Name) :=
  if haveId id then (byBuildId base id).bind (fun b => (byPath base obj).map (fun p => [b, p]))
  else (byPath base obj).map (fun p => [p])

/-- What the file system says: `stat n` is `none` if `n` cannot be opened, `some none` if it can but `fstat` fails, and else
its modification time; `base` is the modification time of the file the metadata is for, if `stat` works. -/
structure World where
  stat : Name → Option (Option Int)
  base : Option Int

/-- File descriptors opened and closed. -/
inductive Event where
  | opened (n : Name)
  | closed (n : Name)
  deriving DecidableEq

/-- The modification time compared against: the file's, or what the uninitialised buffer holds (src/meta-dso.c:142-153). -/
def baseTime (w : World) (junk : Int) : Int :=
  match w.base with
  | some t => t
  | none => junk

/-- The loop of `find_and_open_meta_libfile` (src/meta-dso.c:123-162). `junk i` is what the uninitialised `statbuf_base` holds in
iteration `i` when `stat` fails (src/meta-dso.c:142-153). -/
def search (w : World) (junk : Nat → Int) : Nat → List Name → Option Name × List Event
  | _, [] => (none, [])
  | i, n :: rest =>
    match w.stat n with
    | none => search w junk (i + 1) rest
    | some none =>
      let r := search w junk (i + 1) rest
      (r.1, .opened n :: .closed n :: r.2)
    | some (some t) =>
      if baseTime w (junk i) > t then
        let r := search w junk (i + 1) rest
        (r.1, .opened n :: .closed n :: r.2)
      else (some n, [.opened n])

/-- `find_and_open_meta_libfile` (src/meta-dso.c:101-163). -/
def find (w : World) (junk : Nat → Int) (base obj : Name) (id : List (Fin 256)) : Option (Option Name × List Event) :=
  (candidates base obj id).map (search w junk 0)

/-! ## References to loaded meta-objects -/

/-- The dynamic linker's reference counts of meta-objects, and the handle recorded for each file
(`allocs_file_metadata.meta_obj_handle`): `file f` is `none` if `f` is not loaded, `some none` if it has no meta-object. -/
structure Refs where
  count : Nat → Nat
  file : Nat → Option (Option Nat)

def Refs.init : Refs := ⟨fun _ => 0, fun _ => none⟩

def upd {α : Type} (f : Nat → α) (i : Nat) (v : α) : Nat → α := fun j => if j = i then v else f j

inductive RefOp where
  /-- `f` is loaded; `found` is the meta-object found for it, if one is found and can be opened. -/
  | load (f : Nat) (found : Option Nat)
  | unload (f : Nat)

/-- `dlclose`. -/
def dlclose (s : Refs) (m : Nat) : Option Refs :=
  if s.count m = 0 then none else some { s with count := upd s.count m (s.count m - 1) }

/-- `load_and_init_all_metadata_for_one_object` (src/meta-dso-util.c:97-141) with the recording of the handle
(src/allocators/static-file.c:229-231), and `__static_file_allocator_notify_unload` (src/allocators/static-file.c:551-575). The
two calls of `dlopen` with `RTLD_NOLOAD` and of `dlclose` for an object already loaded leave its count as it was. -/
def refStep (s : Refs) : RefOp → Option Refs
  | .load f none => some { s with file := upd s.file f (some none) }
  | .load f (some m) =>
    if s.count m > 0 then
      let s := { s with count := upd s.count m (s.count m + 1), file := upd s.file f (some (some m)) }
      dlclose s m
    else some { count := upd s.count m 1, file := upd s.file f (some (some m)) }
  | .unload f =>
    match s.file f with
    | none => some s
    | some none => none
    | some (some m) => (dlclose s m).map (fun s => { s with file := upd s.file f none })

def refRun (s : Refs) (ops : List RefOp) : Option Refs := ops.foldlM refStep s

/-! ## Types by name -/

/-- `"__uniqtype_"` (src/meta-dso-util.c:33). -/
def prefix' : Name := "__uniqtype_".toList

def isDigit (c : Char) : Bool := decide ('0'.toNat ≤ c.toNat ∧ c.toNat ≤ '9'.toNat)

def isSpace (c : Char) : Bool := c == ' ' || c == '\t' || c == '\n' || c == '\r' || c.toNat == 11 || c.toNat == 12

def digitsVal (l : Name) : Nat := l.foldl (fun v c => 10 * v + (c.toNat - '0'.toNat)) 0

/-- An optional sign: whether it is a minus, and what follows. -/
def takeSign : Name → Bool × Name
  | '-' :: r => (true, r)
  | '+' :: r => (false, r)
  | r => (false, r)

/-- What `sscanf("%d")` reads at the front of a string: white space skipped, a sign, digits; `none` if there are no digits.
Values beyond the range of `int` are not in the model's scope (the property is about names). -/
def scanInt (s : Name) : Option Int :=
  let t := takeSign (s.dropWhile isSpace)
  let d := t.2.takeWhile isDigit
  if d = [] then none else some (if t.1 then - (digitsVal d : Int) else digitsVal d)

/-- What `__liballocs_typestr_to_uniqtype` (src/meta-dso-util.c:25-56) looks up for a name. -/
inductive Looked where
  /-- the symbol looked up -/
  | sym (n : Name)
  /-- a failed assertion -/
  | assertFails
  /-- a read past the end of the argument -/
  | outOfBounds
  deriving DecidableEq

def typeSym (typestr : Name) : Looked :=
  if typestr.take prefix'.length ≠ prefix' then .assertFails
  else
    match scanInt (typestr.drop prefix'.length) with
    | none => .sym typestr
    | some k =>
      if 0 < k ∧ k < 4096 then
        if prefix'.length + k.toNat ≤ typestr.length then
          match strncat 4096 prefix' (typestr.drop (prefix'.length + k.toNat)) (4096 - prefix'.length) with
          | some n => .sym n
          | none => .outOfBounds
        else .outOfBounds
      else .assertFails

end Liballocs.MetaDso
