import Verif.Model.TypeNames
/-!
# Loading the metadata of one object (src/meta-dso-util.c)

`load_and_init_all_metadata_for_one_object`: which objects are passed over, and what is taken and given back on each path.

Simplifications: the answers of the C library, the dynamic linker and the file system are an environment; the search for the
metadata file is modelled in `MetaDso`. Messages are left out.
-/
namespace Liballocs.MetaLoad

open TypeNames (Text cstr)

/-- `META_OBJ_SUFFIX` (src/liballocs_private.h:178). -/
def suffix : Text := ['-', 'm', 'e', 't', 'a', '.', 's', 'o']

/-- Whether an object is passed over (src/meta-dso-util.c:79-88): its name is the metadata directory itself, or ends `-meta.so`.
`m` is memory, the name is at offset `i`; `none`: memory before `m` is read. -/
def skipped (m : Text) (i : Nat) (metaBase : Text) : Option Bool :=
  let name := cstr m i
  if name = metaBase then some true
  else if i + name.length < 8 then none
  else some (decide (cstr m (i + name.length - 8) = suffix))

/-- What is taken and given back. -/
inductive Event where
  | openFd
  | closeFd
  | allocPath
  | freePath
  | allocName
  | freeName
  | dlopen
  | dlclose
  | scan
  | hook
  deriving DecidableEq

/-- The answers of the environment. -/
structure Env where
  /-- `find_and_open_meta_libfile` -/
  found : Bool
  /-- `asprintf` -/
  printed : Bool
  /-- `realpath_quick` -/
  real : Bool
  /-- `__private_strndup` -/
  copied : Bool
  /-- `dlopen` with `RTLD_NOLOAD`: the object, if it is loaded already -/
  already : Option Nat
  /-- `dlopen`: the object, if it can be loaded -/
  loads : Option Nat
  /-- whether `__libcrunch_scan_lazy_typenames` and `__hook_loaded_one_object_meta` exist -/
  hasScan : Bool
  hasHook : Bool

open Event in
/-- From the search on (src/meta-dso-util.c:97-159): the handle recorded, and what was taken and given back. -/
def load (e : Env) : Option Nat × List Event :=
  if e.found = false then (none, [])
  else if e.printed = false then (none, [openFd, closeFd])
  else if e.real = false then (none, [openFd, allocPath, freePath, closeFd])
  else if e.copied = false then (none, [openFd, allocPath, freePath, closeFd])
  else
    match e.already with
    | some h => (some h, [openFd, allocPath, allocName, dlopen, closeFd, dlclose, freePath, freeName])
    | none =>
      match e.loads with
      | none => (none, [openFd, allocPath, allocName, closeFd, freeName, freePath])
      | some h =>
        (some h, [openFd, allocPath, allocName, closeFd, dlopen, freeName, freePath]
          ++ (if e.hasScan then [scan] else []) ++ (if e.hasHook then [hook] else []))

/-- The whole function (src/meta-dso-util.c:67-159), for an object that has a name. -/
def loadOne (m : Text) (i : Nat) (metaBase : Text) (e : Env) : Option (Option Nat × List Event) :=
  match skipped m i metaBase with
  | none => none
  | some true => some (none, [])
  | some false => some (load e)

end Liballocs.MetaLoad
