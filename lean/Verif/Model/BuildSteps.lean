import Verif.Model.CcArgs

/-!
# Steps of a build (tools/allocscompilerwrapper.py)

From when all sources have been compiled: what the wrapped compiler adds when it links a program or a shared library, and which commands are
run, up to making metadata. What comes before, and the options and items of the user, are those of `CcArgs`.

How commands end is an argument: each is 0 or not. Generating stubs is that of `StubGen`, and taken to succeed. Python's exceptions that are
not caught end the wrapper: `raised`.
-/

namespace Liballocs.BuildSteps

open CcArgs (W)

/-- What is built (`-static`, `-shared`), the value of `LIBALLOCS_USE_PRELOAD`, where liballocs is, the `.interp` section of interp-pad.o, the
output, whether the user asks for relocation records to be kept, how commands end, and whether the output exists after the final link. -/
structure Env where
  static : Bool
  shared : Bool
  preload : Option W
  base : W
  pad : W
  out : W
  relocs : Bool
  first : Int
  used : Int
  usedCc : Int
  final : Int
  exist : Bool
  make : Int

/-- Commands that are run: the first link and the final one with what is added at the start and at the end, making the source of used types
and compiling it, making metadata, and removing relocation records. -/
inductive Cmd
  | first
  | used
  | usedCc
  | final (left right : List W)
  | make
  | strip
  deriving DecidableEq

/-- How the wrapper ends. -/
inductive End
  | raised
  | status (n : Int)
  deriving DecidableEq

/-- `LIBALLOCS_USE_PRELOAD` is `no` (tools/allocscompilerwrapper.py:547, 558, 569). -/
def noPreload (e : Env) : Bool := e.preload == some w! "no"

/-- What is before the first NUL (tools/allocscompilerwrapper.py:542-543). -/
def cstr : W → W
  | [] => []
  | ch :: t => if ch = Char.ofNat 0 then [] else ch :: cstr t

/-- `getDummyWeakLinkArgs`, for an output that is dynamic (tools/allocscompilerwrapper.py:80-86). -/
def dummyWeak : List W := [w! "-Wl,--push-state", w! "-Wl,--no-as-needed", w! "-lallocs_dummyweaks", w! "-Wl,--pop-state"]

/-- `getLinkPath` and `getRunPath` (tools/allocscompilerwrapper.py:91-95). -/
def libDir (e : Env) : W := e.base ++ w! "/lib"

/-- `getLiballocsLinkArgs` (tools/allocscompilerwrapper.py:531-583), for a program or a shared library; `none`: a shared library without preload
has `NameError` at `getLdLibBase`. -/
def linkArgs (e : Env) : Option (List W × List W) :=
  let left := [w! "-L" ++ libDir e]
  if !e.static && !e.shared then
    some (left ++ [w! "-Wl,--dynamic-linker," ++ cstr e.pad, libDir e ++ w! "/interp-pad.o", w! "-Wl,-rpath," ++ libDir e],
      (if noPreload e then [w! "-lallocs"] else dummyWeak) ++ [w! "-ldl"])
  else if e.shared then
    if noPreload e then none
    else some (left, dummyWeak ++ [w! "-ldl"])
  else
    some (left, [if noPreload e then w! "-lallocs" else libDir e ++ w! "/liballocs.a"] ++ [w! "-ldl"])

/-- `doPostLinkMetadataBuild` (tools/allocscompilerwrapper.py:167-202): the call that removes relocation records is commented out (199). -/
def post (e : Env) : List Cmd × Int := if e.exist then ([.make], e.make) else ([], 1)

/-- `main`, for a program or a shared library (tools/allocscompilerwrapper.py:640-740). `subprocess.call` returns the status of making the
source of used types, which is not looked at (704); that of compiling it is an exception, which is caught (712-716). -/
def main (e : Env) : List Cmd × End :=
  match linkArgs e with
  | none => ([], .raised)
  | some (left, right) =>
    if e.first ≠ 0 then ([.first], .status e.first)
    else
      let left := [w! "-Wl,--export-dynamic"] ++ left ++ (if e.relocs then [] else [w! "-Wl,-q"])
      let right := right ++ [e.out ++ w! ".usedtypes.o", e.base ++ w! "/tools/libroottypes.a"]
      if e.final ≠ 0 then ([.first, .used, .usedCc, .final left right], .status e.final)
      else ([.first, .used, .usedCc, .final left right] ++ (post e).1, .status (post e).2)

end Liballocs.BuildSteps
