import Verif.Model.CcArgs
/-!
# Which definition an indirect function binds to (src/ifunc.c:28-70, 95-106)

Simplifications: names are lists of characters; a null name, which glibc does not give to a link map, is not modelled.
`find_r_debug` finds the link map that there is at the time of the call.
-/
namespace Liballocs.IfuncPos

open CcArgs

abbrev Text := List Char

/-- GNU `basename`: what follows the last slash. -/
def basename : Text → Text
  | [] => []
  | c :: l => if '/' ∈ c :: l then basename l else c :: l

/-- Is the entry passed over (src/ifunc.c:41-46)? -/
def skipped (n : Text) : Bool := n == [] || n == w! "linux-vdso.so.1"

/-- The loop (src/ifunc.c:39-47): the first entry that is not passed over. -/
def firstEntry : List Text → Option Text
  | [] => none
  | n :: l => if skipped n then firstEntry l else some n

/-- `LIBALLOCS_SONAME` (src/ifunc.c:62-65). -/
def soname : Text := w! "liballocs_preload.so"

/-- `checked_position` and `is_in_head_preload_position` (src/ifunc.c:28-29). -/
structure Memo where
  checked : Bool
  head : Bool

/-- `check_head_preload_position` (src/ifunc.c:30-70); `none` for `abort()`. -/
def check (m : Memo) (map : List Text) : Option (Memo × Bool) :=
  if m.checked then some (m, m.head)
  else match firstEntry map with
    | none => none
    | some n => some (⟨true, basename n == soname⟩, basename n == soname)

/-- The two definitions (src/ifunc.c:95-98). -/
inductive Def
  | nopreload
  | preload
  deriving DecidableEq

/-- The resolver (src/ifunc.c:101-105). -/
def resolve (m : Memo) (map : List Text) : Option (Memo × Def) :=
  (check m map).map (fun r => (r.1, if r.2 then .preload else .nopreload))

/-- What the dynamic linker binds one reference after another to, each while the link map is as given; `none` for the end of
the process. -/
def bindAll : Memo → List (List Text) → Option (List Def)
  | _, [] => some []
  | m, map :: l =>
    match resolve m map with
    | none => none
    | some (m', d) => (bindAll m' l).map (d :: ·)

end Liballocs.IfuncPos
