import Verif.Model.PageIndex
/-!
# Metadata of a given allocator, and names of strings (src/query.c:228-236, src/allocators/packed-seq.c:105-152)

Simplifications: memory is what can be read from an address on; the tokens of allocators are numbers, as in the model of big allocations.
-/
namespace Liballocs.Specific

open PageIndex

/-- `__liballocs_get_specific_by_allocator` (src/query.c:228-236); 0 for NULL. -/
def specific (c : Config) (s : State) (a obj : Nat) : Option Nat :=
  (fromRoot c s obj a false).map (fun b => if b = 0 then 0 else s.priv b)

/-- What C code reads as a string from some bytes on, 0 being the end of strings (src/allocators/packed-seq.c:105-108, 149). -/
def cstr (bytes : List Nat) : List Nat := bytes.takeWhile (fun x => decide (x ≠ 0))

/-- `name_for_string8_nulterm` (src/allocators/packed-seq.c:105-108): the string that is read at the address. -/
def stringName (mem : Nat → List Nat) (obj : Nat) : List Nat := cstr (mem obj)

/-- `get_name` of packed sequences (src/allocators/packed-seq.c:137-152); `fam` says which families' sequences have names, by the sequence's record. The outer `none`: an
assertion fails or a null pointer is read; the inner one: no name. -/
def getName (c : Config) (s : State) (packed : Nat) (fam : Nat → Bool) (mem : Nat → List Nat) (obj : Nat) : Option (Option (List Nat)) :=
  (fromRoot c s obj packed true).bind (fun b =>
    if b = 0 then none
    else if s.subPriv b = 0 then none
    else if fam (s.subPriv b) then
      (if stringName mem obj = [] then some none else some (some (stringName mem obj)))
    else some none)

end Liballocs.Specific
