import Verif.Model.Addrlist
/-!
# Statistics of queries, and the summary printed when the program exits
(src/counters.c, src/addrlist.c, include/liballocs.h:608-655, include/generic_malloc_index.h:660-843,
src/allocators/alloca.c:50-81, src/allocators/generic_small.c:792-846, src/allocators/static-symbol.c:264-383,
src/allocators/stackframe.c:173-354, src/lifetime_policies.c:179-200)

A query is reduced to what its counting depends on: which allocator answers, whether the object is found there, and which outputs
the caller asked for. Where the objects are is the subject of other parts of the model.

Simplifications: the counters are unbounded; a wild address is never repaired (`__liballocs_notify_unindexed_address` answers 0);
the entries of `generic_small` always hold an allocation site (the other form is `assert(0)`, generic_small.c:832);
`find` gives the type stored for an allocation site, `none` for a missing entry or one without a type; the formatting of an
address (src/util.c:8-24) is a parameter.
-/
namespace Liballocs.Stats

open Liballocs.Addrlist (St contains add)

/-- The ten counters (src/counters.c:33-42). -/
inductive Ctr
  | abortedStack | abortedStatic | abortedUnknown | hitHeap | hitAlloca | hitStack | hitStatic
  | abortedUnindexedHeap | abortedUnindexedAlloca | abortedUnrecognised
deriving DecidableEq, Repr

/-- The errors a query can return (src/counters.c:10-27), without the two that only stack walking knows. -/
inductive Err
  | unknownStorage | stackWalk (k : Nat) | unindexedHeap | unindexedAlloca | unrecognisedSite | unrecognisedStatic
deriving DecidableEq, Repr

/-- What is stored with a heap or `alloca` object: its allocation site, or a type (`none` for 0)
(include/generic_malloc_index.h:766-795). -/
inductive Ins
  | site (a : Nat)
  | typed (t : Option Nat)
deriving DecidableEq, Repr

/-- Who answers a query, and whether it finds the object. Heap and `alloca` objects are numbered by their stored data, objects of
`generic_small` given by their allocation site. -/
inductive Target
  | wild
  | stack (err : Option Nat)
  | static (found : Bool)
  | heap (o : Option Nat)
  | alloca (o : Option Nat)
  | small (o : Option Nat)
  | other
deriving DecidableEq, Repr

/-- A call: of `__liballocs_get_alloc_info`, asking for the type, for the site; or of `try_get_alloc_type` by the library itself;
or of `get_name` for a static object (static-symbol.c:396-398). -/
inductive Call
  | info (t : Target) (wantType wantSite : Bool)
  | tryType (t : Target)
  | staticName (found : Bool)
deriving DecidableEq, Repr

structure State where
  ctr : Ctr → Nat
  sites : St
  ins : Nat → Ins

/-- `++counter`. -/
def bump (c : Ctr) (s : State) : State := { s with ctr := fun d => if d = c then s.ctr d + 1 else s.ctr d }

/-- The lines which remember a site without a type (include/generic_malloc_index.h:781-785, generic_small.c:823-827);
`none`: an access outside the list's array. -/
def remember (junk : Nat) (find : Nat → Option Nat) (a : Nat) (s : State) : Option State :=
  if find a = none ∧ a ≠ 0 then
    match contains s.sites a with
    | none => none
    | some 0 => (add junk s.sites a).map (fun l => { s with sites := l })
    | some _ => some s
  else some s

/-- Store data for an object. -/
def setIns (o : Nat) (i : Ins) (s : State) : State := { s with ins := fun p => if p = o then i else s.ins p }

/-- `extract_and_output_alloc_site_and_type` (include/generic_malloc_index.h:735-843) for an object whose data exists: `opt` is a
build with `NDEBUG`, which stores the type found, or none. -/
def extract (opt : Bool) (junk : Nat) (find : Nat → Option Nat) (o : Nat) (s : State) : Option (State × Option Err) :=
  match s.ins o with
  | .typed (some _) => some (s, none)
  | .typed none =>
    some (bump .abortedUnrecognised (if opt = true then setIns o (.typed none) s else s), some .unrecognisedSite)
  | .site a =>
    match remember junk find a s with
    | none => none
    | some s₁ =>
      let s₂ := if opt = true then setIns o (.typed (find a)) s₁ else s₁
      match find a with
      | some _ => some (s₂, none)
      | none => some (bump .abortedUnrecognised (if opt = true then setIns o (.typed none) s₂ else s₂), some .unrecognisedSite)

/-- `get_info` of the allocator which answers, with `__liballocs_get_alloc_info` around it. -/
def getInfo (opt : Bool) (junk : Nat) (find : Nat → Option Nat) (t : Target) (wantType wantSite : Bool) (s : State) :
    Option (State × Option Err) :=
  match t with
  -- include/liballocs.h:630-647
  | .wild => some (bump .abortedUnknown s, some .unknownStorage)
  -- src/allocators/stackframe.c:173-177, 348-354
  | .stack none => some (bump .hitStack s, none)
  | .stack (some e) => some (bump .abortedStack (bump .hitStack s), some (.stackWalk e))
  -- src/allocators/static-symbol.c:264-266, 353-383
  | .static true => some (bump .hitStatic s, none)
  | .static false => some (bump .abortedStatic (bump .hitStatic s), some .unrecognisedStatic)
  -- include/generic_malloc_index.h:660-712
  | .heap none => some (bump .abortedUnindexedHeap (bump .hitHeap s), some .unindexedHeap)
  | .heap (some o) =>
    if wantType = true ∨ wantSite = true then extract opt junk find o (bump .hitHeap s) else some (bump .hitHeap s, none)
  -- src/allocators/alloca.c:50-81
  | .alloca none => some (bump .abortedUnindexedAlloca (bump .hitAlloca s), some .unindexedAlloca)
  | .alloca (some o) =>
    if wantType = true ∨ wantSite = true then extract opt junk find o (bump .hitAlloca s) else some (bump .hitAlloca s, none)
  -- src/allocators/generic_small.c:792-846
  | .small none => some (bump .abortedUnindexedHeap s, some .unindexedHeap)
  | .small (some a) =>
    if wantType = true then
      match remember junk find a s with
      | none => none
      | some s₁ =>
        match find a with
        | some _ => some (s₁, none)
        | none => some (bump .abortedUnrecognised s₁, some .unrecognisedSite)
    else some (s, none)
  -- the others keep no statistics
  | .other => some (s, none)

/-- One call, with what it returns: the error of a query, if any. -/
def step (opt : Bool) (junk : Nat) (find : Nat → Option Nat) (s : State) : Call → Option (State × Option Err)
  | .info t ty si => getInfo opt junk find t ty si s
  -- src/lifetime_policies.c:179-200: no allocator, no query; the list's length is put back
  | .tryType .wild => some (s, none)
  | .tryType t =>
    match getInfo opt junk find t true false s with
    | none => none
    | some (s₁, e) => some ({ s₁ with sites := { s₁.sites with count := s.sites.count } }, e)
  | .staticName true => some (bump .hitStatic s, none)
  | .staticName false => some (bump .abortedStatic (bump .hitStatic s), none)

/-- A history of calls, with what each returned. -/
def run (opt : Bool) (junk : Nat) (find : Nat → Option Nat) (s : State) : List Call → Option (State × List (Call × Option Err))
  | [] => some (s, [])
  | c :: cs =>
    match step opt junk find s c with
    | none => none
    | some (s₁, e) =>
      match run opt junk find s₁ cs with
      | none => none
      | some (s₂, tr) => some (s₂, (c, e) :: tr)

/-- At the start (src/counters.c:8, 33-42), with any data stored for the objects. -/
def init (ins : Nat → Ins) : State := ⟨fun _ => 0, Addrlist.empty, ins⟩

/-! ## The summary -/

abbrev Text := List Char

/-- A decimal digit. -/
def digit (n : Nat) : Char := Char.ofNat (48 + n)

/-- Decimal digits, first digit first, of a number of at most `k + 1` digits. -/
def decGo : Nat → Nat → Text
  | 0, n => [digit (n % 10)]
  | k + 1, n => if n < 10 then [digit n] else decGo k (n / 10) ++ [digit (n % 10)]

def dec (n : Nat) : Text := decGo n n

/-- `% 9ld` for a number that is not negative: a space, the digits, and spaces before them up to nine characters. -/
def field9 (n : Nat) : Text := List.replicate (9 - (dec n).length - 1) ' ' ++ ' ' :: dec n

/-- The ten lines with numbers, in order, the third group of five after a rule (src/counters.c:53-63). -/
def numbered : List (String × Ctr) :=
  [("queries aborted for unknown storage:       ", .abortedUnknown),
   ("queries handled by static case:            ", .hitStatic),
   ("queries handled by stack case:             ", .hitStack),
   ("queries handled by heap case:              ", .hitHeap),
   ("queries handled by alloca case:            ", .hitAlloca),
   ("queries aborted for unindexed heap:        ", .abortedUnindexedHeap),
   ("queries aborted for unknown heap allocsite:", .abortedUnrecognised),
   ("queries aborted for unindexed alloca:      ", .abortedUnindexedAlloca),
   ("queries aborted for unknown stackframes:   ", .abortedStack),
   ("queries aborted for unknown static obj:    ", .abortedStatic)]

/-- One of these lines. -/
def numLine (s : State) (lc : String × Ctr) : Text := lc.1.toList ++ field9 (s.ctr lc.2) ++ ['\n']

def bar (c : Char) : Text := List.replicate 52 c ++ ['\n']

/-- The condition on which anything is printed (src/counters.c:47-48). -/
def anyQuery (s : State) : Bool :=
  s.ctr .abortedUnknown + s.ctr .hitStatic + s.ctr .hitStack + s.ctr .hitHeap + s.ctr .hitAlloca > 0

/-- The loop over the first `count` addresses (src/counters.c:65-73). `none`: a read outside the array. -/
def siteLines (fmt : Nat → Text) (l : St) : Option (List Text) :=
  if l.count ≤ l.store.length then
    some (if l.count = 0 then [] else
      "Saw the following unrecognised heap alloc sites: \n".toList :: (l.store.take l.count).map fmt)
  else none

/-- `print_exit_summary` up to its dump of the memory map (src/counters.c:45-74): one text for each `fprintf`. -/
def summary (fmt : Nat → Text) (s : State) : Option (List Text) :=
  if anyQuery s = true then
    match siteLines fmt s.sites with
    | none => none
    | some ls =>
      some ([bar '=', "liballocs summary: \n".toList, bar '-'] ++ (numbered.take 5).map (numLine s) ++ [bar '-']
        ++ (numbered.drop 5).map (numLine s) ++ [bar '='] ++ ls)
  else some []

end Liballocs.Stats
