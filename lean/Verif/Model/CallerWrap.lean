/-!
# Caller-side wrappers of allocation functions (tools/stubgen.h)

What a thread does is a program built from calls of wrapped allocation and freeing functions and from the events that the
indexing code sees. Simplifications: one thread; the addresses of the five thread-local variables are not null; return
addresses and functions are non-zero numbers; the check that a suballocating function always indexes at the same level
(tools/stubgen.h:316-317) is left out; `INSERT_TYPE` has 8 bytes; `longjmp` goes to the nearest enclosing `guard`.
-/
namespace Liballocs.CallerWrap

/-- The thread-local variables (tools/stubgen.h:10-14, src/allocsites.c:24-28). -/
structure St where
  site : Nat
  fn : Nat
  sz : Nat
  freeing : Bool
  allocating : Bool
  deriving DecidableEq

/-- What the indexing code is told or records, with the two flags at that moment. -/
inductive Log where
  | index (ptr site size : Nat) (allocating freeing : Bool)
  | suballoc (ptr site size : Nat) (allocating freeing : Bool)
  | unindex (ptr : Nat) (allocating freeing : Bool)
  deriving DecidableEq

/-- What a thread does. -/
inductive Prog where
  /-- return -/
  | ret
  /-- the underlying allocator has allocated: pointer, requested size, its caller -/
  | alloc (ptr size caller : Nat) (rest : Prog)
  /-- the underlying allocator has resized: pointer, modified size, its caller -/
  | resize (ptr modified caller : Nat) (rest : Prog)
  /-- call a wrapped allocation function `fn` from return address `ra` with the captured argument `size`. `leave` for
  functions declared as "allocsz"; `sub` is the pointer returned by a suballocating function. -/
  | call (fn ra size : Nat) (leave : Bool) (sub : Option Nat) (body rest : Prog)
  /-- call a wrapped freeing function; `sub` is the pointer given to a subfreeing function. -/
  | free (sub : Option Nat) (body rest : Prog)
  /-- `setjmp`, then `body`, then `rest` -/
  | guard (body rest : Prog)
  /-- `longjmp` -/
  | jump

/-- How a program ends: the thread-local variables, what was indexed, and whether a `longjmp` is under way. -/
abbrev Res := St × List Log × Bool

/-- Go on with the rest, unless a `longjmp` is under way. -/
def andThen (r : Res) (k : St → Res) : Res :=
  if r.2.2 then r else ((k r.1).1, r.2.1 ++ (k r.1).2.1, (k r.1).2.2)

/-- The site recorded for a heap allocation (tools/stubgen.h:354, include/generic_malloc_index.h:548, 567). -/
def siteFor (s : St) (caller : Nat) : Nat := if s.site ≠ 0 then s.site else caller

/-- The size recorded for a reallocation (tools/stubgen.h:423-424). -/
def resizeFor (s : St) (modified : Nat) : Nat := if s.sz ≠ 0 then s.sz else modified - 8

/-- `make_caller_wrapper` before the call (tools/stubgen.h:214-228). -/
def enter (s : St) (fn ra size : Nat) : St :=
  if s.fn = 0 then
    { s with allocating := true, site := if s.site = 0 then ra else s.site, fn := fn, sz := size }
  else s

/-- `make_caller_wrapper` after the call (tools/stubgen.h:234-243); `s` is the state on entry. -/
def leave (s s' : St) (keep : Bool) : St :=
  if s.fn = 0 then
    { s' with site := 0, fn := 0, sz := if keep then s'.sz else 0, allocating := if s.allocating then s'.allocating else false }
  else s'

/-- `__wrap___real_...` of a suballocating function after the call (tools/stubgen.h:311-319 with
src/allocators/generic_small.c:320). -/
def indexSub (s : St) : Option Nat → List Log
  | none => []
  | some p => [.suballoc p s.site s.sz s.allocating s.freeing]

/-- `__wrap___real_...` of a subfreeing function before the call (tools/stubgen.h:324-329). -/
def unindexSub (s : St) : Option Nat → List Log
  | none => []
  | some p => [.unindex p s.allocating s.freeing]

/-- Run a program. -/
def exec : Prog → St → Res
  | .ret, s => (s, [], false)
  | .alloc ptr size caller rest, s =>
    andThen (s, [.index ptr (siteFor s caller) size s.allocating s.freeing], false) (exec rest)
  | .resize ptr modified caller rest, s =>
    andThen (s, [.index ptr (siteFor s caller) (resizeFor s modified) s.allocating s.freeing], false) (exec rest)
  | .call fn ra size keep sub body rest, s =>
    andThen
      (andThen (exec body (enter s fn ra size)) fun s' => (leave s s' keep, indexSub s' sub, false))
      (exec rest)
  -- `make_free_wrapper` (tools/stubgen.h:275-293)
  | .free sub body rest, s =>
    andThen
      (andThen
        (andThen ({ s with freeing := true }, unindexSub { s with freeing := true } sub, false) (exec body))
        fun s' => ({ s' with freeing := if s.freeing then s'.freeing else false }, [], false))
      (exec rest)
  | .guard body rest, s =>
    andThen ((exec body s).1, (exec body s).2.1, false) (exec rest)
  | .jump, s => (s, [], true)

end Liballocs.CallerWrap
