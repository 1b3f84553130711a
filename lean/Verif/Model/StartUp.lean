/-!
# Start-up (src/init.c, src/allocators/mmap.c, static-file.c, static-segment.c, static-symbol.c, brk.c, stack.c, auxv.c)

Each part has an initialiser, which is a constructor and is also called by other initialisers and from hooks.  Flags keep an initialiser from running twice.

Simplifications.  What an initialiser does by itself is an opaque piece of work.  While it does it, anything may be called again from hooks: this is given
from outside (`reent`).  `__runt_files_init`, `__libdlbind_do_init` and `__runt_auxv_init` are external; the first is taken to guard itself.
`__pageindex_init` is taken to be guarded from its start (the code tests the index itself).  Threads are left out.
-/
namespace Liballocs.StartUp

/-- The initialisers. -/
inductive Fn where
  | pageindex
  | mmap
  | brk
  | runt
  | global
  | file
  | auxv
  | segment
  | symbol
  | stack
  | frame
  deriving DecidableEq

/-- What they do. -/
inductive Work where
  | mapIndex
  | addMappings
  | makeBrk
  | readFiles
  | startTraps
  | loadMeta
  | makeDlbind
  | makeTypes
  | setUp
  | findAuxv
  | readLimit
  | none
  deriving DecidableEq

inductive Cmd where
  | work (w : Work)
  | call (f : Fn)
  deriving DecidableEq

/-- The bodies.  `traps`: whether system calls are trapped (src/systrap.c, or src/systrap_noop.c). -/
def body (traps : Bool) : Fn → List Cmd
  -- src/pageindex.c:382-462
  | .pageindex => [.work .mapIndex]
  -- src/allocators/mmap.c:988-1120, with `__liballocs_post_systrap_init`, src/init.c:129-140
  | .mmap => [.call .pageindex, .work .addMappings, .call .brk, .call .runt, .work .startTraps, .work .loadMeta] ++
      (if traps then [.call .brk, .work .makeDlbind, .work .makeTypes] else []) ++ [.call .global]
  -- src/allocators/brk.c:199-218
  | .brk => [.work .makeBrk]
  | .runt => [.work .readFiles]
  -- src/init.c:60-127
  | .global => [.work .setUp, .call .mmap, .call .file]
  -- src/allocators/static-file.c:63-122
  | .file => [.call .runt, .call .mmap, .call .auxv]
  -- src/allocators/auxv.c:38-45
  | .auxv => [.work .findAuxv]
  -- src/allocators/static-segment.c:23-39 (see `exec`)
  | .segment => []
  -- src/allocators/static-symbol.c:23-35
  | .symbol => [.call .mmap, .call .segment]
  -- src/allocators/stack.c:39-61
  | .stack => [.work .readLimit]
  -- src/allocators/stackframe.c:42-120
  | .frame => []

inductive Status where
  | fresh
  | trying
  | done
  deriving DecidableEq

/-- What happened: work, or an initialiser said that it is done. -/
inductive Event where
  | work (w : Work)
  | fin (f : Fn)
  deriving DecidableEq

/-- What may be called from hooks or by the program: an initialiser, or something that begins with `__liballocs_ensure_init`. -/
inductive Entry where
  | init (f : Fn)
  | ensure
  deriving DecidableEq

/-- `reent` tells what is called from hooks during each piece of work still to come. -/
structure St where
  status : Fn → Status
  trace : List Event
  reent : List (List Entry)

inductive Res where
  | ok (s : St)
  | abort
  | fuel

def Res.bind : Res → (St → Res) → Res
  | .ok s, k => k s
  | .abort, _ => .abort
  | .fuel, _ => .fuel

def St.set (s : St) (f : Fn) (x : Status) : St := { s with status := fun g => if g = f then x else s.status g }

def St.log (s : St) (e : Event) : St := { s with trace := s.trace ++ [e] }

/-- A call from a hook or by the program.  `__liballocs_ensure_init` (include/liballocs.h:231-242) fails an assertion if
`__liballocs_global_init` returns -1, which it does if it is already running (src/init.c:66-67). -/
def enter (call : St → Fn → Res) (s : St) : Entry → Res
  | .init f => call s f
  | .ensure => if s.status .global = .trying then .abort else call s .global

def enterAll (call : St → Fn → Res) : List Entry → St → Res
  | [], s => .ok s
  | e :: es, s => (enter call s e).bind (enterAll call es)

/-- A piece of work, with what is called from hooks meanwhile. -/
def work (call : St → Fn → Res) (w : Work) (s : St) : Res :=
  match s.reent with
  | [] => .ok (s.log (.work w))
  | es :: rest => enterAll call es { s.log (.work w) with reent := rest }

def runCmd (call : St → Fn → Res) (s : St) : Cmd → Res
  | .work w => work call w s
  | .call f => call s f

def runCmds (call : St → Fn → Res) : List Cmd → St → Res
  | [], s => .ok s
  | c :: cs, s => (runCmd call s c).bind (runCmds call cs)

/-- Calling an initialiser.  All test the flags first.  The one for segments calls that for files before it sets a flag (static-segment.c:33-34). -/
def exec (traps : Bool) : Nat → St → Fn → Res
  | 0, _, _ => .fuel
  | fuel + 1, s, f =>
    if s.status f ≠ .fresh then .ok s
    else if f = .segment then (exec traps fuel s .file).bind fun s => .ok (s.set .segment .done)
    else (runCmds (exec traps fuel) (body traps f) (s.set f .trying)).bind fun s => .ok ((s.set f .done).log (.fin f))

/-- A run of the program: the constructors and calls by the program, in some order. -/
def run (traps : Bool) (fuel : Nat) (es : List Entry) (s : St) : Res := enterAll (exec traps fuel) es s

def start (reent : List (List Entry)) : St := ⟨fun _ => .fresh, [], reent⟩

end Liballocs.StartUp
