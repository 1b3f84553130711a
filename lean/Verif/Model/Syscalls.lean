/-!
# System calls made under the library (src/systrap.c:57-217, 269-274, 333-398; src/preload.c:183-330, 403-443)

Simplifications: the kernel is a parameter, a state machine answering the calls it is given; paths are left out of `open`,
as they are never altered; the address and caller of a system call are 64-bit words. Whether a caller is the library itself
(`IS_SELF_CALL`) and whether libdlbind has an open in progress are parameters.
-/
namespace Liballocs.Syscalls

abbrev Word := BitVec 64
abbrev Flags := BitVec 32

/-- The arguments of `mmap`. -/
structure Map where
  addr : Word
  len : Word
  prot : Flags
  flags : Flags
  fd : Flags
  off : Word
  deriving DecidableEq

/-- A system call as given to the kernel. -/
inductive Call
  | mmap (m : Map)
  | munmap (addr len : Word)
  | mremap (old oldLen newLen : Word) (flags : Flags) (new : Word)
  | mprotect (addr len : Word) (prot : Flags)
  | brk (addr : Word)
  | open' (flags mode : Flags)
  | openat (dir flags mode : Flags)
  | other (n : Nat)
  deriving DecidableEq

/-- What the library's allocators are told. -/
inductive Note
  | mmap (ret : Word) (m : Map) (caller : Word)
  | munmap (addr len caller : Word)
  | mremap (ret old oldLen newLen : Word) (flags : Flags) (new caller : Word)
  | mprotect (addr len : Word) (prot : Flags)
  | brk (ret caller : Word)
  deriving DecidableEq

/-- `isSelf` is `IS_SELF_CALL` (src/systrap.c:350-354); `ret` is the return address seen by the replacement functions, in the trap handler. -/
structure Env where
  dlbind : Bool
  isSelf : Word → Bool
  ret : Word

/-- `MMAP_RETURN_IS_ERROR` (include/pageindex.h:124-127). -/
def isError (p : Word) : Bool := decide ((BitVec.allOnes 64 - p).toNat < 4096)

/-- The start of the area for the library's own mappings (src/systrap.c:376). -/
def AREA : Word := 0x70fffffff000

/-- `local_liballocs_nudge_mmap` (src/systrap.c:342-380); the second component is `unhinted_self_call_mmap_area`. -/
def nudgeMmap (e : Env) (area : Word) (m : Map) (caller : Word) : Map × Word :=
  if e.dlbind then ({ m with flags := (m.flags &&& ~~~3#32) ||| 1#32 }, area)
  else if m.addr = 0 ∧ e.isSelf caller = true ∧ ¬ (m.flags &&& 0x10#32 ≠ 0 ∨ m.flags &&& 0x100000#32 ≠ 0) then
    ({ m with addr := area }, area + m.len)
  else (m, area)

/-- `__liballocs_nudge_open`, `__liballocs_nudge_openat` (src/systrap.c:382-398), with `O_RDONLY` 0 and `O_RDWR` 2. -/
def nudgeOpen (e : Env) (flags : Flags) : Flags :=
  if e.dlbind then (flags &&& ~~~2#32) ||| 2#32 else flags

/-- What a replacement does: the call performed, what to notify given the kernel's answer, and the area counter after. -/
structure Action where
  call : Call
  notes : Word → List Note
  area : Word

/-- `mmap_replacement` (src/systrap.c:74-102). -/
def mmapRepl (e : Env) (area : Word) (m : Map) (caller : Word) : Action :=
  let n := nudgeMmap e area m caller
  ⟨.mmap n.1, fun r => if isError r then [] else [.mmap r n.1 caller], n.2⟩

/-- `munmap_replacement` (src/systrap.c:105-120); the result is an `int`. -/
def munmapRepl (area : Word) (addr len caller : Word) : Action :=
  ⟨.munmap addr len, fun r => if r.setWidth 32 = 0 then [.munmap addr len caller] else [], area⟩

/-- `mremap_replacement` (src/systrap.c:123-164). -/
def mremapRepl (e : Env) (area : Word) (old oldLen newLen : Word) (flags : Flags) (new caller : Word) : Action :=
  let fixed := flags &&& 2#32 ≠ 0
  let want : Word := if fixed then new else BitVec.allOnes 64
  let addr : Word := if want = BitVec.allOnes 64 then 0 else want
  let n := nudgeMmap e area ⟨addr, newLen, 0, 0, BitVec.allOnes 32, 0⟩ e.ret
  let new' := if n.1.addr ≠ 0 then n.1.addr else new
  let flags' := if n.1.addr ≠ 0 then flags ||| 2#32 else flags
  ⟨.mremap old oldLen n.1.len flags' new',
    fun r => if isError r then [] else
      [.mremap r old oldLen n.1.len flags' (if flags' &&& 2#32 ≠ 0 then new' else BitVec.allOnes 64) caller], n.2⟩

/-- `brk_replacement` (src/systrap.c:58-71). -/
def brkRepl (area : Word) (addr caller : Word) : Action := ⟨.brk addr, fun r => [.brk r caller], area⟩

/-- The table `replaced_syscalls` as filled (src/systrap.c:269-274); a call not in it is performed as it is. -/
def action (e : Env) (area : Word) (c : Call) (caller : Word) : Action :=
  match c with
  | .mmap m => mmapRepl e area m caller
  | .munmap a l => munmapRepl area a l caller
  | .mremap o ol nl f n => mremapRepl e area o ol nl f n caller
  | .brk a => brkRepl area a caller
  | .open' f m => ⟨.open' (nudgeOpen e f) m, fun _ => [], area⟩
  | .openat d f m => ⟨.openat d (nudgeOpen e f) m, fun _ => [], area⟩
  | .mprotect a l p => ⟨.mprotect a l p, fun _ => [], area⟩
  | .other n => ⟨.other n, fun _ => [], area⟩

/-- A kernel: it answers a call and moves on. -/
structure Kernel (K : Type) where
  step : K → Call → K × Word

/-- A trapped call: the kernel's new state, the answer handed to the program by `post`, the notifications, the area counter. -/
def trap {K : Type} (k : Kernel K) (e : Env) (s : K) (area : Word) (c : Call) (caller : Word) : K × Word × List Note × Word :=
  let a := action e area c caller
  let r := k.step s a.call
  (r.1, r.2, a.notes r.2, a.area)

/-- What the library's `mmap` leaves: the answer, `errno` if set, the notifications. -/
structure Result where
  ret : Word
  errno : Option Nat
  notes : List Note
  deriving DecidableEq

/-- `BIGGEST_BIGALLOC` (include/pageindex.h:120-121, external vas.h): four gigabytes. -/
def BIGGEST : Nat := 2 ^ 32

/-- The tail of `mmap` (src/preload.c:206-210, 247-257), given the kernel's answer; `-(int)x` as the number it is for an error. -/
def preloadAfter (systrap : Bool) (m : Map) (caller r : Word) : Result :=
  let err := isError r
  let ret := if err then BitVec.allOnes 64 else r
  let errno := if err then some (0 - r).toNat else none
  if BIGGEST < m.len.toNat then ⟨ret, errno, []⟩
  else if isError ret then ⟨BitVec.allOnes 64, some (0 - ret).toNat, []⟩
  else if systrap then ⟨ret, errno, [.mmap ret m caller]⟩
  else ⟨ret, errno, []⟩

/-- `mmap` as the library defines it (src/preload.c:184-258). -/
def preloadMmap {K : Type} (k : Kernel K) (e : Env) (systrap : Bool) (s : K) (area : Word) (m : Map) (caller : Word) : K × Result × Word :=
  let n := nudgeMmap e area m caller
  let r := k.step s (.mmap n.1)
  (r.1, preloadAfter systrap n.1 caller r.2, n.2)

/-- A signal disposition: the library's own, or one of the program's. -/
abbrev Handler := Nat

/-- `SIGILL`. -/
def SIGILL : Nat := 4

/-- `SIGBUS`. -/
def SIGBUS : Nat := 7

/-- The program's requests about signals. -/
inductive SigCall
  | signal (n : Nat) (h : Handler)
  | sigaction (n : Nat) (act : Option Handler)
  deriving DecidableEq

/-- Answers: `SIG_ERR` with `ENOTSUP`, or the old disposition. -/
inductive SigRet
  | notsup
  | old (h : Handler)
  deriving DecidableEq

/-- The wrappers `signal` and `sigaction` (src/preload.c:403-443) over dispositions; the originals always succeed and `oldact`
is given. -/
def sigStep (d : Nat → Handler) : SigCall → (Nat → Handler) × SigRet
  | .signal n h => if n = SIGILL then (d, .notsup) else (fun x => if x = n then h else d x, .old (d n))
  | .sigaction n (some h) => if n = SIGILL then (d, .old (d SIGILL)) else (fun x => if x = n then h else d x, .old (d n))
  | .sigaction n none => (d, .old (d n))

/-- A history of signal requests. -/
def sigRun : (Nat → Handler) → List SigCall → (Nat → Handler) × List SigRet
  | d, [] => (d, [])
  | d, c :: cs => let r := sigStep d c; let rest := sigRun r.1 cs; (rest.1, r.2 :: rest.2)

end Liballocs.Syscalls
