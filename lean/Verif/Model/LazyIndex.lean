/-!
# The page index is mapped piece by piece on first access (src/pageindex.c:256-385, 429-445)

The index is a large region mapped to an empty file, so touching it raises SIGBUS; the handler maps anonymous memory over a piece
of the region and the access is retried.

Simplifications: memory is given cell by cell, a cell being whatever an access touches as one (it lies within one page);
`raw_mmap` with `MAP_FIXED` succeeds (otherwise the handler aborts); one access is handled at a time.
-/
namespace Liballocs.LazyIndex

/-- A cell of memory: not yet backed (an access raises SIGBUS), or with contents. -/
inductive Cell
  | lazy
  | data (v : Nat)
  deriving DecidableEq

/-- `struct deferred_mapping`, as far as used (src/pageindex.c:259-268). -/
structure Region where
  begin : Nat
  size : Nat

/-- Memory, and whether the library's handler is installed. -/
structure State where
  mem : Nat → Cell
  handler : Bool

/-- `find_deferred_mapping` (src/pageindex.c:285-297) over the used part of the table. -/
def find (rs : List Region) (addr : Nat) : Option Region :=
  rs.find? (fun r => decide (r.begin ≤ addr) && decide (addr < r.begin + r.size))

/-- `RELF_ROUND_DOWN_(a, u)` (external relf.h macro). -/
def roundDown (a u : Nat) : Nat := a / u * u

/-- The beginning of the piece to map (src/pageindex.c:328-331). -/
def pieceBegin (r : Region) (u addr : Nat) : Nat := Nat.max r.begin (roundDown addr u)

/-- `raw_mmap` of `u` bytes of anonymous memory at a fixed address (src/pageindex.c:337-338): contents are replaced by zeros. -/
def mapAnon (mem : Nat → Cell) (base u : Nat) : Nat → Cell :=
  fun a => if base ≤ a ∧ a < base + u then .data 0 else mem a

/-- `deferred_mapping_handle_signal` (src/pageindex.c:302-362), `u` being `DEFERRED_MAPPING_UNIT`: map a piece, or restore
the previous handler. -/
def handle (rs : List Region) (u : Nat) (s : State) (addr : Nat) : State :=
  match find rs addr with
  | some r => { s with mem := mapAnon s.mem (pieceBegin r u addr) u }
  | none => { s with handler := false }

/-- The state in which an access to a cell succeeds: at most one fault is taken. `none` if the process gets a signal that is not
the library's to handle. -/
def touch (rs : List Region) (u : Nat) (s : State) (addr : Nat) : Option State :=
  match s.mem addr with
  | .data _ => some s
  | .lazy =>
    if s.handler then
      match (handle rs u s addr).mem addr with
      | .data _ => some (handle rs u s addr)
      | .lazy => none
    else none

/-- An access. -/
inductive Access
  | load (addr : Nat)
  | store (addr v : Nat)

/-- The cell accessed. -/
def Access.addr : Access → Nat
  | .load a => a
  | .store a _ => a

/-- Contents, if backed. -/
def contents : Cell → Option Nat
  | .lazy => none
  | .data v => some v

/-- One access and what it reads (a store reads nothing, given as 0). -/
def access (rs : List Region) (u : Nat) (s : State) : Access → Option (State × Nat)
  | .load a => (touch rs u s a).bind (fun s' => (contents (s'.mem a)).map (fun v => (s', v)))
  | .store a v => (touch rs u s a).map (fun s' => ({ s' with mem := fun x => if x = a then .data v else s'.mem x }, 0))

/-- A history of accesses and all that was read. -/
def run (rs : List Region) (u : Nat) : State → List Access → Option (State × List Nat)
  | s, [] => some (s, [])
  | s, x :: xs =>
    match access rs u s x with
    | none => none
    | some (s', v) => (run rs u s' xs).map (fun r => (r.1, v :: r.2))

/-- The table of regions in the library (src/pageindex.c:271-283), with `PAGEINDEX_ADDRESS` (include/pageindex.h:7),
two-byte entries, user addresses below 2^47 and 4096-byte pages. -/
def regions : List Region := [⟨0x410000000000, 2 * (2 ^ 47 / 4096)⟩]

/-- `COMMON_HUGEPAGE_SIZE` (external vas.h): two megabytes. -/
def UNIT : Nat := 2 ^ 21

end Liballocs.LazyIndex
