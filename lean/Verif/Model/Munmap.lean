import Verif.Model.Fill
import Verif.Model.MapSeq
/-!
# Notification of `munmap` (src/allocators/mmap.c:526-613)

The known mappings are the top-level allocations of the mmap allocator, each with its mapping
sequence.  Simplifications: the set of top-level allocations is a list; looking one up, deleting,
truncating and splitting one are list operations (the page-index versions of those operations are
modelled separately); allocations inside the mappings are not represented; pointers are naturals.
-/
namespace Liballocs.Munmap
open MapSeq (Seq Res deleteSpan)

/-- A top-level allocation of the mmap allocator: bounds and `allocator_private` (include/pageindex.h:27-60). -/
structure Mapping where
  begin : Nat
  «end» : Nat
  seq : Seq

/-- Outcome of the notification. -/
inductive Out where
  | ok (st : List Mapping)
  | abort
  | spin

/-- `__lookup_bigalloc_from_root` with the mmap allocator (src/pageindex.c:1310-1394). -/
def lookup (st : List Mapping) (a : Nat) : Option Mapping :=
  st.find? (fun m => decide (m.begin ≤ a ∧ a < m.end))

/-- Replace the allocation `b` by others: none (delete, src/pageindex.c:1245-1257), one (truncate,
src/pageindex.c:1005-1054) or two (split, src/pageindex.c:1057-1119). -/
def subst (st : List Mapping) (b : Mapping) (repl : List Mapping) : List Mapping :=
  st.flatMap (fun m => if m.begin = b.begin then repl else [m])

/-- Pre-truncation (src/allocators/mmap.c:560-567). -/
def preTruncate (st : List Mapping) (b : Mapping) (cur rem : Nat) : Out :=
  match deleteSpan b.seq cur rem with
  | .ret _ s => .ok (subst st b [⟨cur + rem, b.end, s⟩])
  | _ => .abort

/-- Removal from the end (src/allocators/mmap.c:572-580). -/
def postTruncate (st : List Mapping) (b : Mapping) (cur : Nat) : Out :=
  match deleteSpan b.seq cur (b.end - cur) with
  | .ret _ s => .ok (subst st b [⟨b.begin, cur, s⟩])
  | _ => .abort

/-- A hole (src/allocators/mmap.c:581-603). -/
def hole (st : List Mapping) (b : Mapping) (addr eff : Nat) : Out :=
  match deleteSpan b.seq addr (b.end - addr), deleteSpan b.seq b.begin (addr + eff - b.begin) with
  | .ret _ s1, .ret _ s2 => .ok (subst st b [⟨b.begin, addr, s1⟩, ⟨addr + eff, b.end, s2⟩])
  | _, _ => .abort

/-- The loop of `do_munmap` (src/allocators/mmap.c:533-605). -/
def loop (addr eff : Nat) : Nat → Nat → Nat → List Mapping → Out
  | 0, _, _, _ => .spin
  | k + 1, cur, rem, st =>
    if cur < addr + eff then
      match lookup st cur with
      | none => loop addr eff k (cur + PAGE) (rem - PAGE) st
      | some b =>
        if cur = b.begin then
          if cur + rem ≥ b.end then
            loop addr eff k b.end (rem - (b.end - cur)) (subst st b [])
          else preTruncate st b cur rem
        else if cur + rem ≥ b.end then
          match postTruncate st b cur with
          | .ok st => loop addr eff k (cur + (b.end - cur)) (rem - (b.end - cur)) st
          | o => o
        else
          match hole st b addr eff with
          | .ok st => loop addr eff k cur rem st
          | o => o
    else .ok st

/-- `do_munmap` (src/allocators/mmap.c:526-606); the fuel is two rounds per page and one. -/
def munmap (st : List Mapping) (addr len : Nat) : Out :=
  let eff := roundUp len PAGE
  loop addr eff (2 * (eff / PAGE) + 2) addr eff st

end Liballocs.Munmap
