/-
Model of the address list (src/addrlist.c:13-33, src/liballocs_private.h:166-171).
-/
namespace Liballocs.Addrlist

/-- `struct addrlist`.  `store` is the array behind `addrs`: exactly `store.length` slots exist.
Simplification: `count` and `allocsz` do not wrap at 2^32. -/
structure St where
  count : Nat
  allocsz : Nat
  store : List Nat
deriving DecidableEq, Repr

/-- The zero-initialised list. -/
def empty : St := ⟨0, 0, []⟩

/-- The loop of `__liballocs_addrlist_contains` (src/addrlist.c:15-19) from index `i` with `n`
iterations left.  `none` is an out-of-bounds read. -/
def scan (store : List Nat) (addr i : Nat) : Nat → Option Nat
  | 0 => some 0
  | n + 1 =>
    match store[i]? with
    | none => none
    | some a => if a = addr then some (1 + i) else scan store addr (i + 1) n

/-- `__liballocs_addrlist_contains` (src/addrlist.c:13-20). -/
def contains (s : St) (addr : Nat) : Option Nat := scan s.store addr 0 s.count

/-- `__private_realloc` to `n` slots: keeps the common prefix, new slots hold `junk`. -/
def grow (store : List Nat) (n junk : Nat) : List Nat :=
  store.take n ++ List.replicate (n - store.length) junk

/-- `__liballocs_addrlist_add` (src/addrlist.c:22-33).  `none` is an out-of-bounds write. -/
def add (junk : Nat) (s : St) (addr : Nat) : Option St :=
  let s₁ := if s.count = s.allocsz then
      { s with allocsz := (s.allocsz + 1) * 2, store := grow s.store ((s.allocsz + 1) * 2) junk }
    else s
  if s₁.count < s₁.store.length then
    some { s₁ with store := s₁.store.set s₁.count addr, count := s₁.count + 1 }
  else none

/-- A history of additions. -/
def addAll (junk : Nat) : St → List Nat → Option St
  | s, [] => some s
  | s, a :: as => (add junk s a).bind (fun s' => addAll junk s' as)

end Liballocs.Addrlist
