import Verif.Model.InlineCache
import Verif.Props.PageIndexFails
/-!
# C75 A type query with an inline cache answers as one without
-/
namespace Liballocs.InlineCache

open PageIndex

/-! ## Specification -/

/-- The same queries without cache. -/
def plain (c : Config) (w : World) : List (State × Nat) → Option (List Nat)
  | [] => some []
  | x :: xs =>
    match getType c w x.1 x.2 with
    | none => none
    | some r => (plain c w xs).map (r :: ·)

/-- Addresses on pages with the same entry, at whatever times, are in the charge of the same allocator. -/
def Stable (c : Config) (l : List (State × Nat)) : Prop :=
  ∀ x ∈ l, ∀ y ∈ l, entry x.1 (pagenum x.2) = entry y.1 (pagenum y.2) → entry x.1 (pagenum x.2) ≠ 0 → leafAllocator c x.1 x.2 = leafAllocator c y.1 y.2

/-- Every object asked about is known to the allocator in charge. -/
def Known (c : Config) (w : World) (l : List (State × Nat)) : Prop := ∀ x ∈ l, ∀ a, leafAllocator c x.1 x.2 = some a → a ≠ 0 → w.ok a x.2 = true

/-- The allocators in charge of the objects asked about can be asked for a type alone. -/
def Callable (c : Config) (w : World) (l : List (State × Nat)) : Prop := ∀ x ∈ l, ∀ a, leafAllocator c x.1 x.2 = some a → a ≠ 0 → w.callable a = true

/-- All big allocations begin and end at page boundaries. -/
def Aligned (s : State) : Prop := ∀ n, Live s n → s.beg n % PAGE = 0 ∧ s.fin n % PAGE = 0

/-! ## Proofs -/

theorem queries_eq {c : Config} {w : World} (all : List (State × Nat)) (hst : Stable c all) (hk : Known c w all) (hcl : Callable c w all) :
    ∀ (l : List (State × Nat)) (slot : Slot), (∀ x ∈ l, x ∈ all) →
      (slot.num = 0 ∨ (slot.alloc ≠ 0 ∧ ∃ y ∈ all, entry y.1 (pagenum y.2) = slot.num ∧ leafAllocator c y.1 y.2 = some slot.alloc)) →
      queries c w slot l = plain c w l := by
  intro l
  induction l with
  | nil => intro slot _ _; rfl
  | cons x l ih =>
    intro slot hin hs
    have hx := hin x (List.mem_cons_self ..)
    have hrest : ∀ y ∈ l, y ∈ all := fun y hy => hin y (List.mem_cons_of_mem _ hy)
    rw [queries, plain]
    unfold inline
    by_cases hc : slot.num ≠ 0 ∧ entry x.1 (pagenum x.2) = slot.num
    · rw [if_pos hc]
      rcases hs with h0 | ⟨ha, y, hy, e1, e2⟩
      · exact absurd h0 hc.1
      · have e := hst x hx y hy (hc.2.trans e1.symm) (by rw [hc.2]; exact hc.1)
        rw [e2] at e
        have hg : getType c w x.1 x.2 = some (if w.ok slot.alloc x.2 then w.ty slot.alloc x.2 else 0) := by
          unfold getType; rw [e]; simp [ha]
        rw [hg, hcl y hy _ e2 ha]
        simp only [if_true]
        rw [ih slot hrest (Or.inr ⟨ha, y, hy, e1, e2⟩)]
    · rw [if_neg hc]
      unfold fill getType
      cases hl : leafAllocator c x.1 x.2 with
      | none => rfl
      | some a =>
        simp only [Option.map_some]
        by_cases ha : a = 0
        · simp only [ha, if_true]
          rw [ih slot hrest hs]
        · have hok := hk x hx a hl ha
          simp only [ha, if_false, hok, if_true]
          rw [ih _ hrest (Or.inr ⟨ha, x, hx, rfl, hl⟩)]

/-! ## The property -/

/-- Queries at one place, in whatever states of the tree: as long as a big allocation number stands for one allocator, no query fails,
and the allocators have a usable `get_type`, the answers are those of queries without cache. -/
theorem cached_partial {c : Config} {w : World} (l : List (State × Nat)) (hst : Stable c l) (hk : Known c w l) (hcl : Callable c w l) :
    queries c w ⟨0, 0⟩ l = plain c w l :=
  queries_eq l hst hk hcl l ⟨0, 0⟩ (fun _ h => h) (Or.inl rfl)

/-- In a reachable tree of page-aligned big allocations a number does stand for one allocator. -/
theorem aligned_stable {c : Config} {align : Nat → Nat} {s : State} (hr : Reach c align s) (hal : Aligned s) (objs : List Nat) :
    Stable c (objs.map (fun o => (s, o))) := by
  obtain ⟨_, kids, rank, h⟩ := reach_good hr
  have key : ∀ o, leafBig c s o = some (entry s (pagenum o)) := by
    intro o
    rw [h.leafBig_eq, h.deepest_iff]
    have hcov : ∀ n, Live s n → Has s n o → Covers s n (pagenum o) := by
      intro n hn ho
      obtain ⟨h1, h2⟩ := hal n hn
      obtain ⟨h3, h4⟩ := ho
      unfold Covers pagenum
      have hP : PAGE = 4096 := rfl
      rw [hP] at h1 h2 ⊢
      omega
    rcases h.owner (pagenum o) with ⟨h0, hno⟩ | ⟨h0, hl, hc, hk⟩
    · rw [h0]
      exact Or.inl ⟨rfl, fun n hn ho => hno n hn (hcov n hn ho)⟩
    · exact h.deepestAt_of_kids hl (Inv.covers_has hc rfl) (fun x hx hp ho => hk x hx hp (hcov x hx ho))
  intro x hx y hy e hne
  obtain ⟨o1, _, rfl⟩ := List.mem_map.mp hx
  obtain ⟨o2, _, rfl⟩ := List.mem_map.mp hy
  simp only at e ⊢
  unfold leafAllocator
  rw [key o1, key o2, e]

/-! ## Concrete cases and what goes wrong -/

/-- An allocator without a usable `get_type`, like any malloc: the second query for one of its objects, at the same place, crashes. -/
theorem cached_crash_fails {c : Config} {w : World} {s : State} {x y a : Nat} (hx : leafAllocator c s x = some a) (ha : a ≠ 0) (hok : w.ok a x = true)
    (he : entry s (pagenum y) = entry s (pagenum x)) (hn : entry s (pagenum x) ≠ 0) (hc : w.callable a = false) :
    queries c w ⟨0, 0⟩ [(s, x), (s, y)] = none := by
  have h1 : inline c w s ⟨0, 0⟩ x = some (w.ty a x, ⟨a, entry s (pagenum x)⟩) := by
    unfold inline fill
    rw [if_neg (by simp), hx]
    simp [ha, hok]
  have h2 : inline c w s ⟨a, entry s (pagenum x)⟩ y = none := by
    unfold inline
    rw [if_pos ⟨hn, he⟩, hc]
    simp
  rw [queries, h1]
  simp only
  rw [queries, h2]
  rfl

/-- Allocator `a` gives every object the type `100 + a`, and knows all objects not in the page at `0x12000`. -/
def exWorld : World := ⟨fun a _ => 100 + a, fun _ o => o / 4096 != 0x12, fun _ => true⟩

/-- Create with a given allocator. -/
def mkBy (a lo hi : Nat) : Op := .new lo (hi - lo) 0 ⟨a, 0, 0, 0, 0, 0⟩

/-- Two neighbours. -/
def exOps : List Op := [mkBy 2 0x10000 0x12000, mkBy 3 0x12000 0x14000]

example : after dbg exOps (fun s => queries dbg exWorld ⟨0, 0⟩ [(s, 0x10010), (s, 0x11234), (s, 0x13000), (s, 0x30000)]) = some [102, 102, 103, 0] := by decide +kernel

example : after dbg exOps (fun s => queries dbg { exWorld with callable := fun a => a == 3 } ⟨0, 0⟩ [(s, 0x13000), (s, 0x13008)]) = some [103, 103] ∧
    after dbg exOps (fun s => queries dbg { exWorld with callable := fun a => a == 3 } ⟨0, 0⟩ [(s, 0x10010), (s, 0x10018)]) = none := by decide +kernel

/-- A query that fails leaves its allocator behind with the old number: the next object of the old big allocation is asked of the wrong
allocator. -/
theorem cached_error_fails : after dbg exOps (fun s => queries dbg exWorld ⟨0, 0⟩ [(s, 0x10010), (s, 0x12010), (s, 0x10010)]) = some [102, 0, 103] ∧
    after dbg exOps (fun s => plain dbg exWorld [(s, 0x10010), (s, 0x12010), (s, 0x10010)]) = some [102, 0, 102] := by decide +kernel

/-- Part of a page that belongs to a child is taken for the parent's. -/
theorem cached_subpage_fails : after dbg [mkBy 2 0x10000 0x12000, mkBy 3 0x10800 0x10900] (fun s => queries dbg exWorld ⟨0, 0⟩ [(s, 0x10010), (s, 0x10810)]) = some [102, 102] ∧
    after dbg [mkBy 2 0x10000 0x12000, mkBy 3 0x10800 0x10900] (fun s => plain dbg exWorld [(s, 0x10010), (s, 0x10810)]) = some [102, 103] := by decide +kernel

/-- A number that is used again, for another allocator's big allocation, is still taken for the old one's. -/
theorem cached_reuse_fails : after dbg [mkBy 2 0x10000 0x12000] (fun s =>
    after dbg [mkBy 2 0x10000 0x12000, .del 2, mkBy 3 0x10000 0x12000] (fun s' =>
      queries dbg exWorld ⟨0, 0⟩ [(s, 0x10010), (s', 0x10010)])) = some [102, 102] ∧
    after dbg [mkBy 2 0x10000 0x12000, .del 2, mkBy 3 0x10000 0x12000] (fun s' => getType dbg exWorld s' 0x10010) = some 103 := by decide +kernel

end Liballocs.InlineCache
