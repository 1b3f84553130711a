import Verif.Model.Specific
import Verif.Props.FileUnload
/-! # C184: Metadata of an allocator's own, and names of strings -/
namespace Liballocs.Specific

open PageIndex

/-! ## Metadata -/

/-- What is said for an address and an allocator is the private pointer of the outermost of the allocator's big allocations that have the address, or NULL if there is none. -/
theorem specific_exact {c : Config} {align : Nat → Nat} {s : State} (hr : Reach c align s) {a : Nat} (ha : a ≠ 0) (obj : Nat) :
    (∀ b, Live s b → Has s b obj → s.alloc b = a → (∀ x, Live s x → Has s x obj → s.alloc x = a → Anc s b x) → specific c s a obj = some (s.priv b)) ∧
    ((∀ x, Live s x → Has s x obj → s.alloc x ≠ a) → specific c s a obj = some 0) := by
  obtain ⟨r, e, h⟩ := (lookup_by_allocator hr obj a ha).1
  unfold specific
  rw [e, Option.map_some]
  constructor
  · intro b hb hh hal hout
    rcases h with ⟨_, h2⟩ | ⟨h2, h3, h4, h5⟩
    · exact absurd hal (h2 b hb hh)
    · obtain ⟨_, kids, rank, hinv⟩ := reach_good hr
      have : r = b := hinv.anc_antisymm (h5 b hb hh hal) (hout r h2 h3 h4) hb
      rw [if_neg (FileLoad.live_ne_zero hr h2), this]
  · intro hno
    rcases h with ⟨h0, _⟩ | ⟨h2, h3, h4, _⟩
    · rw [if_pos h0]
    · exact absurd h4 (hno r h2 h3)

/-- So it is the metadata of the allocation, if the allocation is big and in no other of the same allocator. Missing: allocations in others (`nested_fails`) and those that
are not big, for which it is NULL (`specific_exact`). -/
theorem own_partial {c : Config} {align : Nat → Nat} {s : State} (hr : Reach c align s) {a b obj : Nat} (ha : a ≠ 0) (hb : Live s b) (hh : Has s b obj)
    (hal : s.alloc b = a) (hu : ∀ x, Live s x → Has s x obj → s.alloc x = a → x = b) : specific c s a obj = some (s.priv b) :=
  (specific_exact hr ha obj).1 b hb hh hal (fun x hx hxo hxa => by rw [hu x hx hxo hxa]; exact .refl)

/-! ## Strings -/

/-- Strings one after the other, each with its terminator. -/
def packed : List (List Nat) → List Nat
  | [] => []
  | x :: l => x ++ 0 :: packed l

/-- Where a string starts. -/
def startOf : List (List Nat) → Nat → Nat
  | _, 0 => 0
  | [], _ + 1 => 0
  | x :: l, i + 1 => x.length + 1 + startOf l i

theorem cstr_append : ∀ {x : List Nat} (y : List Nat), 0 ∉ x → cstr (x ++ 0 :: y) = x
  | [], _, _ => by simp [cstr]
  | a :: x, y, h => by
    have h1 : a ≠ 0 := fun e => h (by rw [e]; exact List.mem_cons_self)
    have h2 : 0 ∉ x := fun m => h (List.mem_cons_of_mem _ m)
    have := cstr_append y h2
    unfold cstr at this ⊢
    rw [List.cons_append, List.takeWhile_cons, if_pos (by simpa using h1), this]

/-- What is read from a place in a string on is the rest of the string. -/
theorem read_rest : ∀ {l : List (List Nat)} {i k : Nat} {x : List Nat}, (∀ y ∈ l, 0 ∉ y) → l[i]? = some x → k ≤ x.length →
    cstr ((packed l).drop (startOf l i + k)) = x.drop k
  | [], i, _, _, _, h, _ => by cases i <;> cases h
  | y :: l, 0, k, x, hz, h, hk => by
    simp only [List.getElem?_cons_zero, Option.some.injEq] at h
    subst h
    have h0 : 0 ∉ y.drop k := fun m => hz y List.mem_cons_self (List.mem_of_mem_drop m)
    rw [packed, startOf, Nat.zero_add, List.drop_append_of_le_length hk]
    exact cstr_append _ h0
  | y :: l, i + 1, k, x, hz, h, hk => by
    have := read_rest (l := l) (i := i) (k := k) (x := x) (fun z hz' => hz z (List.mem_cons_of_mem _ hz')) (by simpa using h) hk
    rw [packed, startOf, show y ++ 0 :: packed l = (y ++ [0]) ++ packed l by simp,
      show y.length + 1 + startOf l i + k = (y ++ [0]).length + (startOf l i + k) by simp; omega, List.drop_length_add_append]
    exact this

/-- A sequence of strings in memory: one big allocation has the address, with these strings from `base` on. -/
structure Holds (s : State) (pk : Nat) (fam : Nat → Bool) (mem : Nat → List Nat) (base : Nat) (l : List (List Nat)) (obj : Nat) : Prop where
  there : ∃ b, Live s b ∧ Has s b obj ∧ s.sub b = pk
  sound : ∀ b, Live s b → Has s b obj → s.sub b = pk → s.subPriv b ≠ 0 ∧ fam (s.subPriv b) = true
  clean : ∀ y ∈ l, 0 ∉ y
  mem : mem obj = (packed l).drop (obj - base)

/-- The name is what is left of the string from the address on, and there is none if nothing is. -/
theorem name_rest {c : Config} {align : Nat → Nat} {s : State} (hr : Reach c align s) {pk base : Nat} (hp : pk ≠ 0) {fam : Nat → Bool} {mem : Nat → List Nat} {l : List (List Nat)}
    {i k : Nat} {x : List Nat} (hx : l[i]? = some x) (hk : k ≤ x.length) (h : Holds s pk fam mem base l (base + startOf l i + k)) :
    getName c s pk fam mem (base + startOf l i + k) = some (if x.drop k = [] then none else some (x.drop k)) := by
  obtain ⟨b, hb, hh, hs⟩ := h.there
  obtain ⟨r, e, h1⟩ := (lookup_by_allocator hr (base + startOf l i + k) pk hp).2
  have hn : stringName mem (base + startOf l i + k) = x.drop k := by
    unfold stringName
    rw [h.mem, show base + startOf l i + k - base = startOf l i + k by omega]
    exact read_rest h.clean hx hk
  rcases h1 with ⟨_, h2⟩ | ⟨h2, h3, h4, _⟩
  · exact absurd hs (h2 b hb hh)
  · obtain ⟨g1, g2⟩ := h.sound r h2 h3 h4
    unfold getName
    rw [e, Option.bind_some, if_neg (FileLoad.live_ne_zero hr h2), if_neg g1, if_pos g2, hn]
    by_cases h0 : x.drop k = []
    · rw [if_pos h0, if_pos h0]
    · rw [if_neg h0, if_neg h0]

/-- At the start of a string, the name is the string, and there is none if it is empty. Missing: other addresses in the string (`inside_never`), and those outside packed
sequences (`outside_aborts`). -/
theorem name_partial {c : Config} {align : Nat → Nat} {s : State} (hr : Reach c align s) {pk base : Nat} (hp : pk ≠ 0) {fam : Nat → Bool} {mem : Nat → List Nat} {l : List (List Nat)}
    {i : Nat} {x : List Nat} (hx : l[i]? = some x) (h : Holds s pk fam mem base l (base + startOf l i)) :
    (x ≠ [] → getName c s pk fam mem (base + startOf l i) = some (some x)) ∧ (x = [] → getName c s pk fam mem (base + startOf l i) = some none) := by
  have := name_rest (c := c) hr hp (k := 0) hx (Nat.zero_le _) h
  simp only [Nat.add_zero, List.drop_zero] at this
  rw [this]
  exact ⟨fun h0 => by rw [if_neg h0], fun h0 => by rw [if_pos h0]⟩

/-- **Fails** everywhere else in a string: what is said is not the name of the string. -/
theorem inside_never {c : Config} {align : Nat → Nat} {s : State} (hr : Reach c align s) {pk base : Nat} (hp : pk ≠ 0) {fam : Nat → Bool} {mem : Nat → List Nat} {l : List (List Nat)}
    {i k : Nat} {x : List Nat} (hx : l[i]? = some x) (h0 : 0 < k) (hk : k ≤ x.length) (h : Holds s pk fam mem base l (base + startOf l i + k)) :
    getName c s pk fam mem (base + startOf l i + k) ≠ some (some x) := by
  rw [name_rest hr hp hx hk h]
  by_cases h1 : x.drop k = []
  · rw [if_pos h1]; simp
  · rw [if_neg h1]
    intro e
    have := congrArg List.length (Option.some.inj (Option.some.inj e))
    rw [List.length_drop] at this
    omega

/-- Outside packed sequences the program is ended. -/
theorem outside_aborts {c : Config} {align : Nat → Nat} {s : State} (hr : Reach c align s) {pk : Nat} (hp : pk ≠ 0) (fam : Nat → Bool) (mem : Nat → List Nat) {obj : Nat}
    (hno : ∀ b, Live s b → Has s b obj → s.sub b ≠ pk) : getName c s pk fam mem obj = none := by
  obtain ⟨r, e, h1⟩ := (lookup_by_allocator hr obj pk hp).2
  unfold getName
  rw [e, Option.bind_some]
  rcases h1 with ⟨h0, _⟩ | ⟨h2, h3, h4, _⟩
  · rw [if_pos h0]
  · exact absurd h4 (hno r h2 h3)

/-! ## Cases -/

/-- A mapping with strings of packed sequences, by 21, and a chunk of malloc's, by 20, which is an arena for another chunk of malloc's. -/
def exOps : List Op := [.new 0x400000 0x10000 0 ⟨11, 0, 7, 8, 0, 0⟩, .setSub 2 21 77 0, .new 0x500000 0x10000 0 ⟨20, 0, 5, 0, 0, 0⟩, .setSub 3 20 0 0,
  .new 0x501000 0x8000 0 ⟨20, 0, 6, 0, 0, 0⟩]

def exStrings : List (List Nat) := [[], [104, 105], [], [120, 121, 122]]
def exMem (a : Nat) : List Nat := (packed exStrings).drop (a - 0x400000)

example : (List.range 4).map (startOf exStrings) = [0, 1, 4, 5] := by decide +kernel
example : packed exStrings = [0, 104, 105, 0, 0, 120, 121, 122, 0] := by decide +kernel
example : after FileLoad.cfg exOps (fun s => ([0, 1, 4, 5, 6].map (· + 0x400000)).mapM (getName FileLoad.cfg s 21 (· == 77) exMem)) =
    some [none, some [104, 105], none, some [120, 121, 122], some [121, 122]] := by decide +kernel
example : after FileLoad.cfg exOps (fun s => getName FileLoad.cfg s 21 (· == 77) exMem 0x500000) = none := by decide +kernel
/-- A mapping's metadata; none of malloc's there; none anywhere. -/
example : after FileLoad.cfg exOps (fun s => [(11, 0x400000), (20, 0x400000), (11, 0x700000), (20, 0x500000)].mapM (fun x => specific FileLoad.cfg s x.1 x.2)) =
    some [7, 0, 0, 5] := by decide +kernel

/-- **Fails** for a chunk in another: its metadata are 6, but those of the outer one are given. -/
theorem nested_fails : after FileLoad.cfg exOps (fun s => (deepest FileLoad.cfg s 0x502000).bind (fun b =>
    (specific FileLoad.cfg s (s.alloc b) 0x502000).map (fun p => (s.alloc b, s.priv b, p)))) = some (20, 6, 5) := by decide +kernel

end Liballocs.Specific
