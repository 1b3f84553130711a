import Verif.Model.FrameCompact
import Verif.Proofs.FrameTypes
/-!
# Properties of the compact descriptions of frames

What a reader of the output sees at an address, and what the library said is there, are related here; the reader's rule and the set of live elements are
defined without the tool's functions.
-/
namespace Liballocs.FrameCompact

open FrameTypes (Seg At From addj)

/-! ## Specification -/

/-- The layout in force at an address: that of the last `SET_LOCATION` not after it. -/
def inForce (is : List Item) (pc : Nat) : Option (List (Nat × Int)) :=
  is.foldl (fun r i => match i with
    | .layout lo _ cs => if lo ≤ pc then some cs else r
    | .continuing _ _ => r) none

/-- Whether the options leave an element of a variable in. -/
structure Wanted (f : Flags) (i : Info) : Prop where
  registers : i.inReg = true → f.registers = true
  computed : i.computed = true → f.computed = true
  static : i.static = true → f.static = true
  incomplete : f.incomplete = true ∨ (i.isVar = true → i.type ≠ none ∧ i.concrete = true)
  pointers : f.pointers = true → i.isVar = true ∧ i.type ≠ none ∧ i.concrete = true ∧ i.pointer = true

/-- The elements that are to be described at an address: those of variables that the options do not leave out and, with the option, saved registers. -/
def Live (f : Flags) (lib : Nat → Info) (locals cfi : List Range) (pc e : Nat) : Prop :=
  (∃ r ∈ locals, Wanted f (lib e) ∧ r.el = e ∧ r.lo ≤ pc ∧ pc < r.hi) ∨
    (f.cfi = true ∧ ∃ r ∈ cfi, r.el = e ∧ r.lo ≤ pc ∧ pc < r.hi)

/-! ## Sets -/

/-- What is needed of an order. -/
structure Order {α : Type} (lt : α → α → Bool) : Prop where
  irrefl : ∀ a, lt a a = false
  trans : ∀ a b c, lt a b = true → lt b c = true → lt a c = true
  total : ∀ a b, lt a b = false → lt b a = false → a = b

theorem elOrder : Order elLt := by
  constructor <;> simp only [elLt, decide_eq_true_eq, decide_eq_false_iff_not] <;> intros <;> omega

theorem pairOrder : Order pairLt := by
  constructor
  · intro a; simp [pairLt]
  · intro a b c h1 h2
    simp only [pairLt, Bool.or_eq_true, Bool.and_eq_true, decide_eq_true_eq] at *
    omega
  · intro a b h1 h2
    simp only [pairLt, Bool.or_eq_false_iff, Bool.and_eq_false_iff, decide_eq_false_iff_not] at *
    exact Prod.ext (by omega) (by omega)

theorem key_inj {a b : Triple} (h : a.key = b.key) : a = b := by
  have hc : ∀ {x y : List Char}, x.map Char.toNat = y.map Char.toNat → x = y := by
    intro x y hxy
    refine List.map_inj_right (fun c d hcd => ?_) |>.mp hxy
    exact Char.toNat_inj.mp hcd
  simp only [Triple.key, List.cons.injEq, and_true] at h
  obtain ⟨h1, h2, h3, h4, h5⟩ := h
  cases a; cases b
  simp only [Triple.mk.injEq]
  exact ⟨hc h1, hc h2, hc h3, h4, h5⟩

theorem tripleOrder : Order tripleLt := by
  constructor
  · intro a
    simp only [tripleLt, decide_eq_false_iff_not]
    exact List.lt_irrefl _
  · intro a b c h1 h2
    simp only [tripleLt, decide_eq_true_eq] at *
    exact List.lt_trans h1 h2
  · intro a b h1 h2
    simp only [tripleLt, decide_eq_false_iff_not] at *
    exact key_inj (List.le_antisymm h2 h1)

theorem mem_ins {α : Type} {lt : α → α → Bool} (ho : Order lt) (x y : α) : ∀ l : List α, y ∈ ins lt x l ↔ y = x ∨ y ∈ l
  | [] => by simp [ins]
  | z :: l => by
    unfold ins
    split
    · simp
    · split
      · simp only [List.mem_cons, mem_ins ho x y l]
        constructor
        · rintro (h | h | h) <;> simp [h]
        · rintro (h | h | h) <;> simp [h]
      · rename_i h1 h2
        have := ho.total x z (by simpa using h1) (by simpa using h2)
        subst this
        simp

/-- Strictly ascending. -/
def Asc {α : Type} (lt : α → α → Bool) (l : List α) : Prop := l.Pairwise fun a b => lt a b = true

theorem asc_ins {α : Type} {lt : α → α → Bool} (ho : Order lt) (x : α) : ∀ l : List α, Asc lt l → Asc lt (ins lt x l)
  | [], _ => by simp [ins, Asc]
  | z :: l, h => by
    have h' := List.pairwise_cons.mp h
    unfold ins
    split
    · rename_i h1
      refine List.pairwise_cons.mpr ⟨fun y hy => ?_, h⟩
      rcases List.mem_cons.mp hy with rfl | hy
      · exact h1
      · exact ho.trans _ _ _ h1 (h'.1 y hy)
    · split
      · rename_i h2
        refine List.pairwise_cons.mpr ⟨fun y hy => ?_, asc_ins ho x l h'.2⟩
        rcases (mem_ins ho x y l).mp hy with rfl | hy
        · exact h2
        · exact h'.1 y hy
      · exact h

theorem Asc.nodup {α : Type} {lt : α → α → Bool} (ho : Order lt) {l : List α} (h : Asc lt l) : l.Nodup := by
  refine List.Pairwise.imp (fun {a b} hab heq => ?_) h
  subst heq
  rw [ho.irrefl] at hab
  cases hab

/-! ## The map -/

theorem keep_iff (f : Flags) (i : Info) : keep f i = true ↔ Wanted f i := by
  constructor
  · intro h
    simp only [keep, Bool.and_eq_true, Bool.or_eq_true, Bool.not_eq_true', Option.isSome_iff_ne_none] at h
    obtain ⟨⟨⟨⟨h1, h2⟩, h3⟩, h4⟩, h5⟩ := h
    constructor
    · intro hx; rcases h1 with h | h
      · exact h
      · rw [hx] at h; cases h
    · intro hx; rcases h2 with h | h
      · exact h
      · rw [hx] at h; cases h
    · intro hx; rcases h3 with h | h
      · exact h
      · rw [hx] at h; cases h
    · rcases h4 with (h | h) | h
      · exact Or.inl h
      · exact Or.inr (fun hx => by rw [hx] at h; cases h)
      · exact Or.inr (fun _ => h)
    · intro hx; rcases h5 with h | h
      · rw [hx] at h; cases h
      · exact ⟨h.1.1.1, h.1.1.2, h.1.2, h.2⟩
  · rintro ⟨h1, h2, h3, h4, h5⟩
    simp only [keep, Bool.and_eq_true, Bool.or_eq_true, Bool.not_eq_true', Option.isSome_iff_ne_none]
    refine ⟨⟨⟨⟨?_, ?_⟩, ?_⟩, ?_⟩, ?_⟩
    · cases hx : i.inReg with
      | false => exact Or.inr rfl
      | true => exact Or.inl (h1 hx)
    · cases hx : i.computed with
      | false => exact Or.inr rfl
      | true => exact Or.inl (h2 hx)
    · cases hx : i.static with
      | false => exact Or.inr rfl
      | true => exact Or.inl (h3 hx)
    · rcases h4 with h | h
      · exact Or.inl (Or.inl h)
      · cases hx : i.isVar with
        | false => exact Or.inl (Or.inr rfl)
        | true => exact Or.inr (h hx)
    · cases hx : f.pointers with
      | false => exact Or.inl rfl
      | true =>
        obtain ⟨a, b, c, d⟩ := h5 hx
        exact Or.inr ⟨⟨⟨a, b⟩, c⟩, d⟩

theorem put_spec {m : List (Seg Nat)} (hf : From 0 m) (r : Range) :
    From 0 (put m r) ∧ ∀ pc y, At (put m r) pc y ↔ At m pc y ∨ (r.lo ≤ pc ∧ pc < r.hi ∧ y = r.el) := by
  unfold put
  split
  · rename_i hlt
    refine addj (ins := ins elLt) (P := fun y => y = r.el) (U := fun _ => True) ?_ ?_ ?_ ?_ trivial ?_ hlt hf (fun _ _ _ => trivial)
    · intro l y hy; exact (mem_ins elOrder _ _ l).mp hy
    · intro l y hy; exact (mem_ins elOrder _ _ l).mpr (Or.inr hy)
    · intro l; exact ⟨r.el, (mem_ins elOrder _ _ l).mpr (Or.inl rfl), rfl⟩
    · intro y _ h; exact h
    · intro a b h x
      rw [decide_eq_true_eq.mp h]
  · refine ⟨hf, fun pc y => ⟨Or.inl, ?_⟩⟩
    rintro (h | ⟨h1, h2, _⟩)
    · exact h
    · omega

theorem puts_spec : ∀ (rs : List Range) {m : List (Seg Nat)}, From 0 m →
    From 0 (rs.foldl put m) ∧ ∀ pc y, At (rs.foldl put m) pc y ↔ At m pc y ∨ ∃ r ∈ rs, r.lo ≤ pc ∧ pc < r.hi ∧ y = r.el
  | [], m, hf => ⟨hf, fun pc y => by simp⟩
  | r :: rs, m, hf => by
    obtain ⟨h1, h2⟩ := put_spec hf r
    obtain ⟨h3, h4⟩ := puts_spec rs h1
    refine ⟨h3, fun pc y => ?_⟩
    rw [List.foldl_cons, h4, h2]
    simp only [List.mem_cons, exists_eq_or_imp, or_assoc]

/-- What is in the map at an address is what is live there. -/
theorem gather_spec (f : Flags) (lib : Nat → Info) (locals cfi : List Range) :
    From 0 (gather f lib locals cfi) ∧ ∀ pc e, At (gather f lib locals cfi) pc e ↔ Live f lib locals cfi pc e := by
  obtain ⟨h1, h2⟩ := puts_spec (locals.filter fun r => keep f (lib r.el)) (m := []) .nil
  have h2' : ∀ pc e, At ((locals.filter fun r => keep f (lib r.el)).foldl put []) pc e ↔
      ∃ r ∈ locals, Wanted f (lib e) ∧ r.el = e ∧ r.lo ≤ pc ∧ pc < r.hi := by
    intro pc e
    rw [h2]
    constructor
    · rintro (h | ⟨r, hr, g1, g2, rfl⟩)
      · exact absurd h FrameTypes.At_nil
      · obtain ⟨hr1, hr2⟩ := List.mem_filter.mp hr
        exact ⟨r, hr1, (keep_iff _ _).mp hr2, rfl, g1, g2⟩
    · rintro ⟨r, hr, hk, rfl, g1, g2⟩
      exact Or.inr ⟨r, List.mem_filter.mpr ⟨hr, (keep_iff _ _).mpr hk⟩, g1, g2, rfl⟩
  unfold gather Live
  cases hc : f.cfi with
  | false =>
    refine ⟨h1, fun pc e => ?_⟩
    rw [show At _ pc e ↔ _ from h2' pc e]
    simp
  | true =>
    obtain ⟨h3, h4⟩ := puts_spec cfi h1
    refine ⟨h3, fun pc e => ?_⟩
    rw [show At _ pc e ↔ _ from h4 pc e, h2']
    constructor
    · rintro (h | ⟨r, hr, g1, g2, rfl⟩)
      · exact Or.inl h
      · exact Or.inr ⟨rfl, r, hr, rfl, g1, g2⟩
    · rintro (h | ⟨_, r, hr, rfl, g1, g2⟩)
      · exact Or.inl h
      · exact Or.inr ⟨r, hr, g1, g2, rfl⟩

/-! ## Rows -/

theorem triples_spec (lib : Nat → Info) : ∀ (l : List Nat) (ts us : List Triple), triples lib ts l = some us → Asc tripleLt ts →
    Asc tripleLt us ∧ ∀ t, t ∈ us ↔ t ∈ ts ∨ ∃ e ∈ l, (lib e).cfa = false ∧ triple (lib e) = some t
  | [], ts, us, h, ha => by
    rw [triples] at h
    obtain rfl := Option.some.inj h
    exact ⟨ha, fun t => by simp⟩
  | e :: l, ts, us, h, ha => by
    rw [triples] at h
    cases hc : (lib e).cfa with
    | true =>
      rw [hc] at h
      obtain ⟨h1, h2⟩ := triples_spec lib l ts us h ha
      refine ⟨h1, fun t => ?_⟩
      rw [h2]
      simp [hc]
    | false =>
      rw [hc] at h
      cases ht : triple (lib e) with
      | none => rw [ht] at h; cases h
      | some u =>
        rw [ht] at h
        obtain ⟨h1, h2⟩ := triples_spec lib l _ us h (asc_ins tripleOrder u ts ha)
        refine ⟨h1, fun t => ?_⟩
        rw [h2, mem_ins tripleOrder]
        simp only [List.mem_cons, exists_eq_or_imp, hc, ht, Option.some.injEq, true_and]
        constructor
        · rintro ((rfl | h) | h)
          · exact Or.inr (Or.inl rfl)
          · exact Or.inl h
          · exact Or.inr (Or.inr h)
        · rintro (h | rfl | h)
          · exact Or.inl (Or.inr h)
          · exact Or.inl (Or.inl rfl)
          · exact Or.inr h

theorem index_spec {ts : List Triple} {t : Triple} (h : t ∈ ts) : ts[index ts t]? = some t := by
  unfold index
  cases hi : ts.findIdx? (fun u => decide (u = t)) with
  | none =>
    have := List.findIdx?_eq_none_iff.mp hi t h
    simp at this
  | some i =>
    obtain ⟨hlt, h1, _⟩ := List.findIdx?_eq_some_iff_getElem.mp hi
    rw [List.getElem?_eq_getElem hlt]
    exact congrArg some (by simpa using h1)

/-! ## Layouts -/

theorem offsets_spec (lib : Nat → Info) : ∀ l : List Nat, Asc pairLt (offsets lib l) ∧
    ∀ p, p ∈ offsets lib l ↔ p.2 ∈ l ∧ (lib p.2).off = some p.1
  | [] => ⟨List.Pairwise.nil, fun p => by simp [offsets]⟩
  | e :: l => by
    obtain ⟨h1, h2⟩ := offsets_spec lib l
    rw [offsets]
    cases ho : (lib e).off with
    | none =>
      refine ⟨h1, fun p => ?_⟩
      rw [show p ∈ offsets lib l ↔ _ from h2 p, List.mem_cons]
      constructor
      · rintro ⟨a, b⟩; exact ⟨Or.inr a, b⟩
      · rintro ⟨a | a, b⟩
        · rw [a, ho] at b; cases b
        · exact ⟨a, b⟩
    | some o =>
      refine ⟨asc_ins pairOrder _ _ h1, fun p => ?_⟩
      rw [show p ∈ ins pairLt (o, e) (offsets lib l) ↔ _ from mem_ins pairOrder _ _ _, h2, List.mem_cons]
      constructor
      · rintro (rfl | ⟨a, b⟩)
        · exact ⟨Or.inl rfl, ho⟩
        · exact ⟨Or.inr a, b⟩
      · rintro ⟨a | a, b⟩
        · rw [a, ho] at b
          exact Or.inl (Prod.ext (Option.some.inj b).symm a)
        · exact Or.inr ⟨a, b⟩

theorem cells_spec (lib : Nat → Info) (ts : List Triple) : ∀ (l : List (Int × Nat)) (cs : List (Nat × Int)), cells lib ts l = some cs →
    (∀ p ∈ l, ∀ t, triple (lib p.2) = some t → t ∈ ts) →
    cs.map (fun c => (ts[c.1]?, c.2)) = l.map (fun p => (triple (lib p.2), p.1))
  | [], cs, h, _ => by
    rw [cells] at h
    obtain rfl := Option.some.inj h
    rfl
  | (o, e) :: l, cs, h, hm => by
    rw [cells] at h
    cases ht : triple (lib e) with
    | none => rw [ht] at h; cases h
    | some t =>
      cases hc : cells lib ts l with
      | none => rw [ht, hc] at h; cases h
      | some ds =>
        rw [ht, hc] at h
        obtain rfl := Option.some.inj h
        have hin := hm (o, e) (by simp) t ht
        simp only [List.map_cons, index_spec hin, ht]
        rw [cells_spec lib ts l ds hc (fun p hp => hm p (List.mem_cons_of_mem _ hp))]

/-- The step of the reader. -/
def step (pc : Nat) (r : Option (List (Nat × Int))) (i : Item) : Option (List (Nat × Int)) :=
  match i with
  | .layout lo _ cs => if lo ≤ pc then some cs else r
  | .continuing _ _ => r

theorem inForce_eq (is : List Item) (pc : Nat) : inForce is pc = is.foldl (step pc) none := rfl

theorem items_after {lib : Nat → Info} {ts : List Triple} {pc : Nat} : ∀ (m : List (Seg Nat)) (prev : Option (Nat × List (Int × Nat)))
    (is : List Item), items lib ts prev m = some is → (∀ s ∈ m, pc < s.lo) → ∀ r, is.foldl (step pc) r = r
  | [], prev, is, h, _, r => by
    rw [items] at h
    obtain rfl := Option.some.inj h
    rfl
  | s :: m, prev, is, h, hlo, r => by
    rw [items] at h
    have hlo' := fun t ht => hlo t (List.mem_cons_of_mem _ ht)
    cases hc : continues prev s.lo (offsets lib s.els) with
    | true =>
      rw [hc] at h
      obtain ⟨js, hj, rfl⟩ := Option.map_eq_some_iff.mp h
      exact items_after m _ js hj hlo' r
    | false =>
      rw [hc] at h
      cases hcs : cells lib ts (offsets lib s.els) with
      | none => rw [hcs] at h; cases h
      | some cs =>
        rw [hcs] at h
        obtain ⟨js, hj, rfl⟩ := Option.map_eq_some_iff.mp h
        have hs := hlo s (by simp)
        rw [List.foldl_cons, show step pc r (.layout s.lo s.hi cs) = r from if_neg (by omega)]
        exact items_after m _ js hj hlo' r

/-- In a segment, the layout in force is that of its elements. -/
theorem items_at {lib : Nat → Info} {ts : List Triple} {pc : Nat} {s : Seg Nat} (h1 : s.lo ≤ pc) (h2 : pc < s.hi) :
    ∀ (m : List (Seg Nat)) {b : Nat} (prev : Option (Nat × List (Int × Nat))) (is : List Item) (r : Option (List (Nat × Int))), From b m → s ∈ m →
      items lib ts prev m = some is → (∀ hi ps, prev = some (hi, ps) → ∃ cs, cells lib ts ps = some cs ∧ r = some cs) →
      ∃ cs, cells lib ts (offsets lib s.els) = some cs ∧ is.foldl (step pc) r = some cs
  | [], _, _, _, _, _, hs, _, _ => by cases hs
  | t :: m, b, prev, is, r, hf, hs, h, hp => by
    rw [items] at h
    cases hf with
    | cons g1 g2 g3 g4 =>
    have hlow : t.lo ≤ pc := by
      rcases List.mem_cons.mp hs with rfl | hs'
      · exact h1
      · have := (g4.low s hs').1
        omega
    cases hc : continues prev t.lo (offsets lib t.els) with
    | true =>
      rw [hc] at h
      obtain ⟨js, hj, rfl⟩ := Option.map_eq_some_iff.mp h
      have hprev : ∃ cs, cells lib ts (offsets lib t.els) = some cs ∧ r = some cs := by
        unfold continues at hc
        cases prev with
        | none => cases hc
        | some q =>
          obtain ⟨hi, ps⟩ := q
          simp only [Bool.and_eq_true, decide_eq_true_eq] at hc
          rw [hc.2]
          exact hp hi ps rfl
      rw [List.foldl_cons, show step pc r (.continuing t.lo t.hi) = r from rfl]
      rcases List.mem_cons.mp hs with rfl | hs'
      · obtain ⟨cs, hcs, rfl⟩ := hprev
        refine ⟨cs, hcs, items_after m _ js hj (fun u hu => ?_) _⟩
        have := (g4.low u hu).1
        omega
      · refine items_at h1 h2 m _ js r g4 hs' hj ?_
        intro hi ps he
        simp only [Option.some.injEq, Prod.mk.injEq] at he
        rw [← he.2]
        exact hprev
    | false =>
      rw [hc] at h
      cases hcs : cells lib ts (offsets lib t.els) with
      | none => rw [hcs] at h; cases h
      | some cs =>
        rw [hcs] at h
        obtain ⟨js, hj, rfl⟩ := Option.map_eq_some_iff.mp h
        rw [List.foldl_cons, show step pc r (.layout t.lo t.hi cs) = some cs from if_pos hlow]
        rcases List.mem_cons.mp hs with rfl | hs'
        · refine ⟨cs, hcs, items_after m _ js hj (fun u hu => ?_) _⟩
          have := (g4.low u hu).1
          omega
        · refine items_at h1 h2 m _ js (some cs) g4 hs' hj ?_
          intro hi ps he
          simp only [Option.some.injEq, Prod.mk.injEq] at he
          rw [← he.2]
          exact ⟨cs, hcs, rfl⟩

theorem write_some {lib : Nat → Info} {m : List (Seg Nat)} {ts : List Triple} {is : List Item} (h : write lib m = some (ts, is)) :
    rows lib m = some ts ∧ items lib ts none m = some is := by
  unfold write at h
  cases hr : rows lib m with
  | none => rw [hr] at h; cases h
  | some us =>
    rw [hr] at h
    dsimp only at h
    cases hi : items lib us none m with
    | none => rw [hi] at h; cases h
    | some js =>
      rw [hi] at h
      simp only [Option.some.injEq, Prod.mk.injEq] at h
      exact ⟨congrArg some h.1, by rw [← h.1, hi, h.2]⟩

/-! ## The properties -/

/-- **C151 (partial).** At every address where something is live, the layout in force lists the live elements with a fixed offset, each once, by ascending
offset; its entries are their offsets and the numbers of rows that have their names, types and pieces. Partial: where nothing is live, a layout may be in
force that ended before. -/
theorem layout_partial {f : Flags} {lib : Nat → Info} {locals cfi : List Range} {ts : List Triple} {is : List Item}
    (h : run f lib locals cfi = some (ts, is)) {pc : Nat} (hl : ∃ e, Live f lib locals cfi pc e) :
    ∃ (cs : List (Nat × Int)) (els : List Nat), inForce is pc = some cs ∧ els.Nodup ∧ (∀ e, e ∈ els ↔ Live f lib locals cfi pc e ∧ (lib e).off ≠ none) ∧
      cs.map (fun c => (ts[c.1]?, some c.2)) = els.map (fun e => (triple (lib e), (lib e).off)) ∧
      (cs.map Prod.snd).Pairwise (· ≤ ·) := by
  obtain ⟨hf, hat⟩ := gather_spec f lib locals cfi
  obtain ⟨hr, hi⟩ := write_some h
  obtain ⟨e, he⟩ := hl
  obtain ⟨s, hs, h1, h2, _⟩ := (hat pc e).mpr he
  obtain ⟨cs, hcs, hfold⟩ := items_at h1 h2 _ none is none hf hs hi (by intro hi ps hx; cases hx)
  obtain ⟨hasc, hmem⟩ := offsets_spec lib s.els
  obtain ⟨_, hrows⟩ := triples_spec lib _ _ _ hr List.Pairwise.nil
  have hlive : ∀ e, e ∈ s.els ↔ Live f lib locals cfi pc e := by
    intro x
    rw [← hat]
    constructor
    · intro hx; exact ⟨s, hs, h1, h2, hx⟩
    · rintro ⟨t, ht, k1, k2, hx⟩
      rwa [hf.unique hs ht h1 h2 k1 k2]
  have hdec := cells_spec lib ts _ cs hcs (by
    intro p hp t ht
    refine (hrows t).mpr (Or.inr ⟨p.2, ?_, ?_, ht⟩)
    · exact List.mem_flatMap.mpr ⟨s, hs, ((hmem p).mp hp).1⟩
    · cases hcfa : (lib p.2).cfa with
      | false => rfl
      | true =>
        unfold Info.cfa at hcfa
        simp only [Bool.and_eq_true, Bool.not_eq_true', decide_eq_true_eq] at hcfa
        unfold triple at ht
        rw [hcfa.1] at ht
        simp [hcfa.2] at ht)
  refine ⟨cs, (offsets lib s.els).map Prod.snd, ?_, ?_, ?_, ?_, ?_⟩
  · rw [inForce_eq]; exact hfold
  · rw [List.nodup_iff_pairwise_ne, List.pairwise_map]
    refine List.Pairwise.imp_of_mem (fun {a b} ha hb hab heq => ?_) hasc
    have ha' := ((hmem a).mp ha).2
    have hb' := ((hmem b).mp hb).2
    rw [heq, hb'] at ha'
    have : a = b := Prod.ext (Option.some.inj ha').symm heq
    rw [this, pairOrder.irrefl] at hab
    cases hab
  · intro x
    rw [← hlive, List.mem_map]
    constructor
    · rintro ⟨p, hp, rfl⟩
      obtain ⟨k1, k2⟩ := (hmem p).mp hp
      exact ⟨k1, by rw [k2]; simp⟩
    · rintro ⟨k1, k2⟩
      cases ho : (lib x).off with
      | none => exact absurd ho k2
      | some o => exact ⟨(o, x), (hmem _).mpr ⟨k1, ho⟩, rfl⟩
  · have : cs.map (fun c => (ts[c.1]?, some c.2)) = (cs.map (fun c => (ts[c.1]?, c.2))).map (fun q => (q.1, some q.2)) := by
      rw [List.map_map]; rfl
    rw [this, hdec, List.map_map, List.map_map]
    refine List.map_congr_left (fun p hp => ?_)
    simp only [Function.comp]
    rw [((hmem p).mp hp).2]
  · have : cs.map Prod.snd = (offsets lib s.els).map Prod.fst := by
      have := congrArg (List.map Prod.snd) hdec
      rw [List.map_map, List.map_map] at this
      exact this
    rw [this, List.pairwise_map]
    refine List.Pairwise.imp (fun {a b} hab => ?_) hasc
    simp only [pairLt, Bool.or_eq_true, Bool.and_eq_true, decide_eq_true_eq] at hab
    omega

/-- The rows: one for each combination of name, type and piece that an element has anywhere, in order. -/
theorem rows_once {f : Flags} {lib : Nat → Info} {locals cfi : List Range} {ts : List Triple} {is : List Item}
    (h : run f lib locals cfi = some (ts, is)) :
    ts.Nodup ∧ (ts.map Triple.key).Pairwise (· < ·) ∧
      ∀ t, t ∈ ts ↔ ∃ pc e, Live f lib locals cfi pc e ∧ triple (lib e) = some t := by
  obtain ⟨hf, hat⟩ := gather_spec f lib locals cfi
  obtain ⟨hr, _⟩ := write_some h
  obtain ⟨hasc, hrows⟩ := triples_spec lib _ _ _ hr List.Pairwise.nil
  refine ⟨hasc.nodup tripleOrder, ?_, fun t => ?_⟩
  · rw [List.pairwise_map]
    exact List.Pairwise.imp (fun {a b} hab => by simpa [tripleLt] using hab) hasc
  · rw [hrows]
    constructor
    · rintro (hx | ⟨e, he, _, ht⟩)
      · cases hx
      · obtain ⟨s, hs, hes⟩ := List.mem_flatMap.mp he
        have := hf.low s hs
        exact ⟨s.lo, e, (hat _ _).mp ⟨s, hs, Nat.le_refl _, this.2.1, hes⟩, ht⟩
    · rintro ⟨pc, e, hl, ht⟩
      obtain ⟨s, hs, _, _, hes⟩ := (hat pc e).mpr hl
      refine Or.inr ⟨e, List.mem_flatMap.mpr ⟨s, hs, hes⟩, ?_, ht⟩
      cases hcfa : (lib e).cfa with
      | false => rfl
      | true =>
        unfold Info.cfa at hcfa
        simp only [Bool.and_eq_true, Bool.not_eq_true', decide_eq_true_eq] at hcfa
        unfold triple at ht
        rw [hcfa.1] at ht
        simp [hcfa.2] at ht

/-- The reader at two addresses between which no segment begins. -/
theorem items_same {lib : Nat → Info} {ts : List Triple} {a b : Nat} (hab : a ≤ b) : ∀ (m : List (Seg Nat)) (prev : Option (Nat × List (Int × Nat)))
    (is : List Item), items lib ts prev m = some is → (∀ s ∈ m, s.lo ≤ a ∨ b < s.lo) → ∀ r, is.foldl (step a) r = is.foldl (step b) r
  | [], prev, is, h, _, r => by
    rw [items] at h
    obtain rfl := Option.some.inj h
    rfl
  | s :: m, prev, is, h, hlo, r => by
    rw [items] at h
    have hlo' := fun t ht => hlo t (List.mem_cons_of_mem _ ht)
    cases hc : continues prev s.lo (offsets lib s.els) with
    | true =>
      rw [hc] at h
      obtain ⟨js, hj, rfl⟩ := Option.map_eq_some_iff.mp h
      exact items_same hab m _ js hj hlo' r
    | false =>
      rw [hc] at h
      cases hcs : cells lib ts (offsets lib s.els) with
      | none => rw [hcs] at h; cases h
      | some cs =>
        rw [hcs] at h
        obtain ⟨js, hj, rfl⟩ := Option.map_eq_some_iff.mp h
        have : step a r (.layout s.lo s.hi cs) = step b r (.layout s.lo s.hi cs) := by
          unfold step
          dsimp only
          rcases hlo s (by simp) with g | g
          · rw [if_pos g, if_pos (by omega)]
          · rw [if_neg (by omega), if_neg (by omega)]
        rw [List.foldl_cons, List.foldl_cons, this]
        exact items_same hab m _ js hj hlo' _

/-- **C151 fails** where nothing is live: in every gap, what was in force before it still is, however long ago it was. -/
theorem gap_fails {f : Flags} {lib : Nat → Info} {locals cfi : List Range} {ts : List Triple} {is : List Item}
    (h : run f lib locals cfi = some (ts, is)) {a b : Nat} (hab : a ≤ b) (hno : ∀ pc e, a < pc → pc ≤ b → ¬ Live f lib locals cfi pc e) :
    inForce is b = inForce is a := by
  obtain ⟨hf, hat⟩ := gather_spec f lib locals cfi
  obtain ⟨_, hi⟩ := write_some h
  rw [inForce_eq, inForce_eq]
  refine (items_same hab _ none is hi (fun s hs => ?_) none).symm
  have hl := hf.low s hs
  cases hes : s.els with
  | nil => exact absurd hes hl.2.2
  | cons e l =>
    rcases Nat.lt_or_ge a s.lo with g | g
    · rcases Nat.lt_or_ge b s.lo with g' | g'
      · exact Or.inr g'
      · exact absurd ((hat s.lo e).mp ⟨s, hs, Nat.le_refl _, hl.2.1, by rw [hes]; simp⟩) (hno _ _ g g')
    · exact Or.inl g

theorem triples_total (lib : Nat → Info) : ∀ (l : List Nat) (ts : List Triple), (∀ e ∈ l, (lib e).isVar = true → (lib e).type ≠ none) →
    triples lib ts l ≠ none
  | [], ts, _ => by simp [triples]
  | e :: l, ts, h => by
    rw [triples]
    have ih := fun ts => triples_total lib l ts (fun x hx => h x (List.mem_cons_of_mem _ hx))
    cases hc : (lib e).cfa with
    | true => exact ih ts
    | false =>
      cases ht : triple (lib e) with
      | some t => exact ih _
      | none =>
        exfalso
        unfold triple at ht
        unfold Info.cfa at hc
        cases hv : (lib e).isVar with
        | true =>
          cases hy : (lib e).type with
          | none => exact h e (by simp) hv hy
          | some p => rw [hv, hy] at ht; cases ht
        | false =>
          rw [hv] at ht hc
          simp only [Bool.not_false, Bool.true_and, decide_eq_false_iff_not] at hc
          simp [hc] at ht

theorem cells_total (lib : Nat → Info) (ts : List Triple) : ∀ l : List (Int × Nat), (∀ p ∈ l, triple (lib p.2) ≠ none) → cells lib ts l ≠ none
  | [], _ => by simp [cells]
  | (o, e) :: l, h => by
    rw [cells]
    cases ht : triple (lib e) with
    | none => exact absurd ht (h (o, e) (by simp))
    | some t =>
      cases hc : cells lib ts l with
      | none => exact absurd hc (cells_total lib ts l (fun p hp => h p (List.mem_cons_of_mem _ hp)))
      | some cs => simp

theorem items_total (lib : Nat → Info) (ts : List Triple) : ∀ (m : List (Seg Nat)) (prev : Option (Nat × List (Int × Nat))),
    (∀ s ∈ m, ∀ e ∈ s.els, (lib e).off ≠ none → triple (lib e) ≠ none) → items lib ts prev m ≠ none
  | [], _, _ => by simp [items]
  | s :: m, prev, h => by
    rw [items]
    have ih := fun prev => items_total lib ts m prev (fun t ht => h t (List.mem_cons_of_mem _ ht))
    cases hc : continues prev s.lo (offsets lib s.els) with
    | true => simpa using ih _
    | false =>
      cases hcs : cells lib ts (offsets lib s.els) with
      | some cs => simpa using ih _
      | none =>
        refine absurd hcs (cells_total lib ts _ (fun p hp => ?_))
        obtain ⟨h1, h2⟩ := ((offsets_spec lib s.els).2 p).mp hp
        exact h s (by simp) p.2 h1 (by rw [h2]; simp)

/-- The tool comes to an end without a failed assertion if each variable described has a type, and the frame's base itself is at no offset from it. -/
theorem run_total {f : Flags} {lib : Nat → Info} {locals cfi : List Range}
    (hty : ∀ pc e, Live f lib locals cfi pc e → (lib e).isVar = true → (lib e).type ≠ none)
    (hcfa : ∀ pc e, Live f lib locals cfi pc e → (lib e).isVar = false → (lib e).reg = CFA → (lib e).off = none) :
    ∃ ts is, run f lib locals cfi = some (ts, is) := by
  obtain ⟨hf, hat⟩ := gather_spec f lib locals cfi
  have hlive : ∀ s ∈ gather f lib locals cfi, ∀ e ∈ s.els, Live f lib locals cfi s.lo e := fun s hs e he =>
    (hat _ _).mp ⟨s, hs, Nat.le_refl _, (hf.low s hs).2.1, he⟩
  unfold run write
  cases hr : rows lib (gather f lib locals cfi) with
  | none =>
    refine absurd hr (triples_total lib _ _ (fun e he => ?_))
    obtain ⟨s, hs, hes⟩ := List.mem_flatMap.mp he
    exact hty _ e (hlive s hs e hes)
  | some ts =>
    dsimp only
    cases hi : items lib ts none (gather f lib locals cfi) with
    | some is => exact ⟨ts, is, rfl⟩
    | none =>
      refine absurd hi (items_total lib ts _ _ (fun s hs e he hoff ht => ?_))
      have hl := hlive s hs e he
      unfold triple at ht
      cases hv : (lib e).isVar with
      | true =>
        cases hy : (lib e).type with
        | none => exact hty _ e hl hv hy
        | some p => rw [hv, hy] at ht; cases ht
      | false =>
        rw [hv] at ht
        by_cases hreg : (lib e).reg = CFA
        · exact hoff (hcfa _ e hl hv hreg)
        · simp [hreg] at ht

/-- Without `--include-incomplete`, every variable described has a type. -/
theorem types_known {f : Flags} {lib : Nat → Info} {locals cfi : List Range} (hi : f.incomplete = false) (hc : ∀ r ∈ cfi, (lib r.el).isVar = false) :
    ∀ pc e, Live f lib locals cfi pc e → (lib e).isVar = true → (lib e).type ≠ none := by
  rintro pc e (⟨r, _, hk, _⟩ | ⟨_, r, hr, rfl, _⟩) hv hn
  · rcases hk.incomplete with h | h
    · rw [hi] at h; cases h
    · exact (h hv).1 hn
  · rw [hc r hr] at hv
    cases hv

/-- **Fails with `--include-incomplete`**: a variable without a type is an assertion failure. -/
theorem untyped_aborts {f : Flags} {lib : Nat → Info} {locals cfi : List Range} {pc e : Nat} (hl : Live f lib locals cfi pc e)
    (hv : (lib e).isVar = true) (hn : (lib e).type = none) : run f lib locals cfi = none := by
  cases h : run f lib locals cfi with
  | none => rfl
  | some q =>
    exfalso
    obtain ⟨hf, hat⟩ := gather_spec f lib locals cfi
    obtain ⟨hr, _⟩ := write_some (ts := q.1) (is := q.2) h
    obtain ⟨s, hs, _, _, hes⟩ := (hat pc e).mpr hl
    have hin : e ∈ (gather f lib locals cfi).flatMap Seg.els := List.mem_flatMap.mpr ⟨s, hs, hes⟩
    have key : ∀ (l : List Nat) (ts : List Triple), e ∈ l → triples lib ts l = none := by
      intro l
      induction l with
      | nil => intro _ hx; cases hx
      | cons x l ih =>
        intro ts hx
        rw [triples]
        rcases List.mem_cons.mp hx with rfl | hx
        · simp [Info.cfa, hv, triple, hn]
        · cases (lib x).cfa with
          | true => exact ih ts hx
          | false =>
            cases triple (lib x) with
            | none => rfl
            | some t => exact ih _ hx
    rw [rows, key _ _ hin] at hr
    cases hr

/-! ## Names and pieces -/

/-- A variable with a name has it, and its type, in its row. -/
theorem triple_var {i : Info} {n c t : Text} (hv : i.isVar = true) (hn : i.name = some n) (ht : i.type = some (c, t)) :
    ∃ u, triple i = some u ∧ u.name = n ∧ u.code = c ∧ u.type = t := by
  refine ⟨_, by unfold triple; rw [hv, ht], ?_, rfl, rfl⟩
  simp only [varName, hn]

/-- The piece: how many bits of the variable come before it and after it. -/
theorem triple_piece {i : Info} {u : Triple} {s b : Nat} (hu : triple i = some u) (hs : i.pieceBits = some s) (hb : i.bytes = some b)
    (hfit : i.pieceOff + s ≤ 8 * b) (hsmall : 8 * b < 2 ^ 32) : u.first = i.pieceOff ∧ u.first + s + u.rest = 8 * b := by
  have hp : pieces i = (i.pieceOff, 8 * b - i.pieceOff - s) := by
    unfold pieces
    rw [hs, hb]
    simp only [Prod.mk.injEq]
    omega
  have : u.first = (pieces i).1 ∧ u.rest = (pieces i).2 := by
    unfold triple at hu
    split at hu
    · cases hu
    · rw [← Option.some.inj hu]; exact ⟨rfl, rfl⟩
    · split at hu
      · cases hu
      · rw [← Option.some.inj hu]; exact ⟨rfl, rfl⟩
  rw [hp] at this
  dsimp only at this
  omega

private theorem triple_pieces {i : Info} {u : Triple} (hu : triple i = some u) : u.first = (pieces i).1 ∧ u.rest = (pieces i).2 := by
  unfold triple at hu
  split at hu
  · cases hu
  · rw [← Option.some.inj hu]; exact ⟨rfl, rfl⟩
  · split at hu
    · cases hu
    · rw [← Option.some.inj hu]; exact ⟨rfl, rfl⟩

/-- In general the two are computed with 32 bits. -/
theorem triple_wraps {i : Info} {u : Triple} (hu : triple i = some u) : u.first = (BitVec.ofNat 32 i.pieceOff).toNat ∧
    (∀ s b, i.pieceBits = some s → i.bytes = some b → u.rest = (BitVec.ofNat 32 (8 * b) - BitVec.ofNat 32 i.pieceOff - BitVec.ofNat 32 s).toNat) ∧
    (i.pieceBits = none ∨ i.bytes = none → u.rest = 0) := by
  obtain ⟨h1, h2⟩ := triple_pieces hu
  refine ⟨?_, ?_, ?_⟩
  · rw [h1, BitVec.toNat_ofNat]; unfold pieces; split <;> rfl
  · intro s b hs hb
    rw [h2]
    unfold pieces
    rw [hs, hb]
    simp only [BitVec.toNat_sub, BitVec.toNat_ofNat]
    omega
  · intro h
    rw [h2]
    unfold pieces
    split
    · rename_i hs hb
      rcases h with h | h
      · rw [h] at hs; cases hs
      · rw [h] at hb; cases hb
    · rfl

/-- The number that decimal digits mean. -/
def meant (s : Text) : Nat := s.foldl (fun n c => n * 10 + (c.toNat - '0'.toNat)) 0

private theorem digit_value {d : Nat} (h : d < 10) : (SegMeta.digit d).toNat - '0'.toNat = d := by
  have : d = 0 ∨ d = 1 ∨ d = 2 ∨ d = 3 ∨ d = 4 ∨ d = 5 ∨ d = 6 ∨ d = 7 ∨ d = 8 ∨ d = 9 := by omega
  rcases this with rfl | rfl | rfl | rfl | rfl | rfl | rfl | rfl | rfl | rfl <;> decide

theorem dec_meant : ∀ (k n : Nat), n < 10 ^ k → meant (dec k n) = n
  | 0, n, h => by
    have : n = 0 := by simpa using h
    rw [this]; rfl
  | k + 1, n, h => by
    rw [dec]
    by_cases hn : n < 10
    · rw [if_pos hn]
      show 0 * 10 + _ = n
      rw [digit_value hn]; omega
    · have hk : n / 10 < 10 ^ k := by
        rw [Nat.div_lt_iff_lt_mul (by decide)]
        rw [Nat.pow_succ] at h; exact h
      rw [if_neg hn]
      unfold meant
      rw [List.foldl_append]
      show (meant (dec k (n / 10))) * 10 + _ = n
      rw [dec_meant k _ hk, digit_value (Nat.mod_lt _ (by decide))]
      omega

/-- Rows of different saved registers are different. -/
theorem registers_differ {i j : Info} {u v : Triple} (hi : i.isVar = false) (hj : j.isVar = false) (ri : i.reg < 2 ^ 64) (rj : j.reg < 2 ^ 64)
    (hu : triple i = some u) (hv : triple j = some v) (h : u.name = v.name) : i.reg = j.reg := by
  have key : ∀ {i : Info} {u : Triple}, i.isVar = false → triple i = some u → u.name = w! "__saved_caller_reg" ++ dec 20 i.reg := by
    intro i u hi hu
    unfold triple at hu
    rw [hi] at hu
    dsimp only at hu
    by_cases hc : i.reg = CFA
    · rw [if_pos hc] at hu; cases hu
    · rw [if_neg hc] at hu; rw [← Option.some.inj hu]
  rw [key hi hu, key hj hv] at h
  have h := List.append_cancel_left h
  rw [← dec_meant 20 i.reg (by omega), ← dec_meant 20 j.reg (by omega), h]

/-- An interval is written as a continuation just if it begins where the one before ends and has the same elements at the same offsets. -/
theorem continuing_iff {lib : Nat → Info} {ts : List Triple} : ∀ (m : List (Seg Nat)) (prev : Option (Nat × List (Int × Nat))) (is : List Item),
    items lib ts prev m = some is → is.length = m.length ∧
      ∀ (k : Nat) (s t : Seg Nat), m[k]? = some s → m[k + 1]? = some t →
        (is[k + 1]? = some (.continuing t.lo t.hi) ↔ s.hi = t.lo ∧ offsets lib t.els = offsets lib s.els)
  | [], prev, is, h => by
    rw [items] at h; injection h with h; subst h
    exact ⟨rfl, fun k s t h => by simp at h⟩
  | s :: m, prev, is, h => by
    have hx : ∃ x js, is = x :: js ∧ items lib ts (some (s.hi, offsets lib s.els)) m = some js := by
      rw [items] at h
      split at h
      · obtain ⟨js, h1, h2⟩ := Option.map_eq_some_iff.1 h
        exact ⟨_, js, h2.symm, h1⟩
      · split at h
        · cases h
        · obtain ⟨js, h1, h2⟩ := Option.map_eq_some_iff.1 h
          exact ⟨_, js, h2.symm, h1⟩
    obtain ⟨x, js, rfl, hj⟩ := hx
    obtain ⟨hl, ih⟩ := continuing_iff m _ js hj
    refine ⟨by simp [hl], ?_⟩
    intro k a b ha hb
    cases k with
    | succ k =>
      rw [List.getElem?_cons_succ] at ha hb ⊢
      exact ih k a b ha hb
    | zero =>
      rw [List.getElem?_cons_zero] at ha
      injection ha with ha
      subst ha
      rw [List.getElem?_cons_succ] at hb ⊢
      cases m with
      | nil => cases hb
      | cons c m =>
        rw [List.getElem?_cons_zero] at hb
        injection hb with hb
        subst hb
        rw [items] at hj
        have hc : continues (some (s.hi, offsets lib s.els)) c.lo (offsets lib c.els) = true ↔ s.hi = c.lo ∧ offsets lib c.els = offsets lib s.els := by
          unfold continues; simp
        rw [← hc]
        cases hcc : continues (some (s.hi, offsets lib s.els)) c.lo (offsets lib c.els) with
        | true =>
          rw [hcc] at hj
          obtain ⟨ks, _, h2⟩ := Option.map_eq_some_iff.1 hj
          rw [← h2]; simp
        | false =>
          rw [hcc] at hj
          dsimp only at hj
          split at hj
          · cases hj
          · obtain ⟨ks, _, h2⟩ := Option.map_eq_some_iff.1 hj
            rw [← h2]; simp

/-! ## Options -/

/-- The switches. -/
inductive Switch
  | registers | pointers | cfi | computed | incomplete | static | traditional
  deriving DecidableEq

/-- A switch of the flags. -/
def Switch.get (f : Flags) : Switch → Bool
  | .registers => f.registers | .pointers => f.pointers | .cfi => f.cfi | .computed => f.computed
  | .incomplete => f.incomplete | .static => f.static | .traditional => f.traditional

/-- The option without `--` and `no-`. -/
def Switch.word : Switch → Text
  | .registers => w! "include-registers" | .pointers => w! "only-pointers" | .cfi => w! "include-cfi" | .computed => w! "include-computed"
  | .incomplete => w! "include-incomplete" | .static => w! "include-static" | .traditional => w! "output-traditional"

/-- What an option says of a switch. Asking for traditional output also turns off four others. -/
def Switch.said (x : Switch) (s : Text) : Option Bool :=
  if s = w! "--" ++ x.word then some true
  else if s = w! "--no-" ++ x.word then some false
  else if s = w! "--output-traditional" ∧ x ∈ [Switch.cfi, .computed, .static, .incomplete] then some false
  else none

/-- Without any options: registers, saved registers and computed values are in. -/
def Switch.default : Switch → Bool
  | .registers | .cfi | .computed => true
  | _ => false

theorem option_spec {f f' : Flags} {s : Text} (h : option f s = some f') (x : Switch) :
    x.get f' = match x.said s with | some b => b | none => x.get f := by
  unfold option at h
  by_cases h0 : s = w! "--include-registers"
  · rw [if_pos h0] at h; subst h0; obtain rfl := Option.some.inj h; cases x <;> rfl
  rw [if_neg h0] at h
  by_cases h1 : s = w! "--no-include-registers"
  · rw [if_pos h1] at h; subst h1; obtain rfl := Option.some.inj h; cases x <;> rfl
  rw [if_neg h1] at h
  by_cases h2 : s = w! "--only-pointers"
  · rw [if_pos h2] at h; subst h2; obtain rfl := Option.some.inj h; cases x <;> rfl
  rw [if_neg h2] at h
  by_cases h3 : s = w! "--no-only-pointers"
  · rw [if_pos h3] at h; subst h3; obtain rfl := Option.some.inj h; cases x <;> rfl
  rw [if_neg h3] at h
  by_cases h4 : s = w! "--include-cfi"
  · rw [if_pos h4] at h; subst h4; obtain rfl := Option.some.inj h; cases x <;> rfl
  rw [if_neg h4] at h
  by_cases h5 : s = w! "--no-include-cfi"
  · rw [if_pos h5] at h; subst h5; obtain rfl := Option.some.inj h; cases x <;> rfl
  rw [if_neg h5] at h
  by_cases h6 : s = w! "--include-computed"
  · rw [if_pos h6] at h; subst h6; obtain rfl := Option.some.inj h; cases x <;> rfl
  rw [if_neg h6] at h
  by_cases h7 : s = w! "--no-include-computed"
  · rw [if_pos h7] at h; subst h7; obtain rfl := Option.some.inj h; cases x <;> rfl
  rw [if_neg h7] at h
  by_cases h8 : s = w! "--include-incomplete"
  · rw [if_pos h8] at h; subst h8; obtain rfl := Option.some.inj h; cases x <;> rfl
  rw [if_neg h8] at h
  by_cases h9 : s = w! "--no-include-incomplete"
  · rw [if_pos h9] at h; subst h9; obtain rfl := Option.some.inj h; cases x <;> rfl
  rw [if_neg h9] at h
  by_cases h10 : s = w! "--include-static"
  · rw [if_pos h10] at h; subst h10; obtain rfl := Option.some.inj h; cases x <;> rfl
  rw [if_neg h10] at h
  by_cases h11 : s = w! "--no-include-static"
  · rw [if_pos h11] at h; subst h11; obtain rfl := Option.some.inj h; cases x <;> rfl
  rw [if_neg h11] at h
  by_cases h12 : s = w! "--output-traditional"
  · rw [if_pos h12] at h; subst h12; obtain rfl := Option.some.inj h; cases x <;> rfl
  rw [if_neg h12] at h
  by_cases h13 : s = w! "--no-output-traditional"
  · rw [if_pos h13] at h; subst h13; obtain rfl := Option.some.inj h; cases x <;> rfl
  rw [if_neg h13] at h
  cases h

theorem arguments_fold : ∀ (l : List Text) (f : Flags) (n : Option Text) (f' : Flags) (n' : Text), arguments f n l = some (f', n') →
    ∀ x : Switch, x.get f' = match ((l.filter isOption).filterMap x.said).getLast? with | some b => b | none => x.get f
  | [], f, n, f', n', h, x => by
    cases n with
    | none => cases h
    | some m =>
      simp only [arguments, Option.some.injEq, Prod.mk.injEq] at h
      rw [← h.1]
      rfl
  | a :: l, f, n, f', n', h, x => by
    have hd : arguments f n (a :: l) = match isOption a with
      | true => match option f a with
        | none => none
        | some f' => arguments f' n l
      | false => match n with
        | some _ => none
        | none => arguments f (some a) l := by cases n <;> rfl
    rw [hd] at h
    cases ho : isOption a with
    | true =>
      rw [ho] at h
      dsimp only at h
      cases hf : option f a with
      | none => rw [hf] at h; cases h
      | some g =>
        rw [hf] at h
        have ih := arguments_fold l g n f' n' h x
        have h1 := option_spec hf x
        rw [List.filter_cons_of_pos ho, List.filterMap_cons]
        cases hs : x.said a with
        | none =>
          rw [hs] at h1
          dsimp only at h1 ⊢
          rw [ih, h1]
        | some b =>
          rw [hs] at h1
          dsimp only at h1 ⊢
          rw [ih, List.getLast?_cons]
          cases hl : ((l.filter isOption).filterMap x.said).getLast? with
          | none => exact h1
          | some c => rfl
    | false =>
      rw [ho] at h
      dsimp only at h
      rw [List.filter_cons_of_neg (by rw [ho]; decide)]
      cases n with
      | some m => cases h
      | none => exact arguments_fold l f (some a) f' n' h x

/-- **C152.** A switch is as the last option says that mentions it, and otherwise as by default. -/
theorem last_option_wins {l : List Text} {f : Flags} {n : Text} (h : arguments initial none l = some (f, n)) (x : Switch) :
    x.get f = match ((l.filter isOption).filterMap x.said).getLast? with | some b => b | none => x.default := by
  rw [arguments_fold l initial none f n h x]
  cases ((l.filter isOption).filterMap x.said).getLast? with
  | some b => rfl
  | none => cases x <;> rfl

/-- The one argument that is not an option is the input file. -/
theorem one_file : ∀ (l : List Text) (f : Flags) (n : Option Text) (f' : Flags) (n' : Text), arguments f n l = some (f', n') →
    n.toList ++ l.filter (fun a => !isOption a) = [n']
  | [], f, n, f', n', h => by
    cases n with
    | none => cases h
    | some m =>
      simp only [arguments, Option.some.injEq, Prod.mk.injEq] at h
      simp [h.2]
  | a :: l, f, n, f', n', h => by
    have hd : arguments f n (a :: l) = match isOption a with
      | true => match option f a with
        | none => none
        | some f' => arguments f' n l
      | false => match n with
        | some _ => none
        | none => arguments f (some a) l := by cases n <;> rfl
    rw [hd] at h
    cases ho : isOption a with
    | true =>
      rw [ho] at h
      dsimp only at h
      rw [List.filter_cons_of_neg (by rw [ho]; decide)]
      cases hf : option f a with
      | none => rw [hf] at h; cases h
      | some g =>
        rw [hf] at h
        exact one_file l g n f' n' h
    | false =>
      rw [ho] at h
      dsimp only at h
      rw [List.filter_cons_of_pos (by rw [ho]; decide)]
      cases n with
      | some m => cases h
      | none => exact one_file l f (some a) f' n' h

/-! ## Cases -/

/-- Two functions at 0x1000 and 0x2000: `n` is first in a register, then on the stack; `p`, a pointer, is on the stack; register 3 is saved. -/
def exLib : Nat → Info
  | 0 => ⟨true, some (w! "n"), 0x40, some ([], w! "int"), true, false, 0, true, false, false, none, 0, none, some 4⟩
  | 1 => ⟨true, some (w! "n"), 0x40, some ([], w! "int"), true, false, 0, false, false, false, some (-20), 0, none, some 4⟩
  | 2 => ⟨true, some (w! "p"), 0x60, some ([], w! "PTR_int"), true, true, 0, false, false, false, some (-32), 0, none, some 8⟩
  | 3 => ⟨false, none, 0, none, false, false, 3, false, false, false, some (-16), 0, none, some 8⟩
  | _ => ⟨false, none, 0, none, false, false, CFA, false, true, false, none, 0, none, none⟩

def exLocals : List Range := [⟨0x1000, 0x1010, 0⟩, ⟨0x1010, 0x1020, 1⟩, ⟨0x1000, 0x1020, 2⟩, ⟨0x2000, 0x2008, 2⟩]
def exCfi : List Range := [⟨0x1001, 0x1020, 3⟩, ⟨0x1000, 0x1020, 4⟩]

example : run initial exLib exLocals exCfi = some
    ([⟨w! "__saved_caller_reg3", [], w! "__opaque_word", 0, 0⟩, ⟨w! "n", [], w! "int", 0, 0⟩, ⟨w! "p", [], w! "PTR_int", 0, 0⟩],
     [.layout 0x1000 0x1001 [(2, -32)], .layout 0x1001 0x1010 [(2, -32), (0, -16)], .layout 0x1010 0x1020 [(2, -32), (1, -20), (0, -16)],
      .layout 0x2000 0x2008 [(2, -32)]]) := by decide +kernel

/-- Only pointers, and no saved registers: the first function's layout does not change within it. -/
example : run { initial with pointers := true, cfi := false } exLib exLocals exCfi = some
    ([⟨w! "p", [], w! "PTR_int", 0, 0⟩], [.layout 0x1000 0x1020 [(0, -32)], .layout 0x2000 0x2008 [(0, -32)]]) := by decide +kernel

/-- A change in a register only is a comment. -/
example : run { initial with cfi := false } (fun e => if e = 1 then { exLib 1 with off := none } else exLib e) exLocals exCfi = some
    ([⟨w! "n", [], w! "int", 0, 0⟩, ⟨w! "p", [], w! "PTR_int", 0, 0⟩],
     [.layout 0x1000 0x1010 [(1, -32)], .continuing 0x1010 0x1020, .layout 0x2000 0x2008 [(1, -32)]]) := by decide +kernel

/-- The reader between the two functions is told that `p` and `n` are there. -/
example : (run initial exLib exLocals exCfi).bind (fun q => inForce q.2 0x1800) = some [(2, -32), (1, -20), (0, -16)] := by decide +kernel

/-- A piece of 32 bits in the middle of 12 bytes; one that goes on to the end; a variable without a name. -/
example : pieces { exLib 0 with pieceOff := 32, pieceBits := some 32, bytes := some 12 } = (32, 32) ∧
    pieces { exLib 0 with pieceOff := 64, pieceBits := some 32, bytes := some 12 } = (64, 0) ∧
    pieces { exLib 0 with pieceOff := 64, pieceBits := none, bytes := some 12 } = (64, 0) ∧
    (triple { exLib 0 with name := none }).map Triple.name = some (w! "__anon40") ∧
    (triple { exLib 3 with reg := 16 }).map Triple.name = some (w! "__saved_caller_reg16") := by decide +kernel

/-- Traditional output turns saved registers off, but a later option turns them on again; a lone `-` is a file. -/
example : (arguments initial none [w! "--output-traditional", w! "--include-cfi", w! "-"]).map (fun q => (q.1.cfi, q.1.computed, q.2)) =
    some (true, false, w! "-") ∧
    (arguments initial none [w! "--include-cfi", w! "a", w! "--output-traditional"]).map (fun q => (q.1.cfi, q.1.traditional, q.2)) =
      some (false, true, w! "a") ∧
    arguments initial none [w! "a", w! "b"] = none ∧ arguments initial none [w! "--include-cfi"] = none ∧
    arguments initial none [w! "--help", w! "a"] = none := by decide +kernel

end Liballocs.FrameCompact
