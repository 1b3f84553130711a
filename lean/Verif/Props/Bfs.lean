import Verif.Model.Bfs
namespace Liballocs.Bfs

/-! # The object-graph walk visits every reachable object once, in order of distance (C39) -/

mutual
/-- A type has a pointer to type `p` at an offset, directly or in a member or element at any depth. -/
inductive PtrAt : Ty → Nat → Nat → Prop where
  | here (p) : PtrAt (.ptr p) 0 p
  | memb {ms off p} : PtrIn ms off p → PtrAt (.comp ms) off p
  | elem {n sz el off p} (i : Nat) : i < n → PtrAt el off p → PtrAt (.arr n sz el) (i * sz + off) p
inductive PtrIn : Membs → Nat → Nat → Prop where
  | head {o t r off p} : PtrAt t off p → PtrIn (.cons o t r) (o + off) p
  | tail {o t r off p} : PtrIn r off p → PtrIn (.cons o t r) off p
end

/-- A user-space pointer value: neither null nor all ones nor outside the range of user addresses. -/
def Usable (p : Nat) : Prop := 4194304 ≤ p ∧ p < 0x800000000000

/-- An object points to another: it has a pointer slot with a usable value that `follow` resolves to it. -/
def Edge (w : World) (u v : Node) : Prop :=
  ∃ off p, PtrAt (w.types u.t) off p ∧ Usable (w.mem (u.obj + off)) ∧
    w.follow (w.mem (u.obj + off)) p = (v.obj, v.t) ∧ v.obj ≠ 0

/-- `v` can be reached in exactly `n` pointer steps. -/
inductive Steps (w : World) (u : Node) : Nat → Node → Prop where
  | zero : Steps w u 0 u
  | succ {n v x} : Steps w u n v → Edge w v x → Steps w u (n + 1) x

mutual
/-- No array anywhere inside. -/
def NoArr : Ty → Prop
  | .leaf => True
  | .ptr _ => True
  | .comp ms => NoArrIn ms
  | .arr _ _ _ => False
def NoArrIn : Membs → Prop
  | .nil => True
  | .cons _ t r => NoArr t ∧ NoArrIn r
end

/-- The types the walk handles: an object type that is not itself a pointer, and with no arrays below the top level. -/
def Handled : Ty → Prop
  | .leaf => True
  | .ptr _ => False
  | .comp ms => NoArrIn ms
  | .arr _ _ el => NoArr el

section
variable {w : World}

theorem mem_followAt {a p : Nat} {v : Node} (h1 : w.mem a ≠ 2 ^ 64 - 1) :
    v ∈ followAt w a p ↔ Usable (w.mem a) ∧ w.follow (w.mem a) p = (v.obj, v.t) ∧ v.obj ≠ 0 := by
  unfold followAt plausible Usable
  simp only
  by_cases hp : 4194304 ≤ w.mem a ∧ w.mem a < 0x800000000000
  · rw [if_pos (by simp; omega)]
    by_cases hf : (w.follow (w.mem a) p).1 ≠ 0
    · rw [if_pos hf, List.mem_singleton]
      constructor
      · rintro rfl; exact ⟨hp, rfl, hf⟩
      · rintro ⟨_, h, _⟩; rw [h]
    · rw [if_neg hf]
      constructor
      · intro h; cases h
      · rintro ⟨_, h, h'⟩; rw [h] at hf; exact absurd h' hf
  · rw [if_neg (by simp; omega)]
    constructor
    · intro h; cases h
    · rintro ⟨h, _⟩; exact absurd h hp

mutual
theorem mem_visit : ∀ (t : Ty) (a : Nat) (v : Node), NoArr t → (∀ x, w.mem x ≠ 2 ^ 64 - 1) →
    (v ∈ visit w t a ↔ ∃ off p, PtrAt t off p ∧ Usable (w.mem (a + off)) ∧ w.follow (w.mem (a + off)) p = (v.obj, v.t) ∧ v.obj ≠ 0)
  | .leaf, a, v, _, _ => by
    rw [visit]
    constructor
    · intro h; cases h
    · rintro ⟨_, _, h, _⟩; cases h
  | .ptr p, a, v, _, h => by
    rw [visit, mem_followAt (h _)]
    constructor
    · intro g; exact ⟨0, p, .here p, g⟩
    · rintro ⟨_, _, g, g'⟩; cases g; exact g'
  | .comp ms, a, v, hn, h => by
    rw [visit, mem_visitMembs ms a v hn h]
    constructor
    · rintro ⟨off, p, g, g'⟩; exact ⟨off, p, .memb g, g'⟩
    · rintro ⟨off, p, g, g'⟩; cases g with
      | memb g => exact ⟨off, p, g, g'⟩
  | .arr _ _ _, _, _, hn, _ => hn.elim
theorem mem_visitMembs : ∀ (ms : Membs) (a : Nat) (v : Node), NoArrIn ms → (∀ x, w.mem x ≠ 2 ^ 64 - 1) →
    (v ∈ visitMembs w ms a ↔ ∃ off p, PtrIn ms off p ∧ Usable (w.mem (a + off)) ∧ w.follow (w.mem (a + off)) p = (v.obj, v.t) ∧ v.obj ≠ 0)
  | .nil, a, v, _, _ => by
    rw [visitMembs]
    constructor
    · intro h; cases h
    · rintro ⟨_, _, h, _⟩; cases h
  | .cons o t r, a, v, hn, h => by
    rw [visitMembs, List.mem_append, mem_visit t (a+o) v hn.1 h, mem_visitMembs r a v hn.2 h]
    constructor
    · rintro (⟨off, p, g, g'⟩ | ⟨off, p, g, g'⟩)
      · exact ⟨o + off, p, .head g, by rw [← Nat.add_assoc]; exact g'⟩
      · exact ⟨off, p, .tail g, g'⟩
    · rintro ⟨off, p, g, g'⟩
      cases g with
      | head g => exact .inl ⟨_, p, g, by rw [Nat.add_assoc]; exact g'⟩
      | tail g => exact .inr ⟨off, p, g, g'⟩
end

theorem mem_adjacent {u v : Node} (hh : Handled (w.types u.t)) (h : ∀ x, w.mem x ≠ 2 ^ 64 - 1) :
    v ∈ adjacent w u ↔ Edge w u v := by
  unfold adjacent Edge
  cases ht : w.types u.t with
  | leaf =>
    simp only
    constructor
    · intro h; cases h
    · rintro ⟨_, _, h, _⟩; cases h
  | ptr p => rw [ht] at hh; exact hh.elim
  | comp ms =>
    rw [ht] at hh
    simp only
    rw [mem_visitMembs ms _ v hh h]
    constructor
    · rintro ⟨off, p, g, g'⟩; exact ⟨off, p, .memb g, g'⟩
    · rintro ⟨off, p, g, g'⟩; cases g with
      | memb g => exact ⟨off, p, g, g'⟩
  | arr n sz el =>
    rw [ht] at hh
    simp only [List.mem_flatMap, List.mem_range]
    constructor
    · rintro ⟨i, hi, g⟩
      obtain ⟨off, p, g1, g2⟩ := (mem_visit el _ v hh h).mp g
      exact ⟨i * sz + off, p, .elem i hi g1, by rw [← Nat.add_assoc]; exact g2⟩
    · rintro ⟨off, p, g, g'⟩
      cases g with
      | elem i hi g =>
        exact ⟨i, hi, (mem_visit el _ v hh h).mpr ⟨_, p, g, by rw [Nat.add_assoc]; exact g'⟩⟩

/-! ### The colour map -/

/-- The keys of a colour map, all with a colour other than white. -/
def Keys (m : Colours) (s : Nat → Prop) : Prop := (∀ e, e ∈ m → e.2 ≠ 0) ∧ ∀ k, s k ↔ ∃ v, (k, v) ∈ m

theorem set_keys (m : Colours) (k v : Nat) (hv : v ≠ 0) (s : Nat → Prop) (h : Keys m s)
    (hd : ∀ k', s k' → compEq k k' = true → k = k') : Keys (set m k v) (fun x => s x ∨ x = k) := by
  induction m generalizing s with
  | nil =>
    refine ⟨fun e he => ?_, fun x => ?_⟩
    · rw [set, List.mem_singleton] at he; subst he; exact hv
    · rw [set]
      simp only [List.mem_singleton, Prod.mk.injEq, h.2]
      constructor
      · rintro (⟨v, h⟩ | h)
        · cases h
        · exact ⟨v, h, rfl⟩
      · rintro ⟨_, h, _⟩; exact .inr h
  | cons e r ih =>
    obtain ⟨k', v'⟩ := e
    rw [set]
    by_cases hk : compEq k k' = true
    · rw [if_pos hk]
      have hkk : k = k' := hd k' ((h.2 k').mpr ⟨v', List.mem_cons_self⟩) hk
      subst hkk
      refine ⟨fun e he => ?_, fun x => ?_⟩
      · rcases List.mem_cons.mp he with rfl | he
        · exact hv
        · exact h.1 e (List.mem_cons_of_mem _ he)
      · simp only [h.2, List.mem_cons, Prod.mk.injEq]
        constructor
        · rintro (⟨u, ⟨h1, _⟩ | h1⟩ | h1)
          · exact ⟨v, .inl ⟨h1, rfl⟩⟩
          · exact ⟨u, .inr h1⟩
          · exact ⟨v, .inl ⟨h1, rfl⟩⟩
        · rintro ⟨u, ⟨h1, _⟩ | h1⟩
          · exact .inr h1
          · exact .inl ⟨u, .inr h1⟩
    · rw [if_neg hk]
      have ih := ih (fun x => ∃ v, (x, v) ∈ r) ⟨fun e he => h.1 e (List.mem_cons_of_mem _ he), fun _ => Iff.rfl⟩
        (fun x hx hc => hd x ((h.2 x).mpr (by obtain ⟨v, hv⟩ := hx; exact ⟨v, List.mem_cons_of_mem _ hv⟩)) hc)
      refine ⟨fun e he => ?_, fun x => ?_⟩
      · rcases List.mem_cons.mp he with rfl | he
        · exact h.1 _ List.mem_cons_self
        · exact ih.1 e he
      · have i2 := ih.2 x
        simp only [h.2, List.mem_cons, Prod.mk.injEq]
        constructor
        · rintro (⟨u, h1 | h1⟩ | h1)
          · exact ⟨u, .inl h1⟩
          · obtain ⟨u', hu⟩ := i2.mp (.inl ⟨u, h1⟩)
            exact ⟨u', .inr hu⟩
          · obtain ⟨u', hu⟩ := i2.mp (.inr h1)
            exact ⟨u', .inr hu⟩
        · rintro ⟨u, h1 | h1⟩
          · exact .inl ⟨u, .inl h1⟩
          · rcases i2.mpr ⟨u, h1⟩ with ⟨u', hu⟩ | hu
            · exact .inl ⟨u', .inr hu⟩
            · exact .inr hu

theorem get_zero (m : Colours) (k : Nat) (s : Nat → Prop) (h : Keys m s)
    (hd : ∀ k', s k' → compEq k k' = true → k = k') : get m k = 0 ↔ ¬ s k := by
  rw [h.2]
  replace hd : ∀ k' v, (k', v) ∈ m → compEq k k' = true → k = k' := fun k' v hm => hd k' ((h.2 k').mpr ⟨v, hm⟩)
  have h1 := h.1
  clear h
  induction m with
  | nil => simp [get]
  | cons e r ih =>
    obtain ⟨k', v'⟩ := e
    rw [get]
    by_cases hk : compEq k k' = true
    · rw [if_pos hk]
      have := hd k' v' List.mem_cons_self hk
      subst this
      have := h1 _ List.mem_cons_self
      constructor
      · intro h; exact absurd h this
      · intro h; exact absurd ⟨v', List.mem_cons_self⟩ h
    · rw [if_neg hk]
      refine (ih (fun k' v hm => hd k' v (List.mem_cons_of_mem _ hm)) (fun e he => h1 e (List.mem_cons_of_mem _ he))).trans ?_
      simp only [List.mem_cons, Prod.mk.injEq]
      constructor
      · rintro h ⟨v, ⟨rfl, _⟩ | hv⟩
        · apply hk; simp [compEq]
        · exact h ⟨v, hv⟩
      · rintro h ⟨v, hv⟩; exact h ⟨v, .inr hv⟩

/-! ### The walk -/

/-- A finite closed part of the graph on which the walk's assumptions hold. -/
structure Good (w : World) (R : List Node) : Prop where
  closed : ∀ u, u ∈ R → ∀ v, Edge w u v → v ∈ R
  near : ∀ u v, u ∈ R → v ∈ R → u.obj < v.obj + 2 ^ 31
  typed : ∀ u v, u ∈ R → v ∈ R → u.obj = v.obj → u = v
  handled : ∀ u, u ∈ R → Handled (w.types u.t)
  noOnes : ∀ x, w.mem x ≠ 2 ^ 64 - 1

theorem Good.compEq {R : List Node} (G : Good w R) {u v : Node} (hu : u ∈ R) (hv : v ∈ R)
    (h : compEq u.obj v.obj = true) : u = v := by
  apply G.typed u v hu hv
  have h1 := G.near u v hu hv
  have h2 := G.near v u hv hu
  simp only [Bfs.compEq, beq_iff_eq] at h
  omega

/-- The labelled nodes (visited then queued), in order, with their number of steps. -/
structure Inv (w : World) (R : List Node) (root : Node) (out q : List (Node × Nat)) : Prop where
  sub : ∀ e, e ∈ out ++ q → e.1 ∈ R
  nodup : ((out ++ q).map Prod.fst).Nodup
  start : (root, 0) ∈ out ++ q
  steps : ∀ e, e ∈ out ++ q → Steps w root e.2 e.1
  closed : ∀ e, e ∈ out → ∀ v, Edge w e.1 v → ∃ l, l ≤ e.2 + 1 ∧ (v, l) ∈ out ++ q
  sorted : ((out ++ q).map (·.2)).Pairwise (· ≤ ·)
  top : ∀ e, q.head? = some e → ∀ x, x ∈ out ++ q → x.2 ≤ e.2 + 1

theorem enqueue_spec {R : List Node} (G : Good w R) {all : List Node} (d : Nat) : ∀ (vs : List Node) (m : Colours) (q : List (Node × Nat)),
    (∀ v, v ∈ vs → v ∈ R) → (∀ v, v ∈ all ++ q.map Prod.fst → v ∈ R) → (all ++ q.map Prod.fst).Nodup →
    Keys m (fun k => ∃ u, u ∈ all ++ q.map Prod.fst ∧ u.obj = k) →
    ∃ new : List Node, (enqueue vs m (q.map Prod.fst)).2 = (q ++ new.map (fun v => (v, d))).map Prod.fst ∧
      (∀ v, v ∈ new → v ∈ vs) ∧ (∀ v, v ∈ vs → v ∈ all ++ (q ++ new.map (fun v => (v, d))).map Prod.fst) ∧
      (all ++ (q ++ new.map (fun v => (v, d))).map Prod.fst).Nodup ∧
      Keys (enqueue vs m (q.map Prod.fst)).1 (fun k => ∃ u, u ∈ all ++ (q ++ new.map (fun v => (v, d))).map Prod.fst ∧ u.obj = k) := by
  intro vs
  induction vs with
  | nil => intro m q _ _ h3 h4; exact ⟨[], by simp [enqueue], by simp, by simp, by simpa using h3, by simpa [enqueue] using h4⟩
  | cons v vs ih =>
    intro m q h1 h2 h3 h4
    have hv := h1 v List.mem_cons_self
    have hd : ∀ k', (∃ u, u ∈ all ++ q.map Prod.fst ∧ u.obj = k') → compEq v.obj k' = true → v.obj = k' := by
      rintro k' ⟨u, hu, rfl⟩ hc
      rw [G.compEq hv (h2 u hu) hc]
    have hg := get_zero m v.obj _ h4 hd
    rw [enqueue]
    by_cases hz : get m v.obj = 0
    · rw [if_pos hz]
      have hnot : v ∉ all ++ q.map Prod.fst := fun h => hg.mp hz ⟨v, h, rfl⟩
      have hk := set_keys m v.obj 1 (by decide) _ h4 hd
      have hq : q.map Prod.fst ++ [v] = (q ++ [(v, d)]).map Prod.fst := by simp
      rw [hq]
      obtain ⟨new, g1, g2, g3, g4, g5⟩ := ih (set m v.obj 1) (q ++ [(v, d)]) (fun x hx => h1 x (List.mem_cons_of_mem _ hx))
        (by
          intro x hx
          rw [← hq, ← List.append_assoc, List.mem_append] at hx
          rcases hx with hx | hx
          · exact h2 x hx
          · rw [List.mem_singleton.mp hx]; exact hv)
        (by
          rw [← hq, ← List.append_assoc, List.nodup_append]
          refine ⟨h3, by simp, ?_⟩
          intro a ha b hb
          rw [List.mem_singleton.mp hb]
          rintro rfl; exact hnot ha)
        (by
          refine ⟨hk.1, fun k => ?_⟩
          rw [← hk.2 k, ← hq, ← List.append_assoc]
          constructor
          · rintro ⟨u, hu, rfl⟩
            rcases List.mem_append.mp hu with hu | hu
            · exact .inl ⟨u, hu, rfl⟩
            · rw [List.mem_singleton.mp hu]; exact .inr rfl
          · rintro (⟨u, hu, rfl⟩ | rfl)
            · exact ⟨u, List.mem_append_left _ hu, rfl⟩
            · exact ⟨v, List.mem_append_right _ (List.mem_singleton.mpr rfl), rfl⟩)
      have e : q ++ [(v, d)] ++ new.map (fun v => (v, d)) = q ++ (v :: new).map (fun v => (v, d)) := by simp
      rw [e] at g1 g3 g4 g5
      refine ⟨v :: new, g1, ?_, ?_, g4, g5⟩
      · intro x hx
        rcases List.mem_cons.mp hx with rfl | hx
        · exact List.mem_cons_self
        · exact List.mem_cons_of_mem _ (g2 x hx)
      · intro x hx
        rcases List.mem_cons.mp hx with rfl | hx
        · simp
        · exact g3 x hx
    · rw [if_neg hz]
      obtain ⟨new, g1, g2, g3, g4, g5⟩ := ih m q (fun x hx => h1 x (List.mem_cons_of_mem _ hx)) h2 h3 h4
      refine ⟨new, g1, fun x hx => List.mem_cons_of_mem _ (g2 x hx), ?_, g4, g5⟩
      intro x hx
      rcases List.mem_cons.mp hx with rfl | hx
      · have : ∃ u, u ∈ all ++ q.map Prod.fst ∧ u.obj = x.obj := by
          apply Classical.byContradiction
          intro h; exact hz (hg.mpr h)
        obtain ⟨u, hu, he⟩ := this
        have := G.typed u x (h2 u hu) hv he
        subst this
        rw [List.map_append, ← List.append_assoc]
        exact List.mem_append_left _ hu
      · exact g3 x hx

theorem nodup_length_le {l R : List Node} (hn : l.Nodup) (h : ∀ x, x ∈ l → x ∈ R) : l.length ≤ R.length := by
  induction l generalizing R with
  | nil => exact Nat.zero_le _
  | cons a l ih =>
    rw [List.nodup_cons] at hn
    have ha := h a List.mem_cons_self
    have := ih (R := R.erase a) hn.2 (fun x hx => by
      rw [List.mem_erase_of_ne (by rintro rfl; exact hn.1 hx)]
      exact h x (List.mem_cons_of_mem _ hx))
    rw [List.length_erase_of_mem ha] at this
    have := List.length_pos_of_mem ha
    simp only [List.length_cons]
    omega

/-- The statement of one whole walk, given its labelled result. -/
theorem process_spec {R : List Node} (G : Good w R) {root : Node} : ∀ (k : Nat) (q out : List (Node × Nat)) (m : Colours) (s : Nat → Prop),
    R.length < k + out.length → Inv w R root out q → Keys m s →
    (∀ u r, q = u :: r → ∀ x, (s x ∨ x = u.1.obj) ↔ ∃ e, e ∈ out ++ q ∧ e.1.obj = x) →
    ∃ res : List (Node × Nat), process w k (q.map Prod.fst) m (out.map Prod.fst) = some (res.map Prod.fst) ∧ Inv w R root res [] := by
  intro k
  induction k with
  | zero =>
    intro q out m s hk I
    have := nodup_length_le I.nodup (R := R) (by
      intro x hx
      obtain ⟨e, he, rfl⟩ := List.mem_map.mp hx
      exact I.sub e he)
    simp only [List.length_map, List.length_append] at this
    omega
  | succ k ih =>
    intro q out m s hk I hK hs
    cases q with
    | nil => exact ⟨out, by simp [process], I⟩
    | cons u q =>
      obtain ⟨u, d⟩ := u
      simp only [List.map_cons]
      rw [process]
      have hu : u ∈ R := I.sub (u, d) (by simp)
      have hs := hs (u, d) q rfl
      have hR : ∀ v, v ∈ (out.map Prod.fst ++ [u]) ++ q.map Prod.fst → v ∈ R := by
        intro v hv
        have : v ∈ (out ++ (u, d) :: q).map Prod.fst := by simpa using hv
        obtain ⟨e, he, rfl⟩ := List.mem_map.mp this
        exact I.sub e he
      have hset : ∀ v, v ≠ 0 → ∀ m (s' : Nat → Prop), (∀ x, s' x → ∃ y, y ∈ R ∧ y.obj = x) → Keys m s' → Keys (set m u.obj v) (fun x => s' x ∨ x = u.obj) := by
        intro v hv m s' h1 h2
        refine set_keys m u.obj v hv s' h2 ?_
        intro k' hk' hc
        obtain ⟨y, hy, rfl⟩ := h1 k' hk'
        rw [G.compEq hu hy hc]
      have hsR : ∀ x, s x → ∃ y, y ∈ R ∧ y.obj = x := by
        intro x hx
        obtain ⟨e, he, h⟩ := (hs x).mp (.inl hx)
        exact ⟨e.1, I.sub e he, h⟩
      have hK1 := hset 1 (by decide) m s hsR hK
      have hK2 : Keys (set m u.obj 1) (fun x => ∃ y, y ∈ (out.map Prod.fst ++ [u]) ++ q.map Prod.fst ∧ y.obj = x) := by
        refine ⟨hK1.1, fun x => ?_⟩
        refine Iff.trans ?_ (hK1.2 x)
        refine Iff.trans ?_ (hs x).symm
        constructor
        · rintro ⟨y, hy, rfl⟩
          have : y ∈ (out ++ (u, d) :: q).map Prod.fst := by simpa using hy
          obtain ⟨e, he, rfl⟩ := List.mem_map.mp this
          exact ⟨e, he, rfl⟩
        · rintro ⟨e, he, rfl⟩
          refine ⟨e.1, ?_, rfl⟩
          have := List.mem_map_of_mem (f := Prod.fst) he
          simpa using this
      have hnd : ((out.map Prod.fst ++ [u]) ++ q.map Prod.fst).Nodup := by simpa using I.nodup
      have hadj : ∀ v, v ∈ adjacent w u ↔ Edge w u v := fun v => mem_adjacent (G.handled u hu) G.noOnes
      obtain ⟨new, g1, g2, g3, g4, g5⟩ := enqueue_spec G (d+1) (adjacent w u) (set m u.obj 1) q
        (fun v hv => G.closed u hu v ((hadj v).mp hv)) hR hnd hK2
      rw [g1, show out.map Prod.fst ++ [u] = (out ++ [(u, d)]).map Prod.fst by simp]
      have hall : (out ++ [(u, d)]) ++ (q ++ new.map (fun v => (v, d+1))) = (out ++ (u, d) :: q) ++ new.map (fun v => (v, d+1)) := by simp
      have hK3 := hset 2 (by decide) _ _ (by
        rintro x ⟨y, hy, rfl⟩
        refine ⟨y, ?_, rfl⟩
        rw [List.map_append, ← List.append_assoc, List.mem_append] at hy
        rcases hy with hy | hy
        · exact hR y hy
        · simp only [List.map_map, List.mem_map, Function.comp] at hy
          obtain ⟨z, hz, rfl⟩ := hy
          exact G.closed u hu z ((hadj z).mp (g2 z hz))) g5
      refine ih (q ++ new.map (fun v => (v, d+1))) (out ++ [(u, d)]) _ _ (by simp; omega) ?_ hK3 ?_
      · constructor
        · intro e he
          rw [hall, List.mem_append] at he
          rcases he with he | he
          · exact I.sub e he
          · obtain ⟨z, hz, rfl⟩ := List.mem_map.mp he
            exact G.closed u hu z ((hadj z).mp (g2 z hz))
        · simpa using g4
        · rw [hall]; exact List.mem_append_left _ I.start
        · intro e he
          rw [hall, List.mem_append] at he
          rcases he with he | he
          · exact I.steps e he
          · obtain ⟨z, hz, rfl⟩ := List.mem_map.mp he
            exact .succ (I.steps (u, d) (by simp)) ((hadj z).mp (g2 z hz))
        · intro e he v hv
          rw [hall]
          rcases List.mem_append.mp he with he | he
          · obtain ⟨l, h1, h2⟩ := I.closed e he v hv
            exact ⟨l, h1, List.mem_append_left _ h2⟩
          · rw [List.mem_singleton.mp he] at hv ⊢
            have h3 := g3 v ((hadj v).mpr hv)
            have : v ∈ ((out ++ (u, d) :: q) ++ new.map (fun v => (v, d+1))).map Prod.fst := by simpa using h3
            obtain ⟨e', he', rfl⟩ := List.mem_map.mp this
            refine ⟨e'.2, ?_, he'⟩
            rcases List.mem_append.mp he' with h | h
            · exact I.top (u, d) rfl e' h
            · obtain ⟨z, hz, rfl⟩ := List.mem_map.mp h
              exact Nat.le_refl _
        · rw [hall, List.map_append, List.pairwise_append]
          refine ⟨I.sorted, ?_, ?_⟩
          · simp only [List.map_map, Function.comp_def]
            rw [List.pairwise_map]
            induction new with
            | nil => exact .nil
            | cons a l _ => exact List.pairwise_of_forall (fun _ _ => Nat.le_refl _)
          · intro a ha b hb
            simp only [List.map_map, List.mem_map, Function.comp] at hb
            obtain ⟨z, _, rfl⟩ := hb
            obtain ⟨e, he, rfl⟩ := List.mem_map.mp ha
            exact I.top (u, d) rfl e he
        · intro e he x hx
          rw [hall] at hx
          have hde : d ≤ e.2 := by
            have hm : e ∈ q ++ new.map (fun v => (v, d+1)) := List.mem_of_head? he
            rcases List.mem_append.mp hm with h | h
            · have := I.sorted
              rw [List.map_append, List.map_cons, List.pairwise_append] at this
              exact List.rel_of_pairwise_cons this.2.1 (List.mem_map_of_mem h)
            · obtain ⟨z, _, rfl⟩ := List.mem_map.mp h
              exact Nat.le_succ _
          rcases List.mem_append.mp hx with h | h
          · have := I.top (u, d) rfl x h
            simp only at this; omega
          · obtain ⟨z, _, rfl⟩ := List.mem_map.mp h
            simp only; omega
      · intro u' r' he x
        have hmap : ∀ e, e ∈ (out ++ [(u, d)]) ++ (q ++ new.map (fun v => (v, d+1))) →
            e.1 ∈ (out.map Prod.fst ++ [u]) ++ (q ++ new.map (fun v => (v, d+1))).map Prod.fst := by
          intro e h
          have := List.mem_map_of_mem (f := Prod.fst) h
          simpa using this
        have hmap' : ∀ y, y ∈ (out.map Prod.fst ++ [u]) ++ (q ++ new.map (fun v => (v, d+1))).map Prod.fst →
            ∃ e, e ∈ (out ++ [(u, d)]) ++ (q ++ new.map (fun v => (v, d+1))) ∧ e.1 = y := by
          intro y h
          have : y ∈ ((out ++ [(u, d)]) ++ (q ++ new.map (fun v => (v, d+1)))).map Prod.fst := by simpa using h
          obtain ⟨e, h1, h2⟩ := List.mem_map.mp this
          exact ⟨e, h1, h2⟩
        constructor
        · rintro ((⟨y, hy, rfl⟩ | rfl) | rfl)
          · obtain ⟨e, h1, rfl⟩ := hmap' y hy
            exact ⟨e, h1, rfl⟩
          · exact ⟨(u, d), by simp, rfl⟩
          · exact ⟨u', by rw [he]; simp, rfl⟩
        · rintro ⟨e, he', rfl⟩
          exact .inl (.inl ⟨e.1, hmap e he', rfl⟩)

/-- **C39** (partial).  On every finite object graph (cycles allowed) whose types the walk handles, whose
objects are within 2 GiB of each other and where an address is always seen with the same type, the
walk terminates and visits exactly the objects reachable from the root, each once, in order of their
distance (least number of pointer steps) from the root. -/
theorem walk_bfs_partial {R : List Node} (G : Good w R) {root : Node} (hr : root ∈ R) (hne : root.obj ≠ 0)
    {fuel : Nat} (hf : R.length < fuel) :
    ∃ res : List Node, walkFrom w fuel root = some res ∧ res.Nodup ∧
      (∀ v, v ∈ res ↔ ∃ n, Steps w root n v) ∧
      ∃ dist : Node → Nat, (∀ v, v ∈ res → Steps w root (dist v) v ∧ ∀ n, Steps w root n v → dist v ≤ n) ∧
        (res.map dist).Pairwise (· ≤ ·) := by
  rw [walkFrom, if_neg hne]
  obtain ⟨res, h1, I⟩ := process_spec G (root := root) fuel [(root, 0)] [] [] (fun _ => False) (by simpa using hf)
    ⟨by simpa using hr, by simp, by simp, by simp only [List.nil_append, List.mem_singleton]; rintro _ rfl; exact .zero, by simp, by simp, by simp⟩
    ⟨by simp, by simp⟩ (by
      intro u r h x
      cases h
      simp [eq_comm])
  refine ⟨res.map Prod.fst, h1, by simpa using I.nodup, ?_⟩
  have hcl : ∀ n v, Steps w root n v → ∃ l, l ≤ n ∧ (v, l) ∈ res := by
    intro n v h
    induction h with
    | zero => exact ⟨0, Nat.le_refl _, by simpa using I.start⟩
    | succ _ he ih =>
      obtain ⟨l, h2, h3⟩ := ih
      obtain ⟨l', h4, h5⟩ := I.closed _ (by simpa using h3) _ he
      simp only [List.append_nil] at h5
      exact ⟨l', by simp only at h4; omega, h5⟩
  have hmem : ∀ v, v ∈ res.map Prod.fst ↔ ∃ n, Steps w root n v := by
    intro v
    constructor
    · intro hv
      obtain ⟨e, he, rfl⟩ := List.mem_map.mp hv
      exact ⟨e.2, I.steps e (by simpa using he)⟩
    · rintro ⟨n, hn⟩
      obtain ⟨l, _, h⟩ := hcl n v hn
      exact List.mem_map_of_mem (f := Prod.fst) h
  refine ⟨hmem, fun v => (((res.find? (fun e => e.1 = v)).map (·.2)).getD 0), ?_, ?_⟩
  all_goals
    have hfind : ∀ e, e ∈ res → res.find? (fun x => x.1 = e.1) = some e := by
      intro e he
      have hnd : (res.map Prod.fst).Nodup := by simpa using I.nodup
      clear h1 I hcl hmem
      induction res with
      | nil => cases he
      | cons a l ih =>
        rw [List.map_cons, List.nodup_cons] at hnd
        rw [List.find?_cons]
        rcases List.mem_cons.mp he with rfl | he
        · simp
        · have : a.1 ≠ e.1 := by
            intro h; rw [h] at hnd; exact hnd.1 (List.mem_map_of_mem (f := Prod.fst) he)
          simp only [this, decide_false]
          exact ih he hnd.2
  · intro v hv
    obtain ⟨e, he, rfl⟩ := List.mem_map.mp hv
    simp only [hfind e he, Option.map_some, Option.getD_some]
    refine ⟨I.steps e (by simpa using he), ?_⟩
    intro n hn
    obtain ⟨l, h2, h3⟩ := hcl n e.1 hn
    have := hfind _ h3
    rw [hfind e he, Option.some.injEq] at this
    rw [this]
    exact h2
  · have : (res.map Prod.fst).map (fun v => (((res.find? (fun e => e.1 = v)).map (·.2)).getD 0)) = res.map (·.2) := by
      rw [List.map_map]
      apply List.map_congr_left
      intro e he
      simp [hfind e he]
    rw [this]
    simpa using I.sorted

end

/-! ## Concrete cases and disagreements -/

/-- A struct of two pointers (type 1) and a leaf type (type 0); a cycle of two structs and a leaf. -/
def exTypes : Nat → Ty
  | 1 => .comp (.cons 0 (.ptr 1) (.cons 8 (.ptr 0) .nil))
  | 2 => .comp (.cons 0 (.arr 2 8 (.ptr 0)) .nil)
  | 3 => .ptr 0
  | _ => .leaf

def exMem : Nat → Nat
  | 5000000 => 5000100
  | 5000008 => 5000200
  | 5000100 => 5000000
  | 5000108 => 5000200
  | _ => 0

def exW : World := ⟨exMem, exTypes, fun p t => (p, t)⟩

example : walkFrom exW 5 ⟨5000000, 1⟩ = some [⟨5000000, 1⟩, ⟨5000100, 1⟩, ⟨5000200, 0⟩] := by decide

theorem exW_ones : ∀ x, exW.mem x ≠ 2 ^ 64 - 1 := by
  intro x
  show exMem x ≠ _
  unfold exMem
  split <;> decide

/-- The theorem's assumptions hold of this cyclic graph. -/
theorem exW_good : Good exW [⟨5000000, 1⟩, ⟨5000100, 1⟩, ⟨5000200, 0⟩] := by
  have hh : ∀ u, u ∈ [(⟨5000000, 1⟩ : Node), ⟨5000100, 1⟩, ⟨5000200, 0⟩] → Handled (exW.types u.t) := by
    intro u hu
    simp only [List.mem_cons, List.not_mem_nil, or_false] at hu
    rcases hu with rfl | rfl | rfl <;> simp [exW, exTypes, Handled, NoArrIn, NoArr]
  refine ⟨?_, fun u v hu hv => ?_, fun u v hu hv => ?_, hh, exW_ones⟩
  rotate_left
  · revert v; revert u; decide
  · revert v; revert u; decide
  intro u hu v he
  rw [← mem_adjacent (hh u hu) exW_ones] at he
  revert v
  revert u
  decide

example : ∃ res, walkFrom exW 4 ⟨5000000, 1⟩ = some res ∧ res.Nodup := by
  obtain ⟨res, h1, h2, _⟩ := walk_bfs_partial exW_good (root := ⟨5000000, 1⟩) (by decide) (by decide) (fuel := 4) (by decide)
  exact ⟨res, h1, h2⟩

/-- Disagreement with C39: pointers in an array that is a member of a struct are not followed. -/
theorem nested_array_fails : walkFrom exW 5 ⟨5000000, 2⟩ = some [⟨5000000, 2⟩] ∧
    Edge exW ⟨5000000, 2⟩ ⟨5000100, 0⟩ := by
  refine ⟨by decide, 0, 0, ?_, by unfold Usable; decide, rfl, by decide⟩
  exact .memb (.head (off := 0) (.elem (off := 0) 0 (by decide) (.here 0)))

/-- Disagreement with C39: an object that is itself a pointer is not followed. -/
theorem plain_pointer_fails : walkFrom exW 5 ⟨5000000, 3⟩ = some [⟨5000000, 3⟩] ∧
    Edge exW ⟨5000000, 3⟩ ⟨5000100, 0⟩ :=
  ⟨by decide, 0, 0, .here 0, by unfold Usable; decide, rfl, by decide⟩

/-- Disagreement with C39: of two objects exactly 4 GiB apart only the first is visited. -/
theorem far_objects_fails :
    let w : World := ⟨fun a => if a = 5000000 then 5000000 + 2 ^ 32 else 0, exTypes, fun p t => (p, t)⟩
    walkFrom w 5 ⟨5000000, 1⟩ = some [⟨5000000, 1⟩] ∧ Edge w ⟨5000000, 1⟩ ⟨5000000 + 2 ^ 32, 1⟩ := by
  refine ⟨by decide, 0, 1, .memb (.head (off := 0) (.here 1)), by unfold Usable; decide, rfl, by decide⟩

/-- Disagreement with C39: an all-ones word in a pointer slot, which the code means to treat like null, is
visited as an object. -/
theorem all_ones_fails :
    let w : World := ⟨fun a => if a = 5000008 then 2 ^ 64 - 1 else 0, exTypes, fun p t => (p, t)⟩
    walkFrom w 5 ⟨5000000, 1⟩ = some [⟨5000000, 1⟩, ⟨2 ^ 64 - 1, 0⟩] := by
  decide

/-- Disagreement with C39: when an address is first reached with a type without pointers, what the object
pointed to by its other type contains is never visited. -/
theorem two_types_fails :
    let w : World := ⟨fun a => if a = 5000000 then 5000100 else if a = 5000108 then 5000100 else if a = 5000008 then 5000100 else if a = 5000100 then 5000300 else 0,
      fun t => if t = 4 then .comp (.cons 0 (.ptr 0) (.cons 8 (.ptr 1) .nil)) else exTypes t, fun p t => (p, t)⟩
    walkFrom w 5 ⟨5000000, 4⟩ = some [⟨5000000, 4⟩, ⟨5000100, 0⟩] ∧
      Edge w ⟨5000000, 4⟩ ⟨5000100, 1⟩ ∧ Edge w ⟨5000100, 1⟩ ⟨5000300, 1⟩ := by
  refine ⟨by decide, ⟨8, 1, ?_, by unfold Usable; decide, rfl, by decide⟩, 0, 1, ?_, by unfold Usable; decide, rfl, by decide⟩
  · exact .memb (.tail (.head (off := 0) (.here 1)))
  · exact .memb (.head (off := 0) (.here 1))

/-- Disagreement with C39 for the entry point that takes a queue of roots
(`__uniqtype_process_bfs_queue`): a root that another root points to is visited twice. -/
theorem several_roots_fails :
    process exW 9 [⟨5000000, 1⟩, ⟨5000100, 1⟩] [] [] =
      some [⟨5000000, 1⟩, ⟨5000100, 1⟩, ⟨5000100, 1⟩, ⟨5000200, 0⟩] := by decide

end Liballocs.Bfs
