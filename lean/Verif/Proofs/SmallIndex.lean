import Verif.Model.SmallIndex
/-!
# Small-object index: the table represents a set of disjoint objects
-/
namespace Liballocs.SmallIndex

structure Obj where
  start : Nat
  size : Nat
  site : Nat
  deriving DecidableEq

def Obj.contains (o : Obj) (a : Nat) : Prop := o.start ≤ a ∧ a < o.start + o.size

instance (o : Obj) (a : Nat) : Decidable (o.contains a) := by unfold Obj.contains; infer_instance

def Obj.disjoint (o p : Obj) : Prop := o.start + o.size ≤ p.start ∨ p.start + p.size ≤ o.start

/-- What the index requires of an object: it lies in the chunk, its allocation site is a user address, it has fewer than
4 MiB if it leaves its bucket, and its part in the first bucket has fewer than 256 bytes. -/
def Obj.ok (c : Cfg) (o : Obj) : Prop :=
  0 < o.size ∧ o.start + o.size ≤ c.N * c.P ∧ MINU ≤ o.site ∧ o.site < 2 ^ 47 ∧ o.size < MINU ∧
    thisSize c o.start o.size < 256

def entFor (c : Cfg) (k : Nat) (o : Obj) : Option Ent :=
  if o.start / c.P = k then some (startEnt c o.start o.size o.site)
  else if o.start / c.P + 1 = k ∧ spills c o.start o.size then some (contEnt c o.start o.size)
  else none

/-- The configuration: pitches up to 256 bytes and fewer than 4 Mi buckets. -/
def Cfg.ok (c : Cfg) : Prop := 0 < c.P ∧ c.P ≤ 256 ∧ c.N ≤ MINU

structure Good (c : Cfg) (live : List Obj) : Prop where
  disj : live.Pairwise Obj.disjoint
  ok : ∀ o ∈ live, o.ok c
  roomy : ∀ k, (live.filterMap (entFor c k)).length < c.P

def ColOk (c : Cfg) (s : St) (live : List Obj) (k : Nat) : Prop := (s.cols k).Perm (live.filterMap (entFor c k))

structure Reps (c : Cfg) (s : St) (live : List Obj) : Prop where
  good : Good c live
  cols : ∀ k, ColOk c s live k
  big : ∀ o ∈ live, o.size ≤ s.biggest

/-! ## Arithmetic -/

theorem div_bounds {P a : Nat} (hP : 0 < P) : a / P * P ≤ a ∧ a < (a / P + 1) * P := by
  have h1 := Nat.div_add_mod a P
  have h2 := Nat.mod_lt a hP
  rw [Nat.mul_comm] at h1
  rw [Nat.add_mul]; omega

theorem div_eq_iff {P a k : Nat} (hP : 0 < P) : a / P = k ↔ k * P ≤ a ∧ a < (k + 1) * P := by
  constructor
  · rintro rfl; exact div_bounds hP
  · rintro ⟨h1, h2⟩
    exact Nat.le_antisymm (Nat.lt_succ_iff.mp ((Nat.div_lt_iff_lt_mul hP).mpr h2)) ((Nat.le_div_iff_mul_le hP).mpr h1)

theorem mod_eq_sub {P a : Nat} : a / P * P + a % P = a := by
  rw [Nat.mul_comm]; exact Nat.div_add_mod a P

theorem spills_iff {c : Cfg} {st sz : Nat} : spills c st sz = true ↔ (st / c.P + 1) * c.P < st + sz := by
  simp [spills]

/-- The part in the first bucket. -/
theorem thisSize_eq {c : Cfg} (hP : 0 < c.P) {st sz : Nat} (_hs : 0 < sz) :
    thisSize c st sz = min sz ((st / c.P + 1) * c.P - st) := by
  have h := div_bounds (a := st) hP
  have hm := mod_eq_sub (P := c.P) (a := st)
  unfold thisSize
  have hmul : (st / c.P + 1) * c.P = st / c.P * c.P + c.P := by rw [Nat.add_mul, Nat.one_mul]
  split
  · rename_i e
    have := (div_eq_iff hP).mp e
    omega
  · rename_i e
    have : ¬ (st / c.P * c.P ≤ st + sz ∧ st + sz < (st / c.P + 1) * c.P) := fun q => e ((div_eq_iff hP).mpr q)
    omega

/-! ## Entries -/

theorem startEnt_props {c : Cfg} (hc : c.ok) {o : Obj} (ho : o.ok c) :
    (startEnt c o.start o.size o.site).isCont = false ∧ (startEnt c o.start o.size o.site).discr ≠ 0 ∧
    o.start / c.P * c.P + (startEnt c o.start o.size o.site).off = o.start ∧
    (startEnt c o.start o.size o.site).off < c.P ∧
    (startEnt c o.start o.size o.site).tsz = min o.size ((o.start / c.P + 1) * c.P - o.start) ∧
    0 < (startEnt c o.start o.size o.site).tsz := by
  obtain ⟨h1, h2, h3⟩ := hc
  obtain ⟨g1, g2, g3, g4, g5, g6⟩ := ho
  have e := thisSize_eq (c := c) h1 (st := o.start) g1
  have hb := div_bounds (a := o.start) h1
  have hml := Nat.mod_lt o.start h1
  have hmod : o.start % c.P % 256 = o.start % c.P := Nat.mod_eq_of_lt (by omega)
  have hs : o.site % 2 ^ 47 = o.site := Nat.mod_eq_of_lt g4
  have ht : thisSize c o.start o.size % 256 = thisSize c o.start o.size := Nat.mod_eq_of_lt g6
  have hm := mod_eq_sub (P := c.P) (a := o.start)
  refine ⟨?_, ?_, ?_, ?_, ?_, ?_⟩
  · simp only [startEnt, Ent.isCont, hs]; simp; omega
  · simp only [startEnt, hs]; unfold MINU at g3; omega
  · simp only [startEnt, hmod]; exact hm
  · simp only [startEnt, hmod]; exact hml
  · simp only [startEnt, ht]; exact e
  · simp only [startEnt, ht]; rw [e]; omega

theorem contEnt_props {c : Cfg} {o : Obj} (ho : o.ok c) :
    (contEnt c o.start o.size).isCont = true ∧ (contEnt c o.start o.size).discr = o.size ∧
    (contEnt c o.start o.size).off = 0 := by
  obtain ⟨g1, g2, g3, g4, g5, g6⟩ := ho
  have : o.size % 2 ^ 22 = o.size := Nat.mod_eq_of_lt g5
  refine ⟨?_, ?_, rfl⟩
  · simp only [contEnt, Ent.isCont, this]; simp; exact ⟨by omega, g5⟩
  · simp only [contEnt, this]

theorem entFor_cases {c : Cfg} {k : Nat} {o : Obj} {e : Ent} (h : entFor c k o = some e) :
    (o.start / c.P = k ∧ e = startEnt c o.start o.size o.site) ∨
    (o.start / c.P + 1 = k ∧ spills c o.start o.size = true ∧ e = contEnt c o.start o.size) := by
  unfold entFor at h
  split at h
  · rename_i e1; simp at h; exact Or.inl ⟨e1, h.symm⟩
  · split at h
    · rename_i e1; simp at h; exact Or.inr ⟨e1.1, e1.2, h.symm⟩
    · simp at h

theorem entFor_start {c : Cfg} {o : Obj} : entFor c (o.start / c.P) o = some (startEnt c o.start o.size o.site) := by
  simp [entFor]

theorem entFor_cont {c : Cfg} {o : Obj} (h : spills c o.start o.size = true) :
    entFor c (o.start / c.P + 1) o = some (contEnt c o.start o.size) := by
  simp [entFor, h]

/-! ## Disjointness -/

theorem pair_of_mem {l : List Obj} (h : l.Pairwise Obj.disjoint) : ∀ {o p}, o ∈ l → p ∈ l → o ≠ p → o.disjoint p := by
  induction h with
  | nil => intro o p ho; simp at ho
  | cons h1 _ ih =>
    intro o p ho hp hne
    rcases List.mem_cons.mp ho with e | ho' <;> rcases List.mem_cons.mp hp with e' | hp'
    · exact absurd (e.trans e'.symm) hne
    · subst e; exact h1 _ hp'
    · subst e'; exact (h1 _ ho').symm
    · exact ih ho' hp' hne

theorem same_of_common {c live} (h : Good c live) {o p : Obj} (ho : o ∈ live) (hp : p ∈ live) {a : Nat}
    (h1 : o.contains a) (h2 : p.contains a) : o = p := by
  by_cases e : o = p
  · exact e
  · have := pair_of_mem h.disj ho hp e
    unfold Obj.disjoint at this; unfold Obj.contains at h1 h2; omega

theorem disjoint_symm {o p : Obj} (h : o.disjoint p) : p.disjoint o := Or.symm h

theorem Good.perm {c live live'} (h : Good c live) (p : live.Perm live') : Good c live' where
  disj := (p.pairwise_iff disjoint_symm).mp h.disj
  ok o ho := h.ok o (p.mem_iff.mpr ho)
  roomy k := by rw [← (p.filterMap (entFor c k)).length_eq]; exact h.roomy k

theorem Reps.perm {c s live live'} (h : Reps c s live) (p : live.Perm live') : Reps c s live' where
  good := h.good.perm p
  cols k := (h.cols k).trans (p.filterMap _)
  big o ho := h.big o (p.mem_iff.mpr ho)

theorem Good.tail {c o rest} (h : Good c (o :: rest)) : Good c rest where
  disj := (List.pairwise_cons.mp h.disj).2
  ok p hp := h.ok p (List.mem_cons_of_mem _ hp)
  roomy k := by
    have := h.roomy k
    rw [List.filterMap_cons] at this
    split at this
    · exact this
    · simp only [List.length_cons] at this; omega

/-! ## Columns -/

theorem mem_col {c s live k e} (h : ColOk c s live k) : e ∈ s.cols k ↔ ∃ o ∈ live, entFor c k o = some e := by
  rw [h.mem_iff, List.mem_filterMap]

theorem not_full {c s live k} (g : Good c live) (h : ColOk c s live k) : full c s k = false := by
  unfold full; have := h.length_eq; have := g.roomy k; simp; omega

/-- What two entries of one column have to do with each other. -/
def Rel (e f : Ent) : Prop :=
  (e.isCont = false → f.isCont = false → e.off + e.tsz ≤ f.off ∨ f.off + f.tsz ≤ e.off) ∧
  (e.isCont = false → f.isCont = true → f.tsz ≠ 0) ∧ (f.isCont = false → e.isCont = true → e.tsz ≠ 0)

theorem Rel.symm {e f} (h : Rel e f) : Rel f e := ⟨fun a b => (h.1 b a).symm, h.2.2, h.2.1⟩

/-- A continuation in a bucket where another object starts. -/
theorem cont_tsz {c : Cfg} (hc : c.ok) {k} {o p : Obj} (ho : o.ok c) (hd : o.disjoint p)
    (e1 : o.start / c.P + 1 = k) (e2 : spills c o.start o.size = true) (e3 : p.start / c.P = k) :
    (contEnt c o.start o.size).tsz ≠ 0 := by
  have hP := hc.1
  rw [spills_iff, e1] at e2
  have b1 := (div_eq_iff hP).mp e3
  have b2 := div_bounds (a := o.start) hP
  rw [e1] at b2
  have hts := thisSize_eq (c := c) hP (st := o.start) ho.1
  rw [e1] at hts
  have hk : (k + 1) * c.P = k * c.P + c.P := by rw [Nat.add_mul, Nat.one_mul]
  have h256 := hc.2.1
  unfold Obj.disjoint at hd
  have hpos := ho.1
  simp only [contEnt]
  rw [if_neg (by omega), Nat.mod_eq_of_lt (by omega)]
  omega

theorem rel_of {c : Cfg} (hc : c.ok) {k} {o p : Obj} (ho : o.ok c) (hp : p.ok c) (hd : o.disjoint p) {e f}
    (he : entFor c k o = some e) (hf : entFor c k p = some f) : Rel e f := by
  have hP := hc.1
  obtain ⟨s1, s2, s3, s4, s5, s6⟩ := startEnt_props hc ho
  obtain ⟨t1, t2, t3, t4, t5, t6⟩ := startEnt_props hc hp
  rcases entFor_cases he with ⟨e1, rfl⟩ | ⟨e1, e2, rfl⟩ <;> rcases entFor_cases hf with ⟨f1, rfl⟩ | ⟨f1, f2, rfl⟩
  · refine ⟨fun _ _ => ?_, fun _ h => ?_, fun _ h => ?_⟩
    · rw [e1] at s3; rw [f1] at t3
      rw [s5, t5, e1, f1]
      unfold Obj.disjoint at hd
      omega
    · rw [t1] at h; simp at h
    · rw [s1] at h; simp at h
  · obtain ⟨u1, u2, u3⟩ := contEnt_props hp
    refine ⟨fun _ h => ?_, fun _ _ => ?_, fun h _ => ?_⟩
    · rw [u1] at h; simp at h
    · exact cont_tsz hc hp (disjoint_symm hd) f1 f2 e1
    · rw [u1] at h; simp at h
  · obtain ⟨u1, u2, u3⟩ := contEnt_props ho
    refine ⟨fun h => ?_, fun h => ?_, fun _ _ => ?_⟩
    · rw [u1] at h; simp at h
    · rw [u1] at h; simp at h
    · exact cont_tsz hc ho hd e1 e2 f1
  · obtain ⟨u1, _⟩ := contEnt_props ho
    obtain ⟨v1, _⟩ := contEnt_props hp
    exact ⟨fun h => by rw [u1] at h; simp at h, fun h => by rw [u1] at h; simp at h, fun h => by rw [v1] at h; simp at h⟩

theorem col_pairwise {c s live k} (hc : c.ok) (g : Good c live) (h : ColOk c s live k) : (s.cols k).Pairwise Rel := by
  rw [h.pairwise_iff Rel.symm, List.pairwise_filterMap]
  have hd := g.disj
  have hok := g.ok
  clear h g
  induction hd with
  | nil => exact .nil
  | cons h1 _ ih =>
    refine .cons ?_ (ih (fun o ho => hok o (List.mem_cons_of_mem _ ho)))
    intro p hp e he f hf
    exact rel_of hc (hok _ (by simp)) (hok p (List.mem_cons_of_mem _ hp)) (h1 p hp) he hf

/-- A start entry occurs in one layer only. -/
theorem layer_unique {c s live k} (hc : c.ok) (g : Good c live) (h : ColOk c s live k) {i j : Nat} {e : Ent}
    (hi : (s.cols k)[i]? = some e) (hj : (s.cols k)[j]? = some e) (he : e.isCont = false) (ht : 0 < e.tsz) : i = j := by
  have hp := col_pairwise hc g h
  rw [List.pairwise_iff_getElem] at hp
  obtain ⟨hi1, hi2⟩ := List.getElem?_eq_some_iff.mp hi
  obtain ⟨hj1, hj2⟩ := List.getElem?_eq_some_iff.mp hj
  rcases Nat.lt_trichotomy i j with hlt | rfl | hlt
  · have := (hp i j hi1 hj1 hlt).1 (by rw [hi2]; exact he) (by rw [hj2]; exact he)
    rw [hi2, hj2] at this; omega
  · rfl
  · have := (hp j i hj1 hi1 hlt).1 (by rw [hj2]; exact he) (by rw [hi2]; exact he)
    rw [hi2, hj2] at this; omega

/-! ## Start entry of a continuation -/

theorem biggestStart_some : ∀ (l : List Ent) (i : Nat) (best : Option (Nat × Ent)) {j b},
    biggestStart l i best = some (j, b) →
    (best = some (j, b) ∨ ∃ m, j = i + m ∧ l[m]? = some b ∧ b.isCont = false) ∧
    (∀ e ∈ l, e.isCont = false → e.off ≤ b.off) ∧ (∀ x, best = some x → x.2.off ≤ b.off) := by
  intro l
  induction l with
  | nil => intro i best j b h; simp only [biggestStart] at h; subst h; simp
  | cons e es ih =>
    intro i best j b h
    rw [biggestStart.eq_def] at h
    simp only at h
    split at h
    · rename_i hc
      obtain ⟨h1, h2, h3⟩ := ih _ _ h
      refine ⟨?_, ?_, h3⟩
      · rcases h1 with h1 | ⟨m, h1, h4⟩
        · exact Or.inl h1
        · exact Or.inr ⟨m + 1, by omega, by simpa using h4⟩
      · intro f hf hfc
        rcases List.mem_cons.mp hf with rfl | hf
        · rw [hc] at hfc; simp at hfc
        · exact h2 f hf hfc
    · rename_i hc
      have hc : e.isCont = false := by simpa using hc
      cases best with
      | none =>
        simp only at h
        obtain ⟨h1, h2, h3⟩ := ih _ _ h
        refine ⟨Or.inr ?_, ?_, by simp⟩
        · rcases h1 with h1 | ⟨m, h1, h4⟩
          · simp at h1; exact ⟨0, by omega, by simp [h1.2], h1.2 ▸ hc⟩
          · exact ⟨m + 1, by omega, by simpa using h4⟩
        · intro f hf hfc
          rcases List.mem_cons.mp hf with rfl | hf
          · exact h3 _ rfl
          · exact h2 f hf hfc
      | some x =>
        obtain ⟨j0, b0⟩ := x
        simp only at h
        obtain ⟨h1, h2, h3⟩ := ih _ _ h
        by_cases hg : e.off > b0.off
        · rw [if_pos hg] at h1 h3
          have hb := h3 _ rfl
          simp only at hb
          refine ⟨Or.inr ?_, ?_, ?_⟩
          · rcases h1 with h1 | ⟨m, h1, h4⟩
            · simp at h1; exact ⟨0, by omega, by simp [h1.2], h1.2 ▸ hc⟩
            · exact ⟨m + 1, by omega, by simpa using h4⟩
          · intro f hf hfc
            rcases List.mem_cons.mp hf with rfl | hf
            · exact hb
            · exact h2 f hf hfc
          · intro x hx; simp at hx; subst hx; simp only; omega
        · rw [if_neg hg] at h1 h3
          have hb := h3 _ rfl
          simp only at hb
          refine ⟨?_, ?_, ?_⟩
          · rcases h1 with h1 | ⟨m, h1, h4⟩
            · exact Or.inl h1
            · exact Or.inr ⟨m + 1, by omega, by simpa using h4⟩
          · intro f hf hfc
            rcases List.mem_cons.mp hf with rfl | hf
            · omega
            · exact h2 f hf hfc
          · intro x hx; simp at hx; subst hx; exact hb

theorem biggestStart_isSome : ∀ (l : List Ent) (i : Nat) (best : Option (Nat × Ent)),
    (best.isSome ∨ ∃ e ∈ l, e.isCont = false) → (biggestStart l i best).isSome := by
  intro l
  induction l with
  | nil => intro i best h; simpa [biggestStart] using h
  | cons e es ih =>
    intro i best h
    rw [biggestStart.eq_def]
    simp only
    split
    · rename_i hc
      refine ih _ _ ?_
      rcases h with h | ⟨f, hf, hfc⟩
      · exact Or.inl h
      · rcases List.mem_cons.mp hf with rfl | hf
        · rw [hc] at hfc; simp at hfc
        · exact Or.inr ⟨f, hf, hfc⟩
    · cases best with
      | none => exact ih _ _ (Or.inl rfl)
      | some x => simp only; exact ih _ _ (Or.inl (by split <;> rfl))

theorem startOf_isSome {c s k} (hf : full c s k = false) (h : ∃ e ∈ s.cols k, e.isCont = false) :
    (startOf c s (k + 1)).isSome := by
  rw [startOf, if_neg (by simp [hf])]
  have := biggestStart_isSome (s.cols k) 0 none (Or.inr h)
  simpa using this

/-- The object a continuation belongs to. -/
theorem startOf_eq {c s live} (hc : c.ok) (g : Good c live) {o : Obj} (ho : o ∈ live)
    (hcol : ColOk c s live (o.start / c.P)) (hs : spills c o.start o.size = true) :
    ∃ j, startOf c s (o.start / c.P + 1) = some (j, o.start) ∧
      (s.cols (o.start / c.P))[j]? = some (startEnt c o.start o.size o.site) := by
  have hP := hc.1
  have hmem : startEnt c o.start o.size o.site ∈ s.cols (o.start / c.P) := (mem_col hcol).mpr ⟨o, ho, entFor_start⟩
  obtain ⟨s1, s2, s3, s4, s5, s6⟩ := startEnt_props hc (g.ok o ho)
  have hsome := biggestStart_isSome (s.cols (o.start / c.P)) 0 none (Or.inr ⟨_, hmem, s1⟩)
  obtain ⟨⟨j, b⟩, hb⟩ := Option.isSome_iff_exists.mp hsome
  obtain ⟨h1, h2, _⟩ := biggestStart_some _ _ _ hb
  rcases h1 with h1 | ⟨m, h1, h3, h4⟩
  · simp at h1
  · simp only [Nat.zero_add] at h1; subst h1
    have hbm := List.mem_of_getElem? h3
    obtain ⟨p, hp, hpe⟩ := (mem_col hcol).mp hbm
    rcases entFor_cases hpe with ⟨e1, rfl⟩ | ⟨_, _, rfl⟩
    · obtain ⟨t1, t2, t3, t4, t5, t6⟩ := startEnt_props hc (g.ok p hp)
      have hle := h2 _ hmem s1
      rw [e1] at t3
      have hpo : o = p := by
        rw [spills_iff] at hs
        have hb := (div_eq_iff hP).mp e1
        refine same_of_common g ho hp (a := p.start) ⟨by omega, by omega⟩ ⟨by omega, ?_⟩
        have := (g.ok p hp).1; omega
      subst hpo
      refine ⟨j, ?_, h3⟩
      rw [startOf, if_neg (by simp [not_full g hcol]), hb]
      simp [s3]
    · rw [(contEnt_props (g.ok p hp)).1] at h4; simp at h4

/-! ## Sanity checks -/

theorem saneFrom_ok {c s live k} (hc : c.ok) (g : Good c live) (h : ColOk c s live k)
    (hst : (∃ e ∈ s.cols k, e.isCont = true) → (startOf c s k).isSome) :
    ∀ (es seen : List Ent), seen ++ es = s.cols k → saneFrom c s k seen es = true := by
  have hp := col_pairwise hc g h
  intro es
  induction es with
  | nil => intro seen _; rfl
  | cons e es ih =>
    intro seen hse
    have hmem : e ∈ s.cols k := by rw [← hse]; simp
    have hrest : saneFrom c s k (seen ++ [e]) es = true := ih (seen ++ [e]) (by rw [← hse]; simp)
    rw [saneFrom, hrest, Bool.and_true]
    by_cases hcont : e.isCont = true
    · rw [if_pos hcont]; exact hst ⟨e, hmem, hcont⟩
    · rw [if_neg hcont]
      have hcont : e.isCont = false := by simpa using hcont
      obtain ⟨o, ho, hoe⟩ := (mem_col h).mp hmem
      have hoff : e.off < c.P := by
        rcases entFor_cases hoe with ⟨_, rfl⟩ | ⟨_, _, rfl⟩
        · exact (startEnt_props hc (g.ok o ho)).2.2.2.1
        · exact hc.1
      simp only [hoff, decide_true, Bool.true_and, List.all_eq_true]
      intro f hf
      rw [← hse, List.pairwise_append] at hp
      have hr := hp.2.2 f hf e (by simp)
      unfold saneAgainst
      by_cases hfc : f.isCont = true
      · rw [if_pos hfc]; simp; exact hr.2.2 hcont hfc
      · rw [if_neg hfc]
        have := hr.1 (by simpa using hfc) hcont
        simp; omega

theorem check_ok {c s live k} (hc : c.ok) (g : Good c live) (h : ColOk c s live k)
    (hst : (∃ e ∈ s.cols k, e.isCont = true) → (startOf c s k).isSome) : check c s k = some () := by
  unfold check
  split
  · rw [if_neg (by simp [not_full g h]), if_pos (saneFrom_ok hc g h hst _ [] rfl)]
  · rfl

/-- A column with a continuation has a bucket with a start before it. -/
theorem cont_start {c s live live' k} (hc : c.ok) (g : Good c live) (g' : Good c live') (h : ColOk c s live k)
    (hprev : ∀ j, j + 1 = k → ColOk c s live' j) (hsub : ∀ o ∈ live, o ∈ live')
    (he : ∃ e ∈ s.cols k, e.isCont = true) : (startOf c s k).isSome := by
  obtain ⟨e, he, hcont⟩ := he
  obtain ⟨o, ho, hoe⟩ := (mem_col h).mp he
  rcases entFor_cases hoe with ⟨_, rfl⟩ | ⟨e1, e2, rfl⟩
  · rw [(startEnt_props hc (g.ok o ho)).1] at hcont; simp at hcont
  · subst e1
    have hj := hprev _ rfl
    refine startOf_isSome (not_full g' hj) ⟨_, (mem_col hj).mpr ⟨o, hsub o ho, entFor_start⟩, ?_⟩
    exact (startEnt_props hc (g.ok o ho)).1

theorem Reps.check {c s live} (hc : c.ok) (h : Reps c s live) (k : Nat) : SmallIndex.check c s k = some () :=
  check_ok hc h.good (h.cols k) (cont_start hc h.good h.good (h.cols k) (fun j _ => h.cols j) (fun _ h => h))

/-! ## Lookup -/

/-- A hit that is right: the object contains the address and the entry is its start entry. -/
def Right (c : Cfg) (s : St) (live : List Obj) (ptr k l st : Nat) : Prop :=
  ∃ o ∈ live, o.contains ptr ∧ st = o.start ∧ k = o.start / c.P ∧
    (s.cols k)[l]? = some (startEnt c o.start o.size o.site)

def ScanOk (c : Cfg) (s : St) (live : List Obj) (ptr k : Nat) (must : Bool) (es : List Ent) : Scan → Prop
  | .hit k' l st _ => Right c s live ptr k' l st
  | .fail => must = true ∧ ∃ o ∈ live, o.start / c.P + 1 = k ∧ spills c o.start o.size = true ∧ o.start + o.size ≤ ptr
  | .next => ∀ e ∈ es, ∀ o ∈ live, entFor c k o = some e → o.contains ptr → o.start / c.P = k ∧ k ≠ ptr / c.P
  | .ub => False

theorem scan_ok {c s live} (hc : c.ok) (h : Reps c s live) {ptr k must} (hk : k ≤ ptr / c.P) :
    ∀ (es pre : List Ent), pre ++ es = s.cols k →
      ScanOk c s live ptr k must es (scan c s ptr k must es pre.length) := by
  have hP := hc.1
  have g := h.good
  have hkp : k * c.P ≤ ptr := Nat.le_trans (Nat.mul_le_mul_right _ hk) (div_bounds hP).1
  intro es
  induction es with
  | nil =>
    intro pre _
    rw [scan, if_neg (by simp [not_full g (h.cols k)])]
    intro e he; simp at he
  | cons e es ih =>
    intro pre hpre
    have hmem : e ∈ s.cols k := by rw [← hpre]; simp
    have hrec := ih (pre ++ [e]) (by rw [← hpre]; simp)
    simp only [List.length_append, List.length_cons, List.length_nil, Nat.zero_add] at hrec
    obtain ⟨o, ho, hoe⟩ := (mem_col (h.cols k)).mp hmem
    have hget : (s.cols k)[pre.length]? = some e := by rw [← hpre]; simp
    rw [scan]
    rcases entFor_cases hoe with ⟨e1, rfl⟩ | ⟨e1, e2, rfl⟩
    · obtain ⟨s1, s2, s3, s4, s5, s6⟩ := startEnt_props hc (g.ok o ho)
      rw [if_neg (by simp [s1])]
      rw [e1] at s3
      split
      · rename_i hit
        refine ⟨o, ho, ⟨by omega, ?_⟩, s3, e1.symm, hget⟩
        rw [s5] at hit; omega
      · rename_i nohit
        revert hrec
        cases scan c s ptr k must es (pre.length + 1) with
        | hit => exact id
        | fail => exact id
        | ub => exact id
        | next =>
          intro hrec f hf p hp hpf hcp
          rcases List.mem_cons.mp hf with rfl | hf
          · have hpk : p.start / c.P = k := by
              rcases entFor_cases hpf with ⟨q, _⟩ | ⟨_, _, q⟩
              · exact q
              · have := (contEnt_props (g.ok p hp)).1
                rw [← q, s1] at this; simp at this
            refine ⟨hpk, ?_⟩
            intro hkk
            have hpe : entFor c k p = some (startEnt c p.start p.size p.site) := by rw [← hpk]; exact entFor_start
            rw [hpe] at hpf
            have hpf := Option.some.inj hpf
            obtain ⟨t1, t2, t3, t4, t5, t6⟩ := startEnt_props hc (g.ok p hp)
            rw [hpk] at t3
            rw [hpf] at t3 t5
            have hb := (div_bounds (a := ptr) hP)
            rw [← hkk] at hb
            unfold Obj.contains at hcp
            rw [hpk] at t5
            omega
          · exact hrec f hf p hp hpf hcp
    · obtain ⟨u1, u2, u3⟩ := contEnt_props (g.ok o ho)
      rw [if_pos u1]
      obtain ⟨j, hj1, hj2⟩ := startOf_eq hc g ho (h.cols _) e2
      rw [e1] at hj1
      rw [hj1]
      simp only
      rw [u2]
      have hb := div_bounds (a := o.start) hP
      rw [e1] at hb
      split
      · rename_i hit
        have hk1 : k - 1 = o.start / c.P := by rw [← e1]; exact Nat.add_sub_cancel _ _
        exact ⟨o, ho, ⟨by omega, hit⟩, rfl, hk1, by rw [hk1]; exact hj2⟩
      · rename_i nohit
        split
        · rename_i hm
          exact ⟨hm, o, ho, e1, e2, by omega⟩
        · revert hrec
          cases scan c s ptr k must es (pre.length + 1) with
          | hit => exact id
          | fail => exact id
          | ub => exact id
          | next =>
            intro hrec f hf p hp hpf hcp
            rcases List.mem_cons.mp hf with rfl | hf
            · exfalso
              rcases entFor_cases hpf with ⟨_, q⟩ | ⟨q1, q2, _⟩
              · have := (startEnt_props hc (g.ok p hp)).1
                rw [← q, u1] at this; simp at this
              · rw [spills_iff, q1] at q2
                rw [spills_iff, e1] at e2
                have hbp := div_bounds (a := p.start) hP
                rw [q1] at hbp
                have : o = p := same_of_common g ho hp (a := k * c.P) ⟨by omega, by omega⟩ ⟨by omega, by omega⟩
                subst this
                unfold Obj.contains at hcp; omega
            · exact hrec f hf p hp hpf hcp

/-- The bucket in which an object containing `ptr` is found. -/
def home (c : Cfg) (ptr : Nat) (o : Obj) : Nat := if o.start / c.P = ptr / c.P then ptr / c.P else o.start / c.P + 1

theorem lookupFrom_ok {c s live} (hc : c.ok) (h : Reps c s live) {ptr : Nat} :
    ∀ (k : Nat) (must : Bool), k ≤ ptr / c.P → (must = true → k < ptr / c.P) → (must = false → k = ptr / c.P) →
      (∀ o ∈ live, o.contains ptr → home c ptr o ≤ k) →
      ∃ r, lookupFrom c s ptr k must = some r ∧ (∀ x, r = some x → Right c s live ptr x.k x.layer x.start) ∧
        (r = none → ∀ o ∈ live, ¬ o.contains ptr) := by
  have hP := hc.1
  have g := h.good
  have hstart : ∀ o ∈ live, o.contains ptr → o.start / c.P ≤ ptr / c.P := by
    intro o ho hcp; exact Nat.div_le_div_right hcp.1
  intro k
  induction k with
  | zero =>
    intro must hk hm1 hm2 hh
    have hs := scan_ok hc h (must := must) hk (s.cols 0) [] rfl
    rw [lookupFrom, h.check hc]
    simp only
    revert hs
    simp only [List.length_nil]
    cases scan c s ptr 0 must (s.cols 0) 0 with
    | ub => exact fun h => h.elim
    | hit k l st sz => exact fun hs => ⟨_, rfl, fun x hx => by simp at hx; subst hx; exact hs, by simp⟩
    | fail =>
      rintro ⟨_, o, _, e, _⟩; exact absurd e (Nat.succ_ne_zero _)
    | next =>
      intro hs
      refine ⟨none, rfl, by simp, ?_⟩
      intro _ o ho hcp
      have := hh o ho hcp
      unfold home at this
      split at this
      · rename_i e
        have e0 : o.start / c.P = 0 := by omega
        have := hs _ ((mem_col (h.cols 0)).mpr ⟨o, ho, e0 ▸ entFor_start⟩) o ho (e0 ▸ entFor_start) hcp
        omega
      · exact absurd this (Nat.not_succ_le_zero _)
  | succ k ih =>
    intro must hk hm1 hm2 hh
    have hs := scan_ok hc h (must := must) hk (s.cols (k + 1)) [] rfl
    rw [lookupFrom, h.check hc]
    simp only
    revert hs
    simp only [List.length_nil]
    have hkp : (k + 1) * c.P ≤ ptr := Nat.le_trans (Nat.mul_le_mul_right _ hk) (div_bounds hP).1
    cases scan c s ptr (k + 1) must (s.cols (k + 1)) 0 with
    | ub => exact fun h => h.elim
    | hit k l st sz => exact fun hs => ⟨_, rfl, fun x hx => by simp at hx; subst hx; exact hs, by simp⟩
    | fail =>
      rintro ⟨hm, p, hp, e1, e2, e3⟩
      refine ⟨none, rfl, by simp, ?_⟩
      intro _ o ho hcp
      have hlt := hm1 hm
      have := hh o ho hcp
      unfold home at this
      split at this
      · omega
      · have hok : o.start / c.P ≤ k := by omega
        have hb := div_bounds (a := o.start) hP
        have hb' : (o.start / c.P + 1) * c.P ≤ (k + 1) * c.P := Nat.mul_le_mul_right _ (by omega)
        have hbp := div_bounds (a := p.start) hP
        rw [spills_iff] at e2
        rw [e1] at hbp e2
        have : o = p := by
          unfold Obj.contains at hcp
          refine same_of_common g ho hp (a := (k + 1) * c.P) ⟨by omega, by omega⟩ ⟨by omega, by omega⟩
        subst this
        unfold Obj.contains at hcp; omega
    | next =>
      intro hs
      have hnext : ∀ o ∈ live, o.contains ptr → home c ptr o ≤ k := by
        intro o ho hcp
        have hle := hh o ho hcp
        rcases Nat.lt_or_ge k (home c ptr o) with hlt | hge
        · exfalso
          have he : home c ptr o = k + 1 := by omega
          unfold home at he
          split at he
          · rename_i e
            have e0 : o.start / c.P = k + 1 := by omega
            have := hs _ ((mem_col (h.cols _)).mpr ⟨o, ho, e0 ▸ entFor_start⟩) o ho (e0 ▸ entFor_start) hcp
            omega
          · have e0 : o.start / c.P + 1 = k + 1 := he
            have hsp : spills c o.start o.size = true := by
              rw [spills_iff, e0]; unfold Obj.contains at hcp; omega
            have := hs _ ((mem_col (h.cols _)).mpr ⟨o, ho, e0 ▸ entFor_cont hsp⟩) o ho (e0 ▸ entFor_cont hsp) hcp
            omega
        · exact hge
      simp only
      unfold below
      split
      · exact ih true (by omega) (fun _ => by omega) (by simp) hnext
      · rename_i hbelow
        refine ⟨none, rfl, by simp, ?_⟩
        intro _ o ho hcp
        have hle := hnext o ho hcp
        have hok : o.start / c.P ≤ k := by
          unfold home at hle; split at hle <;> omega
        have hb := div_bounds (a := o.start) hP
        have hb' : (o.start / c.P + 1) * c.P ≤ (k + 1) * c.P := Nat.mul_le_mul_right _ (by omega)
        have := h.big o ho
        unfold Obj.contains at hcp; omega

theorem lookup_ok {c s live} (hc : c.ok) (h : Reps c s live) (ptr : Nat) :
    ∃ r, lookup c s ptr = some r ∧ (∀ x, r = some x → Right c s live ptr x.k x.layer x.start) ∧
      (r = none → ∀ o ∈ live, ¬ o.contains ptr) := by
  refine lookupFrom_ok hc h _ _ (Nat.le_refl _) (by simp) (fun _ => rfl) ?_
  intro o ho hcp
  have : o.start / c.P ≤ ptr / c.P := Nat.div_le_div_right hcp.1
  unfold home; split <;> omega

/-- For a live object the lookup finds its entry. -/
theorem lookup_live {c s live} (hc : c.ok) (h : Reps c s live) {ptr : Nat} {o : Obj} (ho : o ∈ live)
    (hcp : o.contains ptr) : ∃ x, lookup c s ptr = some (some x) ∧ x.start = o.start ∧ x.k = o.start / c.P ∧
      (s.cols x.k)[x.layer]? = some (startEnt c o.start o.size o.site) := by
  obtain ⟨r, h1, h2, h3⟩ := lookup_ok hc h ptr
  cases r with
  | none => exact absurd hcp (h3 rfl o ho)
  | some x =>
    obtain ⟨p, hp, hpc, e1, e2, e3⟩ := h2 x rfl
    have : o = p := same_of_common h.good ho hp hcp hpc
    subst this
    exact ⟨x, h1, e1, e2, e3⟩

/-! ## Insertion -/

theorem push_same {s k e} (h : e.discr ≠ 0) : (push s k e).cols k = s.cols k ++ [e] := by simp [push, h]
theorem push_other {s k e j} (h : j ≠ k) : (push s k e).cols j = s.cols j := by simp [push, h]

theorem filterMap_cons_some {c : Cfg} {k o e live} (h : entFor c k o = some e) :
    (o :: live).filterMap (entFor c k) = e :: live.filterMap (entFor c k) := by simp [h]
theorem filterMap_cons_none {c : Cfg} {k o live} (h : entFor c k o = none) :
    (o :: live).filterMap (entFor c k) = live.filterMap (entFor c k) := by simp [h]

theorem colOk_push {c s live k o e} (h : ColOk c s live k) (he : entFor c k o = some e) (hd : e.discr ≠ 0) :
    ColOk c (push s k e) (o :: live) k := by
  unfold ColOk
  rw [push_same hd, filterMap_cons_some he]
  exact (List.perm_append_comm (l₁ := s.cols k) (l₂ := [e])).trans (.cons _ h)

theorem entFor_none {c : Cfg} {k o} (h1 : o.start / c.P ≠ k) (h2 : o.start / c.P + 1 ≠ k ∨ spills c o.start o.size = false) :
    entFor c k o = none := by
  unfold entFor
  rw [if_neg h1, if_neg]
  rintro ⟨h3, h4⟩
  rcases h2 with h2 | h2
  · exact h2 h3
  · rw [h2] at h4; simp at h4

theorem colOk_skip {c s live k o} (h : ColOk c s live k) (he : entFor c k o = none) : ColOk c s (o :: live) k := by
  unfold ColOk; rw [filterMap_cons_none he]; exact h

theorem colOk_congr {c} {s s' : St} {live k} (h : ColOk c s live k) (he : s'.cols k = s.cols k) : ColOk c s' live k := by
  unfold ColOk at *; rw [he]; exact h

theorem unless_ok {b : Bool} (h : b = false) : SmallIndex.abortIf b = some () := by rw [h]; rfl

theorem index_ok {c s live} (hc : c.ok) (h : Reps c s live) {o : Obj} (g : Good c (o :: live)) :
    ∃ s', index c s o.start o.size o.site = some s' ∧ Reps c s' (o :: live) := by
  have hP := hc.1
  have ho := g.ok o (by simp)
  obtain ⟨s1, s2, s3, s4, s5, s6⟩ := startEnt_props hc ho
  obtain ⟨u1, u2, u3⟩ := contEnt_props ho
  have hts := thisSize_eq (c := c) hP (st := o.start) ho.1
  have hb := div_bounds (a := o.start) hP
  have hpos := ho.1
  have c1 := h.check hc (o.start / c.P)
  -- after the start entry
  have hcolk : ColOk c (push s (o.start / c.P) (startEnt c o.start o.size o.site)) (o :: live) (o.start / c.P) :=
    colOk_push (h.cols _) entFor_start s2
  have hcold : ∀ j, j ≠ o.start / c.P → ColOk c (push s (o.start / c.P) (startEnt c o.start o.size o.site)) live j :=
    fun j hj => colOk_congr (h.cols j) (push_other hj)
  have hcolprev : ∀ j, j + 1 = o.start / c.P → ColOk c (push s (o.start / c.P) (startEnt c o.start o.size o.site)) (o :: live) j :=
    fun j hj => colOk_skip (hcold j (by omega)) (entFor_none (by omega) (Or.inl (by omega)))
  have c2 : check c (push s (o.start / c.P) (startEnt c o.start o.size o.site)) (o.start / c.P) = some () :=
    check_ok hc g hcolk (cont_start hc g g hcolk hcolprev (fun _ h => h))
  -- the state after the continuation
  have hmain : ∃ s2, contStep c (push s (o.start / c.P) (startEnt c o.start o.size o.site)) o.start o.size = some s2 ∧
      (∀ k, ColOk c s2 (o :: live) k) ∧ s2.biggest = s.biggest ∧
      s2.cols (o.start / c.P) = s.cols (o.start / c.P) ++ [startEnt c o.start o.size o.site] := by
    unfold contStep
    by_cases hsp : spills c o.start o.size = true
    · rw [if_pos hsp]
      have hsp' := spills_iff.mp hsp
      have hN : o.start / c.P + 1 < c.N := by
        have := ho.2.1
        rcases Nat.lt_or_ge (o.start / c.P + 1) c.N with h | h
        · exact h
        · have := Nat.mul_le_mul_right c.P h; omega
      have hold := hcold (o.start / c.P + 1) (by omega)
      have c3 : check c (push s (o.start / c.P) (startEnt c o.start o.size o.site)) (o.start / c.P + 1) = some () :=
        check_ok hc h.good hold (cont_start hc h.good g hold
          (fun j hj => by have : j = o.start / c.P := by omega
                          subst this; exact hcolk) (fun p hp => List.mem_cons_of_mem _ hp))
      have hnew : ColOk c (push (push s (o.start / c.P) (startEnt c o.start o.size o.site)) (o.start / c.P + 1)
          (contEnt c o.start o.size)) (o :: live) (o.start / c.P + 1) :=
        colOk_push hold (entFor_cont hsp) (by omega)
      have hcolk' : ColOk c (push (push s (o.start / c.P) (startEnt c o.start o.size o.site)) (o.start / c.P + 1)
          (contEnt c o.start o.size)) (o :: live) (o.start / c.P) := colOk_congr hcolk (push_other (by omega))
      have c4 : check c (push (push s (o.start / c.P) (startEnt c o.start o.size o.site)) (o.start / c.P + 1)
          (contEnt c o.start o.size)) (o.start / c.P + 1) = some () :=
        check_ok hc g hnew (cont_start hc g g hnew
          (fun j hj => by have : j = o.start / c.P := by omega
                          subst this; exact hcolk') (fun _ h => h))
      refine ⟨push (push s (o.start / c.P) (startEnt c o.start o.size o.site)) (o.start / c.P + 1)
          (contEnt c o.start o.size), ?_, ?_, ?_, ?_⟩
      rotate_left
      · intro k
        rcases Nat.lt_trichotomy k (o.start / c.P) with hk | hk | hk
        · refine colOk_skip (colOk_congr (hcold k (by omega)) (push_other (by omega))) (entFor_none (by omega) (Or.inl (by omega)))
        · subst hk; exact hcolk'
        · by_cases hk' : k = o.start / c.P + 1
          · subst hk'; exact hnew
          · exact colOk_skip (colOk_congr (hcold k (by omega)) (push_other (by omega)))
              (entFor_none (by omega) (Or.inl (by omega)))
      · rfl
      · rw [push_other (by omega), push_same s2]
      · unfold addCont
        rw [unless_ok (by have := hc.2.2; exact decide_eq_false (by omega)), c3, unless_ok (not_full h.good hold),
          unless_ok (decide_eq_false (by have := ho.2.2.2.2.1; omega)), u1, unless_ok (by simp), c4]
        rfl
    · have hsp' : spills c o.start o.size = false := by simpa using hsp
      rw [if_neg hsp]
      refine ⟨_, rfl, ?_, rfl, push_same s2⟩
      intro k
      by_cases hk : o.start / c.P = k
      · subst hk; exact hcolk
      · exact colOk_skip (hcold k (fun e => hk e.symm)) (entFor_none hk (Or.inr hsp'))
  obtain ⟨t, ht, hcols, hbig, hlast⟩ := hmain
  have hreps : Reps c { t with biggest := max t.biggest o.size } (o :: live) := by
    refine ⟨g, hcols, ?_⟩
    intro p hp
    rcases List.mem_cons.mp hp with rfl | hp
    · simp only; omega
    · have := h.big p hp; simp only; omega
  have c5 : check c t (o.start / c.P) = some () :=
    check_ok hc g (hcols _) (cont_start hc g g (hcols _) (fun j _ => hcols j) (fun _ h => h))
  have hre : recheck c { t with biggest := max t.biggest o.size } (o.start / c.P) (s.cols (o.start / c.P)).length o.start
      o.size = some () := by
    unfold recheck
    split
    · obtain ⟨x, x1, x2, x3, x4⟩ := lookup_live hc hreps (o := o) (by simp) (ptr := o.start) ⟨Nat.le_refl _, by omega⟩
      obtain ⟨y, y1, y2, y3, y4⟩ := lookup_live hc hreps (o := o) (by simp) (ptr := o.start + o.size - 1) ⟨by omega, by omega⟩
      rw [x1, y1]
      simp only
      have hl : ({ t with biggest := max t.biggest o.size } : St).cols (o.start / c.P) =
          s.cols (o.start / c.P) ++ [startEnt c o.start o.size o.site] := hlast
      have hz : (({ t with biggest := max t.biggest o.size } : St).cols (o.start / c.P))[(s.cols (o.start / c.P)).length]? =
          some (startEnt c o.start o.size o.site) := by rw [hl]; simp
      rw [x3] at x4; rw [y3] at y4
      rw [if_pos ⟨x3, layer_unique hc g (hreps.cols _) x4 hz s1 s6, y3, layer_unique hc g (hreps.cols _) y4 hz s1 s6⟩]
    · rfl
  refine ⟨_, ?_, hreps⟩
  unfold index
  rw [c1, unless_ok (not_full h.good (h.cols _)), unless_ok (decide_eq_false (by omega)), c2, ht]
  simp only [Option.bind_eq_bind, Option.bind_some, pure, c5, hre]

/-! ## Removal -/

theorem remove_same {s k l} : (remove s k l).cols k = (s.cols k).eraseIdx l := by simp [remove]
theorem remove_other {s k l j} (h : j ≠ k) : (remove s k l).cols j = s.cols j := by simp [remove, h]

theorem eraseIdx_perm : ∀ (l : List Ent) (i : Nat) (e : Ent), l[i]? = some e → (e :: l.eraseIdx i).Perm l := by
  intro l; induction l with
  | nil => intro i e h; simp at h
  | cons a l ih =>
    intro i e h
    cases i with
    | zero => simp at h; subst h; exact List.Perm.refl _
    | succ i =>
      simp only [List.getElem?_cons_succ] at h
      exact (List.Perm.swap a e _).trans (.cons a (ih i e h))

theorem colOk_remove {c s rest k l o e} (h : ColOk c s (o :: rest) k) (he : entFor c k o = some e)
    (hl : (s.cols k)[l]? = some e) : ColOk c (remove s k l) rest k := by
  unfold ColOk at *
  rw [filterMap_cons_some he] at h
  rw [remove_same]
  exact ((eraseIdx_perm _ _ _ hl).trans h).cons_inv

theorem firstCont_some : ∀ (l : List Ent) (i : Nat) {j}, firstCont l i = some j →
    ∃ m e, j = i + m ∧ l[m]? = some e ∧ e.isCont = true := by
  intro l; induction l with
  | nil => intro i j h; simp [firstCont] at h
  | cons e es ih =>
    intro i j h
    rw [firstCont] at h
    split at h
    · rename_i hc; simp at h; exact ⟨0, e, by omega, by simp, hc⟩
    · obtain ⟨m, f, h1, h2, h3⟩ := ih _ h
      exact ⟨m + 1, f, by omega, by simpa using h2, h3⟩

theorem firstCont_none : ∀ (l : List Ent) (i : Nat), firstCont l i = none → ∀ e ∈ l, e.isCont = false := by
  intro l; induction l with
  | nil => intro i h; simp
  | cons e es ih =>
    intro i h f hf
    rw [firstCont] at h
    split at h
    · simp at h
    · rename_i hc
      rcases List.mem_cons.mp hf with rfl | hf
      · simpa using hc
      · exact ih _ h f hf

theorem firstCont_eq_none : ∀ (l : List Ent) (i : Nat), (∀ e ∈ l, e.isCont = false) → firstCont l i = none := by
  intro l; induction l with
  | nil => intro i _; rfl
  | cons e es ih =>
    intro i h
    rw [firstCont, if_neg (by simp [h e (by simp)])]
    exact ih _ (fun f hf => h f (by simp [hf]))

theorem unindexEnt_ok {c s rest o layer} (hc : c.ok) (h : Reps c s (o :: rest))
    (hl : (s.cols (o.start / c.P))[layer]? = some (startEnt c o.start o.size o.site)) :
    ∃ s', unindexEnt c s (o.start / c.P) layer = some s' ∧ Reps c s' rest ∧ s'.biggest = s.biggest ∧
      s'.cols (o.start / c.P) = (s.cols (o.start / c.P)).eraseIdx layer := by
  have hP := hc.1
  have g := h.good
  have g' := g.tail
  have ho := g.ok o (by simp)
  obtain ⟨s1, s2, s3, s4, s5, s6⟩ := startEnt_props hc ho
  obtain ⟨u1, u2, u3⟩ := contEnt_props ho
  have hb := div_bounds (a := o.start) hP
  have hcolk : ColOk c (remove s (o.start / c.P) layer) rest (o.start / c.P) := colOk_remove (h.cols _) entFor_start hl
  have hcold : ∀ j, j ≠ o.start / c.P → ColOk c (remove s (o.start / c.P) layer) (o :: rest) j :=
    fun j hj => colOk_congr (h.cols j) (remove_other hj)
  have hskip : ∀ s j, ColOk c s (o :: rest) j → entFor c j o = none → ColOk c s rest j := by
    intro s j q e; unfold ColOk at *; rwa [filterMap_cons_none e] at q
  have hcolprev : ∀ j, j + 1 = o.start / c.P → ColOk c (remove s (o.start / c.P) layer) rest j :=
    fun j hj => hskip _ _ (hcold j (by omega)) (entFor_none (by omega) (Or.inl (by omega)))
  have c2 : check c (remove s (o.start / c.P) layer) (o.start / c.P) = some () :=
    check_ok hc g' hcolk (cont_start hc g' g' hcolk hcolprev (fun _ h => h))
  have hmain : ∃ t, dropStep c s (remove s (o.start / c.P) layer) (o.start / c.P) (startEnt c o.start o.size o.site) = some t ∧
      (∀ k, ColOk c t rest k) ∧ t.biggest = s.biggest ∧ t.cols (o.start / c.P) = (s.cols (o.start / c.P)).eraseIdx layer := by
    -- continuations in the next bucket are the object's own
    have hown : ∀ p ∈ (o :: rest), p.start / c.P + 1 = o.start / c.P + 1 → spills c p.start p.size = true →
        (s.cols (o.start / c.P)).all (fun f => decide (f.off ≤ (startEnt c o.start o.size o.site).off)) = true → p = o := by
      intro p hp e1 e2 hall
      have e1 : p.start / c.P = o.start / c.P := by omega
      have hpm : startEnt c p.start p.size p.site ∈ s.cols (o.start / c.P) :=
        (mem_col (h.cols _)).mpr ⟨p, hp, e1 ▸ entFor_start⟩
      have := List.all_eq_true.mp hall _ hpm
      have hle := of_decide_eq_true this
      obtain ⟨t1, t2, t3, t4, t5, t6⟩ := startEnt_props hc (g.ok p hp)
      rw [e1] at t3
      rw [spills_iff, e1] at e2
      refine same_of_common g hp (by simp) (a := o.start) ⟨by omega, by omega⟩ ⟨Nat.le_refl _, ?_⟩
      have := ho.1; omega
    have hbigg : spills c o.start o.size = true →
        (s.cols (o.start / c.P)).all (fun f => decide (f.off ≤ (startEnt c o.start o.size o.site).off)) = true := by
      intro hsp
      rw [List.all_eq_true]
      intro f hf
      obtain ⟨p, hp, hpf⟩ := (mem_col (h.cols _)).mp hf
      rcases entFor_cases hpf with ⟨e1, rfl⟩ | ⟨_, _, rfl⟩
      · obtain ⟨t1, t2, t3, t4, t5, t6⟩ := startEnt_props hc (g.ok p hp)
        rw [e1] at t3
        rw [spills_iff] at hsp
        have hbp := (div_eq_iff hP).mp e1
        apply decide_eq_true
        rcases Nat.lt_or_ge o.start p.start with hlt | hge
        · have : o = p := same_of_common g (by simp) hp (a := p.start) ⟨by omega, by omega⟩
            ⟨Nat.le_refl _, by have := (g.ok p hp).1; omega⟩
          subst this; exact Nat.le_refl _
        · omega
      · apply decide_eq_true; rw [(contEnt_props (g.ok p hp)).2.2]; exact Nat.zero_le _
    unfold dropStep
    by_cases hall : (s.cols (o.start / c.P)).all (fun f => decide (f.off ≤ (startEnt c o.start o.size o.site).off)) = true
    · rw [if_pos hall]
      unfold dropCont
      by_cases hN : o.start / c.P + 1 < c.N
      · rw [if_pos hN]
        have hcn := hcold (o.start / c.P + 1) (by omega)
        cases hfc : firstCont ((remove s (o.start / c.P) layer).cols (o.start / c.P + 1)) 0 with
        | some i =>
          obtain ⟨m, e, hm, hge, hec⟩ := firstCont_some _ _ hfc
          simp only [Nat.zero_add] at hm; subst hm
          obtain ⟨p, hp, hpe⟩ := (mem_col hcn).mp (List.mem_of_getElem? hge)
          have : p = o ∧ e = contEnt c o.start o.size ∧ spills c o.start o.size = true := by
            rcases entFor_cases hpe with ⟨e1, rfl⟩ | ⟨e1, e2, rfl⟩
            · rw [(startEnt_props hc (g.ok p hp)).1] at hec; simp at hec
            · have := hown p hp e1 e2 hall
              subst this; exact ⟨rfl, rfl, e2⟩
          obtain ⟨rfl, rfl, hsp⟩ := this
          have hnew : ColOk c (remove (remove s (p.start / c.P) layer) (p.start / c.P + 1) i) rest (p.start / c.P + 1) :=
            colOk_remove hcn hpe hge
          have hcols : ∀ k, ColOk c (remove (remove s (p.start / c.P) layer) (p.start / c.P + 1) i) rest k := by
            intro k
            by_cases hk : k = p.start / c.P
            · subst hk; exact colOk_congr hcolk (remove_other (by omega))
            · by_cases hk' : k = p.start / c.P + 1
              · subst hk'; exact hnew
              · exact hskip _ _ (colOk_congr (hcold k hk) (remove_other hk')) (entFor_none (fun e => hk e.symm) (Or.inl (fun e => hk' e.symm)))
          have c3 := check_ok hc g' hnew (cont_start hc g' g' hnew (fun j _ => hcols j) (fun _ h => h))
          refine ⟨_, by simp only [c3]; rfl, hcols, rfl, ?_⟩
          rw [remove_other (by omega), remove_same]
        | none =>
          have hno := firstCont_none _ _ hfc
          have hnsp : spills c o.start o.size = false := by
            by_cases hsp : spills c o.start o.size = true
            · have := hno _ ((mem_col hcn).mpr ⟨o, by simp, entFor_cont hsp⟩)
              rw [u1] at this; simp at this
            · simpa using hsp
          have hcols : ∀ k, ColOk c (remove s (o.start / c.P) layer) rest k := by
            intro k
            by_cases hk : k = o.start / c.P
            · subst hk; exact hcolk
            · exact hskip _ _ (hcold k hk) (entFor_none (fun e => hk e.symm) (Or.inr hnsp))
          refine ⟨_, by simp only; rw [if_neg (by simp [not_full g' (hcols _)])], hcols, rfl, remove_same⟩
      · rw [if_neg hN]
        have hnsp : spills c o.start o.size = false := by
          by_cases hsp : spills c o.start o.size = true
          · exfalso
            rw [spills_iff] at hsp
            have := Nat.mul_le_mul_right c.P (Nat.le_of_not_lt hN)
            have := ho.2.1; omega
          · simpa using hsp
        have hcols : ∀ k, ColOk c (remove s (o.start / c.P) layer) rest k := by
          intro k
          by_cases hk : k = o.start / c.P
          · subst hk; exact hcolk
          · exact hskip _ _ (hcold k hk) (entFor_none (fun e => hk e.symm) (Or.inr hnsp))
        have h0 : firstCont ((remove s (o.start / c.P) layer).cols 0).tail 0 = none := by
          refine firstCont_eq_none _ _ ?_
          intro e he
          obtain ⟨p, hp, hpe⟩ := (mem_col (hcols 0)).mp (List.mem_of_mem_tail he)
          rcases entFor_cases hpe with ⟨e1, rfl⟩ | ⟨e1, _⟩
          · exact (startEnt_props hc (g'.ok p hp)).1
          · exact absurd e1 (Nat.succ_ne_zero _)
        refine ⟨_, by rw [if_neg (by simp [not_full g' (hcols 0)]), h0], hcols, rfl, remove_same⟩
    · rw [if_neg hall]
      have hnsp : spills c o.start o.size = false := by
        by_cases hsp : spills c o.start o.size = true
        · exact absurd (hbigg hsp) hall
        · simpa using hsp
      refine ⟨_, rfl, ?_, rfl, remove_same⟩
      intro k
      by_cases hk : k = o.start / c.P
      · subst hk; exact hcolk
      · exact hskip _ _ (hcold k hk) (entFor_none (fun e => hk e.symm) (Or.inr hnsp))
  obtain ⟨t, ht, hcols, hbig, hlast⟩ := hmain
  have c5 : check c t (o.start / c.P) = some () :=
    check_ok hc g' (hcols _) (cont_start hc g' g' (hcols _) (fun j _ => hcols j) (fun _ h => h))
  refine ⟨t, ?_, ⟨g', hcols, ?_⟩, hbig, hlast⟩
  · unfold unindexEnt
    rw [h.check hc]
    simp only [Option.bind_eq_bind, Option.bind_some, pure]
    rw [hl, unless_ok (not_full g (h.cols _)), c2]
    simp only [Option.bind_some]
    rw [ht]
    simp only [Option.bind_some, c5]
  · intro p hp
    rw [hbig]; exact h.big p (List.mem_cons_of_mem _ hp)

/-! ## Removing whatever overlaps a range -/

def Obj.overlaps (o : Obj) (lo hi : Nat) : Prop := o.start < hi ∧ lo < o.start + o.size

instance (o : Obj) (lo hi : Nat) : Decidable (o.overlaps lo hi) := by unfold Obj.overlaps; infer_instance

theorem Good.nodup {c live} (g : Good c live) : live.Nodup := by
  have hd := g.disj
  have hok := g.ok
  clear g
  induction hd with
  | nil => exact List.nodup_nil
  | cons h1 _ ih =>
    rw [List.nodup_cons]
    refine ⟨?_, ih (fun o ho => hok o (List.mem_cons_of_mem _ ho))⟩
    intro hm
    have := h1 _ hm
    have := (hok _ (List.mem_cons_self)).1
    unfold Obj.disjoint at *; omega

/-- Removing an entry whose object is known. -/
theorem unindexEnt_erase {c s live o layer} (hc : c.ok) (h : Reps c s live) (ho : o ∈ live)
    (hl : (s.cols (o.start / c.P))[layer]? = some (startEnt c o.start o.size o.site)) :
    ∃ s', unindexEnt c s (o.start / c.P) layer = some s' ∧ Reps c s' (live.erase o) ∧ s'.biggest = s.biggest ∧
      s'.cols (o.start / c.P) = (s.cols (o.start / c.P)).eraseIdx layer :=
  unindexEnt_ok hc (h.perm (List.perm_cons_erase ho)) hl

theorem unindexBucket_ok {c lo hi k} (hc : c.ok) (hk : lo / c.P ≤ k) :
    ∀ (fuel : Nat) (s : St) (live : List Obj) (layer : Nat), Reps c s live → (s.cols k).length < fuel + layer →
      (∀ i < layer, ∀ o ∈ live, o.start / c.P = k → (s.cols k)[i]? = some (startEnt c o.start o.size o.site) →
        ¬ o.overlaps lo hi) →
      layer ≤ (s.cols k).length →
      ∃ s' live', unindexBucket c s lo hi k fuel layer = some s' ∧ Reps c s' live' ∧ (∀ o ∈ live', o ∈ live) ∧
        (∀ o ∈ live, o ∉ live' → o.overlaps lo hi) ∧ (∀ o ∈ live', o.start / c.P = k → ¬ o.overlaps lo hi) := by
  have hP := hc.1
  intro fuel
  induction fuel with
  | zero => intro s live layer h hf _ hl; omega
  | succ fuel ih =>
    intro s live layer h hf hdone hl
    have g := h.good
    rw [unindexBucket]
    cases hget : (s.cols k)[layer]? with
    | none =>
      simp only
      rw [if_neg (by simp [not_full g (h.cols k)])]
      refine ⟨s, live, rfl, h, fun _ h => h, fun o ho hn => absurd ho hn, ?_⟩
      intro o ho hok
      have hm : startEnt c o.start o.size o.site ∈ s.cols k := (mem_col (h.cols k)).mpr ⟨o, ho, hok ▸ entFor_start⟩
      obtain ⟨i, hi⟩ := List.getElem?_of_mem hm
      have hlt := (List.getElem?_eq_some_iff.mp hi).1
      have hge := List.getElem?_eq_none_iff.mp hget
      exact hdone i (by omega) o ho hok hi
    | some e =>
      have hlt := (List.getElem?_eq_some_iff.mp hget).1
      obtain ⟨p, hp, hpe⟩ := (mem_col (h.cols k)).mp (List.mem_of_getElem? hget)
      simp only
      rcases entFor_cases hpe with ⟨e1, rfl⟩ | ⟨e1, e2, rfl⟩
      · obtain ⟨s1, s2, s3, s4, s5, s6⟩ := startEnt_props hc (g.ok p hp)
        rw [if_neg (by simp [s1])]
        have hpos := (g.ok p hp).1
        have hov : (k * c.P + (startEnt c p.start p.size p.site).off < hi ∧
            k * c.P + (startEnt c p.start p.size p.site).off + (startEnt c p.start p.size p.site).tsz > lo) ↔
            p.overlaps lo hi := by
          have b1 := (div_eq_iff hP).mp e1
          have b2 := div_bounds (a := lo) hP
          have b3 : (lo / c.P + 1) * c.P ≤ (k + 1) * c.P := Nat.mul_le_mul_right _ (by omega)
          rw [e1] at s3 s5
          unfold Obj.overlaps
          omega
        by_cases ho : p.overlaps lo hi
        · rw [if_pos (hov.mpr ho)]
          subst e1
          obtain ⟨s', q1, q2, q3, q4⟩ := unindexEnt_erase hc h hp hget
          rw [q1]
          simp only
          have hlen : (s'.cols (p.start / c.P)).length + 1 = (s.cols (p.start / c.P)).length := by
            rw [q4, List.length_eraseIdx]; rw [if_pos hlt]; omega
          obtain ⟨t, live', r1, r2, r3, r4, r5⟩ := ih s' (live.erase p) layer q2 (by omega) (by
            intro i hi o ho' hok hio
            refine hdone i hi o (List.mem_of_mem_erase ho') hok ?_
            rw [q4, List.getElem?_eraseIdx_of_lt hi] at hio
            exact hio) (by omega)
          refine ⟨t, live', r1, r2, fun o ho' => List.mem_of_mem_erase (r3 o ho'), ?_, r5⟩
          intro o ho' hn
          by_cases hop : o = p
          · subst hop; exact ho
          · exact r4 o ((List.mem_erase_of_ne hop).mpr ho') hn
        · rw [if_neg (fun q => ho (hov.mp q))]
          refine ih s live (layer + 1) h (by omega) ?_ (by omega)
          intro i hi o ho' hok hio
          by_cases hil : i = layer
          · subst hil
            rw [hget] at hio
            have hio := Option.some.inj hio
            obtain ⟨t1, t2, t3, t4, t5, t6⟩ := startEnt_props hc (g.ok o ho')
            have : o = p := by
              rw [hok] at t3; rw [e1] at s3
              rw [← hio] at t3
              refine same_of_common g ho' hp (a := o.start) ⟨Nat.le_refl _, ?_⟩ ⟨by omega, by omega⟩
              have := (g.ok o ho').1; omega
            subst this; exact ho
          · exact hdone i (by omega) o ho' hok hio
      · rw [if_pos (contEnt_props (g.ok p hp)).1]
        refine ih s live (layer + 1) h (by omega) ?_ (by omega)
        intro i hi o ho' hok hio
        by_cases hil : i = layer
        · subst hil
          rw [hget] at hio
          have := (contEnt_props (g.ok p hp)).1
          rw [Option.some.inj hio, (startEnt_props hc (g.ok o ho')).1] at this
          simp at this
        · exact hdone i (by omega) o ho' hok hio

theorem unindexBuckets_ok {c lo hi} (hc : c.ok) :
    ∀ (n k : Nat) (s : St) (live : List Obj), lo / c.P ≤ k → Reps c s live → c.N ≤ n + k →
      (∀ o ∈ live, o.overlaps lo hi → k ≤ o.start / c.P) →
      ∃ s' live', unindexBuckets c lo hi n k s = some s' ∧ Reps c s' live' ∧ (∀ o ∈ live', o ∈ live) ∧
        (∀ o ∈ live, o ∉ live' → o.overlaps lo hi) ∧ (∀ o ∈ live', ¬ o.overlaps lo hi) := by
  have hP := hc.1
  intro n
  induction n with
  | zero =>
    intro k s live hk h hn hov
    refine ⟨s, live, rfl, h, fun _ h => h, fun o ho hn => absurd ho hn, ?_⟩
    intro o ho ho'
    have h1 := hov o ho ho'
    have h2 := (h.good.ok o ho)
    have h3 := div_bounds (a := o.start) hP
    have h4 := Nat.mul_le_mul_right c.P (Nat.le_trans (by omega : c.N ≤ k) h1)
    have h5 := h2.2.1
    have h6 := h2.1
    omega
  | succ n ih =>
    intro k s live hk h hn hov
    rw [unindexBuckets]
    split
    · obtain ⟨s', live', q1, q2, q3, q4, q5⟩ := unindexBucket_ok (hi := hi) hc hk ((s.cols k).length + 1) s live 0 h (by omega)
        (by intro i hi; omega) (by omega)
      rw [q1]
      simp only
      obtain ⟨t, live'', r1, r2, r3, r4, r5⟩ := ih (k + 1) s' live' (by omega) q2 (by omega) (by
        intro o ho ho'
        have := hov o (q3 o ho) ho'
        rcases Nat.eq_or_lt_of_le this with e | e
        · exact absurd ho' (q5 o ho e.symm)
        · omega)
      refine ⟨t, live'', r1, r2, fun o ho => q3 o (r3 o ho), ?_, r5⟩
      intro o ho hno
      by_cases hl : o ∈ live'
      · exact r4 o hl hno
      · exact q4 o ho hl
    · rename_i hge
      refine ⟨s, live, rfl, h, fun _ h => h, fun o ho hn => absurd ho hn, ?_⟩
      intro o ho ho'
      have h1 := hov o ho ho'
      have h3 := div_bounds (a := o.start) hP
      have h4 := Nat.mul_le_mul_right c.P h1
      unfold Obj.overlaps at ho'; omega

theorem unindexOverlapping_ok {c s live lo hi} (hc : c.ok) (h : Reps c s live) (hlo : lo < hi) :
    ∃ s', unindexOverlapping c s lo hi = some s' ∧ Reps c s' (live.filter (fun o => !decide (o.overlaps lo hi))) := by
  have hP := hc.1
  have finish : ∀ s1 live1, Reps c s1 live1 → (∀ o ∈ live1, o ∈ live) → (∀ o ∈ live, o ∉ live1 → o.overlaps lo hi) →
      (∀ o ∈ live1, ¬ o.contains lo) →
      ∃ s', unindexBuckets c lo hi (c.N - lo / c.P) (lo / c.P) s1 = some s' ∧
        Reps c s' (live.filter (fun o => !decide (o.overlaps lo hi))) := by
    intro s1 live1 h1 hsub hgone hnc
    obtain ⟨t, live', r1, r2, r3, r4, r5⟩ := unindexBuckets_ok (hi := hi) hc (c.N - lo / c.P) (lo / c.P) s1 live1 (Nat.le_refl _) h1
      (Nat.sub_le_iff_le_add.mp (Nat.le_refl _)) (by
        intro o ho ho'
        have := hnc o ho
        unfold Obj.contains at this; unfold Obj.overlaps at ho'
        exact Nat.div_le_div_right (by omega))
    refine ⟨t, r1, r2.perm ?_⟩
    refine (List.perm_ext_iff_of_nodup r2.good.nodup (h.good.nodup.filter _)).mpr ?_
    intro o
    rw [List.mem_filter]
    simp only [Bool.not_eq_true', decide_eq_false_iff_not]
    constructor
    · intro ho; exact ⟨hsub o (r3 o ho), r5 o ho⟩
    · rintro ⟨ho, hno⟩
      by_cases hm : o ∈ live1
      · by_cases hm' : o ∈ live'
        · exact hm'
        · exact absurd (r4 o hm hm') hno
      · exact absurd (hgone o ho hm) hno
  unfold unindexOverlapping
  obtain ⟨r, q1, q2, q3⟩ := lookup_ok hc h lo
  rw [q1]
  cases r with
  | none => exact finish s live h (fun _ h => h) (fun o ho hn => absurd ho hn) (q3 rfl)
  | some x =>
    simp only
    obtain ⟨o, ho, hcon, e1, e2, e3⟩ := q2 x rfl
    rw [e2] at e3 ⊢
    obtain ⟨s', t1, t2, _, _⟩ := unindexEnt_erase hc h ho e3
    rw [t1, Option.bind_some]
    refine finish s' _ t2 (fun p hp => List.mem_of_mem_erase hp) ?_ ?_
    · intro p hp hn
      by_cases hpo : p = o
      · subst hpo; unfold Obj.contains at hcon; exact ⟨by omega, hcon.2⟩
      · exact absurd ((List.mem_erase_of_ne hpo).mpr hp) hn
    · intro p hp hpc
      have := same_of_common h.good (List.mem_of_mem_erase hp) ho hpc hcon
      subst this
      exact absurd hp (fun q => by rw [h.good.nodup.mem_erase_iff] at q; exact q.1 rfl)

end Liballocs.SmallIndex
