import Verif.Props.FileLoad
/-!
# Loading across a hole, unloading, and what goes wrong (C82, C83)
-/
namespace Liballocs.FileLoad

open PageIndex Fill

/-! ## C82 Plugging a hole -/

/-- Two mappings with a hole between them. -/
structure HoleOk (c : Config) (s : State) (m1 m2 : Nat) : Prop where
  live1 : Live s m1
  live2 : Live s m2
  top1 : s.par m1 = 0
  top2 : s.par m2 = 0
  alloc1 : s.alloc m1 = mmapId
  alloc2 : s.alloc m2 = mmapId
  hole : s.fin m1 < s.beg m2
  small : s.fin m2 ≤ s.beg m1 + c.maxPages * PAGE
  empty : ∀ n, Live s n → s.par n = 0 → n = m1 ∨ n = m2 ∨ s.fin n ≤ s.beg m1 ∨ s.fin m2 ≤ s.beg n
  start : ¬ Has s s.start (s.beg m2)

/-- Plugging a hole between two mappings: the lower one grows to the end of the upper one, which is deleted with all in it; the
lookups of the hole and of the upper mapping then give the lower one, all others are as before. Missing: mappings that abut,
other mappings in the hole. -/
theorem plug_partial {c : Config} {align : Nat → Nat} {s : State} {m1 m2 : Nat} (hr : Reach c align s) (ho : HoleOk c s m1 m2) :
    ∃ s', plugHole c s m1 m2 = some s' ∧ Reach c align s' ∧
      (∀ n, Live s' n ↔ Live s n ∧ ¬ Anc s m2 n) ∧
      (∀ n, Live s' n → s'.beg n = s.beg n ∧ s'.fin n = (if n = m1 then s.fin m2 else s.fin n) ∧ s'.par n = s.par n) ∧
      s'.alloc = s.alloc ∧ s'.priv = s.priv ∧
      (∀ a, s.fin m1 ≤ a → a < s.fin m2 → deepest c s' a = some m1) ∧
      (∀ a, ¬ (s.fin m1 ≤ a ∧ a < s.fin m2) → deepest c s' a = deepest c s a) := by
  obtain ⟨_, kids, rank, h⟩ := reach_good hr
  have hsm := ho.small
  have hho := ho.hole
  have hp1 := h.pos m1 ho.live1
  have hp2 := h.pos m2 ho.live2
  have ht1 := h.top m1 ho.live1 ho.top1
  have ht2 := h.top m2 ho.live2 ho.top2
  have hanc2 : ∀ {x}, Anc s x m2 → x = m2 := by
    intro x hx
    cases hx with
    | refl => rfl
    | step h4 _ => exact absurd ho.top2 h4
  have hne : m1 ≠ m2 := by intro e; rw [e] at hho hp1; omega
  have hfree : holeFree s (s.fin m1) (s.beg m2) = true := by
    unfold holeFree
    rw [List.all_eq_true]
    intro q hq
    rw [List.mem_range'_1] at hq
    rw [beq_iff_eq]
    rcases h.owner q with ⟨h1, _⟩ | ⟨_, h2, h3, _⟩
    · exact h1
    · exfalso
      obtain ⟨r, hr1, hr2, hr3⟩ := h.exists_root h2
      have hn := h.anc_nest hr3 h2
      unfold Covers at h3
      unfold pagenum PAGE at hq
      unfold PAGE at h3 ht1 ht2
      rcases ho.empty r hr1 hr2 with rfl | rfl | h5 | h5 <;> omega
  have hst : ¬ (Has s s.start (s.beg m2) ∧ s.alloc s.start = mmapId) := fun h => ho.start h.1
  rcases deleteAt_spec h (by decide : mmapId ≠ 0) hst with ⟨_, h1⟩ | ⟨s1, b, kids', o, e, hb, hba, hbal, hbo, h', hd⟩
  · exact absurd ho.alloc2 (h1 m2 ho.live2 ⟨Nat.le_refl _, hp2⟩)
  · obtain rfl := hanc2 (hbo m2 ho.live2 ⟨Nat.le_refl _, hp2⟩ ho.alloc2)
    have hmem : ∀ n, n ∈ o ↔ Live s n ∧ Anc s b n := by intro n; rw [hd.mem]; simp
    have hm1o : m1 ∉ o := by
      intro hm
      have := (hmem m1).mp hm
      cases this.2 with
      | refl => exact hne rfl
      | step h4 _ => exact h4 ho.top1
    have hlive : ∀ n, Live s1 n ↔ Live s n ∧ ¬ Anc s b n := by
      intro n
      rw [hd.live, hmem]
      constructor
      · rintro ⟨h1, h2⟩; exact ⟨h1, fun h3 => h2 ⟨h1, h3⟩⟩
      · rintro ⟨h1, h2⟩; exact ⟨h1, fun h3 => h2 h3.2⟩
    have hnot : ∀ n, Live s1 n → n ∉ o := fun n hn => ((hd.live n).mp hn).2
    have hl1 : Live s1 m1 := (hd.live m1).mpr ⟨ho.live1, hm1o⟩
    have hr1 : Reach c align s1 := by
      refine Reach.step (op := .deleteAt (s.beg b) mmapId) hr ⟨by decide, hst⟩ ?_
      simp only [apply]
      rw [e]
      rfl
    have hb1 := hd.beg m1 hm1o
    have hf1 := hd.fin m1 hm1o
    have hpar1 := hd.par m1 hm1o
    have hrz : Resizable c s1 m1 (s1.beg m1) (s.fin b) := by
      have hz := hl1.1
      refine ⟨hz, by omega, by omega, ⟨by omega, by omega⟩, fun h0 => absurd (by rw [hpar1, ho.top1]) h0, ?_, ?_, fun _ => ⟨by rw [hb1]; exact ht1.1, ht2.2⟩⟩
      · intro d hdl hdp
        have := h'.nest d hdl (by rw [hdp]; exact live_ne_zero hr1 hl1)
        rw [hdp] at this
        omega
      · intro d hdl hdp hdm
        rw [hpar1, ho.top1, hd.par d (hnot d hdl)] at hdp
        rw [hd.beg d (hnot d hdl), hd.fin d (hnot d hdl), hb1]
        rcases ho.empty d ((hd.live d).mp hdl).1 hdp with h5 | h5 | h5 | h5
        · exact absurd h5 hdm
        · rw [h5] at hdl
          exact absurd ((hmem b).mpr ⟨hb, Anc.refl⟩) (hnot b hdl)
        · exact Or.inl h5
        · exact Or.inr h5
    have hpage : s1.beg m1 ≤ roundDown (s1.fin m1) PAGE ∨ s.fin b < roundDown (s1.fin m1) PAGE + PAGE := by
      left
      rw [hf1, hb1]
      unfold roundDown
      unfold PAGE at ht1 ⊢
      omega
    obtain ⟨s', e2, hres, h2⟩ := extend_spec h' hl1 (by omega) hrz hpage
    have hr2 : Reach c align s' := Reach.step (op := .extend m1 (s.fin b)) hr1 ⟨hl1, by omega, hrz, hpage⟩ e2
    have hown := ownership h' h2 hl1 hrz hres
    have hlive2 : ∀ n, Live s' n ↔ Live s1 n := by
      intro n
      unfold Live
      rw [(hown.ranges n).1, (hown.ranges n).2]
      by_cases hnm : n = m1
      · subst hnm
        have := hl1.1
        have := hl1.2
        simp only [if_true]
        constructor
        · intro _; exact hl1
        · intro _; exact ⟨hl1.1, by omega⟩
      · rw [if_neg hnm, if_neg hnm]
    refine ⟨s', ?_, hr2, fun n => (hlive2 n).trans (hlive n), ?_, by rw [hres.alloc, hd.alloc], by rw [hres.priv, hd.priv], ?_, ?_⟩
    · unfold plugHole
      rw [if_pos ho.hole, if_neg (by omega), if_pos hfree]
      simp only
      rw [e, Option.bind_some, if_pos rfl]
      show adjustEnd c s1 m1 (s.fin b) = some s'
      unfold adjustEnd
      rw [if_neg (by omega), if_pos (by omega)]
      exact e2
    · intro n hn
      have hno := hnot n ((hlive2 n).mp hn)
      rw [(hown.ranges n).1, (hown.ranges n).2, hown.parents, hd.par n hno]
      by_cases hnm : n = m1
      · rw [if_pos hnm, if_pos hnm, if_pos hnm, hnm, hb1]
        exact ⟨rfl, rfl, rfl⟩
      · rw [if_neg hnm, if_neg hnm, if_neg hnm, hd.beg n hno, hd.fin n hno]
        exact ⟨rfl, rfl, rfl⟩
    · intro a h1 h2
      exact hown.gained a (by omega) h2 (by unfold Has; omega)
    · intro a hna
      rw [hown.kept a (by unfold Has; rw [hb1, hf1]; omega)]
      exact (deleted_lookup h h' hb hd a).2 (by unfold Has; omega)

/-- Mappings are joined only over a hole that no other mapping has a part of, and that is not larger than the largest big allocation. -/
theorem plug_needs {c : Config} {align : Nat → Nat} {s s' : State} {m1 m2 : Nat} (hr : Reach c align s) (l1 : Live s m1) (l2 : Live s m2) (t1 : s.par m1 = 0)
    (t2 : s.par m2 = 0) (h : plugHole c s m1 m2 = some s') :
    s.fin m1 < s.beg m2 ∧ s.beg m2 ≤ s.fin m1 + c.maxPages * PAGE ∧ ∀ n, Live s n → ∀ a, Has s n a → ¬ (s.fin m1 ≤ a ∧ a < s.beg m2) := by
  obtain ⟨_, kids, rank, hi⟩ := reach_good hr
  unfold plugHole at h
  split at h
  · rename_i g1
    split at h
    · cases h
    · rename_i g2
      split at h
      · rename_i g3
        refine ⟨g1, by omega, ?_⟩
        intro n hn a ha hh
        obtain ⟨r, hr1, hr2, hr3⟩ := hi.exists_root hn
        have hnest := hi.anc_nest hr3 hn
        have htr := hi.top r hr1 hr2
        have ht1 := hi.top m1 l1 t1
        have ht2 := hi.top m2 l2 t2
        unfold holeFree at g3
        rw [List.all_eq_true] at g3
        have h0 := g3 (a / PAGE) (by
          rw [List.mem_range'_1]
          unfold pagenum
          unfold PAGE at *
          omega)
        rw [beq_iff_eq] at h0
        have how := hi.owner (a / PAGE)
        rw [h0] at how
        rcases how with ⟨_, h3⟩ | ⟨h2, _⟩
        · refine h3 r hr1 ?_
          unfold Has at ha
          unfold Covers
          unfold PAGE at *
          omega
        · exact absurd rfl h2
      · cases h
  · cases h

/-- A file is taken in only if its first and its last byte are in mappings, in the same one or with nothing but a hole between. -/
theorem load_needs {c : Config} {align : Nat → Nat} {s s' : State} {F : File} (hr : Reach c align s) (hal : ∀ m, Live s m → s.par m = 0 → s.alloc m = mmapId)
    (h : loadFile c s F = some s') : ∃ lo hi m1 m2, bounds F.phdrs = (some lo, hi) ∧ Live s m1 ∧ s.par m1 = 0 ∧ Has s m1 (F.laddr + lo) ∧
      Live s m2 ∧ s.par m2 = 0 ∧ Has s m2 (F.laddr + hi - 1) ∧
      (m1 = m2 ∨ s.fin m1 < s.beg m2 ∧ ∀ n, Live s n → ∀ a, Has s n a → ¬ (s.fin m1 ≤ a ∧ a < s.beg m2)) := by
  unfold loadFile at h
  split at h
  · cases h
  · rename_i lo hi hb
    obtain ⟨m1, e1, k1⟩ := mappingOf_exact hr (F.laddr + lo) (fun m a b _ => hal m a b)
    obtain ⟨m2, e2, k2⟩ := mappingOf_exact hr (F.laddr + hi - 1) (fun m a b _ => hal m a b)
    rw [e1, Option.bind_some, e2, Option.bind_some] at h
    split at h
    · cases h
    · rename_i hz
      rcases k1 with k1 | k1
      · exact absurd (Or.inl k1.1) hz
      rcases k2 with k2 | k2
      · exact absurd (Or.inr k2.1) hz
      refine ⟨lo, hi, m1, m2, hb, k1.1, k1.2.1, k1.2.2.1, k2.1, k2.2.1, k2.2.2.1, ?_⟩
      by_cases hm : m2 = m1
      · exact Or.inl hm.symm
      · rw [if_neg hm] at h
        cases hp : plugHole c s m1 m2 with
        | none => rw [hp] at h; cases h
        | some t =>
          have := plug_needs hr k1.1 k2.1 k1.2.1 k2.2.1 hp
          exact Or.inr ⟨this.1, this.2.2⟩

/-- A file in two mappings with a hole between them is loaded as if the lower mapping reached to the end of the upper one. -/
theorem load_hole_partial {c : Config} {align : Nat → Nat} {s : State} {F : File} {m1 m2 lo hi : Nat} (hr : Reach c align s) (ho : HoleOk c s m1 m2)
    (hp2 : s.priv m2 ≠ 0) (h1 : F.laddr + lo < s.fin m1) (h2 : s.beg m2 < F.laddr + hi)
    (hl : LoadOk c { s with fin := upd s.fin m1 (s.fin m2) } F m1 lo hi) :
    ∃ s', plugHole c s m1 m2 = some s' ∧ Reach c align s' ∧ LoadOk c s' F m1 lo hi ∧ loadFile c s F = loadFile c s' F := by
  obtain ⟨s', e, hr', hlv, hf, hal, hpr, _⟩ := plug_partial hr ho
  obtain ⟨_, kids, rank, h⟩ := reach_good hr
  have hho := ho.hole
  have hpos := h.pos m1 ho.live1
  have hpos2 := h.pos m2 ho.live2
  have hne : m2 ≠ m1 := by intro e; rw [e] at hho; omega
  have hl1 : Live s' m1 := by
    refine (hlv m1).mpr ⟨ho.live1, fun ha => ?_⟩
    cases ha with
    | refl => exact hne rfl
    | step h4 _ => exact h4 ho.top1
  obtain ⟨f1, f2, f3⟩ := hf m1 hl1
  rw [if_pos rfl] at f2
  have hbegins : s.beg m1 ≤ F.laddr + lo := hl.begins
  have hends : F.laddr + hi ≤ s.fin m2 := by
    have : F.laddr + hi ≤ upd s.fin m1 (s.fin m2) m1 := hl.ends
    rwa [upd_same] at this
  have hp1 : s.priv m1 ≠ 0 := hl.priv
  have hlive : ∀ n, Live s' n → Live { s with fin := upd s.fin m1 (s.fin m2) } n := by
    intro n hn
    have hns := ((hlv n).mp hn).1
    refine ⟨hns.1, ?_⟩
    show upd s.fin m1 (s.fin m2) n ≠ 0
    by_cases hnm : n = m1
    · rw [hnm, upd_same]; omega
    · rw [upd_ne hnm]; exact hns.2
  have hok : LoadOk c s' F m1 lo hi := by
    refine ⟨hl.bounds, hl1, by rw [f3, ho.top1], by rw [hal, ho.alloc1], by rw [hpr]; exact hp1, by omega, by omega, ?_, ?_, ?_, hl.segPos,
      hl.segApart, hl.data, hl.secIn, hl.secApart⟩
    · intro d hd hdp
      rw [(hf d hd).1]
      exact hl.free d (hlive d hd) (by show s.par d = m1; rw [← (hf d hd).2.2]; exact hdp)
    · rw [f1]; exact hl.small
    · obtain ⟨l, g1, g2, g3⟩ := hl.room
      exact ⟨l, g1, g2, fun b hb => ⟨(g3 b hb).1, (g3 b hb).2.1, fun hbl => (g3 b hb).2.2 (hlive b hbl)⟩⟩
  refine ⟨s', e, hr', hok, ?_⟩
  have hsame : ∀ a, s.beg m1 ≤ a → a < s.fin m2 → mappingOf c s' a = some m1 := by
    intro a g1 g2
    exact mappingOf_ok hr' hl1 hok.top hok.alloc hok.priv ⟨by omega, by omega⟩
  unfold loadFile
  rw [hl.bounds]
  simp only
  rw [mappingOf_ok hr ho.live1 ho.top1 ho.alloc1 hp1 ⟨by omega, by omega⟩, mappingOf_ok hr ho.live2 ho.top2 ho.alloc2 hp2 ⟨by omega, by omega⟩,
    hsame _ (by omega) (by omega), hsame _ (by omega) (by omega)]
  simp only [Option.bind_some]
  have z1 := live_ne_zero hr ho.live1
  have z2 := live_ne_zero hr ho.live2
  rw [if_neg (by omega), if_neg hne, e, if_neg (by omega), if_pos trivial]

/-! ## C83 Unloading -/

/-- The big allocation of a loaded file with this name. -/
def IsFile (s : State) (nameOf : Nat → Nat) (name b : Nat) : Prop := Live s b ∧ s.alloc b = fileId ∧ nameOf (s.priv b) = name

/-- No file lies in another. -/
def NoNest (s : State) : Prop := ∀ x y, Live s x → Live s y → s.alloc x = fileId → s.alloc y = fileId → Anc s x y → x = y

/-- What has been done after some of the slots. -/
structure Unloading (c : Config) (align : Nat → Nat) (s t : State) (roots order : List Nat) : Prop where
  reach : Reach c align t
  del : Deleted s t roots order
  look : ∀ a, (∀ r ∈ roots, ¬ Has s r a) → deepest c t a = deepest c s a
  up : ∀ a, ∀ r ∈ roots, Has s r a → deepest c t a = some (s.par r)

theorem unload_fold {c : Config} {align : Nat → Nat} {s : State} {nameOf : Nat → Nat} {name : Nat} (hr : Reach c align s) (hnn : NoNest s)
    (hst : s.alloc s.start ≠ fileId) : ∀ (l : List Nat) (t : State) (roots order : List Nat), Unloading c align s t roots order →
    (∀ r ∈ roots, IsFile s nameOf name r) →
    ∃ t' roots' order', l.foldlM (unloadStep c nameOf name) t = some t' ∧ Unloading c align s t' roots' order' ∧
      ∀ r, r ∈ roots' ↔ r ∈ roots ∨ (r ∈ l ∧ IsFile s nameOf name r)
  | [], t, roots, order, hu, _ => ⟨t, roots, order, rfl, hu, by simp⟩
  | x :: l, t, roots, order, hu, hroots => by
    obtain ⟨_, kids, rank, h⟩ := reach_good hr
    obtain ⟨_, kidst, rankt, ht⟩ := reach_good hu.reach
    rw [List.foldlM_cons]
    have hskip : ∀ (hx : IsFile s nameOf name x → x ∈ roots), ∃ t' roots' order', l.foldlM (unloadStep c nameOf name) t = some t' ∧
        Unloading c align s t' roots' order' ∧ ∀ r, r ∈ roots' ↔ r ∈ roots ∨ (r ∈ x :: l ∧ IsFile s nameOf name r) := by
      intro hx
      obtain ⟨t', roots', order', e, hu', hr'⟩ := unload_fold hr hnn hst l t roots order hu hroots
      refine ⟨t', roots', order', e, hu', fun r => ?_⟩
      rw [hr' r, List.mem_cons]
      constructor
      · rintro (h1 | ⟨h1, h2⟩)
        · exact Or.inl h1
        · exact Or.inr ⟨Or.inr h1, h2⟩
      · rintro (h1 | ⟨rfl | h1, h2⟩)
        · exact Or.inl h1
        · exact Or.inl (hx h2)
        · exact Or.inr ⟨h1, h2⟩
    by_cases hm : inUse t x = true ∧ t.alloc x = fileId ∧ nameOf (t.priv x) = name
    · obtain ⟨hm1, hm2, hm3⟩ := hm
      have hxt : Live t x := live_iff.mp hm1
      obtain ⟨hxs, hxo⟩ := (hu.del.live x).mp hxt
      have hxf : s.alloc x = fileId := by rw [← hu.del.alloc]; exact hm2
      have hfile : IsFile s nameOf name x := ⟨hxs, hxf, by rw [← hu.del.priv]; exact hm3⟩
      have hxa : Has t x (t.beg x) := ⟨Nat.le_refl _, ht.pos x hxt⟩
      have hst' : ¬ (Has t t.start (t.beg x) ∧ t.alloc t.start = fileId) := by
        rw [hu.del.alloc, hu.del.start]
        exact fun h => hst h.2
      rcases deleteAt_spec ht (by decide : fileId ≠ 0) hst' with ⟨_, h1⟩ | ⟨t1, b, kids', o, e, hb, hba, hbal, hbo, h', hd⟩
      · exact absurd hm2 (h1 x hxt hxa)
      · have hbx : b = x := by
          have h1 := (hu.del.anc h.toLinks hxs hxo).mp (hbo x hxt hxa hm2)
          exact hnn b x ((hu.del.live b).mp hb).1 hxs (by rw [← hu.del.alloc]; exact hbal) hxf h1
        subst hbx
        have hr1 : Reach c align t1 := by
          refine Reach.step (op := .deleteAt (t.beg b) fileId) hu.reach ⟨by decide, hst'⟩ ?_
          simp only [apply]
          rw [e]
          rfl
        have hhas : ∀ a, Has t b a ↔ Has s b a := by intro a; unfold Has; rw [hu.del.beg b hxo, hu.del.fin b hxo]
        have hpart : t.par b = s.par b := hu.del.par b hxo
        have hnot : ∀ a r, r ∈ roots → Has s r a → ¬ Has s b a := by
          intro a r hr1 hra hba
          obtain ⟨g1, g2, _⟩ := hroots r hr1
          have hrb : r = b := by
            rcases h.laminar g1 hxs hra hba with h3 | h3
            · exact hnn r b g1 hxs g2 hxf h3
            · exact (hnn b r hxs g1 hxf g2 h3).symm
          subst hrb
          exact hxo ((hu.del.mem r).mpr ⟨hxs, r, hr1, Anc.refl⟩)
        have hu1 : Unloading c align s t1 (roots ++ [b]) (order ++ o) := by
          refine ⟨hr1, hu.del.comp h.toLinks hd, ?_, ?_⟩
          · intro a ha
            rw [(deleted_lookup ht h' hb hd a).2 (by rw [hhas]; exact ha b (by simp)), hu.look a (fun r hr => ha r (by simp [hr]))]
          · intro a r hr2 hra
            rcases List.mem_append.mp hr2 with hr2 | hr2
            · rw [(deleted_lookup ht h' hb hd a).2 (by rw [hhas]; exact hnot a r hr2 hra), hu.up a r hr2 hra]
            · obtain rfl : r = b := by simpa using hr2
              rw [(deleted_lookup ht h' hb hd a).1 ((hhas a).mpr hra), hpart]
        obtain ⟨t', roots', order', e', hu', hr'⟩ := unload_fold hr hnn hst l t1 (roots ++ [b]) (order ++ o) hu1 (by
          intro r hr2
          rcases List.mem_append.mp hr2 with hr2 | hr2
          · exact hroots r hr2
          · obtain rfl : r = b := by simpa using hr2
            exact hfile)
        refine ⟨t', roots', order', ?_, hu', ?_⟩
        · unfold unloadStep
          rw [if_pos ⟨hm1, hm2, hm3⟩, e]
          exact e'
        · intro r
          rw [hr' r]
          simp only [List.mem_append, List.mem_cons, List.not_mem_nil, or_false]
          constructor
          · rintro ((h1 | rfl) | ⟨h1, h2⟩)
            · exact Or.inl h1
            · exact Or.inr ⟨Or.inl rfl, hfile⟩
            · exact Or.inr ⟨Or.inr h1, h2⟩
          · rintro (h1 | ⟨rfl | h1, h2⟩)
            · exact Or.inl (Or.inl h1)
            · exact Or.inl (Or.inr rfl)
            · exact Or.inr ⟨h1, h2⟩
    · have e0 : unloadStep c nameOf name t x = some t := by
        unfold unloadStep
        rw [if_neg hm]
      rw [e0]
      apply hskip
      rintro ⟨hxs, hxf, hxn⟩
      have hxt : ¬ Live t x := fun hxt => hm ⟨live_iff.mpr hxt, by rw [hu.del.alloc]; exact hxf, by rw [hu.del.priv]; exact hxn⟩
      have hxo : x ∈ order := Classical.byContradiction fun hno => hxt ((hu.del.live x).mpr ⟨hxs, hno⟩)
      obtain ⟨_, r, hr1, hra⟩ := (hu.del.mem x).mp hxo
      obtain ⟨g1, g2, _⟩ := hroots r hr1
      exact hnn r x g1 hxs g2 hxf hra ▸ hr1

/-- An unload deletes exactly the big allocations of the files of that name and all in them, each once and those inside first, and
calls their destructors; lookups in such a file then give what the file was in, all others are as before. Missing: files inside
files. -/
theorem unload_partial {c : Config} {align : Nat → Nat} {s : State} {nameOf : Nat → Nat} {name : Nat} (hr : Reach c align s) (hnn : NoNest s)
    (hst : s.alloc s.start ≠ fileId) :
    ∃ (s' : State) (order : List Nat), unloadFile c nameOf name s = some s' ∧ Reach c align s' ∧
      order.Nodup ∧ (∀ n, n ∈ order ↔ Live s n ∧ ∃ b, IsFile s nameOf name b ∧ Anc s b n) ∧ order.Pairwise (fun x y => ¬ Anc s x y) ∧
      (∀ n, Live s' n ↔ Live s n ∧ n ∉ order) ∧ (∀ n, Live s' n → Kept s s' n) ∧
      s'.log = s.log ++ order.flatMap (fun n =>
        (if s.priv n ≠ 0 ∧ s.privFree n ≠ 0 then [Call.priv n (s.privFree n) (s.priv n)] else []) ++
        (if s.subPrivFree n ≠ 0 then [Call.sub n (s.subPrivFree n) (s.subPriv n)] else [])) ∧
      (∀ a b, IsFile s nameOf name b → Has s b a → deepest c s' a = some (s.par b)) ∧
      (∀ a, (∀ b, IsFile s nameOf name b → ¬ Has s b a) → deepest c s' a = deepest c s a) := by
  obtain ⟨_, kids, rank, h⟩ := reach_good hr
  obtain ⟨s', roots, order, e, hu, hroots⟩ := unload_fold (nameOf := nameOf) (name := name) hr hnn hst (List.range c.nb) s [] []
    ⟨hr, Deleted.nil s, fun _ _ => rfl, by simp⟩ (by simp)
  have hroots : ∀ r, r ∈ roots ↔ IsFile s nameOf name r := by
    intro r
    rw [hroots r]
    simp only [List.not_mem_nil, false_or, List.mem_range]
    exact ⟨fun h => h.2, fun hf => ⟨h.lt r hf.1, hf⟩⟩
  refine ⟨s', order, e, hu.reach, hu.del.nodup, ?_, hu.del.leavesFirst, hu.del.live, ?_, hu.del.log, ?_, ?_⟩
  · intro n
    rw [hu.del.mem]
    constructor
    · rintro ⟨h1, b, h2, h3⟩; exact ⟨h1, b, (hroots b).mp h2, h3⟩
    · rintro ⟨h1, b, h2, h3⟩; exact ⟨h1, b, (hroots b).mpr h2, h3⟩
  · intro n hn
    have hno := ((hu.del.live n).mp hn).2
    exact ⟨hn, hu.del.beg n hno, hu.del.fin n hno, hu.del.par n hno, by rw [hu.del.alloc], by rw [hu.del.sub], by rw [hu.del.priv],
      by rw [hu.del.privFree], by rw [hu.del.subPriv], by rw [hu.del.subPrivFree]⟩
  · exact fun a b hb hba => hu.up a b ((hroots b).mpr hb) hba
  · exact fun a ha => hu.look a (fun r hr => ha r ((hroots r).mp hr))

/-- Exactly one element of a list without repetitions contributes. -/
theorem flatMap_one {α : Type} (g : Nat → List α) (f : Nat) : ∀ l : List Nat, l.Nodup → f ∈ l → (∀ n ∈ l, n ≠ f → g n = []) → l.flatMap g = g f
  | [], _, hm, _ => by cases hm
  | x :: l, hd, hm, h0 => by
    rw [List.nodup_cons] at hd
    rw [List.flatMap_cons]
    by_cases hx : x = f
    · subst hx
      have : l.flatMap g = [] := by
        rw [List.flatMap_eq_nil_iff]
        intro y hy
        exact h0 y (List.mem_cons_of_mem _ hy) (fun e => hd.1 (e ▸ hy))
      rw [this, List.append_nil]
    · rw [h0 x List.mem_cons_self hx, List.nil_append]
      refine flatMap_one g f l hd.2 ?_ (fun n hn => h0 n (List.mem_cons_of_mem _ hn))
      rcases List.mem_cons.mp hm with h | h
      · exact absurd h.symm hx
      · exact h

/-- Load followed by unload: the big allocations and all lookups are as before the load, and the file's record has been freed,
exactly once. Missing: as for the load and the unload. -/
theorem roundtrip_partial {c : Config} {align : Nat → Nat} {s : State} {F : File} {m lo hi : Nat} {nameOf : Nat → Nat} (hr : Reach c align s)
    (ho : LoadOk c s F m lo hi) (hnn : NoNest s) (hst : s.alloc s.start ≠ fileId) (hstl : Live s s.start) (hi0 : F.info ≠ 0)
    (hname : ∀ b, Live s b → s.alloc b = fileId → nameOf (s.priv b) ≠ nameOf F.info) :
    ∃ s' s'' f, loadFile c s F = some s' ∧ unloadFile c nameOf (nameOf F.info) s' = some s'' ∧ Reach c align s'' ∧
      (∀ n, Live s'' n ↔ Live s n) ∧ (∀ n, Live s n → Kept s s'' n) ∧ (∀ a, deepest c s'' a = deepest c s a) ∧
      s''.log = s.log ++ [Call.priv f fileFree F.info] := by
  obtain ⟨_, kids, rank, h⟩ := reach_good hr
  obtain ⟨s', f, e, hr', hf, hmf, hsegs, hsecs, hfile, hlook, hkept, hnew, hlog, hstart⟩ := load_partial hr ho
  have hpf := hmf.priv
  obtain ⟨_, kids', rank', h'⟩ := reach_good hr'
  have hmne : m ≠ 0 := live_ne_zero hr ho.live
  have hancOld : ∀ x y, Live s y → Anc s' x y → Live s x ∧ Anc s x y := by
    intro x y hy ha
    induction ha with
    | refl => exact ⟨hy, Anc.refl⟩
    | @step y h4 h5 ih =>
      rw [(hkept y hy).par] at h4 ih
      obtain ⟨i1, i2⟩ := ih (h.parLive y hy h4)
      exact ⟨i1, Anc.step h4 i2⟩
  have hancF : ∀ x, Live s' x → Anc s' x f → x = f ∨ x = m := by
    intro x hx ha
    cases ha with
    | refl => exact Or.inl rfl
    | step h4 h5 =>
      rw [hmf.par] at h5
      cases h5 with
      | refl => exact Or.inr rfl
      | step h6 _ => exact absurd (by rw [(hkept m ho.live).par, ho.top]) h6
  have hfiles : ∀ x, Live s' x → s'.alloc x = fileId → x = f ∨ (Live s x ∧ s.alloc x = fileId) := by
    intro x hx hxa
    by_cases hxs : Live s x
    · exact Or.inr ⟨hxs, by rw [← (hkept x hxs).alloc]; exact hxa⟩
    · rcases (hnew x hx hxs).2 with h1 | ⟨h1 | h1, _⟩
      · exact Or.inl h1
      · rw [h1] at hxa; exact absurd hxa (by decide)
      · rw [h1] at hxa; exact absurd hxa (by decide)
  have hnn' : NoNest s' := by
    intro x y hx hy hxa hya ha
    rcases hfiles y hy hya with rfl | ⟨hys, hya'⟩
    · rcases hancF x hx ha with h1 | h1
      · exact h1
      · rw [h1, (hkept m ho.live).alloc, ho.alloc] at hxa
        exact absurd hxa (by decide)
    · obtain ⟨hxs, ha'⟩ := hancOld x y hys ha
      exact hnn x y hxs hys (by rw [← (hkept x hxs).alloc]; exact hxa) hya' ha'
  have hst' : s'.alloc s'.start ≠ fileId := by rw [hstart, (hkept _ hstl).alloc]; exact hst
  have hisf : ∀ b, IsFile s' nameOf (nameOf F.info) b ↔ b = f := by
    intro b
    constructor
    · rintro ⟨h1, h2, h3⟩
      rcases hfiles b h1 h2 with h4 | ⟨h4, h5⟩
      · exact h4
      · rw [(hkept b h4).priv] at h3
        exact absurd h3 (hname b h4 h5)
    · rintro rfl
      exact ⟨hmf.live, hmf.alloc, by rw [hpf]⟩
  obtain ⟨s'', order, e2, hr2, hnd, hmem, _, hlive, hkept2, hlog2, hup, hlook2⟩ := unload_partial (nameOf := nameOf) (name := nameOf F.info) hr' hnn' hst'
  have hmem : ∀ n, n ∈ order ↔ Live s' n ∧ Anc s' f n := by
    intro n
    rw [hmem]
    constructor
    · rintro ⟨h1, b, h2, h3⟩; rw [(hisf b).mp h2] at h3; exact ⟨h1, h3⟩
    · rintro ⟨h1, h2⟩; exact ⟨h1, f, (hisf f).mpr rfl, h2⟩
  have hlive'' : ∀ n, Live s'' n ↔ Live s n := by
    intro n
    rw [hlive, hmem]
    constructor
    · rintro ⟨h1, h2⟩
      exact Classical.byContradiction fun hns => h2 ⟨h1, (hnew n h1 hns).1⟩
    · intro hns
      exact ⟨(hkept n hns).live, fun h2 => hf (hancOld f n hns h2.2).1⟩
  refine ⟨s', s'', f, e, e2, hr2, hlive'', fun n hn => (hkept n hn).trans (hkept2 n ((hlive'' n).mpr hn)), ?_, ?_⟩
  · intro a
    by_cases ha : inR (s.beg m, F.laddr + hi) a
    · have hends := ho.ends
      rw [hup a f ((hisf f).mpr rfl) ⟨by rw [hmf.beg]; exact ha.1, by rw [hmf.fin]; exact ha.2⟩, hmf.par, (h.deepest_iff a m).mpr]
      have hma : Has s m a := ⟨ha.1, by have := ha.2; simp only at this; omega⟩
      right
      refine ⟨ho.live, hma, ?_⟩
      intro n hn hna
      rw [only_mapping hr ho.live ho.top ho.free hn hna hma ha.2]
      exact Anc.refl
    · rw [hlook2 a, hlook a ha]
      intro b hb hba
      rw [(hisf b).mp hb] at hba
      exact ha ⟨by rw [← hmf.beg]; exact hba.1, by rw [← hmf.fin]; exact hba.2⟩
  · rw [hlog2, hlog, flatMap_one _ f order hnd ((hmem f).mpr ⟨hmf.live, Anc.refl⟩) ?_]
    · rw [hpf, hmf.privFree, hmf.subPrivFree]
      simp [hi0, fileFree]
    · intro n hn hnf
      obtain ⟨h1, h2⟩ := (hmem n).mp hn
      have hns : ¬ Live s n := fun hns => hf (hancOld f n hns h2).1
      rcases (hnew n h1 hns).2 with h3 | ⟨_, h4, h5⟩
      · exact absurd h3 hnf
      · simp [h4, h5]

/-! ## Sections by search -/

/-- The search of the section headers finds the one loaded section that has the address. -/
theorem sectionOf_iff (F : File) (obj base size : Nat)
    (hd : ∀ x ∈ F.shdrs, ∀ y ∈ F.shdrs, x.alloc = true → y.alloc = true → inR (secR F x) obj → inR (secR F y) obj → x.addr = y.addr ∧ x.size = y.size) :
    (sectionOf F obj = some (base, size) ↔
      ∃ x ∈ F.shdrs, x.alloc = true ∧ inR (secR F x) obj ∧ base = F.laddr + x.addr ∧ size = x.size) ∧
    (sectionOf F obj = none ↔ ∀ x ∈ F.shdrs, x.alloc = true → ¬ inR (secR F x) obj) := by
  unfold sectionOf
  cases e : F.shdrs.find? (fun h => h.alloc && decide (F.laddr + h.addr ≤ obj) && decide (obj < F.laddr + h.addr + h.size)) with
  | none =>
    rw [List.find?_eq_none] at e
    have hno : ∀ x ∈ F.shdrs, x.alloc = true → ¬ inR (secR F x) obj := by
      intro x hx ha hin
      apply e x hx
      simp [ha, secR, inR] at hin ⊢
      omega
    constructor
    · simp only [Option.map_none, reduceCtorEq, false_iff]
      rintro ⟨x, hx, ha, hin, _⟩
      exact hno x hx ha hin
    · simp only [Option.map_none, true_iff]
      exact hno
  | some y =>
    have hy := List.mem_of_find?_eq_some e
    have hp := List.find?_some e
    simp only [Bool.and_eq_true, decide_eq_true_eq] at hp
    have hyin : inR (secR F y) obj := ⟨by simp only [secR]; omega, by simp only [secR]; omega⟩
    constructor
    · simp only [Option.map_some, Option.some.injEq, Prod.mk.injEq]
      constructor
      · rintro ⟨rfl, rfl⟩
        exact ⟨y, hy, hp.1.1, hyin, rfl, rfl⟩
      · rintro ⟨x, hx, ha, hin, rfl, rfl⟩
        obtain ⟨h1, h2⟩ := hd x hx y hy ha hp.1.1 hin hyin
        rw [h1, h2]
        exact ⟨rfl, rfl⟩
    · simp only [Option.map_some, reduceCtorEq, false_iff]
      intro hno
      exact hno y hy hp.1.1 hyin

/-! ## Concrete cases -/

/-- Sixteen slots; a mapping [0x400000, 0x410000), slot 2. -/
def cfg : Config := ⟨true, 0x1000, 16⟩
def mapping : List Op := [.new 0x400000 0x10000 0 ⟨mmapId, 0, 7, 8, 0, 0⟩]

/-- Two loadable segments, three sections. -/
def exFile : File :=
  { laddr := 0x400000, phdrs := [⟨false, 0x40, 0x100⟩, ⟨true, 0, 0x1800⟩, ⟨true, 0x2000, 0x2000⟩],
    shdrs := [⟨0, 0, true⟩, ⟨0x100, 0x700, true⟩, ⟨0x800, 0x400, true⟩, ⟨0x2000, 0x800, true⟩], info := 5, data := 0x402000,
    segPtr := fun i => 0x50 + i, shdrPtr := fun i => 0x80 + i }

example : bounds exFile.phdrs = (some 0, 0x4000) := by decide +kernel
example : after cfg mapping (fun s => (loadFile cfg s exFile).map (fun s => (List.range 16).filter (inUse s))) = some [1, 2, 3, 4, 5, 6, 7, 8] := by
  decide +kernel
example : after cfg mapping (fun s => (loadFile cfg s exFile).bind (fun s =>
    [0x400000, 0x400100, 0x400800, 0x400c00, 0x401800, 0x402000, 0x402800, 0x404000, 0x410000].mapM (deepest cfg s))) =
    some [4, 6, 7, 4, 3, 8, 5, 2, 0] := by decide +kernel
example : after cfg mapping (fun s => (loadFile cfg s exFile).bind (fun s => [4, 5, 6, 8].mapM (fun b => some (s.par b, s.alloc b, s.sub b)))) =
    some [(3, segId, 0), (3, segId, symId), (4, secId, symId), (5, secId, symId)] := by decide +kernel
example : after cfg mapping (fun s => (loadFile cfg s exFile).bind (fun s => [3, 4, 5, 6, 8].mapM (fun b => some (s.priv b)))) =
    some [5, 0x50, 0x51, 0x81, 0x83] := by decide +kernel
example : after cfg mapping (fun s => (loadFile cfg s exFile).bind (fun s => (unloadFile cfg id 5 s).map (fun s =>
    ((List.range 16).filter (inUse s), s.log)))) = some ([1, 2], [Call.priv 3 fileFree 5]) := by decide +kernel

/-- A hole between two mappings. -/
def holed : List Op := [.new 0x400000 0x2000 0 ⟨mmapId, 0, 7, 8, 0, 0⟩, .new 0x403000 0x2000 0 ⟨mmapId, 0, 7, 8, 0, 0⟩]

example : after cfg holed (fun s => (plugHole cfg s 2 3).bind (fun s => [0x401fff, 0x402000, 0x403000, 0x404fff, 0x405000].mapM (deepest cfg s))) =
    some [2, 2, 2, 2, 0] := by decide +kernel

/-! ## What goes wrong -/

/-- A section for thread-local data without contents (`.tbss`) has the addresses of the sections after it but takes no memory.
The first section that begins there takes the place of the next ones: they get no big allocation, and their addresses are
those of the thread-local section. -/
def tlsFile : File :=
  { exFile with shdrs := [⟨0x2000, 0x1000, true⟩, ⟨0x2000, 0x10, true⟩, ⟨0x2010, 0x200, true⟩] }

/-- From a decided fact about the state after a history and a load. -/
theorem of_load {c : Config} {ops : List Op} {F : File} {P : State → Prop} [DecidablePred P]
    (h : after c ops (fun s => (loadFile c s F).map (fun s' => decide (P s'))) = some true) :
    ∃ s s', run c ops = some s ∧ loadFile c s F = some s' ∧ P s' := by
  unfold after at h
  cases e : run c ops with
  | none => rw [e] at h; cases h
  | some s =>
    rw [e, Option.bind_some] at h
    cases e2 : loadFile c s F with
    | none => rw [e2] at h; cases h
    | some s' =>
      rw [e2] at h
      exact ⟨s, s', rfl, e2, of_decide_eq_true (Option.some.inj h)⟩

theorem tbss_fails : ∃ s s', run cfg mapping = some s ∧ loadFile cfg s tlsFile = some s' ∧
    (List.range 16).filter (fun b => inUse s' b && s'.alloc b == secId) = [6] ∧
    s'.beg 6 = 0x402000 ∧ s'.fin 6 = 0x403000 ∧ deepest cfg s' 0x402020 = some 6 := of_load (by decide +kernel)

/-- A second file in the same mapping: its big allocation would begin where the mapping does, not where the file does. With
assertions on the load aborts; otherwise the two files overlap. -/
def second : File := { exFile with laddr := 0x408000, info := 6, data := 0 }
def relCfg : Config := ⟨false, 0x1000, 16⟩

theorem second_file_aborts_fails : ∃ s s', run cfg mapping = some s ∧ loadFile cfg s exFile = some s' ∧ loadFile cfg s' second = none := by
  obtain ⟨s, s', h1, h2, h3⟩ := of_load (c := cfg) (ops := mapping) (F := exFile) (P := fun s' => (loadFile cfg s' second).isNone = true) (by decide +kernel)
  exact ⟨s, s', h1, h2, Option.isNone_iff_eq_none.mp h3⟩

theorem second_file_overlaps_fails : ∃ s s', run relCfg mapping = some s ∧ loadFile relCfg s exFile = some s' ∧
    (loadFile relCfg s' second).map (fun s' => decide (s'.alloc 3 = fileId ∧ s'.alloc 9 = fileId ∧ s'.par 3 = s'.par 9 ∧
      liveHas s' 3 0x401900 = true ∧ liveHas s' 9 0x401900 = true ∧ deepest relCfg s' 0x401900 = some 9)) = some true := of_load (by decide +kernel)

/-- Two mappings that abut, as left by two `mmap` calls the library could not join: the load aborts. -/
theorem abut_fails : ∃ s, run cfg [.new 0x400000 0x2000 0 ⟨mmapId, 0, 7, 8, 0, 0⟩, .new 0x402000 0x2000 0 ⟨mmapId, 0, 7, 8, 0, 0⟩] = some s ∧
    (loadFile cfg s exFile).isNone = true ∧ (loadFile relCfg s exFile).isNone = true := of_after (by decide +kernel)

/-- Another file in a mapping of its own, and with the first one's name, as when a library is loaded a second time in another namespace. -/
def twin : File := { exFile with laddr := 0x500000, info := 6, data := 0x502000 }

/-- When one of two files of the same name is unloaded, the other is forgotten too, though it is still there. -/
theorem same_name_fails : ∃ s s', run cfg (mapping ++ [.new 0x500000 0x10000 0 ⟨mmapId, 0, 7, 8, 0, 0⟩]) = some s ∧ loadFile cfg s exFile = some s' ∧
    (loadFile cfg s' twin).map (fun s => decide ((deepest cfg s 0x400100).map s.alloc = some secId ∧ (deepest cfg s 0x500100).map s.alloc = some secId ∧
      (unloadFile cfg (fun _ => 9) 9 s).map (fun u => decide ((deepest cfg u 0x400100).map u.alloc = some mmapId ∧
        (deepest cfg u 0x500100).map u.alloc = some mmapId)) = some true)) = some true := of_load (by decide +kernel)

/-! ## The conditions can be met -/

instance (d e : Nat × Nat) : Decidable (Apart d e) := inferInstanceAs (Decidable (_ ∨ _))

theorem exFile_ok : ∃ s, run cfg mapping = some s ∧ Reach cfg (fun _ => 0) s ∧ LoadOk cfg s exFile 2 0 0x4000 ∧ NoNest s ∧
    s.alloc s.start ≠ fileId ∧ Live s s.start := by
  obtain ⟨s0, e0, hr0⟩ := history_starts (c := cfg) (align := fun _ => 0) (ptr := 0x1000000) (size := 0x10000) ⟨1, 0, 0, 0, 0, 0⟩
    ⟨by decide, by decide, by decide, by decide, by decide⟩
  have hc : (boot cfg 0x1000000 0x10000 ⟨1, 0, 0, 0, 0, 0⟩).map (fun s => newOkB cfg s 0x400000 0x10000) = some true := by decide +kernel
  rw [e0] at hc
  have hnew := newOk_of_check hr0 (Option.some.inj hc)
  obtain ⟨s, e, h1⟩ := of_after (c := cfg) (ops := mapping) (P := fun s =>
    (Live s 2 ∧ s.par 2 = 0 ∧ s.alloc 2 = mmapId ∧ s.priv 2 ≠ 0 ∧ s.beg 2 = 0x400000 ∧ s.fin 2 = 0x410000) ∧
    ((List.range 16).all (fun n => !inUse s n || (s.par n != 2 && s.alloc n != fileId))) = true ∧
    ((List.range' 3 13).all (fun n => !inUse s n)) = true ∧ s.alloc s.start ≠ fileId ∧ Live s s.start) (by decide +kernel)
  have hr : Reach cfg (fun _ => 0) s := by
    refine Reach.step (op := .new 0x400000 0x10000 0 ⟨mmapId, 0, 7, 8, 0, 0⟩) hr0 hnew ?_
    rw [run, e0, Option.bind_some, mapping, List.foldlM_cons] at e
    simp only [List.foldlM_nil, bind_pure] at e
    exact e
  obtain ⟨_, kids, rank, h⟩ := reach_good hr
  obtain ⟨⟨g1, g2, g3, g4, g5, g6⟩, g7, g8, g9, g10⟩ := h1
  rw [List.all_eq_true] at g7 g8
  have hno : ∀ n, Live s n → s.par n ≠ 2 ∧ s.alloc n ≠ fileId := by
    intro n hn
    have := g7 n (List.mem_range.mpr (h.lt n hn))
    rw [live_iff.mpr hn] at this
    simpa using this
  refine ⟨s, e, hr, ?_, fun x y hx _ hxa _ _ => absurd hxa (hno x hx).2, g9, g10⟩
  refine ⟨by decide +kernel, g1, g2, g3, g4, by rw [g5]; decide, by rw [g6]; decide, fun d hd hdp => absurd hdp (hno d hd).1, by rw [g5]; decide,
    ⟨List.range' 3 13, by decide, by decide, ?_⟩, by decide, by decide, by decide, by decide, by decide⟩
  intro b hb
  refine ⟨?_, ?_, ?_⟩
  · rw [List.mem_range'_1] at hb; omega
  · rw [List.mem_range'_1] at hb; show b < 16; omega
  · intro hl
    have := g8 b hb
    rw [live_iff.mpr hl] at this
    cases this

end Liballocs.FileLoad
