import Verif.Proofs.FrameTypes
/-!
# Descriptions of stack frames: every variable is found at its place
-/
namespace Liballocs.FrameTypes

/-! ## What the debugging information says -/

/-- An address in the subprogram. -/
def InRanges (s : Subp) (pc : Nat) : Prop := ∃ r ∈ s.ranges, r.1 ≤ pc ∧ pc < r.2

/-- An entry of a location list applies at an address: everywhere in the subprogram, or between two addresses relative to the compilation unit. -/
inductive Covers (s : Subp) (l : Loc) (pc : Nat) : Prop
  | all : l.lopc = 0 → (l.hipc = 0 ∨ l.hipc = 2 ^ 64 - 1) → InRanges s pc → Covers s l pc
  | some {cu : Nat} : ¬ (l.lopc = 0 ∧ (l.hipc = 0 ∨ l.hipc = 2 ^ 64 - 1)) → s.cuBase = some cu → l.lopc + cu ≤ pc → pc < l.hipc + cu → Covers s l pc

/-- At an address, a variable of a complete type is in memory at an offset from the frame's base. -/
def OnStack (D : Dwarf) (s : Subp) (pc : Nat) (v : Var) (ty : Nat) (size : Option Nat) (off : Int) : Prop :=
  v ∈ s.vars ∧ v.type = some (ty, size) ∧ ∃ l ∈ v.locs, Covers s l pc ∧ D.place l.expr = some off

/-- Conditions on a subprogram. -/
structure TidyS (D : Dwarf) (s : Subp) : Prop where
  /-- It belongs to a unit with a base address. -/
  cu : ∃ cu, s.cuBase = some cu ∧ ∀ v ∈ s.vars, ∀ l ∈ v.locs, isAll l = false → l.hipc + cu < 2 ^ 64
  /-- Location lists do not select other base addresses. -/
  base : ∀ v ∈ s.vars, ∀ l ∈ v.locs, l.lopc ≠ 2 ^ 64 - 1 ∧ l.lopc ≠ 2 ^ 32 - 1
  /-- Variables are different DIEs. -/
  dies : ∀ v ∈ s.vars, ∀ w ∈ s.vars, v.die = w.die → v = w
  /-- A variable's expressions have different hashes. -/
  hash : ∀ v ∈ s.vars, ∀ l ∈ v.locs, ∀ k ∈ v.locs, D.hash l.expr = D.hash k.expr → l.expr = k.expr
  /-- Variables live in their subprogram. -/
  inside : ∀ v ∈ s.vars, ∀ l ∈ v.locs, ∀ pc, Covers s l pc → InRanges s pc
  /-- Frames are small. -/
  small : ∀ v ∈ s.vars, ∀ l ∈ v.locs, ∀ off, D.place l.expr = some off → -2 ^ 30 ≤ off ∧ off ≤ 2 ^ 30

/-- Conditions on a file. -/
structure Tidy (D : Dwarf) (subps : List Subp) : Prop where
  each : ∀ s ∈ subps, TidyS D s
  /-- No two subprograms have the same name, source file and directory. -/
  keys : subps.Pairwise (fun s t => s.key ≠ t.key)
  dies : ∀ s ∈ subps, ∀ t ∈ subps, s.die = t.die → s = t
  /-- No two have code in common. -/
  apart : ∀ s ∈ subps, ∀ t ∈ subps, ∀ pc, InRanges s pc → InRanges t pc → s = t

/-! ## The first map -/

theorem entries_iff {s : Subp} {cu : Nat} (hcu : s.cuBase = some cu) (pc x : Nat) : ∀ (ls : List Loc) (k : Nat) (es : List (Nat × Nat × Nat)),
    (∀ l ∈ ls, l.lopc ≠ 2 ^ 64 - 1 ∧ l.lopc ≠ 2 ^ 32 - 1) → (∀ l ∈ ls, isAll l = false → l.hipc + cu < 2 ^ 64) →
    entries s k 0 ls = some es →
      (∀ e ∈ es, e.1 < e.2.1) ∧ ((∃ e ∈ es, e.1 ≤ pc ∧ pc < e.2.1 ∧ e.2.2 = x) ↔ ∃ l ∈ ls, l.expr = x ∧ Covers s l pc)
  | [], k, es, _, _, h => by
    simp only [entries, Option.some.injEq] at h
    subst h
    simp
  | l :: ls, k, es, hb, hw, h => by
    have ih := fun es => entries_iff hcu pc x ls (k + 1) es (fun l hl => hb l (by simp [hl])) (fun l hl => hw l (by simp [hl]))
    have hbase : isBase l = false := by
      have := hb l (by simp)
      simp [isBase, this.1, this.2]
    have hnb : nextBase 0 l = 0 := by simp [nextBase, hbase]
    have hskip : (l.lopc = l.hipc ∧ l.hipc ≠ 0) ∨ l.hipc < l.lopc → ¬ Covers s l pc := by
      rintro hc h2
      cases h2 with
      | all h1 h2 h3 => omega
      | some h1 h2 h3 h4 => omega
    simp only [entries, hnb, hcu] at h
    split at h
    · rename_i hc
      obtain ⟨i1, i2⟩ := ih es h
      refine ⟨i1, i2.trans ?_⟩
      simp [hskip (Or.inl hc)]
    · split at h
      · rename_i hc
        obtain ⟨i1, i2⟩ := ih es h
        refine ⟨i1, i2.trans ?_⟩
        simp [hskip (Or.inr hc)]
      · rename_i n1 n2
        split at h
        · rename_i ha
          split at h
          · rename_i hc
            obtain ⟨_, rfl, hr⟩ := hc
            simp only [Option.some.injEq] at h
            subst h
            simp only [isAll, Bool.and_eq_true, Bool.or_eq_true, decide_eq_true_eq] at ha
            simp only [List.all_eq_true, sane, Bool.and_eq_true, decide_eq_true_eq] at hr
            constructor
            · intro e he
              simp only [List.mem_map] at he
              obtain ⟨r, hr', rfl⟩ := he
              exact (hr r hr').1
            · constructor
              · rintro ⟨e, he, h1, h2, h3⟩
                simp only [List.mem_map] at he
                obtain ⟨r, hr', rfl⟩ := he
                exact ⟨l, by simp, h3, .all ha.1 ha.2 ⟨r, hr', h1, h2⟩⟩
              · rintro ⟨l', hl', h1, h2⟩
                simp at hl'
                subst hl'
                cases h2 with
                | all g1 g2 g3 =>
                  obtain ⟨r, hr', h3, h4⟩ := g3
                  exact ⟨(r.1, r.2, l'.expr), List.mem_map.mpr ⟨r, hr', rfl⟩, h3, h4, h1⟩
                | some g1 => exact absurd ha g1
          · simp at h
        · rename_i ha
          have hw' := hw l (by simp) (by simpa using ha)
          split at h
          · rename_i hs
            have e1 : (l.lopc + 0 + cu) % 2 ^ 64 = l.lopc + cu := by rw [Nat.mod_eq_of_lt]; rfl; omega
            have e2 : (l.hipc + 0 + cu) % 2 ^ 64 = l.hipc + cu := by rw [Nat.mod_eq_of_lt]; rfl; omega
            rw [e1, e2] at h hs
            simp only [sane, Bool.and_eq_true, decide_eq_true_eq] at hs
            simp only [Option.map_eq_some_iff] at h
            obtain ⟨es', h1, h2⟩ := h
            subst h2
            obtain ⟨i1, i2⟩ := ih es' h1
            have ha' : ¬ (l.lopc = 0 ∧ (l.hipc = 0 ∨ l.hipc = 2 ^ 64 - 1)) := by
              simpa [isAll] using ha
            constructor
            · intro e he
              rcases List.mem_cons.mp he with rfl | he
              · exact hs.1
              · exact i1 e he
            · simp only [List.mem_cons, exists_eq_or_imp, i2]
              refine or_congr ?_ Iff.rfl
              constructor
              · rintro ⟨h3, h4, h5⟩
                exact ⟨h5, .some ha' hcu h3 h4⟩
              · rintro ⟨h3, h4⟩
                cases h4 with
                | all g1 g2 g3 => exact absurd ⟨g1, g2⟩ ha'
                | some g1 g2 g3 g4 =>
                  rw [hcu] at g2
                  cases g2
                  exact ⟨g3, g4, h3⟩
          · simp at h

/-- The elements that the first map may have. -/
def U (s : Subp) (y : Live) : Prop := ∃ v ∈ s.vars, ∃ l ∈ v.locs, y = ⟨v.die, v.type, l.expr⟩

theorem U_inj {D : Dwarf} {s : Subp} (h : TidyS D s) {x y : Live} (hx : U s x) (hy : U s y) (h1 : y.die = x.die) (h2 : D.hash y.expr = D.hash x.expr) :
    y = x := by
  obtain ⟨v, hv, l, hl, rfl⟩ := hx
  obtain ⟨w, hw, k, hk, rfl⟩ := hy
  have h3 := h.dies w hw v hv h1
  subst h3
  have h4 := h.hash w hv k hk l hl h2
  rw [h4]

theorem addLive_at {D : Dwarf} {s : Subp} (h : TidyS D s) {v : Var} {m : List (Seg Live)} (hf : From 0 m) (hu : ∀ pc y, At m pc y → U s y)
    {e : Nat × Nat × Nat} (hlt : e.1 < e.2.1) (hx : U s ⟨v.die, v.type, e.2.2⟩) :
    From 0 (addLive D v m e) ∧ ∀ pc y, At (addLive D v m e) pc y ↔ At m pc y ∨ (e.1 ≤ pc ∧ pc < e.2.1 ∧ y = ⟨v.die, v.type, e.2.2⟩) :=
  addj (U := U s) (P := fun y => y.die = v.die ∧ D.hash y.expr = D.hash e.2.2) (fun l y => insLive_new D _ y l) (fun l y => insLive_old D _ y l)
    (fun l => insLive_key D _ l) (fun y hy hp => U_inj h hx hy hp.1 hp.2) hx sameLive_iff hlt hf hu

theorem addLives_at {D : Dwarf} {s : Subp} (h : TidyS D s) {v : Var} : ∀ (es : List (Nat × Nat × Nat)) (m : List (Seg Live)), From 0 m →
    (∀ pc y, At m pc y → U s y) → (∀ e ∈ es, e.1 < e.2.1 ∧ U s ⟨v.die, v.type, e.2.2⟩) →
    From 0 (es.foldl (addLive D v) m) ∧
      ∀ pc y, At (es.foldl (addLive D v) m) pc y ↔ At m pc y ∨ ∃ e ∈ es, e.1 ≤ pc ∧ pc < e.2.1 ∧ y = ⟨v.die, v.type, e.2.2⟩
  | [], m, hf, _, _ => ⟨hf, fun pc y => by simp⟩
  | e :: es, m, hf, hu, he => by
    obtain ⟨e1, e2⟩ := he e (by simp)
    obtain ⟨h1, h2⟩ := addLive_at h hf hu e1 e2
    have hu' : ∀ pc y, At (addLive D v m e) pc y → U s y := by
      intro pc y hy
      rcases (h2 pc y).mp hy with h3 | h3
      · exact hu pc y h3
      · rw [h3.2.2]; exact e2
    obtain ⟨h3, h4⟩ := addLives_at h es _ h1 hu' (fun e' h' => he e' (by simp [h']))
    refine ⟨h3, fun pc y => ?_⟩
    rw [List.foldl_cons, h4, h2]
    simp only [List.mem_cons, exists_eq_or_imp, or_assoc]

/-- The first map has at each address the variables live there, with their expressions. -/
theorem liveMap_at {D : Dwarf} {s : Subp} (h : TidyS D s) : ∀ (vs : List Var) (m m' : List (Seg Live)), (∀ v ∈ vs, v ∈ s.vars) → From 0 m →
    (∀ pc y, At m pc y → U s y) → liveMap D s m vs = some m' →
    From 0 m' ∧ ∀ pc y, At m' pc y ↔ At m pc y ∨ ∃ v ∈ vs, ∃ l ∈ v.locs, Covers s l pc ∧ y = ⟨v.die, v.type, l.expr⟩
  | [], m, m', _, hf, _, hm => by
    simp only [liveMap, Option.some.injEq] at hm
    subst hm
    exact ⟨hf, fun pc y => by simp⟩
  | v :: vs, m, m', hv, hf, hu, hm => by
    obtain ⟨cu, hcu, hw⟩ := h.cu
    have hvs := hv v (by simp)
    rw [liveMap] at hm
    match he : entries s 0 0 v.locs with
    | none => rw [he] at hm; simp at hm
    | some es =>
      rw [he] at hm
      simp only at hm
      have key := fun pc x => entries_iff hcu pc x v.locs 0 es (h.base v hvs) (hw v hvs) he
      have hes : ∀ e ∈ es, e.1 < e.2.1 ∧ U s ⟨v.die, v.type, e.2.2⟩ := by
        intro e hm
        have hlt := (key 0 0).1 e hm
        obtain ⟨l, hl, h1, _⟩ := ((key e.1 e.2.2).2).mp ⟨e, hm, Nat.le_refl _, hlt, rfl⟩
        exact ⟨hlt, v, hvs, l, hl, by rw [h1]⟩
      obtain ⟨h1, h2⟩ := addLives_at h es m hf hu hes
      have hu' : ∀ pc y, At (es.foldl (addLive D v) m) pc y → U s y := by
        intro pc y hy
        rcases (h2 pc y).mp hy with h3 | ⟨e, h3, _, _, h4⟩
        · exact hu pc y h3
        · rw [h4]; exact (hes e h3).2
      obtain ⟨h3, h4⟩ := liveMap_at h vs _ m' (fun w hw => hv w (by simp [hw])) h1 hu' hm
      refine ⟨h3, fun pc y => ?_⟩
      rw [h4, h2, or_assoc]
      refine or_congr Iff.rfl ?_
      simp only [List.mem_cons, exists_eq_or_imp]
      refine or_congr ?_ Iff.rfl
      constructor
      · rintro ⟨e, he', g1, g2, g3⟩
        obtain ⟨l, hl, k1, k2⟩ := ((key pc e.2.2).2).mp ⟨e, he', g1, g2, rfl⟩
        exact ⟨l, hl, k2, by rw [k1]; exact g3⟩
      · rintro ⟨l, hl, g1, g2⟩
        obtain ⟨e, he', k1, k2, k3⟩ := ((key pc l.expr).2).mpr ⟨l, hl, rfl, g1⟩
        exact ⟨e, he', k1, k2, by rw [k3]; exact g2⟩

/-! ## The second map -/

/-- The elements that the second map may have. -/
def V (D : Dwarf) (s : Subp) (e : El) : Prop := ∃ y, U s y ∧ element D y = some e

theorem element_iff (D : Dwarf) (y : Live) (e : El) :
    element D y = some e ↔ ∃ ty size off, D.place y.expr = some off ∧ y.type = some (ty, size) ∧ e = ⟨off, y.die, ty, size⟩ := by
  unfold element
  constructor
  · intro h
    split at h
    · rename_i off ty size h1 h2
      simp at h
      exact ⟨ty, size, off, h1, h2, h.symm⟩
    · simp at h
  · rintro ⟨ty, size, off, h1, h2, rfl⟩
    rw [h1, h2]

theorem V_inj {D : Dwarf} {s : Subp} (h : TidyS D s) {x y : El} (hx : V D s x) (hy : V D s y) (h1 : y.off = x.off) (h2 : y.die = x.die) : y = x := by
  obtain ⟨a, ⟨v, hv, l, hl, rfl⟩, ha⟩ := hx
  obtain ⟨b, ⟨w, hw, k, hk, rfl⟩, hb⟩ := hy
  rw [element_iff] at ha hb
  obtain ⟨t1, s1, o1, p1, q1, rfl⟩ := ha
  obtain ⟨t2, s2, o2, p2, q2, rfl⟩ := hb
  simp only at *
  have h3 := h.dies w hw v hv h2
  subst h3
  rw [q1] at q2
  simp at q2
  rw [h1, q2.1, q2.2]

theorem addEl_at {D : Dwarf} {s : Subp} (h : TidyS D s) {m : List (Seg El)} {lo hi : Nat} (hlt : lo < hi) (hf : From 0 m)
    (hu : ∀ pc e, At m pc e → V D s e) {y : Live} (hy : U s y) :
    From 0 (addEl D lo hi m y) ∧ ∀ pc e, At (addEl D lo hi m y) pc e ↔ At m pc e ∨ (lo ≤ pc ∧ pc < hi ∧ element D y = some e) := by
  unfold addEl
  match he : element D y with
  | none => exact ⟨hf, fun pc e => by simp⟩
  | some x =>
    have hx : V D s x := ⟨y, hy, he⟩
    obtain ⟨h1, h2⟩ := addj (ins := insEl) (same := fun a b => decide (a = b)) (U := V D s) (P := fun z => z.off = x.off ∧ z.die = x.die)
      (fun l z => insEl_new x z l) (fun l z => insEl_old x z l) (fun l => insEl_key x l) (fun z hz hp => V_inj h hx hz hp.1 hp.2) hx
      (fun a b hab z => by simp at hab; rw [hab]) hlt hf hu
    refine ⟨h1, fun pc e => ?_⟩
    rw [h2]
    simp only [Option.some.injEq]
    exact or_congr Iff.rfl (and_congr Iff.rfl (and_congr Iff.rfl eq_comm))

theorem addEls_at {D : Dwarf} {s : Subp} (h : TidyS D s) {lo hi : Nat} (hlt : lo < hi) : ∀ (ys : List Live) (m : List (Seg El)), From 0 m →
    (∀ pc e, At m pc e → V D s e) → (∀ y ∈ ys, U s y) →
    From 0 (ys.foldl (addEl D lo hi) m) ∧
      ∀ pc e, At (ys.foldl (addEl D lo hi) m) pc e ↔ At m pc e ∨ (lo ≤ pc ∧ pc < hi ∧ ∃ y ∈ ys, element D y = some e)
  | [], m, hf, _, _ => ⟨hf, fun pc e => by simp⟩
  | y :: ys, m, hf, hu, hy => by
    obtain ⟨h1, h2⟩ := addEl_at h hlt hf hu (hy y (by simp))
    have hu' : ∀ pc e, At (addEl D lo hi m y) pc e → V D s e := by
      intro pc e he
      rcases (h2 pc e).mp he with h3 | h3
      · exact hu pc e h3
      · exact ⟨y, hy y (by simp), h3.2.2⟩
    obtain ⟨h3, h4⟩ := addEls_at h hlt ys _ h1 hu' (fun z hz => hy z (by simp [hz]))
    refine ⟨h3, fun pc e => ?_⟩
    rw [List.foldl_cons, h4, h2]
    simp only [List.mem_cons, exists_eq_or_imp, or_assoc]
    refine or_congr Iff.rfl ?_
    constructor
    · rintro (g | g)
      · exact ⟨g.1, g.2.1, Or.inl g.2.2⟩
      · exact ⟨g.1, g.2.1, Or.inr g.2.2⟩
    · rintro ⟨g1, g2, g | g⟩
      · exact Or.inl ⟨g1, g2, g⟩
      · exact Or.inr ⟨g1, g2, g⟩

theorem frameMap_from {D : Dwarf} {s : Subp} (h : TidyS D s) : ∀ (live : List (Seg Live)) (m : List (Seg El)), From 0 m →
    (∀ pc e, At m pc e → V D s e) → (∀ t ∈ live, t.lo < t.hi ∧ ∀ y ∈ t.els, U s y) →
    From 0 (live.foldl (fun m s => s.els.foldl (addEl D s.lo s.hi) m) m) ∧
      ∀ pc e, At (live.foldl (fun m s => s.els.foldl (addEl D s.lo s.hi) m) m) pc e ↔ At m pc e ∨ ∃ y, At live pc y ∧ element D y = some e
  | [], m, hf, _, _ => ⟨hf, fun pc e => by simp [At_nil]⟩
  | t :: live, m, hf, hu, hl => by
    obtain ⟨g1, g2⟩ := hl t (by simp)
    obtain ⟨h1, h2⟩ := addEls_at h g1 t.els m hf hu g2
    have hu' : ∀ pc e, At (t.els.foldl (addEl D t.lo t.hi) m) pc e → V D s e := by
      intro pc e he
      rcases (h2 pc e).mp he with h3 | ⟨_, _, y, h3, h4⟩
      · exact hu pc e h3
      · exact ⟨y, g2 y h3, h4⟩
    obtain ⟨h3, h4⟩ := frameMap_from h live _ h1 hu' (fun u hu => hl u (by simp [hu]))
    refine ⟨h3, fun pc e => ?_⟩
    rw [List.foldl_cons, h4, h2, or_assoc]
    refine or_congr Iff.rfl ?_
    simp only [At_cons]
    constructor
    · rintro (⟨k1, k2, y, k3, k4⟩ | ⟨y, k1, k2⟩)
      · exact ⟨y, Or.inl ⟨k1, k2, k3⟩, k4⟩
      · exact ⟨y, Or.inr k1, k2⟩
    · rintro ⟨y, k1 | k1, k2⟩
      · exact Or.inl ⟨k1.1, k1.2.1, y, k1.2.2, k2⟩
      · exact Or.inr ⟨y, k1, k2⟩

/-- The second map has at each address the elements that are on the stack there. -/
theorem frame_at {D : Dwarf} {s : Subp} (h : TidyS D s) {live : List (Seg Live)} (hl : liveMap D s [] s.vars = some live) :
    From 0 (frameMap D live) ∧ ∀ pc e, At (frameMap D live) pc e ↔ ∃ v, OnStack D s pc v e.type e.size e.off ∧ e.die = v.die := by
  obtain ⟨h1, h2⟩ := liveMap_at h s.vars [] live (fun v hv => hv) .nil (fun pc y hy => absurd hy At_nil) hl
  have hu : ∀ t ∈ live, t.lo < t.hi ∧ ∀ y ∈ t.els, U s y := by
    intro t ht
    have hlt := (h1.low t ht).2.1
    refine ⟨hlt, fun y hy => ?_⟩
    rcases (h2 t.lo y).mp ⟨t, ht, Nat.le_refl _, hlt, hy⟩ with h3 | ⟨v, hv, l, hl, _, h3⟩
    · exact absurd h3 At_nil
    · exact ⟨v, hv, l, hl, h3⟩
  obtain ⟨h3, h4⟩ := frameMap_from h live [] .nil (fun pc e he => absurd he At_nil) hu
  refine ⟨h3, fun pc e => (h4 pc e).trans ?_⟩
  simp only [At_nil, false_or]
  constructor
  · rintro ⟨y, hy, he⟩
    rcases (h2 pc y).mp hy with h5 | ⟨v, hv, l, hl, h5, rfl⟩
    · exact absurd h5 At_nil
    · obtain ⟨ty, size, off, k1, k2, rfl⟩ := (element_iff D _ e).mp he
      exact ⟨v, ⟨hv, k2, l, hl, h5, k1⟩, rfl⟩
  · rintro ⟨v, ⟨hv, ht, l, hl, h5, h6⟩, h7⟩
    refine ⟨⟨v.die, v.type, l.expr⟩, (h2 pc _).mpr (Or.inr ⟨v, hv, l, hl, h5, rfl⟩), ?_⟩
    rw [element_iff]
    exact ⟨e.type, e.size, e.off, h6, ht, by rw [← h7]⟩

theorem ordered_addEl {D : Dwarf} {lo hi : Nat} (y : Live) (m : List (Seg El)) (h : ∀ t ∈ m, Ordered t.els) : ∀ t ∈ addEl D lo hi m y, Ordered t.els := by
  unfold addEl
  split
  · exact h
  · intro t ht
    obtain ⟨u, hu, h1⟩ := join_els _ _ t ht
    rw [h1]
    rcases add_els _ _ _ _ _ u hu with h2 | ⟨w, hw, h2 | h2⟩
    · rw [h2]; exact insEl_ordered _ _ List.Pairwise.nil
    · rw [h2]; exact h w hw
    · rw [h2]; exact insEl_ordered _ _ (h w hw)

theorem ordered_addEls {D : Dwarf} {lo hi : Nat} : ∀ (ys : List Live) (m : List (Seg El)), (∀ t ∈ m, Ordered t.els) →
    ∀ t ∈ ys.foldl (addEl D lo hi) m, Ordered t.els
  | [], _, h => h
  | y :: ys, m, h => ordered_addEls ys _ (ordered_addEl y m h)

theorem ordered_from {D : Dwarf} : ∀ (live : List (Seg Live)) (m : List (Seg El)), (∀ t ∈ m, Ordered t.els) →
    ∀ t ∈ live.foldl (fun m s => s.els.foldl (addEl D s.lo s.hi) m) m, Ordered t.els
  | [], _, h => h
  | u :: live, m, h => ordered_from live _ (ordered_addEls u.els m h)

theorem frame_ordered (D : Dwarf) (live : List (Seg Live)) : ∀ t ∈ frameMap D live, Ordered t.els :=
  ordered_from live [] (fun t ht => by cases ht)

/-! ## Layouts -/

theorem i32_small {x : Int} (h1 : -2 ^ 31 ≤ x) (h2 : x < 2 ^ 31) : i32 x = x := by
  unfold i32
  rw [Int.bmod_def]
  omega

theorem head_low {l : List El} (h : Ordered l) {e : El} (he : e ∈ l) : ∃ f, l.head? = some f ∧ f ∈ l ∧ f.off ≤ e.off := by
  cases l with
  | nil => cases he
  | cons f l =>
    refine ⟨f, rfl, by simp, ?_⟩
    rcases List.mem_cons.mp he with rfl | he
    · exact Int.le_refl _
    · have := (List.pairwise_cons.mp h).1 e he
      rw [elLt_iff] at this
      omega

theorem last_high : ∀ {l : List El}, Ordered l → ∀ {e : El}, e ∈ l → ∃ f, l.getLast? = some f ∧ f ∈ l ∧ (f = e ∨ elLt e f = true)
  | [], _, _, he => by cases he
  | [x], _, e, he => by
    simp at he
    exact ⟨x, rfl, by simp, Or.inl he.symm⟩
  | x :: y :: l, h, e, he => by
    have h' := List.pairwise_cons.mp h
    rw [List.getLast?_cons_cons]
    rcases List.mem_cons.mp he with rfl | he
    · obtain ⟨f, h1, h2, h3⟩ := last_high h'.2 (e := y) (by simp)
      exact ⟨f, h1, by simp at h2; simp [h2], Or.inr (h'.1 f h2)⟩
    · obtain ⟨f, h1, h2, h3⟩ := last_high h'.2 he
      exact ⟨f, h1, by simp at h2; simp [h2], h3⟩

theorem overall_le : ∀ (m : List (Seg El)) (o : Int), m.foldl (fun o s => min o (minOff s.els)) o ≤ o ∧
    ∀ s ∈ m, m.foldl (fun o s => min o (minOff s.els)) o ≤ minOff s.els
  | [], o => ⟨Int.le_refl _, fun s hs => by cases hs⟩
  | t :: m, o => by
    obtain ⟨h1, h2⟩ := overall_le m (min o (minOff t.els))
    rw [List.foldl_cons]
    refine ⟨by omega, fun s hs => ?_⟩
    rcases List.mem_cons.mp hs with rfl | hs
    · omega
    · exact h2 s hs

theorem overall_ge (b : Int) : ∀ (m : List (Seg El)) (o : Int), b ≤ o → (∀ s ∈ m, b ≤ minOff s.els) → b ≤ m.foldl (fun o s => min o (minOff s.els)) o
  | [], _, h, _ => h
  | t :: m, o, h, hm => by
    rw [List.foldl_cons]
    have := hm t (by simp)
    exact overall_ge b m _ (by omega) (fun s hs => hm s (by simp [hs]))

/-- The frame's offset is the least multiple of eight that makes all offsets nonnegative. -/
theorem offsetToAll_spec (o : Int) (h1 : -2 ^ 31 < o) (h2 : o ≤ 0) : ∃ off : Nat, offsetToAll o = some off ∧ off % 8 = 0 ∧ 0 ≤ o + off ∧ o + off < 8 := by
  unfold offsetToAll
  rw [if_neg (by omega)]
  by_cases h : o < 0
  · rw [if_pos h]
    by_cases h3 : (-o).toNat % 8 = 0
    · exact ⟨_, rfl, by rw [if_pos h3]; omega, by rw [if_pos h3]; omega, by rw [if_pos h3]; omega⟩
    · exact ⟨_, rfl, by rw [if_neg h3]; omega, by rw [if_neg h3]; omega, by rw [if_neg h3]; omega⟩
  · rw [if_neg h]
    exact ⟨0, rfl, rfl, by omega, by omega⟩

/-- All of the map's offsets are small. -/
def Small (m : List (Seg El)) : Prop := ∀ s ∈ m, ∀ e ∈ s.els, -2 ^ 30 ≤ e.off ∧ e.off ≤ 2 ^ 30

theorem offset_ok {m : List (Seg El)} (hs : Small m) (ho : ∀ t ∈ m, Ordered t.els) :
    ∃ off : Nat, offsetToAll (overall m) = some off ∧ off % 8 = 0 ∧ off < 2 ^ 30 + 8 ∧ (∀ s ∈ m, ∀ e ∈ s.els, 0 ≤ e.off + off) ∧
      (off = 0 ∨ ∃ s ∈ m, ∃ e ∈ s.els, e.off + off < 8) := by
  have hmin : ∀ s ∈ m, -2 ^ 30 ≤ minOff s.els := by
    intro s hsm
    unfold minOff
    cases hh : s.els.head? with
    | none => simp
    | some f =>
      have hf := hs s hsm f (List.mem_of_mem_head? (by rw [hh]; rfl))
      simp only
      rw [i32_small (by omega) (by omega)]
      omega
  have h1 := overall_ge (-2 ^ 30) m 0 (by omega) hmin
  obtain ⟨h2, h3⟩ := overall_le m 0
  obtain ⟨off, k1, k2, k3, k4⟩ := offsetToAll_spec (overall m) (by unfold overall; omega) h2
  refine ⟨off, k1, k2, by unfold overall at k4; omega, ?_, ?_⟩
  · intro s hsm e he
    obtain ⟨f, g1, g2, g3⟩ := head_low (ho s hsm) he
    have h4 : overall m ≤ minOff s.els := h3 s hsm
    have h5 := hs s hsm f g2
    unfold minOff at h4
    rw [g1] at h4
    simp only at h4
    rw [i32_small (by omega) (by omega)] at h4
    omega
  · -- the lowest offset is taken on
    by_cases h0 : overall m = 0
    · left; rw [h0] at k3 k4; omega
    · right
      have : ∀ (m : List (Seg El)) (o : Int), m.foldl (fun o s => min o (minOff s.els)) o = o ∨
          ∃ s ∈ m, m.foldl (fun o s => min o (minOff s.els)) o = minOff s.els := by
        intro m
        induction m with
        | nil => intro o; exact Or.inl rfl
        | cons t m ih =>
          intro o
          rw [List.foldl_cons]
          rcases ih (min o (minOff t.els)) with h | ⟨s, hs, h⟩
          · by_cases h6 : o ≤ minOff t.els
            · left; rw [h]; omega
            · right; exact ⟨t, by simp, by rw [h]; omega⟩
          · exact Or.inr ⟨s, by simp [hs], h⟩
      rcases this m 0 with h | ⟨s, hsm, h⟩
      · exact absurd h h0
      · unfold overall at k4 h0
        rw [h] at k4 h0
        unfold minOff at k4 h0
        cases hh : s.els.head? with
        | none => rw [hh] at h0; exact absurd rfl h0
        | some f =>
          rw [hh] at k4 h0
          have hf := List.mem_of_mem_head? (show f ∈ s.els.head? by rw [hh]; rfl)
          have h7 := hs s hsm f hf
          simp only at k4 h0
          rw [i32_small (by omega) (by omega)] at k4 h0
          exact ⟨s, hsm, f, hf, by omega⟩

/-- The members of a layout. -/
theorem layout_members {off : Nat} {els : List El} (h : ∀ e ∈ els, 0 ≤ e.off + off ∧ e.off + off < 2 ^ 32) (o ty : Nat) :
    (o, ty) ∈ (layout off els).members ↔ ∃ e ∈ els, (o : Int) = e.off + off ∧ ty = e.type := by
  simp only [layout, List.mem_map, Prod.mk.injEq]
  constructor
  · rintro ⟨e, he, h1, h2⟩
    have := h e he
    rw [Int.emod_eq_of_lt this.1 this.2] at h1
    exact ⟨e, he, by omega, h2.symm⟩
  · rintro ⟨e, he, h1, h2⟩
    have := h e he
    refine ⟨e, he, ?_, h2.symm⟩
    rw [Int.emod_eq_of_lt this.1 this.2]
    omega

/-- A subprogram's records, one for each segment, with its layout. -/
theorem recs_iff (die off : Nat) (m : List (Seg El)) : ∀ ss : List (Seg El), (∀ s ∈ ss, s ∈ m) →
    ∃ rs, recs die off m ss = some rs ∧ ∀ r, r ∈ rs ↔ ∃ s ∈ ss, r = ⟨s.lo, s.hi, die, off, layout off s.els⟩
  | [], _ => ⟨[], rfl, fun r => by simp⟩
  | s :: ss, h => by
    obtain ⟨rs, h1, h2⟩ := recs_iff die off m ss (fun t ht => h t (by simp [ht]))
    have ht : typeOf off m s = some (layout off s.els) := by
      unfold typeOf
      have : (m.find? (fun t => decide (t.els = s.els))).isSome := by
        rw [List.find?_isSome]
        exact ⟨s, h s (by simp), by simp⟩
      obtain ⟨t, ht⟩ := Option.isSome_iff_exists.mp this
      rw [ht]
      have := List.find?_some ht
      simp at this
      simp [this]
    refine ⟨_, by rw [recs, ht, h1], fun r => ?_⟩
    simp only [List.mem_cons, h2, exists_eq_or_imp]

/-- What one subprogram's records say. -/
structure Says (D : Dwarf) (s : Subp) (off : Nat) (m : List (Seg El)) : Prop where
  ordered : From 0 m
  at_iff : ∀ pc e, At m pc e ↔ ∃ v, OnStack D s pc v e.type e.size e.off ∧ e.die = v.die
  inner : ∀ t ∈ m, Ordered t.els
  small : Small m
  mult : off % 8 = 0
  bound : off < 2 ^ 30 + 8
  nonneg : ∀ t ∈ m, ∀ e ∈ t.els, 0 ≤ e.off + off
  least : off = 0 ∨ ∃ s ∈ m, ∃ e ∈ s.els, e.off + off < 8

theorem subpRecs_spec {D : Dwarf} {s : Subp} (h : TidyS D s) {rs : List Rec} (hr : subpRecs D s = some rs) :
    ∃ (off : Nat) (m : List (Seg El)), Says D s off m ∧ ∀ r, r ∈ rs ↔ ∃ t ∈ m, r = ⟨t.lo, t.hi, s.die, off, layout off t.els⟩ := by
  unfold subpRecs at hr
  match hl : liveMap D s [] s.vars with
  | none => rw [hl] at hr; simp at hr
  | some live =>
    rw [hl] at hr
    simp only at hr
    obtain ⟨h1, h2⟩ := frame_at h hl
    have hsm : Small (frameMap D live) := by
      intro t ht e he
      obtain ⟨v, ⟨hv, _, l, hl, _, hp⟩, _⟩ := (h2 t.lo e).mp ⟨t, ht, Nat.le_refl _, (h1.low t ht).2.1, he⟩
      exact h.small v hv l hl e.off hp
    obtain ⟨off, k1, k2, k3, k4, k5⟩ := offset_ok hsm (frame_ordered D live)
    rw [k1] at hr
    simp only at hr
    obtain ⟨rs', g1, g2⟩ := recs_iff s.die off (frameMap D live) (frameMap D live) (fun _ h => h)
    rw [g1] at hr
    simp at hr
    subst hr
    exact ⟨off, frameMap D live, ⟨h1, h2, frame_ordered D live, hsm, k2, k3, k4, k5⟩, g2⟩

/-! ## The table -/

theorem recLt_iff (a b : Rec) : recLt a b = true ↔ a.lo < b.lo ∨ (a.lo = b.lo ∧ (a.hi < b.hi ∨ (a.hi = b.hi ∧ a.die < b.die))) := by simp [recLt]

theorem insRec_old (x y : Rec) : ∀ l : List Rec, y ∈ l → y ∈ insRec x l
  | [], h => by cases h
  | z :: l, h => by
    unfold insRec
    split
    · simp [h]
    · split
      · rcases List.mem_cons.mp h with rfl | h
        · simp
        · simp [insRec_old x y l h]
      · exact h

theorem insRec_new (x y : Rec) : ∀ l : List Rec, y ∈ insRec x l → y = x ∨ y ∈ l
  | [], h => by simp [insRec] at h; exact Or.inl h
  | z :: l, h => by
    unfold insRec at h
    split at h
    · simp at h; simp; exact h
    · split at h
      · rcases List.mem_cons.mp h with rfl | h
        · exact Or.inr (by simp)
        · rcases insRec_new x y l h with h | h
          · exact Or.inl h
          · exact Or.inr (by simp [h])
      · exact Or.inr h

theorem insRec_key (x : Rec) : ∀ l : List Rec, ∃ y ∈ insRec x l, y.lo = x.lo ∧ y.hi = x.hi ∧ y.die = x.die
  | [] => ⟨x, by simp [insRec], rfl, rfl, rfl⟩
  | z :: l => by
    unfold insRec
    split
    · exact ⟨x, by simp, rfl, rfl, rfl⟩
    · split
      · obtain ⟨y, hy, h⟩ := insRec_key x l
        exact ⟨y, by simp [hy], h⟩
      · rename_i h1 h2
        rw [recLt_iff] at h1 h2
        exact ⟨z, by simp, by omega, by omega, by omega⟩

/-- A table in the order of the search. -/
def Sorted (l : List Rec) : Prop := l.Pairwise (fun a b => a.lo ≤ b.lo)

theorem insRec_sorted (x : Rec) : ∀ l : List Rec, Sorted l → Sorted (insRec x l)
  | [], _ => by simp [insRec, Sorted]
  | z :: l, h => by
    have h' := List.pairwise_cons.mp h
    unfold insRec
    split
    · rename_i h1
      rw [recLt_iff] at h1
      refine List.pairwise_cons.mpr ⟨fun y hy => ?_, h⟩
      rcases List.mem_cons.mp hy with rfl | hy
      · omega
      · have := h'.1 y hy; omega
    · split
      · rename_i h2
        rw [recLt_iff] at h2
        refine List.pairwise_cons.mpr ⟨fun y hy => ?_, insRec_sorted x l h'.2⟩
        rcases insRec_new x y l hy with rfl | hy
        · omega
        · exact h'.1 y hy
      · exact h

theorem foldIns {R : Rec → Prop} (hR : ∀ x y, R x → R y → y.lo = x.lo → y.hi = x.hi → y.die = x.die → y = x) : ∀ (a b : List Rec), (∀ r ∈ a, R r) →
    (∀ r ∈ b, R r) → Sorted b → Sorted (a.foldl (fun t x => insRec x t) b) ∧ ∀ r, r ∈ a.foldl (fun t x => insRec x t) b ↔ r ∈ a ∨ r ∈ b
  | [], b, _, _, hs => ⟨hs, fun r => by simp⟩
  | x :: a, b, ha, hb, hs => by
    have hx := ha x (by simp)
    have hb' : ∀ r ∈ insRec x b, R r := by
      intro r hr
      rcases insRec_new x r b hr with rfl | hr
      · exact hx
      · exact hb r hr
    obtain ⟨h1, h2⟩ := foldIns hR a (insRec x b) (fun r hr => ha r (by simp [hr])) hb' (insRec_sorted x b hs)
    refine ⟨h1, fun r => ?_⟩
    rw [List.foldl_cons, h2]
    have hmem : r ∈ insRec x b ↔ r = x ∨ r ∈ b := by
      refine ⟨insRec_new x r b, ?_⟩
      rintro (rfl | h)
      · obtain ⟨y, hy, k1, k2, k3⟩ := insRec_key r b
        have := hR r y hx (hb' y hy) k1 k2 k3
        subst this
        exact hy
      · exact insRec_old x r b h
    rw [hmem, List.mem_cons, or_left_comm, or_assoc]

theorem dedup_id : ∀ (l : List Subp) (seen : List Nat), l.Pairwise (fun s t => s.key ≠ t.key) → (∀ s ∈ l, s.key ∉ seen) → dedup l seen = l
  | [], _, _, _ => rfl
  | s :: l, seen, h, hn => by
    have h' := List.pairwise_cons.mp h
    rw [dedup, if_neg (hn s (by simp)), dedup_id l _ h'.2 (fun t ht => by
      simp only [List.mem_cons, not_or]
      exact ⟨fun he => h'.1 t ht he.symm, hn t (by simp [ht])⟩)]

theorem allRecs_spec {D : Dwarf} {R : Rec → Prop} (hR : ∀ x y, R x → R y → y.lo = x.lo → y.hi = x.hi → y.die = x.die → y = x) :
    ∀ (l : List Subp) (tbl : List Rec), (∀ s ∈ l, ∀ rs, subpRecs D s = some rs → ∀ r ∈ rs, R r) → allRecs D l = some tbl →
      Sorted tbl ∧ (∀ r ∈ tbl, R r) ∧ (∀ s ∈ l, ∃ rs, subpRecs D s = some rs) ∧ ∀ r, r ∈ tbl ↔ ∃ s ∈ l, ∃ rs, subpRecs D s = some rs ∧ r ∈ rs
  | [], tbl, _, h => by
    simp only [allRecs, Option.some.injEq] at h
    subst h
    exact ⟨List.Pairwise.nil, by simp, by simp, by simp⟩
  | s :: l, tbl, hl, h => by
    rw [allRecs] at h
    match h1 : subpRecs D s, h2 : allRecs D l with
    | none, _ => rw [h1] at h; simp at h
    | some a, none => rw [h1, h2] at h; simp at h
    | some a, some b =>
      rw [h1, h2] at h
      simp only [Option.some.injEq] at h
      obtain ⟨k1, k2, k3, k4⟩ := allRecs_spec hR l b (fun t ht => hl t (by simp [ht])) h2
      have ha := hl s (by simp) a h1
      obtain ⟨g1, g2⟩ := foldIns hR a b ha k2 k1
      rw [h] at g1 g2
      refine ⟨g1, ?_, ?_, ?_⟩
      · intro r hr
        rcases (g2 r).mp hr with h3 | h3
        · exact ha r h3
        · exact k2 r h3
      · intro t ht
        rcases List.mem_cons.mp ht with rfl | ht
        · exact ⟨a, h1⟩
        · exact k3 t ht
      · intro r
        rw [g2, k4]
        simp only [List.mem_cons, exists_eq_or_imp, h1, Option.some.injEq, exists_eq_left']

/-- A record of the table comes from a segment of a subprogram. -/
def Origin (D : Dwarf) (subps : List Subp) (r : Rec) : Prop :=
  ∃ s ∈ subps, ∃ (off : Nat) (m : List (Seg El)), Says D s off m ∧ ∃ t ∈ m, r = ⟨t.lo, t.hi, s.die, off, layout off t.els⟩

/-- What the table is. -/
theorem table_spec {D : Dwarf} {subps : List Subp} (h : Tidy D subps) {tbl : List Rec} (ht : table D subps = some tbl) :
    Sorted tbl ∧ (∀ r ∈ tbl, ∃ s ∈ subps, ∃ rs, subpRecs D s = some rs ∧ r ∈ rs) ∧
      ∀ s ∈ subps, ∃ rs, subpRecs D s = some rs ∧ ∀ r ∈ rs, r ∈ tbl := by
  unfold table at ht
  rw [dedup_id subps [] h.keys (fun s _ => by simp)] at ht
  obtain ⟨k1, k2, k3, k4⟩ := allRecs_spec (D := D) (R := fun r => ∃ s ∈ subps, ∃ rs, subpRecs D s = some rs ∧ r ∈ rs) (by
    rintro x y ⟨s, hs, rs, h1, h2⟩ ⟨s', hs', rs', h1', h2'⟩ e1 e2 e3
    obtain ⟨off, m, hsay, hm⟩ := subpRecs_spec (h.each s hs) h1
    obtain ⟨off', m', hsay', hm'⟩ := subpRecs_spec (h.each s' hs') h1'
    obtain ⟨t, ht, rfl⟩ := (hm x).mp h2
    obtain ⟨t', ht', rfl⟩ := (hm' y).mp h2'
    have hss := h.dies s' hs' s hs e3
    subst hss
    rw [h1] at h1'
    simp at h1'
    subst h1'
    have h6 := (hm _).mp ((hm' _).mpr ⟨t', ht', rfl⟩)
    obtain ⟨t'', ht'', h7⟩ := h6
    simp only at e1 e2
    have h8 := (hsay.ordered.low t ht).2.1
    have h9 : t''.lo = t.lo ∧ t''.hi = t.hi := by
      simp only [Rec.mk.injEq] at h7
      omega
    have h10 := hsay.ordered.unique ht ht'' (Nat.le_refl _) h8 (by omega) (by omega)
    rw [h7, h10]) subps tbl (fun s hs rs h1 r hr => ⟨s, hs, rs, h1, hr⟩) ht
  refine ⟨k1, k2, fun s hs => ?_⟩
  obtain ⟨rs, h1⟩ := k3 s hs
  exact ⟨rs, h1, fun r hr => (k4 r).mpr ⟨s, hs, rs, h1, hr⟩⟩

theorem found_of {tbl : List Rec} (hs : Sorted tbl) {pc : Nat} {r : Rec} (hr : r ∈ tbl) (hle : r.lo ≤ pc)
    (hu : ∀ q ∈ tbl, q.lo ≤ pc → r.lo ≤ q.lo → q = r) : found tbl pc = some r := by
  unfold found
  have hmem : r ∈ tbl.filter (fun r => decide (r.lo ≤ pc)) := List.mem_filter.mpr ⟨hr, by simpa using hle⟩
  have hs' : Sorted (tbl.filter (fun r => decide (r.lo ≤ pc))) := List.Pairwise.filter _ hs
  have key : ∀ l : List Rec, Sorted l → r ∈ l → ∃ q, l.getLast? = some q ∧ q ∈ l ∧ r.lo ≤ q.lo := by
    intro l
    induction l with
    | nil => intro _ h; cases h
    | cons x l ih =>
      intro h1 h2
      have h' := List.pairwise_cons.mp h1
      cases l with
      | nil => simp at h2; exact ⟨x, rfl, by simp, by rw [h2]; exact Nat.le_refl _⟩
      | cons y l =>
        rw [List.getLast?_cons_cons]
        rcases List.mem_cons.mp h2 with rfl | h2
        · cases hl : (y :: l).getLast? with
          | none => simp at hl
          | some q =>
            have hq := List.mem_of_getLast? hl
            exact ⟨q, rfl, by simp at hq; simp [hq], h'.1 q hq⟩
        · obtain ⟨q, k1, k2, k3⟩ := ih h'.2 h2
          exact ⟨q, k1, by simp at k2; simp [k2], k3⟩
  obtain ⟨q, k1, k2, k3⟩ := key _ hs' hmem
  obtain ⟨q1, q2⟩ := List.mem_filter.mp k2
  rw [k1, hu q q1 (by simpa using q2) k3]

theorem found_mem {tbl : List Rec} {pc : Nat} {r : Rec} (h : found tbl pc = some r) : r ∈ tbl ∧ r.lo ≤ pc := by
  unfold found at h
  have := List.mem_filter.mp (List.mem_of_getLast? h)
  exact ⟨this.1, by simpa using this.2⟩

/-- A record that covers an address is the one found for it. -/
theorem found_cover {D : Dwarf} {subps : List Subp} (h : Tidy D subps) {tbl : List Rec} (ht : table D subps = some tbl) {r : Rec} (hr : r ∈ tbl)
    {pc : Nat} (h1 : r.lo ≤ pc) (h2 : pc < r.hi) : found tbl pc = some r := by
  obtain ⟨k1, k2, k3⟩ := table_spec h ht
  refine found_of k1 hr h1 ?_
  intro q hq hq1 hq2
  obtain ⟨s, hs, rs, e1, e2⟩ := k2 r hr
  obtain ⟨s', hs', rs', e1', e2'⟩ := k2 q hq
  obtain ⟨off, m, hsay, hm⟩ := subpRecs_spec (h.each s hs) e1
  obtain ⟨off', m', hsay', hm'⟩ := subpRecs_spec (h.each s' hs') e1'
  obtain ⟨t, ht, hrt⟩ := (hm r).mp e2
  obtain ⟨t', ht', hqt⟩ := (hm' q).mp e2'
  have l1 := (hsay'.ordered.low t' ht').2.1
  have a1 : t.lo ≤ t'.lo ∧ t'.lo < t.hi := by
    rw [hrt, hqt] at hq2
    rw [hrt] at h2
    rw [hqt] at hq1
    simp only at hq1 hq2 h2
    omega
  -- both subprograms have code at the second record's beginning
  have hin : ∀ (s : Subp), s ∈ subps → ∀ (off : Nat) (m : List (Seg El)), Says D s off m → ∀ t ∈ m, ∀ pc, t.lo ≤ pc → pc < t.hi → InRanges s pc := by
    intro s hs off m hsay t ht pc p1 p2
    obtain ⟨e, he⟩ := dom_at hsay.ordered ht p1 p2
    obtain ⟨v, ⟨hv, _, l, hl, hc, _⟩, _⟩ := (hsay.at_iff pc e).mp he
    exact (h.each s hs).inside v hv l hl pc hc
  have hss := h.apart s hs s' hs' t'.lo (hin s hs off m hsay t ht _ a1.1 a1.2) (hin s' hs' off' m' hsay' t' ht' _ (Nat.le_refl _) l1)
  subst hss
  rw [e1] at e1'
  simp at e1'
  subst e1'
  obtain ⟨u, hu, hqu⟩ := (hm q).mp e2'
  rw [hrt, hqu]
  rw [hqt] at hqu
  simp only [Rec.mk.injEq] at hqu
  have := hsay.ordered.unique (pc := t'.lo) ht hu a1.1 a1.2 (by omega) (by omega)
  rw [this]

/-! ## Variables are found -/

/-- A variable on the stack is a member of the description found for the address, at its place relative to the frame's base. -/
theorem member_partial {D : Dwarf} {subps : List Subp} (h : Tidy D subps) {tbl : List Rec} (ht : table D subps = some tbl) {s : Subp} (hs : s ∈ subps)
    {pc : Nat} {v : Var} {ty : Nat} {size : Option Nat} {off : Int} (hv : OnStack D s pc v ty size off) :
    ∃ r, found tbl pc = some r ∧ r.die = s.die ∧ pc < r.hi ∧ ∃ o : Nat, (o, ty) ∈ r.lay.members ∧ (o : Int) - r.off = off := by
  obtain ⟨_, _, k3⟩ := table_spec h ht
  obtain ⟨rs, e1, e2⟩ := k3 s hs
  obtain ⟨foff, m, hsay, hm⟩ := subpRecs_spec (h.each s hs) e1
  obtain ⟨t, ht', p1, p2, p3⟩ := (hsay.at_iff pc ⟨off, v.die, ty, size⟩).mpr ⟨v, hv, rfl⟩
  have hr := e2 _ ((hm _).mpr ⟨t, ht', rfl⟩)
  refine ⟨_, found_cover h ht hr p1 p2, rfl, p2, ?_⟩
  have hrange : ∀ e ∈ t.els, 0 ≤ e.off + foff ∧ e.off + foff < 2 ^ 32 := by
    intro e he
    have := hsay.small t ht' e he
    have := hsay.bound
    exact ⟨hsay.nonneg t ht' e he, by omega⟩
  have h0 := hrange _ p3
  simp only at h0
  refine ⟨(off + foff).toNat, (layout_members hrange _ _).mpr ⟨_, p3, by simp only; omega, rfl⟩, ?_⟩
  show ((off + foff).toNat : Int) - foff = off
  omega

/-- And every member is such a variable, as long as the address is in the interval described. -/
theorem live_partial {D : Dwarf} {subps : List Subp} (h : Tidy D subps) {tbl : List Rec} (ht : table D subps = some tbl) {pc : Nat} {r : Rec}
    (hr : found tbl pc = some r) (hpc : pc < r.hi) :
    ∃ s ∈ subps, r.die = s.die ∧ ∀ (o ty : Nat), (o, ty) ∈ r.lay.members → ∃ (v : Var) (size : Option Nat), OnStack D s pc v ty size ((o : Int) - r.off) := by
  obtain ⟨_, k2, _⟩ := table_spec h ht
  obtain ⟨hrt, hlo⟩ := found_mem hr
  obtain ⟨s, hs, rs, e1, e2⟩ := k2 r hrt
  obtain ⟨foff, m, hsay, hm⟩ := subpRecs_spec (h.each s hs) e1
  obtain ⟨t, ht', rfl⟩ := (hm r).mp e2
  refine ⟨s, hs, rfl, fun o ty ho => ?_⟩
  have hrange : ∀ e ∈ t.els, 0 ≤ e.off + foff ∧ e.off + foff < 2 ^ 32 := by
    intro e he
    have := hsay.small t ht' e he
    have := hsay.bound
    exact ⟨hsay.nonneg t ht' e he, by omega⟩
  obtain ⟨e, he, h1, h2⟩ := (layout_members hrange o ty).mp ho
  obtain ⟨v, hv, _⟩ := (hsay.at_iff pc e).mp ⟨t, ht', hlo, hpc, he⟩
  refine ⟨v, e.size, ?_⟩
  have h3 : (o : Int) - foff = e.off := by omega
  show OnStack D s pc v ty e.size ((o : Int) - foff)
  rw [h3, h2]
  exact hv

/-- All records of a subprogram have the same offset, the least multiple of eight that makes all its variables' offsets nonnegative. -/
theorem offset_partial {D : Dwarf} {subps : List Subp} (h : Tidy D subps) {tbl : List Rec} (ht : table D subps = some tbl) {s : Subp} (hs : s ∈ subps) :
    ∃ foff : Nat, foff % 8 = 0 ∧ (∀ r ∈ tbl, r.die = s.die → r.off = foff) ∧
      (∀ pc v ty size off, OnStack D s pc v ty size off → 0 ≤ off + foff) ∧
      (foff = 0 ∨ ∃ pc v ty size off, OnStack D s pc v ty size off ∧ off + foff < 8) := by
  obtain ⟨_, k2, k3⟩ := table_spec h ht
  obtain ⟨rs, e1, e2⟩ := k3 s hs
  obtain ⟨foff, m, hsay, hm⟩ := subpRecs_spec (h.each s hs) e1
  refine ⟨foff, hsay.mult, ?_, ?_, ?_⟩
  · intro r hr hd
    obtain ⟨s', hs', rs', g1, g2⟩ := k2 r hr
    obtain ⟨foff', m', hsay', hm'⟩ := subpRecs_spec (h.each s' hs') g1
    obtain ⟨t', ht', rfl⟩ := (hm' r).mp g2
    have := h.dies s' hs' s hs hd
    subst this
    rw [e1] at g1
    simp at g1
    subst g1
    obtain ⟨t, _, h5⟩ := (hm _).mp g2
    simp only [Rec.mk.injEq] at h5
    exact h5.2.2.2.1
  · intro pc v ty size off hv
    obtain ⟨t, ht', p1, p2, p3⟩ := (hsay.at_iff pc ⟨off, v.die, ty, size⟩).mpr ⟨v, hv, rfl⟩
    exact hsay.nonneg t ht' _ p3
  · rcases hsay.least with h0 | ⟨t, ht', e, he, h0⟩
    · exact Or.inl h0
    · obtain ⟨v, hv, _⟩ := (hsay.at_iff t.lo e).mp ⟨t, ht', Nat.le_refl _, (hsay.ordered.low t ht').2.1, he⟩
      exact Or.inr ⟨t.lo, v, e.type, e.size, e.off, hv, h0⟩

/-! ## The tool finishes -/

/-- Entries that cover less than a megabyte; an entry for all addresses is alone, in a subprogram of less than a megabyte in each range. -/
def Fits (s : Subp) : Prop := ∀ v ∈ s.vars, ∀ l ∈ v.locs,
  (l.lopc = 0 ∧ (l.hipc = 0 ∨ l.hipc = 2 ^ 64 - 1) → v.locs = [l] ∧ ∀ r ∈ s.ranges, r.1 < r.2 ∧ r.2 - r.1 < 2 ^ 20) ∧
  (¬ (l.lopc = 0 ∧ (l.hipc = 0 ∨ l.hipc = 2 ^ 64 - 1)) → l.hipc - l.lopc < 2 ^ 20)

theorem entries_some {s : Subp} {cu : Nat} (hcu : s.cuBase = some cu) : ∀ (ls : List Loc) (k : Nat),
    (∀ l ∈ ls, l.lopc ≠ 2 ^ 64 - 1 ∧ l.lopc ≠ 2 ^ 32 - 1) → (∀ l ∈ ls, isAll l = false → l.hipc + cu < 2 ^ 64) →
    (∀ l ∈ ls, (isAll l = true → k = 0 ∧ ls = [l] ∧ s.ranges.all (fun r => sane r.1 r.2)) ∧ (isAll l = false → l.hipc - l.lopc < 2 ^ 20)) →
      ∃ es, entries s k 0 ls = some es
  | [], k, _, _, _ => ⟨[], rfl⟩
  | l :: ls, k, hb, hw, hf => by
    have hbase : isBase l = false := by
      have := hb l (by simp)
      simp [isBase, this.1, this.2]
    have hnb : nextBase 0 l = 0 := by simp [nextBase, hbase]
    simp only [entries, hnb, hcu]
    by_cases ha : isAll l = true
    · obtain ⟨h1, h2, h3⟩ := (hf l (by simp)).1 ha
      simp only [List.cons.injEq, true_and] at h2
      have h4 := ha
      simp only [isAll, Bool.and_eq_true, Bool.or_eq_true, decide_eq_true_eq] at h4
      rw [if_neg (by omega), if_neg (by omega), if_pos ha, if_pos ⟨h1, h2, h3⟩]
      exact ⟨_, rfl⟩
    · have ha' : isAll l = false := by simpa using ha
      have ih := entries_some hcu ls (k + 1) (fun l hl => hb l (by simp [hl])) (fun l hl => hw l (by simp [hl])) (fun m hm => by
        refine ⟨fun hm' => ?_, (hf m (by simp [hm])).2⟩
        have := (hf m (by simp [hm])).1 hm'
        have h5 := this.2.1
        simp only [List.cons.injEq] at h5
        rw [h5.2] at hm
        cases hm)
      obtain ⟨es, ih⟩ := ih
      have h6 := (hf l (by simp)).2 ha'
      have h7 := hw l (by simp) ha'
      split
      · exact ⟨es, ih⟩
      · split
        · exact ⟨es, ih⟩
        · rename_i n1 n2
          have n3 : l.lopc ≠ l.hipc := by
            intro h8
            apply ha
            simp only [isAll, Bool.and_eq_true, Bool.or_eq_true, decide_eq_true_eq]
            omega
          have e1 : (l.lopc + 0 + cu) % 2 ^ 64 = l.lopc + cu := by rw [Nat.mod_eq_of_lt]; rfl; omega
          have e2 : (l.hipc + 0 + cu) % 2 ^ 64 = l.hipc + cu := by rw [Nat.mod_eq_of_lt]; rfl; omega
          rw [e1, e2, if_pos (by simp only [sane, Bool.and_eq_true, decide_eq_true_eq]; omega), ih]
          exact ⟨_, rfl⟩

theorem liveMap_some {D : Dwarf} {s : Subp} (h : TidyS D s) (hf : Fits s) : ∀ (vs : List Var) (m : List (Seg Live)), (∀ v ∈ vs, v ∈ s.vars) →
    ∃ live, liveMap D s m vs = some live
  | [], m, _ => ⟨m, rfl⟩
  | v :: vs, m, hv => by
    obtain ⟨cu, h1, h2⟩ := h.cu
    have hv' := hv v (by simp)
    obtain ⟨es, he⟩ := entries_some h1 v.locs 0 (h.base v hv') (h2 v hv') (fun l hl => by
      have hfl := hf v hv' l hl
      refine ⟨fun ha => ?_, fun ha => ?_⟩
      · simp only [isAll, Bool.and_eq_true, Bool.or_eq_true, decide_eq_true_eq] at ha
        refine ⟨rfl, (hfl.1 ha).1, ?_⟩
        simp only [List.all_eq_true, sane, Bool.and_eq_true, decide_eq_true_eq]
        exact (hfl.1 ha).2
      · exact hfl.2 (by simpa [isAll] using ha))
    rw [liveMap, he]
    exact liveMap_some h hf vs _ (fun w hw => hv w (by simp [hw]))

theorem subpRecs_some {D : Dwarf} {s : Subp} (h : TidyS D s) (hf : Fits s) : ∃ rs, subpRecs D s = some rs := by
  obtain ⟨live, hl⟩ := liveMap_some h hf s.vars [] (fun _ h => h)
  obtain ⟨h1, h2⟩ := frame_at h hl
  have hsm : Small (frameMap D live) := by
    intro t ht e he
    obtain ⟨v, ⟨hv, _, l, hl, _, hp⟩, _⟩ := (h2 t.lo e).mp ⟨t, ht, Nat.le_refl _, (h1.low t ht).2.1, he⟩
    exact h.small v hv l hl e.off hp
  obtain ⟨off, k1, _⟩ := offset_ok hsm (frame_ordered D live)
  obtain ⟨rs, g1, _⟩ := recs_iff s.die off (frameMap D live) (frameMap D live) (fun _ h => h)
  exact ⟨rs, by rw [subpRecs, hl]; simp only [k1, g1]⟩

/-- For such files the tool writes a table. -/
theorem total_partial {D : Dwarf} {subps : List Subp} (h : Tidy D subps) (hf : ∀ s ∈ subps, Fits s) : ∃ tbl, table D subps = some tbl := by
  unfold table
  rw [dedup_id subps [] h.keys (fun s _ => by simp)]
  have : ∀ l : List Subp, (∀ s ∈ l, s ∈ subps) → ∃ tbl, allRecs D l = some tbl := by
    intro l
    induction l with
    | nil => intro _; exact ⟨[], rfl⟩
    | cons s l ih =>
      intro hl
      obtain ⟨b, hb⟩ := ih (fun t ht => hl t (by simp [ht]))
      obtain ⟨a, ha⟩ := subpRecs_some (h.each s (hl s (by simp))) (hf s (hl s (by simp)))
      exact ⟨_, by rw [allRecs, ha, hb]⟩
  exact this subps (fun _ h => h)

/-! ## Queries -/

/-- At an address: all variables on the stack have known sizes, and no two overlap, unless both are below the frame's base. -/
structure Disjoint (D : Dwarf) (s : Subp) (pc : Nat) : Prop where
  sized : ∀ v ty size off, OnStack D s pc v ty size off → ∃ n, size = some n ∧ 0 < n ∧ n < 2 ^ 30
  apart : ∀ v w ty ty' n n' off off', OnStack D s pc v ty (some n) off → OnStack D s pc w ty' (some n') off' → (v = w ∧ off = off') ∨
    off + n ≤ off' ∨ off' + n' ≤ off ∨ (off + n ≤ 0 ∧ off' + n' ≤ 0)

theorem search_map (num : Layout → Nat) (tbl : List Rec) (pc : Nat) : StackFrame.searchLeq (tbl.map (toEntry num)) pc = (found tbl pc).map (toEntry num) := by
  unfold StackFrame.searchLeq found
  rw [List.filter_map, List.getLast?_map]
  rfl

/-- A description's size reaches to the end of each variable. -/
theorem size_partial {D : Dwarf} {subps : List Subp} (h : Tidy D subps) {tbl : List Rec} (ht : table D subps = some tbl) {s : Subp} (hs : s ∈ subps)
    {pc : Nat} (hd : Disjoint D s pc) {r : Rec} (hr : found tbl pc = some r) {v : Var} {ty n : Nat} {off : Int} (hv : OnStack D s pc v ty (some n) off) :
    off + r.off + n ≤ r.lay.size ∧ ∃ w ty' n' off', OnStack D s pc w ty' (some n') off' ∧ r.lay.size = (max (off' + n') 0 + r.off : Int) := by
  obtain ⟨_, _, k3⟩ := table_spec h ht
  obtain ⟨rs, e1, e2⟩ := k3 s hs
  obtain ⟨foff, m, hsay, hm⟩ := subpRecs_spec (h.each s hs) e1
  obtain ⟨t, ht', p1, p2, p3⟩ := (hsay.at_iff pc ⟨off, v.die, ty, some n⟩).mpr ⟨v, hv, rfl⟩
  have hrt := e2 _ ((hm _).mpr ⟨t, ht', rfl⟩)
  rw [found_cover h ht hrt p1 p2] at hr
  simp only [Option.some.injEq] at hr
  subst hr
  obtain ⟨f, g1, g2, g3⟩ := last_high (hsay.inner t ht') p3
  obtain ⟨w, hw, hwd⟩ := (hsay.at_iff pc f).mp ⟨t, ht', p1, p2, g2⟩
  obtain ⟨n', hn, hn0, hn1⟩ := hd.sized w _ _ _ hw
  have b1 := hsay.small t ht' f g2
  have b2 := hsay.bound
  have b3 := hsay.nonneg t ht' _ p3
  have b4 := hsay.small t ht' _ p3
  obtain ⟨n2, hn2, hn20, hn21⟩ := hd.sized v _ _ _ hv
  simp only [Option.some.injEq] at hn2
  subst hn2
  simp only at b3 b4
  have hmax : maxOff t.els = (f.off + n').toNat := by
    unfold maxOff
    rw [g1]
    simp only [hn]
    rw [Nat.mod_eq_of_lt (by omega), i32_small (by omega) (by omega)]
  have hsize : (layout foff t.els).size = (f.off + n').toNat + foff := by
    simp only [layout, hmax]
    exact Nat.mod_eq_of_lt (by omega)
  rw [hn] at hw
  show off + foff + n ≤ ((layout foff t.els).size : Int) ∧ _
  constructor
  · rw [hsize]
    have : off + n ≤ f.off + n' ∨ off + n ≤ 0 := by
      rcases hd.apart v w ty f.type n n' off f.off hv hw with ⟨h1, h2⟩ | h1 | h1 | h1
      · subst h1
        have h3 := hv.2.1
        have h4 := hw.2.1
        rw [h3] at h4
        simp only [Option.some.injEq, Prod.mk.injEq] at h4
        omega
      · omega
      · rcases g3 with g3 | g3
        · rw [g3] at h1; simp only at h1; omega
        · rw [elLt_iff] at g3
          simp only at g3
          omega
      · exact Or.inr h1.1
    omega
  · refine ⟨w, f.type, n', f.off, hw, ?_⟩
    show ((layout foff t.els).size : Int) = max (f.off + n') 0 + foff
    rw [hsize]
    omega

/-- A query for an address in a variable finds the frame, with a description that has the variable at its place. -/
theorem query_partial {D : Dwarf} {subps : List Subp} (h : Tidy D subps) {tbl : List Rec} (ht : table D subps = some tbl) {s : Subp} (hs : s ∈ subps)
    {pc : Nat} (hd : Disjoint D s pc) {v : Var} {ty n : Nat} {off : Int} (hv : OnStack D s pc v ty (some n) off) (num : Layout → Nat) {hsp obj : Nat}
    (h1 : (hsp : Int) + off ≤ obj) (h2 : (obj : Int) < hsp + off + n) :
    ∃ r ∈ tbl, r.die = s.die ∧ r.lo ≤ pc ∧ pc < r.hi ∧
      StackFrame.visit (tbl.map (toEntry num)) obj pc hsp false = some (.ok (hsp - r.off) r.lay.size (num r.lay) pc) ∧
      ∃ o : Nat, (o, ty) ∈ r.lay.members ∧ (hsp : Int) - r.off + o = hsp + off := by
  obtain ⟨r, g1, g2, g3, o, g4, g5⟩ := member_partial h ht hs hv
  obtain ⟨g6, _⟩ := size_partial h ht hs hd g1 hv
  refine ⟨r, (found_mem g1).1, g2, (found_mem g1).2, g3, ?_, o, g4, by omega⟩
  unfold StackFrame.visit StackFrame.pcDesc
  rw [search_map, g1]
  simp only [Option.map_some, toEntry, Bool.false_eq_true, if_false]
  rw [if_pos (by omega)]

/-! ## Cases -/

/-- Expressions below 100 are in registers; others are places around the frame's base. -/
def exD : Dwarf := ⟨fun e => if e < 100 then none else some ((e : Int) - 1000), fun e => e⟩

/-- A function of two ranges, with a parameter above the frame's base, a local, a variable moved from a register to the stack. -/
def exS : Subp :=
  ⟨1, 1, some 4096, [(4096, 4160), (8192, 8200)],
    [⟨2, some (20, some 8), [⟨0, 2 ^ 64 - 1, 1016⟩]⟩, ⟨3, some (21, some 16), [⟨8, 40, 976⟩]⟩, ⟨4, some (22, some 4), [⟨0, 16, 5⟩, ⟨16, 64, 964⟩]⟩]⟩

/-- Another. -/
def exT : Subp := ⟨9, 2, some 4096, [(4160, 4192)], [⟨10, some (23, some 8), [⟨64, 96, 992⟩]⟩]⟩

def exTbl : List Rec :=
  [⟨4096, 4104, 1, 40, ⟨64, [(56, 20)]⟩⟩, ⟨4104, 4112, 1, 40, ⟨64, [(16, 21), (56, 20)]⟩⟩,
   ⟨4112, 4136, 1, 40, ⟨64, [(4, 22), (16, 21), (56, 20)]⟩⟩, ⟨4136, 4160, 1, 40, ⟨64, [(4, 22), (56, 20)]⟩⟩,
   ⟨4160, 4192, 9, 8, ⟨8, [(0, 23)]⟩⟩, ⟨8192, 8200, 1, 40, ⟨64, [(56, 20)]⟩⟩]

example : table exD [exS, exT] = some exTbl := by decide +kernel
example : StackFrame.visit (exTbl.map (toEntry (fun l => l.members.length))) 9980 4120 10000 false = some (.ok 9960 64 3 4120) := by decide +kernel
example : StackFrame.visit (exTbl.map (toEntry (fun l => l.members.length))) 9980 4170 10000 false = some .higherFrame := by decide +kernel

/-- The conditions hold of these. -/
theorem ex_tidy : Tidy exD [exS, exT] := by
  refine ⟨?_, by simp [exS, exT], ?_, ?_⟩
  · intro s hs
    simp only [List.mem_cons, List.not_mem_nil, or_false] at hs
    rcases hs with rfl | rfl
    · refine ⟨⟨4096, rfl, ?_⟩, ?_, ?_, ?_, ?_, ?_⟩
      · simp [exS, isAll]
      · simp [exS]
      · simp [exS]
      · simp [exS, exD]
      · intro v hv l hl pc hc
        simp only [exS, List.mem_cons, List.not_mem_nil, or_false] at hv
        rcases hv with rfl | rfl | rfl <;> simp only [List.mem_cons, List.not_mem_nil, or_false] at hl
        · subst hl
          cases hc with
          | all _ _ h => exact h
          | some h => simp at h
        · subst hl
          cases hc with
          | all _ _ h => exact h
          | some h h1 h2 h3 =>
            simp only [exS, Option.some.injEq] at h1
            subst h1
            exact ⟨(4096, 4160), by simp [exS], by simp only at h2 h3 ⊢; omega⟩
        · rcases hl with rfl | rfl <;> cases hc with
          | all _ _ h => exact h
          | some h h1 h2 h3 =>
            simp only [exS, Option.some.injEq] at h1
            subst h1
            exact ⟨(4096, 4160), by simp [exS], by simp only at h2 h3 ⊢; omega⟩
      · simp [exS, exD]
    · refine ⟨⟨4096, rfl, ?_⟩, ?_, ?_, ?_, ?_, ?_⟩
      · simp [exT, isAll]
      · simp [exT]
      · simp [exT]
      · simp [exT]
      · intro v hv l hl pc hc
        simp only [exT, List.mem_cons, List.not_mem_nil, or_false] at hv
        subst hv
        simp only [List.mem_cons, List.not_mem_nil, or_false] at hl
        subst hl
        cases hc with
        | all _ _ h => exact h
        | some h h1 h2 h3 =>
          simp only [exT, Option.some.injEq] at h1
          subst h1
          exact ⟨(4160, 4192), by simp [exT], by simp only at h2 h3 ⊢; omega⟩
      · simp [exT, exD]
  · intro s hs t ht h
    simp only [List.mem_cons, List.not_mem_nil, or_false] at hs ht
    rcases hs with rfl | rfl <;> rcases ht with rfl | rfl <;> first | rfl | exact absurd h (by decide)
  · intro s hs t ht pc h1 h2
    simp only [List.mem_cons, List.not_mem_nil, or_false] at hs ht
    rcases hs with rfl | rfl <;> rcases ht with rfl | rfl <;> first | rfl | (simp [InRanges, exS, exT] at h1 h2; omega)

theorem ex_disjoint : Disjoint exD exS 4120 := by
  have key : ∀ v ty size off, OnStack exD exS 4120 v ty size off →
      (v.die = 2 ∧ size = some 8 ∧ off = 16) ∨ (v.die = 3 ∧ size = some 16 ∧ off = -24) ∨ (v.die = 4 ∧ size = some 4 ∧ off = -36) := by
    rintro v ty size off ⟨hv, ht, l, hl, hc, hp⟩
    simp only [exS, List.mem_cons, List.not_mem_nil, or_false] at hv
    rcases hv with rfl | rfl | rfl <;> simp only [List.mem_cons, List.not_mem_nil, or_false] at hl
    · subst hl; simp [exD] at hp ht; simp [← ht.2]; omega
    · subst hl; simp [exD] at hp ht; simp [← ht.2]; omega
    · rcases hl with rfl | rfl
      · simp [exD] at hp
      · simp [exD] at hp ht; simp [← ht.2]; omega
  refine ⟨fun v ty size off hv => ?_, fun v w ty ty' n n' off off' hv hw => ?_⟩
  · rcases key v ty size off hv with ⟨_, h, _⟩ | ⟨_, h, _⟩ | ⟨_, h, _⟩ <;> exact ⟨_, h, by omega, by omega⟩
  · have d := (ex_tidy.each exS (by simp)).dies v hv.1 w hw.1
    rcases key _ _ _ _ hv with ⟨a1, a2, a3⟩ | ⟨a1, a2, a3⟩ | ⟨a1, a2, a3⟩ <;> rcases key _ _ _ _ hw with ⟨b1, b2, b3⟩ | ⟨b1, b2, b3⟩ | ⟨b1, b2, b3⟩ <;>
      simp only [Option.some.injEq] at a2 b2 <;> first | exact Or.inl ⟨d (by omega), by omega⟩ | (right; omega)

/-! ## What fails -/

/-- After a subprogram's last interval, its last description is still found: the variable in it is not on the stack (none is). -/
theorem gap_fails : ∃ (D : Dwarf) (s : Subp) (tbl : List Rec) (r : Rec), Tidy D [s] ∧ table D [s] = some tbl ∧ found tbl 4150 = some r ∧
    (0, 23) ∈ r.lay.members ∧ InRanges s 4150 ∧ ∀ v ty size off, ¬ OnStack D s 4150 v ty size off := by
  refine ⟨exD, ⟨9, 2, some 4096, [(4096, 4160)], [⟨10, some (23, some 8), [⟨8, 32, 992⟩]⟩]⟩, [⟨4104, 4128, 9, 8, ⟨8, [(0, 23)]⟩⟩],
    ⟨4104, 4128, 9, 8, ⟨8, [(0, 23)]⟩⟩, ?_, by decide +kernel, by decide +kernel, by decide, ⟨(4096, 4160), by simp, by decide⟩, ?_⟩
  · refine ⟨?_, by simp, by simp, by simp⟩
    intro s hs
    simp only [List.mem_cons, List.not_mem_nil, or_false] at hs
    subst hs
    refine ⟨⟨4096, rfl, by simp [isAll]⟩, by simp, by simp, by simp, ?_, by simp [exD]⟩
    intro v hv l hl pc hc
    simp only [List.mem_cons, List.not_mem_nil, or_false] at hv
    subst hv
    simp only [List.mem_cons, List.not_mem_nil, or_false] at hl
    subst hl
    cases hc with
    | all _ _ h => exact h
    | some h h1 h2 h3 =>
      simp only [Option.some.injEq] at h1
      subst h1
      exact ⟨(4096, 4160), by simp, by simp only at h2 h3 ⊢; omega⟩
  · rintro v ty size off ⟨hv, _, l, hl, hc, _⟩
    simp only [List.mem_cons, List.not_mem_nil, or_false] at hv
    subst hv
    simp only [List.mem_cons, List.not_mem_nil, or_false] at hl
    subst hl
    cases hc with
    | all h => simp at h
    | some h h1 h2 h3 =>
      simp only [Option.some.injEq] at h1
      subst h1
      simp at h3

/-- Of two static functions of one name in one source file (as from a header included twice, in two units), only the first is described. -/
theorem twin_fails : ∃ (D : Dwarf) (s t : Subp) (tbl : List Rec) (v : Var), table D [s, t] = some tbl ∧ OnStack D t 4160 v 23 (some 8) (-8) ∧
    (∀ pc, InRanges s pc → ¬ InRanges t pc) ∧ ∀ r ∈ tbl, r.die ≠ t.die := by
  refine ⟨exD, exS, { exT with key := 1 }, exTbl.filter (fun r => decide (r.die = 1)), ⟨10, some (23, some 8), [⟨64, 96, 992⟩]⟩, by decide +kernel,
    ⟨by simp [exT], rfl, ⟨64, 96, 992⟩, by simp, .some (by decide) rfl (by decide) (by decide), by decide +kernel⟩, ?_, by decide +kernel⟩
  intro pc h1 h2
  simp [InRanges, exS, exT] at h1 h2
  omega

/-- When a variable above the frame's base overlaps another that begins higher, the size may end within it. -/
theorem overlap_fails : ∃ (D : Dwarf) (s : Subp) (tbl : List Rec) (v : Var), table D [s] = some tbl ∧ OnStack D s 4100 v 20 (some 64) 16 ∧
    found tbl 4100 = some ⟨4096, 4160, 1, 0, ⟨28, [(16, 20), (24, 21)]⟩⟩ ∧ StackFrame.visit (tbl.map (toEntry (fun _ => 0))) 10040 4100 10000 false = none := by
  refine ⟨exD, ⟨1, 1, some 4096, [(4096, 4160)], [⟨2, some (20, some 64), [⟨0, 64, 1016⟩]⟩, ⟨3, some (21, some 4), [⟨0, 64, 1024⟩]⟩]⟩,
    [⟨4096, 4160, 1, 0, ⟨28, [(16, 20), (24, 21)]⟩⟩], ⟨2, some (20, some 64), [⟨0, 64, 1016⟩]⟩, by decide +kernel,
    ⟨by simp, rfl, ⟨0, 64, 1016⟩, by simp, .some (by decide) rfl (by decide) (by decide), by decide +kernel⟩, by decide +kernel, by decide +kernel⟩

/-- Entries after a base address selection are displaced by the unit's base address, which does not apply to them. -/
theorem base_fails : entries ⟨1, 1, some 4096, [(4096, 4160)], []⟩ 0 0 [⟨2 ^ 64 - 1, 4096, 0⟩, ⟨0, 64, 976⟩] = some [(8192, 8256, 976)] := by
  decide +kernel

/-- When two expressions of a variable have the same hash, the variable is missing from where only the second applies next to the first. -/
theorem hash_fails : ∃ (D : Dwarf) (s : Subp) (tbl : List Rec) (v : Var), table D [s] = some tbl ∧ OnStack D s 4100 v 20 (some 8) (-8) ∧
    ∀ r ∈ tbl, ∀ o ∈ r.lay.members, (o.1 : Int) - r.off ≠ -8 := by
  refine ⟨{ exD with hash := fun _ => 0 }, ⟨1, 1, some 4096, [(4096, 4160)], [⟨2, some (20, some 8), [⟨0, 64, 984⟩, ⟨0, 32, 992⟩]⟩]⟩,
    [⟨4096, 4160, 1, 16, ⟨16, [(0, 20)]⟩⟩], ⟨2, some (20, some 8), [⟨0, 64, 984⟩, ⟨0, 32, 992⟩]⟩, by decide +kernel,
    ⟨by simp, rfl, ⟨0, 32, 992⟩, by simp, .some (by decide) rfl (by decide) (by decide), by decide +kernel⟩, by decide +kernel⟩

/-- A function of a megabyte stops the tool. -/
theorem big_fails : ∃ (D : Dwarf) (s : Subp), Tidy D [s] ∧ table D [s] = none := by
  refine ⟨exD, ⟨1, 1, some 4096, [(4096, 4096 + 2 ^ 20)], [⟨2, some (20, some 8), [⟨0, 2 ^ 64 - 1, 984⟩]⟩]⟩, ?_, by decide +kernel⟩
  refine ⟨?_, by simp, by simp, by simp⟩
  intro s hs
  simp only [List.mem_cons, List.not_mem_nil, or_false] at hs
  subst hs
  refine ⟨⟨4096, rfl, by simp [isAll]⟩, by simp, by simp, by simp, ?_, by simp [exD]⟩
  intro v hv l hl pc hc
  simp only [List.mem_cons, List.not_mem_nil, or_false] at hv
  subst hv
  simp only [List.mem_cons, List.not_mem_nil, or_false] at hl
  subst hl
  cases hc with
  | all _ _ h => exact h
  | some h => simp at h

/-- Offsets and sizes are cut to 32 bits: a variable of four gigabytes and eight bytes makes a frame of eight; one that begins two gigabytes up is
taken to be below the base; and two gigabytes below the base nothing is written. -/
theorem wrap_fails : (layout 0 [⟨0, 1, 2, some (2 ^ 32 + 8)⟩]).size = 8 ∧ (layout 0 [⟨2 ^ 32 + 16, 1, 2, some 4⟩]).size = 20 ∧
    (layout 0 [⟨2 ^ 31, 1, 2, some 8⟩]).size = 0 ∧ minOff [⟨2 ^ 31, 1, 2, some 8⟩] = -2 ^ 31 ∧ offsetToAll (-2 ^ 31) = none ∧ offsetToAll (-2 ^ 31 + 1) = some (2 ^ 31) := by
  refine ⟨?_, ?_, ?_, ?_, by decide, by decide⟩ <;> decide +kernel

end Liballocs.FrameTypes
