import Verif.Proofs.DumpPtrs
/-!
# Where frames keep pointers: what the tool says about an address
-/
namespace Liballocs.DumpPtrs

open FrameTypes (Loc Seg add join isBase isAll sane At From At_nil At_cons addj)

/-! ## What the debugging information says -/

/-- An address in the subprogram. -/
def InRanges (s : Subp) (pc : Nat) : Prop := ∃ r ∈ s.ranges, r.1 ≤ pc ∧ pc < r.2

/-- An entry of a location list applies at an address: everywhere in the subprogram, or between two addresses relative to the compilation unit. -/
inductive Covers (s : Subp) (l : Loc) (pc : Nat) : Prop
  | all : l.lopc = 0 → (l.hipc = 0 ∨ l.hipc = 2 ^ 64 - 1) → InRanges s pc → Covers s l pc
  | some {cu : Nat} : ¬ (l.lopc = 0 ∧ (l.hipc = 0 ∨ l.hipc = 2 ^ 64 - 1)) → s.cuBase = some cu → l.lopc + cu ≤ pc → pc < l.hipc + cu → Covers s l pc

/-- Where an expression says a variable is, the frame's base being at an offset from the CFA. -/
inductive Means (base : Int) : Place → Where → Prop
  | reg (n : Nat) : Means base (.reg n) (.reg n)
  | cfa (off : Int) : Means base (.cfa off) (.stack off)
  | fb (off : Int) : Means base (.fb off) (.stack (base + off))

/-- At an address, a pointer variable is kept somewhere. -/
def Keeps (D : Dwarf) (s : Subp) (pc : Nat) (v : Var) (w : Where) : Prop :=
  v ∈ s.vars ∧ v.ptr = true ∧ ∃ l ∈ v.locs, Covers s l pc ∧ Means (D.base s.die pc) (D.place l.expr) w

/-- Where a rule says that a register of the caller is. -/
inductive Says : Def → Where → Prop
  | inReg (n : Nat) : Says (.inReg n) (.reg n)
  | atCfa (off : Int) : Says (.atCfa off) (.stack off)

/-- The registers that functions preserve: rbx, rbp, r12 to r15, by their DWARF numbers. -/
def Preserved (col : Nat) : Prop := col ∈ [3, 6, 12, 13, 14, 15]

/-- A row of an FDE says where a register is. -/
def RowSays (r : Row) (col : Nat) (w : Where) : Prop := ∃ d, (col, d) ∈ r.defs ∧ Says d w

/-- What the output says about an address. -/
def Told (out : List Item) (pc : Nat) (who : Who) (w : Where) : Prop :=
  ∃ die sg, Item.ptrs die sg ∈ out ∧ sg.lo ≤ pc ∧ pc < sg.hi ∧ ∃ e ∈ sg.els, e.who = who ∧ shown e.loc = w

/-- An FDE has code of a subprogram. -/
def Meets (s : Subp) (f : Fde) : Prop := ∃ pc, InRanges s pc ∧ f.lo ≤ pc ∧ pc < f.hi

/-- Conditions on a subprogram. -/
structure TidyS (D : Dwarf) (fdes : List Fde) (s : Subp) : Prop where
  /-- Addresses do not wrap. -/
  wrap : ∀ cu, s.cuBase = some cu → ∀ v ∈ s.vars, ∀ l ∈ v.locs, isAll l = false → l.hipc + cu < 2 ^ 64
  /-- Variables are different DIEs. -/
  dies : ∀ v ∈ s.vars, ∀ w ∈ s.vars, v.die = w.die → v = w
  /-- Pointer variables have their type as an attribute of their own. -/
  own : ∀ v ∈ s.vars, v.ptr = true → v.own = true
  /-- Where the frame's base is used, it is the CFA. -/
  base : ∀ v ∈ s.vars, v.ptr = true → ∀ l ∈ v.locs, ∀ off, D.place l.expr = .fb off → ∀ pc, Covers s l pc → D.base s.die pc = 0
  /-- No pointer variable is ever where a register is saved. -/
  clear : ∀ v ∈ s.vars, v.ptr = true → ∀ l ∈ v.locs, ∀ w, store (D.place l.expr) = some w → ∀ f ∈ fdes, Meets s f → ∀ r ∈ f.rows, ∀ d ∈ r.defs,
    Preserved d.1 → saved d.2 ≠ some w

/-- Conditions on a file. -/
structure Tidy (D : Dwarf) (fdes : List Fde) (subps : List Subp) : Prop where
  each : ∀ s ∈ subps, TidyS D fdes s
  /-- No two subprograms have the same name, source file and directory. -/
  keys : subps.Pairwise (fun s t => s.key ≠ t.key)
  dies : ∀ s ∈ subps, ∀ t ∈ subps, s.die = t.die → s = t

/-! ## Variables that are live -/

theorem entries_iff {s : Subp} (pc x : Nat) : ∀ (ls : List Loc) (k : Bool) (es : List (Nat × Nat × Nat)),
    (∀ cu, s.cuBase = some cu → ∀ l ∈ ls, isAll l = false → l.hipc + cu < 2 ^ 64) → entries s k ls = some es →
      (∀ e ∈ es, e.1 < e.2.1) ∧ ((∃ e ∈ es, e.1 ≤ pc ∧ pc < e.2.1 ∧ e.2.2 = x) ↔ ∃ l ∈ ls, l.expr = x ∧ Covers s l pc)
  | [], k, es, _, h => by
    simp only [entries, Option.some.injEq] at h
    subst h
    simp
  | l :: ls, k, es, hw, h => by
    have ih := fun es => entries_iff pc x ls false es (fun cu hcu l hl => hw cu hcu l (by simp [hl]))
    have hskip : (l.lopc = l.hipc ∧ l.hipc ≠ 0) ∨ l.hipc < l.lopc → ¬ Covers s l pc := by
      rintro hc h2
      cases h2 with
      | all h1 h2 h3 => omega
      | some h1 h2 h3 h4 => omega
    rw [entries] at h
    split at h
    · simp at h
    split at h
    · rename_i hc
      obtain ⟨i1, i2⟩ := ih es h
      refine ⟨i1, i2.trans ?_⟩
      simp [hskip (Or.inl hc)]
    split at h
    · rename_i hc
      obtain ⟨i1, i2⟩ := ih es h
      refine ⟨i1, i2.trans ?_⟩
      simp [hskip (Or.inr hc)]
    match hcu : s.cuBase with
    | none => rw [hcu] at h; simp at h
    | some cu =>
      rw [hcu] at h
      simp only at h
      split at h
      · rename_i ha
        split at h
        · rename_i hc
          obtain ⟨_, rfl, hr⟩ := hc
          simp only [Option.some.injEq] at h
          subst h
          simp only [isAll, Bool.and_eq_true, Bool.or_eq_true, decide_eq_true_eq] at ha
          simp only [List.all_eq_true, sane, Bool.and_eq_true, decide_eq_true_eq] at hr
          constructor
          · intro e he
            simp only [List.mem_map] at he
            obtain ⟨r, hr', rfl⟩ := he
            exact (hr r hr').1
          · constructor
            · rintro ⟨e, he, h1, h2, h3⟩
              simp only [List.mem_map] at he
              obtain ⟨r, hr', rfl⟩ := he
              exact ⟨l, by simp, h3, .all ha.1 ha.2 ⟨r, hr', h1, h2⟩⟩
            · rintro ⟨l', hl', h1, h2⟩
              simp at hl'
              subst hl'
              cases h2 with
              | all g1 g2 g3 =>
                obtain ⟨r, hr', h3, h4⟩ := g3
                exact ⟨(r.1, r.2, l'.expr), List.mem_map.mpr ⟨r, hr', rfl⟩, h3, h4, h1⟩
              | some g1 => exact absurd ha g1
        · simp at h
      · rename_i ha
        have hw' := hw cu hcu l (by simp) (by simpa using ha)
        split at h
        · rename_i hs
          have e1 : (l.lopc + cu) % 2 ^ 64 = l.lopc + cu := by rw [Nat.mod_eq_of_lt]; omega
          have e2 : (l.hipc + cu) % 2 ^ 64 = l.hipc + cu := by rw [Nat.mod_eq_of_lt]; omega
          rw [e1, e2] at h hs
          simp only [sane, Bool.and_eq_true, decide_eq_true_eq] at hs
          simp only [Option.map_eq_some_iff] at h
          obtain ⟨es', h1, h2⟩ := h
          subst h2
          obtain ⟨i1, i2⟩ := ih es' h1
          have ha' : ¬ (l.lopc = 0 ∧ (l.hipc = 0 ∨ l.hipc = 2 ^ 64 - 1)) := by
            simpa [isAll] using ha
          constructor
          · intro e he
            rcases List.mem_cons.mp he with rfl | he
            · exact hs.1
            · exact i1 e he
          · simp only [List.mem_cons, exists_eq_or_imp, i2]
            refine or_congr ?_ Iff.rfl
            constructor
            · rintro ⟨h3, h4, h5⟩
              exact ⟨h5, .some ha' hcu h3 h4⟩
            · rintro ⟨h3, h4⟩
              cases h4 with
              | all g1 g2 g3 => exact absurd ⟨g1, g2⟩ ha'
              | some g1 g2 g3 g4 =>
                rw [hcu] at g2
                cases g2
                exact ⟨g3, g4, h3⟩
        · simp at h

/-- The elements that the first map may have. -/
def U (s : Subp) (y : Live) : Prop := ∃ v ∈ s.vars, ∃ l ∈ v.locs, y = ⟨v.die, v.ptr, v.own, l.expr⟩

theorem insLive_old (x y : Live) (l : List Live) (h : y ∈ l) : y ∈ insLive x l := by
  unfold insLive
  split
  · exact h
  · simp [h]

theorem insLive_new (x y : Live) (l : List Live) (h : y ∈ insLive x l) : y = x ∨ y ∈ l := by
  unfold insLive at h
  split at h
  · exact Or.inr h
  · simp at h; exact h.symm

theorem insLive_key (x : Live) (l : List Live) : ∃ y ∈ insLive x l, y.die = x.die ∧ y.expr = x.expr := by
  unfold insLive
  split
  · rename_i h
    simp only [List.any_eq_true, Bool.and_eq_true, decide_eq_true_eq] at h
    exact h
  · exact ⟨x, by simp, rfl, rfl⟩

theorem sameLive_iff (a b : List Live) (h : sameLive a b = true) (x : Live) : x ∈ a ↔ x ∈ b := by
  simp only [sameLive, Bool.and_eq_true, List.all_eq_true, decide_eq_true_eq] at h
  exact ⟨h.1 x, h.2 x⟩

/-- Variables are told apart by their DIEs. -/
def Dies (s : Subp) : Prop := ∀ v ∈ s.vars, ∀ w ∈ s.vars, v.die = w.die → v = w

theorem addLive_at {s : Subp} (h : Dies s) {v : Var} {m : List (Seg Live)} (hf : From 0 m) (hu : ∀ pc y, At m pc y → U s y)
    {e : Nat × Nat × Nat} (hlt : e.1 < e.2.1) (hx : U s ⟨v.die, v.ptr, v.own, e.2.2⟩) :
    From 0 (addLive v m e) ∧ ∀ pc y, At (addLive v m e) pc y ↔ At m pc y ∨ (e.1 ≤ pc ∧ pc < e.2.1 ∧ y = ⟨v.die, v.ptr, v.own, e.2.2⟩) :=
  addj (U := U s) (P := fun y => y.die = v.die ∧ y.expr = e.2.2) (fun l y => insLive_new _ y l) (fun l y => insLive_old _ y l)
    (fun l => insLive_key _ l) (fun y hy hp => by
      obtain ⟨a, ha, l, _, hl⟩ := hx
      obtain ⟨b, hb, k, _, rfl⟩ := hy
      simp only [Live.mk.injEq] at hl hp ⊢
      have := h b hb a ha (by rw [hp.1, hl.1])
      subst this
      exact ⟨hp.1, hl.2.1.symm, hl.2.2.1.symm, hp.2⟩) hx sameLive_iff hlt hf hu

theorem addLives_at {s : Subp} (h : Dies s) {v : Var} : ∀ (es : List (Nat × Nat × Nat)) (m : List (Seg Live)), From 0 m →
    (∀ pc y, At m pc y → U s y) → (∀ e ∈ es, e.1 < e.2.1 ∧ U s ⟨v.die, v.ptr, v.own, e.2.2⟩) →
    From 0 (es.foldl (addLive v) m) ∧
      ∀ pc y, At (es.foldl (addLive v) m) pc y ↔ At m pc y ∨ ∃ e ∈ es, e.1 ≤ pc ∧ pc < e.2.1 ∧ y = ⟨v.die, v.ptr, v.own, e.2.2⟩
  | [], m, hf, _, _ => ⟨hf, fun pc y => by simp⟩
  | e :: es, m, hf, hu, he => by
    obtain ⟨e1, e2⟩ := he e (by simp)
    obtain ⟨h1, h2⟩ := addLive_at h hf hu e1 e2
    have hu' : ∀ pc y, At (addLive v m e) pc y → U s y := by
      intro pc y hy
      rcases (h2 pc y).mp hy with h3 | h3
      · exact hu pc y h3
      · rw [h3.2.2]; exact e2
    obtain ⟨h3, h4⟩ := addLives_at h es _ h1 hu' (fun e' h' => he e' (by simp [h']))
    refine ⟨h3, fun pc y => ?_⟩
    rw [List.foldl_cons, h4, h2]
    simp only [List.mem_cons, exists_eq_or_imp, or_assoc]

/-- The first map has at each address the variables live there, with their expressions. -/
theorem liveMap_at {s : Subp} (h : Dies s) (hw : ∀ cu, s.cuBase = some cu → ∀ v ∈ s.vars, ∀ l ∈ v.locs, isAll l = false → l.hipc + cu < 2 ^ 64) :
    ∀ (vs : List Var) (m m' : List (Seg Live)), (∀ v ∈ vs, v ∈ s.vars) → From 0 m →
    (∀ pc y, At m pc y → U s y) → liveMap s m vs = some m' →
    From 0 m' ∧ ∀ pc y, At m' pc y ↔ At m pc y ∨ ∃ v ∈ vs, ∃ l ∈ v.locs, Covers s l pc ∧ y = ⟨v.die, v.ptr, v.own, l.expr⟩
  | [], m, m', _, hf, _, hm => by
    simp only [liveMap, Option.some.injEq] at hm
    subst hm
    exact ⟨hf, fun pc y => by simp⟩
  | v :: vs, m, m', hv, hf, hu, hm => by
    have hvs := hv v (by simp)
    rw [liveMap] at hm
    match he : entries s true v.locs with
    | none => rw [he] at hm; simp at hm
    | some es =>
      rw [he] at hm
      simp only at hm
      have key := fun pc x => entries_iff pc x v.locs true es (fun cu hcu => hw cu hcu v hvs) he
      have hes : ∀ e ∈ es, e.1 < e.2.1 ∧ U s ⟨v.die, v.ptr, v.own, e.2.2⟩ := by
        intro e hm
        have hlt := (key 0 0).1 e hm
        obtain ⟨l, hl, h1, _⟩ := ((key e.1 e.2.2).2).mp ⟨e, hm, Nat.le_refl _, hlt, rfl⟩
        exact ⟨hlt, v, hvs, l, hl, by rw [h1]⟩
      obtain ⟨h1, h2⟩ := addLives_at h es m hf hu hes
      have hu' : ∀ pc y, At (es.foldl (addLive v) m) pc y → U s y := by
        intro pc y hy
        rcases (h2 pc y).mp hy with h3 | ⟨e, h3, _, _, h4⟩
        · exact hu pc y h3
        · rw [h4]; exact (hes e h3).2
      obtain ⟨h3, h4⟩ := liveMap_at h hw vs _ m' (fun w hw => hv w (by simp [hw])) h1 hu' hm
      refine ⟨h3, fun pc y => ?_⟩
      rw [h4, h2, or_assoc]
      refine or_congr Iff.rfl ?_
      simp only [List.mem_cons, exists_eq_or_imp]
      refine or_congr ?_ Iff.rfl
      constructor
      · rintro ⟨e, he', g1, g2, g3⟩
        obtain ⟨l, hl, k1, k2⟩ := ((key pc e.2.2).2).mp ⟨e, he', g1, g2, rfl⟩
        exact ⟨l, hl, k2, by rw [k1]; exact g3⟩
      · rintro ⟨l, hl, g1, g2⟩
        obtain ⟨e, he', k1, k2, k3⟩ := ((key pc l.expr).2).mpr ⟨l, hl, rfl, g1⟩
        exact ⟨e, he', k1, k2, by rw [k3]; exact g2⟩

/-! ## A subprogram's map -/

theorem calleeSave_iff (col : Nat) : calleeSave col = true ↔ Preserved col := by
  simp [calleeSave, Preserved, or_assoc]

/-- An element of a variable's. -/
def VarEl (D : Dwarf) (s : Subp) (e : El) : Prop :=
  ∃ v ∈ s.vars, v.ptr = true ∧ v.own = true ∧ ∃ l ∈ v.locs, store (D.place l.expr) = some e.loc ∧ e.who = .var v.die

/-- An element of a saved register's. -/
def RegEl (f : Fde) (e : El) : Prop := ∃ r ∈ f.rows, ∃ d ∈ r.defs, Preserved d.1 ∧ saved d.2 = some e.loc ∧ e.who = .reg d.1

theorem fdePuts_mem (f : Fde) (t : Nat × Nat × El) : t ∈ fdePuts f ↔ t.1 = f.lo ∧ t.2.1 = f.hi ∧ RegEl f t.2.2 := by
  unfold fdePuts RegEl
  simp only [List.mem_flatMap, List.mem_filterMap]
  constructor
  · rintro ⟨r, hr, d, hd, h⟩
    split at h
    · rename_i hc
      simp only [Option.map_eq_some_iff] at h
      obtain ⟨w, h1, rfl⟩ := h
      exact ⟨rfl, rfl, r, hr, d, hd, (calleeSave_iff _).mp hc, h1, rfl⟩
    · simp at h
  · rintro ⟨h1, h2, r, hr, d, hd, h3, h4, h5⟩
    refine ⟨r, hr, d, hd, ?_⟩
    rw [if_pos ((calleeSave_iff _).mpr h3), h4]
    obtain ⟨a, b, l, w⟩ := t
    simp only at *
    subst h1 h2 h5
    rfl

theorem element_iff (D : Dwarf) (x : Live) (e : El) :
    element D x = some e ↔ x.own = true ∧ x.ptr = true ∧ store (D.place x.expr) = some e.loc ∧ e.who = .var x.die := by
  unfold element
  obtain ⟨l, w⟩ := e
  by_cases h : (x.own && x.ptr) = true
  · rw [if_pos h]
    simp only [Bool.and_eq_true] at h
    simp only [Option.map_eq_some_iff, El.mk.injEq, h, true_and]
    constructor
    · rintro ⟨a, h1, rfl, rfl⟩; exact ⟨h1, rfl⟩
    · rintro ⟨h1, rfl⟩; exact ⟨l, h1, rfl, rfl⟩
  · rw [if_neg h]
    simp only [Bool.and_eq_true] at h
    simp only [reduceCtorEq, false_iff]
    exact fun h' => h ⟨h'.1, h'.2.1⟩

/-- The map that a subprogram's structures are written from. -/
theorem final_at {D : Dwarf} {s : Subp} {fs : List Fde} (hd : Dies s)
    (hw : ∀ cu, s.cuBase = some cu → ∀ v ∈ s.vars, ∀ l ∈ v.locs, isAll l = false → l.hipc + cu < 2 ^ 64)
    (hc : ∀ x y f, VarEl D s x → f ∈ fs → RegEl f y → x.loc ≠ y.loc) {live : List (Seg Live)} (hl : liveMap s [] s.vars = some live) :
    From 0 (fs.foldl (putFde D) (varMap D live)) ∧ ∀ pc e, At (fs.foldl (putFde D) (varMap D live)) pc e ↔
      (∃ v ∈ s.vars, v.ptr = true ∧ v.own = true ∧ e.who = .var v.die ∧ ∃ l ∈ v.locs, Covers s l pc ∧ store (D.place l.expr) = some e.loc) ∨
      ∃ f ∈ fs, f.lo ≤ pc ∧ pc < f.hi ∧ RegEl f e := by
  obtain ⟨h1, h2⟩ := liveMap_at hd hw s.vars [] live (fun v hv => hv) .nil (fun pc y hy => absurd hy At_nil) hl
  have hclear : Clear (fun e => VarEl D s e ∨ ∃ f ∈ fs, RegEl f e) := by
    intro x y hx hy hxy d c h3 h4
    rcases hx with hx | ⟨f, _, _, _, d', _, _, _, hx⟩
    · rcases hy with ⟨v, _, _, _, _, _, _, hy⟩ | ⟨f, hf, hy⟩
      · rw [hy] at h4; cases h4
      · exact hc x y f hx hf hy hxy
    · rw [hx] at h3; cases h3
  have hvp : ∀ t, t ∈ varPuts D live ↔ ∃ sg ∈ live, t.1 = sg.lo ∧ t.2.1 = sg.hi ∧ ∃ x ∈ sg.els, element D x = some t.2.2 := by
    intro t
    unfold varPuts
    simp only [List.mem_flatMap, List.mem_filterMap, Option.map_eq_some_iff]
    constructor
    · rintro ⟨sg, hs, x, hx, e, he, rfl⟩
      exact ⟨sg, hs, rfl, rfl, x, hx, he⟩
    · rintro ⟨sg, hs, e1, e2, x, hx, he⟩
      refine ⟨sg, hs, x, hx, t.2.2, he, ?_⟩
      rw [← e1, ← e2]
  have hvu : ∀ t ∈ varPuts D live, VarEl D s t.2.2 := by
    intro t ht
    obtain ⟨sg, hs, _, _, x, hx, he⟩ := (hvp t).mp ht
    rcases (h2 sg.lo x).mp ⟨sg, hs, Nat.le_refl _, (h1.low sg hs).2.1, hx⟩ with h3 | ⟨v, hv, l, hl, _, rfl⟩
    · exact absurd h3 At_nil
    · obtain ⟨g1, g2, g3, g4⟩ := (element_iff D _ _).mp he
      exact ⟨v, hv, g2, g1, l, hl, g3, g4⟩
  rw [putFdes_eq, varMap_eq]
  obtain ⟨h3, h4⟩ := puts_at (D := D) hclear (varPuts D live) [] .nil (fun pc y hy => absurd hy At_nil) (fun t ht => Or.inl (hvu t ht))
  have hfu : ∀ t ∈ fs.flatMap fdePuts, ∃ f ∈ fs, t.1 = f.lo ∧ t.2.1 = f.hi ∧ RegEl f t.2.2 := by
    intro t ht
    obtain ⟨f, hf, ht⟩ := List.mem_flatMap.mp ht
    exact ⟨f, hf, (fdePuts_mem f t).mp ht⟩
  obtain ⟨h5, h6⟩ := puts_at (D := D) hclear (fs.flatMap fdePuts) (puts D [] (varPuts D live)) h3
    (fun pc y hy => by
      rcases (h4 pc y).mp hy with h | ⟨t, ht, _, _, rfl⟩
      · exact absurd h At_nil
      · exact Or.inl (hvu t ht))
    (fun t ht => by obtain ⟨f, hf, _, _, h⟩ := hfu t ht; exact Or.inr ⟨f, hf, h⟩)
  refine ⟨h5, fun pc e => ?_⟩
  rw [h6, h4]
  simp only [At_nil, false_or]
  refine or_congr ?_ ?_
  · constructor
    · rintro ⟨t, ht, g1, g2, rfl⟩
      obtain ⟨sg, hs, e1, e2, x, hx, he⟩ := (hvp t).mp ht
      rcases (h2 pc x).mp ⟨sg, hs, by omega, by omega, hx⟩ with h | ⟨v, hv, l, hl, hcv, rfl⟩
      · exact absurd h At_nil
      · obtain ⟨k1, k2, k3, k4⟩ := (element_iff D _ _).mp he
        exact ⟨v, hv, k2, k1, k4, l, hl, hcv, k3⟩
    · rintro ⟨v, hv, k2, k1, k4, l, hl, hcv, k3⟩
      obtain ⟨sg, hs, g1, g2, hx⟩ := (h2 pc ⟨v.die, v.ptr, v.own, l.expr⟩).mpr (Or.inr ⟨v, hv, l, hl, hcv, rfl⟩)
      exact ⟨(sg.lo, sg.hi, e), (hvp _).mpr ⟨sg, hs, rfl, rfl, _, hx, (element_iff D _ _).mpr ⟨k1, k2, k3, k4⟩⟩, g1, g2, rfl⟩
  · constructor
    · rintro ⟨t, ht, g1, g2, rfl⟩
      obtain ⟨f, hf, e1, e2, h⟩ := hfu t ht
      exact ⟨f, hf, by omega, by omega, h⟩
    · rintro ⟨f, hf, g1, g2, h⟩
      exact ⟨(f.lo, f.hi, e), List.mem_flatMap.mpr ⟨f, hf, (fdePuts_mem f _).mpr ⟨rfl, rfl, h⟩⟩, g1, g2, rfl⟩

/-! ## The FDEs of a subprogram -/

theorem fdesOf_meets {subps : List Subp} {s : Subp} (hd : ∀ s ∈ subps, ∀ t ∈ subps, s.die = t.die → s = t) (hs : s ∈ subps) {fdes : List Fde} {f : Fde}
    (hf : f ∈ fdesOf (subpMap subps) fdes s.die) : f ∈ fdes ∧ (f.lo < f.hi → Meets s f) ∧ ∃ t ∈ subps, InRanges t f.lo := by
  obtain ⟨h1, t, ht, h2⟩ := fdesOf_mem.mp hf
  obtain ⟨m1, m2⟩ := subpMap_at subps
  obtain ⟨g1, g2, g3, u, g4, g5, g6⟩ := visited_mem m1 ht
  refine ⟨h1, ?_, ?_⟩
  · intro hlt
    have hlo := m1.low t g1
    obtain ⟨s', hs', r, hr, k1, k2, k3⟩ := (m2 (max f.lo t.lo) s.die).mp ⟨t, g1, by omega, by omega, h2⟩
    have := hd s hs s' hs' k3
    subst this
    exact ⟨max f.lo t.lo, ⟨r, hr, k1, k2⟩, by omega, by omega⟩
  · obtain ⟨x, hx⟩ := FrameTypes.dom_at m1 g4 g5 g6
    obtain ⟨s', hs', r, hr, k1, k2, _⟩ := (m2 f.lo x).mp hx
    exact ⟨s', hs', r, hr, k1, k2⟩

theorem fdesOf_first {subps : List Subp} {s : Subp} (hs : s ∈ subps) {fdes : List Fde} {f : Fde} (hf : f ∈ fdes) (hlt : f.lo < f.hi)
    (hr : InRanges s f.lo) : f ∈ fdesOf (subpMap subps) fdes s.die := by
  obtain ⟨m1, m2⟩ := subpMap_at subps
  obtain ⟨r, hr, k1, k2⟩ := hr
  obtain ⟨t, ht, g1, g2, g3⟩ := (m2 f.lo s.die).mpr ⟨s, hs, r, hr, k1, k2, rfl⟩
  exact fdesOf_mem.mpr ⟨hf, t, visited_first m1 hlt ht g1 g2, g3⟩

/-- The elements of a subprogram's map at an address. -/
theorem subp_at {D : Dwarf} {fdes : List Fde} {subps : List Subp} (h : Tidy D fdes subps) {s : Subp} (hs : s ∈ subps) {live : List (Seg Live)}
    (hl : liveMap s [] s.vars = some live) :
    From 0 ((fdesOf (subpMap subps) fdes s.die).foldl (putFde D) (varMap D live)) ∧
    ∀ pc e, At ((fdesOf (subpMap subps) fdes s.die).foldl (putFde D) (varMap D live)) pc e ↔
      (∃ v ∈ s.vars, v.ptr = true ∧ e.who = .var v.die ∧ ∃ l ∈ v.locs, Covers s l pc ∧ store (D.place l.expr) = some e.loc) ∨
      ∃ f ∈ fdesOf (subpMap subps) fdes s.die, f.lo ≤ pc ∧ pc < f.hi ∧ RegEl f e := by
  have hS := h.each s hs
  -- FDEs that are empty add nothing
  have key := fun fs hc => final_at (D := D) (fs := fs) hS.dies hS.wrap hc hl
  have hemp : ∀ (fs : List Fde) (m : List (Seg El)), fs.foldl (putFde D) m = (fs.filter fun f => decide (f.lo < f.hi)).foldl (putFde D) m := by
    intro fs
    induction fs with
    | nil => intro m; rfl
    | cons f fs ih =>
      intro m
      rw [List.foldl_cons, List.filter_cons]
      split
      · rw [List.foldl_cons, ih]
      · rename_i hn
        have hn' : ¬ f.lo < f.hi := by simpa using hn
        have : putFde D m f = m := by
          rw [putFde_eq]
          unfold puts
          have : ∀ (q : List (Nat × Nat × El)), (∀ t ∈ q, t.1 = f.lo ∧ t.2.1 = f.hi) → ∀ m, q.foldl (fun m t => put D m t.1 t.2.1 t.2.2) m = m := by
            intro q
            induction q with
            | nil => intro _ m; rfl
            | cons t q ihq =>
              intro hq m
              rw [List.foldl_cons, ihq (fun t ht => hq t (by simp [ht]))]
              have := hq t (by simp)
              unfold put
              rw [if_neg (by omega)]
          exact this _ (fun t ht => by have := (fdePuts_mem f t).mp ht; exact ⟨this.1, this.2.1⟩) m
        rw [this, ih]
  rw [hemp]
  obtain ⟨h1, h2⟩ := key ((fdesOf (subpMap subps) fdes s.die).filter fun f => decide (f.lo < f.hi)) (by
    rintro x y f ⟨v, hv, hp, _, l, hl, hx, _⟩ hf ⟨r, hr, d, hd, hpr, hy, _⟩ hxy
    obtain ⟨hf, hlt⟩ := List.mem_filter.mp hf
    obtain ⟨k1, k2, _⟩ := fdesOf_meets h.dies hs hf
    exact hS.clear v hv hp l hl x.loc hx f k1 (k2 (by simpa using hlt)) r hr d hd hpr (by rw [hy, hxy]))
  refine ⟨h1, fun pc e => (h2 pc e).trans (or_congr ?_ ?_)⟩
  · constructor
    · rintro ⟨v, hv, g1, _, g⟩; exact ⟨v, hv, g1, g⟩
    · rintro ⟨v, hv, g1, g⟩; exact ⟨v, hv, g1, hS.own v hv g1, g⟩
  · constructor
    · rintro ⟨f, hf, g⟩; exact ⟨f, (List.mem_filter.mp hf).1, g⟩
    · rintro ⟨f, hf, g⟩; exact ⟨f, List.mem_filter.mpr ⟨hf, by simp; omega⟩, g⟩

/-! ## The output -/

theorem dedup_id : ∀ (l : List Subp) (seen : List Nat), l.Pairwise (fun s t => s.key ≠ t.key) → (∀ s ∈ l, s.key ∉ seen) → dedup l seen = l
  | [], _, _, _ => rfl
  | s :: r, seen, hp, hn => by
    have hp' := List.pairwise_cons.mp hp
    rw [dedup, if_neg (hn s (by simp)), dedup_id r _ hp'.2 (fun t ht => by
      simp only [List.mem_cons, not_or]
      exact ⟨fun e => hp'.1 t ht e.symm, hn t (by simp [ht])⟩)]

theorem allItems_mem {D : Dwarf} {m : List (Seg Nat)} {fdes : List Fde} : ∀ (ss : List Subp) (out : List Item), allItems D m fdes ss = some out →
    (∀ s ∈ ss, ∃ live, liveMap s [] s.vars = some live) ∧
    ∀ i, i ∈ out ↔ ∃ s ∈ ss, ∃ live, liveMap s [] s.vars = some live ∧ ∃ sg ∈ (fdesOf m fdes s.die).foldl (putFde D) (varMap D live), i = .ptrs s.die sg
  | [], out, h => by
    simp only [allItems, Option.some.injEq] at h
    subst h
    exact ⟨fun s hs => (by cases hs), fun i => by simp⟩
  | s :: ss, out, h => by
    rw [allItems] at h
    match h1 : subpItems D m fdes s, h2 : allItems D m fdes ss with
    | none, _ => rw [h1] at h; simp at h
    | some a, none => rw [h1, h2] at h; simp at h
    | some a, some b =>
      rw [h1, h2] at h
      simp only [Option.some.injEq] at h
      subst h
      unfold subpItems at h1
      obtain ⟨i1, i2⟩ := allItems_mem ss b h2
      split at h1
      · simp at h1
      · rename_i live hl
        simp only [Option.some.injEq] at h1
        subst h1
        refine ⟨?_, fun i => ?_⟩
        · intro t ht
          rcases List.mem_cons.mp ht with rfl | ht
          · exact ⟨live, hl⟩
          · exact i1 t ht
        · rw [List.mem_append, i2]
          simp only [List.mem_cons, exists_eq_or_imp, hl, Option.some.injEq, exists_eq_left', List.mem_map]
          refine or_congr ?_ Iff.rfl
          constructor
          · rintro ⟨sg, h1, h2⟩; exact ⟨sg, h1, h2.symm⟩
          · rintro ⟨sg, h1, h2⟩; exact ⟨sg, h1, h2.symm⟩

theorem brace_only {m : List (Seg Nat)} {fdes : List Fde} {i : Item} (h : i ∈ braces m fdes) : i = .brace := by
  unfold braces at h
  obtain ⟨f, _, h⟩ := List.mem_flatMap.mp h
  obtain ⟨t, _, h⟩ := List.mem_flatMap.mp h
  split at h
  · cases h
  · simpa using h

/-- What is told about an address, from subprograms' maps. -/
theorem told_iff {D : Dwarf} {fdes : List Fde} {subps : List Subp} (h : Tidy D fdes subps) {out : List Item} (ho : run D subps fdes = some out)
    (pc : Nat) (who : Who) (w : Where) :
    Told out pc who w ↔ ∃ s ∈ subps, ∃ loc, shown loc = w ∧
      ((∃ v ∈ s.vars, v.ptr = true ∧ who = .var v.die ∧ ∃ l ∈ v.locs, Covers s l pc ∧ store (D.place l.expr) = some loc) ∨
      ∃ f ∈ fdesOf (subpMap subps) fdes s.die, f.lo ≤ pc ∧ pc < f.hi ∧ RegEl f ⟨loc, who⟩) := by
  unfold run at ho
  rw [dedup_id subps [] h.keys (fun s _ => by simp)] at ho
  simp only [Option.map_eq_some_iff] at ho
  obtain ⟨b, hb, rfl⟩ := ho
  obtain ⟨i1, i2⟩ := allItems_mem subps b hb
  constructor
  · rintro ⟨die, sg, hm, h1, h2, e, he, h3, h4⟩
    rcases List.mem_append.mp hm with hm | hm
    · cases brace_only hm
    · obtain ⟨s, hs, live, hl, sg', hsg, heq⟩ := (i2 _).mp hm
      simp only [Item.ptrs.injEq] at heq
      obtain ⟨_, rfl⟩ := heq
      obtain ⟨_, k2⟩ := subp_at h hs hl
      refine ⟨s, hs, e.loc, h4, ?_⟩
      have := (k2 pc e).mp ⟨sg, hsg, h1, h2, he⟩
      obtain ⟨el, ew⟩ := e
      simp only at h3 this ⊢
      rw [h3] at this
      exact this
  · rintro ⟨s, hs, loc, h1, h2⟩
    obtain ⟨live, hl⟩ := i1 s hs
    obtain ⟨_, k2⟩ := subp_at h hs hl
    obtain ⟨sg, hsg, g1, g2, g3⟩ := (k2 pc ⟨loc, who⟩).mpr h2
    exact ⟨s.die, sg, List.mem_append_right _ ((i2 _).mpr ⟨s, hs, live, hl, sg, hsg, rfl⟩), g1, g2, ⟨loc, who⟩, g3, rfl, h1⟩

/-- For pointer variables, the output says of an address what the debugging information does. -/
theorem vars_partial {D : Dwarf} {fdes : List Fde} {subps : List Subp} (h : Tidy D fdes subps) {out : List Item} (ho : run D subps fdes = some out)
    (pc die : Nat) (w : Where) : Told out pc (.var die) w ↔ ∃ s ∈ subps, ∃ v, v.die = die ∧ Keeps D s pc v w := by
  rw [told_iff h ho]
  constructor
  · rintro ⟨s, hs, loc, h1, ⟨v, hv, h2, h3, l, hl, h4, h5⟩ | ⟨f, _, _, _, _, _, _, _, _, _, h2⟩⟩
    · cases h3
      refine ⟨s, hs, v, rfl, hv, h2, l, hl, h4, ?_⟩
      subst h1
      match hp : D.place l.expr with
      | .reg n =>
        rw [hp] at h5; simp only [store, Option.some.injEq] at h5; subst h5
        have : shown ⟨(n : Int), 0⟩ = .reg n := by unfold shown; rw [if_neg (by simp only; omega)]
        rw [this]; exact .reg n
      | .cfa off => rw [hp] at h5; simp only [store, Option.some.injEq] at h5; subst h5; exact .cfa off
      | .fb off =>
        rw [hp] at h5; simp only [store, Option.some.injEq] at h5; subst h5
        have hb := (h.each s hs).base v hv h2 l hl off hp pc h4
        have := Means.fb (base := D.base s.die pc) off
        rw [hb, Int.zero_add] at this
        rw [hb]; exact this
      | .static => rw [hp] at h5; simp [store] at h5
      | .other => rw [hp] at h5; simp [store] at h5
    · cases h2
  · rintro ⟨s, hs, v, rfl, hv, h2, l, hl, h4, h5⟩
    match hp : D.place l.expr, h5 with
    | _, .reg n =>
      exact ⟨s, hs, ⟨n, 0⟩, by unfold shown; rw [if_neg (by simp only; omega)], Or.inl ⟨v, hv, h2, rfl, l, hl, h4, by rw [hp]; rfl⟩⟩
    | _, .cfa off => exact ⟨s, hs, ⟨-1, off⟩, rfl, Or.inl ⟨v, hv, h2, rfl, l, hl, h4, by rw [hp]; rfl⟩⟩
    | _, .fb off =>
      have hb := (h.each s hs).base v hv h2 l hl off hp pc h4
      exact ⟨s, hs, ⟨-1, off⟩, by rw [hb, Int.zero_add]; rfl, Or.inl ⟨v, hv, h2, rfl, l, hl, h4, by rw [hp]; rfl⟩⟩

/-- For saved registers, the output says everywhere in an FDE that begins in a subprogram what any row of the FDE does. -/
theorem saved_iff {D : Dwarf} {fdes : List Fde} {subps : List Subp} (h : Tidy D fdes subps) {out : List Item} (ho : run D subps fdes = some out)
    (pc col : Nat) (w : Where) : Told out pc (.reg col) w ↔ Preserved col ∧
      ∃ f ∈ fdes, f.lo ≤ pc ∧ pc < f.hi ∧ (∃ s ∈ subps, InRanges s f.lo) ∧ ∃ r ∈ f.rows, RowSays r col w := by
  rw [told_iff h ho]
  constructor
  · rintro ⟨s, hs, loc, h1, ⟨v, _, _, h3, _⟩ | ⟨f, hf, h2, h3, r, hr, d, hd, h4, h5, h6⟩⟩
    · cases h3
    · cases h6
      obtain ⟨k1, _, k2⟩ := fdesOf_meets h.dies hs hf
      refine ⟨h4, f, k1, h2, h3, k2, r, hr, d.2, hd, ?_⟩
      subst h1
      match hp : d.2 with
      | .inReg n =>
        rw [hp] at h5; simp only [saved, Option.some.injEq] at h5; subst h5
        have : shown ⟨(n : Int), 0⟩ = .reg n := by unfold shown; rw [if_neg (by simp only; omega)]
        rw [this]; exact .inReg n
      | .atCfa off => rw [hp] at h5; simp only [saved, Option.some.injEq] at h5; subst h5; exact .atCfa off
      | .other => rw [hp] at h5; simp [saved] at h5
  · rintro ⟨h4, f, hf, h2, h3, ⟨s, hs, h5⟩, r, hr, d, hd, h6⟩
    have hm := fdesOf_first hs hf (by omega) h5
    cases h6 with
    | inReg n => exact ⟨s, hs, ⟨n, 0⟩, by unfold shown; rw [if_neg (by simp only; omega)], Or.inr ⟨f, hm, h2, h3, r, hr, _, hd, h4, rfl, rfl⟩⟩
    | atCfa off => exact ⟨s, hs, ⟨-1, off⟩, rfl, Or.inr ⟨f, hm, h2, h3, r, hr, _, hd, h4, rfl, rfl⟩⟩

/-- What the row for an address says of a preserved register is told. -/
theorem saved_told {D : Dwarf} {fdes : List Fde} {subps : List Subp} (h : Tidy D fdes subps) {out : List Item} (ho : run D subps fdes = some out)
    {pc col : Nat} {w : Where} (hp : Preserved col) {f : Fde} (hf : f ∈ fdes) (h1 : f.lo ≤ pc) (h2 : pc < f.hi) {s : Subp} (hs : s ∈ subps)
    (h3 : InRanges s f.lo) {r : Row} (hr : r ∈ f.rows) (hw : RowSays r col w) : Told out pc (.reg col) w :=
  (saved_iff h ho pc col w).mpr ⟨hp, f, hf, h1, h2, ⟨s, hs, h3⟩, r, hr, hw⟩

/-- All rows of an FDE say the same of preserved registers. -/
def Steady (f : Fde) : Prop := ∀ r ∈ f.rows, ∀ q ∈ f.rows, ∀ col w, Preserved col → RowSays r col w → RowSays q col w

/-- And for FDEs that save nothing on the way, what is told is what the row for the address says. -/
theorem saved_partial {D : Dwarf} {fdes : List Fde} {subps : List Subp} (h : Tidy D fdes subps) {out : List Item} (ho : run D subps fdes = some out)
    {pc col : Nat} {w : Where} {f : Fde} {r : Row} (hf : f ∈ fdes) (h1 : f.lo ≤ pc) (h2 : pc < f.hi) (hu : ∀ g ∈ fdes, g.lo ≤ pc → pc < g.hi → g = f)
    {s : Subp} (hs : s ∈ subps) (h3 : InRanges s f.lo) (hst : Steady f) (hr : r ∈ f.rows) :
    Told out pc (.reg col) w ↔ Preserved col ∧ RowSays r col w := by
  rw [saved_iff h ho]
  constructor
  · rintro ⟨hp, g, hg, k1, k2, _, q, hq, k3⟩
    have := hu g hg k1 k2
    subst this
    exact ⟨hp, hst q hq r hr col w hp k3⟩
  · rintro ⟨hp, hw⟩
    exact ⟨hp, f, hf, h1, h2, ⟨s, hs, h3⟩, r, hr, hw⟩

/-- Subprograms have no code in common. -/
def Apart (subps : List Subp) : Prop := ∀ s ∈ subps, ∀ t ∈ subps, ∀ pc, InRanges s pc → InRanges t pc → s = t

/-- A subprogram's variables and FDEs are within it. -/
structure Within (fdes : List Fde) (s : Subp) : Prop where
  vars : ∀ v ∈ s.vars, ∀ l ∈ v.locs, ∀ pc, Covers s l pc → InRanges s pc
  fdes : ∀ f ∈ fdes, Meets s f → ∀ pc, f.lo ≤ pc → pc < f.hi → InRanges s pc

/-- No two structures are for the same address. -/
theorem one_partial {D : Dwarf} {fdes : List Fde} {subps : List Subp} (h : Tidy D fdes subps) (ha : Apart subps) (hi : ∀ s ∈ subps, Within fdes s)
    {out : List Item} (ho : run D subps fdes = some out) {d d' : Nat} {a b : Seg El} (h1 : .ptrs d a ∈ out) (h2 : .ptrs d' b ∈ out) {pc : Nat}
    (a1 : a.lo ≤ pc) (a2 : pc < a.hi) (b1 : b.lo ≤ pc) (b2 : pc < b.hi) : d = d' ∧ a = b := by
  unfold run at ho
  rw [dedup_id subps [] h.keys (fun s _ => by simp)] at ho
  simp only [Option.map_eq_some_iff] at ho
  obtain ⟨o, hb, rfl⟩ := ho
  obtain ⟨i1, i2⟩ := allItems_mem subps o hb
  have key : ∀ d a, Item.ptrs d a ∈ braces (subpMap subps) fdes ++ o → a.lo ≤ pc → pc < a.hi →
      ∃ s ∈ subps, d = s.die ∧ InRanges s pc ∧ ∃ live, liveMap s [] s.vars = some live ∧
        a ∈ (fdesOf (subpMap subps) fdes s.die).foldl (putFde D) (varMap D live) := by
    intro d a hm a1 a2
    rcases List.mem_append.mp hm with hm | hm
    · cases brace_only hm
    · obtain ⟨s, hs, live, hl, sg, hsg, heq⟩ := (i2 _).mp hm
      simp only [Item.ptrs.injEq] at heq
      obtain ⟨rfl, rfl⟩ := heq
      obtain ⟨k1, k2⟩ := subp_at h hs hl
      refine ⟨s, hs, rfl, ?_, live, hl, hsg⟩
      have hne := (k1.low a hsg).2.2
      match he : a.els with
      | [] => exact absurd he hne
      | x :: xs =>
        rcases (k2 pc x).mp ⟨a, hsg, a1, a2, by rw [he]; simp⟩ with ⟨v, hv, _, _, l, hl, hc, _⟩ | ⟨f, hf, g1, g2, _⟩
        · exact (hi s hs).vars v hv l hl pc hc
        · obtain ⟨g3, g4, _⟩ := fdesOf_meets h.dies hs hf
          exact (hi s hs).fdes f g3 (g4 (by omega)) pc g1 g2
  obtain ⟨s, hs, rfl, r1, live, hl, m1⟩ := key d a h1 a1 a2
  obtain ⟨t, ht, rfl, r2, live', hl', m2⟩ := key d' b h2 b1 b2
  have := ha s hs t ht pc r1 r2
  subst this
  rw [hl] at hl'
  cases hl'
  exact ⟨rfl, (subp_at h hs hl).1.unique m1 m2 a1 a2 b1 b2⟩

theorem els_nodup_add {P : List Nat → Prop} (die : Nat) (h1 : P [die]) (hi : ∀ l, P l → P (insDie die l)) :
    ∀ (m : List (Seg Nat)) (lo hi : Nat), (∀ t ∈ m, P t.els) → ∀ t ∈ add insDie die m lo hi, P t.els
  | [], lo, hi, _, t, ht => by
    rw [add] at ht
    unfold FrameTypes.seg at ht
    split at ht
    · simp at ht; subst ht; exact h1
    · cases ht
  | s :: m, lo, hh, hm, t, ht => by
    have hs := hm s (by simp)
    have key : ∀ lo hi els, P els → t ∈ FrameTypes.seg lo hi els → P t.els := by
      intro lo hi els he hx
      unfold FrameTypes.seg at hx
      split at hx
      · simp at hx; subst hx; exact he
      · cases hx
    rw [add] at ht
    simp only [List.mem_append] at ht
    rcases ht with (((ht | ht) | ht) | ht) | ht
    · exact key _ _ _ h1 ht
    · exact key _ _ _ hs ht
    · exact key _ _ _ (hi _ hs) ht
    · exact key _ _ _ hs ht
    · exact els_nodup_add die h1 hi m _ _ (fun t ht => hm t (by simp [ht])) t ht

theorem subpMap_nodup (ss : List Subp) : ∀ t ∈ subpMap ss, t.els.Nodup := by
  have hr : ∀ (die : Nat) (r : Nat × Nat) (m : List (Seg Nat)), (∀ t ∈ m, t.els.Nodup) → ∀ t ∈ addRange die m r, t.els.Nodup := by
    intro die r m hm t ht
    unfold addRange at ht
    split at ht
    · obtain ⟨u, hu, he⟩ := join_els _ _ t ht
      rw [he]
      refine els_nodup_add die (by simp) (fun l hl => ?_) m _ _ hm u hu
      unfold insDie
      split
      · exact hl
      · rename_i hn
        rw [List.nodup_append]
        refine ⟨hl, by simp, ?_⟩
        intro a ha b hb
        simp at hb
        subst hb
        rintro rfl
        exact hn ha
    · exact hm t ht
  have hrs : ∀ (die : Nat) (rs : List (Nat × Nat)) (m : List (Seg Nat)), (∀ t ∈ m, t.els.Nodup) → ∀ t ∈ rs.foldl (addRange die) m, t.els.Nodup := by
    intro die rs
    induction rs with
    | nil => intro m hm; exact hm
    | cons r rs ih => intro m hm; exact ih _ (hr die r m hm)
  have : ∀ (ss : List Subp) (m : List (Seg Nat)), (∀ t ∈ m, t.els.Nodup) →
      ∀ t ∈ ss.foldl (fun m s => s.ranges.foldl (addRange s.die) m) m, t.els.Nodup := by
    intro ss
    induction ss with
    | nil => intro m hm; exact hm
    | cons s ss ih => intro m hm; exact ih _ (hrs s.die s.ranges m hm)
  exact this ss [] (fun t ht => by cases ht)

/-- If no two subprograms have code in common, the output is only structures. -/
theorem clean_partial {D : Dwarf} {fdes : List Fde} {subps : List Subp} (ha : Apart subps) {out : List Item} (ho : run D subps fdes = some out) :
    .brace ∉ out := by
  unfold run at ho
  simp only [Option.map_eq_some_iff] at ho
  obtain ⟨o, hb, rfl⟩ := ho
  intro hm
  rcases List.mem_append.mp hm with hm | hm
  · unfold braces at hm
    obtain ⟨f, _, hm⟩ := List.mem_flatMap.mp hm
    obtain ⟨t, ht, hm⟩ := List.mem_flatMap.mp hm
    obtain ⟨m1, m2⟩ := subpMap_at subps
    obtain ⟨ht, _⟩ := visited_mem m1 ht
    split at hm
    · cases hm
    · rename_i hn
      have hlow := m1.low t ht
      have hall : ∀ x ∈ t.els, ∀ y ∈ t.els, x = y := by
        intro x hx y hy
        obtain ⟨s, hs, r, hr, k1, k2, rfl⟩ := (m2 t.lo x).mp ⟨t, ht, Nat.le_refl _, hlow.2.1, hx⟩
        obtain ⟨s', hs', r', hr', k1', k2', rfl⟩ := (m2 t.lo y).mp ⟨t, ht, Nat.le_refl _, hlow.2.1, hy⟩
        rw [ha s hs s' hs' t.lo ⟨r, hr, k1, k2⟩ ⟨r', hr', k1', k2'⟩]
      have hnd := subpMap_nodup subps t ht
      match he : t.els with
      | [] => exact hlow.2.2 he
      | [x] => exact hn (by rw [he]; rfl)
      | x :: y :: l =>
        rw [he] at hnd hall
        have := hall x (by simp) y (by simp)
        simp [this] at hnd
  · obtain ⟨_, i2⟩ := allItems_mem _ o hb
    obtain ⟨s, _, live, _, sg, _, h⟩ := (i2 _).mp hm
    cases h

/-! ## Completion -/

/-- Location lists without base address selections, in a unit with a base address; entries that cover less than a megabyte, and an entry for all
addresses is alone, in a subprogram of less than a megabyte in each range. -/
structure Fits (s : Subp) : Prop where
  base : ∀ v ∈ s.vars, ∀ l ∈ v.locs, l.lopc ≠ 2 ^ 64 - 1 ∧ l.lopc ≠ 2 ^ 32 - 1
  cu : ∃ cu, s.cuBase = some cu ∧ ∀ v ∈ s.vars, ∀ l ∈ v.locs, ¬ (l.lopc = 0 ∧ (l.hipc = 0 ∨ l.hipc = 2 ^ 64 - 1)) → l.hipc + cu < 2 ^ 64
  all : ∀ v ∈ s.vars, ∀ l ∈ v.locs, l.lopc = 0 ∧ (l.hipc = 0 ∨ l.hipc = 2 ^ 64 - 1) → v.locs = [l] ∧ ∀ r ∈ s.ranges, r.1 < r.2 ∧ r.2 - r.1 < 2 ^ 20
  small : ∀ v ∈ s.vars, ∀ l ∈ v.locs, ¬ (l.lopc = 0 ∧ (l.hipc = 0 ∨ l.hipc = 2 ^ 64 - 1)) → l.hipc - l.lopc < 2 ^ 20

theorem isAll_iff (l : Loc) : isAll l = true ↔ l.lopc = 0 ∧ (l.hipc = 0 ∨ l.hipc = 2 ^ 64 - 1) := by simp [isAll]

theorem entries_some {s : Subp} {cu : Nat} (hcu : s.cuBase = some cu) : ∀ (ls : List Loc) (k : Bool),
    (∀ l ∈ ls, l.lopc ≠ 2 ^ 64 - 1 ∧ l.lopc ≠ 2 ^ 32 - 1) → (∀ l ∈ ls, isAll l = false → l.hipc + cu < 2 ^ 64) →
    (∀ l ∈ ls, (isAll l = true → k = true ∧ ls = [l] ∧ s.ranges.all (fun r => sane r.1 r.2)) ∧ (isAll l = false → l.hipc - l.lopc < 2 ^ 20)) →
      ∃ es, entries s k ls = some es
  | [], k, _, _, _ => ⟨[], rfl⟩
  | l :: ls, k, hb, hw, hf => by
    have hbase : isBase l = false := by
      have := hb l (by simp)
      simp [isBase, this.1, this.2]
    rw [entries, if_neg (by simp [hbase])]
    by_cases ha : isAll l = true
    · obtain ⟨h1, h2, h3⟩ := (hf l (by simp)).1 ha
      simp only [List.cons.injEq, true_and] at h2
      have h4 := (isAll_iff l).mp ha
      rw [if_neg (by omega), if_neg (by omega), hcu]
      simp only
      rw [if_pos ha, if_pos ⟨h1, h2, h3⟩]
      exact ⟨_, rfl⟩
    · have ha' : isAll l = false := by simpa using ha
      obtain ⟨es, ih⟩ := entries_some hcu ls false (fun l hl => hb l (by simp [hl])) (fun l hl => hw l (by simp [hl])) (fun m hm => by
        refine ⟨fun hm' => ?_, (hf m (by simp [hm])).2⟩
        have h5 := ((hf m (by simp [hm])).1 hm').2.1
        simp only [List.cons.injEq] at h5
        rw [h5.2] at hm
        cases hm)
      have h6 := (hf l (by simp)).2 ha'
      have h7 := hw l (by simp) ha'
      split
      · exact ⟨es, ih⟩
      · split
        · exact ⟨es, ih⟩
        · rename_i n1 n2
          have n3 : l.lopc ≠ l.hipc := by
            intro h8
            exact ha ((isAll_iff l).mpr (by omega))
          have e1 : (l.lopc + cu) % 2 ^ 64 = l.lopc + cu := by rw [Nat.mod_eq_of_lt]; omega
          have e2 : (l.hipc + cu) % 2 ^ 64 = l.hipc + cu := by rw [Nat.mod_eq_of_lt]; omega
          rw [hcu]
          simp only
          rw [e1, e2, if_pos (by simp only [sane, Bool.and_eq_true, decide_eq_true_eq]; omega), ih]
          exact ⟨_, rfl⟩

theorem liveMap_some {s : Subp} (h : Fits s) : ∀ (vs : List Var) (m : List (Seg Live)), (∀ v ∈ vs, v ∈ s.vars) → ∃ live, liveMap s m vs = some live
  | [], m, _ => ⟨m, rfl⟩
  | v :: vs, m, hv => by
    obtain ⟨cu, h1, h2⟩ := h.cu
    have hv' := hv v (by simp)
    have hna : ∀ l, isAll l = false → ¬ (l.lopc = 0 ∧ (l.hipc = 0 ∨ l.hipc = 2 ^ 64 - 1)) := by
      intro l hl hc
      rw [(isAll_iff l).mpr hc] at hl
      cases hl
    obtain ⟨es, he⟩ := entries_some h1 v.locs true (h.base v hv') (fun l hl ha => h2 v hv' l hl (hna l ha)) (fun l hl => by
      refine ⟨fun ha => ?_, fun ha => h.small v hv' l hl (hna l ha)⟩
      have hh := h.all v hv' l hl ((isAll_iff l).mp ha)
      refine ⟨rfl, hh.1, ?_⟩
      simp only [List.all_eq_true, sane, Bool.and_eq_true, decide_eq_true_eq]
      exact hh.2)
    rw [liveMap, he]
    exact liveMap_some h vs _ (fun w hw => hv w (by simp [hw]))

theorem dedup_sub : ∀ (l : List Subp) (seen : List Nat), ∀ s ∈ dedup l seen, s ∈ l
  | [], _, s, h => by cases h
  | t :: r, seen, s, h => by
    rw [dedup] at h
    split at h
    · exact List.mem_cons_of_mem _ (dedup_sub r seen s h)
    · rcases List.mem_cons.mp h with rfl | h
      · simp
      · exact List.mem_cons_of_mem _ (dedup_sub r _ s h)

/-- For such files the tool writes its output. -/
theorem total_partial (D : Dwarf) (fdes : List Fde) {subps : List Subp} (h : ∀ s ∈ subps, Fits s) : ∃ out, run D subps fdes = some out := by
  have : ∀ l : List Subp, (∀ s ∈ l, s ∈ subps) → ∃ out, allItems D (subpMap subps) fdes l = some out := by
    intro l
    induction l with
    | nil => intro _; exact ⟨[], rfl⟩
    | cons s l ih =>
      intro hl
      obtain ⟨b, hb⟩ := ih (fun t ht => hl t (by simp [ht]))
      obtain ⟨live, ha⟩ := liveMap_some (h s (hl s (by simp))) s.vars [] (fun _ h => h)
      exact ⟨(((fdesOf (subpMap subps) fdes s.die).foldl (putFde D) (varMap D live)).map (.ptrs s.die)) ++ b, by
        rw [allItems, hb]; simp only [subpItems, ha]⟩
  obtain ⟨o, ho⟩ := this (dedup subps []) (fun s hs => dedup_sub subps [] s hs)
  exact ⟨_, by rw [run, ho]; rfl⟩

/-! ## Cases -/

def exD : Dwarf where
  place e := if e < 32 then .reg e else if e < 1000 then .other else if e < 3000 then .cfa ((e : Int) - 2000) else .fb ((e : Int) - 4000)
  base _ _ := 0
  junk _ := 0

/-- A pointer that is in rbx and then on the stack, an integer, and another pointer. -/
def exS : Subp :=
  ⟨1, 1, some 4096, [(4096, 4160)], [⟨2, true, true, [⟨0, 16, 3⟩, ⟨16, 64, 1976⟩]⟩, ⟨3, false, true, [⟨0, 0, 1960⟩]⟩, ⟨4, true, true, [⟨0, 0, 3968⟩]⟩]⟩

/-- rbp is saved by the first instruction. -/
def exF : Fde := ⟨4096, 4160, [⟨4096, 4097, [(16, .atCfa (-8))]⟩, ⟨4097, 4160, [(6, .atCfa (-16)), (16, .atCfa (-8))]⟩]⟩

def exOut : List Item :=
  [.ptrs 1 ⟨4096, 4112, [⟨⟨-1, -32⟩, .var 4⟩, ⟨⟨-1, -16⟩, .reg 6⟩, ⟨⟨3, 0⟩, .var 2⟩]⟩,
   .ptrs 1 ⟨4112, 4160, [⟨⟨-1, -32⟩, .var 4⟩, ⟨⟨-1, -24⟩, .var 2⟩, ⟨⟨-1, -16⟩, .reg 6⟩]⟩]

theorem case_run : run exD [exS] [exF] = some exOut := by decide +kernel

theorem ex_tidy : Tidy exD [exF] [exS] := by
  refine ⟨fun s hs => ?_, by simp, fun s hs t ht _ => ?_⟩
  · simp at hs; subst hs
    refine ⟨?_, ?_, ?_, ?_, ?_⟩
    · intro cu hcu v hv l hl ha
      simp [exS] at hcu hv
      subst hcu
      rcases hv with rfl | rfl | rfl <;> simp at hl
      · rcases hl with rfl | rfl <;> decide
      · subst hl; simp [isAll] at ha
      · subst hl; simp [isAll] at ha
    · intro v hv w hw h
      simp [exS] at hv hw
      rcases hv with rfl | rfl | rfl <;> rcases hw with rfl | rfl | rfl <;> simp at h ⊢
    · intro v hv h
      simp [exS] at hv
      rcases hv with rfl | rfl | rfl <;> simp at h ⊢
    · intro v hv hp l hl off h pc _
      rfl
    · intro v hv hp l hl w hw f hf _ r hr d hd hpr
      simp at hf; subst hf
      simp [exF] at hr
      rcases hr with rfl | rfl <;> simp at hd
      · subst hd; simp [Preserved] at hpr
      · rcases hd with rfl | rfl
        · simp [exS] at hv
          rcases hv with rfl | rfl | rfl <;> simp at hl hp
          · rcases hl with rfl | rfl <;> simp [exD, store] at hw <;> subst hw <;> simp [saved]
          · subst hl; simp [exD, store] at hw; subst hw; simp [saved]
        · simp [Preserved] at hpr
  · simp at hs ht; rw [hs, ht]

theorem ex_apart : Apart [exS] := by
  intro s hs t ht _ _ _
  simp at hs ht
  rw [hs, ht]

/-- At 4096 the pointer is in rbx, at 4120 on the stack; the integer is not told of. -/
theorem case_vars : Told exOut 4096 (.var 2) (.reg 3) ∧ Told exOut 4120 (.var 2) (.stack (-24)) ∧ Told exOut 4120 (.reg 6) (.stack (-16)) ∧
    ¬ Told exOut 4096 (.var 2) (.stack (-24)) ∧ ∀ w, ¬ Told exOut 4120 (.var 3) w := by
  refine ⟨⟨1, _, by simp [exOut]; exact Or.inl rfl, by decide, by decide, ⟨⟨3, 0⟩, .var 2⟩, by simp, rfl, rfl⟩,
    ⟨1, _, by simp [exOut]; exact Or.inr rfl, by decide, by decide, ⟨⟨-1, -24⟩, .var 2⟩, by simp, rfl, rfl⟩,
    ⟨1, _, by simp [exOut]; exact Or.inr rfl, by decide, by decide, ⟨⟨-1, -16⟩, .reg 6⟩, by simp, rfl, rfl⟩, ?_, ?_⟩
  · rintro ⟨d, sg, h, h1, h2, e, he, h3, h4⟩
    simp [exOut] at h
    rcases h with ⟨rfl, rfl⟩ | ⟨rfl, rfl⟩
    · simp at he
      rcases he with rfl | rfl | rfl <;> simp [shown] at h3 h4
    · simp at h1
  · rintro w ⟨d, sg, h, h1, h2, e, he, h3, h4⟩
    simp [exOut] at h
    rcases h with ⟨rfl, rfl⟩ | ⟨rfl, rfl⟩
    · simp at h2
    · simp at he
      rcases he with rfl | rfl | rfl <;> simp at h3

/-- Finding: at a function's first instruction, before rbp is saved, it is told that rbp is saved (tools/dumpptrs.cpp:931-937 use the FDE's interval
where the row's is meant). -/
theorem entry_fails : ∃ (D : Dwarf) (subps : List Subp) (fdes : List Fde) (out : List Item), Tidy D fdes subps ∧ Apart subps ∧
    run D subps fdes = some out ∧ Told out 4096 (.reg 6) (.stack (-16)) ∧
    ∀ f ∈ fdes, ∀ r ∈ f.rows, r.lo ≤ 4096 → 4096 < r.hi → ∀ w, ¬ RowSays r 6 w := by
  refine ⟨exD, [exS], [exF], exOut, ex_tidy, ex_apart, case_run,
    ⟨1, _, by simp [exOut]; exact Or.inl rfl, by decide, by decide, ⟨⟨-1, -16⟩, .reg 6⟩, by simp, rfl, rfl⟩, ?_⟩
  intro f hf r hr h1 h2 w
  simp at hf; subst hf
  simp [exF] at hr
  rcases hr with rfl | rfl
  · rintro ⟨d, hd, _⟩
    simp at hd
  · simp at h1

/-- Nothing is told of a register or variable that no element has. -/
theorem not_told {out : List Item} {pc : Nat} {who : Who} (h : ∀ i ∈ out, match i with
    | .ptrs _ sg => sg.lo ≤ pc → pc < sg.hi → ∀ e ∈ sg.els, e.who ≠ who
    | .brace => True) (w : Where) : ¬ Told out pc who w := by
  rintro ⟨d, sg, hm, h1, h2, e, he, h3, _⟩
  exact h _ hm h1 h2 e he h3

/-- Finding: a pointer variable where a register is saved hides the register (tools/dumpptrs.cpp:289-294 order neither before the other, so a set takes
them for the same). -/
theorem shared_fails : ∃ (D : Dwarf) (subps : List Subp) (fdes : List Fde) (out : List Item), run D subps fdes = some out ∧
    (∃ f ∈ fdes, f.lo ≤ 4120 ∧ 4120 < f.hi ∧ (∃ s ∈ subps, InRanges s f.lo) ∧ ∃ r ∈ f.rows, r.lo ≤ 4120 ∧ 4120 < r.hi ∧ RowSays r 6 (.stack (-16))) ∧
    ∀ w, ¬ Told out 4120 (.reg 6) w := by
  refine ⟨exD, [⟨1, 1, some 4096, [(4096, 4160)], [⟨2, true, true, [⟨16, 64, 1984⟩]⟩]⟩], [exF],
    [.ptrs 1 ⟨4096, 4112, [⟨⟨-1, -16⟩, .reg 6⟩]⟩, .ptrs 1 ⟨4112, 4160, [⟨⟨-1, -16⟩, .var 2⟩]⟩], by decide +kernel,
    ⟨exF, by simp, by decide, by decide, ⟨_, List.mem_singleton.mpr rfl, (4096, 4160), by simp, by decide, by decide⟩,
      ⟨4097, 4160, [(6, .atCfa (-16)), (16, .atCfa (-8))]⟩, by simp [exF], by decide, by decide, _, by simp, .atCfa _⟩, not_told ?_⟩
  intro i hi
  simp at hi
  rcases hi with rfl | rfl <;> simp

/-- Finding: what is written may depend on an uninitialised member (tools/dumpptrs.cpp:298, 305-306): a variable that is where a register was saved in the
interval before may not be told of. -/
theorem junk_fails : ∃ (D D' : Dwarf) (subps : List Subp) (fdes : List Fde) (out out' : List Item), D.place = D'.place ∧ D.base = D'.base ∧
    run D subps fdes = some out ∧ run D' subps fdes = some out' ∧ Told out 4120 (.var 2) (.stack (-16)) ∧ ∀ w, ¬ Told out' 4120 (.var 2) w := by
  refine ⟨exD, { exD with junk := fun _ => 6 }, [⟨1, 1, some 4096, [(4096, 4160)], [⟨2, true, true, [⟨16, 64, 1984⟩]⟩]⟩],
    [⟨4096, 4112, [⟨4096, 4112, [(6, .atCfa (-16))]⟩]⟩],
    [.ptrs 1 ⟨4096, 4112, [⟨⟨-1, -16⟩, .reg 6⟩]⟩, .ptrs 1 ⟨4112, 4160, [⟨⟨-1, -16⟩, .var 2⟩]⟩],
    [.ptrs 1 ⟨4096, 4160, [⟨⟨-1, -16⟩, .reg 6⟩]⟩], rfl, rfl, by decide +kernel, by decide +kernel,
    ⟨1, _, by simp; exact Or.inr rfl, by decide, by decide, ⟨⟨-1, -16⟩, .var 2⟩, by simp, rfl, rfl⟩, not_told ?_⟩
  intro i hi
  simp at hi
  subst hi
  simp

/-- Finding: a pointer variable that has its type from its abstract origin, as in inlined functions, is taken not to be a pointer (tools/dumpptrs.cpp:445
asks for the DIE's own attribute). -/
theorem origin_fails : ∃ (D : Dwarf) (subps : List Subp) (out : List Item) (s : Subp) (v : Var), s ∈ subps ∧ run D subps [] = some out ∧
    Keeps D s 4120 v (.stack (-24)) ∧ ∀ w, ¬ Told out 4120 (.var v.die) w := by
  refine ⟨exD, _, [], ⟨1, 1, some 4096, [(4096, 4160)], [⟨2, true, false, [⟨0, 0, 1976⟩]⟩]⟩, ⟨2, true, false, [⟨0, 0, 1976⟩]⟩, List.mem_singleton.mpr rfl,
    by decide +kernel, ⟨by simp, rfl, _, List.mem_singleton.mpr rfl, .all rfl (Or.inl rfl) ⟨(4096, 4160), by simp, by decide, by decide⟩, ?_⟩,
    not_told (by simp)⟩
  exact .cfa (-24)

/-- Finding: an offset from a frame base that is not the CFA is written as one from the CFA (tools/dumpptrs.cpp:758-764, 800-804). -/
theorem base_fails : ∃ (D : Dwarf) (subps : List Subp) (out : List Item) (s : Subp) (v : Var), s ∈ subps ∧ run D subps [] = some out ∧
    Told out 4120 (.var v.die) (.stack (-8)) ∧ Keeps D s 4120 v (.stack (-24)) := by
  refine ⟨{ exD with base := fun _ _ => -16 }, _, [.ptrs 1 ⟨4096, 4160, [⟨⟨-1, -8⟩, .var 2⟩]⟩],
    ⟨1, 1, some 4096, [(4096, 4160)], [⟨2, true, true, [⟨0, 0, 3992⟩]⟩]⟩, ⟨2, true, true, [⟨0, 0, 3992⟩]⟩, List.mem_singleton.mpr rfl,
    by decide +kernel, ⟨1, _, List.mem_singleton.mpr rfl, by decide, by decide, ⟨⟨-1, -8⟩, .var 2⟩, by simp, rfl, rfl⟩,
    ⟨by simp, rfl, _, List.mem_singleton.mpr rfl, .all rfl (Or.inl rfl) ⟨(4096, 4160), by simp, by decide, by decide⟩, ?_⟩⟩
  exact .fb (-8)

/-- Finding: of subprograms with the same name, source file and directory, such as copies of a function in a header, only the first is told of
(tools/dumpptrs.cpp:198-215). -/
theorem twin_fails : ∃ (D : Dwarf) (s t : Subp) (out : List Item) (v : Var), s.key = t.key ∧ run D [s, t] [] = some out ∧
    Keeps D t 4200 v (.stack (-24)) ∧ ∀ w, ¬ Told out 4200 (.var v.die) w := by
  refine ⟨exD, ⟨1, 1, some 4096, [(4096, 4160)], [⟨2, true, true, [⟨0, 0, 1976⟩]⟩]⟩, ⟨5, 1, some 4160, [(4160, 4224)], [⟨6, true, true, [⟨0, 0, 1976⟩]⟩]⟩,
    [.ptrs 1 ⟨4096, 4160, [⟨⟨-1, -24⟩, .var 2⟩]⟩], ⟨6, true, true, [⟨0, 0, 1976⟩]⟩, rfl,
    by decide +kernel, ⟨by simp, rfl, _, List.mem_singleton.mpr rfl, .all rfl (Or.inl rfl) ⟨(4160, 4224), by simp, by decide, by decide⟩, ?_⟩, not_told ?_⟩
  · exact .cfa (-24)
  · intro i hi
    simp at hi
    subst hi
    simp

/-- Finding: an FDE that begins before the first subprogram in it is passed over (tools/dumpptrs.cpp:357 finds no segment with its first address). -/
theorem before_fails : ∃ (D : Dwarf) (s : Subp) (f : Fde) (out : List Item), run D [s] [f] = some out ∧ InRanges s 4120 ∧ f.lo ≤ 4120 ∧ 4120 < f.hi ∧
    (∃ r ∈ f.rows, r.lo ≤ 4120 ∧ 4120 < r.hi ∧ RowSays r 6 (.stack (-16))) ∧ ∀ w, ¬ Told out 4120 (.reg 6) w := by
  refine ⟨exD, ⟨1, 1, some 4096, [(4100, 4160)], []⟩, exF, [], by decide +kernel, ⟨(4100, 4160), by simp, by decide, by decide⟩, by decide, by decide,
    ⟨⟨4097, 4160, [(6, .atCfa (-16)), (16, .atCfa (-8))]⟩, by simp [exF], by decide, by decide, _, by simp, .atCfa _⟩, not_told (by simp)⟩

/-- Finding: where two subprograms have code in common, a closing brace is written before the declarations, so that the output is no C (tools/dumpptrs.cpp:381
writes to the standard output what belongs to a message). -/
theorem brace_fails : ∃ (D : Dwarf) (s t : Subp) (f : Fde) (out : List Item), s.die ≠ t.die ∧ run D [s, t] [f] = some out ∧ .brace ∈ out := by
  refine ⟨exD, ⟨1, 1, some 4096, [(4096, 4160)], []⟩, ⟨5, 2, some 4096, [(4096, 4160)], []⟩, exF, _, by decide, rfl, by decide +kernel⟩

/-- Base address selections, intervals of a megabyte and units without a base address stop the tool (tools/dumpptrs.cpp:501-506, 521, 568, 593). -/
theorem stops_aborts (D : Dwarf) : run D [⟨1, 1, some 4096, [(4096, 4160)], [⟨2, true, true, [⟨2 ^ 64 - 1, 4096, 3⟩, ⟨0, 16, 3⟩]⟩]⟩] [] = none ∧
    run D [⟨1, 1, some 4096, [(4096, 4096 + 2 ^ 20)], [⟨2, true, true, [⟨0, 0, 3⟩]⟩]⟩] [] = none ∧
    run D [⟨1, 1, none, [(4096, 4160)], [⟨2, true, true, [⟨0, 0, 3⟩]⟩]⟩] [] = none := by
  refine ⟨by rfl, by rfl, by rfl⟩

end Liballocs.DumpPtrs
