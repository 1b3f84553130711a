import Verif.Proofs.FrameTypes
import Verif.Model.DumpPtrs
/-!
# Interval maps of stored pointers
-/
namespace Liballocs.DumpPtrs

open FrameTypes (Loc Seg add join glue isBase isAll sane At Dom From At_nil At_cons addj)

/-! ## Joining -/

theorem glue_els {α : Type} (f : List α → List α → Bool) (s : Seg α) (m : List (Seg α)) : ∀ t ∈ glue f s m, ∃ u ∈ s :: m, t.els = u.els := by
  intro t ht
  cases m with
  | nil => exact ⟨t, ht, rfl⟩
  | cons u m =>
    rw [show glue f s (u :: m) = (if decide (s.hi = u.lo) && f s.els u.els then ⟨s.lo, u.hi, s.els⟩ :: m else s :: u :: m) from rfl] at ht
    split at ht
    · rcases List.mem_cons.mp ht with rfl | ht
      · exact ⟨s, by simp, rfl⟩
      · exact ⟨t, by simp [ht], rfl⟩
    · exact ⟨t, ht, rfl⟩

theorem join_els {α : Type} (f : List α → List α → Bool) : ∀ (m : List (Seg α)), ∀ t ∈ join f m, ∃ u ∈ m, t.els = u.els
  | [], t, ht => by cases ht
  | s :: m, t, ht => by
    obtain ⟨u, hu, h⟩ := glue_els f s _ t ht
    rcases List.mem_cons.mp hu with rfl | hu
    · exact ⟨u, by simp, h⟩
    · obtain ⟨w, hw, h'⟩ := join_els f m u hu
      exact ⟨w, by simp [hw], h.trans h'⟩

theorem glue_congr {α : Type} (f g : List α → List α → Bool) (s : Seg α) (m : List (Seg α)) (h : ∀ t ∈ m, f s.els t.els = g s.els t.els) :
    glue f s m = glue g s m := by
  cases m with
  | nil => rfl
  | cons t m => simp only [glue, h t (by simp)]

theorem join_congr {α : Type} (f g : List α → List α → Bool) : ∀ (m : List (Seg α)), (∀ s ∈ m, ∀ t ∈ m, f s.els t.els = g s.els t.els) →
    join f m = join g m
  | [], _ => rfl
  | s :: m, h => by
    unfold join
    rw [join_congr f g m (fun a ha b hb => h a (by simp [ha]) b (by simp [hb]))]
    apply glue_congr
    intro t ht
    obtain ⟨u, hu, he⟩ := join_els g m t ht
    rw [he]
    exact h s (by simp) u (by simp [hu])

/-! ## Sets of elements -/

/-- No variable and register of the caller at the same place. -/
def Clear (U : El → Prop) : Prop := ∀ x y, U x → U y → x.loc = y.loc → ∀ d c, x.who = .var d → y.who = .reg c → False

theorem storeLt_iff (a b : Store) : storeLt a b = true ↔ a.reg < b.reg ∨ (a.reg = b.reg ∧ a.off < b.off) := by simp [storeLt]

theorem store_total {a b : Store} (h1 : storeLt a b = false) (h2 : storeLt b a = false) : a = b := by
  have h1' : ¬ (storeLt a b = true) := by simp [h1]
  have h2' : ¬ (storeLt b a = true) := by simp [h2]
  rw [storeLt_iff] at h1' h2'
  cases a; cases b
  simp only [Store.mk.injEq] at *
  omega

theorem elEquiv {U : El → Prop} (hc : Clear U) {x y : El} (hx : U x) (hy : U y) (h1 : elLt x y = false) (h2 : elLt y x = false) : y = x := by
  simp only [elLt, Bool.or_eq_false_iff] at h1 h2
  have hl := store_total h1.1 h2.1
  obtain ⟨lx, wx⟩ := x
  obtain ⟨ly, wy⟩ := y
  simp only at hl
  subst hl
  simp only [decide_true, Bool.true_and] at h1 h2
  cases wx <;> cases wy
  · simp only [whoLt, decide_eq_false_iff_not] at h1 h2
    congr; omega
  · exact (hc _ _ hx hy rfl _ _ rfl rfl).elim
  · exact (hc _ _ hy hx rfl _ _ rfl rfl).elim
  · simp only [whoLt, decide_eq_false_iff_not] at h1 h2
    congr; omega

theorem elEq_iff {D : Dwarf} {U : El → Prop} (hc : Clear U) {x y : El} (hx : U x) (hy : U y) : elEq D x y = true ↔ x = y := by
  obtain ⟨lx, wx⟩ := x
  obtain ⟨ly, wy⟩ := y
  simp only [elEq, Bool.and_eq_true, decide_eq_true_eq, El.mk.injEq]
  refine and_congr_right fun hl => ?_
  subst hl
  cases wx <;> cases wy
  · simp [whoEq]
  · simp [whoEq]
  · simp only [whoEq, decide_eq_true_eq, reduceCtorEq, iff_false]
    exact fun _ => hc _ _ hy hx rfl _ _ rfl rfl
  · simp [whoEq]

theorem same_iff {D : Dwarf} {U : El → Prop} (hc : Clear U) : ∀ (a b : List El), (∀ x ∈ a, U x) → (∀ x ∈ b, U x) → (same D a b = true ↔ a = b)
  | [], [], _, _ => by simp [same]
  | [], _ :: _, _, _ => by simp [same]
  | _ :: _, [], _, _ => by simp [same]
  | x :: a, y :: b, ha, hb => by
    rw [same, Bool.and_eq_true, elEq_iff hc (ha x (by simp)) (hb y (by simp)),
      same_iff hc a b (fun z hz => ha z (by simp [hz])) (fun z hz => hb z (by simp [hz]))]
    simp

theorem insEl_old (x y : El) : ∀ l : List El, y ∈ l → y ∈ insEl x l
  | [], h => by cases h
  | z :: l, h => by
    unfold insEl
    split
    · simp [h]
    · split
      · rcases List.mem_cons.mp h with rfl | h
        · simp
        · simp [insEl_old x y l h]
      · exact h

theorem insEl_new (x y : El) : ∀ l : List El, y ∈ insEl x l → y = x ∨ y ∈ l
  | [], h => by simp [insEl] at h; exact Or.inl h
  | z :: l, h => by
    unfold insEl at h
    split at h
    · simp at h; simp; exact h
    · split at h
      · rcases List.mem_cons.mp h with rfl | h
        · exact Or.inr (by simp)
        · rcases insEl_new x y l h with h | h
          · exact Or.inl h
          · exact Or.inr (by simp [h])
      · exact Or.inr h

theorem elLt_irrefl (x : El) : elLt x x = false := by
  obtain ⟨l, w⟩ := x
  cases w <;> simp [elLt, storeLt, whoLt]

theorem insEl_key (x : El) : ∀ l : List El, ∃ y ∈ insEl x l, elLt x y = false ∧ elLt y x = false
  | [] => ⟨x, by simp [insEl], elLt_irrefl x, elLt_irrefl x⟩
  | z :: l => by
    unfold insEl
    split
    · exact ⟨x, by simp, elLt_irrefl x, elLt_irrefl x⟩
    · split
      · obtain ⟨y, hy, h⟩ := insEl_key x l
        exact ⟨y, by simp [hy], h⟩
      · rename_i h1 h2
        exact ⟨z, by simp, by simpa using h1, by simpa using h2⟩

/-- Putting an element into the map. -/
theorem put_at {D : Dwarf} {U : El → Prop} (hc : Clear U) {m : List (Seg El)} (hf : From 0 m) (hu : ∀ pc y, At m pc y → U y) {x : El} (hx : U x)
    (lo hi : Nat) :
    From 0 (put D m lo hi x) ∧ ∀ pc y, At (put D m lo hi x) pc y ↔ At m pc y ∨ (lo ≤ pc ∧ pc < hi ∧ y = x) := by
  unfold put
  split
  · rename_i hlt
    have hne : ∀ l : List El, insEl x l ≠ [] := by
      intro l he
      obtain ⟨y, hy, _⟩ := insEl_key x l
      rw [he] at hy
      cases hy
    have hfa := FrameTypes.From_add insEl x hne m 0 lo hi (by omega) (Or.inl hlt) hf
    have hall : ∀ t ∈ add insEl x m lo hi, ∀ y ∈ t.els, U y := by
      intro t ht y hy
      rcases (FrameTypes.add_at insEl x (fun l y => insEl_new x y l) (fun l y => insEl_old x y l) m 0 lo hi hf t.lo y).1
        ⟨t, ht, Nat.le_refl _, (hfa.low t ht).2.1, hy⟩ with h | h
      · exact hu _ y h
      · rw [h.2.2]; exact hx
    have hj : join (same D) (add insEl x m lo hi) = join (fun a b => decide (a = b)) (add insEl x m lo hi) := by
      apply join_congr
      intro s hs t ht
      rw [Bool.eq_iff_iff, same_iff hc _ _ (hall s hs) (hall t ht)]
      simp
    rw [hj]
    exact addj (U := U) (P := fun y => elLt x y = false ∧ elLt y x = false) (fun l y => insEl_new x y l) (fun l y => insEl_old x y l)
      (fun l => insEl_key x l) (fun y hy hp => elEquiv hc hx hy hp.1 hp.2) hx (fun a b hab z => by simp at hab; rw [hab]) hlt hf hu
  · rename_i hlt
    refine ⟨hf, fun pc y => ?_⟩
    constructor
    · exact Or.inl
    · rintro (h | h)
      · exact h
      · omega

/-- Putting many. -/
def puts (D : Dwarf) (m : List (Seg El)) (q : List (Nat × Nat × El)) : List (Seg El) := q.foldl (fun m t => put D m t.1 t.2.1 t.2.2) m

theorem puts_at {D : Dwarf} {U : El → Prop} (hc : Clear U) : ∀ (q : List (Nat × Nat × El)) (m : List (Seg El)), From 0 m → (∀ pc y, At m pc y → U y) →
    (∀ t ∈ q, U t.2.2) →
    From 0 (puts D m q) ∧ ∀ pc y, At (puts D m q) pc y ↔ At m pc y ∨ ∃ t ∈ q, t.1 ≤ pc ∧ pc < t.2.1 ∧ y = t.2.2
  | [], m, hf, _, _ => ⟨hf, fun pc y => by simp [puts]⟩
  | t :: q, m, hf, hu, hq => by
    obtain ⟨h1, h2⟩ := put_at (D := D) hc hf hu (hq t (by simp)) t.1 t.2.1
    have hu' : ∀ pc y, At (put D m t.1 t.2.1 t.2.2) pc y → U y := by
      intro pc y hy
      rcases (h2 pc y).mp hy with h | h
      · exact hu pc y h
      · rw [h.2.2]; exact hq t (by simp)
    obtain ⟨h3, h4⟩ := puts_at hc q _ h1 hu' (fun t ht => hq t (by simp [ht]))
    refine ⟨h3, fun pc y => ?_⟩
    show At (puts D (put D m t.1 t.2.1 t.2.2) q) pc y ↔ _
    rw [h4, h2]
    simp only [List.mem_cons, exists_eq_or_imp, or_assoc]

/-! ## The elements put -/

/-- Of the variables. -/
def varPuts (D : Dwarf) (live : List (Seg Live)) : List (Nat × Nat × El) :=
  live.flatMap fun s => s.els.filterMap fun x => (element D x).map fun e => (s.lo, s.hi, e)

theorem varMap_eq (D : Dwarf) (live : List (Seg Live)) : varMap D live = puts D [] (varPuts D live) := by
  unfold varMap puts varPuts
  rw [List.foldl_flatMap]
  congr 1
  funext m s
  rw [List.foldl_filterMap]
  congr 1
  funext m x
  unfold putLive
  cases element D x <;> rfl

/-- Of an FDE. -/
def fdePuts (f : Fde) : List (Nat × Nat × El) :=
  f.rows.flatMap fun r => r.defs.filterMap fun d => if calleeSave d.1 then (saved d.2).map fun w => (f.lo, f.hi, ⟨w, .reg d.1⟩) else none

theorem putFde_eq (D : Dwarf) (m : List (Seg El)) (f : Fde) : putFde D m f = puts D m (fdePuts f) := by
  unfold putFde puts fdePuts
  rw [List.foldl_flatMap]
  congr 1
  funext m r
  rw [List.foldl_filterMap]
  congr 1
  funext m d
  unfold putDef
  cases calleeSave d.1 <;> cases saved d.2 <;> rfl

theorem putFdes_eq (D : Dwarf) : ∀ (fs : List Fde) (m : List (Seg El)), fs.foldl (putFde D) m = puts D m (fs.flatMap fdePuts)
  | [], m => rfl
  | f :: fs, m => by
    rw [List.foldl_cons, putFdes_eq D fs, putFde_eq, List.flatMap_cons]
    unfold puts
    rw [List.foldl_append]

/-! ## Subprograms' ranges -/

theorem addRange_at (die : Nat) {m : List (Seg Nat)} (hf : From 0 m) (r : Nat × Nat) :
    From 0 (addRange die m r) ∧ ∀ pc y, At (addRange die m r) pc y ↔ At m pc y ∨ (r.1 ≤ pc ∧ pc < r.2 ∧ y = die) := by
  unfold addRange
  split
  · rename_i hlt
    refine addj (U := fun _ => True) (P := fun y => y = die) (fun l y h => ?_) (fun l y h => ?_) (fun l => ⟨die, ?_, rfl⟩) (fun y _ h => h) trivial
      (fun a b hab x => ?_) hlt hf (fun _ _ _ => trivial)
    · unfold insDie at h
      split at h
      · exact Or.inr h
      · simp at h; exact h.symm
    · unfold insDie
      split
      · exact h
      · simp [h]
    · unfold insDie
      split
      · assumption
      · simp
    · simp only [sameDies, Bool.and_eq_true, List.all_eq_true, decide_eq_true_eq] at hab
      exact ⟨hab.1 x, hab.2 x⟩
  · rename_i hlt
    refine ⟨hf, fun pc y => ⟨Or.inl, ?_⟩⟩
    rintro (h | h)
    · exact h
    · omega

theorem addRanges_at (die : Nat) : ∀ (rs : List (Nat × Nat)) (m : List (Seg Nat)), From 0 m →
    From 0 (rs.foldl (addRange die) m) ∧ ∀ pc y, At (rs.foldl (addRange die) m) pc y ↔ At m pc y ∨ ∃ r ∈ rs, r.1 ≤ pc ∧ pc < r.2 ∧ y = die
  | [], m, hf => ⟨hf, fun pc y => by simp⟩
  | r :: rs, m, hf => by
    obtain ⟨h1, h2⟩ := addRange_at die hf r
    obtain ⟨h3, h4⟩ := addRanges_at die rs _ h1
    refine ⟨h3, fun pc y => ?_⟩
    rw [List.foldl_cons, h4, h2]
    simp only [List.mem_cons, exists_eq_or_imp, or_assoc]

theorem subpMap_from : ∀ (ss : List Subp) (m : List (Seg Nat)), From 0 m →
    From 0 (ss.foldl (fun m s => s.ranges.foldl (addRange s.die) m) m) ∧
      ∀ pc y, At (ss.foldl (fun m s => s.ranges.foldl (addRange s.die) m) m) pc y ↔
        At m pc y ∨ ∃ s ∈ ss, ∃ r ∈ s.ranges, r.1 ≤ pc ∧ pc < r.2 ∧ y = s.die
  | [], m, hf => ⟨hf, fun pc y => by simp⟩
  | s :: ss, m, hf => by
    obtain ⟨h1, h2⟩ := addRanges_at s.die s.ranges m hf
    obtain ⟨h3, h4⟩ := subpMap_from ss _ h1
    refine ⟨h3, fun pc y => ?_⟩
    rw [List.foldl_cons, h4, h2]
    simp only [List.mem_cons, exists_eq_or_imp, or_assoc]

theorem subpMap_at (ss : List Subp) : From 0 (subpMap ss) ∧
    ∀ pc y, At (subpMap ss) pc y ↔ ∃ s ∈ ss, ∃ r ∈ s.ranges, r.1 ≤ pc ∧ pc < r.2 ∧ y = s.die := by
  obtain ⟨h1, h2⟩ := subpMap_from ss [] .nil
  exact ⟨h1, fun pc y => (h2 pc y).trans (by simp [At_nil])⟩

/-! ## The segments visited for an FDE -/

theorem dropWhile_mem {α : Type} (p : α → Bool) : ∀ (l : List α) (x : α), x ∈ l.dropWhile p → x ∈ l
  | [], x, h => by simp at h
  | a :: l, x, h => by
    rw [List.dropWhile_cons] at h
    split at h
    · exact List.mem_cons_of_mem _ (dropWhile_mem p l x h)
    · exact h

theorem takeWhile_mem {α : Type} (p : α → Bool) : ∀ (l : List α) (x : α), x ∈ l.takeWhile p → x ∈ l ∧ p x = true
  | [], x, h => by simp at h
  | a :: l, x, h => by
    rw [List.takeWhile_cons] at h
    split at h
    · rename_i hp
      rcases List.mem_cons.mp h with rfl | h
      · exact ⟨by simp, hp⟩
      · have := takeWhile_mem p l x h
        exact ⟨by simp [this.1], this.2⟩
    · cases h

/-- From the segment that has the first address on. -/
theorem drop_spec {α : Type} {lo : Nat} : ∀ {m : List (Seg α)} {b : Nat}, From b m →
    ∀ t ∈ m.dropWhile (fun s => !(decide (s.lo ≤ lo) && decide (lo < s.hi))),
      lo < t.hi ∧ ∃ u us, m.dropWhile (fun s => !(decide (s.lo ≤ lo) && decide (lo < s.hi))) = u :: us ∧ u ∈ m ∧ u.lo ≤ lo ∧ lo < u.hi
  | [], _, _, t, ht => by simp at ht
  | s :: m, b, h, t, ht => by
    cases h with
    | cons g1 g2 g3 g4 =>
      rw [List.dropWhile_cons] at ht ⊢
      split at ht
      · rename_i hc
        rw [if_pos hc]
        obtain ⟨h1, u, us, h2, h3, h4⟩ := drop_spec g4 t ht
        exact ⟨h1, u, us, h2, by simp [h3], h4⟩
      · rename_i hc
        rw [if_neg hc]
        simp at hc
        refine ⟨?_, s, m, rfl, by simp, hc.1, hc.2⟩
        rcases List.mem_cons.mp ht with rfl | ht
        · exact hc.2
        · have := g4.low t ht
          omega

theorem drop_found {α : Type} {lo : Nat} : ∀ {m : List (Seg α)} {b : Nat}, From b m → ∀ t ∈ m, t.lo ≤ lo → lo < t.hi →
    ∃ us, m.dropWhile (fun s => !(decide (s.lo ≤ lo) && decide (lo < s.hi))) = t :: us
  | [], _, _, t, ht, _, _ => by cases ht
  | s :: m, b, h, t, ht, h1, h2 => by
    cases h with
    | cons g1 g2 g3 g4 =>
      rw [List.dropWhile_cons]
      rcases List.mem_cons.mp ht with rfl | ht
      · exact ⟨m, by rw [if_neg (by simp [h1, h2])]⟩
      · have := g4.low t ht
        rw [if_pos (by simp; omega)]
        exact drop_found g4 t ht h1 h2

theorem visited_mem {m : List (Seg Nat)} (hf : From 0 m) {f : Fde} {t : Seg Nat} (ht : t ∈ visited m f) :
    t ∈ m ∧ f.lo < t.hi ∧ t.lo < f.hi ∧ ∃ u ∈ m, u.lo ≤ f.lo ∧ f.lo < u.hi := by
  obtain ⟨h1, h2⟩ := takeWhile_mem _ _ t ht
  obtain ⟨h3, u, us, _, h5, h6⟩ := drop_spec hf t h1
  exact ⟨dropWhile_mem _ _ t h1, h3, by simpa using h2, u, h5, h6⟩

theorem visited_first {m : List (Seg Nat)} (hf : From 0 m) {f : Fde} (hlt : f.lo < f.hi) {t : Seg Nat} (ht : t ∈ m) (h1 : t.lo ≤ f.lo) (h2 : f.lo < t.hi) :
    t ∈ visited m f := by
  obtain ⟨us, h⟩ := drop_found hf t ht h1 h2
  unfold visited
  rw [h, List.takeWhile_cons, if_pos (by simp; omega)]
  simp

theorem fdesOf_mem {m : List (Seg Nat)} {fdes : List Fde} {die : Nat} {f : Fde} :
    f ∈ fdesOf m fdes die ↔ f ∈ fdes ∧ ∃ t ∈ visited m f, die ∈ t.els := by
  unfold fdesOf
  simp only [List.mem_flatMap]
  constructor
  · rintro ⟨g, hg, t, ht, h⟩
    split at h
    · simp at h; subst h; exact ⟨hg, t, ht, by assumption⟩
    · cases h
  · rintro ⟨hf, t, ht, h⟩
    exact ⟨f, hf, t, ht, by rw [if_pos h]; simp⟩

end Liballocs.DumpPtrs
