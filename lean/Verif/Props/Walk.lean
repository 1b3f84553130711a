import Verif.Model.Walk
namespace Liballocs.Walk

/-! # Walks of the allocation tree: depth-first (C40) and one level (C41) -/

/-! ## Specification of the depth-first walk -/

/-- An ordered forest of reports: first tree's root, what is under it, and its later siblings. -/
inductive Forest where
  | nil
  | cons (r : Rep) (kids sibs : Forest)

/-- The pre-order listing, with depths. -/
def flat : Forest → Nat → List (Nat × Rep)
  | .nil, _ => []
  | .cons r k s, d => (d, r) :: (flat k (d + 1) ++ flat s d)

/-- Whether a depth is below a skipped one. -/
def inside : Option Nat → Nat → Bool
  | none, _ => false
  | some k, d => decide (k < d)

/-- Going through the pre-order listing: an entry that is deeper than a skipped one is passed over; the callback's
answer -1 skips, any other non-zero answer ends the walk and is its result. -/
def scan {σ : Type} (cb : σ → Rep → σ × Int) : Option Nat → σ → List (Nat × Rep) → σ × Int
  | _, s, [] => (s, 0)
  | skip, s, (d, r) :: l =>
    if inside skip d then scan cb skip s l
    else if (cb s r).2 = -1 then scan cb (some d) (cb s r).1 l
    else if (cb s r).2 ≠ 0 then cb s r
    else scan cb none (cb s r).1 l

/-- The allocations directly inside a position: the suballocator's chunks or the type's subobjects. -/
inductive Under (w : World) : Pos → List Raw → Prop where
  | big (b a) : (w.bigs b).sub = some a →
      (∀ c, c ∈ (w.bigs b).chunks → (w.bigs b).begin ≤ c.obj ∧ c.obj < (w.bigs b).end) →
      Under w (.big (w.bigs b).begin b)
        ((w.bigs b).chunks.map fun c => ⟨c.big, c.obj, c.t, .big (w.bigs b).begin b, c.coord⟩)
  | typed (base t) : Under w (.typed base t)
      ((w.subobjs t).zipIdx.map fun x => ⟨none, base + x.1.1, some x.1.2, .typed base t, x.2 + 1⟩)

/-- The big allocation that describes a reported object: a typed object directly inside a big allocation is described by
the child big allocation that begins there, if any; else what the allocator said. -/
def Describes (w : World) (r : Raw) (o : Option Nat) : Prop :=
  match r.t, r.container with
  | some _, .big _ b => (∃ k, o = some k ∧ (w.bigs b).kids.find? (fun k => (w.bigs k).begin == r.obj) = some k) ∨
      ((∀ k, k ∈ (w.bigs b).kids → (w.bigs k).begin ≠ r.obj) ∧ o = r.big)
  | _, _ => o = r.big

/-- `F` is the forest of everything below the listed allocations, reached along `path`. -/
def IsForest (w : World) (path : List (Pos × Nat)) : List Raw → Forest → Prop
  | [], .nil => True
  | r :: rs, .cons rep kids sibs =>
    (Describes w r rep.big ∧ rep.obj = r.obj ∧ rep.t = r.t ∧ rep.path = (r.container, r.coord) :: path) ∧
    (match posOf rep with
      | none => kids = .nil
      | some p => ∃ below, Under w p below ∧ IsForest w rep.path below kids) ∧
    IsForest w path rs sibs
  | _, _ => False

def height : Forest → Nat
  | .nil => 0
  | .cons _ k s => max (height k + 1) (height s)

variable {σ : Type}

theorem describes_eq {w : World} {r : Raw} {o : Option Nat} (h : Describes w r o) : upgrade w r = o := by
  unfold Describes at h
  unfold upgrade
  cases ht : r.t with
  | none => rw [ht] at h; exact h.symm
  | some t =>
    cases hc : r.container with
    | typed _ _ => rw [ht, hc] at h; exact h.symm
    | big x b =>
      rw [ht, hc] at h
      simp only at h ⊢
      rcases h with ⟨k, rfl, hk⟩ | ⟨h1, rfl⟩
      · rw [hk]
      · rw [List.find?_eq_none.mpr (fun k hk => by simpa using h1 k hk)]

/-- Without the flag, walking one level calls back for exactly the allocations directly inside. -/
theorem level_each {w : World} {p : Pos} {l : List Raw} (h : Under w p l) (cb : σ → Raw → Out (σ × Int)) (s : σ) :
    walkLevel w false p cb none none s = each cb l s := by
  cases h with
  | typed base t => rfl
  | big b a hs hin =>
    simp only [walkLevel]
    rw [if_neg (by simp)]
    simp only [Bool.false_eq_true, if_false, kidLoop, subWalk, hs]
    rw [List.filter_eq_self.mpr]
    · rfl
    · intro c hc
      have := hin c hc
      simp only [orDefault, this.1, this.2, decide_true, Bool.and_true]

theorem scan_skip (cb : σ → Rep → σ × Int) (k d : Nat) (hk : d ≤ k) (s : σ) (l : List (Nat × Rep))
    (h : ∀ e, l.head? = some e → e.1 ≤ d) : scan cb (some k) s l = scan cb none s l := by
  cases l with
  | nil => rfl
  | cons e l =>
    obtain ⟨d', r⟩ := e
    have := h _ rfl
    simp only at this
    have e1 : inside (some k) d' = false := by simp only [inside, decide_eq_false_iff_not]; omega
    have e2 : inside none d' = false := rfl
    simp only [scan, e1, e2, Bool.false_eq_true, if_false]

theorem scan_pass (cb : σ → Rep → σ × Int) (k : Nat) (s : σ) : ∀ (F : Forest) (d : Nat), k < d → ∀ rest,
    scan cb (some k) s (flat F d ++ rest) = scan cb (some k) s rest := by
  intro F
  induction F with
  | nil => intro d _ rest; rfl
  | cons r kids sibs ih1 ih2 =>
    intro d hd rest
    rw [flat, List.cons_append, scan, if_pos (by simpa [inside] using hd), List.append_assoc, ih1 (d+1) (by omega), ih2 d hd]

/-- How the rest of the listing continues after a level has been walked. -/
def thenScan (cb : σ → Rep → σ × Int) (x : σ × Int) (rest : List (Nat × Rep)) : σ × Int :=
  if x.2 ≠ 0 then x else scan cb none x.1 rest

theorem df_spec (w : World) (cb : σ → Rep → σ × Int) : ∀ (F : Forest) (path : List (Pos × Nat)) (rs : List Raw) (fuel : Nat) (s : σ),
    IsForest w path rs F → height F ≤ fuel →
    ∃ x : σ × Int, each (fun s r => dfCb w cb fuel path s r) rs s = .ok x ∧
      ∀ d rest, (∀ e, rest.head? = some e → e.1 ≤ d) → scan cb none s (flat F d ++ rest) = thenScan cb x rest := by
  intro F
  induction F with
  | nil =>
    intro path rs fuel s h _
    cases rs with
    | nil => exact ⟨(s, 0), rfl, fun d rest _ => rfl⟩
    | cons r rs => exact h.elim
  | cons rep kids sibs ihk ihs =>
    intro path rs fuel s h hf
    cases rs with
    | nil => exact h.elim
    | cons r rs =>
      obtain ⟨⟨h1, h2, h3, h4⟩, h5, h6⟩ := h
      rw [height] at hf
      obtain ⟨fuel, rfl⟩ : ∃ g, fuel = g + 1 := ⟨fuel - 1, by omega⟩
      have hrep : (⟨upgrade w r, r.obj, r.t, (r.container, r.coord) :: path⟩ : Rep) = rep := by
        rw [describes_eq h1, ← h2, ← h3, ← h4]
      have hhead : ∀ d rest, (∀ e, rest.head? = some e → e.1 ≤ d) → ∀ e, (flat sibs d ++ rest).head? = some e → e.1 ≤ d := by
        intro d rest hr e he
        cases sibs with
        | nil => exact hr e he
        | cons r' k' s' => cases he; exact Nat.le_refl _
      rw [each]
      have hd : dfCb w cb (fuel+1) path s r = (
          if (cb s rep).2 = -1 then .ok ((cb s rep).1, 0)
          else if (cb s rep).2 ≠ 0 then .ok (cb s rep)
          else match posOf rep with
            | none => .ok ((cb s rep).1, 0)
            | some pos => walkLevel w false pos (fun s r => dfCb w cb fuel rep.path s r) none none (cb s rep).1) := by
        rw [dfCb]
        rw [h4]
        simp only [hrep]
        cases posOf rep <;> rfl
      have hscan : ∀ d rest, scan cb none s (flat (.cons rep kids sibs) d ++ rest) = (
          if (cb s rep).2 = -1 then scan cb (some d) (cb s rep).1 (flat kids (d+1) ++ (flat sibs d ++ rest))
          else if (cb s rep).2 ≠ 0 then cb s rep
          else scan cb none (cb s rep).1 (flat kids (d+1) ++ (flat sibs d ++ rest))) := by
        intro d rest
        rw [flat, List.cons_append, scan, if_neg (by simp [inside]), List.append_assoc]
      by_cases c1 : (cb s rep).2 = -1
      · obtain ⟨x, g1, g2⟩ := ihs path rs (fuel+1) (cb s rep).1 h6 (by omega)
        refine ⟨x, ?_, ?_⟩
        · simp only [hd, if_pos c1, ne_eq, not_true_eq_false, if_false]
          exact g1
        · intro d rest hr
          rw [hscan, if_pos c1, scan_pass cb d _ kids (d+1) (by omega),
            scan_skip cb d d (Nat.le_refl _) _ _ (hhead d rest hr), g2 d rest hr]
      · by_cases c2 : (cb s rep).2 ≠ 0
        · refine ⟨cb s rep, ?_, ?_⟩
          · simp only [hd, if_neg c1, if_pos c2]
          · intro d rest hr
            rw [hscan, if_neg c1, if_pos c2, thenScan, if_pos c2]
        · obtain ⟨y, g0, g3⟩ : ∃ y : σ × Int, dfCb w cb (fuel+1) path s r = .ok y ∧
              ∀ d rest, (∀ e, rest.head? = some e → e.1 ≤ d) →
                scan cb none (cb s rep).1 (flat kids (d+1) ++ rest) = thenScan cb y rest := by
            rw [hd, if_neg c1, if_neg c2]
            cases hp : posOf rep with
            | none =>
              rw [hp] at h5
              refine ⟨_, rfl, ?_⟩
              intro d rest _
              rw [h5]; rfl
            | some p =>
              rw [hp] at h5
              obtain ⟨below, hb1, hb2⟩ := h5
              simp only [level_each hb1]
              obtain ⟨y, e1, e2⟩ := ihk rep.path below fuel (cb s rep).1 hb2 (by omega)
              exact ⟨y, e1, fun d rest hr => e2 (d+1) rest (fun e he => by have := hr e he; omega)⟩
          simp only [g0]
          by_cases c3 : y.2 ≠ 0
          · refine ⟨y, by rw [if_pos c3], ?_⟩
            intro d rest hr
            rw [hscan, if_neg c1, if_neg c2, g3 d _ (hhead d rest hr), thenScan, if_pos c3, thenScan, if_pos c3]
          · obtain ⟨x, g1, g2⟩ := ihs path rs (fuel+1) y.1 h6 (by omega)
            refine ⟨x, by rw [if_neg c3]; exact g1, ?_⟩
            intro d rest hr
            rw [hscan, if_neg c1, if_neg c2, g3 d _ (hhead d rest hr), thenScan, if_neg c3, g2 d rest hr]

/-- **C40** (partial).  On every finite allocation tree whose big allocations have a suballocator, for every
callback and state, the depth-first walk does exactly what going through the pre-order listing does:
each allocation before what is inside it, with its path; -1 skips exactly what is inside; any other non-zero
answer ends the walk at once and is returned. -/
theorem walk_df_partial (w : World) (cb : σ → Rep → σ × Int) {p : Pos} {l : List Raw} (hu : Under w p l)
    {F : Forest} (hF : IsForest w [] l F) {fuel : Nat} (hf : height F ≤ fuel) (s : σ) :
    walkDf w fuel false p cb s = .ok (scan cb none s (flat F 0)) := by
  rw [walkDf, level_each hu]
  obtain ⟨x, h1, h2⟩ := df_spec w cb F [] l fuel s hF hf
  rw [h1]
  have := h2 0 [] (by simp)
  rw [List.append_nil] at this
  rw [this, thenScan]
  split
  · rfl
  · rename_i h
    rw [scan]
    have : x.2 = 0 := Classical.not_not.mp h
    rw [← this]

/-! ## One level -/

/-- The chunks of a big allocation that start in a range. -/
def inRange (w : World) (b lo hi : Nat) : List Chunk :=
  (w.bigs b).chunks.filter fun c => decide (lo ≤ c.obj) && decide (c.obj < hi)

/-- Chunks and child big allocations, interleaved in address order; a child is marked by its coordinate. -/
def interleave (w : World) (b hi : Nat) : List Nat → Nat → Nat → List (Chunk ⊕ Nat)
  | [], lo, _ => (inRange w b lo hi).map .inl
  | k :: ks, lo, coord =>
    (inRange w b lo (w.bigs k).begin).map .inl ++ .inr coord :: interleave w b hi ks (w.bigs k).end (coord + 1)

/-- The callback's arguments for an item; for a child the code passes the containing big allocation. -/
def itemRaw (w : World) (b : Nat) : Chunk ⊕ Nat → Raw
  | .inl c => ⟨c.big, c.obj, c.t, .big (w.bigs b).begin b, c.coord⟩
  | .inr coord => ⟨some b, (w.bigs b).begin, none, .big (w.bigs b).begin b, coord⟩

/-- Children listed in address order, disjoint, non-empty, inside the range. -/
def SortedKids (w : World) (hi : Nat) : List Nat → Nat → Prop
  | [], _ => True
  | k :: ks, lo => lo ≤ (w.bigs k).begin ∧ (w.bigs k).begin < (w.bigs k).end ∧ (w.bigs k).end ≤ hi ∧ SortedKids w hi ks (w.bigs k).end

theorem each_append (cb : σ → Raw → Out (σ × Int)) (l l' : List Raw) (s : σ) :
    each cb (l ++ l') s = match each cb l s with
      | .ok (s, ret) => if ret ≠ 0 then .ok (s, ret) else each cb l' s
      | o => o := by
  induction l generalizing s with
  | nil => simp [each]
  | cons r l ih =>
    rw [List.cons_append, each, each]
    cases h : cb s r with
    | ok x =>
      obtain ⟨s', ret⟩ := x
      simp only
      by_cases hr : ret ≠ 0
      · simp only [if_pos hr]
      · simp only [if_neg hr]; exact ih s'
    | crash => rfl
    | deep => rfl

theorem subWalk_each {w : World} {b a : Nat} (hs : (w.bigs b).sub = some a) (cb : σ → Raw → Out (σ × Int)) (lo hi : Nat) (s : σ) :
    subWalk w b cb lo hi s = each cb (((inRange w b lo hi).map Sum.inl).map (itemRaw w b)) s := by
  rw [subWalk, hs, List.map_map]
  rfl

/-- **C41** (partial).  Walking one level of a big allocation calls back exactly for the suballocator's chunks in the
range, in order, and, when imposed children are asked for and listed in address order, once for each
child at its place between them.  (The callback gets the wrong big allocation for a child, see below.) -/
theorem walk_level_partial (w : World) {b a : Nat} (hs : (w.bigs b).sub = some a) (flag : Bool)
    (cb : σ → Raw → Out (σ × Int)) (rb re : Option Nat) (s : σ) {lo hi : Nat}
    (hlo : lo = orDefault rb (w.bigs b).begin)
    (hhi : hi = orDefault re (w.bigs b).end)
    (hk : SortedKids w hi (w.bigs b).kids lo)
    (himp : ∀ k, k ∈ (w.bigs b).kids → (w.bigs k).allocatedBy ≠ a) :
    walkLevel w flag (.big (w.bigs b).begin b) cb rb re s =
      each cb ((if flag then interleave w b hi (w.bigs b).kids lo 1 else (inRange w b lo hi).map .inl).map (itemRaw w b)) s := by
  have main : ∀ ks lo coord s, SortedKids w hi ks lo → (∀ k, k ∈ ks → (w.bigs k).allocatedBy ≠ a) →
      kidLoop w b cb re hi ks lo coord s = each cb ((interleave w b hi ks lo coord).map (itemRaw w b)) s := by
    intro ks
    induction ks with
    | nil => intro lo coord s _ _; exact subWalk_each hs cb lo hi s
    | cons k ks ih =>
      intro lo coord s ⟨h1, h2, h3, h4⟩ hi'
      rw [kidLoop]
      have hskip : skipKid (w.bigs k) lo re = false := by
        unfold skipKid
        cases re with
        | none => simp only [decide_eq_false_iff_not]; omega
        | some e => simp only [orDefault] at hhi; subst hhi; simp; omega
      have himp' : imposed (w.bigs b) (w.bigs k) = true := by
        rw [imposed, hs]
        simpa using hi' k (by simp)
      simp only [hskip, himp', Bool.false_eq_true, if_false, if_true]
      rw [interleave, List.map_append, each_append, subWalk_each hs, List.map_cons]
      cases he : each cb (((inRange w b lo (w.bigs k).begin).map Sum.inl).map (itemRaw w b)) s with
      | ok x =>
        obtain ⟨s', ret⟩ := x
        simp only
        by_cases hr : ret ≠ 0
        · simp only [if_pos hr]
        · simp only [if_neg hr]
          rw [each]
          have e : itemRaw w b (.inr coord) = ⟨some b, (w.bigs b).begin, none, .big (w.bigs b).begin b, coord⟩ := rfl
          rw [e]
          cases hc : cb s' ⟨some b, (w.bigs b).begin, none, .big (w.bigs b).begin b, coord⟩ with
          | ok y =>
            obtain ⟨s'', ret'⟩ := y
            simp only
            by_cases hr' : ret' ≠ 0
            · simp only [if_pos hr']
            · simp only [if_neg hr']
              exact ih _ _ _ h4 (fun x hx => hi' x (by simp [hx]))
          | crash => rfl
          | deep => rfl
      | crash => rfl
      | deep => rfl
  unfold walkLevel
  simp only [ne_eq, not_true_eq_false, if_false]
  rw [← hlo, ← hhi]
  cases flag with
  | true => simp only [if_true]; exact main _ _ _ _ hk himp
  | false => simp only [Bool.false_eq_true, if_false, kidLoop]; exact subWalk_each hs cb lo hi s

/-- With chunks in address order and none starting inside a child, the interleaving has every chunk in the range exactly
once and in order, and every child once. -/
theorem interleave_all (w : World) (b hi : Nat) (hsort : (w.bigs b).chunks.Pairwise (fun c d => c.obj < d.obj)) :
    ∀ ks lo coord, lo ≤ hi → SortedKids w hi ks lo →
    (∀ c, c ∈ (w.bigs b).chunks → ∀ k, k ∈ ks → ¬ ((w.bigs k).begin ≤ c.obj ∧ c.obj < (w.bigs k).end)) →
    (interleave w b hi ks lo coord).filterMap (fun x => match x with | .inl c => some c | .inr _ => none) = inRange w b lo hi ∧
      (interleave w b hi ks lo coord).filterMap (fun x => match x with | .inl _ => none | .inr n => some n) = List.range' coord ks.length := by
  have split : ∀ (l : List Chunk), l.Pairwise (fun c d => c.obj < d.obj) → ∀ lo mid hi, mid ≤ hi → lo ≤ mid →
      l.filter (fun c => decide (lo ≤ c.obj) && decide (c.obj < hi)) =
      l.filter (fun c => decide (lo ≤ c.obj) && decide (c.obj < mid)) ++ l.filter (fun c => decide (mid ≤ c.obj) && decide (c.obj < hi)) := by
    intro l
    induction l with
    | nil => intros; rfl
    | cons a l ih =>
      intro hp lo mid hi h1 h2
      rw [List.pairwise_cons] at hp
      have ih := ih hp.2 lo mid hi h1 h2
      by_cases hm : a.obj < mid
      · simp only [List.filter_cons, ih]
        by_cases hl : lo ≤ a.obj
        · have : (decide (lo ≤ a.obj) && decide (a.obj < hi)) = true := by simp; omega
          rw [if_pos this, if_pos (show (decide (lo ≤ a.obj) && decide (a.obj < mid)) = true by simp; omega),
            if_neg (show ¬ (decide (mid ≤ a.obj) && decide (a.obj < hi)) = true by simp; omega)]
          rfl
        · rw [if_neg (show ¬ (decide (lo ≤ a.obj) && decide (a.obj < hi)) = true by simp; omega),
            if_neg (show ¬ (decide (lo ≤ a.obj) && decide (a.obj < mid)) = true by simp; omega),
            if_neg (show ¬ (decide (mid ≤ a.obj) && decide (a.obj < hi)) = true by simp; omega)]
      · have hnil : (a :: l).filter (fun c => decide (lo ≤ c.obj) && decide (c.obj < mid)) = [] := by
          rw [List.filter_eq_nil_iff]
          intro c hc
          rcases List.mem_cons.mp hc with rfl | hc
          · simp; omega
          · have := hp.1 c hc; simp; omega
        rw [hnil, List.nil_append]
        apply List.filter_congr
        intro c hc
        have : mid ≤ c.obj := by
          rcases List.mem_cons.mp hc with rfl | hc
          · omega
          · have := hp.1 c hc; omega
        have h3 : lo ≤ c.obj := by omega
        simp [this, h3]
  have map1 : ∀ l : List Chunk, (l.map (Sum.inl (β := Nat))).filterMap (fun x => match x with | .inl c => some c | .inr _ => none) = l := by
    intro l; induction l with
    | nil => rfl
    | cons a l ih => simp [ih]
  have map2 : ∀ l : List Chunk, (l.map (Sum.inl (β := Nat))).filterMap (fun x => match x with | .inl _ => none | .inr n => some n) = [] := by
    intro l; induction l with
    | nil => rfl
    | cons a l ih => simp [ih]
  intro ks
  induction ks with
  | nil => intro lo coord _ _ _; exact ⟨map1 _, map2 _⟩
  | cons k ks ih =>
    intro lo coord hlh ⟨h1, h2, h3, h4⟩ hn
    obtain ⟨i1, i2⟩ := ih (w.bigs k).end (coord+1) h3 h4 (fun c hc x hx => hn c hc x (by simp [hx]))
    constructor
    · rw [interleave, List.filterMap_append, map1, List.filterMap_cons]
      simp only [i1]
      unfold inRange
      rw [split _ hsort lo (w.bigs k).begin hi (by omega) h1]
      congr 1
      apply List.filter_congr
      intro c hc
      have := hn c hc k (by simp)
      rw [Bool.eq_iff_iff]
      simp only [Bool.and_eq_true, decide_eq_true_eq]
      omega
    · rw [interleave, List.filterMap_append, map2, List.filterMap_cons]
      simp only [i2]
      rfl

/-! ## Concrete cases and disagreements -/

def logCb (rets : Nat → Int) : List Rep → Rep → List Rep × Int := fun s r => (s ++ [r], rets r.obj)
def rawCb : List Raw → Raw → Out (List Raw × Int) := fun s r => .ok (s ++ [r], 0)

/-- Big allocation 1 at [1000, 2000) with two chunks, one of type 5 (two members of type 6), one described by child big
allocation 2, which has one untyped chunk. -/
def exW : World :=
  ⟨fun b => if b = 1 then ⟨1000, 2000, [2], 3, some 7, [⟨1000, none, some 5, 1⟩, ⟨1100, none, some 5, 2⟩]⟩
    else if b = 2 then ⟨1100, 1200, [], 7, some 8, [⟨1150, none, none, 1⟩]⟩ else ⟨0, 0, [], 0, none, []⟩,
   fun t => if t = 5 then [(0, 6), (8, 6)] else []⟩

example : walkDf exW 5 false (.big 1000 1) (logCb fun _ => 0) [] = .ok ([
    ⟨none, 1000, some 5, [(.big 1000 1, 1)]⟩,
    ⟨none, 1000, some 6, [(.typed 1000 5, 1), (.big 1000 1, 1)]⟩,
    ⟨none, 1008, some 6, [(.typed 1000 5, 2), (.big 1000 1, 1)]⟩,
    ⟨some 2, 1100, some 5, [(.big 1000 1, 2)]⟩,
    ⟨none, 1150, none, [(.big 1100 2, 1), (.big 1000 1, 2)]⟩], 0) := by decide

example : walkDf exW 5 false (.big 1000 1) (logCb fun o => if o = 1000 then -1 else if o = 1100 then 9 else 0) [] = .ok ([
    ⟨none, 1000, some 5, [(.big 1000 1, 1)]⟩,
    ⟨some 2, 1100, some 5, [(.big 1000 1, 2)]⟩], 9) := by decide

/-- The theorem's assumptions hold of this tree. -/
theorem exW_forest : ∃ l F, Under exW (.big 1000 1) l ∧ IsForest exW [] l F ∧ height F ≤ 5 := by
  refine ⟨_, .cons ⟨none, 1000, some 5, [(.big 1000 1, 1)]⟩
      (.cons ⟨none, 1000, some 6, [(.typed 1000 5, 1), (.big 1000 1, 1)]⟩ .nil
        (.cons ⟨none, 1008, some 6, [(.typed 1000 5, 2), (.big 1000 1, 1)]⟩ .nil .nil))
      (.cons ⟨some 2, 1100, some 5, [(.big 1000 1, 2)]⟩
        (.cons ⟨none, 1150, none, [(.big 1100 2, 1), (.big 1000 1, 2)]⟩ .nil .nil) .nil),
    Under.big 1 7 rfl (by decide), ?_, by decide⟩
  refine ⟨⟨.inr ⟨by decide, rfl⟩, rfl, rfl, rfl⟩, ⟨_, .typed 1000 5, ?_⟩, ?_⟩
  · exact ⟨⟨rfl, rfl, rfl, rfl⟩, ⟨_, .typed 1000 6, trivial⟩, ⟨rfl, rfl, rfl, rfl⟩, ⟨_, .typed 1008 6, trivial⟩, trivial⟩
  · exact ⟨⟨.inl ⟨2, rfl, by decide⟩, rfl, rfl, rfl⟩, ⟨_, .big 2 8 rfl (by decide), ⟨rfl, rfl, rfl, rfl⟩, rfl, trivial⟩, trivial⟩

/-- Disagreement with C40: a big allocation without a suballocator crashes the walk. -/
theorem no_suballocator_fails (w : World) (b : Nat) (h : (w.bigs b).sub = none) (fuel : Nat)
    (cb : σ → Rep → σ × Int) (s : σ) : walkDf w fuel false (.big (w.bigs b).begin b) cb s = .crash := by
  simp [walkDf, walkLevel, kidLoop, subWalk, h]

/-- A big allocation with chunks at 1000, 1500 and 1900 and two imposed children, listed newest first. -/
def exK (k1 k2 by1 by2 : Nat) : World :=
  ⟨fun b => if b = 1 then ⟨1000, 2000, [k1, k2], 3, some 7, [⟨1000, none, none, 1⟩, ⟨1500, none, none, 2⟩, ⟨1900, none, none, 3⟩]⟩
    else if b = 2 then ⟨1100, 1200, [], by1, none, []⟩ else if b = 3 then ⟨1600, 1700, [], by2, none, []⟩ else ⟨0, 0, [], 0, none, []⟩,
   fun _ => []⟩

/-- The addresses called back for, when nothing crashes. -/
def objs : Out (List Raw × Int) → Option (List (Nat × Option Nat))
  | .ok x => some (x.1.map fun r => (r.obj, r.big))
  | _ => none

/-- Disagreement with C41: for an imposed child the callback is given the containing big allocation and its start, not
the child. -/
theorem kid_identity_fails : objs (walkLevel (exK 2 3 9 9) true (.big 1000 1) rawCb none none []) =
    some [(1000, none), (1000, some 1), (1500, none), (1000, some 1), (1900, none)] := by decide

/-- Disagreement with C41: children are listed newest first; if the list is not in address order, chunks are reported
twice and the lower child is not reported. -/
theorem kid_order_fails : objs (walkLevel (exK 3 2 9 9) true (.big 1000 1) rawCb none none []) =
    some [(1000, none), (1500, none), (1000, some 1), (1500, none), (1900, none)] := by decide

/-- Disagreement with C41: a child allocated by the suballocator itself hides every chunk before its end. -/
theorem kid_not_imposed_fails : objs (walkLevel (exK 2 3 9 7) true (.big 1000 1) rawCb none none []) =
    some [(1000, none), (1000, some 1), (1900, none)] := by decide

/-- Disagreement with C41: a child that ends before the range makes the walk go back to that child's end, so that chunks
before the range are reported. -/
theorem kid_before_range_fails : objs (walkLevel (exK 2 3 9 9) true (.big 1000 1) rawCb (some 1550) (some 1580) []) =
    some [] ∧
    objs (walkLevel (exK 2 2 9 9) true (.big 1000 1) rawCb (some 1550) (some 1800) []) = some [(1500, none)] := by decide

/-- Disagreement with C41: a child that begins after the end of the range makes the walk report no chunk after the last
child inside the range. -/
theorem kid_after_range_fails : objs (walkLevel (exK 3 3 9 9) true (.big 1000 1) rawCb (some 1000) (some 1550) []) =
    some [] ∧
    objs (walkLevel (exK 3 3 9 9) false (.big 1000 1) rawCb (some 1000) (some 1550) []) =
      some [(1000, none), (1500, none)] := by decide

/-- Disagreement with C41: a child that begins where the range ends is reported. A child that ends where the range
begins is not. -/
theorem kid_at_range_end_fails : objs (walkLevel (exK 3 3 9 9) true (.big 1000 1) rawCb (some 1000) (some 1600) []) =
    some [(1000, none), (1500, none), (1000, some 1)] ∧
    objs (walkLevel (exK 2 2 9 9) true (.big 1000 1) rawCb (some 1200) (some 1800) []) = some [(1500, none)] := by decide

/-- Disagreement with C40: a depth-first walk does not visit imposed children below the top level (the flag is not
passed down). -/
theorem df_imposed_fails :
    let w : World := ⟨fun b => if b = 9 then ⟨1000, 2000, [1], 3, some 7, [⟨1000, some 1, none, 1⟩]⟩ else (exK 2 3 9 9).bigs b, fun _ => []⟩
    walkDf w 5 true (.big 1000 9) (logCb fun _ => 0) [] =
      walkDf ⟨fun b => if b = 1 then { w.bigs b with kids := [] } else w.bigs b, fun _ => []⟩ 5 true (.big 1000 9) (logCb fun _ => 0) [] := by
  decide

end Liballocs.Walk
