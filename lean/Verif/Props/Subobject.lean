import Verif.Model.Subobject
/-! # C19, C20: subobjects spanning an offset -/
namespace Liballocs.Subobject

/-! ### Specification -/

/-- A well-formed set of types: containment is acyclic (types are numbered bottom up), array sizes
are right with non-empty elements, members are listed by increasing offset. -/
structure WF (env : Env) : Prop where
  arrLt : ∀ u sz e len, env u = .arr sz e len → e < u
  arrSize : ∀ u sz e len, env u = .arr sz e len → sz = len * size env e ∧ 0 < size env e
  compLt : ∀ u sz ms, env u = .comp sz ms → ∀ m ∈ ms, m.2 < u
  compSorted : ∀ u sz ms, env u = .comp sz ms → ms.Pairwise (fun a b => a.1 ≤ b.1)

/-- All visits, members selected by `P` and array elements by their byte range, each before its own
subobjects. -/
def visitsBy (env : Env) (P : (sz : Nat) → (ms : List (Nat × Nat)) → (t : Nat) → (m : Nat × Nat) → Bool) :
    Nat → (acc d t u : Nat) → List Visit
  | 0, _, _, _, _ => []
  | fuel + 1, acc, d, t, u =>
    match env u with
    | .other _ => []
    | .arr _ e len =>
      ((List.range len).filter (fun i => decide (i * size env e ≤ t ∧ t < (i + 1) * size env e))).flatMap
        (fun i => ⟨e, acc + i * size env e, d + 1, u, 0, acc⟩ ::
          visitsBy env P fuel (acc + i * size env e) (d + 1) (t - i * size env e) e)
    | .comp sz ms =>
      (ms.zipIdx.filter (fun m => P sz ms t m.1)).flatMap
        (fun m => ⟨m.1.2, acc + m.1.1, d + 1, u, m.2, acc⟩ ::
          visitsBy env P fuel (acc + m.1.1) (d + 1) (t - m.1.1) m.1.2)

/-- The member's bytes contain the offset. -/
def spans (env : Env) : (sz : Nat) → (ms : List (Nat × Nat)) → (t : Nat) → (m : Nat × Nat) → Bool :=
  fun _ _ t m => decide (m.1 ≤ t ∧ t < m.1 + size env m.2)

/-- The member is one of those with the greatest offset at or below the target, in an object that
contains the target. -/
def nearest : (sz : Nat) → (ms : List (Nat × Nat)) → (t : Nat) → (m : Nat × Nat) → Bool :=
  fun sz ms t m => decide (t < sz ∧ m.1 ≤ t ∧ ∀ x ∈ ms, x.1 ≤ t → x.1 ≤ m.1)

/-- Calling `cb` on visits in order, stopping at the first that returns non-zero. -/
def runCb (cb : List Visit → Int) (h : List Visit) : List Visit → Int × List Visit
  | [] => (0, h)
  | v :: vs => if cb (h ++ [v]) ≠ 0 then (cb (h ++ [v]), h ++ [v]) else runCb cb (h ++ [v]) vs

/-! ### The search for the member -/

theorem bisect_spec {ms : List (Nat × Nat)} (hs : ms.Pairwise (fun a b => a.1 ≤ b.1)) (t : Nat) (fuel lo hi : Nat)
    (hfuel : hi - lo < fuel) (hlt : lo < hi) (hhi : hi ≤ ms.length)
    (hlo : lo = 0 ∨ ∃ m, ms[lo]? = some m ∧ m.1 ≤ t) (hup : ∀ j m, hi ≤ j → ms[j]? = some m → t < m.1) :
    ∃ lo', bisect ms t fuel lo hi = some (lo', lo' + 1) ∧ lo' < ms.length ∧
      (lo' = 0 ∨ ∃ m, ms[lo']? = some m ∧ m.1 ≤ t) ∧ ∀ j m, lo' < j → ms[j]? = some m → t < m.1 := by
  induction fuel generalizing lo hi with
  | zero => omega
  | succ fuel ih =>
    unfold bisect
    by_cases c : lo + 1 < hi
    · rw [if_pos c]
      have hm : (hi + lo) / 2 < ms.length := by omega
      rw [List.getElem?_eq_getElem hm]
      simp only
      by_cases c2 : ms[(hi + lo) / 2].1 > t
      · rw [if_pos c2]
        refine ih lo ((hi + lo) / 2) (by omega) (by omega) (by omega) hlo ?_
        intro j m hj hm'
        obtain ⟨hj1, hj2⟩ := List.getElem?_eq_some_iff.1 hm'
        rcases Nat.eq_or_lt_of_le hj with h | h
        · subst h; rw [← hj2]; exact c2
        · have := List.pairwise_iff_getElem.1 hs _ j hm hj1 h
          rw [hj2] at this; omega
      · rw [if_neg c2]
        exact ih ((hi + lo) / 2) hi (by omega) (by omega) hhi
          (Or.inr ⟨_, List.getElem?_eq_getElem hm, by omega⟩) hup
    · rw [if_neg c]
      have : hi = lo + 1 := by omega
      subst this
      exact ⟨lo, rfl, by omega, hlo, fun j m hj hm => hup j m (by omega) hm⟩

theorem scanBack_spec {ms : List (Nat × Nat)} (hs : ms.Pairwise (fun a b => a.1 ≤ b.1)) (k : Nat) (m : Nat × Nat)
    (hk : ms[k]? = some m) :
    scanBack ms k ≤ k ∧ (∃ m', ms[scanBack ms k]? = some m' ∧ m'.1 = m.1) ∧
      (∀ j m', j < scanBack ms k → ms[j]? = some m' → m'.1 < m.1) := by
  induction k generalizing m with
  | zero => exact ⟨Nat.le_refl _, ⟨m, hk, rfl⟩, fun j m' hj => absurd hj (by simp [scanBack])⟩
  | succ k ih =>
    have hklen := (List.getElem?_eq_some_iff.1 hk).1
    have hk' : ms[k]? = some ms[k] := List.getElem?_eq_getElem (by omega)
    unfold scanBack
    by_cases c : (ms[k]?).map (·.1) = (ms[k + 1]?).map (·.1)
    · rw [if_pos c]
      rw [hk, hk'] at c
      simp only [Option.map_some, Option.some.injEq] at c
      obtain ⟨h1, ⟨m', h2, h2'⟩, h3⟩ := ih _ hk'
      exact ⟨by omega, ⟨m', h2, by omega⟩, fun j m'' hj hm'' => by have := h3 j m'' hj hm''; omega⟩
    · rw [if_neg c]
      rw [hk, hk'] at c
      simp only [Option.map_some, Option.some.injEq] at c
      refine ⟨Nat.le_refl _, ⟨m, hk, rfl⟩, ?_⟩
      intro j m' hj hm'
      obtain ⟨hj1, hj2⟩ := List.getElem?_eq_some_iff.1 hm'
      obtain ⟨hk1, hk2⟩ := List.getElem?_eq_some_iff.1 hk
      have a : m'.1 ≤ ms[k].1 := by
        rcases Nat.lt_or_ge j k with h | h
        · have := List.pairwise_iff_getElem.1 hs j k hj1 (by omega) h; rw [hj2] at this; exact this
        · have : j = k := by omega
          subst this; rw [← hj2]; exact Nat.le_refl _
      have b := List.pairwise_iff_getElem.1 hs k (k + 1) (by omega) hk1 (by omega)
      rw [hk2] at b
      omega

/-- The greatest offset at or below `t`, as a predicate on members. -/
def isNear (ms : List (Nat × Nat)) (t : Nat) (m : Nat × Nat) : Bool :=
  decide (m.1 ≤ t ∧ ∀ x ∈ ms, x.1 ≤ t → x.1 ≤ m.1)

theorem drop_takeWhile_eq_filter {α : Type} {l : List α} {p : α → Bool} (lo : Nat)
    (h1 : ∀ j x, j < lo → l[j]? = some x → p x = false)
    (h2 : ∀ i j x y, lo ≤ i → i < j → l[i]? = some x → l[j]? = some y → p x = false → p y = false) :
    (l.drop lo).takeWhile p = l.filter p := by
  induction l generalizing lo with
  | nil => simp
  | cons a l ih =>
    cases lo with
    | succ lo =>
      have ha := h1 0 a (by omega) (by simp)
      rw [List.filter_cons_of_neg (by simp [ha]), List.drop_succ_cons]
      exact ih lo (fun j x hj hx => h1 (j + 1) x (by omega) (by simpa using hx))
        (fun i j x y hi hj hx hy => h2 (i + 1) (j + 1) x y (by omega) (by omega) (by simpa using hx) (by simpa using hy))
    | zero =>
      rw [List.drop_zero]
      have ih' := ih 0 (by omega)
        (fun i j x y _ hj hx hy => h2 (i + 1) (j + 1) x y (by omega) (by omega) (by simpa using hx) (by simpa using hy))
      rw [List.drop_zero] at ih'
      rw [List.takeWhile_cons, List.filter_cons]
      cases hp : p a with
      | true => rw [if_pos rfl, if_pos rfl, ih']
      | false =>
        rw [if_neg (by simp), if_neg (by simp)]
        symm
        rw [List.filter_eq_nil_iff]
        intro x hx
        obtain ⟨j, hj⟩ := List.getElem?_of_mem hx
        rw [h2 0 (j + 1) a x (by omega) (by omega) (by simp) (by simpa using hj) hp]
        simp

/-- The members looked at are exactly those with the greatest offset at or below the target. -/
theorem firstMember_spec {ms : List (Nat × Nat)} (hs : ms.Pairwise (fun a b => a.1 ≤ b.1)) (t : Nat) :
    (firstMember ms t = some none ∧ ∀ m ∈ ms, t < m.1) ∨
    ∃ lo g, firstMember ms t = some (some lo) ∧ ms[lo]? = some g ∧ isNear ms t g = true ∧
      (∀ j m, j < lo → ms[j]? = some m → m.1 < g.1) ∧
      (∀ m ∈ ms, (isNear ms t m = true ↔ m.1 = g.1)) := by
  cases hl : ms with
  | nil => left; exact ⟨by simp [firstMember, bisect], by simp⟩
  | cons a as =>
    rw [← hl]
    obtain ⟨lo, e1, e2, e3, e4⟩ := bisect_spec hs t (ms.length + 1) 0 ms.length (by omega) (by rw [hl]; simp) (Nat.le_refl _) (Or.inl rfl)
      (fun j m hj hm => by have := (List.getElem?_eq_some_iff.1 hm).1; omega)
    have hget : ms[lo]? = some ms[lo] := List.getElem?_eq_getElem e2
    unfold firstMember
    rw [e1]
    simp only [if_true, hget]
    by_cases c : ms[lo].1 > t
    · left
      rw [if_pos c]
      refine ⟨rfl, ?_⟩
      have h0 : lo = 0 := by
        rcases e3 with h | ⟨m, h, h'⟩
        · exact h
        · rw [hget] at h; cases h; omega
      intro m hm
      obtain ⟨j, hj⟩ := List.getElem?_of_mem hm
      rcases Nat.eq_zero_or_pos j with h | h
      · rw [h, ← h0, hget] at hj; cases hj; exact c
      · exact e4 j m (by omega) hj
    · right
      rw [if_neg c]
      obtain ⟨s1, ⟨g, s2, s2'⟩, s3⟩ := scanBack_spec hs lo _ hget
      have hmax : ∀ x ∈ ms, x.1 ≤ t → x.1 ≤ g.1 := by
        intro x hx hxt
        obtain ⟨j, hj⟩ := List.getElem?_of_mem hx
        rcases Nat.lt_or_ge lo j with h | h
        · have := e4 j x h hj; omega
        · rcases Nat.lt_or_ge j lo with h' | h'
          · obtain ⟨hj1, hj2⟩ := List.getElem?_eq_some_iff.1 hj
            have := List.pairwise_iff_getElem.1 hs j lo hj1 e2 h'
            rw [hj2] at this; omega
          · have : j = lo := by omega
            rw [this, hget] at hj; cases hj; omega
      refine ⟨scanBack ms lo, g, rfl, s2, ?_, ?_, ?_⟩
      · unfold isNear; rw [decide_eq_true_eq]; exact ⟨by omega, hmax⟩
      · intro j m hj hm; have := s3 j m hj hm; omega
      · intro m hm
        unfold isNear
        rw [decide_eq_true_eq]
        constructor
        · rintro ⟨h1, h2⟩
          have := h2 g (List.mem_of_getElem? s2) (by omega)
          have := hmax m hm h1
          omega
        · intro h
          exact ⟨by omega, by rw [h]; exact hmax⟩

theorem zipIdx_getElem? {α : Type} (l : List α) (i : Nat) : l.zipIdx[i]? = (l[i]?).map (fun x => (x, i)) := by
  rw [List.getElem?_zipIdx]; simp

theorem group_zip {ms : List (Nat × Nat)} (hs : ms.Pairwise (fun a b => a.1 ≤ b.1)) {t lo : Nat} {g : Nat × Nat}
    (hg : ms[lo]? = some g) (hlt : ∀ j m, j < lo → ms[j]? = some m → m.1 < g.1)
    (hn : ∀ m ∈ ms, (isNear ms t m = true ↔ m.1 = g.1)) :
    (ms.zipIdx.drop lo).takeWhile (fun m => decide (some m.1.1 = (ms[lo]?).map (·.1))) =
      ms.zipIdx.filter (fun m => isNear ms t m.1) := by
  rw [hg]
  simp only [Option.map_some, Option.some.injEq]
  rw [drop_takeWhile_eq_filter lo]
  · apply List.filter_congr
    intro m hm
    have hm' : m.1 ∈ ms := by
      obtain ⟨j, hj⟩ := List.getElem?_of_mem hm
      rw [zipIdx_getElem?] at hj
      cases h : ms[j]? with
      | none => rw [h] at hj; cases hj
      | some x => rw [h] at hj; simp at hj; subst hj; exact List.mem_of_getElem? h
    have := hn m.1 hm'
    cases hb : isNear ms t m.1 with
    | true => rw [decide_eq_true_eq]; exact this.1 hb
    | false => rw [decide_eq_false_iff_not]; intro h; rw [this.2 h] at hb; cases hb
  · intro j x hj hx
    rw [zipIdx_getElem?] at hx
    cases h : ms[j]? with
    | none => rw [h] at hx; cases hx
    | some y =>
      rw [h] at hx; simp at hx; subst hx
      have := hlt j y hj h
      simp only [decide_eq_false_iff_not]; omega
  · intro i j x y hi hj hx hy hp
    rw [zipIdx_getElem?] at hx hy
    cases h : ms[i]? with
    | none => rw [h] at hx; cases hx
    | some x' =>
      cases h' : ms[j]? with
      | none => rw [h'] at hy; cases hy
      | some y' =>
        rw [h] at hx; rw [h'] at hy
        simp at hx hy; subst hx; subst hy
        simp only [decide_eq_false_iff_not] at hp ⊢
        obtain ⟨a1, a2⟩ := List.getElem?_eq_some_iff.1 h
        obtain ⟨b1, b2⟩ := List.getElem?_eq_some_iff.1 h'
        obtain ⟨c1, c2⟩ := List.getElem?_eq_some_iff.1 hg
        have p := List.pairwise_iff_getElem.1 hs i j a1 b1 hj
        rw [a2, b2] at p
        have q : g.1 ≤ x'.1 := by
          rcases Nat.eq_or_lt_of_le hi with e | e
          · subst e; rw [hg] at h; cases h; exact Nat.le_refl _
          · have := List.pairwise_iff_getElem.1 hs lo i c1 a1 e
            rw [c2, a2] at this; exact this
        omega

theorem group_plain {ms : List (Nat × Nat)} (hs : ms.Pairwise (fun a b => a.1 ≤ b.1)) {t lo : Nat} {g : Nat × Nat}
    (hg : ms[lo]? = some g) (hlt : ∀ j m, j < lo → ms[j]? = some m → m.1 < g.1)
    (hn : ∀ m ∈ ms, (isNear ms t m = true ↔ m.1 = g.1)) :
    (ms.drop lo).takeWhile (fun m => decide (some m.1 = (ms[lo]?).map (·.1))) = ms.filter (isNear ms t) := by
  rw [hg]
  simp only [Option.map_some, Option.some.injEq]
  rw [drop_takeWhile_eq_filter lo]
  · apply List.filter_congr
    intro m hm
    have := hn m hm
    cases hb : isNear ms t m with
    | true => rw [decide_eq_true_eq]; exact this.1 hb
    | false => rw [decide_eq_false_iff_not]; intro h; rw [this.2 h] at hb; cases hb
  · intro j x hj hx
    have := hlt j x hj hx
    simp only [decide_eq_false_iff_not]; omega
  · intro i j x y hi hj h h' hp
    simp only [decide_eq_false_iff_not] at hp ⊢
    obtain ⟨a1, a2⟩ := List.getElem?_eq_some_iff.1 h
    obtain ⟨b1, b2⟩ := List.getElem?_eq_some_iff.1 h'
    obtain ⟨c1, c2⟩ := List.getElem?_eq_some_iff.1 hg
    have p := List.pairwise_iff_getElem.1 hs i j a1 b1 hj
    rw [a2, b2] at p
    have q : g.1 ≤ x.1 := by
      rcases Nat.eq_or_lt_of_le hi with e | e
      · subst e; rw [hg] at h; cases h; exact Nat.le_refl _
      · have := List.pairwise_iff_getElem.1 hs lo i c1 a1 e
        rw [c2, a2] at this; exact this
    omega

/-! ### Running callbacks -/

theorem runCb_append (cb : List Visit → Int) (h a b : List Visit) :
    runCb cb h (a ++ b) =
      if (runCb cb h a).1 ≠ 0 then runCb cb h a else runCb cb (runCb cb h a).2 b := by
  induction a generalizing h with
  | nil => simp [runCb]
  | cons v a ih =>
    rw [List.cons_append]
    have e : ∀ l, runCb cb h (v :: l) =
        if cb (h ++ [v]) ≠ 0 then (cb (h ++ [v]), h ++ [v]) else runCb cb (h ++ [v]) l := fun _ => rfl
    rw [e, e]
    by_cases c : cb (h ++ [v]) ≠ 0
    · rw [if_pos c, if_pos c, if_pos (show (cb (h ++ [v]), h ++ [v]).fst ≠ 0 from c)]
    · rw [if_neg c, if_neg c]; exact ih _

theorem seqCalls_run {α : Type} {cb : List Visit → Int} {f : List Visit → α → Res} {g : α → List Visit} (l : List α)
    (hf : ∀ x ∈ l, ∀ h, f h x = .ret (runCb cb h (g x)).1 (runCb cb h (g x)).2) (h : List Visit) :
    seqCalls f h l = .ret (runCb cb h (l.flatMap g)).1 (runCb cb h (l.flatMap g)).2 := by
  induction l generalizing h with
  | nil => rfl
  | cons x l ih =>
    unfold seqCalls
    rw [hf x (by simp) h, List.flatMap_cons, runCb_append]
    simp only
    by_cases c : (runCb cb h (g x)).1 ≠ 0
    · rw [if_pos c, if_pos c]
    · rw [if_neg c, if_neg c]
      exact ih (fun y hy => hf y (by simp [hy])) _

theorem arr_filter (s t len : Nat) (hs : 0 < s) :
    (List.range len).filter (fun i => decide (i * s ≤ t ∧ t < (i + 1) * s)) =
      if len > t / s then [t / s] else [] := by
  have e : (List.range len).filter (fun i => decide (i * s ≤ t ∧ t < (i + 1) * s)) =
      (List.range len).filter (fun i => decide (i = t / s)) := by
    apply List.filter_congr
    intro i _
    rw [decide_eq_decide, ← Nat.le_div_iff_mul_le hs, ← Nat.div_lt_iff_lt_mul hs]
    omega
  rw [e]
  induction len with
  | zero => simp
  | succ n ih =>
    rw [List.range_succ, List.filter_append]
    have ih' := ih (by
      apply List.filter_congr
      intro i _
      rw [decide_eq_decide, ← Nat.le_div_iff_mul_le hs, ← Nat.div_lt_iff_lt_mul hs]
      omega)
    rw [ih']
    by_cases c : n = t / s
    · rw [if_neg (by omega), if_pos (by omega), List.filter_cons_of_pos (by simpa using c)]
      simp [c]
    · rw [List.filter_cons_of_neg (by simpa using c), List.filter_nil, List.append_nil]
      by_cases c2 : n > t / s
      · rw [if_pos c2, if_pos (by omega)]
      · rw [if_neg c2, if_neg (by omega)]

/-! ### C19 -/

/-- The walk makes exactly the calls for the nearest members, recursively, in order, stopping at the
first call that returns non-zero and returning its value.  The callback may depend on all calls made
so far. -/
theorem walk_nearest (env : Env) (hwf : WF env) (cb : List Visit → Int) (fuel : Nat) :
    ∀ (u : Nat), u < fuel → ∀ (h : List Visit) (acc d t : Nat),
      walk env cb fuel h acc d t u =
        .ret (runCb cb h (visitsBy env nearest fuel acc d t u)).1 (runCb cb h (visitsBy env nearest fuel acc d t u)).2 := by
  induction fuel with
  | zero => intro u hu; omega
  | succ fuel ih =>
    intro u hu h acc d t
    unfold walk visitsBy
    cases hd : env u with
    | other n => rfl
    | arr sz e len =>
      obtain ⟨hsz, hpos⟩ := hwf.arrSize u sz e len hd
      have hlt := hwf.arrLt u sz e len hd
      simp only
      rw [if_neg (by omega), arr_filter _ t len hpos]
      by_cases c : len > t / size env e
      · rw [if_pos c, if_pos c]
        have ht : t < sz := by
          rw [hsz]
          have := Nat.div_lt_iff_lt_mul hpos |>.1 c
          exact this
        rw [if_neg (by omega)]
        rw [List.flatMap_cons, List.flatMap_nil, List.append_nil]
        have hm : t - t / size env e * size env e = t % size env e := by
          have := Nat.div_add_mod t (size env e)
          rw [Nat.mul_comm] at this; omega
        rw [hm]
        simp only [runCb]
        by_cases c2 : cb (h ++ [⟨e, acc + t / size env e * size env e, d + 1, u, 0, acc⟩]) ≠ 0
        · rw [if_pos c2, if_pos c2]
        · rw [if_neg c2, if_neg c2]
          exact ih e (by omega) _ _ _ _
      · rw [if_neg c, if_neg c]; rfl
    | comp sz ms =>
      have hs := hwf.compSorted u sz ms hd
      have hlt := hwf.compLt u sz ms hd
      simp only
      rcases firstMember_spec hs t with ⟨h1, h2⟩ | ⟨lo, g, h1, h2, h3, h4, h5⟩
      · rw [h1]
        have : ms.zipIdx.filter (fun m => nearest sz ms t m.1) = [] := by
          rw [List.filter_eq_nil_iff]
          intro m hm
          have := h2 m.1 (by
            obtain ⟨j, hj⟩ := List.getElem?_of_mem hm
            rw [zipIdx_getElem?] at hj
            cases h : ms[j]? with
            | none => rw [h] at hj; cases hj
            | some x => rw [h] at hj; simp at hj; subst hj; exact List.mem_of_getElem? h)
          simp only [nearest, decide_eq_true_eq]; omega
        rw [this]; rfl
      · rw [h1]
        simp only
        rw [group_zip hs h2 h4 h5]
        by_cases c : t < sz
        · have : ms.zipIdx.filter (fun m => nearest sz ms t m.1) = ms.zipIdx.filter (fun m => isNear ms t m.1) := by
            apply List.filter_congr
            intro m _
            simp only [nearest, isNear, c, true_and]
          rw [this]
          apply seqCalls_run
          intro m hm h
          have hm' : m.1 ∈ ms := by
            obtain ⟨j, hj⟩ := List.getElem?_of_mem (List.mem_filter.1 hm).1
            rw [zipIdx_getElem?] at hj
            cases h : ms[j]? with
            | none => rw [h] at hj; cases hj
            | some x => rw [h] at hj; simp at hj; subst hj; exact List.mem_of_getElem? h
          rw [if_pos c]
          simp only [runCb]
          by_cases c2 : cb (h ++ [⟨m.1.2, acc + m.1.1, d + 1, u, m.2, acc⟩]) ≠ 0
          · rw [if_pos c2, if_pos c2]
          · rw [if_neg c2, if_neg c2]
            exact ih m.1.2 (by have := hlt m.1 hm'; omega) _ _ _ _
        · have : ms.zipIdx.filter (fun m => nearest sz ms t m.1) = [] := by
            rw [List.filter_eq_nil_iff]
            intro m _
            simp only [nearest, decide_eq_true_eq]; omega
          rw [this]
          have key := seqCalls_run (cb := cb) (g := fun _ : (Nat × Nat) × Nat => [])
            (f := fun h m => if t < sz then
              (if cb (h ++ [⟨m.1.2, acc + m.1.1, d + 1, u, m.2, acc⟩]) ≠ 0 then
                .ret (cb (h ++ [⟨m.1.2, acc + m.1.1, d + 1, u, m.2, acc⟩])) (h ++ [⟨m.1.2, acc + m.1.1, d + 1, u, m.2, acc⟩])
              else walk env cb fuel (h ++ [⟨m.1.2, acc + m.1.1, d + 1, u, m.2, acc⟩]) (acc + m.1.1) (d + 1) (t - m.1.1) m.1.2)
              else .ret 0 h)
            (ms.zipIdx.filter (fun m => isNear ms t m.1)) (by intro m _ h; rw [if_neg c]; rfl) h
          rw [show List.flatMap (fun _ : (Nat × Nat) × Nat => ([] : List Visit)) (ms.zipIdx.filter (fun m => isNear ms t m.1)) = [] by simp] at key
          exact key

/-- Layout: members at different offsets do not overlap, and lie within the object (as C lays out
structs and unions). -/
def Layout (env : Env) : Prop :=
  ∀ u sz ms, env u = .comp sz ms → (∀ m ∈ ms, m.1 + size env m.2 ≤ sz) ∧
    ∀ m ∈ ms, ∀ n ∈ ms, m.1 < n.1 → m.1 + size env m.2 ≤ n.1

/-- No padding: every byte of a composite belongs to all members whose offset is the greatest at or
below it. -/
def NoPadding (env : Env) : Prop :=
  ∀ u sz ms, env u = .comp sz ms → ∀ t, t < sz → ∀ m ∈ ms, m.1 ≤ t → (∀ x ∈ ms, x.1 ≤ t → x.1 ≤ m.1) →
    t < m.1 + size env m.2

theorem sublist_flatMap {α β : Type} {l₁ l₂ : List α} {f g : α → List β} (h : l₁.Sublist l₂)
    (hfg : ∀ x ∈ l₁, (f x).Sublist (g x)) : (l₁.flatMap f).Sublist (l₂.flatMap g) := by
  induction h with
  | slnil => exact List.Sublist.refl _
  | cons a _ ih => rw [List.flatMap_cons]; exact (ih hfg).trans (List.sublist_append_right _ _)
  | cons_cons a _ ih =>
    rw [List.flatMap_cons, List.flatMap_cons]
    exact (hfg a (by simp)).append (ih (fun x hx => hfg x (by simp [hx])))

theorem filter_sublist_filter {α : Type} {p q : α → Bool} (l : List α) (h : ∀ x ∈ l, p x = true → q x = true) :
    (l.filter p).Sublist (l.filter q) := by
  induction l with
  | nil => simp
  | cons a l ih =>
    have ih' := ih (fun x hx => h x (by simp [hx]))
    by_cases hp : p a = true
    · rw [List.filter_cons_of_pos hp, List.filter_cons_of_pos (h a (by simp) hp)]; exact ih'.cons_cons _
    · rw [List.filter_cons_of_neg hp]
      by_cases hq : q a = true
      · rw [List.filter_cons_of_pos hq]; exact ih'.cons _
      · rw [List.filter_cons_of_neg hq]; exact ih'

theorem mem_of_zipIdx {ms : List (Nat × Nat)} {m : (Nat × Nat) × Nat} (hm : m ∈ ms.zipIdx) : m.1 ∈ ms := by
  obtain ⟨j, hj⟩ := List.getElem?_of_mem hm
  rw [zipIdx_getElem?] at hj
  cases h : ms[j]? with
  | none => rw [h] at hj; cases hj
  | some x => rw [h] at hj; simp at hj; subst hj; exact List.mem_of_getElem? h

theorem spans_nearest {env : Env} (hl : Layout env) {u sz : Nat} {ms : List (Nat × Nat)} (hd : env u = .comp sz ms)
    {t : Nat} {m : Nat × Nat} (hm : m ∈ ms) (h : spans env sz ms t m = true) : nearest sz ms t m = true := by
  obtain ⟨h1, h2⟩ := hl u sz ms hd
  simp only [spans, decide_eq_true_eq] at h
  simp only [nearest, decide_eq_true_eq]
  refine ⟨by have := h1 m hm; omega, h.1, ?_⟩
  intro x hx hxt
  rcases Nat.lt_or_ge m.1 x.1 with h' | h'
  · have := h2 m hm x hx h'; omega
  · exact h'

theorem visits_sublist (env : Env) (hl : Layout env) (fuel acc d t u : Nat) :
    (visitsBy env (spans env) fuel acc d t u).Sublist (visitsBy env nearest fuel acc d t u) := by
  induction fuel generalizing acc d t u with
  | zero => exact List.Sublist.refl _
  | succ fuel ih =>
    unfold visitsBy
    cases hd : env u with
    | other n => exact List.Sublist.refl _
    | arr sz e len => exact sublist_flatMap (List.Sublist.refl _) (fun i _ => (ih _ _ _ _).cons_cons _)
    | comp sz ms =>
      exact sublist_flatMap
        (filter_sublist_filter _ (fun m hm hsp => spans_nearest hl hd (mem_of_zipIdx hm) hsp))
        (fun m _ => (ih _ _ _ _).cons_cons _)

theorem visits_eq (env : Env) (hl : Layout env) (hp : NoPadding env) (fuel acc d t u : Nat) :
    visitsBy env (spans env) fuel acc d t u = visitsBy env nearest fuel acc d t u := by
  induction fuel generalizing acc d t u with
  | zero => rfl
  | succ fuel ih =>
    unfold visitsBy
    cases hd : env u with
    | other n => rfl
    | arr sz e len => simp only [ih]
    | comp sz ms =>
      simp only [ih]
      congr 1
      apply List.filter_congr
      intro m hm
      have hm' := mem_of_zipIdx hm
      have a := spans_nearest (t := t) hl hd hm'
      have b : nearest sz ms t m.1 = true → spans env sz ms t m.1 = true := by
        intro h
        simp only [nearest, decide_eq_true_eq] at h
        simp only [spans, decide_eq_true_eq]
        exact ⟨h.2.1, hp u sz ms hd t h.1 m.1 hm' h.2.1 h.2.2⟩
      cases h1 : spans env sz ms t m.1 <;> cases h2 : nearest sz ms t m.1 <;> simp_all

/-- C19 (partial): for types laid out without padding the calls are exactly those for the subobjects
whose bytes contain the offset, each once, each before its own subobjects, up to the first call that
returns non-zero.  Partial: no padding, and array elements are not empty. -/
theorem walk_spanning_partial (env : Env) (hwf : WF env) (hl : Layout env) (hp : NoPadding env)
    (cb : List Visit → Int) (u t : Nat) :
    walk env cb (u + 1) [] 0 0 t u =
      .ret (runCb cb [] (visitsBy env (spans env) (u + 1) 0 0 t u)).1
        (runCb cb [] (visitsBy env (spans env) (u + 1) 0 0 t u)).2 := by
  rw [walk_nearest env hwf cb (u + 1) u (by omega), visits_eq env hl hp]

/-- With padding no spanning subobject is missed: with a callback that never stops, the subobjects
spanning the offset are called for in order, possibly among others. -/
theorem walk_complete (env : Env) (hwf : WF env) (hl : Layout env) (u t : Nat) :
    ∃ tr, walk env (fun _ => 0) (u + 1) [] 0 0 t u = .ret 0 tr ∧
      (visitsBy env (spans env) (u + 1) 0 0 t u).Sublist tr := by
  have hz : ∀ h l, runCb (fun _ => 0) h l = (0, h ++ l) := by
    intro h l
    induction l generalizing h with
    | nil => simp [runCb]
    | cons v l ih => unfold runCb; rw [if_neg (by simp), ih]; simp
  refine ⟨visitsBy env nearest (u + 1) 0 0 t u, ?_, visits_sublist env hl _ _ _ _ _⟩
  rw [walk_nearest env hwf _ (u + 1) u (by omega), hz]
  rfl

/-- `struct { struct { int32 a; int32 b; } x[2]; union { int32 c; int32 d; }; }`: 0 is the integer, 1 the
pair, 2 the array, 3 the union, 4 the whole. -/
def exEnv : Env := fun u =>
  match u with
  | 0 => .other 4
  | 1 => .comp 8 [(0, 0), (4, 0)]
  | 2 => .arr 16 1 2
  | 3 => .comp 4 [(0, 0), (0, 0)]
  | 4 => .comp 20 [(0, 2), (16, 3)]
  | _ => .other 1

theorem exEnv_ok : WF exEnv ∧ Layout exEnv ∧ NoPadding exEnv := by
  refine ⟨⟨?_, ?_, ?_, ?_⟩, ?_, ?_⟩
  · intro u sz e len h
    unfold exEnv at h; split at h <;> simp at h; omega
  · intro u sz e len h
    unfold exEnv at h; split at h <;> simp at h
    obtain ⟨rfl, rfl, rfl⟩ := h; decide
  · intro u sz ms h
    unfold exEnv at h
    split at h <;> simp at h <;> obtain ⟨rfl, rfl⟩ := h <;> decide
  · intro u sz ms h
    unfold exEnv at h
    split at h <;> simp at h <;> obtain ⟨rfl, rfl⟩ := h <;> decide
  · intro u sz ms h
    unfold exEnv at h
    split at h <;> simp at h <;> obtain ⟨rfl, rfl⟩ := h <;> decide
  · intro u sz ms h t ht
    unfold exEnv at h
    split at h <;> simp at h <;> obtain ⟨rfl, rfl⟩ := h <;>
      simp [size, exEnv, Desc.size] <;> omega

/-- Offset 13 in the structure: the array, its second element, the second member of that. -/
example : visitsBy exEnv (spans exEnv) 5 0 0 13 4 =
    [⟨2, 0, 1, 4, 0, 0⟩, ⟨1, 8, 2, 2, 0, 0⟩, ⟨0, 12, 3, 1, 1, 8⟩] := by decide

/-- In padding the preceding member is visited although its bytes do not contain the offset. -/
theorem walk_padding_fails : ∃ env : Env, WF env ∧ Layout env ∧
    walk env (fun _ => 0) 2 [] 0 0 2 1 = .ret 0 [⟨0, 0, 1, 1, 0, 0⟩] ∧
    visitsBy env (spans env) 2 0 0 2 1 = [] := by
  refine ⟨fun u => if u = 1 then .comp 8 [(0, 0), (4, 0)] else .other 1, ⟨?_, ?_, ?_, ?_⟩, ?_, by decide, by decide⟩
  · intro u sz e len h; split at h <;> simp at h
  · intro u sz e len h; split at h <;> simp at h
  · intro u sz ms h; split at h <;> simp at h
    obtain ⟨rfl, rfl⟩ := h; rename_i hu; subst hu; decide
  · intro u sz ms h; split at h <;> simp at h
    obtain ⟨rfl, rfl⟩ := h; decide
  · intro u sz ms h; simp only at h; split at h <;> simp at h
    obtain ⟨rfl, rfl⟩ := h; decide

/-- Walking an array of empty elements divides by zero. -/
theorem walk_empty_element_fails (env : Env) (cb : List Visit → Int) (u e len sz t : Nat) (h : env u = .arr sz e len)
    (he : size env e = 0) (hst : List Visit) : walk env cb (u + 1) hst 0 0 t u = .divZero := by
  unfold walk
  rw [h]
  simp only [he, if_true]

/-! ### C20 -/

/-- `Sub env u o v`: a subobject of type `v` lies at offset `o` within `u` (`u` itself included). -/
inductive Sub (env : Env) : Nat → Nat → Nat → Prop
  | self (u) : Sub env u 0 u
  | elt {u sz e len i o v} : env u = .arr sz e len → i < len → Sub env e o v → Sub env u (i * size env e + o) v
  | memb {u sz ms m o v} : env u = .comp sz ms → m ∈ ms → Sub env m.2 o v → Sub env u (m.1 + o) v

/-- `SpanAt env u t v`: a subobject of type `v` starts at offset `t` within `u` and each object on the
way from `u` to it contains the offset. -/
inductive SpanAt (env : Env) : Nat → Nat → Nat → Prop
  | self (u) : SpanAt env u 0 u
  | elt {u sz e len i o v} : env u = .arr sz e len → i < len → o < size env e → SpanAt env e o v →
      SpanAt env u (i * size env e + o) v
  | memb {u sz ms m o v} : env u = .comp sz ms → m ∈ ms → o < size env m.2 → SpanAt env m.2 o v →
      SpanAt env u (m.1 + o) v

theorem tryAll_spec {α : Type} (f : Nat → α → Found) (Q : α → Prop) (l : List α)
    (hf : ∀ x ∈ l, ∀ c, ∃ b c', f c x = .ret b c' ∧ (b = true ↔ Q x)) (cum : Nat) :
    ∃ b c', tryAll f cum l = .ret b c' ∧ (b = true ↔ ∃ x ∈ l, Q x) := by
  induction l generalizing cum with
  | nil => exact ⟨false, cum, rfl, by simp⟩
  | cons x l ih =>
    obtain ⟨b, c', h1, h2⟩ := hf x (by simp) cum
    unfold tryAll
    rw [h1]
    cases b with
    | true => exact ⟨true, c', rfl, by simp [h2.1 rfl]⟩
    | false =>
      obtain ⟨b2, c2, h3, h4⟩ := ih (fun y hy => hf y (by simp [hy])) c'
      refine ⟨b2, c2, h3, ?_⟩
      rw [h4]
      have : ¬ Q x := fun h => by simpa using h2.2 h
      simp [this]

/-- What the search decides. -/
inductive Chain (env : Env) (test : Option Nat) : Nat → Nat → Prop
  | here (u) : test = none ∨ test = some u → Chain env test 0 u
  | elt {u sz e len t} : env u = .arr sz e len → size env e ≠ 0 → t / size env e < len →
      Chain env test (t % size env e) e → Chain env test t u
  | memb {u sz ms m t} : env u = .comp sz ms → m ∈ ms → isNear ms t m = true → Chain env test (t - m.1) m.2 →
      Chain env test t u

theorem find_chain (env : Env) (hlt1 : ∀ u sz e len, env u = .arr sz e len → e < u)
    (hlt2 : ∀ u sz ms, env u = .comp sz ms → ∀ m ∈ ms, m.2 < u)
    (hsort : ∀ u sz ms, env u = .comp sz ms → ms.Pairwise (fun a b => a.1 ≤ b.1))
    (junk : Nat → Nat) (test : Option Nat) (fuel : Nat) :
    ∀ u, u < fuel → ∀ cum t, ∃ b c, find env junk test fuel cum t u = .ret b c ∧ (b = true ↔ Chain env test t u) := by
  induction fuel with
  | zero => intro u hu; omega
  | succ fuel ih =>
    intro u hu cum t
    unfold find
    by_cases c0 : t = 0 ∧ (test = none ∨ test = some u)
    · rw [if_pos c0]
      refine ⟨true, cum, rfl, ?_⟩
      obtain ⟨rfl, h⟩ := c0
      simp only [true_iff]
      exact .here u h
    · rw [if_neg c0]
      have noHere : ∀ {t'}, Chain env test t' u → t' = t → (∃ sz e len, env u = .arr sz e len ∧ size env e ≠ 0 ∧
          t / size env e < len ∧ Chain env test (t % size env e) e) ∨
          (∃ sz ms m, env u = .comp sz ms ∧ m ∈ ms ∧ isNear ms t m = true ∧ Chain env test (t - m.1) m.2) := by
        intro t' hc ht'
        cases hc with
        | here _ h => exact absurd ⟨ht'.symm, h⟩ c0
        | elt h1 h2 h3 h4 => subst ht'; exact Or.inl ⟨_, _, _, h1, h2, h3, h4⟩
        | memb h1 h2 h3 h4 => subst ht'; exact Or.inr ⟨_, _, _, h1, h2, h3, h4⟩
      cases hd : env u with
      | other n =>
        refine ⟨false, cum, rfl, ?_⟩
        simp only [Bool.false_eq_true, false_iff]
        intro hc
        rcases noHere hc rfl with ⟨sz, e, len, h, _⟩ | ⟨sz, ms, m, h, _⟩ <;> rw [hd] at h <;> cases h
      | arr sz e len =>
        simp only
        by_cases c : size env e ≠ 0 ∧ len > t / size env e
        · rw [if_pos c]
          obtain ⟨b, c', h1, h2⟩ := ih e (by have := hlt1 u sz e len hd; omega) (cum + junk u) (t % size env e)
          refine ⟨b, c', h1, ?_⟩
          rw [h2]
          constructor
          · exact fun h => .elt hd c.1 c.2 h
          · intro hc
            rcases noHere hc rfl with ⟨sz', e', len', h, _, _, h'⟩ | ⟨sz, ms, m, h, _⟩ <;> rw [hd] at h <;> cases h
            exact h'
        · rw [if_neg c]
          refine ⟨false, cum, rfl, ?_⟩
          simp only [Bool.false_eq_true, false_iff]
          intro hc
          rcases noHere hc rfl with ⟨sz', e', len', h, h1, h2, h'⟩ | ⟨sz, ms, m, h, _⟩ <;> rw [hd] at h <;> cases h
          exact c ⟨h1, h2⟩
      | comp sz ms =>
        have hs := hsort u sz ms hd
        simp only
        rcases firstMember_spec hs t with ⟨h1, h2⟩ | ⟨lo, g, h1, h2, h3, h4, h5⟩
        · rw [h1]
          refine ⟨false, cum, rfl, ?_⟩
          simp only [Bool.false_eq_true, false_iff]
          intro hc
          rcases noHere hc rfl with ⟨sz', e', len', h, _⟩ | ⟨sz, ms, m, h, hm, hn, _⟩ <;> rw [hd] at h <;> cases h
          simp only [isNear, decide_eq_true_eq] at hn
          have := h2 m hm; omega
        · rw [h1]
          simp only
          rw [group_plain hs h2 h4 h5]
          have hcase : (∃ x ∈ ms.filter (isNear ms t), Chain env test (t - x.1) x.2) ↔ Chain env test t u := by
            constructor
            · rintro ⟨x, hx, hc⟩
              rw [List.mem_filter] at hx
              exact .memb hd hx.1 hx.2 hc
            · intro hc
              rcases noHere hc rfl with ⟨sz', e', len', h, _⟩ | ⟨sz, ms, m, h, hm, hn, h'⟩ <;> rw [hd] at h <;> cases h
              exact ⟨m, List.mem_filter.2 ⟨hm, hn⟩, h'⟩
          cases hgr : ms.filter (isNear ms t) with
          | nil =>
            have : g ∈ ms.filter (isNear ms t) := List.mem_filter.2 ⟨List.mem_of_getElem? h2, h3⟩
            rw [hgr] at this; simp at this
          | cons g' gs =>
            simp only
            rw [← hgr]
            obtain ⟨b, c', e1, e2⟩ := tryAll_spec (fun cum m => find env junk test fuel cum (t - m.1) m.2)
              (fun m => Chain env test (t - m.1) m.2) (ms.filter (isNear ms t))
              (fun x hx c => ih x.2 (by have := hlt2 u sz ms hd x (List.mem_filter.1 hx).1; omega) c (t - x.1)) (cum + g'.1)
            exact ⟨b, c', e1, e2.trans hcase⟩

theorem chain_sub {env : Env} {test : Option Nat} {t u : Nat} (h : Chain env test t u) :
    ∃ v, Sub env u t v ∧ (test = none ∨ test = some v) := by
  induction h with
  | here u h => exact ⟨u, .self u, h⟩
  | @elt u sz e len t h1 h2 h3 h4 ih =>
    obtain ⟨v, hv, ht⟩ := ih
    refine ⟨v, ?_, ht⟩
    have := Sub.elt h1 h3 hv
    have e : t / size env e * size env e + t % size env e = t := by
      rw [Nat.mul_comm]; exact Nat.div_add_mod t (size env e)
    rw [e] at this; exact this
  | @memb u sz ms m t h1 h2 h3 h4 ih =>
    obtain ⟨v, hv, ht⟩ := ih
    refine ⟨v, ?_, ht⟩
    simp only [isNear, decide_eq_true_eq] at h3
    have := Sub.memb h1 h2 hv
    have e : m.1 + (t - m.1) = t := by omega
    rw [e] at this; exact this

theorem span_chain {env : Env} (hl : Layout env) {u t v : Nat} (h : SpanAt env u t v) (test : Option Nat)
    (ht : test = none ∨ test = some v) : Chain env test t u := by
  induction h with
  | self u => exact .here u ht
  | @elt u sz e len i o v h1 h2 h3 h4 ih =>
    have hd : (i * size env e + o) / size env e = i := by
      rw [Nat.mul_comm, Nat.mul_add_div (by omega), Nat.div_eq_of_lt h3]; omega
    have hm : (i * size env e + o) % size env e = o := by
      rw [Nat.mul_comm, Nat.mul_add_mod, Nat.mod_eq_of_lt h3]
    refine .elt h1 (by omega) (by rw [hd]; exact h2) ?_
    rw [hm]; exact ih ht
  | @memb u sz ms m o v h1 h2 h3 h4 ih =>
    refine .memb h1 h2 ?_ (by rw [Nat.add_sub_cancel_left]; exact ih ht)
    have := spans_nearest (t := m.1 + o) hl h1 h2 (by simp only [spans, decide_eq_true_eq]; omega)
    simp only [nearest, decide_eq_true_eq] at this
    simp only [isNear, decide_eq_true_eq]
    exact this.2

/-- C20: the search always answers.  If it succeeds, a subobject of the tested type (of any type, for a
null test) lies at exactly the target offset.  If it fails, no object on any chain of subobjects
containing the target offset starts there with a matching type. -/
theorem find_correct (env : Env) (hwf : WF env) (hl : Layout env) (junk : Nat → Nat) (test : Option Nat) (t u : Nat) :
    ∃ b c, find env junk test (u + 1) 0 t u = .ret b c ∧
      (b = true → ∃ v, Sub env u t v ∧ (test = none ∨ test = some v)) ∧
      (b = false → ∀ v, SpanAt env u t v → test ≠ none ∧ test ≠ some v) := by
  obtain ⟨b, c, h1, h2⟩ := find_chain env hwf.arrLt hwf.compLt hwf.compSorted junk test (u + 1) u (by omega) 0 t
  refine ⟨b, c, h1, fun hb => chain_sub (h2.1 hb), ?_⟩
  intro hb v hv
  rw [hb] at h2
  constructor
  · intro ht; simpa using h2.2 (span_chain hl hv test (Or.inl ht))
  · intro ht; simpa using h2.2 (span_chain hl hv test (Or.inr ht))

/-- The integer at offset 12 of the example structure is found, and the pair is not at offset 12. -/
example : find exEnv (fun _ => 0) (some 0) 5 0 12 4 = .ret true 4 ∧ find exEnv (fun _ => 0) (some 1) 5 0 12 4 = .ret false 4 := by
  decide

/-- The reported cumulative offset is wrong below arrays: the element's offset is not added (and, in
fact, whatever the unset field holds is). -/
theorem find_cumulative_fails : find exEnv (fun _ => 0) (some 0) 5 0 12 4 = .ret true 4 ∧ Sub exEnv 4 12 0 := by
  refine ⟨by decide, ?_⟩
  have a : Sub exEnv 1 (4 + 0) 0 := Sub.memb (sz := 8) (ms := [(0, 0), (4, 0)]) (m := (4, 0)) rfl (by simp) (.self 0)
  have b : Sub exEnv 2 (1 * 8 + (4 + 0)) 0 := Sub.elt (sz := 16) (e := 1) (len := 2) (i := 1) rfl (by decide) a
  exact Sub.memb (sz := 20) (ms := [(0, 2), (16, 3)]) (m := (0, 2)) (o := 12) rfl (by simp) b

end Liballocs.Subobject
