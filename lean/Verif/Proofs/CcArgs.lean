import Verif.Model.CcArgs
/-! Auxiliary facts for `Verif.Props.CcArgs`: file names, dictionaries, temporary files. -/
namespace Liballocs.CcArgs

theorem lastCut_none {c : Char} : ∀ {w : W}, c ∉ w → lastCut c w = none := by
  intro w
  induction w with
  | nil => intro _; rfl
  | cons a t ih =>
    intro h
    simp only [List.mem_cons, not_or] at h
    simp [lastCut, ih h.2, Ne.symm h.1]

theorem lastCut_some {c : Char} : ∀ {x y : W}, c ∉ y → lastCut c (x ++ c :: y) = some (x, y) := by
  intro x y h
  induction x with
  | nil => simp [lastCut, lastCut_none h]
  | cons a t ih => simp [lastCut, ih]

/-- What is after the last slash. -/
def leaf (w : W) : W := (w.reverse.takeWhile (· ≠ '/')).reverse

theorem takeWhile_append_mem {p : Char → Bool} {a b : W} (h : ∃ x ∈ a, p x = false) : (a ++ b).takeWhile p = a.takeWhile p := by
  induction a with
  | nil => obtain ⟨x, hx, _⟩ := h; cases hx
  | cons y t ih =>
    by_cases hy : p y = true
    · rw [List.cons_append, List.takeWhile_cons_of_pos hy, List.takeWhile_cons_of_pos hy]
      congr 1
      apply ih
      obtain ⟨x, hx, hp⟩ := h
      rcases List.mem_cons.1 hx with rfl | hx
      · rw [hy] at hp; cases hp
      · exact ⟨x, hx, hp⟩
    · simp [List.takeWhile_cons, hy]

theorem takeWhile_all {p : Char → Bool} {a b : W} (h : ∀ x ∈ a, p x = true) : (a ++ b).takeWhile p = a ++ b.takeWhile p := by
  induction a with
  | nil => rfl
  | cons y t ih =>
    rw [List.cons_append, List.takeWhile_cons_of_pos (h y (List.mem_cons_self ..)), ih (fun x hx => h x (List.mem_cons_of_mem _ hx))]
    rfl

theorem split_slash (w : W) : ('/' ∉ w) ∨ ∃ x y, w = x ++ '/' :: y ∧ '/' ∉ y := by
  induction w with
  | nil => left; simp
  | cons a t ih =>
    rcases ih with h | ⟨x, y, rfl, hy⟩
    · by_cases ha : a = '/'
      · right; exact ⟨[], t, by simp [ha], h⟩
      · left; simp [h, Ne.symm ha]
    · right; exact ⟨a :: x, y, rfl, hy⟩

theorem leaf_noslash {w : W} (h : '/' ∉ w) : leaf w = w := by
  unfold leaf
  have := takeWhile_all (p := fun c => decide (c ≠ '/')) (a := w.reverse) (b := []) (by
    intro x hx; simp; rintro rfl; exact h (by simpa using hx))
  simp only [List.append_nil, List.takeWhile_nil] at this
  rw [this, List.reverse_reverse]

theorem leaf_slash {x y : W} (h : '/' ∉ y) : leaf (x ++ '/' :: y) = y := by
  unfold leaf
  have : (x ++ '/' :: y).reverse = y.reverse ++ ('/' :: x.reverse) := by simp
  rw [this, takeWhile_all (by intro z hz; simp; rintro rfl; exact h (by simpa using hz))]
  simp

theorem baseOf_leaf (w : W) : baseOf w = leaf w := by
  rcases split_slash w with h | ⟨x, y, rfl, hy⟩
  · rw [leaf_noslash h]; simp [baseOf, lastCut_none h]
  · rw [leaf_slash hy]; simp [baseOf, lastCut_some hy]

theorem leaf_append {a b : W} (h : '/' ∉ b) : leaf (a ++ b) = leaf a ++ b := by
  rcases split_slash a with ha | ⟨x, y, rfl, hy⟩
  · rw [leaf_noslash ha, leaf_noslash (by simp [ha, h])]
  · rw [leaf_slash hy, List.append_assoc, List.cons_append, leaf_slash (by simp [hy, h])]

theorem extOf_eq {st e : W} {ch : Char} (hs : ch ≠ '/') (hd : ch ≠ '.') (he : '/' ∉ e) (hed : '.' ∉ e) :
    extOfBase (baseOf (st ++ ch :: '.' :: e)) = '.' :: e := by
  rw [baseOf_leaf, show st ++ ch :: '.' :: e = st ++ (ch :: '.' :: e) from rfl, leaf_append (by simp [Ne.symm hs, he])]
  have : leaf st ++ ch :: '.' :: e = (leaf st ++ [ch]) ++ '.' :: e := by simp
  rw [this]
  unfold extOfBase
  rw [lastCut_some hed]
  simp [hd]

theorem objName_eq {st e : W} {ch : Char} (hs : ch ≠ '/') (hd : ch ≠ '.') (he : '/' ∉ e) (hed : '.' ∉ e) :
    objName (st ++ ch :: '.' :: e) = leaf st ++ [ch] ++ w! ".o" := by
  unfold objName
  rw [baseOf_leaf, show st ++ ch :: '.' :: e = st ++ (ch :: '.' :: e) from rfl, leaf_append (by simp [Ne.symm hs, he])]
  have : leaf st ++ ch :: '.' :: e = (leaf st ++ [ch]) ++ '.' :: e := by simp
  rw [this]
  unfold stemOfBase
  rw [lastCut_some hed]
  simp [hd]

/-! ### Dictionaries -/

/-- Each word once, where it is first. -/
def dedup : List W → List W
  | [] => []
  | a :: t => a :: (dedup t).filter fun b => decide (b ≠ a)

theorem mem_dedup {x : W} : ∀ {l : List W}, x ∈ dedup l ↔ x ∈ l := by
  intro l
  induction l with
  | nil => simp [dedup]
  | cons a t ih =>
    simp only [dedup, List.mem_cons, List.mem_filter, decide_eq_true_eq, ih]
    by_cases h : x = a <;> simp [h]

theorem dedup_nodup : ∀ {l : List W}, (dedup l).Nodup := by
  intro l
  induction l with
  | nil => simp [dedup]
  | cons a t ih =>
    simp only [dedup, List.nodup_cons, List.mem_filter, decide_eq_true_eq]
    exact ⟨fun h => h.2 rfl, ih.filter _⟩

theorem dedup_of_nodup : ∀ {l : List W}, l.Nodup → dedup l = l := by
  intro l
  induction l with
  | nil => intro _; rfl
  | cons a t ih =>
    intro h
    simp only [List.nodup_cons] at h
    simp only [dedup, ih h.2]
    congr 1
    rw [List.filter_eq_self]
    intro b hb
    simp only [decide_eq_true_eq]
    rintro rfl
    exact h.1 hb

theorem dedup_filter (p : W → Bool) : ∀ {l : List W}, (dedup l).filter p = dedup (l.filter p) := by
  intro l
  induction l with
  | nil => rfl
  | cons a t ih =>
    by_cases h : p a = true
    · simp only [dedup, List.filter_cons, h, if_true, List.filter_filter]
      congr 1
      rw [← ih, List.filter_filter]
      congr 1
      funext b
      rw [Bool.and_comm]
    · simp only [dedup, List.filter_cons, h, List.filter_filter, Bool.false_eq_true, if_false]
      rw [← ih]
      apply List.filter_congr
      intro b _
      by_cases hb : b = a
      · subst hb; simp [h]
      · simp [hb]

theorem dedup_snoc {a : W} : ∀ {l : List W}, dedup (l ++ [a]) = if a ∈ l then dedup l else dedup l ++ [a] := by
  intro l
  induction l with
  | nil => rfl
  | cons b t ih =>
    simp only [List.cons_append, dedup, ih, List.mem_cons]
    by_cases hab : a = b
    · subst hab
      by_cases h : a ∈ t <;> simp [h, List.filter_append]
    · by_cases h : a ∈ t <;> simp [h, hab, List.filter_append]

theorem put_keys {e : W × Option W} : ∀ {d : Dict}, (put d e).map (·.1) = if e.1 ∈ d.map (·.1) then d.map (·.1) else d.map (·.1) ++ [e.1] := by
  intro d
  induction d with
  | nil => simp [put]
  | cons a t ih =>
    by_cases h : a.1 = e.1
    · simp [put, h]
    · simp only [put, h, if_false, List.map_cons, ih, List.mem_cons, Ne.symm h, false_or]
      split <;> simp

theorem put_mem {e x : W × Option W} : ∀ {d : Dict}, x ∈ put d e → x ∈ d ∨ x = e := by
  intro d
  induction d with
  | nil => simp [put]
  | cons a t ih =>
    by_cases h : a.1 = e.1
    · simp only [put, h, if_true, List.mem_cons]
      rintro (h | h)
      · exact .inr h
      · exact .inl (.inr h)
    · simp only [put, h, if_false, List.mem_cons]
      rintro (h | h)
      · exact .inl (.inl h)
      · rcases ih h with h | h
        · exact .inl (.inr h)
        · exact .inr h

theorem dict_snoc {l : List (W × Option W)} {e : W × Option W} : dict (l ++ [e]) = put (dict l) e := by
  simp [dict, List.foldl_append]

theorem snoc_ind {α : Type} {P : List α → Prop} (h0 : P []) (h1 : ∀ l a, P l → P (l ++ [a])) : ∀ l, P l := by
  intro l
  have : ∀ n (l : List α), l.length = n → P l := by
    intro n
    induction n with
    | zero => intro l h; rw [List.length_eq_zero_iff.1 h]; exact h0
    | succ n ih =>
      intro l h
      have hne : l ≠ [] := by rintro rfl; simp at h
      rw [← List.dropLast_concat_getLast hne]
      exact h1 _ _ (ih _ (by simp [h]))
  exact this _ l rfl

theorem dict_keys : ∀ l : List (W × Option W), (dict l).map (·.1) = dedup (l.map (·.1)) := by
  apply snoc_ind
  · rfl
  · intro l e ih
    rw [dict_snoc, put_keys, ih, List.map_append, List.map_cons, List.map_nil, dedup_snoc]
    simp only [mem_dedup]

theorem dict_mem : ∀ (l : List (W × Option W)) {x}, x ∈ dict l → x ∈ l := by
  apply snoc_ind (P := fun l => ∀ {x}, x ∈ dict l → x ∈ l)
  · intro x h; simpa [dict] using h
  · intro l e ih x h
    rw [dict_snoc] at h
    rcases put_mem h with h | h
    · simp [ih h]
    · simp [h]

theorem put_append_right {a b : Dict} {e : W × Option W} (h : e.1 ∉ a.map (·.1)) : put (a ++ b) e = a ++ put b e := by
  induction a with
  | nil => rfl
  | cons x t ih =>
    simp only [List.map_cons, List.mem_cons, not_or] at h
    simp [put, Ne.symm h.1, ih h.2]

theorem dict_nodup : ∀ l : List (W × Option W), (l.map (·.1)).Nodup → dict l = l := by
  apply snoc_ind
  · intro _; rfl
  · intro l e ih h
    simp only [List.map_append, List.map_cons, List.map_nil, List.nodup_append] at h
    rw [dict_snoc, ih h.1]
    have : e.1 ∉ l.map (·.1) := fun hc => h.2.2 _ hc e.1 (by simp) rfl
    have := put_append_right (b := []) this
    simpa [put] using this

theorem put_filter (p : W → Bool) {e : W × Option W} : ∀ {d : Dict}, (put d e).filter (fun x => p x.1) =
    if p e.1 then put (d.filter fun x => p x.1) e else d.filter fun x => p x.1 := by
  intro d
  induction d with
  | nil => simp [put, List.filter_cons]
  | cons a t ih =>
    by_cases h : a.1 = e.1
    · by_cases hp : p e.1 = true <;> simp [put, h, List.filter_cons, hp]
    · by_cases hp : p e.1 = true
      · by_cases ha : p a.1 = true <;> simp [put, h, List.filter_cons, hp, ha, ih]
      · by_cases ha : p a.1 = true <;> simp [put, h, List.filter_cons, hp, ha, ih]

theorem dict_filter (p : W → Bool) : ∀ l : List (W × Option W), (dict l).filter (fun x => p x.1) = dict (l.filter fun x => p x.1) := by
  apply snoc_ind
  · rfl
  · intro l e ih
    rw [dict_snoc, put_filter, ih, List.filter_append]
    by_cases h : p e.1 = true
    · simp [h, dict_snoc]
    · simp [h]

theorem put_comm {k k' : W} {v v' : Option W} (h : k ≠ k') : ∀ {d : Dict}, k ∈ d.map (·.1) →
    put (put d (k', v')) (k, v) = put (put d (k, v)) (k', v') := by
  intro d
  induction d with
  | nil => intro hm; simp at hm
  | cons a t ih =>
    intro hm
    by_cases ha : a.1 = k
    · simp [put, ha, h]
    · by_cases hb : a.1 = k'
      · simp [put, hb, Ne.symm h]
      · simp only [List.map_cons, List.mem_cons, Ne.symm ha, false_or] at hm
        simp [put, ha, hb, ih hm]

theorem put_put {k : W} {v v' : Option W} : ∀ {d : Dict}, put (put d (k, v')) (k, v) = put d (k, v) := by
  intro d
  induction d with
  | nil => simp [put]
  | cons a t ih =>
    by_cases ha : a.1 = k <;> simp [put, ha, ih]

theorem mem_put {k : W} {v : Option W} {d : Dict} : k ∈ (put d (k, v)).map (·.1) := by
  rw [put_keys]; split <;> simp_all

theorem mem_foldl_put {k : W} : ∀ {l d : Dict}, k ∈ d.map (·.1) → k ∈ (l.foldl put d).map (·.1) := by
  intro l
  induction l with
  | nil => intro d h; exact h
  | cons e t ih =>
    intro d h
    apply ih
    rw [put_keys]; split <;> simp_all

theorem foldl_put_comm {k : W} {v : Option W} : ∀ {l d : Dict}, k ∉ l.map (·.1) → k ∈ d.map (·.1) →
    put (l.foldl put d) (k, v) = l.foldl put (put d (k, v)) := by
  intro l
  induction l with
  | nil => intro d _ _; rfl
  | cons e t ih =>
    intro d h hm
    simp only [List.map_cons, List.mem_cons, not_or] at h
    simp only [List.foldl_cons]
    rw [ih h.2 (by rw [put_keys]; split <;> simp_all)]
    rw [show e = (e.1, e.2) from rfl, put_comm h.1 hm]

theorem foldl_put_put {e : W × Option W} : ∀ {l d : Dict}, (l.map (·.1)).Nodup → (put l e).foldl put d = put (l.foldl put d) e := by
  intro l
  induction l with
  | nil => intro d _; rfl
  | cons a t ih =>
    intro d h
    simp only [List.map_cons, List.nodup_cons] at h
    by_cases ha : a.1 = e.1
    · simp only [put, ha, if_true, List.foldl_cons]
      obtain ⟨k, v⟩ := e
      obtain ⟨k', v'⟩ := a
      simp only at ha; subst ha
      rw [foldl_put_comm h.1 mem_put, put_put]
    · simp only [put, ha, if_false, List.foldl_cons, ih h.2]

theorem foldl_put_dict : ∀ (b : List (W × Option W)) (d : Dict), (dict b).foldl put d = b.foldl put d := by
  apply snoc_ind (P := fun b => ∀ d : Dict, (dict b).foldl put d = b.foldl put d)
  · intro d; rfl
  · intro l e ih d
    rw [dict_snoc, foldl_put_put (by rw [dict_keys]; exact dedup_nodup), ih]
    simp

theorem dict_flatMap (f : Nat → List (W × Option W)) (ps : List Nat) : dict (ps.flatMap fun p => dict (f p)) = dict (ps.flatMap f) := by
  unfold dict
  suffices h : ∀ (ps : List Nat) (d : Dict), (ps.flatMap fun p => dict (f p)).foldl put d = (ps.flatMap f).foldl put d from h ps []
  intro ps
  induction ps with
  | nil => intro d; rfl
  | cons p t ih =>
    intro d
    simp only [List.flatMap_cons, List.foldl_append, foldl_put_dict, ih]

/-! ### Temporary files -/

theorem getTemp_set {tm : Temps} {k v k' : W} : getTemp (setTemp tm k v) k' = if k' = k then v else getTemp tm k' := by
  induction tm with
  | nil => by_cases h : k' = k <;> simp [setTemp, getTemp, h, eq_comm]
           intro hc; exact absurd hc.symm h
  | cons e t ih =>
    by_cases he : e.1 = k
    · by_cases h : k' = k
      · simp [setTemp, getTemp, he, h]
      · simp [setTemp, getTemp, he, h, Ne.symm h]
    · by_cases h : k' = k
      · simp [setTemp, getTemp, he, h] at *; exact ih
      · by_cases hk : e.1 = k' <;> simp [setTemp, getTemp, he, h, hk, ih]

end Liballocs.CcArgs
