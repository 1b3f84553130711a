import Verif.Model.TwoLinks

/-!
# Linking twice: properties
-/

namespace Liballocs.TwoLinks

open CcArgs (W deferred)

/-! ## What is expected -/

/-- What the compiler alone does: all items in order. -/
def once (E : W → Input) (items : List W) : Option St := link start (items.map E)

/-- Neither an archive nor anything that contains one. -/
def NoArchive (i : Input) : Prop := ∀ ms, i ≠ .archive ms

/-- A shared library. -/
def IsShared (i : Input) : Prop := ∃ ds, i = .shared ds

/-- The objects among inputs. -/
def objs (is : List Input) : List Obj := is.filterMap fun i => match i with | .obj o => some o | _ => none

/-- Symbols that are defined by shared libraries among inputs. -/
def shdefs : List Input → List Nat
  | [] => []
  | .shared ds :: t => ds ++ shdefs t
  | _ :: t => shdefs t

/-- A file is a part of an input: of the object, or of one of the archive's members. -/
def PartOf (p : Nat) : Input → Prop
  | .obj o => p ∈ o.parts
  | .archive ms => ∃ m ∈ ms, p ∈ m.parts
  | .shared _ => False

/-! ## Lemmas -/

/-- No undefined symbol has a definition. -/
def Good (s : St) : Prop := ∀ x ∈ s.undef, x ∉ s.defs ∧ x ∉ s.shared

theorem take_some {s : St} {o : Obj} {t : St} (h : take s o = some t) :
    (∀ d ∈ o.defs, d ∉ s.defs) ∧ t.incl = s.incl ++ o.parts ∧ t.defs = s.defs ++ o.defs ∧ t.shared = s.shared ∧
    t.undef = (s.undef ++ o.refs).filter fun x => decide (x ∉ s.defs ++ o.defs ∧ x ∉ s.shared) := by
  unfold take at h
  split at h
  · cases h
  · rename_i hn
    cases h
    refine ⟨?_, rfl, rfl, rfl, rfl⟩
    intro d hd hs
    exact hn (List.any_eq_true.mpr ⟨d, hd, by simpa using hs⟩)

theorem take_ok {s : St} {o : Obj} (h : ∀ d ∈ o.defs, d ∉ s.defs) :
    take s o = some { incl := s.incl ++ o.parts, defs := s.defs ++ o.defs, shared := s.shared,
                      undef := (s.undef ++ o.refs).filter fun x => decide (x ∉ s.defs ++ o.defs ∧ x ∉ s.shared) } := by
  unfold take
  rw [if_neg]
  intro hc
  obtain ⟨d, hd, hs⟩ := List.any_eq_true.mp hc
  exact h d hd (by simpa using hs)

theorem take_good {s t : St} {o : Obj} (h : take s o = some t) : Good t := by
  obtain ⟨_, _, hd, hs, hu⟩ := take_some h
  intro x hx
  rw [hu] at hx
  have := (List.mem_filter.mp hx).2
  rw [hd, hs]
  simpa using this

theorem pull_good (ms : List Obj) (n : Nat) : ∀ (s t : St), Good s → pull ms n s = some t → Good t ∧ t.shared = s.shared := by
  induction n with
  | zero => intro s t hg h; cases h; exact ⟨hg, rfl⟩
  | succ n ih =>
    intro s t hg h
    unfold pull at h
    split at h
    · cases h; exact ⟨hg, rfl⟩
    · split at h
      · cases h
      · rename_i u hu
        obtain ⟨g, e⟩ := ih u t (take_good hu) h
        exact ⟨g, e.trans (take_some hu).2.2.2.1⟩

theorem step_good {s t : St} {i : Input} (hg : Good s) (h : step s i = some t) : Good t := by
  cases i with
  | obj o => exact take_good h
  | archive ms => exact (pull_good ms _ s t hg h).1
  | shared ds =>
    cases h
    intro x hx
    obtain ⟨h1, h2⟩ := List.mem_filter.mp hx
    have := hg x h1
    simp only [List.mem_append, not_or]
    exact ⟨this.1, this.2, by simpa using h2⟩

theorem link_good (is : List Input) : ∀ (s t : St), Good s → link s is = some t → Good t := by
  induction is with
  | nil => intro s t hg h; cases h; exact hg
  | cons i is ih =>
    intro s t hg h
    unfold link at h
    split at h
    · cases h
    · rename_i u hu
      exact ih u t (step_good hg hu) h

theorem good_start : Good start := by intro x hx; cases hx

theorem link_cons (s : St) (i : Input) (is : List Input) : link s (i :: is) = (step s i).bind fun t => link t is := by
  show (match step s i with | none => none | some t => link t is) = _
  cases step s i <;> rfl

theorem link_append (as bs : List Input) : ∀ s, link s (as ++ bs) = (link s as).bind fun t => link t bs := by
  induction as with
  | nil => intro s; rfl
  | cons i as ih =>
    intro s
    rw [List.cons_append, link_cons, link_cons]
    cases step s i with
    | none => rfl
    | some t => exact ih t

/-- Without shared libraries, none of the symbols is one of theirs. -/
theorem link_unshared (is : List Input) (hn : ∀ i ∈ is, ¬ IsShared i) : ∀ (s t : St), Good s → link s is = some t → t.shared = s.shared := by
  induction is with
  | nil => intro s t _ h; cases h; rfl
  | cons i is ih =>
    intro s t hg h
    unfold link at h
    split at h
    · cases h
    · rename_i u hu
      have e : u.shared = s.shared := by
        cases i with
        | obj o => exact (take_some hu).2.2.2.1
        | archive ms => exact (pull_good ms _ s u hg hu).2
        | shared ds => exact absurd ⟨ds, rfl⟩ (hn _ (List.mem_cons_self ..))
      exact (ih (fun j hj => hn j (List.mem_cons_of_mem _ hj)) u t (step_good hg hu) h).trans e

theorem relocatable_unshared (is : List Input) (hn : ∀ i ∈ is, ¬ IsShared i) :
    relocatable is = (link start is).map fun s => ⟨s.incl, s.defs, s.undef⟩ := by
  unfold relocatable
  rw [if_neg]
  · cases link start is <;> rfl
  · intro hc
    obtain ⟨i, hi, h⟩ := List.any_eq_true.mp hc
    cases i with
    | shared ds => exact hn _ hi ⟨ds, rfl⟩
    | obj o => exact absurd h (by simp)
    | archive ms => exact absurd h (by simp)

/-- A relocatable file stands for what was linked to it. -/
theorem take_whole (s : St) (hg : Good s) (hs : s.shared = []) : take start ⟨s.incl, s.defs, s.undef⟩ = some s := by
  rw [take_ok (by intro d _ h; cases h)]
  obtain ⟨incl, defs, shared, undef⟩ := s
  dsimp only at hs hg
  subst hs
  have : (start.undef ++ undef).filter (fun x => decide (x ∉ start.defs ++ defs ∧ x ∉ start.shared)) = undef := by
    show undef.filter _ = undef
    rw [List.filter_eq_self]
    intro x hx
    have := (hg x hx).1
    simpa [start] using this
  show some (St.mk _ _ _ _) = _
  rw [this]
  rfl

/-! ## Theorems -/

/-- Where all libraries that are named by `-l` or are named as shared libraries come after everything else, and everything else is objects
and archives, linking twice gives just what linking once gives, be it a failure. -/
theorem last_partial (E : W → Input) (as bs : List W) (ha : ∀ w ∈ as, deferred w = false) (hb : ∀ w ∈ bs, deferred w = true)
    (hs : ∀ w ∈ as, ¬ IsShared (E w)) : two E (as ++ bs) = once E (as ++ bs) := by
  unfold two once
  have e1 : (as ++ bs).filter (fun i => !deferred i) = as := by
    rw [List.filter_append, List.filter_eq_self.mpr (fun w hw => by simp [ha w hw]),
      List.filter_eq_nil_iff.mpr (fun w hw => by simp [hb w hw]), List.append_nil]
  have e2 : (as ++ bs).filter deferred = bs := by
    rw [List.filter_append, List.filter_eq_nil_iff.mpr (fun w hw => by simp [ha w hw]),
      List.filter_eq_self.mpr (fun w hw => hb w hw), List.nil_append]
  have hn : ∀ i ∈ as.map E, ¬ IsShared i := by
    intro i hi
    obtain ⟨w, hw, rfl⟩ := List.mem_map.mp hi
    exact hs w hw
  rw [e1, e2, relocatable_unshared _ hn, List.map_append, link_append]
  cases h : link start (as.map E) with
  | none => rfl
  | some s =>
    show link start (.obj _ :: _) = link s _
    rw [link_cons]
    show (take start _).bind _ = _
    rw [take_whole s (link_good _ _ _ good_start h) (link_unshared _ hn _ _ good_start h)]
    rfl

/-- What has been taken and defined does not depend on shared libraries, if there are no archives. -/
theorem link_objs (is : List Input) (hn : ∀ i ∈ is, NoArchive i) : ∀ (s u : St), s.incl = u.incl → s.defs = u.defs →
    (link s is = none ∧ link u ((objs is).map .obj) = none) ∨
    ∃ t v, link s is = some t ∧ link u ((objs is).map .obj) = some v ∧ t.incl = v.incl ∧ t.defs = v.defs ∧
      (∀ x, x ∈ t.shared ↔ x ∈ s.shared ∨ x ∈ shdefs is) ∧ v.shared = u.shared := by
  induction is with
  | nil => intro s u h1 h2; exact Or.inr ⟨s, u, rfl, rfl, h1, h2, by simp [shdefs], rfl⟩
  | cons i is ih =>
    intro s u h1 h2
    have ih := ih (fun j hj => hn j (List.mem_cons_of_mem _ hj))
    cases i with
    | archive ms => exact absurd rfl (hn _ (List.mem_cons_self ..) ms)
    | shared ds =>
      rw [link_cons]
      rcases ih { s with shared := s.shared ++ ds, undef := s.undef.filter fun x => decide (x ∉ ds) } u h1 h2 with ⟨a, b⟩ | ⟨t, v, a, b, c, d, e, f⟩
      · exact Or.inl ⟨a, b⟩
      · refine Or.inr ⟨t, v, a, b, c, d, ?_, f⟩
        intro x
        rw [e x]
        simp [shdefs, or_assoc]
    | obj o =>
      show (link s (.obj o :: is) = none ∧ link u (.obj o :: (objs is).map .obj) = none) ∨
        ∃ t v, link s (.obj o :: is) = some t ∧ link u (.obj o :: (objs is).map .obj) = some v ∧ _
      rw [link_cons, link_cons]
      show ((take s o).bind _ = none ∧ (take u o).bind _ = none) ∨ ∃ t v, (take s o).bind _ = some t ∧ (take u o).bind _ = some v ∧ _
      by_cases hd : ∀ d ∈ o.defs, d ∉ s.defs
      · rw [take_ok hd, take_ok (by rw [← h2]; exact hd)]
        rcases ih { incl := s.incl ++ o.parts, defs := s.defs ++ o.defs, shared := s.shared,
                      undef := (s.undef ++ o.refs).filter fun x => decide (x ∉ s.defs ++ o.defs ∧ x ∉ s.shared) }
            { incl := u.incl ++ o.parts, defs := u.defs ++ o.defs, shared := u.shared,
                      undef := (u.undef ++ o.refs).filter fun x => decide (x ∉ u.defs ++ o.defs ∧ x ∉ u.shared) }
            (by rw [h1]) (by rw [h2]) with ⟨a, b⟩ | ⟨t, v, a, b, c, d, e, f⟩
        · exact Or.inl ⟨a, b⟩
        · exact Or.inr ⟨t, v, a, b, c, d, by simpa [shdefs] using e, f⟩
      · left
        have h3 : ∀ w : St, s.defs = w.defs → take w o = none := by
          intro w hw
          cases ht : take w o with
          | none => rfl
          | some t => exact absurd (by rw [hw]; exact (take_some ht).1) hd
        rw [h3 s rfl, h3 u h2]
        exact ⟨rfl, rfl⟩

theorem take_mono {s t : St} {o : Obj} (h : take s o = some t) : (∀ x ∈ s.defs, x ∈ t.defs) ∧ (∀ x ∈ s.shared, x ∈ t.shared) ∧
    (∀ x ∈ s.incl, x ∈ t.incl) := by
  obtain ⟨_, h1, h2, h3, _⟩ := take_some h
  rw [h1, h2, h3]
  exact ⟨fun x hx => List.mem_append_left _ hx, fun x hx => hx, fun x hx => List.mem_append_left _ hx⟩

theorem pull_mono (ms : List Obj) (n : Nat) : ∀ (s t : St), pull ms n s = some t → (∀ x ∈ s.defs, x ∈ t.defs) ∧
    (∀ x ∈ s.shared, x ∈ t.shared) ∧ (∀ x ∈ s.incl, x ∈ t.incl) := by
  induction n with
  | zero => intro s t h; cases h; exact ⟨fun _ h => h, fun _ h => h, fun _ h => h⟩
  | succ n ih =>
    intro s t h
    unfold pull at h
    split at h
    · cases h; exact ⟨fun _ h => h, fun _ h => h, fun _ h => h⟩
    · split at h
      · cases h
      · rename_i u hu
        obtain ⟨a, b, c⟩ := ih u t h
        obtain ⟨a', b', c'⟩ := take_mono hu
        exact ⟨fun x hx => a x (a' x hx), fun x hx => b x (b' x hx), fun x hx => c x (c' x hx)⟩

theorem step_mono {s t : St} {i : Input} (h : step s i = some t) : (∀ x ∈ s.defs, x ∈ t.defs) ∧ (∀ x ∈ s.shared, x ∈ t.shared) ∧
    (∀ x ∈ s.incl, x ∈ t.incl) := by
  cases i with
  | obj o => exact take_mono h
  | archive ms => exact pull_mono ms _ s t h
  | shared ds => cases h; exact ⟨fun _ h => h, fun x hx => List.mem_append_left _ hx, fun _ h => h⟩

theorem link_mono (is : List Input) : ∀ (s t : St), link s is = some t → (∀ x ∈ s.defs, x ∈ t.defs) ∧ (∀ x ∈ s.shared, x ∈ t.shared) ∧
    (∀ x ∈ s.incl, x ∈ t.incl) := by
  induction is with
  | nil => intro s t h; cases h; exact ⟨fun _ h => h, fun _ h => h, fun _ h => h⟩
  | cons i is ih =>
    intro s t h
    rw [link_cons] at h
    cases hu : step s i with
    | none => rw [hu] at h; cases h
    | some u =>
      rw [hu] at h
      obtain ⟨a, b, c⟩ := ih u t h
      obtain ⟨a', b', c'⟩ := step_mono hu
      exact ⟨fun x hx => a x (a' x hx), fun x hx => b x (b' x hx), fun x hx => c x (c' x hx)⟩

/-- Undefined at the end are the symbols that are used and have no definition, if there are no archives. -/
theorem link_undef (is : List Input) (hn : ∀ i ∈ is, NoArchive i) : ∀ (s t : St), Good s → link s is = some t →
    ∀ x, x ∈ t.undef ↔ (x ∈ s.undef ∨ ∃ o ∈ objs is, x ∈ o.refs) ∧ x ∉ t.defs ∧ x ∉ t.shared := by
  induction is with
  | nil =>
    intro s t hg h x
    cases h
    exact ⟨fun hx => ⟨Or.inl hx, hg x hx⟩, fun hx => by rcases hx.1 with h | ⟨o, ho, _⟩; exact h; cases ho⟩
  | cons i is ih =>
    intro s t hg h x
    rw [link_cons] at h
    cases hu : step s i with
    | none => rw [hu] at h; cases h
    | some u =>
      rw [hu] at h
      have ih := ih (fun j hj => hn j (List.mem_cons_of_mem _ hj)) u t (step_good hg hu) h x
      have hm := link_mono is u t h
      rw [ih]
      cases i with
      | archive ms => exact absurd rfl (hn _ (List.mem_cons_self ..) ms)
      | shared ds =>
        cases hu
        have e : objs (.shared ds :: is) = objs is := rfl
        rw [e]
        refine and_congr_left fun ⟨_, h2⟩ => or_congr_left ?_
        simp only [List.mem_filter, decide_eq_true_eq, and_iff_left_iff_imp]
        intro _ hd
        exact h2 (hm.2.1 x (List.mem_append_right _ hd))
      | obj o =>
        obtain ⟨_, _, h2, h3, h4⟩ := take_some hu
        have e : objs (.obj o :: is) = o :: objs is := rfl
        rw [e, h4]
        refine and_congr_left fun ⟨k1, k2⟩ => ?_
        have g1 : x ∉ s.defs ++ o.defs := fun hx => k1 (hm.1 x (by rw [h2]; exact hx))
        have g2 : x ∉ s.shared := fun hx => k2 (hm.2.1 x (by rw [h3]; exact hx))
        simp only [List.mem_filter, List.mem_cons, exists_eq_or_imp]
        constructor
        · rintro (⟨a, _⟩ | a)
          · rcases List.mem_append.mp a with b | b
            · exact Or.inl b
            · exact Or.inr (Or.inl b)
          · exact Or.inr (Or.inr a)
        · rintro (a | a | a)
          · exact Or.inl ⟨List.mem_append_left _ a, by simpa using ⟨by simpa using g1, g2⟩⟩
          · exact Or.inl ⟨List.mem_append_right _ a, by simpa using ⟨by simpa using g1, g2⟩⟩
          · exact Or.inr a

theorem objs_map_obj (os : List Obj) : objs (os.map .obj) = os := by
  induction os with
  | nil => rfl
  | cons o os ih => show o :: objs (os.map .obj) = _; rw [ih]

theorem shdefs_mem (is : List Input) (x : Nat) : x ∈ shdefs is ↔ ∃ ds, .shared ds ∈ is ∧ x ∈ ds := by
  induction is with
  | nil => simp [shdefs]
  | cons i is ih =>
    cases i with
    | obj o => simp [shdefs, ih]
    | archive o => simp [shdefs, ih]
    | shared ds => simp [shdefs, ih]

/-- Where there are only objects and shared libraries, in any order, and it is the names of the shared libraries that look like it, linking
twice fails where linking once does, and otherwise takes the same files in the same order, and leaves the same symbols undefined. -/
theorem objects_partial (E : W → Input) (items : List W) (ha : ∀ w ∈ items, NoArchive (E w))
    (hd : ∀ w ∈ items, (deferred w = true ↔ IsShared (E w))) :
    (two E items = none ∧ once E items = none) ∨
    ∃ s t, two E items = some s ∧ once E items = some t ∧ s.incl = t.incl ∧ s.defs = t.defs ∧ (∀ x, x ∈ s.shared ↔ x ∈ t.shared) ∧
      ∀ x, x ∈ s.undef ↔ x ∈ t.undef := by
  have hna : ∀ i ∈ items.map E, NoArchive i := by
    intro i hi
    obtain ⟨w, hw, rfl⟩ := List.mem_map.mp hi
    exact ha w hw
  have ho : (items.filter fun i => !deferred i).map E = (objs (items.map E)).map .obj := by
    clear hna
    induction items with
    | nil => rfl
    | cons w ws ih =>
      have ih := ih (fun v hv => ha v (List.mem_cons_of_mem _ hv)) (fun v hv => hd v (List.mem_cons_of_mem _ hv))
      have h1 := hd w (List.mem_cons_self ..)
      have h2 := ha w (List.mem_cons_self ..)
      cases hE : E w with
      | archive ms => exact absurd hE (h2 ms)
      | shared ds =>
        have : deferred w = true := h1.mpr ⟨ds, hE⟩
        rw [List.filter_cons_of_neg (by simp [this]), ih, List.map_cons, hE]
        rfl
      | obj o =>
        have : deferred w = false := by
          cases hb : deferred w with
          | false => rfl
          | true =>
            obtain ⟨ds, h⟩ := h1.mp hb
            rw [hE] at h
            cases h
        rw [List.filter_cons_of_pos (by simp [this]), List.map_cons, ih, List.map_cons, hE]
        rfl
  have hs : ∀ i ∈ (items.filter deferred).map E, IsShared i := by
    intro i hi
    obtain ⟨w, hw, rfl⟩ := List.mem_map.mp hi
    obtain ⟨h1, h2⟩ := List.mem_filter.mp hw
    exact (hd w h1).mp h2
  have hob : ∀ i ∈ (objs (items.map E)).map Input.obj, ¬ IsShared i := by
    intro i hi
    obtain ⟨o, _, rfl⟩ := List.mem_map.mp hi
    rintro ⟨ds, h⟩
    cases h
  unfold two once
  rw [ho, relocatable_unshared _ hob]
  rcases link_objs _ hna start start rfl rfl with ⟨a, b⟩ | ⟨t, v, a, b, c, d, e, f⟩
  · left
    rw [a, b]
    exact ⟨rfl, rfl⟩
  · right
    have hnb : ∀ i ∈ (objs (items.map E)).map Input.obj, NoArchive i := by
      intro i hi ms
      obtain ⟨o, _, rfl⟩ := List.mem_map.mp hi
      intro h
      cases h
    have gv := link_good _ _ _ good_start b
    have hnc : ∀ i ∈ (items.filter deferred).map E, NoArchive i := by
      intro i hi ms h
      obtain ⟨ds, h'⟩ := hs i hi
      rw [h'] at h
      cases h
    have hoc : objs ((items.filter deferred).map E) = [] := by
      unfold objs
      rw [List.filterMap_eq_nil_iff]
      intro i hi
      obtain ⟨ds, h'⟩ := hs i hi
      rw [h']
    rcases link_objs _ hnc v v rfl rfl with ⟨a', b'⟩ | ⟨t', v', a', b', c', d', e', f'⟩
    · rw [hoc] at b'
      cases b'
    · rw [hoc] at b'
      cases b'
      have hsh : ∀ x, x ∈ shdefs ((items.filter deferred).map E) ↔ x ∈ shdefs (items.map E) := by
        intro x
        rw [shdefs_mem, shdefs_mem]
        constructor
        · rintro ⟨ds, h1, h2⟩
          obtain ⟨w, hw, h3⟩ := List.mem_map.mp h1
          exact ⟨ds, List.mem_map.mpr ⟨w, (List.mem_filter.mp hw).1, h3⟩, h2⟩
        · rintro ⟨ds, h1, h2⟩
          obtain ⟨w, hw, h3⟩ := List.mem_map.mp h1
          exact ⟨ds, List.mem_map.mpr ⟨w, List.mem_filter.mpr ⟨hw, (hd w hw).mpr ⟨ds, h3⟩⟩, h3⟩, h2⟩
      have hshared : ∀ x, x ∈ t'.shared ↔ x ∈ t.shared := by
        intro x
        rw [e x, e' x, f, hsh x]
      have hdefs : t'.defs = t.defs := d'.trans d.symm
      refine ⟨t', t, ?_, a, c'.trans c.symm, hdefs, hshared, ?_⟩
      · rw [b]
        show link start (.obj _ :: _) = _
        rw [link_cons]
        show (take start _).bind _ = _
        rw [take_whole v gv f]
        exact a'
      · intro x
        rw [link_undef _ hnc v t' gv a' x, link_undef _ hna start t good_start a x, link_undef _ hnb start v good_start b x,
          hoc, objs_map_obj, hdefs, hshared x, ← d, f]
        simp only [start]
        constructor
        · rintro ⟨h1, h2, h3⟩
          rcases h1 with ⟨h, _⟩ | ⟨o, h, _⟩
          · exact ⟨h, h2, h3⟩
          · cases h
        · rintro ⟨h1, h2, h3⟩
          exact ⟨Or.inl ⟨h1, h2, by simp⟩, h2, h3⟩

theorem pull_parts (ms : List Obj) (n : Nat) : ∀ (s t : St), pull ms n s = some t → ∀ p ∈ t.incl, p ∈ s.incl ∨ ∃ m ∈ ms, p ∈ m.parts := by
  induction n with
  | zero => intro s t h p hp; cases h; exact Or.inl hp
  | succ n ih =>
    intro s t h p hp
    unfold pull at h
    split at h
    · cases h; exact Or.inl hp
    · rename_i m hm
      split at h
      · cases h
      · rename_i u hu
        rcases ih u t h p hp with h1 | h1
        · rw [(take_some hu).2.1] at h1
          rcases List.mem_append.mp h1 with h2 | h2
          · exact Or.inl h2
          · exact Or.inr ⟨m, List.mem_of_find?_eq_some hm, h2⟩
        · exact Or.inr h1

theorem link_parts (is : List Input) : ∀ (s t : St), link s is = some t → ∀ p ∈ t.incl, p ∈ s.incl ∨ ∃ i ∈ is, PartOf p i := by
  induction is with
  | nil => intro s t h p hp; cases h; exact Or.inl hp
  | cons i is ih =>
    intro s t h p hp
    rw [link_cons] at h
    cases hu : step s i with
    | none => rw [hu] at h; cases h
    | some u =>
      rw [hu] at h
      rcases ih u t h p hp with h1 | ⟨j, hj, h1⟩
      · cases i with
        | obj o =>
          rw [(take_some hu).2.1] at h1
          rcases List.mem_append.mp h1 with h2 | h2
          · exact Or.inl h2
          · exact Or.inr ⟨_, List.mem_cons_self .., h2⟩
        | archive ms =>
          rcases pull_parts ms _ s u hu p h1 with h2 | h2
          · exact Or.inl h2
          · exact Or.inr ⟨_, List.mem_cons_self .., h2⟩
        | shared ds => cases hu; exact Or.inl h1
      · exact Or.inr ⟨j, List.mem_cons_of_mem _ hj, h1⟩

theorem link_takes (is : List Input) : ∀ (s t : St), link s is = some t → ∀ o, .obj o ∈ is → ∀ p ∈ o.parts, p ∈ t.incl := by
  induction is with
  | nil => intro s t h o ho; cases ho
  | cons i is ih =>
    intro s t h o ho p hp
    rw [link_cons] at h
    cases hu : step s i with
    | none => rw [hu] at h; cases h
    | some u =>
      rw [hu] at h
      rcases List.mem_cons.mp ho with rfl | ho
      · refine (link_mono is u t h).2.2 p ?_
        rw [(take_some hu).2.1]
        exact List.mem_append_right _ hp
      · exact ih u t h o ho p hp

/-- Whatever the items and their order, all of every object that is named is in the result, and all that is in the result is from an object
or an archive that is named. -/
theorem parts_exact (E : W → Input) (items : List W) (s : St) (h : two E items = some s) :
    (∀ w ∈ items, ∀ o, E w = .obj o → ∀ p ∈ o.parts, p ∈ s.incl) ∧ ∀ p ∈ s.incl, ∃ w ∈ items, PartOf p (E w) := by
  unfold two at h
  cases hr : relocatable ((items.filter fun i => !deferred i).map E) with
  | none => rw [hr] at h; cases h
  | some big =>
    rw [hr] at h
    dsimp only at h
    unfold relocatable at hr
    split at hr
    · cases hr
    · cases hl : link start ((items.filter fun i => !deferred i).map E) with
      | none => rw [hl] at hr; cases hr
      | some v =>
        rw [hl] at hr
        cases hr
        constructor
        · intro w hw o ho p hp
          cases hb : deferred w with
          | true =>
            exact link_takes _ _ _ h o (List.mem_cons_of_mem _ (List.mem_map.mpr ⟨w, List.mem_filter.mpr ⟨hw, hb⟩, ho⟩)) p hp
          | false =>
            have := link_takes _ _ _ hl o (List.mem_map.mpr ⟨w, List.mem_filter.mpr ⟨hw, by simp [hb]⟩, ho⟩) p hp
            exact link_takes _ _ _ h _ (List.mem_cons_self ..) p this
        · intro p hp
          rcases link_parts _ _ _ h p hp with h1 | ⟨i, hi, h1⟩
          · cases h1
          · rcases List.mem_cons.mp hi with rfl | hi
            · rcases link_parts _ _ _ hl p h1 with h2 | ⟨j, hj, h2⟩
              · cases h2
              · obtain ⟨w, hw, rfl⟩ := List.mem_map.mp hj
                exact ⟨w, (List.mem_filter.mp hw).1, h2⟩
            · obtain ⟨w, hw, rfl⟩ := List.mem_map.mp hi
              exact ⟨w, (List.mem_filter.mp hw).1, h1⟩

theorem countP_lt {α : Type} (l : List α) (p q : α → Bool) (h : ∀ x ∈ l, q x = true → p x = true) (m : α) (hm : m ∈ l) (h1 : p m = true)
    (h2 : q m = false) : l.countP q < l.countP p := by
  induction l with
  | nil => cases hm
  | cons a l ih =>
    have hle : l.countP q ≤ l.countP p := List.countP_mono_left (fun x hx => h x (List.mem_cons_of_mem _ hx))
    rw [List.countP_cons, List.countP_cons]
    rcases List.mem_cons.mp hm with rfl | hm
    · rw [h1, h2]
      simp
      omega
    · have := ih (fun x hx => h x (List.mem_cons_of_mem _ hx)) hm
      have ha := h a (List.mem_cons_self ..)
      by_cases hq : q a = true
      · rw [hq, ha hq]
        omega
      · have : q a = false := by simpa using hq
        rw [this]
        simp
        omega

theorem pull_done (ms : List Obj) (n : Nat) : ∀ (s t : St), Good s → ms.countP (fun m => m.defs.any fun d => decide (d ∉ s.defs)) ≤ n →
    pull ms n s = some t → ∀ m ∈ ms, ∀ d ∈ m.defs, d ∉ t.undef := by
  induction n with
  | zero =>
    intro s t hg hn h m hm d hd hu
    cases h
    have := List.countP_eq_zero.mp (Nat.le_zero.mp hn) m hm
    exact this (List.any_eq_true.mpr ⟨d, hd, by simpa using (hg d hu).1⟩)
  | succ n ih =>
    intro s t hg hn h m hm d hd hu
    unfold pull at h
    split at h
    · rename_i hf
      cases h
      exact List.find?_eq_none.mp hf m hm (List.any_eq_true.mpr ⟨d, hd, by simpa using hu⟩)
    · rename_i k hk
      split at h
      · cases h
      · rename_i u ht
        refine ih u t (take_good ht) ?_ h m hm d hd hu
        have hk1 := List.mem_of_find?_eq_some hk
        have hk2 := List.find?_some hk
        obtain ⟨e, he, he'⟩ := List.any_eq_true.mp hk2
        have hdefs := (take_some ht).2.2.1
        have := countP_lt ms (fun m => m.defs.any fun d => decide (d ∉ s.defs)) (fun m => m.defs.any fun d => decide (d ∉ u.defs))
          (by
            intro x _ hx
            obtain ⟨y, hy, hy'⟩ := List.any_eq_true.mp hx
            refine List.any_eq_true.mpr ⟨y, hy, ?_⟩
            simp only [decide_eq_true_eq, hdefs, List.mem_append, not_or] at hy' ⊢
            exact hy'.1)
          k hk1 (List.any_eq_true.mpr ⟨e, he, by simpa using (hg e (by simpa using he')).1⟩)
          (by
            cases hb : k.defs.any fun d => decide (d ∉ u.defs) with
            | false => rfl
            | true =>
              obtain ⟨y, hy, hy'⟩ := List.any_eq_true.mp hb
              simp only [decide_eq_true_eq, hdefs, List.mem_append, not_or] at hy'
              exact absurd hy hy'.2)
        omega

/-- After an archive no member of it defines an undefined symbol, and it is enough to take as many members as there are. -/
theorem archive_done (is : List Input) (s t : St) (ms : List Obj) (hs : link start is = some s) (h : step s (.archive ms) = some t) :
    ∀ m ∈ ms, ∀ d ∈ m.defs, d ∉ t.undef :=
  pull_done ms _ s t (link_good _ _ _ good_start hs) List.countP_le_length h

/-- **C175 fails** for every shared library that is not recognised by its name: nothing can be linked with it. -/
theorem shared_never (E : W → Input) {items : List W} {w : W} (hw : w ∈ items) (hd : deferred w = false) (hs : IsShared (E w)) : two E items = none := by
  obtain ⟨ds, hds⟩ := hs
  have h : relocatable ((items.filter fun i => !deferred i).map E) = none := by
    unfold relocatable
    refine if_pos (List.any_eq_true.mpr ⟨E w, List.mem_map.mpr ⟨w, List.mem_filter.mpr ⟨hw, by simp [hd]⟩, rfl⟩, ?_⟩)
    rw [hds]
  unfold two
  rw [h]

/-! ## Cases -/

/-- A program that uses symbols 1 and 2; a library whose member defines 1 and uses 3; archives that define 3, and 2 and 4; a shared library that
defines 2 and 5. -/
def E0 (w : W) : Input :=
  if w = w! "m.o" then .obj ⟨[10], [0], [1, 2]⟩
  else if w = w! "-ly" then .archive [⟨[20], [1], [3]⟩]
  else if w = w! "z.a" then .archive [⟨[30], [3], []⟩]
  else if w = w! "q.a" then .archive [⟨[40], [2, 4], []⟩]
  else if w = w! "n.o" then .obj ⟨[50], [1], [5, 6]⟩
  else .shared [2, 5]

/-- Archives before libraries: what is needed of them is taken. -/
theorem case_last : two E0 [w! "m.o", w! "q.a", w! "-ly", w! "s.so.1"] = some ⟨[10, 40, 20], [0, 2, 4, 1], [2, 5], [3]⟩ ∧
    once E0 [w! "m.o", w! "q.a", w! "-ly", w! "s.so.1"] = some ⟨[10, 40, 20], [0, 2, 4, 1], [2, 5], [3]⟩ := by
  decide +kernel

/-- A shared library between objects. -/
theorem case_objects : two E0 [w! "m.o", w! "s.so.1", w! "n.o"] = some ⟨[10, 50], [0, 1], [2, 5], [6]⟩ ∧
    once E0 [w! "m.o", w! "s.so.1", w! "n.o"] = some ⟨[10, 50], [0, 1], [2, 5], [6]⟩ := by
  decide +kernel

/-- An archive that is named after a library which uses it: linking once, nothing is undefined; linking twice, nothing of the archive is taken,
and what the library uses is undefined. -/
theorem late_fails : once E0 [w! "m.o", w! "-ly", w! "z.a", w! "q.a"] = some ⟨[10, 20, 30, 40], [0, 1, 3, 2, 4], [], []⟩ ∧
    two E0 [w! "m.o", w! "-ly", w! "z.a", w! "q.a"] = some ⟨[10, 40, 20], [0, 2, 4, 1], [], [3]⟩ := by
  decide +kernel

/-- An archive that is named after a shared library with the same symbol: linking once, the program uses that of the shared library; linking
twice, it uses that of the archive. -/
theorem taken_fails : once E0 [w! "m.o", w! "s.so", w! "q.a"] = some ⟨[10], [0], [2, 5], [1]⟩ ∧
    two E0 [w! "m.o", w! "s.so", w! "q.a"] = some ⟨[10, 40], [0, 2, 4], [2, 5], [1]⟩ := by
  decide +kernel

/-- A library that is named before the objects which use it: linking once, nothing of it is taken, and the build fails; linking twice, it is. -/
theorem early_fails : once E0 [w! "-ly", w! "z.a", w! "m.o", w! "s.so"] = some ⟨[10], [0], [2, 5], [1]⟩ ∧
    two E0 [w! "-ly", w! "z.a", w! "m.o", w! "s.so"] = some ⟨[10, 20], [0, 1], [2, 5], [3]⟩ := by
  decide +kernel

/-- A shared library with another kind of name: linking twice fails, linking once does not. -/
theorem name_fails : once E0 [w! "n.o", w! "s.so.1a"] = some ⟨[50], [1], [2, 5], [6]⟩ ∧ two E0 [w! "n.o", w! "s.so.1a"] = none := by
  decide +kernel

/-- Two definitions: both fail. -/
theorem case_twice : two E0 [w! "n.o", w! "s.so", w! "n.o"] = none ∧ once E0 [w! "n.o", w! "s.so", w! "n.o"] = none := by
  decide +kernel

end Liballocs.TwoLinks
