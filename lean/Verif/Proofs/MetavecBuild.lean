import Verif.Model.MetavecBuild
import Verif.Props.StaticSym
/-! # Facts about the generated tables of static objects -/
namespace Liballocs.MetavecBuild
open StaticSym (Tidy)

/-- Strictly increasing addresses. -/
def Asc (l : List (Nat × GRec)) : Prop := l.Pairwise (fun x y => x.1 < y.1)

theorem Asc.unique {l : List (Nat × GRec)} (h : Asc l) {a : Nat} {q r : GRec} (hq : (a, q) ∈ l) (hr : (a, r) ∈ l) : q = r := by
  induction l with
  | nil => simp at hq
  | cons x l ih =>
    have h' := List.pairwise_cons.1 h
    rcases List.mem_cons.1 hq with e | hq <;> rcases List.mem_cons.1 hr with e' | hr
    · rw [← e] at e'; injection e' with _ e'; exact e'.symm
    · have := h'.1 _ hr; rw [← e] at this; simp at this
    · have := h'.1 _ hq; rw [← e'] at this; simp at this
    · exact ih h'.2 hq hr

theorem mem_insert {a : Nat} {r : GRec} {l : List (Nat × GRec)} (h : Asc l) (x : Nat × GRec) :
    x ∈ insert a r l ↔ x ∈ l ∨ (x = (a, r) ∧ ∀ q, (a, q) ∉ l) := by
  induction l with
  | nil => simp [insert]
  | cons y l ih =>
    obtain ⟨b, q⟩ := y
    have h' := List.pairwise_cons.1 h
    unfold insert
    split
    · rename_i hlt
      have hn : ∀ q', (a, q') ∉ (b, q) :: l := by
        intro q' hm
        rcases List.mem_cons.1 hm with e | hm
        · injection e with e; omega
        · have := h'.1 _ hm; simp at this; omega
      simp only [List.mem_cons] at hn ⊢
      constructor
      · rintro (e | e | e)
        · exact Or.inr ⟨e, hn⟩
        · exact Or.inl (Or.inl e)
        · exact Or.inl (Or.inr e)
      · rintro ((e | e) | e)
        · exact Or.inr (Or.inl e)
        · exact Or.inr (Or.inr e)
        · exact Or.inl e.1
    · split
      · rename_i e
        subst e
        constructor
        · exact Or.inl
        · rintro (hm | ⟨_, hn⟩)
          · exact hm
          · exact absurd List.mem_cons_self (hn q)
      · rename_i hne
        rw [List.mem_cons, ih h'.2, List.mem_cons]
        constructor
        · rintro (e | e | ⟨e, hn⟩)
          · exact Or.inl (Or.inl e)
          · exact Or.inl (Or.inr e)
          · refine Or.inr ⟨e, fun q' hm => ?_⟩
            rcases List.mem_cons.1 hm with e' | hm
            · injection e' with e'; omega
            · exact hn _ hm
        · rintro ((e | e) | ⟨e, hn⟩)
          · exact Or.inl e
          · exact Or.inr (Or.inl e)
          · exact Or.inr (Or.inr ⟨e, fun q' hm => hn q' (List.mem_cons_of_mem _ hm)⟩)

theorem insert_asc {a : Nat} {r : GRec} {l : List (Nat × GRec)} (h : Asc l) : Asc (insert a r l) := by
  induction l with
  | nil => simp [insert, Asc]
  | cons y l ih =>
    obtain ⟨b, q⟩ := y
    have h' := List.pairwise_cons.1 h
    unfold insert
    split
    · rename_i hlt
      refine List.pairwise_cons.2 ⟨fun x hx => ?_, h⟩
      rcases List.mem_cons.1 hx with e | hx
      · rw [e]; exact hlt
      · exact Nat.lt_trans hlt (h'.1 _ hx)
    · split
      · exact h
      · refine List.pairwise_cons.2 ⟨fun x hx => ?_, ih h'.2⟩
        rcases (mem_insert h'.2 x).1 hx with hx | ⟨e, _⟩
        · exact h'.1 _ hx
        · rw [e]; show b < a; omega

/-- Lists in strict address order with the same members are equal. -/
theorem Asc.ext {l m : List (Nat × GRec)} (hl : Asc l) (hm : Asc m) (h : ∀ x, x ∈ l ↔ x ∈ m) : l = m := by
  induction l generalizing m with
  | nil =>
    cases m with
    | nil => rfl
    | cons y m => exact absurd ((h y).2 List.mem_cons_self) (by simp)
  | cons x l ih =>
    cases m with
    | nil => exact absurd ((h x).1 List.mem_cons_self) (by simp)
    | cons y m =>
      have hl' := List.pairwise_cons.1 hl
      have hm' := List.pairwise_cons.1 hm
      have e : x = y := by
        rcases List.mem_cons.1 ((h x).1 List.mem_cons_self) with e | hx
        · exact e
        · rcases List.mem_cons.1 ((h y).2 List.mem_cons_self) with e | hy
          · exact e.symm
          · have := hl'.1 _ hy; have := hm'.1 _ hx; omega
      subst e
      rw [ih hl'.2 hm'.2]
      intro z
      constructor
      · intro hz
        rcases List.mem_cons.1 ((h z).1 (List.mem_cons_of_mem _ hz)) with e | hz'
        · have := hl'.1 _ hz; rw [e] at this; omega
        · exact hz'
      · intro hz
        rcases List.mem_cons.1 ((h z).2 (List.mem_cons_of_mem _ hz)) with e | hz'
        · have := hm'.1 _ hz; rw [e] at this; omega
        · exact hz'

/-- The statics are non-empty intervals in address order, none overlapping another. -/
def Ordered (statics : List Static) : Prop :=
  (∀ s ∈ statics, s.lo < s.hi) ∧ statics.Pairwise (fun s q => s.hi ≤ q.lo)

/-- How many of them need extra symbols. -/
def extras (l : List Static) : Nat := (l.filter (fun s => decide (s.kind = .extrasym))).length

/-- The symbol index of a static, given those before it. -/
def idxOf (pre : List Static) (s : Static) : Nat :=
  match s.kind with
  | .extrasym => extras pre + 2
  | _ => s.idx

theorem Ordered.lo_inj {statics : List Static} (h : Ordered statics) {s q : Static} (hs : s ∈ statics) (hq : q ∈ statics)
    (e : s.lo = q.lo) : s = q := by
  obtain ⟨h1, h2⟩ := h
  induction statics with
  | nil => simp at hs
  | cons x l ih =>
    have h2' := List.pairwise_cons.1 h2
    rcases List.mem_cons.1 hs with e1 | hs <;> rcases List.mem_cons.1 hq with e2 | hq
    · rw [e1, e2]
    · have := h2'.1 _ hq; have := h1 x List.mem_cons_self; rw [e1] at e; omega
    · have := h2'.1 _ hs; have := h1 x List.mem_cons_self; rw [e2] at e; omega
    · exact ih hs hq (fun s hs => h1 s (List.mem_cons_of_mem _ hs)) h2'.2

/-- Distinct statics do not overlap. -/
theorem Ordered.disjoint {statics : List Static} (h : Ordered statics) {s q : Static} (hs : s ∈ statics) (hq : q ∈ statics)
    (hlt : s.lo < q.lo) : s.hi ≤ q.lo := by
  obtain ⟨h1, h2⟩ := h
  induction statics with
  | nil => simp at hs
  | cons x l ih =>
    have h2' := List.pairwise_cons.1 h2
    rcases List.mem_cons.1 hs with e1 | hs <;> rcases List.mem_cons.1 hq with e2 | hq
    · rw [e1, e2] at hlt; omega
    · rw [e1]; exact h2'.1 _ hq
    · have := h2'.1 _ hs; have := h1 x List.mem_cons_self
      have := h1 s (List.mem_cons_of_mem _ hs); rw [e2] at hlt; omega
    · exact ih hs hq (fun s hs => h1 s (List.mem_cons_of_mem _ hs)) h2'.2

theorem extras_append (l m : List Static) : extras (l ++ m) = extras l + extras m := by
  unfold extras; rw [List.filter_append, List.length_append]

theorem extras_extra {s : Static} (h : s.kind = .extrasym) : extras [s] = 1 := by simp [extras, h]
theorem extras_other {s : Static} (h : s.kind ≠ .extrasym) : extras [s] = 0 := by simp [extras, h]

/-- The first loop. -/
theorem addExtras_spec (done l : List Static) (recs : List (Nat × GRec)) (ho : Ordered (done ++ l)) (ha : Asc recs)
    (hr : ∀ x, x ∈ recs ↔ ∃ pre s post, done = pre ++ s :: post ∧ s.kind = .extrasym ∧
      x = (s.lo, .sym .extrasym (extras pre + 2) s.type)) :
    Asc (addExtras (extras done + 1) recs l) ∧
    ∀ x, x ∈ addExtras (extras done + 1) recs l ↔ ∃ pre s post, done ++ l = pre ++ s :: post ∧ s.kind = .extrasym ∧
      x = (s.lo, .sym .extrasym (extras pre + 2) s.type) := by
  induction l generalizing done recs with
  | nil => rw [List.append_nil]; exact ⟨ha, hr⟩
  | cons s l ih =>
    have hsplit : done ++ s :: l = (done ++ [s]) ++ l := by simp
    -- how splits of `done ++ [s]` relate to those of `done`
    have hspl : ∀ pre q post, done ++ [s] = pre ++ q :: post ↔
        (∃ post', done = pre ++ q :: post' ∧ post = post' ++ [s]) ∨ (pre = done ∧ q = s ∧ post = []) := by
      intro pre q post
      constructor
      · intro e
        rcases List.eq_nil_or_concat post with hp | ⟨post', z, hp⟩
        · subst hp
          have := List.append_inj' e rfl
          refine Or.inr ⟨this.1.symm, ?_, rfl⟩
          have := this.2; injection this with this; exact this.symm
        · subst hp
          rw [List.concat_eq_append] at *
          have e' : done ++ [s] = (pre ++ q :: post') ++ [z] := by rw [e]; simp
          have := List.append_inj' e' rfl
          have hz := this.2; injection hz with hz
          exact Or.inl ⟨post', this.1, by rw [hz]⟩
      · rintro (⟨post', e, e'⟩ | ⟨e, e', e''⟩)
        · rw [e, e']; simp
        · rw [e, e', e'']
    unfold addExtras
    cases hk : s.kind with
    | extrasym =>
      simp only
      have hcount : extras done + 1 + 1 = extras (done ++ [s]) + 1 := by
        rw [extras_append, extras_extra hk]
      rw [hcount, hsplit]
      apply ih (done ++ [s])
      · rw [← hsplit]; exact ho
      · exact insert_asc ha
      · intro x
        rw [mem_insert ha]
        constructor
        · rintro (hx | ⟨e, _⟩)
          · obtain ⟨pre, q, post, e1, e2, e3⟩ := (hr x).1 hx
            exact ⟨pre, q, post ++ [s], (hspl _ _ _).2 (Or.inl ⟨post, e1, rfl⟩), e2, e3⟩
          · refine ⟨done, s, [], rfl, hk, ?_⟩
            rw [e, extras_append, extras_extra hk]
        · rintro ⟨pre, q, post, e1, e2, e3⟩
          rcases (hspl _ _ _).1 e1 with ⟨post', e4, _⟩ | ⟨e4, e5, _⟩
          · exact Or.inl ((hr x).2 ⟨pre, q, post', e4, e2, e3⟩)
          · subst e4 e5
            refine Or.inr ⟨?_, fun r hm => ?_⟩
            · rw [e3, extras_append, extras_extra hk]
            · obtain ⟨pre', q', post', e6, _, e7⟩ := (hr _).1 hm
              injection e7 with e7 _
              have hq' : q' ∈ pre := by rw [e6]; simp
              have h1 := (List.pairwise_append.1 ho.2).2.2 q' hq' q List.mem_cons_self
              have h2 := ho.1 q' (List.mem_append_left _ hq')
              omega
    | dynsym | symtab =>
      simp only
      have hne : s.kind ≠ .extrasym := by rw [hk]; decide
      have hcount : extras done + 1 = extras (done ++ [s]) + 1 := by
        rw [extras_append, extras_other hne]
      rw [hcount, hsplit]
      apply ih (done ++ [s])
      · rw [← hsplit]; exact ho
      · exact ha
      · intro x
        rw [hr]
        constructor
        · rintro ⟨pre, q, post, e1, e2, e3⟩
          exact ⟨pre, q, post ++ [s], (hspl _ _ _).2 (Or.inl ⟨post, e1, rfl⟩), e2, e3⟩
        · rintro ⟨pre, q, post, e1, e2, e3⟩
          rcases (hspl _ _ _).1 e1 with ⟨post', e4, _⟩ | ⟨_, e5, _⟩
          · exact ⟨pre, q, post', e4, e2, e3⟩
          · exact absurd (e5 ▸ e2) hne

/-- The second loop. -/
theorem addSyms_spec (l : List Static) (recs : List (Nat × GRec)) (ho : Ordered l) (ha : Asc recs)
    (hd : ∀ s ∈ l, s.kind ≠ .extrasym → ∀ r, (s.lo, r) ∉ recs) :
    Asc (addSyms recs l) ∧ ∀ x, x ∈ addSyms recs l ↔ x ∈ recs ∨
      ∃ s ∈ l, s.kind ≠ .extrasym ∧ x = (s.lo, .sym s.kind s.idx s.type) := by
  induction l generalizing recs with
  | nil => simp [addSyms, ha]
  | cons s l ih =>
    have ho' : Ordered l := ⟨fun q hq => ho.1 q (List.mem_cons_of_mem _ hq), (List.pairwise_cons.1 ho.2).2⟩
    have key : s.kind ≠ .extrasym →
        Asc (addSyms (insert s.lo (.sym s.kind s.idx s.type) recs) l) ∧
        ∀ x, x ∈ addSyms (insert s.lo (.sym s.kind s.idx s.type) recs) l ↔ x ∈ recs ∨
          ∃ q ∈ s :: l, q.kind ≠ .extrasym ∧ x = (q.lo, .sym q.kind q.idx q.type) := by
      intro hne
      obtain ⟨i1, i2⟩ := ih (insert s.lo (.sym s.kind s.idx s.type) recs) ho' (insert_asc ha) (by
        intro q hq hqn r hm
        rcases (mem_insert ha _).1 hm with hm | ⟨e, _⟩
        · exact hd q (List.mem_cons_of_mem _ hq) hqn r hm
        · injection e with e _
          have := (List.pairwise_cons.1 ho.2).1 q hq
          have := ho.1 s List.mem_cons_self
          omega)
      refine ⟨i1, fun x => ?_⟩
      rw [i2, mem_insert ha]
      constructor
      · rintro ((hx | ⟨e, _⟩) | ⟨q, hq, e⟩)
        · exact Or.inl hx
        · exact Or.inr ⟨s, List.mem_cons_self, hne, e⟩
        · exact Or.inr ⟨q, List.mem_cons_of_mem _ hq, e⟩
      · rintro (hx | ⟨q, hq, e1, e2⟩)
        · exact Or.inl (Or.inl hx)
        · rcases List.mem_cons.1 hq with e | hq
          · subst e
            exact Or.inl (Or.inr ⟨e2, hd q List.mem_cons_self hne⟩)
          · exact Or.inr ⟨q, hq, e1, e2⟩
    unfold addSyms
    cases hk : s.kind with
    | extrasym =>
      simp only
      obtain ⟨i1, i2⟩ := ih recs ho' ha (fun q hq => hd q (List.mem_cons_of_mem _ hq))
      refine ⟨i1, fun x => ?_⟩
      rw [i2]
      constructor
      · rintro (hx | ⟨q, hq, e⟩)
        · exact Or.inl hx
        · exact Or.inr ⟨q, List.mem_cons_of_mem _ hq, e⟩
      · rintro (hx | ⟨q, hq, e1, e2⟩)
        · exact Or.inl hx
        · rcases List.mem_cons.1 hq with e | hq
          · subst e; exact absurd hk e1
          · exact Or.inr ⟨q, hq, e1, e2⟩
    | dynsym => rw [hk] at key; exact key (by decide)
    | symtab => rw [hk] at key; exact key (by decide)

/-- The records for symbols. -/
theorem syms_spec (statics : List Static) (ho : Ordered statics) :
    Asc (addSyms (addExtras 1 [] statics) statics) ∧
    ∀ x, x ∈ addSyms (addExtras 1 [] statics) statics ↔
      ∃ pre s post, statics = pre ++ s :: post ∧ x = (s.lo, .sym s.kind (idxOf pre s) s.type) := by
  obtain ⟨h1, h2⟩ := addExtras_spec [] statics [] (by simpa using ho) (by simp [Asc]) (by simp)
  simp only [List.nil_append, show extras [] + 1 = 1 from rfl] at h1 h2
  obtain ⟨h3, h4⟩ := addSyms_spec statics _ ho h1 (by
    intro s hs hne r hm
    obtain ⟨pre, q, post, e1, e2, e3⟩ := (h2 _).1 hm
    injection e3 with e3 _
    have hq : q ∈ statics := by rw [e1]; simp
    have := ho.lo_inj hs hq e3
    rw [this] at hne
    exact hne e2)
  refine ⟨h3, fun x => ?_⟩
  rw [h4, h2]
  constructor
  · rintro (⟨pre, s, post, e1, e2, e3⟩ | ⟨s, hs, e1, e2⟩)
    · exact ⟨pre, s, post, e1, by simp only [idxOf, e2]; exact e3⟩
    · obtain ⟨pre, post, e⟩ := List.append_of_mem hs
      refine ⟨pre, s, post, e, ?_⟩
      rw [e2]
      unfold idxOf
      cases hk : s.kind with
      | extrasym => exact absurd hk e1
      | dynsym => rfl
      | symtab => rfl
  · rintro ⟨pre, s, post, e1, e2⟩
    cases hk : s.kind with
    | extrasym => exact Or.inl ⟨pre, s, post, e1, hk, by simp only [idxOf, hk] at e2; exact e2⟩
    | dynsym => exact Or.inr ⟨s, by rw [e1]; simp, by rw [hk]; decide, by simp only [idxOf, hk] at e2; rw [hk]; exact e2⟩
    | symtab => exact Or.inr ⟨s, by rw [e1]; simp, by rw [hk]; decide, by simp only [idxOf, hk] at e2; rw [hk]; exact e2⟩

/-- The address is inside a static. -/
def Inside (statics : List Static) (t : Nat) : Prop := ∃ s ∈ statics, s.lo ≤ t ∧ t < s.hi

theorem clear_iff (statics : List Static) (t : Nat) : clear statics t = true ↔ ¬ Inside statics t := by
  unfold clear Inside
  rw [List.all_eq_true]
  constructor
  · rintro h ⟨s, hs, h1, h2⟩
    have := of_decide_eq_true (h s hs)
    omega
  · intro h s hs
    apply decide_eq_true
    refine Classical.byContradiction fun hn => h ⟨s, hs, by omega, by omega⟩

/-- The relocation targets of one section. -/
theorem addRelocs_spec (statics : List Static) (ts : List Nat) (recs recs' : List (Nat × GRec)) (ha : Asc recs)
    (hd : ∀ t ∈ ts, ¬ Inside statics t → ∀ r, (t, r) ∈ recs → r = .reloc)
    (h : addRelocs statics recs ts = some recs') :
    Asc recs' ∧ ∀ x, x ∈ recs' ↔ x ∈ recs ∨ ∃ t ∈ ts, ¬ Inside statics t ∧ x = (t, .reloc) := by
  induction ts generalizing recs with
  | nil => unfold addRelocs at h; cases h; simp [ha]
  | cons t ts ih =>
    have key : ¬ Inside statics t → addRelocs statics (insert t .reloc recs) ts = some recs' →
        Asc recs' ∧ ∀ x, x ∈ recs' ↔ x ∈ recs ∨ ∃ q ∈ t :: ts, ¬ Inside statics q ∧ x = (q, .reloc) := by
      intro hc h
      obtain ⟨i1, i2⟩ := ih (insert t .reloc recs) (insert_asc ha) (by
        intro q hq hqn r hm
        rcases (mem_insert ha _).1 hm with hm | ⟨e, _⟩
        · exact hd q (List.mem_cons_of_mem _ hq) hqn r hm
        · injection e) h
      refine ⟨i1, fun x => ?_⟩
      rw [i2, mem_insert ha]
      constructor
      · rintro ((hx | ⟨e, _⟩) | ⟨q, hq, e⟩)
        · exact Or.inl hx
        · exact Or.inr ⟨t, List.mem_cons_self, hc, e⟩
        · exact Or.inr ⟨q, List.mem_cons_of_mem _ hq, e⟩
      · rintro (hx | ⟨q, hq, e1, e2⟩)
        · exact Or.inl (Or.inl hx)
        · rcases List.mem_cons.1 hq with e | hq
          · subst e
            by_cases hex : ∃ r, (q, r) ∈ recs
            · obtain ⟨r, hr⟩ := hex
              have := hd q List.mem_cons_self hc r hr
              rw [this] at hr
              exact Or.inl (Or.inl (e2 ▸ hr))
            · exact Or.inl (Or.inr ⟨e2, fun r hr => hex ⟨r, hr⟩⟩)
          · exact Or.inr ⟨q, hq, e1, e2⟩
    unfold addRelocs at h
    cases hc : clear statics t with
    | false =>
      rw [hc] at h
      simp only at h
      obtain ⟨i1, i2⟩ := ih recs ha (fun q hq => hd q (List.mem_cons_of_mem _ hq)) h
      refine ⟨i1, fun x => ?_⟩
      rw [i2]
      constructor
      · rintro (hx | ⟨q, hq, e⟩)
        · exact Or.inl hx
        · exact Or.inr ⟨q, List.mem_cons_of_mem _ hq, e⟩
      · rintro (hx | ⟨q, hq, e1, e2⟩)
        · exact Or.inl hx
        · rcases List.mem_cons.1 hq with e | hq
          · subst e
            rw [(clear_iff _ _).2 e1] at hc; cases hc
          · exact Or.inr ⟨q, hq, e1, e2⟩
    | true =>
      rw [hc] at h
      simp only at h
      have hc := (clear_iff _ _).1 hc
      split at h
      · exact key hc h
      · split at h
        · cases h
        · exact key hc h

theorem addRelocs_some (statics : List Static) (ts : List Nat) (recs : List (Nat × GRec))
    (hlo : ∀ s ∈ statics, s.lo < 2 ^ 32) : ∃ recs', addRelocs statics recs ts = some recs' := by
  induction ts generalizing recs with
  | nil => exact ⟨_, rfl⟩
  | cons t ts ih =>
    unfold addRelocs
    cases clear statics t with
    | false => exact ih _
    | true =>
      simp only
      split
      · exact ih _
      · rename_i s hs
        have h0 := List.find?_some hs
        have h1 : t < s.lo := of_decide_eq_true h0
        have h2 := hlo s (List.mem_of_find?_eq_some hs)
        rw [if_neg]
        · exact ih _
        · rw [Nat.mod_eq_of_lt (by omega)]; omega

/-- A place referred to by relocation records of allocatable sections, through a section symbol or a local untyped one. -/
def Refers (symtab : List Sym) (scns : List RelScn) (t : Nat) : Prop :=
  ∃ sc ∈ scns, sc.scope ≠ some false ∧ ∃ r ∈ sc.rels, r.sym ≠ 0 ∧ ∃ s : Sym, symtab[r.sym]? = some s ∧
    (s.isSection = true ∨ (s.isNotype = true ∧ s.isLocal = true)) ∧ t = target sc.isRela s r

theorem counts_iff (s : Sym) : counts s = true ↔ s.isSection = true ∨ (s.isNotype = true ∧ s.isLocal = true) := by
  unfold counts; simp

theorem scanRels_spec (symtab : List Sym) (b : Bool) (rels : List Reloc) (ts : List Nat) (h : scanRels symtab b rels = some ts)
    (t : Nat) : t ∈ ts ↔ ∃ r ∈ rels, r.sym ≠ 0 ∧ ∃ s : Sym, symtab[r.sym]? = some s ∧
      (s.isSection = true ∨ (s.isNotype = true ∧ s.isLocal = true)) ∧ t = target b s r := by
  induction rels generalizing ts with
  | nil => unfold scanRels at h; cases h; simp
  | cons r rels ih =>
    unfold scanRels at h
    split at h
    · rename_i h0
      rw [ih ts h]
      constructor
      · rintro ⟨q, hq, e⟩; exact ⟨q, List.mem_cons_of_mem _ hq, e⟩
      · rintro ⟨q, hq, e1, e2⟩
        rcases List.mem_cons.1 hq with e | hq
        · subst e; exact absurd h0 e1
        · exact ⟨q, hq, e1, e2⟩
    · rename_i h0
      split at h
      · cases h
      · rename_i s hs
        split at h
        · cases h
        · rename_i us hus
          cases h
          have := ih us hus
          cases hc : counts s with
          | true =>
            simp only
            rw [List.mem_cons, this]
            constructor
            · rintro (e | ⟨q, hq, e⟩)
              · exact ⟨r, List.mem_cons_self, h0, s, hs, (counts_iff s).1 hc, e⟩
              · exact ⟨q, List.mem_cons_of_mem _ hq, e⟩
            · rintro ⟨q, hq, e1, s', e2, e3, e4⟩
              rcases List.mem_cons.1 hq with e | hq
              · subst e
                rw [hs] at e2; injection e2 with e2; subst e2
                exact Or.inl e4
              · exact Or.inr ⟨q, hq, e1, s', e2, e3, e4⟩
          | false =>
            simp only
            rw [this]
            constructor
            · rintro ⟨q, hq, e⟩; exact ⟨q, List.mem_cons_of_mem _ hq, e⟩
            · rintro ⟨q, hq, e1, s', e2, e3, e4⟩
              rcases List.mem_cons.1 hq with e | hq
              · subst e
                rw [hs] at e2; injection e2 with e2; subst e2
                rw [(counts_iff s).2 e3] at hc; cases hc
              · exact ⟨q, hq, e1, s', e2, e3, e4⟩

theorem scan_spec (symtab : List Sym) (sc : RelScn) (ts : List Nat) (h : scan symtab sc = some ts) (t : Nat) :
    t ∈ ts ↔ Refers symtab [sc] t := by
  unfold scan at h
  unfold Refers
  simp only [List.mem_singleton, exists_eq_left]
  split at h
  · rename_i e
    cases h
    simp [e]
  · rename_i e
    rw [scanRels_spec _ _ _ _ h]
    constructor
    · intro h; exact ⟨fun hc => e hc, h⟩
    · exact fun h => h.2

theorem scanRels_some (symtab : List Sym) (b : Bool) (rels : List Reloc) (h : ∀ r ∈ rels, r.sym < symtab.length) :
    ∃ ts, scanRels symtab b rels = some ts := by
  induction rels with
  | nil => exact ⟨_, rfl⟩
  | cons r rels ih =>
    obtain ⟨ts, hts⟩ := ih (fun q hq => h q (List.mem_cons_of_mem _ hq))
    unfold scanRels
    split
    · exact ⟨ts, hts⟩
    · rw [List.getElem?_eq_getElem (h r List.mem_cons_self), hts]
      exact ⟨_, rfl⟩

theorem refers_cons (symtab : List Sym) (sc : RelScn) (l : List RelScn) (t : Nat) :
    Refers symtab (sc :: l) t ↔ Refers symtab [sc] t ∨ Refers symtab l t := by
  unfold Refers
  simp only [List.mem_cons, List.not_mem_nil, or_false]
  constructor
  · rintro ⟨s, hs | hs, h⟩
    · exact Or.inl ⟨s, hs, h⟩
    · exact Or.inr ⟨s, hs, h⟩
  · rintro (⟨s, hs, h⟩ | ⟨s, hs, h⟩)
    · exact ⟨s, Or.inl hs, h⟩
    · exact ⟨s, Or.inr hs, h⟩

theorem addScns_spec (symtab : List Sym) (statics : List Static) (scns : List RelScn) (recs recs' : List (Nat × GRec))
    (ha : Asc recs) (hd : ∀ t, ¬ Inside statics t → ∀ r, (t, r) ∈ recs → r = .reloc)
    (h : addScns symtab statics recs scns = some recs') :
    Asc recs' ∧ ∀ x, x ∈ recs' ↔ x ∈ recs ∨ ∃ t, Refers symtab scns t ∧ ¬ Inside statics t ∧ x = (t, .reloc) := by
  induction scns generalizing recs with
  | nil => unfold addScns at h; cases h; simp [ha, Refers]
  | cons sc l ih =>
    unfold addScns at h
    split at h
    · cases h
    · rename_i ts hts
      split at h
      · cases h
      · rename_i mid hmid
        obtain ⟨i1, i2⟩ := addRelocs_spec statics ts recs mid ha (fun t _ => hd t) hmid
        obtain ⟨j1, j2⟩ := ih mid i1 (by
          intro t ht r hm
          rcases (i2 _).1 hm with hm | ⟨q, _, _, e⟩
          · exact hd t ht r hm
          · injection e) h
        refine ⟨j1, fun x => ?_⟩
        rw [j2, i2]
        constructor
        · rintro ((hx | ⟨t, ht, e⟩) | ⟨t, ht, e⟩)
          · exact Or.inl hx
          · exact Or.inr ⟨t, (refers_cons _ _ _ _).2 (Or.inl ((scan_spec _ _ _ hts t).1 ht)), e⟩
          · exact Or.inr ⟨t, (refers_cons _ _ _ _).2 (Or.inr ht), e⟩
        · rintro (hx | ⟨t, ht, e⟩)
          · exact Or.inl (Or.inl hx)
          · rcases (refers_cons _ _ _ _).1 ht with ht | ht
            · exact Or.inl (Or.inr ⟨t, (scan_spec _ _ _ hts t).2 ht, e⟩)
            · exact Or.inr ⟨t, ht, e⟩

theorem addScns_some (symtab : List Sym) (statics : List Static) (scns : List RelScn) (recs : List (Nat × GRec))
    (hlo : ∀ s ∈ statics, s.lo < 2 ^ 32) (hsym : ∀ sc ∈ scns, ∀ r ∈ sc.rels, r.sym < symtab.length) :
    ∃ recs', addScns symtab statics recs scns = some recs' := by
  induction scns generalizing recs with
  | nil => exact ⟨_, rfl⟩
  | cons sc l ih =>
    have hs : ∃ ts, scan symtab sc = some ts := by
      unfold scan
      split
      · exact ⟨_, rfl⟩
      · exact scanRels_some _ _ _ (hsym sc List.mem_cons_self)
    obtain ⟨ts, hts⟩ := hs
    obtain ⟨mid, hmid⟩ := addRelocs_some statics ts recs hlo
    unfold addScns
    rw [hts]; simp only
    rw [hmid]; simp only
    exact ih _ (fun q hq => hsym q (List.mem_cons_of_mem _ hq))

/-- The records generated. -/
theorem generate_spec {symtab : List Sym} {statics : List Static} {scns : List RelScn} (ho : Ordered statics)
    {recs : List (Nat × GRec)} (h : generate symtab statics scns = some recs) :
    Asc recs ∧ ∀ x, x ∈ recs ↔
      (∃ pre s post, statics = pre ++ s :: post ∧ x = (s.lo, .sym s.kind (idxOf pre s) s.type)) ∨
      (∃ t, Refers symtab scns t ∧ ¬ Inside statics t ∧ x = (t, .reloc)) := by
  unfold generate at h
  obtain ⟨h1, h2⟩ := syms_spec statics ho
  obtain ⟨h3, h4⟩ := addScns_spec symtab statics scns _ _ h1 (by
    intro t ht r hm
    obtain ⟨pre, s, post, e, e'⟩ := (h2 _).1 hm
    injection e' with e' _
    have hs : s ∈ statics := by rw [e]; simp
    exact absurd ⟨s, hs, by omega, by have := ho.1 s hs; omega⟩ ht) h
  refine ⟨h3, fun x => ?_⟩
  rw [h4, h2]

/-- Each symbol's record resolves to an entry with the record's address, ending before the next record. -/
def Sound (tabs : Tabs) (l : List (Nat × GRec)) : Prop :=
  ∀ a k i ty, (a, GRec.sym k i ty) ∈ l → ∃ n, (tabs.of k)[i]? = some (a, n) ∧ 0 < n ∧ ∀ b q, (b, q) ∈ l → a < b → a + n ≤ b

/-- The emitted and resolved vector. -/
theorem segment_spec (tabs : Tabs) (base limit : Nat) (l : List (Nat × GRec)) (ha : Asc l) (hs : Sound tabs l) :
    ∃ v, resolveAll tabs (segment base limit l) = some v ∧ Tidy v ∧
      (∀ x ∈ v, base ≤ x.vaddr ∧ x.vaddr < limit ∧ 0 < x.size ∧ ∃ q, (x.vaddr, q) ∈ l ∧
        (x.isReloc = false → ∃ k i, q = .sym k i x.type ∧ (tabs.of k)[i]? = some (x.vaddr, x.size)) ∧
        (x.isReloc = true → q = .reloc ∧ (∀ b r, (b, r) ∈ l → x.vaddr < b → x.vaddr + x.size ≤ b) ∧
          ((∃ r, (x.vaddr + x.size, r) ∈ l) ∨ (x.vaddr + x.size = limit ∧ ∀ b r, (b, r) ∈ l → b ≤ x.vaddr)))) ∧
      (∀ a q, (a, q) ∈ l → base ≤ a → a < limit → ∃ x ∈ v, x.vaddr = a) := by
  induction l with
  | nil => exact ⟨[], rfl, List.Pairwise.nil, by simp, by simp⟩
  | cons y l ih =>
    obtain ⟨a, r⟩ := y
    have ha' := List.pairwise_cons.1 ha
    have hs' : Sound tabs l := by
      intro a' k i ty hm
      obtain ⟨n, h1, h2, h3⟩ := hs a' k i ty (List.mem_cons_of_mem _ hm)
      exact ⟨n, h1, h2, fun b q hb => h3 b q (List.mem_cons_of_mem _ hb)⟩
    obtain ⟨v, hv, ht, hx, hc⟩ := ih ha'.2 hs'
    -- facts about the records of the tail carry over
    have lift : ∀ x ∈ v, base ≤ x.vaddr ∧ x.vaddr < limit ∧ 0 < x.size ∧ ∃ q, (x.vaddr, q) ∈ (a, r) :: l ∧
        (x.isReloc = false → ∃ k i, q = .sym k i x.type ∧ (tabs.of k)[i]? = some (x.vaddr, x.size)) ∧
        (x.isReloc = true → q = .reloc ∧ (∀ b r', (b, r') ∈ (a, r) :: l → x.vaddr < b → x.vaddr + x.size ≤ b) ∧
          ((∃ r', (x.vaddr + x.size, r') ∈ (a, r) :: l) ∨
            (x.vaddr + x.size = limit ∧ ∀ b r', (b, r') ∈ (a, r) :: l → b ≤ x.vaddr))) := by
      intro x hxv
      obtain ⟨h1, h2, h3, q, h4, h5, h6⟩ := hx x hxv
      have hax : a < x.vaddr := ha'.1 _ h4
      refine ⟨h1, h2, h3, q, List.mem_cons_of_mem _ h4, h5, fun hr => ?_⟩
      obtain ⟨h7, h8, h9⟩ := h6 hr
      refine ⟨h7, fun b r' hb hlt => ?_, ?_⟩
      · rcases List.mem_cons.1 hb with e | hb
        · injection e with e _; omega
        · exact h8 b r' hb hlt
      · rcases h9 with ⟨r', h9⟩ | ⟨h9, h10⟩
        · exact Or.inl ⟨r', List.mem_cons_of_mem _ h9⟩
        · refine Or.inr ⟨h9, fun b r' hb => ?_⟩
          rcases List.mem_cons.1 hb with e | hb
          · injection e with e _; omega
          · exact h10 b r' hb
    unfold segment
    split
    · rename_i hin
      -- the new record, whichever it is
      suffices H : ∃ x : StaticSym.Rec, resolve tabs (emit limit a r l) = some x ∧ x.vaddr = a ∧ 0 < x.size ∧
          (x.isReloc = false → ∃ k i, r = .sym k i x.type ∧ (tabs.of k)[i]? = some (a, x.size)) ∧
          (x.isReloc = true → r = .reloc ∧ ((∃ r', (a + x.size, r') ∈ l) ∨ (a + x.size = limit ∧ l = []))) ∧
          (∀ b r', (b, r') ∈ l → a + x.size ≤ b) by
        obtain ⟨x, e1, e2, e3, e4, e5, e6⟩ := H
        refine ⟨x :: v, ?_, ?_, ?_, ?_⟩
        · unfold resolveAll; rw [e1]; simp only; rw [hv]
        · refine List.pairwise_cons.2 ⟨fun z hz => ?_, ht⟩
          obtain ⟨_, _, _, q, h4, _⟩ := hx z hz
          rw [e2]
          exact ⟨e6 _ _ h4, ha'.1 _ h4⟩
        · intro z hz
          rcases List.mem_cons.1 hz with e | hz
          · subst e
            refine ⟨by omega, by omega, e3, r, by rw [e2]; exact List.mem_cons_self, fun h => by rw [e2]; exact e4 h, fun h => ?_⟩
            obtain ⟨h1, h2⟩ := e5 h
            refine ⟨h1, fun b r' hb hlt => ?_, ?_⟩
            · rcases List.mem_cons.1 hb with e | hb
              · injection e with e _; omega
              · rw [e2]; exact e6 b r' hb
            · rw [e2]
              rcases h2 with ⟨r', h2⟩ | ⟨h2, h3⟩
              · exact Or.inl ⟨r', List.mem_cons_of_mem _ h2⟩
              · refine Or.inr ⟨h2, fun b r' hb => ?_⟩
                rw [h3] at hb
                rcases List.mem_cons.1 hb with e | hb
                · injection e with e _; omega
                · simp at hb
          · exact lift z hz
        · intro a' q hm h1 h2
          rcases List.mem_cons.1 hm with e | hm
          · injection e with e _
            exact ⟨x, List.mem_cons_self, by rw [e2, e]⟩
          · obtain ⟨z, hz, e⟩ := hc a' q hm h1 h2
            exact ⟨z, List.mem_cons_of_mem _ hz, e⟩
      cases r with
      | sym k i ty =>
        obtain ⟨n, h1, h2, h3⟩ := hs a k i ty List.mem_cons_self
        refine ⟨⟨a, n, false, ty⟩, ?_, rfl, h2, fun _ => ⟨k, i, rfl, h1⟩, fun h => by simp at h, fun b r' hb => ?_⟩
        · simp only [emit, resolve, h1]
        · exact h3 b r' (List.mem_cons_of_mem _ hb) (ha'.1 _ hb)
      | reloc =>
        cases l with
        | nil =>
          refine ⟨⟨a, limit - a, true, 0⟩, rfl, rfl, ?_, fun h => by simp at h, fun _ => ⟨rfl, Or.inr ⟨?_, rfl⟩⟩, by simp⟩
          · show 0 < limit - a; omega
          · show a + (limit - a) = limit; omega
        | cons z l =>
          obtain ⟨b, q⟩ := z
          have hab : a < b := ha'.1 _ List.mem_cons_self
          refine ⟨⟨a, b - a, true, 0⟩, rfl, rfl, ?_, fun h => by simp at h, fun _ => ⟨rfl, Or.inl ⟨q, ?_⟩⟩, ?_⟩
          · show 0 < b - a; omega
          · show (a + (b - a), q) ∈ _
            rw [show a + (b - a) = b by omega]; exact List.mem_cons_self
          · intro b' r' hb
            show a + (b - a) ≤ b'
            rcases List.mem_cons.1 hb with e | hb
            · injection e with e _; omega
            · have := (List.pairwise_cons.1 ha'.2).1 _ hb; simp at this; omega
    · rename_i hout
      refine ⟨v, hv, ht, lift, fun a' q hm h1 h2 => ?_⟩
      rcases List.mem_cons.1 hm with e | hm
      · injection e with e _; subst e; exact absurd ⟨h1, h2⟩ hout
      · exact hc a' q hm h1 h2

end Liballocs.MetavecBuild
