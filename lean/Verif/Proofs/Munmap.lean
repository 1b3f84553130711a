import Verif.Model.Munmap
import Verif.Props.MapSeq
/-! # Notification of munmap: supporting lemmas -/
namespace Liballocs.Munmap
open MapSeq

/-- One mapping is well formed: non-empty, page aligned, its sequence well formed and with its bounds. -/
structure MWf (m : Mapping) : Prop where
  lt : m.begin < m.end
  ba : m.begin % PAGE = 0
  ea : m.end % PAGE = 0
  inv : MapSeq.Inv m.seq
  ne : m.seq.nused ≠ 0
  sb : m.seq.begin = m.begin
  se : m.seq.end = m.end

def Disj (m n : Mapping) : Prop := m.end ≤ n.begin ∨ n.end ≤ m.begin

/-- The mappings are well formed and disjoint. -/
structure Wf (st : List Mapping) : Prop where
  each : ∀ m ∈ st, MWf m
  disj : st.Pairwise Disj

/-- The attributes known for an address. -/
def attrAt (st : List Mapping) (a : Nat) : Option Attr :=
  match lookup st a with
  | none => none
  | some m => (findEntry m.seq a).map Entry.attr

theorem lookup_none {st : List Mapping} {a : Nat} : lookup st a = none ↔ ∀ m ∈ st, ¬ (m.begin ≤ a ∧ a < m.end) := by
  unfold lookup; rw [List.find?_eq_none]; simp

theorem lookup_mem {st : List Mapping} {a : Nat} {m : Mapping} (h : lookup st a = some m) : m ∈ st ∧ m.begin ≤ a ∧ a < m.end := by
  have h1 := List.mem_of_find?_eq_some h
  have h2 := List.find?_some h
  rw [decide_eq_true_eq] at h2
  exact ⟨h1, h2⟩

theorem lookup_append (l1 l2 : List Mapping) (a : Nat) : lookup (l1 ++ l2) a = (lookup l1 a).or (lookup l2 a) := by
  unfold lookup; rw [List.find?_append]

theorem mem_split {st : List Mapping} {b : Mapping} (hw : Wf st) (hb : b ∈ st) :
    ∃ A B, st = A ++ b :: B ∧ (∀ m ∈ A ++ B, Disj m b ∧ m.begin ≠ b.begin) ∧
      ∀ repl, subst st b repl = A ++ (repl ++ B) := by
  obtain ⟨A, B, rfl⟩ := List.append_of_mem hb
  refine ⟨A, B, rfl, ?_⟩
  have hp := List.pairwise_append.1 hw.disj
  have hd : ∀ m ∈ A ++ B, Disj m b ∧ m.begin ≠ b.begin := by
    intro m hm
    have hbw := hw.each b (by simp)
    have hbl := hbw.lt
    rcases List.mem_append.1 hm with h | h
    · have hd := hp.2.2 m h b List.mem_cons_self
      have := (hw.each m (by simp [h])).lt
      refine ⟨hd, ?_⟩
      unfold Disj at hd; omega
    · have hd := (List.pairwise_cons.1 hp.2.1).1 m h
      have := (hw.each m (by simp [h])).lt
      refine ⟨?_, ?_⟩ <;> unfold Disj at * <;> omega
  refine ⟨hd, ?_⟩
  intro repl
  have hid : ∀ L : List Mapping, (∀ m ∈ L, m.begin ≠ b.begin) →
      L.flatMap (fun m => if m.begin = b.begin then repl else [m]) = L := by
    intro L
    induction L with
    | nil => intro _; rfl
    | cons x L ih =>
      intro h
      rw [List.flatMap_cons, if_neg (h x List.mem_cons_self), ih (fun m hm => h m (List.mem_cons_of_mem _ hm))]; rfl
  unfold subst
  rw [List.flatMap_append, List.flatMap_cons, if_pos rfl, hid A (fun m hm => (hd m (by simp [hm])).2),
    hid B (fun m hm => (hd m (by simp [hm])).2)]

/-- Replacing a mapping by well-formed disjoint pieces of it. -/
theorem subst_wf {st : List Mapping} {b : Mapping} (hw : Wf st) (hb : b ∈ st) (repl : List Mapping)
    (h1 : ∀ m ∈ repl, MWf m ∧ b.begin ≤ m.begin ∧ m.end ≤ b.end) (h2 : repl.Pairwise Disj) :
    Wf (subst st b repl) ∧ ∀ a, attrAt (subst st b repl) a =
      if b.begin ≤ a ∧ a < b.end then attrAt repl a else attrAt st a := by
  obtain ⟨A, B, hst, hd, hs⟩ := mem_split hw hb
  rw [hs]
  have hp := List.pairwise_append.1 (hst ▸ hw.disj)
  have hpB := List.pairwise_cons.1 hp.2.1
  have hrep : ∀ m ∈ repl, ∀ n ∈ A ++ B, Disj n m := by
    intro m hm n hn
    have := (hd n hn).1
    have := (h1 m hm).2
    unfold Disj at *; omega
  constructor
  · constructor
    · intro m hm
      rcases List.mem_append.1 hm with h | h
      · exact hw.each m (by rw [hst]; simp [h])
      · rcases List.mem_append.1 h with h | h
        · exact (h1 m h).1
        · exact hw.each m (by rw [hst]; simp [h])
    · rw [List.pairwise_append]
      refine ⟨hp.1, ?_, ?_⟩
      · rw [List.pairwise_append]
        refine ⟨h2, hpB.2, ?_⟩
        intro m hm n hn
        have := hrep m hm n (by simp [hn])
        unfold Disj at *; omega
      · intro m hm n hn
        rcases List.mem_append.1 hn with h | h
        · exact hrep n h m (by simp [hm])
        · exact hp.2.2 m hm n (List.mem_cons_of_mem _ h)
  · intro a
    unfold attrAt
    rw [lookup_append, lookup_append, hst, show A ++ b :: B = A ++ ([b] ++ B) from rfl, lookup_append, lookup_append]
    by_cases c : b.begin ≤ a ∧ a < b.end
    · rw [if_pos c]
      have hA : lookup A a = none := by
        rw [lookup_none]; intro m hm
        have := (hd m (by simp [hm])).1
        unfold Disj at this; omega
      have hB : lookup B a = none := by
        rw [lookup_none]; intro m hm
        have := (hd m (by simp [hm])).1
        unfold Disj at this; omega
      rw [hA, hB]
      cases lookup repl a <;> rfl
    · rw [if_neg c]
      have hR : lookup repl a = none := by
        rw [lookup_none]; intro m hm
        have := (h1 m hm).2
        omega
      have hb : lookup [b] a = none := by
        rw [lookup_none]; intro m hm
        rw [List.mem_singleton] at hm
        rw [hm]; exact c
      rw [hR, hb]

theorem findEntry_outside {s : Seq} (hi : MapSeq.Inv s) (hne : s.nused ≠ 0) (a : Nat) (h : ¬ (s.begin ≤ a ∧ a < s.end)) :
    findEntry s a = none := by
  have hrun : Run s := by rcases hi.1.2 with ⟨z, _⟩ | h; exact absurd z hne; exact h
  exact (findEntry_run hrun a).2 (by omega)

theorem attrAt_of_mem {st : List Mapping} (hw : Wf st) {b : Mapping} (hb : b ∈ st) (a : Nat) (h : b.begin ≤ a ∧ a < b.end) :
    attrAt st a = (findEntry b.seq a).map Entry.attr := by
  obtain ⟨A, B, hst, hd, _⟩ := mem_split hw hb
  unfold attrAt
  have hA : lookup A a = none := by
    rw [lookup_none]; intro m hm
    have := (hd m (by simp [hm])).1
    unfold Disj at this; omega
  rw [hst, lookup_append, hA]
  have : lookup (b :: B) a = some b := by unfold lookup; rw [List.find?_cons_of_pos (by simpa using h)]
  rw [this]; rfl

theorem attrAt_single (m : Mapping) (a : Nat) (hi : MapSeq.Inv m.seq) (hne : m.seq.nused ≠ 0) (hb : m.seq.begin = m.begin)
    (he : m.seq.end = m.end) : attrAt [m] a = (findEntry m.seq a).map Entry.attr := by
  unfold attrAt lookup
  by_cases c : m.begin ≤ a ∧ a < m.end
  · rw [List.find?_cons_of_pos (by simpa using c)]
  · rw [List.find?_cons_of_neg (by simpa using c), List.find?_nil]
    simp only
    rw [findEntry_outside hi hne a (by rw [hb, he]; exact c)]; rfl

/-- Pre-truncation. -/
theorem pre_ok {st : List Mapping} {b : Mapping} (hw : Wf st) (hb : b ∈ st) {rem : Nat} (hr : 0 < rem)
    (hra : rem % PAGE = 0) (hlt : b.begin + rem < b.end) :
    ∃ st', preTruncate st b b.begin rem = .ok st' ∧ Wf st' ∧
      ∀ a, attrAt st' a = if b.begin ≤ a ∧ a < b.begin + rem then none else attrAt st a := by
  have hm := hw.each b hb
  obtain ⟨s', e1, e2, e3⟩ := delete_wf_partial b.seq b.begin rem hm.inv hm.ne hr
    (Or.inl ⟨by rw [hm.sb]; exact Nat.le_refl _, by rw [hm.sb]; omega⟩)
  have hne : s'.nused ≠ 0 := by intro h; have := (e2.1 h).2; rw [hm.se] at this; omega
  obtain ⟨f1, f2, f3⟩ := e3 hne
  rw [hm.sb, if_pos (Nat.le_refl _)] at f2
  rw [hm.se, if_neg (by omega)] at f3
  have hba := hm.ba
  obtain ⟨g1, g2⟩ := subst_wf hw hb [⟨b.begin + rem, b.end, s'⟩] (by
    intro m hmem
    rw [List.mem_singleton] at hmem
    subst hmem
    exact ⟨⟨hlt, by simp only [PAGE] at *; omega, hm.ea, f1, hne, f2, f3⟩, by simp only; omega, Nat.le_refl _⟩) (List.pairwise_singleton _ _)
  refine ⟨_, by unfold preTruncate; rw [e1], g1, ?_⟩
  intro a
  rw [g2, attrAt_single _ a f1 hne f2 f3]
  obtain ⟨d1, d2, _⟩ := delete_attrs_partial b.seq b.begin rem hm.inv hr true s' e1 a
  by_cases c : b.begin ≤ a ∧ a < b.end
  · rw [if_pos c]
    by_cases c2 : b.begin ≤ a ∧ a < b.begin + rem
    · rw [if_pos c2, d1 c2]; rfl
    · rw [if_neg c2, d2 c2, attrAt_of_mem hw hb a c]
  · rw [if_neg c, if_neg (by omega)]

/-- Removal from the end. -/
theorem post_ok {st : List Mapping} {b : Mapping} (hw : Wf st) (hb : b ∈ st) {cur : Nat} (h1 : b.begin < cur) (h2 : cur < b.end)
    (hca : cur % PAGE = 0) :
    ∃ st', postTruncate st b cur = .ok st' ∧ Wf st' ∧
      ∀ a, attrAt st' a = if cur ≤ a ∧ a < b.end then none else attrAt st a := by
  have hm := hw.each b hb
  have hlen : cur + (b.end - cur) = b.end := by omega
  obtain ⟨s', e1, e2, e3⟩ := delete_wf_partial b.seq cur (b.end - cur) hm.inv hm.ne (by omega)
    (Or.inr ⟨by rw [hm.se]; omega, by rw [hm.se]; omega⟩)
  have hne : s'.nused ≠ 0 := by intro h; have := (e2.1 h).1; rw [hm.sb] at this; omega
  obtain ⟨f1, f2, f3⟩ := e3 hne
  rw [hm.sb, if_neg (by omega)] at f2
  rw [hm.se, if_pos (by omega)] at f3
  obtain ⟨g1, g2⟩ := subst_wf hw hb [⟨b.begin, cur, s'⟩] (by
    intro m hmem
    rw [List.mem_singleton] at hmem
    subst hmem
    exact ⟨⟨h1, hm.ba, hca, f1, hne, f2, f3⟩, Nat.le_refl _, by simp only; omega⟩) (List.pairwise_singleton _ _)
  refine ⟨_, by unfold postTruncate; rw [e1], g1, ?_⟩
  intro a
  rw [g2, attrAt_single _ a f1 hne f2 f3]
  obtain ⟨d1, d2, _⟩ := delete_attrs_partial b.seq cur (b.end - cur) hm.inv (by omega) true s' e1 a
  rw [hlen] at d1 d2
  by_cases c : b.begin ≤ a ∧ a < b.end
  · rw [if_pos c]
    by_cases c2 : cur ≤ a ∧ a < b.end
    · rw [if_pos c2, d1 c2]; rfl
    · rw [if_neg c2, d2 c2, attrAt_of_mem hw hb a c]
  · rw [if_neg c, if_neg (by omega)]

/-- A hole. -/
theorem hole_ok {st : List Mapping} {b : Mapping} (hw : Wf st) (hb : b ∈ st) {addr eff : Nat} (h1 : b.begin < addr)
    (h0 : 0 < eff) (h2 : addr + eff < b.end) (hca : addr % PAGE = 0) (hea : eff % PAGE = 0) :
    ∃ st', hole st b addr eff = .ok st' ∧ Wf st' ∧
      ∀ a, attrAt st' a = if addr ≤ a ∧ a < addr + eff then none else attrAt st a := by
  have hm := hw.each b hb
  have hlen : addr + (b.end - addr) = b.end := by omega
  have hlen2 : b.begin + (addr + eff - b.begin) = addr + eff := by omega
  obtain ⟨s1, e1, e2, e3⟩ := delete_wf_partial b.seq addr (b.end - addr) hm.inv hm.ne (by omega)
    (Or.inr ⟨by rw [hm.se]; omega, by rw [hm.se]; omega⟩)
  have hne1 : s1.nused ≠ 0 := by intro h; have := (e2.1 h).1; rw [hm.sb] at this; omega
  obtain ⟨f1, f2, f3⟩ := e3 hne1
  rw [hm.sb, if_neg (by omega)] at f2
  rw [hm.se, if_pos (by omega)] at f3
  obtain ⟨s2, i1, i2, i3⟩ := delete_wf_partial b.seq b.begin (addr + eff - b.begin) hm.inv hm.ne (by omega)
    (Or.inl ⟨by rw [hm.sb]; exact Nat.le_refl _, by rw [hm.sb]; omega⟩)
  have hne2 : s2.nused ≠ 0 := by intro h; have := (i2.1 h).2; rw [hm.se] at this; omega
  obtain ⟨j1, j2, j3⟩ := i3 hne2
  rw [hm.sb, if_pos (Nat.le_refl _), hlen2] at j2
  rw [hm.se, if_neg (by omega)] at j3
  have hba := hm.ba
  have hbl := hm.lt
  obtain ⟨g1, g2⟩ := subst_wf hw hb [⟨b.begin, addr, s1⟩, ⟨addr + eff, b.end, s2⟩] (by
    intro m hmem
    simp only [List.mem_cons, List.not_mem_nil, or_false] at hmem
    rcases hmem with rfl | rfl
    · exact ⟨⟨h1, hm.ba, hca, f1, hne1, f2, f3⟩, Nat.le_refl _, by simp only; omega⟩
    · exact ⟨⟨h2, by simp only [PAGE] at *; omega, hm.ea, j1, hne2, j2, j3⟩, by simp only; omega, Nat.le_refl _⟩)
    (by
      rw [List.pairwise_cons]
      refine ⟨?_, List.pairwise_singleton _ _⟩
      intro m hmem
      rw [List.mem_singleton] at hmem
      subst hmem
      left; simp only; omega)
  refine ⟨_, by unfold hole; rw [e1, i1], g1, ?_⟩
  intro a
  rw [g2]
  obtain ⟨d1, d2, _⟩ := delete_attrs_partial b.seq addr (b.end - addr) hm.inv (by omega) true s1 e1 a
  rw [hlen] at d1 d2
  obtain ⟨k1, k2, _⟩ := delete_attrs_partial b.seq b.begin (addr + eff - b.begin) hm.inv (by omega) true s2 i1 a
  rw [hlen2] at k1 k2
  by_cases c : b.begin ≤ a ∧ a < b.end
  · rw [if_pos c]
    have hl : attrAt [⟨b.begin, addr, s1⟩, ⟨addr + eff, b.end, s2⟩] a =
        if a < addr then (findEntry s1 a).map Entry.attr else if addr + eff ≤ a then (findEntry s2 a).map Entry.attr else none := by
      unfold attrAt lookup
      by_cases ca : a < addr
      · rw [if_pos ca, List.find?_cons_of_pos (by simp; omega)]
      · rw [if_neg ca, List.find?_cons_of_neg (by simp; omega)]
        by_cases cb : addr + eff ≤ a
        · rw [if_pos cb, List.find?_cons_of_pos (by simp; omega)]
        · rw [if_neg cb, List.find?_cons_of_neg (by simp; omega)]; rfl
    rw [hl, attrAt_of_mem hw hb a c]
    by_cases ca : a < addr
    · rw [if_pos ca, if_neg (by omega)]; exact d2 (by omega)
    · rw [if_neg ca]
      by_cases cb : addr + eff ≤ a
      · rw [if_pos cb, if_neg (by omega)]; exact k2 (by omega)
      · rw [if_neg cb, if_pos (by omega)]
  · rw [if_neg c, if_neg (by omega)]

/-- Wholesale deletion. -/
theorem del_ok {st : List Mapping} {b : Mapping} (hw : Wf st) (hb : b ∈ st) :
    Wf (subst st b []) ∧ ∀ a, attrAt (subst st b []) a = if b.begin ≤ a ∧ a < b.end then none else attrAt st a := by
  obtain ⟨g1, g2⟩ := subst_wf hw hb [] (by intro m hm; cases hm) List.Pairwise.nil
  exact ⟨g1, g2⟩

end Liballocs.Munmap
