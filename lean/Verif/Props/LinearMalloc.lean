import Verif.Model.LinearMalloc
/- C46: the linker-malloc index finds the chunk containing an address. -/
namespace Liballocs.LinearMalloc

/-! ### Specification -/

/-- A live chunk: start and requested size. -/
structure Chunk where
  start : Nat
  size : Nat
deriving DecidableEq, Repr

/-- A chunk the linker's malloc may hand out next to `L`: non-empty, smaller than 4 GiB, disjoint
from the live ones, and inside the address window `[lo, lo + 2^31)`. -/
structure MayAlloc (lo : Nat) (L : List Chunk) (c : Chunk) : Prop where
  pos : 0 < c.start
  above : lo ≤ c.start
  below : c.start < lo + 2 ^ 31
  nonempty : 0 < c.size
  size32 : c.size < 2 ^ 32
  room : L.length < MAX
  disj : ∀ d ∈ L, c.start + c.size ≤ d.start ∨ d.start + d.size ≤ c.start

inductive Legal (lo : Nat) : List Chunk → Ev → List Chunk → Prop where
  | alloc {L c} : MayAlloc lo L c → Legal lo L (.alloc c.start c.size) (c :: L)
  | free {L c} : c ∈ L → Legal lo L (.free c.start) (L.erase c)
  | realloc {L c d} : c ∈ L → MayAlloc lo (L.erase c) d →
      Legal lo L (.realloc c.start d.start d.size) (d :: L.erase c)

inductive History (lo : Nat) : List Chunk → List Ev → List Chunk → Prop where
  | nil {L} : History lo L [] L
  | cons {L M N e es} : Legal lo L e M → History lo M es N → History lo L (e :: es) N

/-! ### Sorting -/

/-- Sort key: null addresses last. -/
def key (r : Rec) : Nat := if r.addr = 0 then 2 ^ 64 else r.addr

theorem cmp_le (lo : Nat) (hw : lo + 2 ^ 31 ≤ 2 ^ 64) (r x : Rec)
    (hr : r.addr = 0 ∨ lo ≤ r.addr ∧ r.addr < lo + 2 ^ 31)
    (hx : x.addr = 0 ∨ lo ≤ x.addr ∧ x.addr < lo + 2 ^ 31) :
    cmp r x ≤ 0 ↔ key r ≤ key x := by
  unfold cmp key toInt32
  by_cases h1 : r.addr = 0 <;> by_cases h2 : x.addr = 0
  · simp [h1, h2]
  · simp only [h1, h2, and_false, if_false, if_true]; omega
  · simp only [h1, h2, false_and, if_false, if_true]; omega
  · simp only [h1, h2, and_self, if_false]
    omega

def InWin (lo : Nat) (r : Rec) : Prop := r.addr = 0 ∨ lo ≤ r.addr ∧ r.addr < lo + 2 ^ 31

theorem ins_perm (r : Rec) (l : List Rec) : (ins r l).Perm (r :: l) := by
  induction l with
  | nil => exact .refl _
  | cons x xs ih =>
    unfold ins
    split
    · exact .refl _
    · exact (List.Perm.cons x ih).trans (List.Perm.swap r x xs)

theorem qsort_perm (l : List Rec) : (qsort l).Perm l := by
  induction l with
  | nil => exact .refl _
  | cons x xs ih => exact (ins_perm x (qsort xs)).trans (.cons x ih)

theorem ins_sorted (lo : Nat) (hw : lo + 2 ^ 31 ≤ 2 ^ 64) (r : Rec) (l : List Rec)
    (hr : InWin lo r) (hl : ∀ x ∈ l, InWin lo x)
    (hs : l.Pairwise (fun a b => key a ≤ key b)) :
    (ins r l).Pairwise (fun a b => key a ≤ key b) := by
  induction l with
  | nil => simp [ins]
  | cons x xs ih =>
    have hx := hl x (List.mem_cons_self ..)
    have hs' := List.pairwise_cons.1 hs
    unfold ins
    split
    · rename_i hc
      rw [cmp_le lo hw r x hr hx] at hc
      refine List.pairwise_cons.2 ⟨?_, hs⟩
      intro y hy
      rcases List.mem_cons.1 hy with rfl | hy
      · exact hc
      · exact Nat.le_trans hc (hs'.1 y hy)
    · rename_i hc
      rw [cmp_le lo hw r x hr hx] at hc
      refine List.pairwise_cons.2 ⟨?_, ih (fun y hy => hl y (List.mem_cons_of_mem _ hy)) hs'.2⟩
      intro y hy
      rcases List.mem_cons.1 ((ins_perm r xs).mem_iff.1 hy) with rfl | hy
      · omega
      · exact hs'.1 y hy

theorem qsort_sorted (lo : Nat) (hw : lo + 2 ^ 31 ≤ 2 ^ 64) (l : List Rec)
    (hl : ∀ x ∈ l, InWin lo x) : (qsort l).Pairwise (fun a b => key a ≤ key b) := by
  induction l with
  | nil => simp [qsort]
  | cons x xs ih =>
    have h := ih (fun y hy => hl y (List.mem_cons_of_mem _ hy))
    exact ins_sorted lo hw x (qsort xs) (hl x (List.mem_cons_self ..))
      (fun y hy => hl y (List.mem_cons_of_mem _ ((qsort_perm xs).mem_iff.1 hy))) h

/-! ### Invariant -/

/-- The record that stands for a chunk. -/
def recOf (c : Chunk) : Rec := ⟨c.start, c.size, (c.size + 15) / 8 * 8 - 8 - c.size⟩

structure Inv (lo : Nat) (recs : List Rec) (L : List Chunk) : Prop where
  perm : recs.Perm (L.map recOf)
  sorted : recs.Pairwise (fun a b => a.addr < b.addr)
  win : ∀ c ∈ L, 0 < c.start ∧ lo ≤ c.start ∧ c.start < lo + 2 ^ 31 ∧ 0 < c.size ∧ c.size < 2 ^ 32
  disj : L.Pairwise (fun c d => c.start + c.size ≤ d.start ∨ d.start + d.size ≤ c.start)

theorem Inv.mem {lo recs L} (h : Inv lo recs L) (r : Rec) : r ∈ recs ↔ ∃ c ∈ L, r = recOf c := by
  rw [h.perm.mem_iff, List.mem_map]
  constructor
  · rintro ⟨c, hc, rfl⟩; exact ⟨c, hc, rfl⟩
  · rintro ⟨c, hc, rfl⟩; exact ⟨c, hc, rfl⟩

theorem pairwise_mem {α} {R : α → α → Prop} (hsym : ∀ a b, R a b → R b a) :
    ∀ {l : List α}, l.Pairwise R → ∀ {a b}, a ∈ l → b ∈ l → a ≠ b → R a b
  | [], _, _, _, h, _, _ => by simp at h
  | x :: xs, hp, a, b, ha, hb, hne => by
    have hp' := List.pairwise_cons.1 hp
    rcases List.mem_cons.1 ha with h1 | h1 <;> rcases List.mem_cons.1 hb with h2 | h2
    · exact absurd (h1.trans h2.symm) hne
    · rw [h1]; exact hp'.1 b h2
    · rw [h2]; exact hsym _ _ (hp'.1 a h1)
    · exact pairwise_mem hsym hp'.2 h1 h2 hne

theorem Inv.disjoint {lo recs L} (h : Inv lo recs L) {c d : Chunk} (hc : c ∈ L) (hd : d ∈ L)
    (hne : c ≠ d) : c.start + c.size ≤ d.start ∨ d.start + d.size ≤ c.start :=
  pairwise_mem (R := fun c d : Chunk => c.start + c.size ≤ d.start ∨ d.start + d.size ≤ c.start)
    (fun _ _ h => h.symm) h.disj hc hd hne

theorem Inv.win_rec {lo recs L} (h : Inv lo recs L) {r : Rec} (hr : r ∈ recs) :
    0 < r.addr ∧ lo ≤ r.addr ∧ r.addr < lo + 2 ^ 31 := by
  obtain ⟨c, hc, rfl⟩ := (h.mem r).1 hr
  have := h.win c hc
  exact ⟨this.1, this.2.1, this.2.2.1⟩

/-- Sorted by key, addresses non-null and pairwise distinct: strictly sorted by address. -/
theorem strict_of {l : List Rec} (hs : l.Pairwise (fun a b => key a ≤ key b))
    (hn : ∀ r ∈ l, r.addr ≠ 0) (hd : l.Pairwise (fun a b => a.addr ≠ b.addr)) :
    l.Pairwise (fun a b => a.addr < b.addr) := by
  induction l with
  | nil => exact .nil
  | cons x xs ih =>
    have h1 := List.pairwise_cons.1 hs
    have h2 := List.pairwise_cons.1 hd
    refine List.pairwise_cons.2 ⟨?_, ih h1.2 (fun r hr => hn r (List.mem_cons_of_mem _ hr)) h2.2⟩
    intro y hy
    have a1 := h1.1 y hy
    have a2 := h2.1 y hy
    have a3 := hn x (List.mem_cons_self ..)
    have a4 := hn y (List.mem_cons_of_mem _ hy)
    simp only [key, if_neg a3, if_neg a4] at a1
    omega

theorem ne_of_strict {l : List Rec} (hs : l.Pairwise (fun a b => a.addr < b.addr)) :
    l.Pairwise (fun a b => a.addr ≠ b.addr) := hs.imp (fun h => Nat.ne_of_lt h)

theorem pairwise_ne_perm {l m : List Rec} (hp : l.Perm m)
    (h : l.Pairwise (fun a b => a.addr ≠ b.addr)) : m.Pairwise (fun a b => a.addr ≠ b.addr) :=
  (hp.pairwise_iff (fun h => Ne.symm h)).1 h

/-! ### Lookup -/

theorem sorted_split {l : List Rec} (hs : l.Pairwise (fun a b => a.addr < b.addr)) (a : Nat) :
    (∀ r ∈ l.takeWhile (fun r => decide (r.addr ≤ a)), r.addr ≤ a) ∧
    (∀ r ∈ l.dropWhile (fun r => decide (r.addr ≤ a)), a < r.addr) := by
  induction l with
  | nil => simp
  | cons x xs ih =>
    have h1 := List.pairwise_cons.1 hs
    have ih := ih h1.2
    by_cases hx : x.addr ≤ a
    · simp only [List.takeWhile_cons, List.dropWhile_cons, decide_eq_true hx, if_true]
      refine ⟨?_, ih.2⟩
      intro r hr
      rcases List.mem_cons.1 hr with h | h
      · rw [h]; exact hx
      · exact ih.1 r h
    · simp only [List.takeWhile_cons, List.dropWhile_cons, decide_eq_false hx]
      refine ⟨by simp, ?_⟩
      intro r hr
      rcases List.mem_cons.1 (by simpa using hr) with h | h
      · rw [h]; omega
      · have := h1.1 r h; omega

/-- What the bisection sees: either every record is above the address, or the records split at the
last one at or below it. -/
theorem bsearch_split {l : List Rec} (hs : l.Pairwise (fun a b => a.addr < b.addr)) (a : Nat) :
    (bsearchLeq l a = none ∧ ∀ r ∈ l, a < r.addr) ∨
    ∃ A r D, l = A ++ r :: D ∧ bsearchLeq l a = some A.length ∧ r.addr ≤ a ∧
      (∀ x ∈ A, x.addr < r.addr) ∧ (∀ x ∈ D, a < x.addr) := by
  obtain ⟨h1, h2⟩ := sorted_split hs a
  have h3 : l.takeWhile (fun r => decide (r.addr ≤ a)) ++ l.dropWhile (fun r => decide (r.addr ≤ a)) = l :=
    List.takeWhile_append_dropWhile
  generalize hT : l.takeWhile (fun r => decide (r.addr ≤ a)) = T at h1 h3
  generalize hD : l.dropWhile (fun r => decide (r.addr ≤ a)) = D at h2 h3
  rcases List.eq_nil_or_concat T with h | ⟨A, r, h⟩
  · left
    subst h
    constructor
    · simp [bsearchLeq, hT]
    · intro r hr; rw [← h3] at hr; exact h2 r (by simpa using hr)
  · right
    subst h
    refine ⟨A, r, D, by rw [← h3]; simp, by simp [bsearchLeq, hT], h1 r (by simp), ?_, h2⟩
    intro x hx
    rw [← h3, List.concat_eq_append] at hs
    have h4 := (List.pairwise_append.1 (List.pairwise_append.1 hs).1).2.2
    exact h4 x hx r (by simp)

theorem find_inside {lo recs L} (hI : Inv lo recs L) {c : Chunk} (hc : c ∈ L) {a : Nat}
    (h1 : c.start ≤ a) (h2 : a < c.start + c.size) :
    ∃ A D, recs = A ++ recOf c :: D ∧ findIdx recs a = some A.length := by
  have hm : recOf c ∈ recs := (hI.mem _).2 ⟨c, hc, rfl⟩
  rcases bsearch_split hI.sorted a with ⟨_, h⟩ | ⟨A, r, D, h3, h4, h5, h6, h7⟩
  · have := h _ hm
    simp only [recOf] at this; omega
  · have hr : r ∈ recs := by rw [h3]; simp
    obtain ⟨d, hd, hrd⟩ := (hI.mem r).1 hr
    have heq : d = c := by
      refine Decidable.byContradiction fun hne => ?_
      have hdis := hI.disjoint hd hc hne
      have wd := hI.win d hd
      have wc := hI.win c hc
      have ha : r.addr = d.start := by rw [hrd]; rfl
      have hcd : c.start ≤ d.start := by
        have hm' := hm
        rw [h3, List.mem_append, List.mem_cons] at hm'
        rcases hm' with h | h | h
        · have := h6 _ h; simp only [recOf] at this; omega
        · rw [← ha, ← h]; exact Nat.le_refl _
        · have := h7 _ h; simp only [recOf] at this; omega
      omega
    subst heq
    refine ⟨A, D, by rw [h3, hrd], ?_⟩
    unfold findIdx
    rw [h4]
    have hg : recs[A.length]? = some r := by rw [h3]; simp
    simp only [hg]
    rw [if_pos]
    rw [hrd]; simp only [recOf]; exact h2

theorem find_outside {lo recs L} (hI : Inv lo recs L) {a : Nat}
    (h : ∀ c ∈ L, ¬ (c.start ≤ a ∧ a < c.start + c.size)) : findIdx recs a = none := by
  unfold findIdx
  rcases bsearch_split hI.sorted a with ⟨h1, _⟩ | ⟨A, r, D, h3, h4, h5, h6, h7⟩
  · rw [h1]
  · have hg : recs[A.length]? = some r := by rw [h3]; simp
    rw [h4]
    simp only [hg]
    obtain ⟨d, hd, hrd⟩ := (hI.mem r).1 (by rw [h3]; simp)
    have := h d hd
    rw [if_neg]
    intro hlt
    apply this
    rw [hrd] at h5 hlt
    exact ⟨h5, hlt⟩

/-! ### The operations keep the invariant -/

theorem inv_nil (lo : Nat) : Inv lo [] [] := ⟨.refl _, .nil, by simp, .nil⟩

theorem inv_insert {lo recs L c} (hw : lo + 2 ^ 31 ≤ 2 ^ 64) (hI : Inv lo recs L)
    (hc : MayAlloc lo L c) :
    ∃ recs', insert recs c.start c.size = some recs' ∧ Inv lo recs' (c :: L) := by
  have hlen : recs.length < MAX := by
    have := hI.perm.length_eq
    rw [List.length_map] at this
    rw [this]; exact hc.room
  have hr : (⟨c.start, c.size % 2 ^ 32, ((c.size + 15) / 8 * 8 - 8 - c.size) % 256⟩ : Rec) = recOf c := by
    have := hc.size32
    unfold recOf
    congr 1
    · omega
    · omega
  have hperm : (recs ++ [recOf c]).Perm ((c :: L).map recOf) := by
    rw [List.map_cons]
    exact (List.perm_append_comm (l₁ := recs) (l₂ := [recOf c])).trans (.cons _ hI.perm)
  have hwin : ∀ d ∈ c :: L, 0 < d.start ∧ lo ≤ d.start ∧ d.start < lo + 2 ^ 31 ∧ 0 < d.size ∧ d.size < 2 ^ 32 := by
    intro d hd
    rcases List.mem_cons.1 hd with h | h
    · rw [h]; exact ⟨hc.pos, hc.above, hc.below, hc.nonempty, hc.size32⟩
    · exact hI.win d h
  have hdisj := List.pairwise_cons.2 ⟨hc.disj, hI.disj⟩
  have hfresh : ∀ r ∈ recs, r.addr ≠ c.start := by
    intro r hr' he
    obtain ⟨d, hd, rfl⟩ := (hI.mem r).1 hr'
    have h1 := hc.disj d hd
    have h2 := (hI.win d hd).2.2.2.1
    have h3 := hc.nonempty
    simp only [recOf] at he
    omega
  have hne : (recs ++ [recOf c]).Pairwise (fun a b => a.addr ≠ b.addr) := by
    refine List.pairwise_append.2 ⟨ne_of_strict hI.sorted, by simp, ?_⟩
    intro x hx y hy
    rw [List.mem_singleton] at hy
    rw [hy]; exact hfresh x hx
  have hnull : ∀ r ∈ recs ++ [recOf c], r.addr ≠ 0 := by
    intro r hr'
    rcases List.mem_append.1 hr' with h | h
    · have := hI.win_rec h; omega
    · rw [List.mem_singleton] at h
      rw [h]; have := hc.pos; simp only [recOf]; omega
  unfold insert
  rw [if_neg (by omega)]
  simp only [hr]
  rcases List.eq_nil_or_concat recs with h | ⟨A, l, h⟩
  · subst h
    refine ⟨[recOf c], rfl, ?_, by simp, hwin, hdisj⟩
    simpa using hperm
  · rw [List.concat_eq_append] at h
    have hl : recs.getLast? = some l := by rw [h]; simp
    rw [hl]
    simp only
    by_cases hlt : c.start < l.addr
    · rw [if_pos hlt]
      refine ⟨qsort (recs ++ [recOf c]), rfl, (qsort_perm _).trans hperm, ?_, hwin, hdisj⟩
      refine strict_of (qsort_sorted lo hw _ ?_) ?_ (pairwise_ne_perm (qsort_perm _).symm hne)
      · intro x hx
        rcases List.mem_append.1 hx with h | h
        · exact Or.inr (hI.win_rec h).2
        · rw [List.mem_singleton] at h
          rw [h]; exact Or.inr ⟨hc.above, hc.below⟩
      · intro r hr'; exact hnull r ((qsort_perm _).mem_iff.1 hr')
    · rw [if_neg hlt]
      refine ⟨recs ++ [recOf c], rfl, hperm, ?_, hwin, hdisj⟩
      refine List.pairwise_append.2 ⟨hI.sorted, by simp, ?_⟩
      intro x hx y hy
      rw [List.mem_singleton] at hy
      rw [hy]
      show x.addr < c.start
      have h0 := hfresh x hx
      have hx' := hx
      rw [h] at hx'
      have hs := hI.sorted
      rw [h] at hs
      rcases List.mem_append.1 hx' with h' | h'
      · have := (List.pairwise_append.1 hs).2.2 x h' l (by simp)
        omega
      · rw [List.mem_singleton] at h'
        rw [h'] at h0 ⊢; omega

theorem inv_delete {lo recs L c} (hw : lo + 2 ^ 31 ≤ 2 ^ 64) (hI : Inv lo recs L) (hc : c ∈ L) :
    ∃ recs', delete recs c.start = some recs' ∧ Inv lo recs' (L.erase c) := by
  have wc := hI.win c hc
  obtain ⟨A, D, h1, h2⟩ := find_inside hI hc (Nat.le_refl c.start) (by omega)
  have hset : recs.set A.length { recOf c with addr := 0 } = A ++ { recOf c with addr := 0 } :: D := by
    rw [h1]; simp
  generalize hz : ({ recOf c with addr := 0 } : Rec) = z at hset
  have hz0 : z.addr = 0 := by rw [← hz]
  have hp := qsort_perm (A ++ z :: D)
  have hwinz : ∀ x ∈ A ++ z :: D, InWin lo x ∧ (x.addr = 0 → x = z) := by
    intro x hx
    have hcase : x ∈ recs ∨ x = z := by
      rw [h1]
      simp only [List.mem_append, List.mem_cons] at hx ⊢
      rcases hx with h | h | h
      · exact .inl (.inl h)
      · exact .inr h
      · exact .inl (.inr (.inr h))
    rcases hcase with h | h
    · have := hI.win_rec h
      exact ⟨.inr this.2, fun h0 => by omega⟩
    · rw [h]; exact ⟨.inl hz0, fun _ => rfl⟩
  have hs := qsort_sorted lo hw (A ++ z :: D) (fun x hx => (hwinz x hx).1)
  rcases List.eq_nil_or_concat (qsort (A ++ z :: D)) with h | ⟨Q, l, h⟩
  · rw [h] at hp
    have := hp.length_eq
    simp at this
  · rw [List.concat_eq_append] at h
    have hl : l = z := by
      have hlm : l ∈ A ++ z :: D := hp.mem_iff.1 (by rw [h]; simp)
      have hzm : z ∈ Q ++ [l] := by rw [← h]; exact hp.mem_iff.2 (by simp)
      rcases List.mem_append.1 hzm with h' | h'
      · rw [h] at hs
        have hk := (List.pairwise_append.1 hs).2.2 z h' l (by simp)
        have hkz : key z = 2 ^ 64 := by simp [key, hz0]
        have hwl := (hwinz l hlm).1
        refine (hwinz l hlm).2 ?_
        refine Decidable.byContradiction fun h0 => ?_
        rw [hkz] at hk
        simp only [key, if_neg h0] at hk
        rcases hwl with h3 | h3 <;> omega
      · rw [List.mem_singleton] at h'; exact h'.symm
    have hQ : Q.Perm (A ++ D) := by
      have h3 : (z :: Q).Perm (z :: (A ++ D)) := by
        have h4 : (Q ++ [z]).Perm (A ++ z :: D) := by rw [← hl, ← h, hl]; exact hp
        exact (List.perm_append_comm (l₁ := [z]) (l₂ := Q)).trans (h4.trans List.perm_middle)
      exact h3.cons_inv
    have hR : (A ++ D).Perm ((L.erase c).map recOf) := by
      have h3 : (recOf c :: (A ++ D)).Perm (recOf c :: (L.erase c).map recOf) := by
        have h4 : (recOf c :: (A ++ D)).Perm recs := by rw [h1]; exact List.perm_middle.symm
        have h5 : (L.map recOf).Perm (recOf c :: (L.erase c).map recOf) :=
          (List.perm_cons_erase hc).map recOf
        exact h4.trans (hI.perm.trans h5)
      exact h3.cons_inv
    refine ⟨Q, ?_, hQ.trans hR, ?_, ?_, ?_⟩
    · unfold delete
      rw [h2]
      have hg : recs[A.length]? = some (recOf c) := by rw [h1]; simp
      simp only [hg, hz, hset, h]
      rw [List.getLast?_concat]
      simp only [hl, hz0, if_true, List.dropLast_concat]
    · have hin : ∀ x ∈ Q, x ∈ recs := by
        intro x hx
        have := hQ.mem_iff.1 hx
        rw [h1]
        simp only [List.mem_append, List.mem_cons] at this ⊢
        rcases this with h | h
        · exact .inl h
        · exact .inr (.inr h)
      refine strict_of ?_ ?_ ?_
      · rw [h] at hs; exact (List.pairwise_append.1 hs).1
      · intro x hx; have := hI.win_rec (hin x hx); omega
      · refine pairwise_ne_perm hQ.symm ?_
        refine (ne_of_strict hI.sorted).sublist ?_
        rw [h1]
        exact List.Sublist.append_left (List.sublist_cons_self ..) A
    · intro d hd; exact hI.win d (List.mem_of_mem_erase hd)
    · exact hI.disj.sublist (List.erase_sublist ..)

theorem inv_step {lo recs L e L'} (hw : lo + 2 ^ 31 ≤ 2 ^ 64) (hI : Inv lo recs L)
    (h : Legal lo L e L') : ∃ recs', exec recs e = some recs' ∧ Inv lo recs' L' := by
  cases h with
  | alloc hc => exact inv_insert hw hI hc
  | free hc => exact inv_delete hw hI hc
  | realloc hc hd =>
    obtain ⟨r1, h1, h2⟩ := inv_delete hw hI hc
    obtain ⟨r2, h3, h4⟩ := inv_insert hw h2 hd
    exact ⟨r2, by simp [exec, h1, h3], h4⟩

theorem inv_run {lo recs L es L'} (hw : lo + 2 ^ 31 ≤ 2 ^ 64) (hI : Inv lo recs L)
    (h : History lo L es L') : ∃ recs', run recs es = some recs' ∧ Inv lo recs' L' := by
  induction h generalizing recs with
  | nil => exact ⟨recs, rfl, hI⟩
  | cons h1 _ ih =>
    obtain ⟨r1, h2, h3⟩ := inv_step hw hI h1
    obtain ⟨r2, h4, h5⟩ := ih h3
    exact ⟨r2, by simp [run, h2, h4], h5⟩

/-- C46 (partial): after any history of allocations, frees and reallocations of the linker's
malloc whose chunks are non-empty, at most 253 at a time, and lie within one 2 GiB window, a lookup
returns the chunk containing the address, and nothing when no live chunk contains it; the usable
size of a chunk covers the request. -/
theorem linear_lookup_partial {lo : Nat} (hw : lo + 2 ^ 31 ≤ 2 ^ 64) {es : List Ev} {L : List Chunk}
    (h : History lo [] es L) :
    ∃ recs, run [] es = some recs ∧
      (∀ c ∈ L, ∀ a, c.start ≤ a → a < c.start + c.size →
        ∃ r, find recs a = some r ∧ r.addr = c.start ∧ r.req = c.size) ∧
      (∀ a, (∀ c ∈ L, ¬ (c.start ≤ a ∧ a < c.start + c.size)) → find recs a = none) ∧
      (∀ c ∈ L, ∃ u, usableSize recs c.start = some u ∧ c.size ≤ u ∧ u < c.size + 8) ∧
      (∀ p, (∀ c ∈ L, c.start ≠ p) → usableSize recs p = none) := by
  obtain ⟨recs, h1, hI⟩ := inv_run hw (inv_nil lo) h
  have hin : ∀ c ∈ L, ∀ a, c.start ≤ a → a < c.start + c.size → find recs a = some (recOf c) := by
    intro c hc a h2 h3
    obtain ⟨A, D, h4, h5⟩ := find_inside hI hc h2 h3
    rw [find, h5]
    rw [h4]; simp
  have hout : ∀ a, (∀ c ∈ L, ¬ (c.start ≤ a ∧ a < c.start + c.size)) → find recs a = none := by
    intro a ha
    rw [find, find_outside hI ha]; rfl
  refine ⟨recs, h1, ?_, hout, ?_, ?_⟩
  · intro c hc a h2 h3
    exact ⟨recOf c, hin c hc a h2 h3, rfl, rfl⟩
  · intro c hc
    have wc := hI.win c hc
    refine ⟨c.size + ((c.size + 15) / 8 * 8 - 8 - c.size), ?_, by omega, by omega⟩
    unfold usableSize
    rw [hin c hc c.start (Nat.le_refl _) (by omega)]
    simp [recOf]
  · intro p hp
    unfold usableSize
    by_cases hx : ∃ c ∈ L, c.start ≤ p ∧ p < c.start + c.size
    · obtain ⟨c, hc, h2, h3⟩ := hx
      rw [hin c hc p h2 h3]
      have := hp c hc
      exact if_neg (c := (recOf c).addr = p) this
    · rw [hout p (fun c hc hcc => hx ⟨c, hc, hcc⟩)]

/-- The hypotheses are met by a history with out-of-order addresses, a free and a realloc. -/
example : History 0x7000_0000 []
    [.alloc 0x7000_2000 100, .alloc 0x7000_1000 24, .realloc 0x7000_1000 0x7000_3000 64, .free 0x7000_2000]
    [⟨0x7000_3000, 64⟩] := by
  refine .cons (.alloc (c := ⟨0x7000_2000, 100⟩) ?_)
    (.cons (.alloc (c := ⟨0x7000_1000, 24⟩) ?_)
      (.cons (.realloc (c := ⟨0x7000_1000, 24⟩) (d := ⟨0x7000_3000, 64⟩) (by simp) ?_)
        (.cons (.free (c := ⟨0x7000_2000, 100⟩) (by simp)) ?_)))
  · constructor <;> simp [MAX]
  · constructor <;> simp [MAX]
  · constructor <;> simp [MAX]
  · exact .nil

/-- C46 fails across windows: chunks more than 2 GiB apart are ordered wrongly by the comparison
(its 64-bit difference is cut to 32 bits), and a live chunk is not found. -/
theorem linear_lookup_fails :
    ∃ es recs, run [] es = some recs ∧ es =
      [Ev.alloc 0x1000 16, .alloc 0x1_0000_2000 16, .alloc 0x1_0000_0000 16] ∧
      find recs 0x1000 = none := by
  refine ⟨_, _, rfl, rfl, ?_⟩
  decide

/-- Freeing a zero-byte chunk dereferences a null record. -/
theorem zero_size_free_crashes (p : Nat) : run [] [.alloc p 0, .free p] = none := by
  simp [run, exec, insert, delete, findIdx, bsearchLeq]

/-- One allocation too many writes past the record array. -/
theorem full_index_overruns (recs : List Rec) (h : recs.length = MAX) (p n : Nat) :
    exec recs (.alloc p n) = none := by
  simp [exec, insert, h]

end Liballocs.LinearMalloc
