import Verif.Model.PageIndex
/-!
# Doubly-linked list segments
-/
namespace Liballocs.PageIndex

/-- First element, or the given default. -/
def hd : List Nat → Nat → Nat
  | [], d => d
  | x :: _, _ => x

/-- Last element, or the given default. -/
def lst : Nat → List Nat → Nat
  | d, [] => d
  | _, x :: xs => lst x xs

/-- The nodes of `l` are linked in order, the first preceded by `p`, the last followed by `n`. -/
def Seg (nx pv : Nat → Nat) (p : Nat) : List Nat → Nat → Prop
  | [], _ => True
  | x :: xs, n => pv x = p ∧ nx x = hd xs n ∧ Seg nx pv x xs n

theorem hd_append (l1 l2 : List Nat) (n : Nat) : hd (l1 ++ l2) n = hd l1 (hd l2 n) := by
  cases l1 <;> rfl

theorem lst_append : ∀ (l1 l2 : List Nat) (p : Nat), lst p (l1 ++ l2) = lst (lst p l1) l2
  | [], _, _ => rfl
  | x :: l1, l2, _ => lst_append l1 l2 x

theorem seg_append (nx pv : Nat → Nat) : ∀ (l1 l2 : List Nat) (p n : Nat),
    Seg nx pv p (l1 ++ l2) n ↔ Seg nx pv p l1 (hd l2 n) ∧ Seg nx pv (lst p l1) l2 n
  | [], l2, p, n => by simp [Seg, lst]
  | x :: l1, l2, p, n => by
    simp only [List.cons_append, Seg, seg_append nx pv l1 l2 x n, hd_append, lst]
    constructor
    · rintro ⟨a, b, c, d⟩; exact ⟨⟨a, b, c⟩, d⟩
    · rintro ⟨⟨a, b, c⟩, d⟩; exact ⟨a, b, c, d⟩

theorem seg_congr {nx pv nx' pv' : Nat → Nat} : ∀ {l : List Nat} {p n : Nat},
    (∀ x ∈ l, nx' x = nx x ∧ pv' x = pv x) → Seg nx pv p l n → Seg nx' pv' p l n
  | [], _, _, _, _ => trivial
  | x :: xs, p, n, h, ⟨h1, h2, h3⟩ => by
    have hx := h x List.mem_cons_self
    exact ⟨by rw [hx.2, h1], by rw [hx.1, h2], seg_congr (fun y hy => h y (List.mem_cons_of_mem _ hy)) h3⟩

theorem upd_same (f : Nat → Nat) (i v : Nat) : upd f i v i = v := by simp [upd]

theorem upd_ne {f : Nat → Nat} {i v j : Nat} (h : j ≠ i) : upd f i v j = f j := by simp [upd, h]

theorem updIf_ne {f : Nat → Nat} {i v j : Nat} (h : j ≠ i) : updIf f i v j = f j := by
  unfold updIf; split
  · rfl
  · exact upd_ne h

theorem updIf_same {f : Nat → Nat} {i v : Nat} (h : i ≠ 0) : updIf f i v i = v := by
  unfold updIf; rw [if_neg h]; exact upd_same _ _ _

theorem updIf_zero (f : Nat → Nat) (v : Nat) : updIf f 0 v = f := by simp [updIf]

theorem lst_mem : ∀ {l : List Nat} {p : Nat}, l ≠ [] → lst p l ∈ l
  | [], _, h => absurd rfl h
  | [x], _, _ => by simp [lst]
  | x :: y :: l, _, _ => by
    have : lst x (y :: l) ∈ y :: l := lst_mem (by simp)
    simp only [lst] at this ⊢
    exact List.mem_cons_of_mem _ this

theorem lst_mem_or {l : List Nat} {p : Nat} : lst p l = p ∧ l = [] ∨ lst p l ∈ l := by
  cases l with
  | nil => left; simp [lst]
  | cons x l => right; exact lst_mem (by simp)

theorem hd_mem_or {l : List Nat} {n : Nat} : hd l n = n ∧ l = [] ∨ hd l n ∈ l := by
  cases l with
  | nil => left; simp [hd]
  | cons x l => right; simp [hd]

/-- Changing what follows a segment. -/
theorem seg_set_end {nx pv : Nat → Nat} (v : Nat) : ∀ {l : List Nat} {p n : Nat}, l ≠ [] → l.Nodup →
    Seg nx pv p l n → Seg (upd nx (lst p l) v) pv p l v
  | [], _, _, h, _, _ => absurd rfl h
  | [x], p, n, _, _, ⟨h1, _, _⟩ => ⟨h1, by simp [lst, upd, hd], trivial⟩
  | x :: y :: l, p, n, _, hn, ⟨h1, h2, h3⟩ => by
    obtain ⟨hx, hn'⟩ := List.nodup_cons.mp hn
    have hm : lst x (y :: l) ∈ y :: l := lst_mem (by simp)
    have hne : x ≠ lst x (y :: l) := fun e => hx (e ▸ hm)
    refine ⟨h1, ?_, seg_set_end v (by simp) hn' h3⟩
    show upd nx (lst x (y :: l)) v x = _
    rw [upd_ne hne, h2]; rfl

/-- Changing what precedes a segment. -/
theorem seg_set_start {nx pv : Nat → Nat} (u : Nat) {l : List Nat} {p n : Nat} (h0 : 0 ∉ l) (hn : l.Nodup)
    (h : Seg nx pv p l n) : Seg nx (updIf pv (hd l 0) u) u l n := by
  cases l with
  | nil => trivial
  | cons x l =>
    obtain ⟨h1, h2, h3⟩ := h
    obtain ⟨hx, hn'⟩ := List.nodup_cons.mp hn
    have hx0 : x ≠ 0 := fun e => h0 (by simp [e])
    refine ⟨?_, h2, seg_congr ?_ h3⟩
    · simp only [hd]; exact updIf_same hx0
    · intro y hy
      refine ⟨rfl, updIf_ne ?_⟩
      intro e
      subst e
      exact hx hy

/-- Changing what follows a segment that starts at nothing. -/
theorem seg_set_end' {nx pv : Nat → Nat} (v : Nat) {l : List Nat} {n : Nat} (h0 : 0 ∉ l) (hn : l.Nodup)
    (h : Seg nx pv 0 l n) : Seg (updIf nx (lst 0 l) v) pv 0 l v := by
  cases l with
  | nil => trivial
  | cons x l =>
    have hm : lst 0 (x :: l) ∈ x :: l := lst_mem (by simp)
    have hne : lst 0 (x :: l) ≠ 0 := fun e => h0 (e ▸ hm)
    unfold updIf
    rw [if_neg hne]
    exact seg_set_end v (by simp) hn h

theorem ne_hd {post : List Nat} {x : Nat} (h0 : x ≠ 0) (hx : x ∉ post) : x ≠ hd post 0 := by
  intro e
  rcases @hd_mem_or post 0 with ⟨e', _⟩ | hm
  · exact h0 (e.trans e')
  · exact hx (e ▸ hm)

theorem ne_lst {pre : List Nat} {x : Nat} (h0 : x ≠ 0) (hx : x ∉ pre) : x ≠ lst 0 pre := by
  intro e
  rcases @lst_mem_or pre 0 with ⟨e', _⟩ | hm
  · exact h0 (e.trans e')
  · exact hx (e ▸ hm)

theorem updIf_congr {f g : Nat → Nat} {i v x : Nat} (h : f x = g x) : updIf f i v x = updIf g i v x := by
  unfold updIf upd
  split
  · exact h
  · simp only [h]

/-- Inserting a node. -/
theorem seg_insert {nx pv : Nat → Nat} {b : Nat} {pre post : List Nat} (h0 : 0 ∉ pre ++ post) (hn : (pre ++ post).Nodup)
    (hb0 : b ≠ 0) (hb : b ∉ pre ++ post)
    (h : Seg nx pv 0 (pre ++ post) 0) :
    Seg (updIf (upd nx b (hd post 0)) (lst 0 pre) b) (updIf (upd pv b (lst 0 pre)) (hd post 0) b) 0 (pre ++ b :: post) 0 := by
  rw [seg_append] at h ⊢
  obtain ⟨h1, h2⟩ := h
  obtain ⟨hn1, hn2, hd12⟩ := List.nodup_append.mp hn
  have h01 : 0 ∉ pre := fun e => h0 (List.mem_append_left _ e)
  have h02 : 0 ∉ post := fun e => h0 (List.mem_append_right _ e)
  have hb1 : b ∉ pre := fun e => hb (List.mem_append_left _ e)
  have hb2 : b ∉ post := fun e => hb (List.mem_append_right _ e)
  have nz1 : ∀ x ∈ pre, x ≠ 0 := fun x hx e => h01 (e ▸ hx)
  have nz2 : ∀ x ∈ post, x ≠ 0 := fun x hx e => h02 (e ▸ hx)
  refine ⟨?_, ?_, ?_, ?_⟩
  · apply seg_congr _ (seg_set_end' b h01 hn1 h1)
    intro x hx
    have hxb : x ≠ b := fun e => hb1 (e ▸ hx)
    refine ⟨updIf_congr (upd_ne hxb), ?_⟩
    rw [updIf_ne (ne_hd (nz1 x hx) (fun h => hd12 x hx x h rfl)), upd_ne hxb]
  · rw [updIf_ne (ne_hd hb0 hb2), upd_same]
  · rw [updIf_ne (ne_lst hb0 hb1), upd_same]
  · apply seg_congr _ (seg_set_start b h02 hn2 h2)
    intro x hx
    have hxb : x ≠ b := fun e => hb2 (e ▸ hx)
    refine ⟨?_, updIf_congr (upd_ne hxb)⟩
    rw [updIf_ne (ne_lst (nz2 x hx) (fun h => hd12 x h x hx rfl)), upd_ne hxb]

/-- The neighbours of a node in a list. -/
theorem seg_at {nx pv : Nat → Nat} {b : Nat} {pre post : List Nat} {p n : Nat} (h : Seg nx pv p (pre ++ b :: post) n) :
    pv b = lst p pre ∧ nx b = hd post n := by
  rw [seg_append] at h
  exact ⟨h.2.1, h.2.2.1⟩

/-- Removing a node. -/
theorem seg_remove {nx pv : Nat → Nat} {b : Nat} {pre post : List Nat} (h0 : 0 ∉ pre ++ b :: post)
    (hn : (pre ++ b :: post).Nodup) (h : Seg nx pv 0 (pre ++ b :: post) 0) :
    Seg (updIf nx (pv b) (nx b)) (updIf pv (nx b) (pv b)) 0 (pre ++ post) 0 := by
  obtain ⟨e1, e2⟩ := seg_at h
  rw [e1, e2]
  rw [seg_append] at h ⊢
  obtain ⟨h1, _, _, h2⟩ := h
  obtain ⟨hn1, hn2, hd12⟩ := List.nodup_append.mp hn
  obtain ⟨hb2, hn2⟩ := List.nodup_cons.mp hn2
  have h01 : 0 ∉ pre := fun e => h0 (List.mem_append_left _ e)
  have h02 : 0 ∉ post := fun e => h0 (List.mem_append_right _ (List.mem_cons_of_mem _ e))
  have nz1 : ∀ x ∈ pre, x ≠ 0 := fun x hx e => h01 (e ▸ hx)
  have nz2 : ∀ x ∈ post, x ≠ 0 := fun x hx e => h02 (e ▸ hx)
  refine ⟨?_, ?_⟩
  · apply seg_congr _ (seg_set_end' (hd post 0) h01 hn1 h1)
    intro x hx
    refine ⟨rfl, updIf_ne (ne_hd (nz1 x hx) (fun h => hd12 x hx x (List.mem_cons_of_mem _ h) rfl))⟩
  · apply seg_congr _ (seg_set_start (lst 0 pre) h02 hn2 h2)
    intro x hx
    exact ⟨updIf_ne (ne_lst (nz2 x hx) (fun h => hd12 x h x (List.mem_cons_of_mem _ hx) rfl)), rfl⟩

/-- A list without repetitions of numbers below `n` has at most `n` elements. -/
theorem nodup_length_le {n : Nat} : ∀ {l : List Nat}, l.Nodup → (∀ x ∈ l, x < n) → l.length ≤ n := by
  intro l hn hl
  have := hn.length_le_of_subset (l₂ := List.range n) (fun x hx => List.mem_range.mpr (hl x hx))
  simpa using this

end Liballocs.PageIndex
