import Verif.Model.PageCheck
import Verif.Proofs.PageIndexHist
/-!
# Proofs about the run-time checks of the table of big allocations
-/
namespace Liballocs.PageIndex

open Fill

/-! ## The list of those without parent -/

theorem lastOf_eq : ∀ (l : List Nat), lastOf l = lst 0 l := by
  intro l
  induction l with
  | nil => rfl
  | cons x l ih =>
    cases l with
    | nil => rfl
    | cons y l => exact ih

theorem walk_spec {dir other : Nat → Nat} {ok : Nat → Nat → Bool} : ∀ (l : List Nat) (f p : Nat), 0 ∉ l → Seg dir other p l 0 →
    l.length < f → l.Pairwise (fun x y => ok x y = true) → walk dir ok f (hd l 0) = some l := by
  intro l
  induction l with
  | nil =>
    intro f p _ _ hf _
    cases f with
    | zero => simp at hf
    | succ f => simp [walk, hd]
  | cons x l ih =>
    intro f p h0 hs hf hok
    cases f with
    | zero => simp at hf
    | succ f =>
      have hx0 : x ≠ 0 := fun e => h0 (e ▸ List.mem_cons_self)
      have hn : dir x = hd l 0 := hs.2.1
      have hr := ih f x (fun hm => h0 (List.mem_cons_of_mem _ hm)) hs.2.2 (by simpa using hf) (List.pairwise_cons.mp hok).2
      show walk dir ok (f + 1) x = _
      unfold walk
      rw [if_neg hx0, if_neg]
      · rw [hn, hr]; rfl
      · rw [hn]
        intro ⟨h1, h2⟩
        cases l with
        | nil => exact h1 rfl
        | cons y l =>
          have := (List.pairwise_cons.mp hok).1 y List.mem_cons_self
          simp only [hd] at h2
          rw [this] at h2
          cases h2

/-- The list is what the check of the list wants. -/
structure TopsOk (c : Config) (s : State) (l : List Nat) : Prop where
  list : TopList c s l
  sorted : l.Pairwise (fun x y => s.beg x < s.beg y)
  mem : ∀ x, x ∈ l ↔ Live s x ∧ s.par x = 0
  lt : ∀ x ∈ l, x < c.nb

theorem mem_topSlots {c : Config} {s : State} {l : List Nat} (h : TopsOk c s l) (x : Nat) : x ∈ topSlots c s ↔ x ∈ l := by
  unfold topSlots
  rw [List.mem_filter, List.mem_range'_1, h.mem]
  simp only [Bool.and_eq_true, beq_iff_eq, live_iff]
  constructor
  · intro hx; exact hx.2
  · intro hx
    refine ⟨?_, hx⟩
    have hm := (h.mem x).mpr hx
    have := h.lt x hm
    have : x ≠ 0 := fun e => h.list.zero (e ▸ hm)
    omega

theorem length_topSlots {c : Config} {s : State} {l : List Nat} (h : TopsOk c s l) : (topSlots c s).length = l.length := by
  have hn : (topSlots c s).Nodup := List.Pairwise.filter _ List.nodup_range'
  exact ((List.perm_ext_iff_of_nodup hn h.list.nodup).mpr (mem_topSlots h)).length_eq

theorem topCheck_ok {c : Config} {s : State} {l : List Nat} (h : TopsOk c s l) : topCheck c s = some () := by
  unfold topCheck
  by_cases hs0 : s.start = 0
  · rw [if_pos hs0]
  · rw [if_neg hs0]
    have hm : s.start ∈ l := by
      rcases h.list.start with hm | hm
      · exact hm
      · exact absurd hm.2 hs0
    obtain ⟨A, B, e⟩ := List.append_of_mem hm
    have hup : l.Pairwise (fun x y => isBefore s x y = true) := h.sorted.imp (fun hxy => by simpa [isBefore] using hxy)
    have hdown : l.reverse.Pairwise (fun x y => isAfter s x y = true) := by
      rw [List.pairwise_reverse]
      exact h.sorted.imp (fun hxy => by simpa [isAfter] using hxy)
    have hlen : l.length < c.nb + 1 := by have := h.list.len; omega
    have hseg := h.list.seg
    have hrev : Seg s.prev s.next 0 l.reverse 0 := seg_reverse l 0 0 hseg
    have h0 := h.list.zero
    have w1 : walk s.prev (isAfter s) (c.nb + 1) s.start = some (s.start :: A.reverse) := by
      have hr : l.reverse = B.reverse ++ (s.start :: A.reverse) := by rw [e]; simp
      have := walk_spec (ok := isAfter s) (s.start :: A.reverse) (c.nb + 1) (lst 0 B.reverse) (by
          intro hm'; apply h0; rw [← List.mem_reverse, hr]; exact List.mem_append_right _ hm')
        (seg_suffix (l1 := B.reverse) (by rw [← hr]; exact hrev))
        (by
          have : l.length = A.length + B.length + 1 := by rw [e]; simp; omega
          simp; omega)
        (by rw [hr] at hdown; exact (List.pairwise_append.mp hdown).2.1)
      exact this
    have w2 : walk s.next (isBefore s) (c.nb + 1) s.start = some (s.start :: B) := by
      have := walk_spec (ok := isBefore s) (s.start :: B) (c.nb + 1) (lst 0 A) (by
          intro hm'; apply h0; rw [e]; exact List.mem_append_right _ hm')
        (seg_suffix (l1 := A) (by rw [← e]; exact hseg))
        (by
          have : l.length = A.length + B.length + 1 := by rw [e]; simp; omega
          simp; omega)
        (by rw [e] at hup; exact (List.pairwise_append.mp hup).2.1)
      exact this
    have w3 : walk s.next (isBefore s) (c.nb + 1) (hd l 0) = some l := walk_spec l (c.nb + 1) 0 h0 hseg hlen hup
    have w4 : walk s.prev (isAfter s) (c.nb + 1) (hd l.reverse 0) = some l.reverse :=
      walk_spec l.reverse (c.nb + 1) 0 (by rw [List.mem_reverse]; exact h0) hrev (by rw [List.length_reverse]; exact hlen) hdown
    have e3 : lastOf (s.start :: A.reverse) = hd l 0 := by
      rw [lastOf_eq]
      have : s.start :: A.reverse = (A ++ [s.start]).reverse := by simp
      rw [this, lst_reverse, e]
      cases A <;> rfl
    have e4 : lastOf (s.start :: B) = hd l.reverse 0 := by
      rw [lastOf_eq, hd_reverse, e, lst_append]
      rfl
    have hall : ((topSlots c s).all fun i => (s.start :: A.reverse ++ s.start :: B).contains i) = true := by
      rw [List.all_eq_true]
      intro x hx
      have := (mem_topSlots h x).mp hx
      rw [e] at this
      simp only [List.mem_append, List.mem_cons] at this
      simp only [List.contains_iff_mem, List.mem_append, List.mem_cons, List.mem_reverse]
      grind
    rw [w1]; dsimp only [Option.bind_some]
    rw [w2]; dsimp only [Option.bind_some]
    rw [hall, e3, w3]
    simp only [holds, if_true, Option.bind_some]
    rw [length_topSlots h, e4, w4]
    simp

theorem Inv.tops_ok {c : Config} {s : State} {kids rank} (h : Inv c s kids rank) : TopsOk c s (kids 0) := by
  refine ⟨h.topList, ?_, fun x => h.mem x 0, fun x hx => h.lt x ((h.mem _ _).mp hx).1⟩
  apply List.Pairwise.imp_of_mem _ h.sorted
  intro x y hx _ hxy
  have := h.pos x ((h.mem _ _).mp hx).1
  omega

/-! ## One of them and what is below -/

/-- Part of the table, closed under children, is what the check of one big allocation wants. -/
structure Part (c : Config) (s : State) (kids : Nat → List Nat) (D : Nat → Prop) : Prop where
  ok : ∀ x, D x → sanityOk s x = true
  depth : ∀ x, D x → ∃ d, Depth s x d ∧ d < c.nb
  firstKid : ∀ x, D x → s.first x = hd (kids x) 0
  seg : ∀ x, D x → Seg s.next s.prev 0 (kids x) 0
  len : ∀ x, D x → (kids x).length ≤ c.nb
  zero : ∀ x, D x → 0 ∉ kids x
  kid : ∀ x y, D x → y ∈ kids x → D y ∧ s.par y = x
  ne0 : ∀ x, D x → x ≠ 0

theorem depthCheck_ok {c : Config} {s : State} {kids D} (h : Part c s kids D) {x : Nat} (hx : D x) : depthCheck c s x = some () := by
  unfold depthCheck
  by_cases hp : s.par x = 0
  · rw [if_pos hp]
  · rw [if_neg hp]
    obtain ⟨d, hd, hlt⟩ := h.depth x hx
    cases hd with
    | null => exact absurd rfl (h.ne0 0 hx)
    | @node _ d h0 hd' =>
      rw [Links.depthOf_spec (Depth.node h0 hd') (c.nb + 1) (by omega), Links.depthOf_spec hd' (c.nb + 1) (by omega)]
      simp [holds, Nat.add_comm]

theorem kidsCheck_ok {c : Config} {s : State} {kids D} (h : Part c s kids D) {chk : Nat → Option Unit} {x d : Nat}
    (hd : Depth s x d) : ∀ (l : List Nat) (f p : Nat), 0 ∉ l → Seg s.next s.prev p l 0 → l.length < f →
      (∀ y ∈ l, D y ∧ s.par y = x ∧ chk y = some () ∧ d + 1 < c.nb + 1) →
      kidsCheck c s chk (d + 1) f (PageIndex.hd l 0) = some () := by
  intro l
  induction l with
  | nil =>
    intro f p _ _ hf _
    cases f with
    | zero => simp at hf
    | succ f => simp [kidsCheck, PageIndex.hd]
  | cons y l ih =>
    intro f p h0 hs hf hk
    cases f with
    | zero => simp at hf
    | succ f =>
      obtain ⟨hy, hyp, hyc, hyd⟩ := hk y List.mem_cons_self
      have hy0 : y ≠ 0 := h.ne0 y hy
      have hdy : Depth s y (d + 1) := Depth.node hy0 (by rw [hyp]; exact hd)
      have hr := ih f y (fun hm => h0 (List.mem_cons_of_mem _ hm)) hs.2.2 (by simpa using hf) (fun z hz => hk z (List.mem_cons_of_mem _ hz))
      have hn : s.next y = PageIndex.hd l 0 := hs.2.1
      simp only [kidsCheck, PageIndex.hd, hy0, if_false]
      rw [Links.depthOf_spec hdy (c.nb + 1) hyd]
      simp only [Option.bind_some, beq_self_eq_true, holds, if_true, hyc]
      rw [hn]; exact hr

theorem fullCheck_ok {c : Config} {s : State} {kids D} (h : Part c s kids D) : ∀ (f x d : Nat), D x → Depth s x d → c.nb < f + d →
    fullCheck c s f x = some () := by
  intro f
  induction f with
  | zero =>
    intro x d hx hd hf
    obtain ⟨d', hd', hlt⟩ := h.depth x hx
    have := hd.unique hd'
    omega
  | succ f ih =>
    intro x d hx hd hf
    unfold fullCheck
    by_cases hu : inUse s x = false
    · rw [if_pos hu]
    · rw [if_neg hu, h.ok x hx]
      simp only [holds, if_true, Option.bind_some, depthCheck_ok h hx]
      unfold belowCheck
      have hfk := h.firstKid x hx
      obtain ⟨d', hd', hlt⟩ := h.depth x hx
      have e := hd.unique hd'
      cases hk : kids x with
      | nil => rw [hk] at hfk; exact if_pos hfk
      | cons y l =>
        rw [hk] at hfk
        simp only [PageIndex.hd] at hfk
        have hy := h.kid x y hx (by rw [hk]; exact List.mem_cons_self)
        have hy0 := h.ne0 y hy.1
        have hdy : Depth s y (d + 1) := Depth.node hy0 (by rw [hy.2]; exact hd)
        obtain ⟨dy, hdy', hltY⟩ := h.depth y hy.1
        have ey := hdy.unique hdy'
        rw [hfk, if_neg hy0, Links.depthOf_spec hdy (c.nb + 1) (by omega)]
        have hseg := h.seg x hx
        rw [hk] at hseg
        have hlen := h.len x hx
        rw [hk] at hlen
        have hz := h.zero x hx
        rw [hk] at hz
        dsimp only [Option.bind_some]
        rw [show s.next y = PageIndex.hd l 0 from hseg.2.1]
        apply kidsCheck_ok h hd l (c.nb + 1) y (fun hm => hz (List.mem_cons_of_mem _ hm)) hseg.2.2 (by simp at hlen; omega)
        intro z hzl
        have hz := h.kid x z hx (by rw [hk]; exact List.mem_cons_of_mem _ hzl)
        exact ⟨hz.1, hz.2, ih z (d + 1) hz.1 (Depth.node (h.ne0 z hz.1) (by rw [hz.2]; exact hd)) (by omega), by omega⟩

theorem checkOne_ok {c : Config} {s : State} {kids D} (h : Part c s kids D) {x : Nat} (hx : D x) : checkOne c s x = some () := by
  unfold checkOne
  split
  · obtain ⟨d, hd, hlt⟩ := h.depth x hx
    exact fullCheck_ok h _ x d hx hd (by omega)
  · rfl

theorem checkOne_free {c : Config} {s : State} {x : Nat} (hx : ¬ Live s x) : checkOne c s x = some () := by
  have hu : inUse s x = false := by
    cases e : inUse s x with
    | false => rfl
    | true => exact absurd (live_iff.mp e) hx
  unfold checkOne fullCheck
  rw [hu]; simp

theorem Links.part {c : Config} {s : State} {kids rank} (h : Links c s kids rank) (hok : ∀ x, Live s x → sanityOk s x = true) :
    Part c s kids (Live s) := by
  refine ⟨hok, ?_, h.firstKid, fun x _ => h.seg x, fun x _ => h.kids_length x, fun x _ => h.zero_not_mem x,
    fun x y _ hy => (h.mem y x).mp hy, fun x hx => h.ne0 hx⟩
  intro x hx
  obtain ⟨d, _, h1, _, _, h2⟩ := h.exists_depth hx
  exact ⟨d, h1, h2⟩

theorem Inv.check {c : Config} {s : State} {kids rank} (h : Inv c s kids rank) (x : Nat) : checkOne c s x = some () := by
  by_cases hx : Live s x
  · exact checkOne_ok (h.toLinks.part (fun y _ => h.sanity y)) hx
  · exact checkOne_free hx

theorem Depth.congr {s s' : State} {n d : Nat} (hd : Depth s n d) (h : s'.par = s.par) : Depth s' n d := by
  induction hd with
  | null => exact Depth.null
  | node h0 _ ih => exact Depth.node h0 (by rw [h]; exact ih)

end Liballocs.PageIndex
