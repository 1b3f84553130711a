import Verif.Proofs.PageIndexSeg
/-!
# Well-formed forests of big allocations, and lookups in them
-/
namespace Liballocs.PageIndex

/-- The slot is in use. -/
def Live (s : State) (n : Nat) : Prop := s.beg n ≠ 0 ∧ s.fin n ≠ 0

theorem live_iff {s : State} {n : Nat} : inUse s n = true ↔ Live s n := by simp [inUse, Live]

/-- The address lies in the slot's range. -/
def Has (s : State) (n a : Nat) : Prop := s.beg n ≤ a ∧ a < s.fin n

/-- The slot's range includes the whole page. -/
def Covers (s : State) (n q : Nat) : Prop := s.beg n ≤ q * PAGE ∧ (q + 1) * PAGE ≤ s.fin n

/-- `m` is the deepest big allocation including the whole page, 0 if there is none. -/
def Owner (s : State) (q m : Nat) : Prop :=
  (m = 0 ∧ ∀ n, Live s n → ¬ Covers s n q) ∨
  (m ≠ 0 ∧ Live s m ∧ Covers s m q ∧ ∀ n, Live s n → s.par n = m → ¬ Covers s n q)

/-- Ancestor or self. -/
inductive Anc (s : State) (m : Nat) : Nat → Prop
  | refl : Anc s m m
  | step {n : Nat} : s.par n ≠ 0 → Anc s m (s.par n) → Anc s m n

/-- The links are consistent: `kids p` is the child list of `p`, `kids 0` the list of top-level big allocations, and parents
have lower rank than their children. -/
structure Links (c : Config) (s : State) (kids : Nat → List Nat) (rank : Nat → Nat) : Prop where
  nbOk : c.nb ≤ 32768
  zero : s.beg 0 = 0 ∧ s.first 0 = 0 ∧ s.par 0 = 0 ∧ s.alloc 0 = 0 ∧ s.sub 0 = 0
  lt : ∀ n, Live s n → n < c.nb
  dead : ∀ n, ¬ Live s n → s.par n = 0
  mem : ∀ c p, c ∈ kids p ↔ Live s c ∧ s.par c = p
  nodup : ∀ p, (kids p).Nodup
  seg : ∀ p, Seg s.next s.prev 0 (kids p) 0
  firstKid : ∀ p, Live s p → s.first p = hd (kids p) 0
  parLive : ∀ c, Live s c → s.par c ≠ 0 → Live s (s.par c)
  rank : ∀ c, Live s c → s.par c ≠ 0 → rank (s.par c) < rank c
  start : s.start ∈ kids 0 ∨ (kids 0 = [] ∧ s.start = 0)

/-- The ranges are nested as the links say, top-level ones are page aligned and listed in address order, and the page index
gives the deepest big allocation including each page. -/
structure Geo (c : Config) (s : State) (kids : Nat → List Nat) : Prop where
  pos : ∀ n, Live s n → s.beg n < s.fin n
  small : ∀ n, Live s n → s.fin n ≤ s.beg n + c.maxPages * PAGE
  nest : ∀ c, Live s c → s.par c ≠ 0 → s.beg (s.par c) ≤ s.beg c ∧ s.fin c ≤ s.fin (s.par c)
  disj : ∀ c d, Live s c → Live s d → s.par c = s.par d → c ≠ d → s.fin c ≤ s.beg d ∨ s.fin d ≤ s.beg c
  top : ∀ c, Live s c → s.par c = 0 → s.beg c % PAGE = 0 ∧ s.fin c % PAGE = 0
  sorted : (kids 0).Pairwise (fun a b => s.fin a ≤ s.beg b)
  owner : ∀ q, Owner s q (entry s q)

/-- The invariant of the page index. -/
structure Inv (c : Config) (s : State) (kids : Nat → List Nat) (rank : Nat → Nat) : Prop
  extends Links c s kids rank, Geo c s kids

theorem Anc.trans {s : State} {a b c : Nat} (h1 : Anc s a b) (h2 : Anc s b c) : Anc s a c := by
  induction h2 with
  | refl => exact h1
  | step hp _ ih => exact Anc.step hp ih

/-- A path of slots going up from `n`. -/
inductive Path (s : State) : Nat → List Nat → Prop
  | top {n : Nat} : Path s n [n]
  | step {n : Nat} {l : List Nat} : s.par n ≠ 0 → Path s (s.par n) l → Path s n (n :: l)

namespace Links

variable {c : Config} {s : State} {kids : Nat → List Nat} {rank : Nat → Nat} (h : Links c s kids rank)
include h

theorem ne0 {n : Nat} (hl : Live s n) : n ≠ 0 := by
  intro e; subst e; exact hl.1 h.zero.1

theorem zero_not_mem (p : Nat) : 0 ∉ kids p := fun hm => h.ne0 ((h.mem _ _).mp hm).1 rfl

theorem kids_length (p : Nat) : (kids p).length ≤ c.nb :=
  nodup_length_le (h.nodup p) (fun x hx => h.lt x ((h.mem _ _).mp hx).1)

theorem par_ne {n : Nat} (hl : Live s n) : s.par n ≠ n := by
  intro e
  have := h.rank n hl (by rw [e]; exact h.ne0 hl)
  rw [e] at this; omega

theorem anc_live {m n : Nat} (ha : Anc s m n) (hl : Live s n) : Live s m := by
  induction ha with
  | refl => exact hl
  | step hp _ ih => exact ih (h.parLive _ hl hp)

theorem anc_rank {m n : Nat} (ha : Anc s m n) (hl : Live s n) : m = n ∨ rank m < rank n := by
  induction ha with
  | refl => exact Or.inl rfl
  | step hp _ ih =>
    have h2 := h.rank _ hl hp
    rcases ih (h.parLive _ hl hp) with e | e
    · right; rw [e]; exact h2
    · right; omega

theorem anc_antisymm {m n : Nat} (h1 : Anc s m n) (h2 : Anc s n m) (hl : Live s n) : m = n := by
  rcases h.anc_rank h1 hl with e | e
  · exact e
  · rcases h.anc_rank h2 (h.anc_live h1 hl) with e' | e'
    · exact e'.symm
    · omega

/-- Above any live slot there is a top-level one. -/
theorem exists_root {n : Nat} (hl : Live s n) : ∃ r, Live s r ∧ s.par r = 0 ∧ Anc s r n := by
  induction hk : rank n using Nat.strongRecOn generalizing n with
  | ind k ih =>
    by_cases hp : s.par n = 0
    · exact ⟨n, hl, hp, Anc.refl⟩
    · have := h.rank n hl hp
      obtain ⟨r, h1, h2, h3⟩ := ih _ (by omega) (h.parLive _ hl hp) rfl
      exact ⟨r, h1, h2, Anc.step hp h3⟩

theorem path_anc {n : Nat} {l : List Nat} (hp : Path s n l) : ∀ x ∈ l, Anc s x n := by
  induction hp with
  | top => intro x hx; simp at hx; subst hx; exact Anc.refl
  | step h0 _ ih =>
    intro x hx
    rcases List.mem_cons.mp hx with rfl | hx
    · exact Anc.refl
    · exact Anc.step h0 (ih x hx)

theorem path_length {n : Nat} {l : List Nat} (hp : Path s n l) (hl : Live s n) : l.length < c.nb := by
  have hnd : l.Nodup := by
    induction hp with
    | top => simp
    | @step n l h0 hp ih =>
      rw [List.nodup_cons]
      have hpl := h.parLive _ hl h0
      refine ⟨?_, ih hpl⟩
      intro hm
      have := h.anc_rank (h.path_anc hp n hm) hpl
      have := h.rank n hl h0
      rcases ‹n = s.par n ∨ _› with e | e
      · exact h.par_ne hl e.symm
      · omega
  have hall : ∀ x ∈ l, Live s x := fun x hx => h.anc_live (h.path_anc hp x hx) hl
  have h1 : (0 :: l).Nodup := List.nodup_cons.mpr ⟨fun hm => h.ne0 (hall 0 hm) rfl, hnd⟩
  have := nodup_length_le (n := c.nb) h1 (by
    intro x hx
    rcases List.mem_cons.mp hx with rfl | hx
    · have := h.lt n hl; omega
    · exact h.lt x (hall x hx))
  simp only [List.length_cons] at this
  omega

end Links

namespace Inv

variable {c : Config} {s : State} {kids : Nat → List Nat} {rank : Nat → Nat} (h : Inv c s kids rank)
include h

/-! ### Ancestors -/

theorem anc_nest {m n : Nat} (ha : Anc s m n) (hl : Live s n) : s.beg m ≤ s.beg n ∧ s.fin n ≤ s.fin m := by
  induction ha with
  | refl => exact ⟨Nat.le_refl _, Nat.le_refl _⟩
  | step hp _ ih =>
    have h1 := ih (h.parLive _ hl hp)
    have h2 := h.nest _ hl hp
    omega

theorem anc_has {m n a : Nat} (ha : Anc s m n) (hl : Live s n) (hn : Has s n a) : Has s m a := by
  have := h.anc_nest ha hl
  unfold Has at *; omega

theorem anc_covers {m n q : Nat} (ha : Anc s m n) (hl : Live s n) (hn : Covers s n q) : Covers s m q := by
  have := h.anc_nest ha hl
  unfold Covers at *; omega

omit h in
/-- Between an ancestor and a proper descendant there is a child of the ancestor. -/
theorem anc_cases {m n : Nat} (ha : Anc s m n) : m = n ∨ ∃ c, s.par c = m ∧ s.par c ≠ 0 ∧ Anc s c n := by
  induction ha with
  | refl => exact Or.inl rfl
  | @step n hp _ ih =>
    right
    rcases ih with e | ⟨c, h1, h2, h3⟩
    · exact ⟨n, e.symm, hp, Anc.refl⟩
    · exact ⟨c, h1, h2, Anc.step hp h3⟩

omit h in
theorem disj_of_has {c d a : Nat} (hd : s.fin c ≤ s.beg d ∨ s.fin d ≤ s.beg c) (h1 : Has s c a) (h2 : Has s d a) : False := by
  unfold Has at *; omega

/-- Big allocations containing the same address are nested. -/
theorem laminar {n m a : Nat} (hn : Live s n) (hm : Live s m) (hna : Has s n a) (hma : Has s m a) :
    Anc s n m ∨ Anc s m n := by
  induction hk : rank n using Nat.strongRecOn generalizing n with
  | ind k ih =>
    by_cases hp : s.par n = 0
    · obtain ⟨r, h1, h2, h3⟩ := h.exists_root hm
      have hr := h.anc_has h3 hm hma
      have : r = n := by
        by_cases e : r = n
        · exact e
        · exact absurd (h.disj r n h1 hn (by rw [h2, hp]) e) (fun hd => disj_of_has hd hr hna)
      exact Or.inl (this ▸ h3)
    · have hlt := h.rank n hn hp
      have hpl := h.parLive _ hn hp
      have hpa : Has s (s.par n) a := h.anc_has (Anc.step hp Anc.refl) hn hna
      rcases ih _ (by omega) hpl hpa rfl with h1 | h1
      · rcases anc_cases h1 with e | ⟨c, hc, hc0, hcm⟩
        · right; rw [← e]; exact Anc.step hp Anc.refl
        · left
          have hcl := h.anc_live hcm hm
          have hca := h.anc_has hcm hm hma
          by_cases e : c = n
          · exact e ▸ hcm
          · exact absurd (h.disj c n hcl hn hc e) (fun hd => disj_of_has hd hca hna)
      · exact Or.inr (Anc.step hp h1)

omit h in
theorem covers_has {n q a : Nat} (hc : Covers s n q) (ha : pagenum a = q) : Has s n a := by
  unfold Covers at hc
  unfold Has
  unfold pagenum PAGE at *
  omega

omit h in
theorem covers_has_page {n q : Nat} (hc : Covers s n q) : Has s n (q * PAGE) :=
  covers_has hc (by unfold pagenum PAGE; omega)

/-- There is only one deepest big allocation including a page. -/
theorem owner_unique {q m1 m2 : Nat} (h1 : Owner s q m1) (h2 : Owner s q m2) : m1 = m2 := by
  have key : ∀ m n, Live s m → Covers s m q → (∀ k, Live s k → s.par k = m → ¬ Covers s k q) → Live s n → Covers s n q →
      Anc s m n → m = n := by
    intro m n hm hmc hmk hn hnc ha
    rcases anc_cases ha with e | ⟨c, hc, _, hcn⟩
    · exact e
    · exact absurd (h.anc_covers hcn hn hnc) (hmk c (h.anc_live hcn hn) hc)
  rcases h1 with ⟨rfl, h1⟩ | ⟨h10, h1l, h1c, h1k⟩ <;> rcases h2 with ⟨rfl, h2⟩ | ⟨h20, h2l, h2c, h2k⟩
  · rfl
  · exact absurd h2c (h1 _ h2l)
  · exact absurd h1c (h2 _ h1l)
  · rcases h.laminar h1l h2l (covers_has_page h1c) (covers_has_page h2c) with ha | ha
    · exact key _ _ h1l h1c h1k h2l h2c ha
    · exact (key _ _ h2l h2c h2k h1l h1c ha).symm

/-- A big allocation containing an address of a page that no big allocation includes cannot exist. -/
theorem no_has_of_unowned {a : Nat} (ho : Owner s (pagenum a) 0) : ∀ n, Live s n → ¬ Has s n a := by
  intro n hl hn
  rcases ho with ⟨_, ho⟩ | ⟨h0, _⟩
  · obtain ⟨r, h1, h2, h3⟩ := h.exists_root hl
    have hr := h.anc_has h3 hl hn
    have ht := h.top r h1 h2
    apply ho r h1
    unfold Has at hr
    unfold Covers
    unfold pagenum PAGE at *
    omega
  · exact h0 rfl

end Inv

namespace Inv

variable {c : Config} {s : State} {kids : Nat → List Nat} {rank : Nat → Nat} (h : Inv c s kids rank)
include h

/-! ### Lookups -/

omit h in
/-- Looking along a child list for one containing the address. -/
theorem findKid_spec (addr : Nat) : ∀ (l : List Nat) (f p : Nat), 0 ∉ l → Seg s.next s.prev p l 0 → l.length < f →
    (findKid s addr f (hd l 0) = some 0 ∧ ∀ x ∈ l, ¬ Has s x addr) ∨
    (∃ k, k ∈ l ∧ Has s k addr ∧ findKid s addr f (hd l 0) = some k)
  | [], f, p, _, _, hf => by
    cases f with
    | zero => simp at hf
    | succ f => left; simp [findKid, hd]
  | x :: l, f, p, h0, hs, hf => by
    cases f with
    | zero => simp at hf
    | succ f =>
      obtain ⟨_, h2, h3⟩ := hs
      have hx0 : x ≠ 0 := fun e => h0 (by simp [e])
      have hh : hd (x :: l) 0 = x := rfl
      rw [hh]
      simp only [findKid]
      rw [if_neg hx0]
      by_cases hc : spans s x addr = true
      · right
        rw [if_pos hc]
        refine ⟨x, List.mem_cons_self, ?_, rfl⟩
        simpa [spans, Has] using hc
      · rw [if_neg hc, h2]
        rcases findKid_spec addr l f x (fun e => h0 (List.mem_cons_of_mem _ e)) h3 (by simp at hf; omega) with ⟨h4, h5⟩ | ⟨k, h4, h5, h6⟩
        · left
          refine ⟨h4, ?_⟩
          intro y hy
          rcases List.mem_cons.mp hy with rfl | hy
          · simpa [spans, Has] using hc
          · exact h5 y hy
        · right; exact ⟨k, List.mem_cons_of_mem _ h4, h5, h6⟩

/-- The children of a live slot, searched for an address. -/
theorem findKid_first (addr p : Nat) (hp : Live s p) :
    (findKid s addr (c.nb + 1) (s.first p) = some 0 ∧ ∀ x, Live s x → s.par x = p → ¬ Has s x addr) ∨
    (∃ k, Live s k ∧ s.par k = p ∧ Has s k addr ∧ findKid s addr (c.nb + 1) (s.first p) = some k) := by
  have hlen := h.kids_length p
  rw [h.firstKid p hp]
  rcases findKid_spec (s := s) addr (kids p) (c.nb + 1) 0 (h.zero_not_mem p) (h.seg p) (by omega) with ⟨h1, h2⟩ | ⟨k, h1, h2, h3⟩
  · left
    exact ⟨h1, fun x hx hxp => h2 x ((h.mem _ _).mpr ⟨hx, hxp⟩)⟩
  · right
    obtain ⟨hk, hkp⟩ := (h.mem _ _).mp h1
    exact ⟨k, hk, hkp, h2, h3⟩

omit h in
theorem path_cons {n k : Nat} {l : List Nat} (hp : Path s n l) (hk : s.par k = n) (hn : n ≠ 0) : Path s k (k :: l) :=
  Path.step (by rw [hk]; exact hn) (by rw [hk]; exact hp)

/-- Descending to the deepest big allocation. -/
theorem deepestFrom_spec (addr : Nat) : ∀ (f n : Nat) (l : List Nat), Live s n → Has s n addr →
    Path s n l → c.nb ≤ f + l.length → ∃ r, deepestFrom c s addr f n = some r ∧ Live s r ∧ Has s r addr ∧ Anc s n r ∧
      ∀ x, Live s x → s.par x = r → ¬ Has s x addr := by
  intro f
  induction f with
  | zero =>
    intro n l hl _ hp hf
    have := h.path_length hp hl
    omega
  | succ f ih =>
    intro n l hl ha hp hf
    rw [deepestFrom]
    rcases h.findKid_first addr n hl with ⟨h1, h2⟩ | ⟨k, hk, hkp, hka, h3⟩
    · rw [h1]
      exact ⟨n, by simp, hl, ha, Anc.refl, h2⟩
    · rw [h3]
      simp only [h.ne0 hk, if_false]
      obtain ⟨r, h4, h5, h6, h7, h8⟩ := ih k (k :: l) hk hka (path_cons hp hkp (h.ne0 hl)) (by simp; omega)
      exact ⟨r, h4, h5, h6, (Anc.step (by rw [hkp]; exact h.ne0 hl) (hkp ▸ Anc.refl)).trans h7, h8⟩

omit h in
theorem entry_eq (q : Nat) : entry s q = (s.pidx q).toNat := rfl

/-- The lookup finds the deepest big allocation. -/
theorem deepest_spec (addr : Nat) :
    (deepest c s addr = some 0 ∧ ∀ n, Live s n → ¬ Has s n addr) ∨
    (∃ r, deepest c s addr = some r ∧ Live s r ∧ Has s r addr ∧ (∀ x, Live s x → s.par x = r → ¬ Has s x addr) ∧
      ∀ n, Live s n → Has s n addr → Anc s n r) := by
  have ho := h.owner (pagenum addr)
  unfold deepest
  by_cases he : entry s (pagenum addr) = 0
  · left
    rw [if_pos he]
    rw [he] at ho
    exact ⟨rfl, h.no_has_of_unowned ho⟩
  · right
    rw [if_neg he]
    rcases ho with ⟨h0, _⟩ | ⟨_, hl, hcov, _⟩
    · exact absurd h0 he
    · have ha := covers_has hcov rfl
      obtain ⟨r, h1, h2, h3, h4, h5⟩ := h.deepestFrom_spec addr (c.nb + 1) _ _ hl ha Path.top (by simp; omega)
      refine ⟨r, h1, h2, h3, h5, ?_⟩
      intro n hn hna
      rcases h.laminar hn h2 hna h3 with e | e
      · exact e
      · rcases anc_cases e with e | ⟨k, hk, _, hkn⟩
        · exact e ▸ Anc.refl
        · exact absurd (h.anc_has hkn hn hna) (h5 k (h.anc_live hkn hn) hk)

end Inv

end Liballocs.PageIndex
