import Verif.Model.StackClaim
import Verif.Props.PageIndexFails
/-!
# C67 An address below a stack is taken for the stack's only if the stack could have grown to it
-/
namespace Liballocs.StackClaim

open PageIndex Fill

/-! ## Specification -/

/-- No big allocation has an address in `[lo, hi)`. -/
def Free (s : State) (lo hi : Nat) : Prop := ∀ x, lo ≤ x → x < hi → ∀ n, Live s n → ¬ Has s n x

/-- The address is close below a stack `[beg, fin)`: less than `d` below its beginning or less than `m` below its end. -/
def Close (l : Limits) (beg fin ptr : Nat) : Prop :=
  let m := if l.cur ≠ 2 ^ 64 - 1 then l.cur else if l.max ≠ 2 ^ 64 - 1 then l.max else 0x1000000
  let d := if l.cur ≠ 2 ^ 64 - 1 ∨ l.max ≠ 2 ^ 64 - 1 then m else 0x40000
  beg < ptr + d ∨ fin < ptr + m

/-- What a stack that takes an unindexed address has to be: page aligned at the beginning and the last of the chain. The
sizes of it and the allocations above it stay below the limit of the page index. -/
structure Stack (c : Config) (s : State) (b ptr : Nat) : Prop where
  live : Live s b
  aligned : s.beg b % PAGE = 0
  last : s.priv b = 0
  room : ∀ n, Anc s n b → s.fin n ≤ roundDown ptr PAGE + c.maxPages * PAGE

/-! ## Proofs -/

theorem skipZeros_le (s : State) : ∀ (k q : Nat), skipZeros s k q ≤ k := by
  intro k
  induction k with
  | zero => intro q; exact Nat.le_refl _
  | succ k ih =>
    intro q
    rw [skipZeros]
    split
    · exact Nat.succ_le_succ (ih _)
    · exact Nat.zero_le _

theorem skipZeros_all (s : State) : ∀ (k q : Nat), skipZeros s k q = k ↔ ∀ j, q ≤ j → j < q + k → entry s j = 0 := by
  intro k
  induction k with
  | zero =>
    intro q
    refine ⟨fun _ j h1 h2 => by omega, fun _ => rfl⟩
  | succ k ih =>
    intro q
    rw [skipZeros]
    by_cases h0 : entry s q = 0
    · rw [if_pos h0]
      constructor
      · intro h j h1 h2
        by_cases hj : j = q
        · rw [hj]; exact h0
        · exact (ih (q + 1)).mp (by omega) j (by omega) (by omega)
      · intro h
        have := (ih (q + 1)).mpr (fun j h1 h2 => h j (by omega) (by omega))
        omega
    · rw [if_neg h0]
      constructor
      · intro h; omega
      · intro h; exact absurd (h q (Nat.le_refl _) (by omega)) h0

/-- The test for unused pages, page by page. -/
theorem pagesUnused_iff (s : State) (lo hi : Nat) :
    pagesUnused s lo hi = true ↔ pagenum lo ≤ pagenum hi ∧ ∀ q, pagenum lo ≤ q → q < pagenum hi → entry s q = 0 := by
  unfold pagesUnused
  rw [beq_iff_eq]
  have h1 := skipZeros_le s (pagenum hi - pagenum lo) (pagenum lo)
  have h2 := skipZeros_all s (pagenum hi - pagenum lo) (pagenum lo)
  constructor
  · intro h
    refine ⟨by omega, ?_⟩
    intro q hq1 hq2
    exact h2.mp (by omega) q hq1 (by omega)
  · rintro ⟨h3, h4⟩
    have := h2.mpr (fun j h5 h6 => h4 j h5 (by omega))
    omega

theorem near_iff (l : Limits) (beg fin ptr : Nat) (h : ptr < beg) (hf : beg < fin) : near l beg fin ptr = true ↔ Close l beg fin ptr := by
  unfold near Close maxDelta maxSize
  rw [show (2 ^ 64 - 1 : Nat) = INF from rfl]
  simp only [Bool.or_eq_true, Bool.and_eq_true, decide_eq_true_eq]
  by_cases h1 : l.cur = INF <;> by_cases h2 : l.max = INF <;>
    simp only [h1, h2, if_true, if_false, and_true, true_and, and_false, false_and, or_true, true_or, or_false, not_true, not_false_iff, ne_eq, false_or] <;> omega

theorem page_zero_iff {c : Config} {s : State} {kids rank} (h : Inv c s kids rank) (q : Nat) :
    entry s q = 0 ↔ ∀ x, pagenum x = q → ∀ n, Live s n → ¬ Has s n x := by
  constructor
  · intro h0 x hx
    have ho := h.owner q
    rw [h0, ← hx] at ho
    exact h.no_has_of_unowned ho
  · intro hx
    rcases h.owner q with ⟨h0, _⟩ | ⟨h0, hl, hc, _⟩
    · exact h0
    · exact absurd (Inv.covers_has_page hc) (hx (q * PAGE) (by unfold pagenum PAGE; omega) _ hl)

/-- The whole test of one stack, for an unindexed address. -/
theorem test_iff {c : Config} {s : State} {kids rank} (h : Inv c s kids rank) {b ptr : Nat} (l : Limits) (hb : Live s b)
    (hal : s.beg b % PAGE = 0) (hun : entry s (pagenum ptr) = 0) :
    (near l (s.beg b) (s.fin b) ptr && pagesUnused s (roundUp ptr PAGE) (s.beg b)) = true ↔
      ptr < s.beg b ∧ Close l (s.beg b) (s.fin b) ptr ∧ Free s ptr (s.beg b) := by
  have hpos := h.pos b hb
  have hnot : ptr ≠ s.beg b := by
    intro e
    exact (page_zero_iff h _).mp hun ptr rfl b hb ⟨by omega, by omega⟩
  have hle : pagenum (roundUp ptr PAGE) ≤ pagenum (s.beg b) ↔ ptr ≤ s.beg b := by
    rw [le_page_up]
    unfold pagenum
    have hP : PAGE = 4096 := rfl
    rw [hP] at hal ⊢
    omega
  rw [Bool.and_eq_true, pagesUnused_iff, hle]
  constructor
  · rintro ⟨h1, h2, h3⟩
    have hlt : ptr < s.beg b := by omega
    refine ⟨hlt, (near_iff l _ _ _ hlt hpos).mp h1, ?_⟩
    intro x hx1 hx2
    by_cases hp : pagenum x = pagenum ptr
    · exact (page_zero_iff h _).mp hun x hp
    · refine (page_zero_iff h _).mp (h3 (pagenum x) ?_ ?_) x rfl
      · rw [le_page_up]
        unfold pagenum at hp ⊢
        have hP : PAGE = 4096 := rfl
        rw [hP] at hp ⊢
        omega
      · unfold pagenum
        have hP : PAGE = 4096 := rfl
        rw [hP] at hal ⊢
        omega
  · rintro ⟨h1, h2, h3⟩
    refine ⟨(near_iff l _ _ _ h1 hpos).mpr h2, by omega, ?_⟩
    intro q hq1 hq2
    rw [le_page_up] at hq1
    refine (page_zero_iff h q).mpr ?_
    intro x hx
    refine h3 x ?_ ?_
    · unfold pagenum at hx
      have hP : PAGE = 4096 := rfl
      rw [hP] at hx hq1
      omega
    · unfold pagenum at hx hq2
      have hP : PAGE = 4096 := rfl
      rw [hP] at hx hq2 hal
      omega

theorem align_id {align : Nat → Nat} (hal : ∀ a, align a = 0 ∨ PAGE % align a = 0) (s : State) (p lo : Nat) (hlo : lo % PAGE = 0) :
    preExtendAlign align s p lo = lo := by
  unfold preExtendAlign
  split
  · rename_i hne
    rcases hal (s.alloc p) with h | h
    · exact absurd h hne
    · unfold roundDown
      have h1 : align (s.alloc p) ∣ PAGE := Nat.dvd_of_mod_eq_zero h
      have h2 : PAGE ∣ lo := Nat.dvd_of_mod_eq_zero hlo
      exact Nat.div_mul_cancel (Nat.dvd_trans h1 h2)
  · rfl

theorem setPages_beg {c : Config} {s s' : State} {lo hi num old : Nat} (h : setPages c s lo hi num old = some s') : s'.beg = s.beg := by
  unfold setPages at h
  cases hm : memsetBigalloc c.debug c.maxPages s.pidx (pagenum lo) (BitVec.ofNat 16 num) (BitVec.ofNat 16 old) (pageDist lo hi) with
  | none => rw [hm] at h; simp at h
  | some p => rw [hm] at h; simp at h; rw [← h]

theorem preExtend_beg {c : Config} {s s' : State} {b lo : Nat} (h : preExtend c s b lo = some s') : ∀ n, s'.beg n = s.beg n ∨ s'.beg n = lo := by
  intro n
  unfold preExtend at h
  split at h
  · cases hu : preExtendUnder c { s with beg := upd s.beg b lo } b (s.beg b) with
    | none => rw [hu] at h; simp at h
    | some u =>
      rw [hu] at h
      simp only [Option.bind_some] at h
      rw [setPages_beg h]
      show upd s.beg b lo n = s.beg n ∨ upd s.beg b lo n = lo
      unfold upd
      split
      · exact Or.inr rfl
      · exact Or.inl rfl
  · cases h; exact Or.inl rfl

theorem preExtendRec_beg {c : Config} {align : Nat → Nat} (hal : ∀ a, align a = 0 ∨ PAGE % align a = 0) {lo : Nat} (hlo : lo % PAGE = 0) :
    ∀ (f : Nat) (s s' : State) (b : Nat), preExtendRec c align f s b lo = some s' → ∀ n, s'.beg n = s.beg n ∨ s'.beg n = lo := by
  intro f
  induction f with
  | zero => intro s s' b h; simp [preExtendRec] at h
  | succ f ih =>
    intro s s' b h n
    rw [preExtendRec] at h
    split at h
    · rw [align_id hal s _ lo hlo] at h
      cases h1 : preExtendRec c align f s (s.par b) lo with
      | none => rw [h1] at h; simp at h
      | some s1 =>
        rw [h1] at h
        simp only [Option.bind_some] at h
        rcases preExtend_beg h n with e | e
        · rw [e]; exact ih s s1 _ h1 n
        · exact Or.inr e
    · exact preExtend_beg h n

theorem free_down {c : Config} {s : State} {kids rank} (h : Inv c s kids rank) {ptr hi : Nat} (hun : entry s (pagenum ptr) = 0)
    (hf : Free s ptr hi) : Free s (roundDown ptr PAGE) hi := by
  intro x hx1 hx2
  by_cases hp : ptr ≤ x
  · exact hf x hp hx2
  · refine (page_zero_iff h _).mp hun x ?_
    unfold roundDown at hx1
    unfold pagenum
    have hP : PAGE = 4096 := rfl
    rw [hP] at hx1 ⊢
    omega

theorem recOk {c : Config} {align : Nat → Nat} (hal : ∀ a, align a = 0 ∨ PAGE % align a = 0) {s : State} {kids rank} (h : Inv c s kids rank)
    {b lo : Nat} (hb : Live s b) (hlo : lo % PAGE = 0) (hlo0 : lo ≠ 0) (hf : Free s lo (s.beg b))
    (hroom : ∀ n, Anc s n b → s.fin n ≤ lo + c.maxPages * PAGE) :
    ∀ (k n : Nat), rank n ≤ k → Anc s n b → RecOk c align s n lo := by
  have step : ∀ n, Anc s n b → StepOk c s n lo := by
    intro n hn
    have hnl := h.anc_live hn hb
    have hnest := h.anc_nest hn hb
    refine ⟨hlo0, hroom n hn, ?_, fun _ _ => hlo⟩
    intro hlt d hd hdp hdn
    rcases h.disj d n hd hnl hdp hdn with h1 | h1
    · left
      rcases Nat.lt_or_ge lo (s.fin d) with h2 | h2
      · have hdpos := h.pos d hd
        exact absurd ⟨by omega, by omega⟩ (hf (s.fin d - 1) (by omega) (by omega) d hd)
      · exact h2
    · exact Or.inr h1
  intro k
  induction k with
  | zero =>
    intro n hk hn
    by_cases hp : s.par n = 0
    · exact RecOk.top hp (step n hn)
    · have := h.rank n (h.anc_live hn hb) hp
      omega
  | succ k ih =>
    intro n hk hn
    by_cases hp : s.par n = 0
    · exact RecOk.top hp (step n hn)
    · have := h.rank n (h.anc_live hn hb) hp
      refine RecOk.up hp (step n hn) ?_
      rw [align_id hal s _ lo hlo]
      exact ih (s.par n) (by omega) ((Anc.step hp Anc.refl).trans hn)

/-- Extending a stack over free address space gives it exactly the addresses in between. -/
theorem extend_down {c : Config} {align : Nat → Nat} (hal : ∀ a, align a = 0 ∨ PAGE % align a = 0) {s : State} (hr : Reach c align s)
    {b lo : Nat} (hb : Live s b) (hlo : lo % PAGE = 0) (hlo0 : lo ≠ 0) (hlt : lo < s.beg b) (hf : Free s lo (s.beg b))
    (hroom : ∀ n, Anc s n b → s.fin n ≤ lo + c.maxPages * PAGE) :
    ∃ s', preExtendRec c align (c.nb + 1) s b lo = some s' ∧ Reach c align s' ∧ s'.sub = s.sub ∧ s'.alloc = s.alloc ∧
      ∀ x, deepest c s' x = if lo ≤ x ∧ x < s.beg b then some b else deepest c s x := by
  obtain ⟨_, kids, rank, h⟩ := reach_good hr
  have hrec := recOk (align := align) hal h hb hlo hlo0 hf hroom (rank b) b (Nat.le_refl _) Anc.refl
  obtain ⟨s', e, h', hl, hbb, _⟩ := preExtendRec_spec (align := align) h (c.nb + 1) b lo [] hb (by simp) (by simp) (by simp)
      (by simp only [List.length_cons, List.length_nil]; omega) hrec
  have hbeg := preExtendRec_beg hal hlo _ _ _ _ e
  have hpos := h.pos b hb
  refine ⟨s', e, Reach.step (op := .preExtendUp b lo) hr ⟨hb, hrec⟩ e, hl.sub, hl.alloc, ?_⟩
  have hbb' : s'.beg b = lo := by omega
  intro x
  by_cases hx : lo ≤ x ∧ x < s.beg b
  · rw [if_pos hx]
    refine (h'.deepest_iff x b).mpr (Or.inr ⟨(hl.live b).mpr hb, ⟨by omega, by rw [hl.fin]; omega⟩, ?_⟩)
    intro n hn hnx
    refine (anc_same hl.par).mpr ?_
    apply Classical.byContradiction
    intro hna
    refine hf x hx.1 hx.2 n ((hl.live n).mp hn) ?_
    unfold Has at hnx ⊢
    rw [hl.beg n hna, hl.fin] at hnx
    exact hnx
  · rw [if_neg hx]
    have hhas : ∀ n, Live s n → (Has s' n x ↔ Has s n x) := by
      intro n hn
      unfold Has
      rw [hl.fin]
      rcases hbeg n with e1 | e1
      · rw [e1]
      · have hle := hl.le n
        have hposn := h.pos n hn
        by_cases he : s'.beg n = s.beg n
        · rw [he]
        · have hanc : Anc s n b := by
            apply Classical.byContradiction
            intro hna
            exact he (hl.beg n hna)
          have hnest := h.anc_nest hanc hb
          have : s.beg n = s.beg b := by
            rcases Nat.lt_or_ge (s.beg n) (s.beg b) with h1 | h1
            · exact absurd ⟨Nat.le_refl _, hposn⟩ (hf (s.beg n) (by omega) h1 n hn)
            · omega
          omega
    obtain ⟨r, hd, hda⟩ := h.deepestAt x
    rw [hd]
    refine (h'.deepest_iff x r).mpr ?_
    rcases hda with ⟨h1, h2⟩ | ⟨h1, h2, h3⟩
    · exact Or.inl ⟨h1, fun n hn hnx => h2 n ((hl.live n).mp hn) ((hhas n ((hl.live n).mp hn)).mp hnx)⟩
    · refine Or.inr ⟨(hl.live r).mpr h1, (hhas r h1).mpr h2, ?_⟩
      intro n hn hnx
      exact (anc_same hl.par).mpr (h3 n ((hl.live n).mp hn) ((hhas n ((hl.live n).mp hn)).mp hnx))

/-! ## The claim -/

/-- The stack allocator claims an unindexed address exactly if it is close below the stack and no big allocation is in
between. Then, and only then, lookups change, and only those of the addresses from the page of the address up to the old
beginning of the stack, which now find the stack. -/
theorem claim_exact {c : Config} {align : Nat → Nat} (hal : ∀ a, align a = 0 ∨ PAGE % align a = 0) {s : State} (hr : Reach c align s)
    (l : Limits) {b ptr : Nat} (hst : Stack c s b ptr) (hun : deepest c s ptr = some 0) (hptr : PAGE ≤ ptr) :
    ∃ s' r, claim c align l s ptr (c.nb + 1) b = some (s', r) ∧ Reach c align s' ∧ s'.sub = s.sub ∧ s'.alloc = s.alloc ∧
      (r = true ↔ ptr < s.beg b ∧ Close l (s.beg b) (s.fin b) ptr ∧ Free s ptr (s.beg b)) ∧
      (r = false → s' = s) ∧
      (r = true → ∀ x, deepest c s' x = if roundDown ptr PAGE ≤ x ∧ x < s.beg b then some b else deepest c s x) := by
  obtain ⟨_, kids, rank, h⟩ := reach_good hr
  have hno : entry s (pagenum ptr) = 0 := by
    rcases h.owner (pagenum ptr) with ⟨h0, _⟩ | ⟨_, hl, hc, _⟩
    · exact h0
    · have := (h.deepest_iff ptr 0).mp hun
      rcases this with ⟨_, h2⟩ | ⟨h1, _⟩
      · exact absurd (Inv.covers_has hc rfl) (h2 _ hl)
      · exact absurd rfl (h.ne0 h1)
  have htest := test_iff h l hst.live hst.aligned hno
  have hnb : ∃ f, c.nb + 1 = f + 2 := ⟨c.nb - 1, by have := h.lt b hst.live; omega⟩
  obtain ⟨f, hfe⟩ := hnb
  rw [hfe, claim, if_neg (h.ne0 hst.live)]
  by_cases ht : (near l (s.beg b) (s.fin b) ptr && pagesUnused s (roundUp ptr PAGE) (s.beg b)) = true
  · rw [if_pos ht]
    obtain ⟨t1, t2, t3⟩ := htest.mp ht
    have hlo : roundDown ptr PAGE % PAGE = 0 := by unfold roundDown; exact Nat.mul_mod_left _ _
    have hlo0 : roundDown ptr PAGE ≠ 0 := by
      unfold roundDown
      have hP : PAGE = 4096 := rfl
      rw [hP] at hptr ⊢
      omega
    have hlo1 : roundDown ptr PAGE ≤ ptr := by unfold roundDown; exact Nat.div_mul_le_self _ _
    obtain ⟨s', e, h1, h2, h3, h4⟩ := extend_down hal hr hst.live hlo hlo0 (by omega) (free_down h hno t3) hst.room
    rw [e]
    exact ⟨s', true, rfl, h1, h2, h3, ⟨fun _ => ⟨t1, t2, t3⟩, fun _ => rfl⟩, fun hc => by simp at hc, fun _ => h4⟩
  · rw [if_neg ht, hst.last, claim, if_pos rfl]
    exact ⟨s, false, rfl, hr, rfl, rfl, ⟨fun hc => by simp at hc, fun hc => absurd (htest.mpr hc) ht⟩, fun _ => rfl, fun hc => by simp at hc⟩

/-- A query about an address claimed for the stack is answered by the allocator of stack frames, with the stack as
innermost big allocation; it never aborts. -/
theorem query_claimed {c : Config} {align : Nat → Nat} (hal : ∀ a, align a = 0 ∨ PAGE % align a = 0) {s : State} (hr : Reach c align s)
    (l : Limits) {b ptr : Nat} (other : State → Option (State × Bool)) (hst : Stack c s b ptr) (hun : deepest c s ptr = some 0) (hptr : PAGE ≤ ptr)
    (hsub : s.sub b ≠ 0) (hlt : ptr < s.beg b) (hcl : Close l (s.beg b) (s.fin b) ptr) (hfr : Free s ptr (s.beg b)) :
    ∃ s', leaf c align l b other s ptr = some (s', .found (s.sub b) b) ∧ Reach c align s' := by
  obtain ⟨s', r, e, h1, h2, h3, h4, h5, h6⟩ := claim_exact hal hr l hst hun hptr
  have hrt := h4.mpr ⟨hlt, hcl, hfr⟩
  subst hrt
  obtain ⟨_, kids, rank, h⟩ := reach_good hr
  obtain ⟨_, kids', rank', h'⟩ := reach_good h1
  have hd := h6 rfl ptr
  have hlo1 : roundDown ptr PAGE ≤ ptr := by unfold roundDown; exact Nat.div_mul_le_self _ _
  rw [if_pos ⟨hlo1, hlt⟩] at hd
  refine ⟨s', ?_, h1⟩
  unfold leaf leafAllocator notify
  rw [h.leafBig_eq, hun, e]
  simp [h'.leafBig_eq, hd, h.ne0 hst.live, h2, hsub]

/-- A query about an unindexed address that neither the stack allocator nor the others claim is reported as wild, and
nothing changes for the stack. -/
theorem query_wild {c : Config} {align : Nat → Nat} (hal : ∀ a, align a = 0 ∨ PAGE % align a = 0) {s : State} (hr : Reach c align s)
    (l : Limits) {b ptr : Nat} (other : State → Option (State × Bool)) (hst : Stack c s b ptr) (hun : deepest c s ptr = some 0) (hptr : PAGE ≤ ptr)
    (hno : ¬ (ptr < s.beg b ∧ Close l (s.beg b) (s.fin b) ptr ∧ Free s ptr (s.beg b))) (hother : other s = some (s, false)) :
    leaf c align l b other s ptr = some (s, .wild) := by
  obtain ⟨s', r, e, h1, h2, h3, h4, h5, h6⟩ := claim_exact hal hr l hst hun hptr
  cases r with
  | true => exact absurd (h4.mp rfl) hno
  | false =>
    have := h5 rfl
    subst this
    obtain ⟨_, kids, rank, h⟩ := reach_good hr
    unfold leaf leafAllocator notify
    rw [h.leafBig_eq, hun, e]
    simp [hother]

/-! ## Concrete cases -/

/-- A mapping (slot 2), the startup vector in it (slot 3) and the stack in that (slot 4), whose frames are the business of
allocator 9; slot 5 is another mapping, further down. -/
def exOps : List Op :=
  [.new 0x700000 0x10000 0 ⟨2, 0, 0, 0, 0, 0⟩, .new 0x700000 0xf000 0 ⟨3, 0, 0, 0, 0, 0⟩, .new 0x700000 0xe000 0 ⟨4, 0, 0, 0, 0, 0⟩,
    .setSub 4 9 0 0, .new 0x6d0000 0x1000 0 ⟨2, 0, 0, 0, 0, 0⟩]

/-- A stack limit of 0x20000 bytes. -/
def exLim : Limits := ⟨0x20000, INF⟩

/-- Query an address in the state after `exOps`, then look up more addresses. -/
def exQuery (ptr : Nat) (more : List Nat) : Option (Leaf × List (Option Nat)) :=
  after dbg exOps (fun s => (leaf dbg (fun _ => 0) exLim 4 (fun s => some (s, false)) s ptr).map (fun r => (r.2, more.map (deepest dbg r.1))))

example : exQuery 0x6fe123 [0x6fdfff, 0x6fe000, 0x6fffff, 0x700000, 0x70e000] = some (.found 9 4, [some 0, some 4, some 4, some 4, some 3]) := by
  decide +kernel
/-- too far -/
example : exQuery 0x6c0000 [0x6fffff] = some (.wild, [some 0]) := by decide +kernel
/-- already the stack's -/
example : exQuery 0x700010 [0x6fffff] = some (.found 9 4, [some 0]) := by decide +kernel

/-- With another mapping in between nothing is claimed. -/
example : after dbg (exOps ++ [.new 0x6ff000 0x1000 0 ⟨2, 0, 0, 0, 0, 0⟩])
    (fun s => (leaf dbg (fun _ => 0) exLim 4 (fun s => some (s, false)) s 0x6fe123).map (fun r => r.2)) = some .wild := by decide +kernel

/-- A check of the obligations of some operations. -/
def allowedB (c : Config) (s : State) : Op → Bool
  | .new lo size 0 _ => newOkB c s lo size
  | .setSub b _ _ _ => inUse s b
  | _ => false

theorem allowed_of {c : Config} {s : State} (hr : Reach c (fun _ => 0) s) {op : Op} (h : allowedB c s op = true) : Allowed c (fun _ => 0) s op := by
  cases op with
  | new lo size parent m =>
    cases parent with
    | zero => exact newOk_of_check hr h
    | succ k => simp [allowedB] at h
  | setSub b x y z => exact live_iff.mp h
  | _ => simp [allowedB] at h

/-- Operations passing the check, one after the other. -/
def checkOps (c : Config) : List Op → State → Option State
  | [], s => some s
  | op :: ops, s => if allowedB c s op then (apply c (fun _ => 0) s op).bind (checkOps c ops) else none

theorem reach_checked {c : Config} : ∀ (ops : List Op) {s s' : State}, Reach c (fun _ => 0) s → checkOps c ops s = some s' → Reach c (fun _ => 0) s'
  | [], s, s', hr, h => by cases h; exact hr
  | op :: ops, s, s', hr, h => by
    rw [checkOps] at h
    split at h
    · rename_i hok
      cases e : apply c (fun _ => 0) s op with
      | none => rw [e] at h; simp at h
      | some s1 =>
        rw [e] at h
        exact reach_checked ops (Reach.step hr (allowed_of hr hok) e) h
    · cases h

/-- Path to the top through at most three steps. -/
theorem anc_three {s : State} {a b c : Nat} (h1 : s.par a = b) (h2 : s.par b = c) (h3 : s.par c = 0) {n : Nat} (h : Anc s n a) :
    n = a ∨ n = b ∨ n = c := by
  cases h with
  | refl => exact Or.inl rfl
  | step _ h =>
    rw [h1] at h
    cases h with
    | refl => exact Or.inr (Or.inl rfl)
    | step _ h =>
      rw [h2] at h
      cases h with
      | refl => exact Or.inr (Or.inr rfl)
      | step hp _ => exact absurd h3 hp

/-- All that the theorems ask for holds of the example. -/
theorem example_fits : ∃ s, Reach dbg (fun _ => 0) s ∧ Stack dbg s 4 0x6fe123 ∧ deepest dbg s 0x6fe123 = some 0 ∧ s.sub 4 ≠ 0 ∧
    0x6fe123 < s.beg 4 ∧ Close exLim (s.beg 4) (s.fin 4) 0x6fe123 ∧ Free s 0x6fe123 (s.beg 4) := by
  obtain ⟨s0, e0, hr0⟩ := history_starts (c := dbg) (align := fun _ => 0) (ptr := 0x1000000) (size := 0x10000) ⟨1, 0, 0, 0, 0, 0⟩
    ⟨by decide, by decide, by decide, by decide, by decide⟩
  have hc : ((boot dbg 0x1000000 0x10000 ⟨1, 0, 0, 0, 0, 0⟩).bind (checkOps dbg exOps)).map (fun s =>
      decide (inUse s 4 = true ∧ s.beg 4 % PAGE = 0 ∧ s.priv 4 = 0 ∧ s.par 4 = 3 ∧ s.par 3 = 2 ∧ s.par 2 = 0 ∧
        s.fin 4 ≤ roundDown 0x6fe123 PAGE + dbg.maxPages * PAGE ∧ s.fin 3 ≤ roundDown 0x6fe123 PAGE + dbg.maxPages * PAGE ∧
        s.fin 2 ≤ roundDown 0x6fe123 PAGE + dbg.maxPages * PAGE ∧ deepest dbg s 0x6fe123 = some 0 ∧ s.sub 4 ≠ 0 ∧
        entry s (pagenum 0x6fe123) = 0 ∧
        (near exLim (s.beg 4) (s.fin 4) 0x6fe123 && pagesUnused s (roundUp 0x6fe123 PAGE) (s.beg 4)) = true)) = some true := by decide +kernel
  rw [e0, Option.bind_some] at hc
  cases e : checkOps dbg exOps s0 with
  | none => rw [e] at hc; cases hc
  | some s =>
    rw [e] at hc
    have hr := reach_checked _ hr0 e
    obtain ⟨c1, c2, c3, c4, c5, c6, c7, c8, c9, c10, c11, c12, c13⟩ := of_decide_eq_true (Option.some.inj hc)
    obtain ⟨_, kids, rank, h⟩ := reach_good hr
    obtain ⟨t1, t2, t3⟩ := (test_iff h exLim (live_iff.mp c1) c2 c12).mp c13
    refine ⟨s, hr, ⟨live_iff.mp c1, c2, c3, ?_⟩, c10, c11, t1, t2, t3⟩
    intro n hn
    rcases anc_three c4 c5 c6 hn with rfl | rfl | rfl
    · exact c7
    · exact c8
    · exact c9

/-- The distance below the beginning is not bounded by what is left of the stack limit: a stack of 0xe000 bytes under a
limit of 0x20000 is taken to reach down to an address 0x26000 bytes below its end. -/
theorem beyond_limit_fails :
    after dbg exOps (fun s => (claim dbg (fun _ => 0) exLim s 0x6e8000 9 4).map (fun r => (r.2, decide (r.1.fin 4 - r.1.beg 4 > exLim.cur)))) =
      some (true, true) := by decide +kernel

end Liballocs.StackClaim
