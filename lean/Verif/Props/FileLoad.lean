import Verif.Proofs.FileLoad
import Verif.Props.PageIndexFails
/-!
# Loading and unloading of files (C82, C83)
-/
namespace Liballocs.FileLoad

open PageIndex Fill

/-- The range of a segment, and of a section. -/
def segR (F : File) (p : Phdr) : Nat × Nat := (F.laddr + p.vaddr, F.laddr + p.vaddr + p.memsz)
def secR (F : File) (x : Shdr) : Nat × Nat := (F.laddr + x.addr, F.laddr + x.addr + x.size)

/-- Sections that take part. -/
def full (x : Shdr) : Bool := decide (x.size ≠ 0)

def Apart (d e : Nat × Nat) : Prop := d.2 ≤ e.1 ∨ e.2 ≤ d.1

/-- The suballocator of a segment: the symbols if it is the data segment, else none. -/
def segSub (F : File) (d : Nat × Nat) : Nat := if d.1 = F.data then symId else 0

/-- The loadable segments, numbered as librunt does. -/
def loads (F : File) : List Phdr := F.phdrs.filter (fun p => p.load)

/-- A segment's parent is the file, and its record that of the segment with its number. -/
def SegFits (F : File) (f : Nat) (d : Nat × Nat) (p v : Nat) : Prop := p = f ∧ ∃ i ph, (loads F)[i]? = some ph ∧ segR F ph = d ∧ v = F.segPtr i

/-- A section's parent is a segment of the file, and its record the section's header. -/
def SecFits (F : File) (S : State) (f : Nat) (d : Nat × Nat) (p v : Nat) : Prop :=
  (S.alloc p = segId ∧ S.par p = f) ∧ ∃ i x, F.shdrs[i]? = some x ∧ secR F x = d ∧ v = F.shdrPtr i

def inR (d : Nat × Nat) (a : Nat) : Prop := d.1 ≤ a ∧ a < d.2

/-- The lowest and the limit address are those of the loadable segments. -/
theorem bounds_correct (ph : List Phdr) :
    ((bounds ph).1 = none ↔ ∀ p ∈ ph, p.load = false) ∧
    (∀ v, (bounds ph).1 = some v → (∃ p ∈ ph, p.load = true ∧ p.vaddr = v) ∧ ∀ p ∈ ph, p.load = true → v ≤ p.vaddr) ∧
    ((bounds ph).1 ≠ none → ((bounds ph).2 = 0 ∨ ∃ p ∈ ph, p.load = true ∧ p.vaddr + p.memsz = (bounds ph).2) ∧
      ∀ p ∈ ph, p.load = true → p.vaddr + p.memsz ≤ (bounds ph).2) := by
  obtain ⟨h1, h2, _, h4, h5⟩ := bounds_fold ph none 0
  refine ⟨by rw [show bounds ph = ph.foldl boundsStep (none, 0) from rfl, h1]; simp, ?_, fun _ => ⟨h4, h5⟩⟩
  intro v hv
  obtain ⟨h6, _, h7⟩ := h2 v hv
  refine ⟨?_, h7⟩
  rcases h6 with h6 | h6
  · cases h6
  · exact h6

/-! ## Segments -/

/-- The state in which the segments of a file are defined. -/
structure FileBase (c : Config) (align : Nat → Nat) (B : State) (f F0 F1 : Nat) : Prop where
  reach : Reach c align B
  live : Live B f
  beg : B.beg f = F0
  fin : B.fin f = F1
  alloc : B.alloc f = fileId
  only : ∀ n a, Live B n → Has B n a → F0 ≤ a → a < F1 → B.alloc n = fileId → n = f
  noSeg : ∀ n a, Live B n → Has B n a → F0 ≤ a → a < F1 → B.alloc n ≠ segId ∧ B.alloc n ≠ secId
  noKids : ∀ n, Live B n → B.par n ≠ f

theorem adjustEnd_same {c : Config} {s : State} {b e : Nat} (h : s.fin b = e) : adjustEnd c s b e = some s := by
  unfold adjustEnd
  rw [if_neg (by omega), if_neg (by omega)]

theorem live_ne_zero {c : Config} {align : Nat → Nat} {s : State} (hr : Reach c align s) {n : Nat} (h : Live s n) : n ≠ 0 := by
  obtain ⟨_, kids, rank, hi⟩ := reach_good hr
  exact hi.ne0 h

theorem segs_ok {c : Config} {align : Nat → Nat} {B : State} {F : File} {f F0 F1 : Nat} (hB : FileBase c align B f F0 F1)
    (hsmall : F1 - F0 ≤ c.maxPages * PAGE) : ∀ (l : List Phdr) (s : State) (done : List (Nat × Nat)) (k : Nat) (pre : List Phdr),
    F.phdrs = pre ++ l →
    Stage c align B segId (segSub F) (SegFits F f) s done →
    (∀ p ∈ l, p.load = true → 0 < p.memsz ∧ F0 ≤ F.laddr + p.vaddr ∧ F.laddr + p.vaddr + p.memsz ≤ F1 ∧
      (F.laddr + p.vaddr = F.data → F.laddr + p.vaddr + p.memsz = F1)) →
    (l.filter (fun p => p.load)).Pairwise (fun p q => Apart (segR F p) (segR F q)) →
    (∀ p ∈ l, p.load = true → ∀ d ∈ done, Apart d (segR F p)) →
    Room c s ((l.filter (fun p => p.load)).length + k) →
    ∃ s', defineSegs c F s (pre.filter (fun p => p.load)).length l = some s' ∧
      Stage c align B segId (segSub F) (SegFits F f) s' (done ++ (l.filter (fun p => p.load)).map (segR F)) ∧ Room c s' k
  | [], s, done, k, pre, _, hst, _, _, _, hroom => ⟨s, rfl, by simpa using hst, by simpa using hroom⟩
  | p :: l, s, done, k, pre, hpre, hst, hl, hpw, hdone, hroom => by
    unfold defineSegs
    by_cases hp : p.load = true
    · rw [if_pos hp]
      obtain ⟨h1, h2, h3, h4⟩ := hl p List.mem_cons_self hp
      rw [List.filter_cons_of_pos hp] at hpw hroom ⊢
      rw [List.pairwise_cons] at hpw
      obtain ⟨hfl, hfb, hff, _, hfa, _, _, _, _, _⟩ := hst.old f hB.live
      have hbpos : F0 ≠ 0 := by rw [← hB.beg]; exact hB.live.1
      have hfr : fromRoot c s (F.laddr + p.vaddr) fileId false = some f := by
        refine fromRoot_unique hst.reach (by decide) hfl ⟨by rw [hfb, hB.beg]; omega, by rw [hff, hB.fin]; omega⟩ (by rw [hfa, hB.alloc]) ?_
        intro x hx hxa hxf
        by_cases hxb : Live B x
        · obtain ⟨_, e1, e2, _, e4, _⟩ := hst.old x hxb
          refine hB.only x _ hxb ⟨by rw [← e1]; exact hxa.1, by rw [← e2]; exact hxa.2⟩ h2 (by omega) (by rw [← e4]; exact hxf)
        · obtain ⟨d, _, q, _, _, _, hm⟩ := hst.new x hx hxb
          rw [hm.alloc] at hxf
          exact absurd hxf (by decide)
      have hidx : (loads F)[(pre.filter (fun p => p.load)).length]? = some p := by
        unfold loads
        rw [hpre, List.filter_append, List.filter_cons_of_pos hp]
        simp
      have hpre' : F.phdrs = (pre ++ [p]) ++ l := by rw [hpre]; simp
      obtain ⟨s1, b, e1, hst1, hroom1, hpb, hfb, hfp, hsub⟩ := hst.add (m := ⟨segId, 0, F.segPtr (pre.filter (fun p => p.load)).length, 0, 0, 0⟩) (lo := F.laddr + p.vaddr) (sz := p.memsz) (p := f)
        (k := (l.filter (fun p => p.load)).length + k) rfl rfl (by omega) h1 (by omega)
        (by simp only [List.length_cons] at hroom; rwa [show (l.filter (fun p => p.load)).length + k + 1 = (l.filter (fun p => p.load)).length + 1 + k by omega])
        hB.live (live_ne_zero hB.reach hB.live) ⟨rfl, _, p, hidx, rfl, rfl⟩ ⟨by rw [hB.beg]; exact h2, by rw [hB.fin]; exact h3⟩
        (fun d hd hdp => absurd hdp (hB.noKids d hd)) (fun d hd => hdone p List.mem_cons_self hp d hd)
      have hkey : ∃ s2, defineSeg c s F (pre.filter (fun p => p.load)).length p = some s2 ∧ Stage c align B segId (segSub F) (SegFits F f) s2 (segR F p :: done) ∧
          Room c s2 ((l.filter (fun p => p.load)).length + k) := by
        unfold defineSeg
        rw [hfr, Option.bind_some, if_neg (live_ne_zero hB.reach hB.live), e1, Option.bind_some]
        by_cases hd : F.laddr + p.vaddr = F.data
        · rw [if_pos hd]
          have e2 : s1.fin b = s1.fin (s1.par b) := by
            rw [hpb, hfb, hfp, hB.fin]
            exact h4 hd
          have hv : segSub F (F.laddr + p.vaddr, F.laddr + p.vaddr + p.memsz) = symId := if_pos hd
          simp only
          rw [adjustEnd_same e2]
          rw [hv] at hst1 hroom1
          exact ⟨_, rfl, hst1, hroom1⟩
        · rw [if_neg hd]
          have hv : segSub F (F.laddr + p.vaddr, F.laddr + p.vaddr + p.memsz) = 0 := if_neg hd
          rw [hsub (by rw [hv])] at hst1 hroom1
          exact ⟨_, rfl, hst1, hroom1⟩
      obtain ⟨s2, e2, hst2, hroom2⟩ := hkey
      rw [e2, Option.bind_some]
      obtain ⟨s', e3, hst3, hroom3⟩ := segs_ok hB hsmall l s2 (segR F p :: done) k (pre ++ [p]) hpre' hst2 (fun q hq => hl q (List.mem_cons_of_mem _ hq)) hpw.2 (by
        intro q hq hql d hd
        rcases List.mem_cons.mp hd with rfl | hd
        · exact hpw.1 q (List.mem_filter.mpr ⟨hq, hql⟩)
        · exact hdone q (List.mem_cons_of_mem _ hq) hql d hd) hroom2
      rw [List.filter_append, List.filter_cons_of_pos hp, List.length_append] at e3
      refine ⟨s', e3, hst3.perm ?_, hroom3⟩
      intro d
      simp only [List.map_cons, List.mem_append, List.mem_cons]
      constructor
      · rintro (h | h | h)
        · exact Or.inl (Or.inr h)
        · exact Or.inl (Or.inl h)
        · exact Or.inr h
      · rintro ((h | h) | h)
        · exact Or.inr (Or.inl h)
        · exact Or.inl h
        · exact Or.inr (Or.inr h)
    · rw [if_neg hp]
      rw [List.filter_cons_of_neg hp] at hpw hroom ⊢
      have := segs_ok hB hsmall l s done k (pre ++ [p]) (by rw [hpre]; simp) hst (fun q hq => hl q (List.mem_cons_of_mem _ hq)) hpw (fun q hq => hdone q (List.mem_cons_of_mem _ hq)) hroom
      rwa [List.filter_append, List.filter_cons_of_neg hp, List.filter_nil, List.append_nil] at this

/-! ## Sections -/

/-- The state in which the sections of a file are defined; `segs` are the ranges of its segments. -/
structure SegBase (c : Config) (align : Nat → Nat) (S : State) (F : File) (f F0 F1 : Nat) (segs : List (Nat × Nat)) : Prop where
  reach : Reach c align S
  pos : F0 ≠ 0
  seg : ∀ d ∈ segs, F0 ≤ d.1 ∧ d.2 ≤ F1 ∧ ∃ n v, Made S f segId v (segSub F d) 0 d n
  only : ∀ n a, Live S n → Has S n a → F0 ≤ a → a < F1 → S.alloc n = segId → S.par n = f
  noSec : ∀ n a, Live S n → Has S n a → F0 ≤ a → a < F1 → S.alloc n ≠ secId
  noKids : ∀ n p, Live S n → Live S p → S.alloc p = segId → S.par p = f → S.par n ≠ p

theorem secs_ok {c : Config} {align : Nat → Nat} {S : State} {F : File} {f F0 F1 : Nat} {segs : List (Nat × Nat)}
    (hS : SegBase c align S F f F0 F1 segs) (hsmall : F1 - F0 ≤ c.maxPages * PAGE) :
    ∀ (l : List Shdr) (s : State) (done : List (Nat × Nat)) (k : Nat) (pre : List Shdr), F.shdrs = pre ++ l →
    Stage c align S secId (fun _ => symId) (SecFits F S f) s done →
    (∀ x ∈ l, x.size ≠ 0 → ∃ d ∈ segs, d.1 ≤ F.laddr + x.addr ∧ F.laddr + x.addr + x.size ≤ d.2) →
    (l.filter full).Pairwise (fun x y => Apart (secR F x) (secR F y)) →
    (∀ x ∈ l, x.size ≠ 0 → ∀ d ∈ done, Apart d (secR F x)) →
    Room c s ((l.filter full).length + k) →
    ∃ s', defineSecs c F s pre.length l = some s' ∧
      Stage c align S secId (fun _ => symId) (SecFits F S f) s' (done ++ (l.filter full).map (secR F)) ∧
      Room c s' k
  | [], s, done, k, pre, _, hst, _, _, _, hroom => ⟨s, rfl, by simpa using hst, by simpa using hroom⟩
  | x :: l, s, done, k, pre, hpre, hst, hl, hpw, hdone, hroom => by
    unfold defineSecs
    have hpre' : F.shdrs = (pre ++ [x]) ++ l := by rw [hpre]; simp
    have hidx : F.shdrs[pre.length]? = some x := by rw [hpre]; simp
    by_cases hx : x.size = 0
    · have hx' : ¬ full x = true := by simp [full, hx]
      rw [List.filter_cons_of_neg hx'] at hpw hroom ⊢
      unfold defineSec
      rw [if_pos hx, Option.bind_some]
      have := secs_ok hS hsmall l s done k (pre ++ [x]) hpre' hst (fun q hq => hl q (List.mem_cons_of_mem _ hq)) hpw (fun q hq => hdone q (List.mem_cons_of_mem _ hq)) hroom
      rwa [List.length_append] at this
    · have hx' : full x = true := by simp [full, hx]
      rw [List.filter_cons_of_pos hx'] at hpw hroom ⊢
      rw [List.pairwise_cons] at hpw
      obtain ⟨d, hd, h1, h2⟩ := hl x List.mem_cons_self hx
      obtain ⟨hd1, hd2, g, gv, hg⟩ := hS.seg d hd
      have hgb := hg.beg
      have hgf := hg.fin
      have := hS.pos
      obtain ⟨hgl, hgb', hgf', hgp', hga', _⟩ := hst.old g hg.live
      have hno : fromRoot c s (F.laddr + x.addr) secId false = some 0 := by
        refine fromRoot_none hst.reach (by decide) ?_
        intro y hy hya hys
        by_cases hyb : Live S y
        · obtain ⟨_, e1, e2, _, e4, _⟩ := hst.old y hyb
          exact hS.noSec y (F.laddr + x.addr) hyb ⟨by rw [← e1]; exact hya.1, by rw [← e2]; exact hya.2⟩ (by omega) (by omega) (by rw [← e4]; exact hys)
        · obtain ⟨e, he, q, _, _, _, hm⟩ := hst.new y hy hyb
          have := hdone x List.mem_cons_self hx e he
          have h3 := hya.1
          have h4 := hya.2
          rw [hm.beg] at h3
          rw [hm.fin] at h4
          simp only [Apart, secR] at this
          omega
      have hseg : fromRoot c s (F.laddr + x.addr) segId false = some g := by
        refine fromRoot_unique hst.reach (by decide) hgl ⟨by omega, by omega⟩ (by rw [hga', hg.alloc]) ?_
        intro y hy hya hys
        by_cases hyb : Live S y
        · obtain ⟨_, e1, e2, _, e4, _⟩ := hst.old y hyb
          have hyS : Has S y (F.laddr + x.addr) := ⟨by rw [← e1]; exact hya.1, by rw [← e2]; exact hya.2⟩
          have hyp := hS.only y (F.laddr + x.addr) hyb hyS (by omega) (by omega) (by rw [← e4]; exact hys)
          by_cases hyg : y = g
          · exact hyg
          · have := (forest_partial hS.reach).2.2.1 y g hyb hg.live (by rw [hyp, hg.par]) hyg
            unfold Has at hyS
            omega
        · obtain ⟨e, he, q, _, _, _, hm⟩ := hst.new y hy hyb
          rw [hm.alloc] at hys
          exact absurd hys (by decide)
      obtain ⟨s1, b, e1, hst1, hroom1, _⟩ := hst.add (m := ⟨secId, 0, F.shdrPtr pre.length, 0, 0, 0⟩) (lo := F.laddr + x.addr) (sz := x.size) (p := g)
        (k := (l.filter full).length + k) rfl rfl (by omega) (by omega) (by omega)
        (by simp only [List.length_cons] at hroom; rwa [show (l.filter full).length + k + 1 = (l.filter full).length + 1 + k by omega])
        hg.live (live_ne_zero hS.reach hg.live) ⟨⟨hg.alloc, hg.par⟩, _, x, hidx, rfl, rfl⟩ ⟨by omega, by omega⟩
        (fun e he hep => absurd hep (hS.noKids e g he hg.live hg.alloc hg.par)) (fun e he => hdone x List.mem_cons_self hx e he)
      have hkey : defineSec c s F pre.length x = some (setSub s1 b symId) := by
        unfold defineSec
        rw [if_neg hx, hno, Option.bind_some, if_neg (by simp), hseg, Option.bind_some, if_neg (live_ne_zero hS.reach hg.live), e1]
        rfl
      rw [hkey, Option.bind_some]
      obtain ⟨s', e3, hst3, hroom3⟩ := secs_ok hS hsmall l (setSub s1 b symId) (secR F x :: done) k (pre ++ [x]) hpre' hst1
        (fun q hq => hl q (List.mem_cons_of_mem _ hq)) hpw.2 (by
        intro q hq hql e he
        rcases List.mem_cons.mp he with rfl | he
        · exact hpw.1 q (List.mem_filter.mpr ⟨hq, by simp [full, hql]⟩)
        · exact hdone q (List.mem_cons_of_mem _ hq) hql e he) hroom1
      rw [List.length_append] at e3
      refine ⟨s', e3, hst3.perm ?_, hroom3⟩
      intro d
      simp only [List.map_cons, List.mem_append, List.mem_cons]
      constructor
      · rintro (h | h | h)
        · exact Or.inl (Or.inr h)
        · exact Or.inl (Or.inl h)
        · exact Or.inr h
      · rintro ((h | h) | h)
        · exact Or.inr (Or.inl h)
        · exact Or.inl h
        · exact Or.inr (Or.inr h)

/-! ## C82 Loading -/

/-- A file that can be loaded: it lies in one mapping, which has nothing in it up to the file's end; its segments and its sections
are disjoint; sections lie in segments; there are enough unused slots. -/
structure LoadOk (c : Config) (s : State) (F : File) (m lo hi : Nat) : Prop where
  bounds : bounds F.phdrs = (some lo, hi)
  live : Live s m
  top : s.par m = 0
  alloc : s.alloc m = mmapId
  priv : s.priv m ≠ 0
  begins : s.beg m ≤ F.laddr + lo
  ends : F.laddr + hi ≤ s.fin m
  free : ∀ d, Live s d → s.par d = m → F.laddr + hi ≤ s.beg d
  small : F.laddr + hi - s.beg m ≤ c.maxPages * PAGE
  room : Room c s (1 + (F.phdrs.filter (fun p => p.load)).length + (F.shdrs.filter full).length)
  segPos : ∀ p ∈ F.phdrs, p.load = true → 0 < p.memsz
  segApart : (F.phdrs.filter (fun p => p.load)).Pairwise (fun p q => Apart (segR F p) (segR F q))
  data : ∀ p ∈ F.phdrs, p.load = true → F.laddr + p.vaddr = F.data → p.vaddr + p.memsz = hi
  secIn : ∀ x ∈ F.shdrs, x.size ≠ 0 → ∃ p ∈ F.phdrs, p.load = true ∧ p.vaddr ≤ x.addr ∧ x.addr + x.size ≤ p.vaddr + p.memsz
  secApart : (F.shdrs.filter full).Pairwise (fun x y => Apart (secR F x) (secR F y))

theorem mappingOf_ok {c : Config} {align : Nat → Nat} {s : State} (hr : Reach c align s) {m a : Nat} (hm : Live s m) (ht : s.par m = 0)
    (hal : s.alloc m = mmapId) (hp : s.priv m ≠ 0) (ha : Has s m a) : mappingOf c s a = some m := by
  unfold mappingOf
  rw [topLevel_unique hr hm ht ha, Option.bind_some, if_neg (live_ne_zero hr hm), if_neg hp]
  simp [assertIf, hal]

/-- The mapping found for an address is the top-level allocation there, unless there is none or it is one of the library's own pools. -/
theorem mappingOf_exact {c : Config} {align : Nat → Nat} {s : State} (hr : Reach c align s) (a : Nat)
    (hal : ∀ m, Live s m → s.par m = 0 → Has s m a → s.alloc m = mmapId) :
    ∃ r, mappingOf c s a = some r ∧
      ((r = 0 ∧ ∀ m, Live s m → s.par m = 0 → Has s m a → s.priv m = 0) ∨ (Live s r ∧ s.par r = 0 ∧ Has s r a ∧ s.priv r ≠ 0)) := by
  obtain ⟨r, e, h1⟩ := lookup_top_level hr a
  unfold mappingOf
  rw [e, Option.bind_some]
  rcases h1 with ⟨h0, h2⟩ | ⟨h2, h3, h4⟩
  · exact ⟨0, by rw [if_pos h0], Or.inl ⟨rfl, fun m hm _ ha => absurd ha (h2 m hm)⟩⟩
  · rw [if_neg (live_ne_zero hr h2)]
    have hb : (s.alloc r == mmapId) = true := by rw [hal r h2 h3 h4]; exact beq_self_eq_true _
    rw [hb]
    by_cases hp : s.priv r = 0
    · refine ⟨0, by simp [assertIf, hp], Or.inl ⟨rfl, ?_⟩⟩
      intro m hm ht ha
      have := topLevel_unique hr hm ht ha
      rw [e] at this
      rw [← Option.some.inj this]; exact hp
    · exact ⟨r, by simp [assertIf, hp], Or.inr ⟨h2, h3, h4, hp⟩⟩

/-- In a mapping that is free up to the file's end, nothing else has the addresses of the file. -/
theorem only_mapping {c : Config} {align : Nat → Nat} {s : State} (hr : Reach c align s) {m hi : Nat} (hm : Live s m) (ht : s.par m = 0)
    (hfree : ∀ d, Live s d → s.par d = m → hi ≤ s.beg d) {n a : Nat} (hn : Live s n) (hna : Has s n a) (h1 : Has s m a) (h2 : a < hi) : n = m := by
  obtain ⟨_, kids, rank, h⟩ := reach_good hr
  have hanc : Anc s m n := by
    rcases h.laminar hm hn h1 hna with h3 | h3
    · exact h3
    · cases h3 with
      | refl => exact Anc.refl
      | step h4 _ => exact absurd ht h4
  have key : ∀ {k}, Anc s m k → Live s k → k ≠ m → ∃ d, Live s d ∧ s.par d = m ∧ Anc s d k := by
    intro k hk
    induction hk with
    | refl => intro _ hne; exact absurd rfl hne
    | @step k h4 h5 ih =>
      intro hl hne
      by_cases h6 : s.par k = m
      · exact ⟨k, hl, h6, Anc.refl⟩
      · obtain ⟨d, hd1, hd2, hd3⟩ := ih (h.parLive k hl h4) h6
        exact ⟨d, hd1, hd2, Anc.step h4 hd3⟩
  by_cases hne : n = m
  · exact hne
  · obtain ⟨d, hd1, hd2, hd3⟩ := key hanc hn hne
    have := hfree d hd1 hd2
    have := (h.anc_nest hd3 hn).1
    unfold Has at hna
    omega

/-- In a list whose nonempty ranges are apart, a range has one number. -/
theorem idx_unique {α : Type} {l : List α} {r : α → Nat × Nat} (h : l.Pairwise (fun x y => (r x).1 < (r x).2 → r x ≠ r y)) {i j : Nat} {x y : α}
    (hi : l[i]? = some x) (hj : l[j]? = some y) (e : r x = r y) (hpos : (r x).1 < (r x).2) : i = j := by
  obtain ⟨hi', hi⟩ := List.getElem?_eq_some_iff.1 hi
  obtain ⟨hj', hj⟩ := List.getElem?_eq_some_iff.1 hj
  rw [List.pairwise_iff_getElem] at h
  rcases Nat.lt_trichotomy i j with h1 | h1 | h1
  · have := h i j hi' hj' h1
    rw [hi, hj] at this
    exact absurd e (this hpos)
  · exact h1
  · have := h j i hj' hi' h1
    rw [hi, hj] at this
    exact absurd e.symm (this (e ▸ hpos))

/-- A load makes one big allocation for the file, one for each loadable segment below it, and one for each non-empty section
below its segment, with the records of the file, of the segments and the headers of the sections; these have the lookups of their addresses (the
innermost the sections), and nothing else changes. Missing:
files with overlapping sections, with holes, or with something else in their mapping. -/
theorem load_partial {c : Config} {align : Nat → Nat} {s : State} {F : File} {m lo hi : Nat} (hr : Reach c align s)
    (ho : LoadOk c s F m lo hi) :
    ∃ s' f, loadFile c s F = some s' ∧ Reach c align s' ∧ ¬ Live s f ∧ Made s' m fileId F.info segId fileFree (s.beg m, F.laddr + hi) f ∧
      (∀ (i : Nat) (p : Phdr), (loads F)[i]? = some p → ∃ n, ¬ Live s n ∧ Made s' f segId (F.segPtr i) (segSub F (segR F p)) 0 (segR F p) n ∧
        ∀ a, inR (segR F p) a → (∀ x ∈ F.shdrs, ¬ inR (secR F x) a) → deepest c s' a = some n) ∧
      (∀ (i : Nat) (x : Shdr), F.shdrs[i]? = some x → x.size ≠ 0 → ∃ n g j p, ¬ Live s n ∧ Made s' g secId (F.shdrPtr i) symId 0 (secR F x) n ∧
        ¬ Live s g ∧ (loads F)[j]? = some p ∧ Made s' f segId (F.segPtr j) (segSub F (segR F p)) 0 (segR F p) g ∧
        p.vaddr ≤ x.addr ∧ x.addr + x.size ≤ p.vaddr + p.memsz ∧ ∀ a, inR (secR F x) a → deepest c s' a = some n) ∧
      (∀ a, inR (s.beg m, F.laddr + hi) a → (∀ p ∈ F.phdrs, p.load = true → ¬ inR (segR F p) a) → deepest c s' a = some f) ∧
      (∀ a, ¬ inR (s.beg m, F.laddr + hi) a → deepest c s' a = deepest c s a) ∧
      (∀ n, Live s n → Kept s s' n) ∧
      (∀ n, Live s' n → ¬ Live s n → Anc s' f n ∧ (n = f ∨ ((s'.alloc n = segId ∨ s'.alloc n = secId) ∧ s'.privFree n = 0 ∧ s'.subPrivFree n = 0))) ∧
      s'.log = s.log ∧ s'.start = s.start := by
  obtain ⟨_, kids, rank, hinv⟩ := reach_good hr
  obtain ⟨_, hb1, hb2, hb3, hb4⟩ := bounds_fold F.phdrs none 0
  have hbd := ho.bounds
  unfold bounds at hbd
  rw [hbd] at hb1 hb2 hb3 hb4
  simp only at hb1 hb2 hb3 hb4
  obtain ⟨hlo1, _, hlo2⟩ := hb1 lo rfl
  obtain ⟨p0, hp0, hp0l, hp0v⟩ : ∃ p ∈ F.phdrs, p.load = true ∧ p.vaddr = lo := by
    rcases hlo1 with h | h
    · cases h
    · exact h
  have hp0s := ho.segPos p0 hp0 hp0l
  have hp0e := hb4 p0 hp0 hp0l
  have hbeg0 := ho.live.1
  have hbegins := ho.begins
  have hends := ho.ends
  have hmm : m ≠ 0 := live_ne_zero hr ho.live
  -- the file
  have hnew : NewOk c s (s.beg m) (F.laddr + hi - s.beg m) m := by
    refine ⟨hbeg0, by omega, ho.small, ?_, fun _ => ⟨ho.live, by omega, by omega, ?_⟩, fun e => absurd e hmm⟩
    · exact Room.some (k := (F.phdrs.filter (fun p => p.load)).length + (F.shdrs.filter full).length)
        (by rw [show ∀ a b : Nat, a + b + 1 = 1 + a + b by omega]; exact ho.room)
    · intro d hd hdp
      have := ho.free d hd hdp
      omega
  obtain ⟨s1, f, q, e1, hr1, hf, hq, _, ha, hlive1, hl1, hl2⟩ := create_correct (m := ⟨fileId, 0, F.info, fileFree, 0, 0⟩) hr hnew
  obtain rfl := hq hmm
  rw [show s.beg q + (F.laddr + hi - s.beg q) = F.laddr + hi by omega] at ha hl1 hl2
  have hfl1 : Live s1 f := (hlive1 f).mpr (Or.inr rfl)
  obtain ⟨hr2, hd2⟩ := setSub_spec (v := segId) hr1 hfl1
  generalize hBdef : setSub s1 f segId = B at hr2 hd2
  have hlive2 : ∀ n, Live B n ↔ Live s n ∨ n = f := by rw [← hBdef]; exact hlive1
  have hBbeg : B.beg = upd s.beg f (s.beg q) := by rw [← hBdef]; exact ha.beg
  have hBfin : B.fin = upd s.fin f (F.laddr + hi) := by rw [← hBdef]; exact ha.fin
  have hBpar : B.par = upd s.par f q := by rw [← hBdef]; exact ha.par
  have hBalloc : B.alloc = upd s.alloc f fileId := by rw [← hBdef]; exact ha.alloc
  have hBpriv : B.priv = upd s.priv f F.info := by rw [← hBdef]; exact ha.priv
  have hfl2 : Live B f := (hlive2 f).mpr (Or.inr rfl)
  have hqf : q ≠ f := fun e => hf (e ▸ ho.live)
  have hne : ∀ n, Live s n → n ≠ f := fun n hn e => hf (e ▸ hn)
  have honly : ∀ n a, Live B n → Has B n a → s.beg q ≤ a → a < F.laddr + hi → n = f ∨ n = q := by
    intro n a hn hna h1 h2
    rcases (hlive2 n).mp hn with h3 | h3
    · right
      have hnf := hne n h3
      refine only_mapping hr ho.live ho.top ho.free h3 ?_ ⟨h1, by omega⟩ h2
      unfold Has at hna
      rw [hBbeg, hBfin, upd_ne hnf, upd_ne hnf] at hna
      exact hna
    · exact Or.inl h3
  have hBq : B.alloc q = mmapId := by rw [hBalloc, upd_ne hqf, ho.alloc]
  have hBf : B.alloc f = fileId := by rw [hBalloc, upd_same]
  have hFB : FileBase c align B f (s.beg q) (F.laddr + hi) := by
    refine ⟨hr2, hfl2, by rw [hBbeg, upd_same], by rw [hBfin, upd_same], hBf, ?_, ?_, ?_⟩
    · intro n a hn hna h1 h2 hal
      rcases honly n a hn hna h1 h2 with h3 | h3
      · exact h3
      · rw [h3, hBq] at hal
        exact absurd hal (by decide)
    · intro n a hn hna h1 h2
      rcases honly n a hn hna h1 h2 with h3 | h3
      · rw [h3, hBf]; decide
      · rw [h3, hBq]; decide
    · intro n hn hnp
      rcases (hlive2 n).mp hn with h3 | h3
      · rw [hBpar, upd_ne (hne n h3)] at hnp
        have : s.par n ≠ 0 := by rw [hnp]; exact live_ne_zero hr2 hfl2
        exact hf (hnp ▸ hinv.parLive n h3 this)
      · rw [h3, hBpar, upd_same] at hnp
        exact hqf hnp
  have hroomB : Room c B ((F.phdrs.filter (fun p => p.load)).length + (F.shdrs.filter full).length) := by
    refine Room.less (b := f) ?_ hlive2
    rw [show ∀ a b : Nat, a + b + 1 = 1 + a + b by omega]
    exact ho.room
  -- the segments
  obtain ⟨S, e2, hS, hroomS⟩ := segs_ok (F := F) hFB ho.small F.phdrs B [] _ [] rfl (Stage.nil hr2) (by
      intro p hp hpl
      have h1 := hlo2 p hp hpl
      have h2 := hb4 p hp hpl
      refine ⟨ho.segPos p hp hpl, by omega, by omega, fun hd => ?_⟩
      have := ho.data p hp hpl hd
      omega) ho.segApart (by simp) hroomB
  rw [List.nil_append] at hS
  generalize hsegs : (F.phdrs.filter (fun p => p.load)).map (segR F) = segs at hS
  have hsegmem : ∀ d, d ∈ segs ↔ ∃ p ∈ F.phdrs, p.load = true ∧ segR F p = d := by
    intro d
    rw [← hsegs]
    simp only [List.mem_map, List.mem_filter]
    constructor
    · rintro ⟨p, ⟨h1, h2⟩, h3⟩; exact ⟨p, h1, h2, h3⟩
    · rintro ⟨p, h1, h2, h3⟩; exact ⟨p, ⟨h1, h2⟩, h3⟩
  have hsegin : ∀ d ∈ segs, s.beg q ≤ d.1 ∧ d.2 ≤ F.laddr + hi := by
    intro d hd
    obtain ⟨p, hp, hpl, rfl⟩ := (hsegmem d).mp hd
    have h1 := hlo2 p hp hpl
    have h2 := hb4 p hp hpl
    simp only [segR]
    omega
  obtain ⟨hSf, hSfb, hSff, hSfp, hSfa, hSfs, hSfi, hSff1, _, hSff2⟩ := hS.old f hfl2
  obtain ⟨_, kidsS, rankS, hinvS⟩ := reach_good hS.reach
  obtain ⟨_, kidsB, rankB, hinvB⟩ := reach_good hr2
  have hSold : ∀ n a, Live S n → Has S n a → s.beg q ≤ a → a < F.laddr + hi → Live B n → n = f ∨ n = q := by
    intro n a hn hna h1 h2 hnB
    obtain ⟨_, g1, g2, _, _, _⟩ := hS.old n hnB
    exact honly n a hnB ⟨by rw [← g1]; exact hna.1, by rw [← g2]; exact hna.2⟩ h1 h2
  have hSq : S.alloc q = mmapId := by rw [(hS.old q ((hlive2 q).mpr (Or.inl ho.live))).alloc, hBq]
  have hSB : SegBase c align S F f (s.beg q) (F.laddr + hi) segs := by
    refine ⟨hS.reach, hbeg0, ?_, ?_, ?_, ?_⟩
    · intro d hd
      obtain ⟨n, hn, ⟨p, v, ⟨hp, _⟩, _, hmd⟩, _⟩ := hS.made d hd
      subst hp
      exact ⟨(hsegin d hd).1, (hsegin d hd).2, n, v, hmd⟩
    · intro n a hn hna h1 h2 hal
      by_cases hnB : Live B n
      · rcases hSold n a hn hna h1 h2 hnB with h3 | h3
        · rw [h3, hSfa, hBf] at hal; exact absurd hal (by decide)
        · rw [h3, hSq] at hal; exact absurd hal (by decide)
      · obtain ⟨d, _, p, _, ⟨hp, _⟩, _, hmd⟩ := hS.new n hn hnB
        rw [hmd.par, hp]
    · intro n a hn hna h1 h2
      by_cases hnB : Live B n
      · rcases hSold n a hn hna h1 h2 hnB with h3 | h3
        · rw [h3, hSfa, hBf]; decide
        · rw [h3, hSq]; decide
      · obtain ⟨d, _, p, _, _, _, hmd⟩ := hS.new n hn hnB
        rw [hmd.alloc]; decide
    · intro n p hn hp hpa hpp hnp
      have hpB : ¬ Live B p := by
        intro hpB
        obtain ⟨_, _, _, g3, _, _⟩ := hS.old p hpB
        rw [g3] at hpp
        exact hFB.noKids p hpB hpp
      by_cases hnB : Live B n
      · obtain ⟨_, _, _, g3, _, _⟩ := hS.old n hnB
        rw [g3] at hnp
        have : B.par n ≠ 0 := by rw [hnp]; exact live_ne_zero hS.reach hp
        exact hpB (hnp ▸ hinvB.parLive n hnB this)
      · obtain ⟨d, _, p', _, ⟨hp', _⟩, _, hmd⟩ := hS.new n hn hnB
        rw [hmd.par] at hnp
        rw [← hnp, hp'] at hpB
        exact hpB hfl2
  -- the sections
  obtain ⟨s', e3, hT, _⟩ := secs_ok (F := F) hSB ho.small F.shdrs S [] 0 [] rfl (Stage.nil hS.reach) (by
      intro x hx hxs
      obtain ⟨p, hp, hpl, h1, h2⟩ := ho.secIn x hx hxs
      refine ⟨segR F p, (hsegmem _).mpr ⟨p, hp, hpl, rfl⟩, ?_, ?_⟩ <;> simp only [segR] <;> omega) ho.secApart (by simp) hroomS
  rw [List.nil_append] at hT
  generalize hsecs : (F.shdrs.filter full).map (secR F) = secs at hT
  have hsecmem : ∀ d, d ∈ secs ↔ ∃ x ∈ F.shdrs, x.size ≠ 0 ∧ secR F x = d := by
    intro d
    rw [← hsecs]
    simp only [List.mem_map, List.mem_filter, full, decide_eq_true_eq]
    constructor
    · rintro ⟨p, ⟨h1, h2⟩, h3⟩; exact ⟨p, h1, h2, h3⟩
    · rintro ⟨p, h1, h2, h3⟩; exact ⟨p, ⟨h1, h2⟩, h3⟩
  have hsecseg : ∀ d ∈ secs, ∃ e ∈ segs, e.1 ≤ d.1 ∧ d.2 ≤ e.2 := by
    intro d hd
    obtain ⟨x, hx, hxs, rfl⟩ := (hsecmem d).mp hd
    obtain ⟨p, hp, hpl, h1, h2⟩ := ho.secIn x hx hxs
    refine ⟨segR F p, (hsegmem _).mpr ⟨p, hp, hpl, rfl⟩, ?_, ?_⟩ <;> simp only [segR, secR] <;> omega
  have hload : loadFile c s F = some s' := by
    unfold loadFile
    have hbnd := ho.bounds
    rw [hbnd]
    simp only
    rw [mappingOf_ok hr ho.live ho.top ho.alloc ho.priv ⟨by omega, by omega⟩, Option.bind_some,
      mappingOf_ok hr ho.live ho.top ho.alloc ho.priv ⟨by omega, by omega⟩, Option.bind_some, if_neg (by omega), if_pos rfl, Option.bind_some,
      e1, Option.bind_some]
    simp only
    rw [hBdef]
    rw [List.filter_nil, List.length_nil] at e2
    rw [e2, Option.bind_some]
    exact e3
  obtain ⟨hTf, hTfb, hTff, hTfp, hTfa, hTfs, hTfi, hTff1, _, hTff2⟩ := hT.old f hSf
  have hmadef : Made s' q fileId F.info segId fileFree (s.beg q, F.laddr + hi) f :=
    ⟨hTf, by rw [hTfb, hSfb, hFB.beg], by rw [hTff, hSff, hFB.fin], by rw [hTfa, hSfa, hBf], by rw [hTfp, hSfp, hBpar, upd_same],
      by rw [hTfs, hSfs, ← hBdef]; exact upd_same _ _ _, by rw [hTff1, hSff1, ← hBdef]; show s1.privFree f = _; rw [ha.privFree, upd_same],
      by rw [hTff2, hSff2, ← hBdef]; show s1.subPrivFree f = _; rw [ha.subPrivFree, upd_same],
      by rw [hTfi, hSfi, hBpriv, upd_same]⟩
  have hnotsec : ∀ a, (∀ d ∈ segs, ¬ (d.1 ≤ a ∧ a < d.2)) → ∀ d ∈ secs, ¬ (d.1 ≤ a ∧ a < d.2) := by
    intro a h1 d hd h2
    obtain ⟨e, he, h3, h4⟩ := hsecseg d hd
    exact h1 e he ⟨by omega, by omega⟩
  have hmemL : ∀ {i : Nat} {p}, (loads F)[i]? = some p → p ∈ F.phdrs ∧ p.load = true := by
    intro i p h
    have := List.mem_of_getElem? h
    unfold loads at this
    exact List.mem_filter.1 this
  have hidxL : ∀ {i j : Nat} {p q}, (loads F)[i]? = some p → (loads F)[j]? = some q → segR F p = segR F q → i = j := by
    intro i j p q hi hj e
    have hpos := ho.segPos p (hmemL hi).1 (hmemL hi).2
    refine idx_unique (r := segR F) (ho.segApart.imp ?_) hi hj e (by simp only [segR]; omega)
    intro x y hxy hlt e
    rw [← e] at hxy
    unfold Apart at hxy
    omega
  refine ⟨s', f, hload, hT.reach, hf, hmadef, ?_, ?_, ?_, ?_, ?_, ?_, ?_, ?_⟩
  · intro i p hip
    obtain ⟨hp, hpl⟩ := hmemL hip
    obtain ⟨n, hn, ⟨x, v, ⟨hx, i', p', hip', e', rfl⟩, _, hmd⟩, hlk⟩ := hS.made (segR F p) ((hsegmem _).mpr ⟨p, hp, hpl, rfl⟩)
    subst hx
    have hii : i' = i := (hidxL hip hip' e'.symm).symm
    subst hii
    refine ⟨n, fun hns => hn ((hlive2 n).mpr (Or.inl hns)), hmd.kept (hT.old n hmd.live), ?_⟩
    intro a haseg hasec
    rw [hT.look a (by
      intro d hd
      obtain ⟨y, hy, _, rfl⟩ := (hsecmem d).mp hd
      exact hasec y hy)]
    exact hlk a haseg.1 haseg.2
  · intro i x hix hxs
    have hx : x ∈ F.shdrs := List.mem_of_getElem? hix
    obtain ⟨n, hn, ⟨g, v, ⟨⟨hga, hgp⟩, i', x', hix', e', rfl⟩, hgl, hmd⟩, hlk⟩ := hT.made (secR F x) ((hsecmem _).mpr ⟨x, hx, hxs, rfl⟩)
    have hii : i' = i := by
      refine (idx_unique (r := secR F) ?_ hix hix' e'.symm (by simp only [secR]; omega)).symm
      have := List.pairwise_filter.1 ho.secApart
      refine this.imp ?_
      intro y z hyz hlt e
      have h1 : full y = true := by simp only [secR] at hlt; simp only [full, decide_eq_true_eq]; omega
      have h2 : full z = true := by
        simp only [secR] at hlt
        have : y.size = z.size := by
          have e1 := congrArg Prod.fst e
          have e2 := congrArg Prod.snd e
          simp only [secR] at e1 e2
          omega
        simp only [full, decide_eq_true_eq]; omega
      have := hyz h1 h2
      rw [← e] at this
      unfold Apart at this
      omega
    subst hii
    have hnB : ∀ n, Live s n → Live S n := fun n hns => (hS.old n ((hlive2 n).mpr (Or.inl hns))).1
    have hgB : ¬ Live B g := by
      intro hgB
      rw [(hS.old g hgB).par] at hgp
      exact hFB.noKids g hgB hgp
    obtain ⟨d, hd, f', _, ⟨hf', j, p, hjp, hpd, rfl⟩, _, hgm⟩ := hS.new g hgl hgB
    subst hf' hpd
    have hgm' := hgm.kept (hT.old g hgl)
    obtain ⟨_, _, _, hinv'⟩ := reach_good hT.reach
    have hnest := hinv'.nest n hmd.live (by rw [hmd.par]; exact live_ne_zero hS.reach hgl)
    rw [hmd.par, hmd.beg, hmd.fin, hgm'.beg, hgm'.fin] at hnest
    simp only [segR, secR] at hnest
    exact ⟨n, g, j, p, fun hns => hn (hnB n hns), hmd, fun hgs => hgB ((hlive2 g).mpr (Or.inl hgs)), hjp, hgm', by omega, by omega,
      fun a h => hlk a h.1 h.2⟩
  · intro a hain hano
    have hano' : ∀ d ∈ segs, ¬ (d.1 ≤ a ∧ a < d.2) := by
      intro d hd
      obtain ⟨p, hp, hpl, rfl⟩ := (hsegmem d).mp hd
      exact hano p hp hpl
    rw [hT.look a (hnotsec a hano'), hS.look a hano', hd2, hl1 a hain.1 hain.2]
  · intro a hnot
    have hano' : ∀ d ∈ segs, ¬ (d.1 ≤ a ∧ a < d.2) := by
      intro d hd hda
      have := hsegin d hd
      exact hnot ⟨by simp only; omega, by simp only; omega⟩
    rw [hT.look a (hnotsec a hano'), hS.look a hano', hd2, hl2 a hnot]
  · intro n hn
    have hk := added_kept (v := segId) ha hlive1 hf hn
    rw [hBdef] at hk
    exact (hk.trans (hS.old n hk.live)).trans (hT.old n (hS.old n hk.live).live)
  · intro n hn hns
    have hf0 : f ≠ 0 := live_ne_zero hr2 hfl2
    by_cases hnS : Live S n
    · by_cases hnB : Live B n
      · rcases (hlive2 n).mp hnB with h | h
        · exact absurd h hns
        · rw [h]; exact ⟨Anc.refl, Or.inl rfl⟩
      · obtain ⟨d, _, p, _, ⟨hp, _⟩, _, hmd⟩ := hS.new n hnS hnB
        subst hp
        have hmd := hmd.kept (hT.old n hnS)
        have hpar : s'.par n = p := hmd.par
        exact ⟨Anc.step (by rw [hpar]; exact hf0) (by rw [hpar]; exact Anc.refl), Or.inr ⟨Or.inl hmd.alloc, hmd.privFree, hmd.subPrivFree⟩⟩
    · obtain ⟨d, _, p, _, ⟨⟨hpa, hpp⟩, _⟩, hpl, hmd⟩ := hT.new n hn hnS
      obtain ⟨_, _, _, k4, _, _⟩ := hT.old p hpl
      have h1 : s'.par p = f := by rw [k4, hpp]
      have hp0 : p ≠ 0 := live_ne_zero hS.reach hpl
      exact ⟨Anc.step (by rw [hmd.par]; exact hp0) (by rw [hmd.par]; exact Anc.step (by rw [h1]; exact hf0) (by rw [h1]; exact Anc.refl)),
        Or.inr ⟨Or.inr hmd.alloc, hmd.privFree, hmd.subPrivFree⟩⟩
  · rw [hT.log, hS.log, ← hBdef]
    exact ha.log
  · rw [hT.start, hS.start, ← hBdef]
    exact ha.start

end Liballocs.FileLoad
