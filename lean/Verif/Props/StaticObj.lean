import Verif.Model.StaticObj
import Verif.Props.FileLoad
import Verif.Props.FileUnload
import Verif.Props.MetavecBuild
import Verif.Props.SegMeta
import Verif.Props.Query
/-!
# C150: queries of static objects, from the tool that describes them to the answers
-/
namespace Liballocs.StaticObj

open PageIndex
open FileLoad (mmapId fileId segId secId symId Made Kept LoadOk segR secR inR segSub loads Apart live_ne_zero NoNest IsFile)
open MetavecBuild (Static GRec Word Ordered Described Refers Inside)

/-! ## Specification -/

/-- An address (not yet relocated) that belongs to the symbols: in a section, or in the data segment. -/
def Covered (F : FileLoad.File) (p : FileLoad.Phdr) (x : Nat) : Prop :=
  (∃ y ∈ F.shdrs, y.addr ≤ x ∧ x < y.addr + y.size) ∨ F.laddr + p.vaddr = F.data

/-- The table that a segment should have: that of the records that begin in it; none for a file that is not early. -/
def Bin.due (b : Bin) (p : FileLoad.Phdr) : List Word :=
  match b.early, b.recs with
  | true, some recs => MetavecBuild.segment p.vaddr (p.vaddr + p.memsz) recs
  | _, _ => []

/-- The records of a file, its segments' among them, are not where those of another are. -/
structure RecsApart (b b' : Bin) : Prop where
  info : b'.file.info ≠ b.file.info
  words : ∀ o, o < b'.recLen → ¬ (b.file.info ≤ b'.file.info + o ∧ b'.file.info + o < b.file.info + b.recLen)
  segs : ∀ i j, i < (loads b.file).length → j < (loads b'.file).length → b.file.segPtr i ≠ b'.file.segPtr j

/-- What the load of a file needs besides memory: distinct records for its segments, and addresses below 4 GiB. -/
structure BinOk (b : Bin) : Prop where
  ptrs : ∀ i j, i < (loads b.file).length → j < (loads b.file).length → b.file.segPtr i = b.file.segPtr j → i = j
  low : ∀ p ∈ b.file.phdrs, p.vaddr < 2 ^ 32

/-- Other changes of the page index and of memory: files, segments and sections are kept, and so are the lookups that give segments and sections. -/
structure Quiet (c : Config) (align : Nat → Nat) (w w' : World) (bs : List Bin) : Prop where
  reach : Reach c align w'.pi
  kept : ∀ n, Live w.pi n → (w.pi.alloc n = fileId ∨ w.pi.alloc n = segId ∨ w.pi.alloc n = secId) → Kept w.pi w'.pi n
  look : ∀ a n, deepest c w.pi a = some n → Live w.pi n → (w.pi.alloc n = segId ∨ w.pi.alloc n = secId) → deepest c w'.pi a = some n
  seg : w'.seg = w.seg
  file : w'.file = w.file
  mem : ∀ b ∈ bs, ∀ o, o < b.recLen → w'.mem (b.file.info + o) = w.mem (b.file.info + o)

/-- Histories: loads and unloads of files, and other changes between them. -/
inductive Run (c : Config) (align : Nat → Nat) : World → List Bin → Prop
  | start {w : World} : Reach c align w.pi → Run c align w []
  | load {w w' : World} {bs : List Bin} {b : Bin} {m lo hi : Nat} : Run c align w bs → LoadOk c w.pi b.file m lo hi → BinOk b →
      (∀ b' ∈ bs, RecsApart b b') → load c w b = some w' → Run c align w' (b :: bs)
  | unload {w w' : World} {bs : List Bin} {nameOf : Nat → Nat} {name : Nat} : Run c align w bs → NoNest w.pi → w.pi.alloc w.pi.start ≠ fileId →
      unload c nameOf name w = some w' → Run c align w' (bs.filter fun b => decide (nameOf b.file.info ≠ name))
  | other {w w' : World} {bs : List Bin} : Run c align w bs → Quiet c align w w' bs → Run c align w' bs

/-! ## The tables that the segments' records have -/

theorem filter_zip (l : List SegMeta.Phdr) (is : List Nat) (h : is.length = l.length) :
    ((is.zip l).filter (fun x => x.2.load)).map Prod.snd = l.filter (fun p => p.load) := by
  induction l generalizing is with
  | nil => simp
  | cons p l ih =>
    cases is with
    | nil => simp at h
    | cons i is =>
      simp only [List.length_cons, Nat.add_right_cancel_iff] at h
      have := ih is h
      by_cases hp : p.load = true
      · simp [hp, this]
      · simp [hp, this]

theorem loads_snd (b : Bin) : (SegMeta.loads b.phdrs).map Prod.snd = (loads b.file).map (fun p => ⟨p.load, p.vaddr⟩) := by
  unfold SegMeta.loads
  rw [filter_zip _ _ (by simp)]
  unfold Bin.phdrs loads
  rw [List.filter_map]
  rfl

/-- The number of a table given to a segment. -/
def Bin.dueVec (b : Bin) (v : Nat) : Option Nat :=
  match b.early, b.recs with
  | true, some _ => some v
  | _, _ => none

theorem segs_spec (b : Bin) (hlow : ∀ p ∈ b.file.phdrs, p.vaddr < 2 ^ 32) :
    ∃ f, b.segs = some f ∧ f.segs.map (·.vec) = (loads b.file).map (fun p => b.dueVec p.vaddr) := by
  have hl := loads_snd b
  have key : ∀ (v : Nat → Option Nat) (f : SegMeta.File), f.segs = (SegMeta.loads b.phdrs).map (fun x => ⟨x.1, v x.2.vaddr⟩) →
      f.segs.map (·.vec) = (loads b.file).map (fun p => v p.vaddr) := by
    intro v f hf
    rw [hf, List.map_map]
    have h1 : (SegMeta.loads b.phdrs).map ((fun s : SegMeta.Seg => s.vec) ∘ fun x : Nat × SegMeta.Phdr => ⟨x.1, v x.2.vaddr⟩) =
        ((SegMeta.loads b.phdrs).map Prod.snd).map (fun q => v q.vaddr) := by
      rw [List.map_map]; rfl
    rw [h1, hl, List.map_map]
    rfl
  unfold Bin.segs Bin.metaObj Bin.dueVec
  cases he : b.early with
  | true =>
    cases hr : b.recs with
    | some recs =>
      obtain ⟨f, h1, h2⟩ := SegMeta.early_own_partial id b.phdrs (by
        intro p hp
        unfold Bin.phdrs at hp
        obtain ⟨q, hq, rfl⟩ := List.mem_map.1 hp
        exact hlow q hq)
      exact ⟨f, h1, key (fun v => some v) f h2⟩
    | none =>
      obtain ⟨f, h1, h2⟩ := SegMeta.early_missing b.phdrs
      exact ⟨f, h1, key (fun _ => none) f h2⟩
  | false =>
    obtain ⟨f, h1, _, h2⟩ := SegMeta.late_fails b.phdrs (b.recs.map (fun _ => SegMeta.make id b.phdrs))
    exact ⟨f, h1, key (fun _ => none) f h2⟩

theorem table_own {c : Config} {s : State} {b : Bin} {m lo hi : Nat} (ho : LoadOk c s b.file m lo hi) (recs : List (Nat × GRec)) {i : Nat}
    {p : FileLoad.Phdr} (hp : (loads b.file)[i]? = some p) : b.table recs p.vaddr = MetavecBuild.segment p.vaddr (p.vaddr + p.memsz) recs := by
  have hpm := List.mem_of_getElem? hp
  unfold loads at hpm
  obtain ⟨hpm, hpl⟩ := List.mem_filter.1 hpm
  unfold Bin.table
  cases hf : b.file.phdrs.find? (fun q => q.load && decide (q.vaddr = p.vaddr)) with
  | none =>
    have := List.find?_eq_none.1 hf p hpm
    simp [hpl] at this
  | some q =>
    have hq := List.find?_some hf
    have hqm := List.mem_of_find?_eq_some hf
    simp only [Bool.and_eq_true, decide_eq_true_eq] at hq
    have hql : q ∈ loads b.file := by unfold loads; exact List.mem_filter.2 ⟨hqm, hq.1⟩
    obtain ⟨j, hj⟩ := List.getElem?_of_mem hql
    have h1 := ho.segPos p hpm hpl
    have h2 := ho.segPos q hqm hq.1
    have hij : i = j := by
      obtain ⟨hi', hi⟩ := List.getElem?_eq_some_iff.1 hp
      obtain ⟨hj', hj⟩ := List.getElem?_eq_some_iff.1 hj
      have hpw := ho.segApart
      rw [List.pairwise_iff_getElem] at hpw
      have bad : ∀ x y : FileLoad.Phdr, x.vaddr = y.vaddr → 0 < x.memsz → 0 < y.memsz → ¬ Apart (segR b.file x) (segR b.file y) := by
        intro x y e h1 h2 h
        simp only [Apart, segR] at h
        omega
      rcases Nat.lt_trichotomy i j with h | h | h
      · have := hpw i j hi' hj' h
        unfold loads at hi hj
        rw [hi, hj] at this
        exact absurd this (bad p q hq.2.symm h1 h2)
      · exact h
      · have := hpw j i hj' hi' h
        unfold loads at hi hj
        rw [hi, hj] at this
        exact absurd this (bad q p hq.2 h2 h1)
    subst hij
    rw [hp] at hj
    rw [Option.some.inj hj]

/-! ## What holds of a loaded file for as long as it is loaded -/

structure Settled (c : Config) (w : World) (b : Bin) (f : Nat) : Prop where
  live : Live w.pi f
  alloc : w.pi.alloc f = fileId
  priv : w.pi.priv f = b.file.info
  file : w.file b.file.info = some ⟨b.file.laddr, b.tabs⟩
  mem : ∀ o, o < b.recLen → w.mem (b.file.info + o) = b.words o
  seg : ∀ (i : Nat) (p : FileLoad.Phdr), (loads b.file)[i]? = some p →
    ∃ g, Made w.pi f segId (b.file.segPtr i) (segSub b.file (segR b.file p)) 0 (segR b.file p) g ∧ w.seg (b.file.segPtr i) = b.due p ∧
      ∀ x, p.vaddr ≤ x → x < p.vaddr + p.memsz →
        ∃ n, deepest c w.pi (b.file.laddr + x) = some n ∧ Live w.pi n ∧
          ((n = g ∧ ¬ ∃ y ∈ b.file.shdrs, y.addr ≤ x ∧ x < y.addr + y.size) ∨
           (w.pi.alloc n = secId ∧ w.pi.par n = g ∧ w.pi.sub n = symId ∧ ∃ y ∈ b.file.shdrs, y.addr ≤ x ∧ x < y.addr + y.size))

/-- The big allocations of a file: its own, its segments' and its sections'. -/
def Of (s : State) (f n : Nat) : Prop :=
  (n = f ∧ s.alloc n = fileId) ∨ (s.par n = f ∧ s.alloc n = segId) ∨
    (∃ g, s.par n = g ∧ s.par g = f ∧ Live s g ∧ s.alloc g = segId ∧ s.alloc n = secId)

theorem Settled.step_of {c : Config} {w w' : World} {b : Bin} {f : Nat} (h : Settled c w b f)
    (hkept : ∀ n, Live w.pi n → Of w.pi f n → Kept w.pi w'.pi n)
    (hlook : ∀ a n, deepest c w.pi a = some n → Live w.pi n → Of w.pi f n → w.pi.alloc n ≠ fileId → deepest c w'.pi a = some n)
    (hseg : ∀ i, i < (loads b.file).length → w'.seg (b.file.segPtr i) = w.seg (b.file.segPtr i))
    (hfile : w'.file b.file.info = w.file b.file.info)
    (hmem : ∀ o, o < b.recLen → w'.mem (b.file.info + o) = w.mem (b.file.info + o)) : Settled c w' b f := by
  have hk := hkept f h.live (Or.inl ⟨rfl, h.alloc⟩)
  refine ⟨hk.live, by rw [hk.alloc, h.alloc], by rw [hk.priv, h.priv], by rw [hfile, h.file], fun o ho => by rw [hmem o ho, h.mem o ho], ?_⟩
  intro i p hp
  obtain ⟨g, hg, ht, hx⟩ := h.seg i p hp
  refine ⟨g, hg.kept (hkept g hg.live (Or.inr (Or.inl ⟨hg.par, hg.alloc⟩))), ?_, ?_⟩
  · rw [hseg i (List.getElem?_eq_some_iff.1 hp).1, ht]
  · intro x h1 h2
    obtain ⟨n, hn, hnl, hc⟩ := hx x h1 h2
    have hna : Of w.pi f n ∧ w.pi.alloc n ≠ fileId := by
      rcases hc with ⟨rfl, _⟩ | ⟨ha, hp, _⟩
      · exact ⟨Or.inr (Or.inl ⟨hg.par, hg.alloc⟩), by rw [hg.alloc]; decide⟩
      · exact ⟨Or.inr (Or.inr ⟨g, hp, hg.par, hg.live, hg.alloc, ha⟩), by rw [ha]; decide⟩
    have hnk := hkept n hnl hna.1
    refine ⟨n, hlook _ n hn hnl hna.1 hna.2, hnk.live, ?_⟩
    rcases hc with hc | ⟨ha, hp, hs, hy⟩
    · exact Or.inl hc
    · exact Or.inr ⟨by rw [hnk.alloc, ha], by rw [hnk.par, hp], by rw [hnk.sub, hs], hy⟩

theorem Settled.step {c : Config} {w w' : World} {b : Bin} {f : Nat} (h : Settled c w b f)
    (hkept : ∀ n, Live w.pi n → (w.pi.alloc n = fileId ∨ w.pi.alloc n = segId ∨ w.pi.alloc n = secId) → Kept w.pi w'.pi n)
    (hlook : ∀ a n, deepest c w.pi a = some n → Live w.pi n → (w.pi.alloc n = segId ∨ w.pi.alloc n = secId) → deepest c w'.pi a = some n)
    (hseg : ∀ i, i < (loads b.file).length → w'.seg (b.file.segPtr i) = w.seg (b.file.segPtr i))
    (hfile : w'.file b.file.info = w.file b.file.info)
    (hmem : ∀ o, o < b.recLen → w'.mem (b.file.info + o) = w.mem (b.file.info + o)) : Settled c w' b f := by
  refine h.step_of (fun n hn ho => hkept n hn ?_) (fun a n hd hn ho hne => hlook a n hd hn ?_) hseg hfile hmem
  · rcases ho with ⟨_, ha⟩ | ⟨_, ha⟩ | ⟨_, _, _, _, _, ha⟩
    · exact Or.inl ha
    · exact Or.inr (Or.inl ha)
    · exact Or.inr (Or.inr ha)
  · rcases ho with ⟨_, ha⟩ | ⟨_, ha⟩ | ⟨_, _, _, _, _, ha⟩
    · exact absurd ha hne
    · exact Or.inl ha
    · exact Or.inr ha

/-- An unload that meets its conditions succeeds, and the files of other names are as they should be after it too. -/
theorem unload_settles {c : Config} {align : Nat → Nat} {w : World} {nameOf : Nat → Nat} {name : Nat} (hr : Reach c align w.pi) (hnn : NoNest w.pi)
    (hst : w.pi.alloc w.pi.start ≠ fileId) : ∃ w', unload c nameOf name w = some w' ∧ Reach c align w'.pi ∧
      ∀ b f, Settled c w b f → nameOf b.file.info ≠ name → Settled c w' b f := by
  obtain ⟨s', order, e, hr', _, hord, _, hlive, hkept, _, _, hlook⟩ := FileLoad.unload_partial (nameOf := nameOf) (name := name) hr hnn hst
  refine ⟨{ w with pi := s' }, by unfold unload; rw [e], hr', ?_⟩
  intro b f hs hne
  obtain ⟨_, kids, rank, hinv⟩ := reach_good hr
  have hnot : ∀ n, Of w.pi f n → ∀ b', IsFile w.pi nameOf name b' → ¬ Anc w.pi b' n := by
    intro n ho b' hb' ha
    have hf : ¬ Anc w.pi b' f := by
      intro ha'
      have := hnn b' f hb'.1 hs.live hb'.2.1 hs.alloc ha'
      subst this
      exact hne (by rw [← hs.priv]; exact hb'.2.2)
    have hg : ∀ g, w.pi.par g = f → w.pi.alloc g = segId → ¬ Anc w.pi b' g := by
      intro g hp hal ha'
      cases ha' with
      | refl => rw [hb'.2.1] at hal; exact absurd hal (by decide)
      | step _ h2 => rw [hp] at h2; exact hf h2
    rcases ho with ⟨rfl, _⟩ | ⟨hp, hal⟩ | ⟨g, hp, hp2, _, hal, hal2⟩
    · exact hf ha
    · exact hg n hp hal ha
    · cases ha with
      | refl => rw [hb'.2.1] at hal2; exact absurd hal2 (by decide)
      | step _ h2 => rw [hp] at h2; exact hg g hp2 hal h2
  refine hs.step_of ?_ ?_ (fun _ _ => rfl) rfl (fun _ _ => rfl)
  · intro n hn ho
    refine hkept n ((hlive n).2 ⟨hn, fun hin => ?_⟩)
    obtain ⟨_, b', hb', ha⟩ := (hord n).1 hin
    exact hnot n ho b' hb' ha
  · intro a n hd hn ho _
    rw [← hd]
    refine hlook a (fun b' hb' hh => ?_)
    rcases (hinv.deepest_iff a n).1 hd with ⟨h0, _⟩ | ⟨_, _, hmin⟩
    · exact live_ne_zero hr hn h0
    · exact hnot n ho b' hb' (hmin b' hb'.1 hh)

theorem segNum_iff {F : FileLoad.File} {n p i : Nat} (hinj : ∀ i j, i < n → j < n → F.segPtr i = F.segPtr j → i = j) :
    segNum F n p = some i ↔ i < n ∧ F.segPtr i = p := by
  unfold segNum
  constructor
  · intro h
    have h1 := List.find?_some h
    have h2 := List.mem_of_find?_eq_some h
    simp only [decide_eq_true_eq] at h1
    exact ⟨List.mem_range.1 h2, h1⟩
  · rintro ⟨h1, h2⟩
    cases h : (List.range n).find? (fun i => decide (F.segPtr i = p)) with
    | none =>
      have := List.find?_eq_none.1 h i (List.mem_range.2 h1)
      simp [h2] at this
    | some j =>
      have h3 := List.find?_some h
      have h4 := List.mem_of_find?_eq_some h
      simp only [decide_eq_true_eq] at h3
      rw [hinj j i (List.mem_range.1 h4) h1 (by rw [h3, h2])]

/-- A load that meets its conditions succeeds; the file is as it should be, and those loaded before stay so. -/
theorem load_settles {c : Config} {align : Nat → Nat} {w : World} {b : Bin} {m lo hi : Nat} (hr : Reach c align w.pi)
    (ho : LoadOk c w.pi b.file m lo hi) (hb : BinOk b) :
    ∃ w' f, load c w b = some w' ∧ Reach c align w'.pi ∧ Settled c w' b f ∧
      ∀ b' f', Settled c w b' f' → RecsApart b b' → Settled c w' b' f' := by
  obtain ⟨s', f, e, hr', hf, hmf, hsegs, hsecs, _, hlook, hkept, hnew, _, _⟩ := FileLoad.load_partial hr ho
  obtain ⟨sf, es, hvec⟩ := segs_spec b hb.low
  have hlen : sf.segs.length = (loads b.file).length := by
    have := congrArg List.length hvec
    simpa using this
  have hinj : ∀ i j, i < sf.segs.length → j < sf.segs.length → b.file.segPtr i = b.file.segPtr j → i = j := by
    rw [hlen]; exact hb.ptrs
  refine ⟨_, f, by unfold load; rw [e, es], hr', ⟨hmf.live, hmf.alloc, hmf.priv, by simp, ?_, ?_⟩, ?_⟩
  · intro o ho
    simp only
    rw [if_pos ⟨by omega, by omega⟩]
    congr 1
    omega
  · intro i p hp
    obtain ⟨g, _, hg, hgl⟩ := hsegs i p hp
    have hil : i < sf.segs.length := by rw [hlen]; exact (List.getElem?_eq_some_iff.1 hp).1
    refine ⟨g, hg, ?_, ?_⟩
    · show segAfter b sf.segs w.seg (b.file.segPtr i) = _
      unfold segAfter
      rw [(segNum_iff hinj).2 ⟨hil, rfl⟩]
      simp only
      rw [List.getElem?_eq_getElem hil]
      simp only
      have h1 : sf.segs[i].vec = b.dueVec p.vaddr := by
        have := congrArg (fun l => l[i]?) hvec
        simp only [List.getElem?_map, hp, List.getElem?_eq_getElem hil, Option.map_some] at this
        exact Option.some.inj this
      unfold Bin.tableOf Bin.due
      rw [h1]
      unfold Bin.dueVec
      cases he : b.early with
      | false => rfl
      | true =>
        cases hr : b.recs with
        | none => rfl
        | some recs => exact table_own ho recs hp
    · intro x h1 h2
      by_cases hy : ∃ y ∈ b.file.shdrs, y.addr ≤ x ∧ x < y.addr + y.size
      · obtain ⟨y, hy, hy1, hy2⟩ := hy
        obtain ⟨k, hk⟩ := List.getElem?_of_mem hy
        obtain ⟨n, g', j, p', _, hn, _, hj, hg', hp1, hp2, hl⟩ := hsecs k y hk (by omega)
        have hgg : g' = g := by
          by_cases hne : g' = g
          · exact hne
          · have := (forest_partial hr').2.2.1 g' g hg'.live hg.live (by rw [hg'.par, hg.par]) hne
            rw [hg'.beg, hg'.fin, hg.beg, hg.fin] at this
            simp only [segR] at this
            omega
        subst hgg
        refine ⟨n, hl _ ⟨by simp only [secR]; omega, by simp only [secR]; omega⟩, hn.live, Or.inr ⟨hn.alloc, hn.par, hn.sub, y, hy, hy1, hy2⟩⟩
      · refine ⟨g, hgl _ ⟨by simp only [segR]; omega, by simp only [segR]; omega⟩ ?_, hg.live, Or.inl ⟨rfl, hy⟩⟩
        intro y hy' hin
        simp only [inR, secR] at hin
        exact hy ⟨y, hy', by omega, by omega⟩
  · intro b' f' hs hap
    refine hs.step (fun n hn _ => hkept n hn) ?_ ?_ ?_ ?_
    · intro a n hn hnl hna
      rw [← hn]
      refine hlook a ?_
      intro hin
      obtain ⟨_, kids, rank, hinv⟩ := reach_good hr
      rcases (hinv.deepest_iff a n).1 hn with ⟨h0, _⟩ | ⟨_, hh, _⟩
      · exact live_ne_zero hr hnl h0
      · have hends := ho.ends
        have hin1 : w.pi.beg m ≤ a := hin.1
        have hin2 : a < b.file.laddr + hi := hin.2
        have := FileLoad.only_mapping hr ho.live ho.top ho.free hnl hh ⟨hin1, by omega⟩ hin2
        rw [this, ho.alloc] at hna
        rcases hna with hna | hna <;> exact absurd hna (by decide)
    · intro i hi'
      show segAfter b sf.segs w.seg (b'.file.segPtr i) = _
      unfold segAfter
      cases hnum : segNum b.file sf.segs.length (b'.file.segPtr i) with
      | none => rfl
      | some j =>
        obtain ⟨h1, h2⟩ := (segNum_iff hinj).1 hnum
        exact absurd h2 (hap.segs j i (by rw [← hlen]; exact h1) hi')
    · simp only
      rw [if_neg hap.info]
    · intro o ho'
      simp only
      rw [if_neg (hap.words o ho')]

/-- In every history, every file that has been loaded is as it should be. -/
theorem run_settled {c : Config} {align : Nat → Nat} {w : World} {bs : List Bin} (h : Run c align w bs) :
    Reach c align w.pi ∧ ∀ b ∈ bs, ∃ f, Settled c w b f := by
  induction h with
  | start hr => exact ⟨hr, by simp⟩
  | @load w w' bs b m lo hi _ ho hb hap e ih =>
    obtain ⟨hr, hs⟩ := ih
    obtain ⟨w2, f, e2, hr2, hsb, hold⟩ := load_settles hr ho hb
    rw [e] at e2
    obtain rfl := Option.some.inj e2
    refine ⟨hr2, ?_⟩
    intro b' hb'
    rcases List.mem_cons.1 hb' with rfl | hb'
    · exact ⟨f, hsb⟩
    · obtain ⟨f', hs'⟩ := hs b' hb'
      exact ⟨f', hold b' f' hs' (hap b' hb')⟩
  | @unload w w' bs nameOf name _ hnn hst e ih =>
    obtain ⟨hr, hs⟩ := ih
    obtain ⟨w2, e2, hr2, hold⟩ := unload_settles (nameOf := nameOf) (name := name) hr hnn hst
    rw [e] at e2
    obtain rfl := Option.some.inj e2
    refine ⟨hr2, ?_⟩
    intro b hb
    obtain ⟨hb1, hb2⟩ := List.mem_filter.1 hb
    obtain ⟨f, hf⟩ := hs b hb1
    exact ⟨f, hold b f hf (of_decide_eq_true hb2)⟩
  | @other w w' bs _ hq ih =>
    obtain ⟨hr, hs⟩ := ih
    refine ⟨hq.reach, ?_⟩
    intro b hb
    obtain ⟨f, hf⟩ := hs b hb
    exact ⟨f, hf.step hq.kept hq.look (fun i _ => by rw [hq.seg]) (by rw [hq.file]) (hq.mem b hb)⟩

/-! ## What is found -/

theorem leaf_of_deepest {c : Config} {align : Nat → Nat} {s : State} (hr : Reach c align s) {a n : Nat} (hn : deepest c s a = some n) (hl : Live s n) :
    leafBig c s a = some n ∧ leafAllocator c s a = some (if s.sub n ≠ 0 then s.sub n else s.alloc n) := by
  obtain ⟨_, kids, rank, hinv⟩ := reach_good hr
  have e : leafBig c s a = some n := by rw [hinv.leafBig_eq, hn]
  refine ⟨e, ?_⟩
  unfold leafAllocator
  rw [e, Option.map_some, if_neg (live_ne_zero hr hl)]

/-- At an address of a segment that belongs to the symbols, the segment's table is searched. -/
theorem find_covered {c : Config} {align : Nat → Nat} {w : World} (hr : Reach c align w.pi) {b : Bin} {f : Nat} (hs : Settled c w b f) {i : Nat}
    {p : FileLoad.Phdr} (hp : (loads b.file)[i]? = some p) {x : Nat} (h1 : p.vaddr ≤ x) (h2 : x < p.vaddr + p.memsz) (hc : Covered b.file p x)
    (ls pb : Nat) (rest : Nat → Nat → Query.Obj) :
    find c w ls pb rest (b.file.laddr + x) = (MetavecBuild.resolveAll b.tabs (b.due p)).map (fun v =>
      some (symId, .table .static ((StaticSym.getInfo v b.file.laddr pb (b.file.laddr + x)).map
        (fun i => ⟨i.base, i.size, i.type, w.mem (b.file.info + OFF_M + ls)⟩)))) := by
  obtain ⟨g, hg, ht, hx⟩ := hs.seg i p hp
  obtain ⟨n, hn, hnl, hcase⟩ := hx x h1 h2
  obtain ⟨e1, e2⟩ := leaf_of_deepest hr hn hnl
  have hsub : w.pi.sub n = symId := by
    rcases hcase with ⟨rfl, hno⟩ | ⟨_, _, h, _⟩
    · rcases hc with hc | hc
      · exact absurd hc hno
      · rw [hg.sub]
        unfold segSub
        rw [if_pos]
        exact hc
    · exact h
  have hseg : segmentOf w.pi n = some g := by
    unfold segmentOf
    rcases hcase with ⟨rfl, _⟩ | ⟨ha, hpar, _, _⟩
    · simp [hg.alloc, segId, symId, secId]
    · simp [ha, hpar, hg.alloc, segId, symId, secId]
  unfold find
  have hne : (if symId ≠ 0 then symId else w.pi.alloc n) = symId := if_pos (by decide)
  rw [e1, e2, hsub, hne]
  simp only
  rw [if_neg (by decide), if_pos trivial]
  unfold symbolInfo
  rw [hseg, Option.bind_some, hg.par, hg.priv, hs.priv, hs.file, Option.bind_some, ht]
  cases MetavecBuild.resolveAll b.tabs (b.due p) <;> rfl

/-- At an address of a segment that belongs to no section, and not in the data segment, the segment is found. -/
theorem find_uncovered {c : Config} {align : Nat → Nat} {w : World} (hr : Reach c align w.pi) {b : Bin} {f : Nat} (hs : Settled c w b f) {i : Nat}
    {p : FileLoad.Phdr} (hp : (loads b.file)[i]? = some p) {x : Nat} (h1 : p.vaddr ≤ x) (h2 : x < p.vaddr + p.memsz) (hc : ¬ Covered b.file p x)
    (ls pb : Nat) (rest : Nat → Nat → Query.Obj) :
    find c w ls pb rest (b.file.laddr + x) = some (some (segId, .whole ⟨b.file.laddr + p.vaddr, p.memsz, pb, w.mem (b.file.info + ls)⟩)) := by
  obtain ⟨g, hg, ht, hx⟩ := hs.seg i p hp
  obtain ⟨n, hn, hnl, hcase⟩ := hx x h1 h2
  rcases hcase with ⟨rfl, hno⟩ | ⟨_, _, _, hy⟩
  · obtain ⟨e1, e2⟩ := leaf_of_deepest hr hn hnl
    have hsub : w.pi.sub n = 0 := by
      rw [hg.sub]
      unfold segSub
      rw [if_neg]
      exact fun e => hc (Or.inr e)
    have hsz : b.file.laddr + p.vaddr + p.memsz - (b.file.laddr + p.vaddr) = p.memsz := by omega
    unfold find segmentInfo
    rw [e1, e2, hsub, if_neg (by simp), hg.alloc]
    simp only
    rw [hg.beg, hg.fin, hg.par, hs.priv]
    simp only [segR]
    rw [hsz, if_neg (by decide), if_neg (by decide), if_pos trivial]
  · exact absurd (Or.inl hy) hc

/-! ## C150 -/

/-- The answers of the simple queries. -/
structure Says (B : Query.Build) (x : Query.At) (type base size site leaf : Nat) : Prop where
  type : (Query.getType B x).1 = .val type
  base : (Query.getBase B x).1 = .val base
  size : (Query.getSize B x).1 = .val size
  site : (Query.getSite B x).1 = .val site
  leaf : (Query.getLeaf B x).1 = .val leaf

theorem says_table (B : Query.Build) (a : Nat) (r : Query.Rec) : Says B (some (a, .table .static (some r))) r.type r.base r.size r.site a :=
  ⟨rfl, rfl, rfl, rfl, rfl⟩

theorem says_whole (B : Query.Build) (a : Nat) (r : Query.Rec) : Says B (some (a, .whole r)) r.type r.base r.size r.site a :=
  ⟨rfl, rfl, rfl, rfl, rfl⟩

theorem says_nothing (B : Query.Build) (a : Nat) : Says B (some (a, .table .static none)) 0 0 0 0 a :=
  ⟨rfl, rfl, rfl, rfl, rfl⟩

/-- What the tool needs to know of a binary: statics that are apart, with symbol table entries that agree with them; relocation records whose symbols exist. -/
structure Known (b : Bin) : Prop where
  ordered : Ordered b.statics
  low : ∀ s ∈ b.statics, s.lo < 2 ^ 32
  described : Described b.tabs b.statics
  symbols : ∀ sc ∈ b.scns, ∀ r ∈ sc.rels, r.sym < b.symtab.length

theorem phdr_idx {F : FileLoad.File} {p : FileLoad.Phdr} (hp : p ∈ F.phdrs) (hl : p.load = true) : ∃ i : Nat, (loads F)[i]? = some p :=
  List.getElem?_of_mem (by unfold loads; exact List.mem_filter.2 ⟨hp, hl⟩)

/-- What is found at an address that belongs to the symbols of an early file. -/
theorem found {c : Config} {align : Nat → Nat} {w : World} {bs : List Bin} (h : Run c align w bs) {b : Bin} (hb : b ∈ bs) (he : b.early = true)
    (hk : Known b) {p : FileLoad.Phdr} (hp : p ∈ b.file.phdrs) (hl : p.load = true) {x : Nat} (h1 : p.vaddr ≤ x) (h2 : x < p.vaddr + p.memsz)
    (hc : Covered b.file p x) (ls pb : Nat) (hls : OFF_M + ls < b.recLen) (rest : Nat → Nat → Query.Obj) :
    ∃ recs v, b.recs = some recs ∧ MetavecBuild.query b.tabs recs p.vaddr (p.vaddr + p.memsz) b.file.laddr pb (b.file.laddr + x) = some v ∧
      find c w ls pb rest (b.file.laddr + x) =
        some (some (symId, .table .static (v.map (fun i => ⟨i.base, i.size, i.type, b.words (OFF_M + ls)⟩)))) := by
  obtain ⟨hr, hall⟩ := run_settled h
  obtain ⟨f, hs⟩ := hall b hb
  obtain ⟨i, hi⟩ := phdr_idx hp hl
  obtain ⟨recs, hrecs, _⟩ := MetavecBuild.records_exact b.symtab b.statics b.scns hk.ordered hk.low hk.symbols
  obtain ⟨v, hv, _⟩ := MetavecBuild.tool_to_query_partial b.symtab b.statics b.scns hk.ordered b.tabs hk.described recs hrecs p.vaddr
    (p.vaddr + p.memsz) b.file.laddr pb x ⟨h1, h2⟩
  have hrecs' : b.recs = some recs := hrecs
  refine ⟨recs, v, hrecs', hv, ?_⟩
  rw [find_covered hr hs hi h1 h2 hc ls pb rest]
  have hdue : b.due p = MetavecBuild.segment p.vaddr (p.vaddr + p.memsz) recs := by
    unfold Bin.due
    rw [he, hrecs']
  unfold MetavecBuild.query at hv
  rw [hdue]
  have hm := hs.mem _ hls
  rw [← Nat.add_assoc] at hm
  rw [hm]
  cases hres : MetavecBuild.resolveAll b.tabs (MetavecBuild.segment p.vaddr (p.vaddr + p.memsz) recs) with
  | none => rw [hres] at hv; cases hv
  | some u =>
    rw [hres] at hv
    rw [← Option.some.inj hv]
    rfl

/-- **C150 (partial).** In every history of loads, unloads and other changes, for every early file that is loaded, every static object in it and every address of the
object in the object's segment: the queries of type, base, size, allocation site and allocator give the object's type, start and size, the site that
loaded the file, and the allocator of symbols. Partial: the file is one of the early ones, its sections do not overlap, the address is in a section or in
the data segment. -/
theorem static_partial {c : Config} {align : Nat → Nat} {w : World} {bs : List Bin} (h : Run c align w bs) {b : Bin} (hb : b ∈ bs)
    (he : b.early = true) (hk : Known b) {p : FileLoad.Phdr} (hp : p ∈ b.file.phdrs) (hl : p.load = true) {s : Static} (hs : s ∈ b.statics)
    (hin : p.vaddr ≤ s.lo) {x : Nat} (h1 : s.lo ≤ x) (h2 : x < s.hi) (h3 : x < p.vaddr + p.memsz) (hc : Covered b.file p x)
    (ls pb : Nat) (hls : OFF_M + ls < b.recLen) (rest : Nat → Nat → Query.Obj) (B : Query.Build) :
    ∃ x', find c w ls pb rest (b.file.laddr + x) = some x' ∧
      Says B x' s.type (b.file.laddr + s.lo) (s.hi - s.lo) (b.words (OFF_M + ls)) symId := by
  obtain ⟨recs, v, hrecs, hv, hf⟩ := found h hb he hk hp hl (by omega) h3 hc ls pb hls rest
  obtain ⟨v', hv', hstat, _⟩ := MetavecBuild.tool_to_query_partial b.symtab b.statics b.scns hk.ordered b.tabs hk.described recs hrecs p.vaddr
    (p.vaddr + p.memsz) b.file.laddr pb x ⟨by omega, h3⟩
  rw [hv] at hv'
  obtain rfl := Option.some.inj hv'
  rw [hstat s hs hin h1 h2] at hf
  exact ⟨_, hf, says_table B symId _⟩

/-- An address in no static object, not one past the end of one either, nor at or after a place that relocation records refer to with no static between: the
queries fail, but for that of the allocator. -/
theorem between {c : Config} {align : Nat → Nat} {w : World} {bs : List Bin} (h : Run c align w bs) {b : Bin} (hb : b ∈ bs)
    (he : b.early = true) (hk : Known b) {p : FileLoad.Phdr} (hp : p ∈ b.file.phdrs) (hl : p.load = true) {x : Nat} (h1 : p.vaddr ≤ x)
    (h2 : x < p.vaddr + p.memsz) (hno : ∀ s ∈ b.statics, ¬ (s.lo ≤ x ∧ x ≤ s.hi))
    (hrel : ∀ t, p.vaddr ≤ t → t ≤ x → Refers b.symtab b.scns t → ¬ Inside b.statics t → ∃ s ∈ b.statics, t < s.lo ∧ s.lo ≤ x)
    (hc : Covered b.file p x) (ls pb : Nat) (hls : OFF_M + ls < b.recLen) (rest : Nat → Nat → Query.Obj) (B : Query.Build) :
    ∃ x', find c w ls pb rest (b.file.laddr + x) = some x' ∧ Says B x' 0 0 0 0 symId := by
  obtain ⟨recs, v, hrecs, hv, hf⟩ := found h hb he hk hp hl h1 h2 hc ls pb hls rest
  obtain ⟨v', hv', _, _, hnone⟩ := MetavecBuild.tool_to_query_partial b.symtab b.statics b.scns hk.ordered b.tabs hk.described recs hrecs p.vaddr
    (p.vaddr + p.memsz) b.file.laddr pb x ⟨h1, h2⟩
  rw [hv] at hv'
  obtain rfl := Option.some.inj hv'
  rw [hnone hno hrel] at hf
  exact ⟨_, hf, says_nothing B symId⟩

/-- **C150 fails** for every file that is not early, such as one that the program loads: all its static objects are unknown. -/
theorem late_fails {c : Config} {align : Nat → Nat} {w : World} {bs : List Bin} (h : Run c align w bs) {b : Bin} (hb : b ∈ bs)
    (he : b.early = false) {p : FileLoad.Phdr} (hp : p ∈ b.file.phdrs) (hl : p.load = true) {x : Nat} (h1 : p.vaddr ≤ x)
    (h2 : x < p.vaddr + p.memsz) (hc : Covered b.file p x) (ls pb : Nat) (rest : Nat → Nat → Query.Obj) (B : Query.Build) :
    ∃ x', find c w ls pb rest (b.file.laddr + x) = some x' ∧ Says B x' 0 0 0 0 symId := by
  obtain ⟨hr, hall⟩ := run_settled h
  obtain ⟨f, hs⟩ := hall b hb
  obtain ⟨i, hi⟩ := phdr_idx hp hl
  have hdue : b.due p = [] := by
    unfold Bin.due
    rw [he]
  rw [find_covered hr hs hi h1 h2 hc ls pb rest, hdue]
  exact ⟨_, rfl, says_nothing B symId⟩

/-- **C150 fails** for a static object outside sections and not in the data segment: the answer is the whole segment, as bytes; and the allocation site is
whatever is in the file's record `OFF_M` bytes before the site that loaded the file. -/
theorem uncovered_fails {c : Config} {align : Nat → Nat} {w : World} {bs : List Bin} (h : Run c align w bs) {b : Bin} (hb : b ∈ bs)
    {p : FileLoad.Phdr} (hp : p ∈ b.file.phdrs) (hl : p.load = true) {x : Nat} (h1 : p.vaddr ≤ x) (h2 : x < p.vaddr + p.memsz)
    (hc : ¬ Covered b.file p x) (ls pb : Nat) (hls : ls < b.recLen) (rest : Nat → Nat → Query.Obj) (B : Query.Build) :
    ∃ x', find c w ls pb rest (b.file.laddr + x) = some x' ∧ Says B x' pb (b.file.laddr + p.vaddr) p.memsz (b.words ls) segId := by
  obtain ⟨hr, hall⟩ := run_settled h
  obtain ⟨f, hs⟩ := hall b hb
  obtain ⟨i, hi⟩ := phdr_idx hp hl
  rw [find_uncovered hr hs hi h1 h2 hc ls pb rest, hs.mem ls hls]
  exact ⟨_, rfl, says_whole B segId _⟩

/-! ## Other changes -/

/-- A new big allocation anywhere but directly below a segment or section is such a change. -/
theorem create_quiet {c : Config} {align : Nat → Nat} {w : World} {bs : List Bin} (hr : Reach c align w.pi) {ptr size parent : Nat} {m : Meta}
    (ho : NewOk c w.pi ptr size parent) (hcl : Clear w.pi ptr (ptr + size))
    (hp : ∀ n, DeepestAt w.pi ptr n → Live w.pi n → w.pi.alloc n ≠ segId ∧ w.pi.alloc n ≠ secId) :
    ∃ s' n, newBigalloc c w.pi ptr size parent m = some (s', n) ∧ Quiet c align w { w with pi := s' } bs := by
  obtain ⟨s', n, q, e, hr', hn, hq1, hq2, ha, hlive, hl1, hl2⟩ := create_correct (m := m) hr ho
  obtain ⟨_, kids, rank, hinv⟩ := reach_good hr
  refine ⟨s', n, e, hr', ?_, ?_, rfl, rfl, fun _ _ _ _ => rfl⟩
  · intro x hx _
    have hne : x ≠ n := fun e => hn (e ▸ hx)
    exact ⟨(hlive x).2 (Or.inl hx), by rw [ha.beg, upd_ne hne], by rw [ha.fin, upd_ne hne], by rw [ha.par, upd_ne hne], by rw [ha.alloc, upd_ne hne],
      by rw [ha.sub, upd_ne hne], by rw [ha.priv, upd_ne hne], by rw [ha.privFree, upd_ne hne], by rw [ha.subPriv, upd_ne hne],
      by rw [ha.subPrivFree, upd_ne hne]⟩
  · intro a x hx hxl hxa
    rw [← hx]
    refine hl2 a ?_
    intro hin
    rcases (hinv.deepest_iff a x).1 hx with ⟨h0, _⟩ | ⟨_, hh, hmin⟩
    · exact live_ne_zero hr hxl h0
    · have hd : DeepestAt w.pi ptr x := by
        refine Or.inr ⟨hxl, ?_, ?_⟩
        · rcases hcl x hxl with h1 | h1
          · exact ⟨h1.1, by have := ho.pos; omega⟩
          · unfold Has at hh; omega
        · intro y hy hyp
          refine hmin y hy ?_
          rcases hcl y hy with h1 | h1
          · exact ⟨by omega, by omega⟩
          · unfold Has at hyp; have := ho.pos; omega
      have := hp x hd hxl
      rcases hxa with h | h
      · exact this.1 h
      · exact this.2 h

/-! ## Concrete cases -/

/-- The file of `FileLoad`'s cases with two static objects, one named in the dynamic symbol table and one not. -/
def exBin : Bin where
  file := { FileLoad.exFile with info := 0x100 }
  symtab := []
  statics := [⟨0x900, 0x940, .dynsym, 2, 88⟩, ⟨0x2100, 0x2110, .symtab, 1, 77⟩]
  scns := []
  tabs := ⟨[(0, 0), (0x100, 8), (0x900, 0x40)], [(0, 0), (0x2100, 0x10)], []⟩
  recLen := 400
  words := fun o => 0x1000 + o
  early := true

/-- The world before, given a page index. -/
def exWorld (s : State) : World := ⟨s, fun _ => [], fun _ => none, fun _ => 0⟩

/-- What is found at some addresses once the file is loaded, `load_site` being at 16. -/
def exFind (b : Bin) (l : List Nat) : Option (List (Option Query.At)) :=
  after FileLoad.cfg FileLoad.mapping (fun s => (load FileLoad.cfg (exWorld s) b).map (fun w =>
    l.map (fun a => find FileLoad.cfg w 16 9 (fun _ _ => .stack) a)))

example : exFind exBin [0x400900, 0x40093f, 0x402100, 0x40210f] =
    some [some (some (symId, .table .static (some ⟨0x400900, 0x40, 88, 0x1040⟩))), some (some (symId, .table .static (some ⟨0x400900, 0x40, 88, 0x1040⟩))),
      some (some (symId, .table .static (some ⟨0x402100, 0x10, 77, 0x1040⟩))), some (some (symId, .table .static (some ⟨0x402100, 0x10, 77, 0x1040⟩)))] := by
  decide +kernel
/-- Below the first object; between the objects; in the data segment but in no section; in no section of the first segment; in no segment; in no file. -/
example : exFind exBin [0x4008ff, 0x400941, 0x403000, 0x401000, 0x401900, 0x400000 - 1] =
    some [some (some (symId, .table .static none)), some (some (symId, .table .static none)), some (some (symId, .table .static none)),
      some (some (segId, .whole ⟨0x400000, 0x1800, 9, 0x1010⟩)), some (some (segId, .whole ⟨0x400000, 0x4000, 9, 0⟩)), some none] := by decide +kernel
example : exFind { exBin with early := false } [0x400900, 0x40210f] =
    some [some (some (symId, .table .static none)), some (some (symId, .table .static none))] := by decide +kernel

/-- Another file, not an executable, in another mapping. -/
def exBin2 : Bin := { exBin with
  file := { exBin.file with laddr := 0x500000, info := 0x1000, data := 0, segPtr := fun i => 0x1050 + i, shdrPtr := fun i => 0x1080 + i }
  words := fun o => 0x2000 + o }

/-- What is found once both are loaded and then those of a name are unloaded. -/
def exFind2 (name : Nat) (l : List Nat) : Option (List (Option Query.At)) :=
  after ⟨true, 0x1000, 32⟩ (FileLoad.mapping ++ [.new 0x500000 0x10000 0 ⟨mmapId, 0, 7, 8, 0, 0⟩]) (fun s =>
    (load ⟨true, 0x1000, 32⟩ (exWorld s) exBin).bind (fun w => (load ⟨true, 0x1000, 32⟩ w exBin2).bind (fun w =>
      (unload ⟨true, 0x1000, 32⟩ id name w).map (fun w => l.map (fun a => find ⟨true, 0x1000, 32⟩ w 16 9 (fun _ _ => .stack) a)))))

/-- With none unloaded; with the first; with the second. -/
example : exFind2 0 [0x400900, 0x50210f] = some [some (some (symId, .table .static (some ⟨0x400900, 0x40, 88, 0x1040⟩))),
    some (some (symId, .table .static (some ⟨0x502100, 0x10, 77, 0x2040⟩)))] := by decide +kernel
example : exFind2 0x100 [0x400900, 0x50210f] = some [some (some (mmapId, .stack)),
    some (some (symId, .table .static (some ⟨0x502100, 0x10, 77, 0x2040⟩)))] := by decide +kernel
example : exFind2 0x1000 [0x400900, 0x50210f] = some [some (some (symId, .table .static (some ⟨0x400900, 0x40, 88, 0x1040⟩))),
    some (some (mmapId, .stack))] := by decide +kernel

theorem exBin_ok : BinOk exBin := by
  refine ⟨?_, by decide +kernel⟩
  intro i j _ _ h
  simp only [exBin, FileLoad.exFile] at h
  omega

theorem exBin_known : Known exBin := by
  refine ⟨⟨by decide +kernel, by decide +kernel⟩, by decide +kernel, ?_, by intro sc h; cases h⟩
  intro pre s post e
  match pre with
  | [] =>
    simp only [exBin, List.nil_append, List.cons.injEq] at e
    obtain ⟨rfl, _⟩ := e
    rfl
  | [q] =>
    simp only [exBin, List.cons_append, List.nil_append, List.cons.injEq] at e
    obtain ⟨rfl, rfl, _⟩ := e
    rfl
  | q :: r :: t =>
    simp [exBin] at e

/-- The conditions can be met: a history with the file in it, and the answers for an object of it. -/
theorem exists_run : ∃ w, Run FileLoad.cfg (fun _ => 0) w [exBin] ∧
    ∃ x, find FileLoad.cfg w 16 9 (fun _ _ => .stack) 0x40210f = some x ∧ Says ⟨false, fun _ => 0⟩ x 77 0x402100 0x10 0x1040 symId := by
  obtain ⟨s, _, hr, ho', _⟩ := FileLoad.exFile_ok
  have ho : LoadOk FileLoad.cfg s exBin.file 2 0 0x4000 := ⟨ho'.bounds, ho'.live, ho'.top, ho'.alloc, ho'.priv, ho'.begins, ho'.ends, ho'.free, ho'.small,
    ho'.room, ho'.segPos, ho'.segApart, ho'.data, ho'.secIn, ho'.secApart⟩
  obtain ⟨w', f, e, _⟩ := load_settles (w := exWorld s) (b := exBin) hr ho exBin_ok
  have hrun : Run FileLoad.cfg (fun _ => 0) w' [exBin] := .load (.start hr) ho exBin_ok (by simp) e
  refine ⟨w', hrun, ?_⟩
  have := static_partial hrun (b := exBin) List.mem_cons_self rfl exBin_known (p := ⟨true, 0x2000, 0x2000⟩) (by simp [exBin, FileLoad.exFile]) rfl
    (s := ⟨0x2100, 0x2110, .symtab, 1, 77⟩) (by simp [exBin]) (by decide) (x := 0x210f) (by decide) (by decide) (by decide) (Or.inr rfl) 16 9 (by decide)
    (fun _ _ => .stack) ⟨false, fun _ => 0⟩
  exact this

end Liballocs.StaticObj
