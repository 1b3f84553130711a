import Verif.Model.StartScan
import Verif.Props.Mmap
/-! # C91 to C94: the start-up scan of the memory map -/
namespace Liballocs.StartScan
open MapSeq Munmap Mmap

/-! ### Specification: what the lines say -/

/-- Lines the scan is to leave out: huge ones (taken for tables), kernel pages, and the heap unless it begins before the executable's end. -/
def Skip (endA : Nat) (l : Line) : Prop := 2 ^ 32 < l.second - l.first ∨ 2 ^ 63 ≤ l.first ∨ (l.rest = .heap ∧ endA ≤ l.first)

instance (endA : Nat) (l : Line) : Decidable (Skip endA l) := by unfold Skip; exact inferInstance

/-- A heap line counts only up to the executable's end. -/
def top (endA : Nat) (l : Line) : Nat := if l.rest = .heap then endA else l.second

/-- The name of a line, if it has one that counts. -/
def fileOf : Rest → Option Nat
  | .path n => some (2 * n + 1)
  | .stack n => some (2 * n)
  | _ => none

/-- What a line says about an address in it. -/
def what (l : Line) (a : Nat) : Info :=
  ⟨⟨l.r.toNat + 2 * l.w.toNat + 4 * l.x.toNat, 1 + l.p.toNat + 32 * (fileOf l.rest).isNone.toNat, (fileOf l.rest).isNone, 0⟩,
    fileOf l.rest, l.offset + (a - l.first)⟩

/-- What the lines say about an address. -/
def said (endA : Nat) : List Line → Nat → Option Info
  | [], _ => none
  | l :: ls, a => if ¬ Skip endA l ∧ l.first ≤ a ∧ a < top endA l then some (what l a) else said endA ls a

/-- A line as the kernel gives it: non-empty, page-aligned; and a heap line reaches the executable's end if it begins before it. -/
structure LineOk (endA : Nat) (l : Line) : Prop where
  pos : 0 < l.first
  lt : l.first < l.second
  fa : l.first % PAGE = 0
  sa : l.second % PAGE = 0
  rest : l.rest ≠ .odd
  heap : l.rest = .heap → l.first < endA → endA ≤ l.second

/-- The lines are in order. -/
structure MapOk (endA : Nat) (ls : List Line) : Prop where
  ea : endA % PAGE = 0
  each : ∀ l ∈ ls, LineOk endA l
  sorted : ls.Pairwise (fun l k => l.second ≤ k.first)

/-! ### One line -/

theorem kept_ok {endA : Nat} {l : Line} (he : endA % PAGE = 0) (h : LineOk endA l) :
    (Skip endA l ∧ kept endA l = none) ∨
    (¬ Skip endA l ∧ ∃ k n, kept endA l = some k ∧ nameOf k.rest = some n ∧ (reqOf k n).begin = l.first ∧
      (reqOf k n).end = top endA l ∧ l.first < top endA l ∧ top endA l ≤ l.second ∧ top endA l % PAGE = 0 ∧
      ∀ a, (⟨(reqOf k n).entry.attr, (reqOf k n).filename, (reqOf k n).offset + (a - (reqOf k n).begin)⟩ : Info) = what l a) := by
  have h1 := h.pos
  have h2 := h.lt
  have hB : Syscalls.BIGGEST = 2 ^ 32 := rfl
  by_cases hs : Skip endA l
  · left
    refine ⟨hs, ?_⟩
    unfold kept
    rw [hB]
    rcases hs with c | c | ⟨c1, c2⟩
    · rw [if_pos c]
    · split
      · rfl
      · rw [if_pos (Or.inr c)]
    · split
      · rfl
      · split
        · rfl
        · rw [if_neg (by omega)]
  · right
    refine ⟨hs, ?_⟩
    simp only [Skip, not_or, not_and] at hs
    obtain ⟨c1, c2, c3⟩ := hs
    have hk : kept endA l = if l.rest = .heap then (if l.first < endA then some { l with rest := .empty, second := endA } else none) else some l := by
      unfold kept
      rw [hB, if_neg c1, if_neg (by omega)]
    by_cases hh : l.rest = .heap
    · have hlt : l.first < endA := by have := c3 hh; omega
      have hle := h.heap hh hlt
      rw [hk, if_pos hh, if_pos hlt]
      refine ⟨_, none, rfl, rfl, rfl, ?_, ?_, ?_, ?_, ?_⟩
      · simp only [reqOf, top, hh, if_true]
      · simp only [top, hh, if_true]; exact hlt
      · simp only [top, hh, if_true]; exact hle
      · simp only [top, hh, if_true]; exact he
      · intro a
        simp only [reqOf, Req.entry, Entry.attr, what, fileOf, hh, Option.isNone_none, if_true]
        cases l.r <;> cases l.w <;> cases l.x <;> cases l.p <;> rfl
    · rw [hk, if_neg hh]
      have ht : top endA l = l.second := by simp only [top, hh, if_false]
      have hn : nameOf l.rest = some (fileOf l.rest) := by
        have := h.rest
        cases hr : l.rest <;> first | rfl | (exact absurd hr this)
      refine ⟨l, fileOf l.rest, rfl, hn, rfl, ht.symm, by omega, by omega, by rw [ht]; exact h.sa, ?_⟩
      intro a
      simp only [reqOf, Req.entry, Entry.attr, what]
      cases l.r <;> cases l.w <;> cases l.x <;> cases l.p <;> cases (fileOf l.rest).isNone <;> rfl

/-! ### Sequences made by the scan -/

/-- A sequence as the scan makes it: a run of entries from one page boundary to another, the rest of the array clear. -/
structure GOk (s : Seq) : Prop where
  inv : MapSeq.Inv s
  run : Run s
  ba : s.begin % PAGE = 0
  ea : s.end % PAGE = 0
  tidy : ∀ i, s.nused ≤ i → s.slots i = zero

theorem GOk.lt {s : Seq} (h : GOk s) : 0 < s.begin ∧ s.begin < s.end := by
  have h0 := h.run.pos
  have h1 := h.run.nonempty 0 h0
  have h2 := h.run.nonempty (s.nused - 1) (by omega)
  rw [h.run.first, h.run.last]
  refine ⟨h1.1, ?_⟩
  rcases Nat.eq_zero_or_pos (s.nused - 1) with e | e
  · rw [e]; exact h1.2
  · have := h.run.mono 0 (s.nused - 1) e (by omega)
    omega

theorem info_iff {s : Seq} (h : Run s) (a : Nat) : info s a ≠ none ↔ s.begin ≤ a ∧ a < s.end := by
  constructor
  · intro hn
    apply Classical.byContradiction
    intro hc
    apply hn
    unfold info
    rw [(findEntry_run h a).2 (by omega)]; rfl
  · rintro ⟨h1, h2⟩
    obtain ⟨i, j1, j2, j3⟩ := h.locate a h1 h2
    unfold info
    rw [(findEntry_run h a).1 i j1 j2 j3]
    simp

theorem info_empty (a : Nat) : info emptySeq a = none := rfl

theorem aug_gap (obj : Nat → Nat) {s : Seq} {r : Req} (hs : Run s) (hg : s.end < r.begin) : augment obj s r = .ret false s := by
  have he : 0 < s.end := by
    have := hs.nonempty (s.nused - 1) (by have := hs.pos; omega)
    rw [hs.last]; omega
  have h1 : isClean s r = false := by
    simp only [isClean, Bool.or_eq_false_iff, beq_eq_false_iff_ne]
    omega
  have h2 : overlaps s.begin s.end r.begin r.end = false := by
    simp only [overlaps, decide_eq_false_iff_not]; omega
  unfold augment
  rw [(sane_iff s).2 (Or.inr hs), h1, h2]
  exact finish_ok (Or.inr hs)

theorem aug_abut (obj : Nat → Nat) {s : Seq} {r : Req} (hs : GOk s) (hr : 0 < r.begin ∧ r.begin < r.end) (hea : r.end % PAGE = 0)
    (hg : s.end = r.begin) :
    augment obj s r = .ret false s ∨
    ∃ s', augment obj s r = .ret true s' ∧ GOk s' ∧ s'.begin = s.begin ∧ s'.end = r.end ∧ (s'.nused = s.nused + 1 ∧
        s'.filename = s.filename ∧ s'.slots s.nused = r.entry) ∧
      ∀ a, info s' a = if r.begin ≤ a ∧ a < r.end then some ⟨r.entry.attr, r.filename, r.offset + (a - r.begin)⟩ else info s a := by
  have hne : s.nused ≠ 0 := by have := hs.run.pos; omega
  obtain ⟨b, s', e1, e2, e3⟩ := augment_recorded obj hs.inv.1 hr (Or.inr (Or.inl hg))
  cases b with
  | false => left; rw [e1, e2 rfl]
  | true =>
    right
    obtain ⟨_, i1, i2, hrec, i3, i4⟩ := aug_true obj hs.inv hr e1
    have hend : s'.end = r.end := by rw [i3]; omega
    have hcl : s'.nused = s.nused + 1 ∧ ∀ i, s'.slots i = if i = s.nused then r.entry else s.slots i := by
      cases hrec with
      | overlap f l bp ep x1 x2 _ _ _ _ _ x8 =>
        exfalso
        have : (s.slots l).end ≤ s.end := by
          rw [hs.run.last]
          rcases Nat.eq_or_lt_of_le (Nat.le_sub_one_of_lt x2) with e | e
          · rw [← e]; exact Nat.le_refl _
          · have := hs.run.mono l (s.nused - 1) e (by omega)
            have := (hs.run.nonempty (s.nused - 1) (by omega)).2
            omega
        omega
      | clean hc hn hb he hsl hfn => exact ⟨hn, hsl⟩
    refine ⟨s', e1, ⟨i1, i2, by rw [i4 hne]; exact hs.ba, by rw [hend]; exact hea, ?_⟩, i4 hne, hend,
      ⟨hcl.1, (info_clean obj hs.inv hr hne hg e1 0).2.1, by rw [hcl.2, if_pos rfl]⟩, fun a => (info_clean obj hs.inv hr hne hg e1 a).1⟩
    intro i hi
    rw [hcl.1] at hi
    rw [hcl.2, if_neg (by omega)]
    exact hs.tidy i (by omega)

theorem aug_start (obj : Nat → Nat) {r : Req} (hr : 0 < r.begin ∧ r.begin < r.end) (hba : r.begin % PAGE = 0) (hea : r.end % PAGE = 0) :
    ∃ s', augment obj emptySeq r = .ret true s' ∧ GOk s' ∧ s'.begin = r.begin ∧ s'.end = r.end ∧ (s'.nused = 1 ∧
        s'.filename = r.filename ∧ s'.slots 0 = r.entry) ∧
      ∀ a, info s' a = if r.begin ≤ a ∧ a < r.end then some ⟨r.entry.attr, r.filename, r.offset + (a - r.begin)⟩ else none := by
  obtain ⟨s', e1, e2, e3, e4, e5, e6⟩ := aug_empty obj hr
  obtain ⟨_, i1, i2, hrec, _⟩ := aug_true obj empty_inv hr e1
  refine ⟨s', e1, ⟨i1, i2, by rw [e5]; exact hba, by rw [e6]; exact hea, ?_⟩, e5, e6, ⟨e2, e4, e3⟩, ?_⟩
  · intro i hi
    cases hrec with
    | overlap f l bp ep x1 x2 => exact absurd x2 (Nat.not_lt_zero _)
    | clean hc hn hb he hsl hfn =>
      rw [hsl, if_neg (by rw [show emptySeq.nused = 0 from rfl]; omega)]; rfl
  · intro a
    split
    · rename_i c
      unfold info
      rw [(findEntry_run i2 a).1 0 (by omega) (by rw [e3]; exact c.1) (by rw [e3]; exact c.2), e3, e4]
      simp only [Option.map_some, Req.entry, Entry.filePos]
      cases r.filename <;> rfl
    · rename_i c
      apply Classical.byContradiction
      intro hn
      have := (info_iff i2 a).1 hn
      omega

/-- Adding sequences one after the other. -/
def addAll (ds : Nat) (st : List Mapping) : List Seq → Mmap.Out
  | [] => .ok st
  | g :: gs =>
    match addIfAbsent ds st g with
    | .ok st' => addAll ds st' gs
    | o => o

/-- What sequences say about an address. -/
def told : List Seq → Nat → Option Info
  | [], _ => none
  | g :: gs, a => (info g a).or (told gs a)

theorem said_none {endA : Nat} {ls : List Line} {a : Nat} (h : ∀ l ∈ ls, LineOk endA l ∧ (¬ Skip endA l → a < l.first)) : said endA ls a = none := by
  induction ls with
  | nil => rfl
  | cons l ls ih =>
    unfold said
    rw [if_neg (by intro c; have := (h l (by simp)).2 c.1; omega)]
    exact ih (fun k hk => h k (by simp [hk]))

/-- The scan is: group the lines, then add the groups. -/
theorem groups (obj : Nat → Nat) {endA : Nat} (ls : List Line) (cur : Seq) (hm : MapOk endA ls) (hc : cur = emptySeq ∨ GOk cur)
    (hl : ∀ l ∈ ls, cur.end ≤ l.first) :
    ∃ gs, (∀ ds st, scanFrom obj ds endA st cur ls = addAll ds st gs) ∧ (∀ g ∈ gs, GOk g) ∧
      gs.Pairwise (fun g k => g.end ≤ k.begin) ∧ (∀ g ∈ gs, cur.begin ≤ g.begin) ∧
      ∀ a, told gs a = (info cur a).or (said endA ls a) := by
  induction ls generalizing cur with
  | nil =>
    rcases hc with hc | hc
    · subst hc
      exact ⟨[], fun _ _ => rfl, by simp, by simp, by simp, fun a => rfl⟩
    · refine ⟨[cur], ?_, by simpa using hc, by simp, by simp, ?_⟩
      · intro ds st
        unfold scanFrom addAll
        rw [if_pos hc.run.pos]
        cases addIfAbsent ds st cur <;> rfl
      · intro a; simp [told, said]
  | cons l ls ih =>
    have hm' : MapOk endA ls := ⟨hm.ea, fun k hk => hm.each k (by simp [hk]), (List.pairwise_cons.1 hm.sorted).2⟩
    have hsort := (List.pairwise_cons.1 hm.sorted).1
    have hlo := hm.each l (by simp)
    rcases kept_ok hm.ea hlo with ⟨hs, hk⟩ | ⟨hs, k, n, hk, hn, r1, r2, r3, r4, r5, r6⟩
    · obtain ⟨gs, g1, g2, g3, g4, g5⟩ := ih cur hm' hc (fun k hk => hl k (by simp [hk]))
      refine ⟨gs, ?_, g2, g3, g4, ?_⟩
      · intro ds st
        rw [← g1]
        conv => lhs; unfold scanFrom
        simp only [addMissing, hk]
      · intro a; rw [g5]
        conv => rhs; unfold said
        rw [if_neg (by intro c; exact c.1 hs)]
    · have hr : 0 < (reqOf k n).begin ∧ (reqOf k n).begin < (reqOf k n).end := by rw [r1, r2]; exact ⟨hlo.pos, r3⟩
      have hre : (reqOf k n).end % PAGE = 0 := by rw [r2]; exact r5
      have hrb : (reqOf k n).begin % PAGE = 0 := by rw [r1]; exact hlo.fa
      have hext : ∀ s, extendCurrent obj s k = augment obj s (reqOf k n) := by intro s; unfold extendCurrent; rw [hn]
      obtain ⟨s0, a1, a2, a3, a4, a5, a6⟩ := aug_start obj hr hrb hre
      have hnext : ∀ s : Seq, s.end = (reqOf k n).end → ∀ k ∈ ls, s.end ≤ k.first := by
        intro s hse k' hk'
        have := hsort k' hk'
        rw [hse, r2]; omega
      have hsaid : ∀ a, said endA (l :: ls) a =
          if (reqOf k n).begin ≤ a ∧ a < (reqOf k n).end then
            some ⟨(reqOf k n).entry.attr, (reqOf k n).filename, (reqOf k n).offset + (a - (reqOf k n).begin)⟩ else said endA ls a := by
        intro a
        conv => lhs; unfold said
        rw [r6 a, r1, r2]
        by_cases c : l.first ≤ a ∧ a < top endA l
        · rw [if_pos c, if_pos ⟨hs, c⟩]
        · rw [if_neg c, if_neg (fun x => c x.2)]
      rcases hc with hc | hc
      · subst hc
        obtain ⟨gs, g1, g2, g3, g4, g5⟩ := ih s0 hm' (Or.inr a2) (hnext s0 a4)
        refine ⟨gs, ?_, g2, g3, fun g _ => Nat.zero_le _, ?_⟩
        · intro ds st
          rw [← g1]
          conv => lhs; unfold scanFrom
          simp only [addMissing, hk, hext, a1]
        · intro a
          rw [g5, a6, hsaid, info_empty, Option.none_or]
          split
          · rfl
          · rfl
      · have hfalse : augment obj cur (reqOf k n) = .ret false cur →
            ∃ gs, (∀ ds st, scanFrom obj ds endA st cur (l :: ls) = addAll ds st gs) ∧ (∀ g ∈ gs, GOk g) ∧
              gs.Pairwise (fun g k => g.end ≤ k.begin) ∧ (∀ g ∈ gs, cur.begin ≤ g.begin) ∧
              ∀ a, told gs a = (info cur a).or (said endA (l :: ls) a) := by
          intro hf
          obtain ⟨gs, g1, g2, g3, g4, g5⟩ := ih s0 hm' (Or.inr a2) (hnext s0 a4)
          have hcl := hl l (by simp)
          refine ⟨cur :: gs, ?_, ?_, ?_, ?_, ?_⟩
          · intro ds st
            conv => lhs; unfold scanFrom
            conv => rhs; unfold addAll
            simp only [addMissing, hk, hext, hf, beginNew]
            cases addIfAbsent ds st cur with
            | ok st' => simp only [a1]; exact g1 ds st'
            | _ => rfl
          · intro g hg
            rcases List.mem_cons.1 hg with e | e
            · rw [e]; exact hc
            · exact g2 g e
          · rw [List.pairwise_cons]
            refine ⟨?_, g3⟩
            intro g hg
            have := g4 g hg
            rw [a3, r1] at this; omega
          · intro g hg
            rcases List.mem_cons.1 hg with e | e
            · rw [e]; exact Nat.le_refl _
            · have := g4 g e
              rw [a3, r1] at this
              have := hc.lt; omega
          · intro a
            show (info cur a).or (told gs a) = _
            rw [g5, a6, hsaid]
            split
            · rfl
            · rfl
        rcases Nat.eq_or_lt_of_le (hl l (by simp)) with e | e
        · rcases aug_abut obj hc hr hre (e.trans r1.symm) with hf | ⟨s', b1, b2, b3, b4, b5, b6⟩
          · exact hfalse hf
          · obtain ⟨gs, g1, g2, g3, g4, g5⟩ := ih s' hm' (Or.inr b2) (hnext s' b4)
            refine ⟨gs, ?_, g2, g3, by rw [← b3]; exact g4, ?_⟩
            · intro ds st
              rw [← g1]
              conv => lhs; unfold scanFrom
              simp only [addMissing, hk, hext, b1]
            · intro a
              rw [g5, b6, hsaid]
              split
              · rename_i c
                have : info cur a = none := by
                  apply Classical.byContradiction
                  intro hx
                  have := (info_iff hc.run a).1 hx
                  omega
                rw [this]; rfl
              · rfl
        · exact hfalse (aug_gap obj hc.run (by rw [r1]; exact e))

/-- The bigalloc for a sequence. -/
def toM (g : Seq) : Mapping := ⟨g.begin, g.end, g⟩

theorem toM_wf {g : Seq} (h : GOk g) : MWf (toM g) :=
  ⟨h.lt.2, h.ba, h.ea, h.inv, by have := h.run.pos; show g.nused ≠ 0; omega, rfl, rfl⟩

theorem suffix_self (g : Seq) : suffixOf g g = true := by
  simp [suffixOf, entriesEq]

theorem any_clear {st : List Mapping} {lo hi : Nat} (h : Clear st lo hi) :
    st.any (fun m => decide (m.begin < hi ∧ lo < m.end)) = false := by
  rw [List.any_eq_false]
  intro m hm
  have := h m hm
  simp only [decide_eq_true_eq]; omega

theorem add_clear (ds : Nat) {st : List Mapping} {g : Seq} (hg : GOk g) (hsz : g.end - g.begin ≤ 2 ^ 32) (hc : Clear st g.begin g.end) :
    addIfAbsent ds st g = .ok (st ++ [toM g]) := by
  have hlt := hg.lt
  have h1 : lookup st g.begin = none := by
    rw [lookup_none]; intro m hm hx; have := hc m hm; omega
  have h2 : lookup st (g.end - 1) = none := by
    rw [lookup_none]; intro m hm hx; have := hc m hm; omega
  have hne : g.nused ≠ 0 := by have := hg.run.pos; omega
  have hB : Syscalls.BIGGEST = 2 ^ 32 := rfl
  unfold addIfAbsent
  rw [if_neg hne, h1, h2]
  simp only [goAhead]
  rw [if_neg (by rw [hB]; omega), any_clear hc]
  rfl

theorem add_present (ds : Nat) {st : List Mapping} {g : Seq} (hw : Wf st) (hg : GOk g) (hp : toM g ∈ st) :
    addIfAbsent ds st g = .ok st := by
  have hlt := hg.lt
  have hne : g.nused ≠ 0 := by have := hg.run.pos; omega
  have h1 : lookup st g.begin = some (toM g) := lookup_of_mem hw hp ⟨Nat.le_refl _, hlt.2⟩
  have h2 : lookup st (g.end - 1) = some (toM g) := lookup_of_mem hw hp ⟨by show g.begin ≤ _; omega, by show _ < g.end; omega⟩
  unfold addIfAbsent
  rw [if_neg hne, h1, h2]
  simp only [if_true, within, toM, suffix_self, Bool.and_self]

theorem add_wf {st : List Mapping} {g : Seq} (hw : Wf st) (hg : GOk g) (hc : Clear st g.begin g.end) : Wf (st ++ [toM g]) := by
  constructor
  · intro m hm
    rcases List.mem_append.1 hm with h | h
    · exact hw.each m h
    · rw [List.mem_singleton] at h; rw [h]; exact toM_wf hg
  · rw [List.pairwise_append]
    refine ⟨hw.disj, List.pairwise_singleton _ _, ?_⟩
    intro m hm n hn
    rw [List.mem_singleton] at hn
    subst hn
    exact hc m hm

theorem addAll_mixed (ds : Nat) (gs : List Seq) (st : List Mapping) (hw : Wf st) (hg : ∀ g ∈ gs, GOk g)
    (hd : gs.Pairwise (fun g k => g.end ≤ k.begin)) (hsz : ∀ g ∈ gs, g.end - g.begin ≤ 2 ^ 32)
    (hpc : ∀ g ∈ gs, toM g ∈ st ∨ Clear st g.begin g.end) :
    addAll ds st gs = .ok (st ++ (gs.filter (fun g => (lookup st g.begin).isNone)).map toM) ∧
      Wf (st ++ (gs.filter (fun g => (lookup st g.begin).isNone)).map toM) := by
  induction gs generalizing st with
  | nil => simp only [addAll, List.filter_nil, List.map_nil, List.append_nil]; exact ⟨trivial, hw⟩
  | cons g gs ih =>
    have hg0 := hg g (by simp)
    have hlt := hg0.lt
    rw [List.pairwise_cons] at hd
    rcases hpc g (by simp) with hp | hc
    · have h1 : lookup st g.begin = some (toM g) := lookup_of_mem hw hp ⟨Nat.le_refl _, hlt.2⟩
      have := ih st hw (fun k hk => hg k (by simp [hk])) hd.2 (fun k hk => hsz k (by simp [hk])) (fun k hk => hpc k (by simp [hk]))
      rw [List.filter_cons_of_neg (by rw [h1]; simp)]
      unfold addAll
      rw [add_present ds hw hg0 hp]
      exact this
    · have h1 : lookup st g.begin = none := by
        rw [lookup_none]; intro m hm hx; have := hc m hm; omega
      have hw1 := add_wf hw hg0 hc
      have := ih (st ++ [toM g]) hw1 (fun k hk => hg k (by simp [hk])) hd.2 (fun k hk => hsz k (by simp [hk])) (by
        intro k hk
        rcases hpc k (by simp [hk]) with h | h
        · left; simp [h]
        · right
          intro m hm
          rcases List.mem_append.1 hm with x | x
          · exact h m x
          · rw [List.mem_singleton] at x; rw [x]
            left; exact hd.1 k hk)
      have hf : gs.filter (fun k => (lookup (st ++ [toM g]) k.begin).isNone) = gs.filter (fun k => (lookup st k.begin).isNone) := by
        apply List.filter_congr
        intro k hk
        have h2 : lookup [toM g] k.begin = none := by
          rw [lookup_none]
          intro m hm hx
          rw [List.mem_singleton] at hm
          subst hm
          have := hd.1 k hk
          have hx2 : k.begin < g.end := hx.2
          omega
        rw [lookup_append, h2, Option.or_none]
      rw [List.filter_cons_of_pos (by rw [h1]; rfl)]
      unfold addAll
      rw [add_clear ds hg0 (hsz g (by simp)) hc]
      simp only
      rw [hf] at this
      simpa using this

theorem told_iff {gs : List Seq} (hg : ∀ g ∈ gs, GOk g) (a : Nat) : told gs a ≠ none ↔ ∃ g ∈ gs, g.begin ≤ a ∧ a < g.end := by
  induction gs with
  | nil => simp [told]
  | cons g gs ih =>
    have h0 := info_iff (hg g (by simp)).run a
    have ih := ih (fun k hk => hg k (by simp [hk]))
    show (info g a).or (told gs a) ≠ none ↔ _
    rw [ne_eq, Option.or_eq_none_iff, Classical.not_and_iff_not_or_not]
    constructor
    · rintro (h | h)
      · exact ⟨g, by simp, h0.1 h⟩
      · obtain ⟨k, hk, hx⟩ := ih.1 h
        exact ⟨k, by simp [hk], hx⟩
    · rintro ⟨k, hk, hx⟩
      rcases List.mem_cons.1 hk with e | e
      · left; rw [e] at hx; exact h0.2 hx
      · right; exact ih.2 ⟨k, e, hx⟩

theorem infoAt_groups {gs : List Seq} (hg : ∀ g ∈ gs, GOk g) (a : Nat) : infoAt (gs.map toM) a = told gs a := by
  induction gs with
  | nil => rfl
  | cons g gs ih =>
    have ih := ih (fun k hk => hg k (by simp [hk]))
    show infoAt (toM g :: gs.map toM) a = (info g a).or (told gs a)
    rw [← ih]
    unfold infoAt lookup
    by_cases c : g.begin ≤ a ∧ a < g.end
    · rw [List.find?_cons_of_pos (by exact decide_eq_true c)]
      have := (info_iff (hg g (by simp)).run a).2 c
      simp only [toM]
      cases h : info g a with
      | none => exact absurd h this
      | some _ => rfl
    · rw [List.find?_cons_of_neg (by exact fun h => c (of_decide_eq_true h))]
      have : info g a = none := by
        apply Classical.byContradiction
        intro hx; exact c ((info_iff (hg g (by simp)).run a).1 hx)
      rw [this]; rfl

theorem infoAt_append (l1 l2 : List Mapping) (a : Nat) (h : ∀ m ∈ l1, m.begin ≤ a → a < m.end → info m.seq a ≠ none) :
    infoAt (l1 ++ l2) a = (infoAt l1 a).or (infoAt l2 a) := by
  unfold infoAt
  rw [lookup_append]
  cases hl : lookup l1 a with
  | none => rfl
  | some m =>
    obtain ⟨x1, x2, x3⟩ := lookup_mem hl
    have := h m x1 x2 x3
    show info m.seq a = (info m.seq a).or _
    cases hi : info m.seq a with
    | none => exact absurd hi this
    | some _ => rfl

theorem info_mwf {m : Mapping} (h : MWf m) {a : Nat} (h1 : m.begin ≤ a) (h2 : a < m.end) : info m.seq a ≠ none := by
  have hr : Run m.seq := by rcases h.inv.1.2 with ⟨z, _⟩ | h'; exact absurd z h.ne; exact h'
  rw [info_iff hr, h.sb, h.se]; exact ⟨h1, h2⟩

theorem said_iff {endA : Nat} (ls : List Line) (a : Nat) :
    said endA ls a ≠ none ↔ ∃ l ∈ ls, ¬ Skip endA l ∧ l.first ≤ a ∧ a < top endA l := by
  induction ls with
  | nil => simp [said]
  | cons l ls ih =>
    unfold said
    split
    · rename_i c; simp [c]
    · rename_i c
      rw [ih]
      constructor
      · rintro ⟨k, hk, hx⟩; exact ⟨k, by simp [hk], hx⟩
      · rintro ⟨k, hk, hx⟩
        rcases List.mem_cons.1 hk with e | e
        · rw [e] at hx; exact absurd hx c
        · exact ⟨k, e, hx⟩

/-- No stretch covered without a gap is larger than 4 GiB. -/
def NoHuge (endA : Nat) (ls : List Line) : Prop :=
  ∀ lo hi, (∀ a, lo ≤ a → a < hi → said endA ls a ≠ none) → hi - lo ≤ 2 ^ 32

/-- **C91.** The first scan records exactly what the lines say. -/
theorem scan_exact (obj : Nat → Nat) (ds endA : Nat) {st : List Mapping} {ls : List Line} (hw : Wf st) (hm : MapOk endA ls)
    (hz : NoHuge endA ls) (hc : ∀ l ∈ ls, ¬ Skip endA l → Clear st l.first (top endA l)) :
    ∃ new, scan obj ds endA st ls = .ok (st ++ new) ∧ Wf (st ++ new) ∧
      (∀ m ∈ new, m.seq.nused ≤ 8) ∧ new.Pairwise (fun m n => m.end ≤ n.begin) ∧
      ∀ a, infoAt (st ++ new) a = (infoAt st a).or (said endA ls a) := by
  obtain ⟨gs, g1, g2, g3, _, g5⟩ := groups obj ls emptySeq hm (Or.inl rfl) (fun l _ => Nat.zero_le _)
  have g6 : ∀ a, told gs a = said endA ls a := fun a => by rw [g5, info_empty, Option.none_or]
  have hin : ∀ g ∈ gs, ∀ a, g.begin ≤ a → a < g.end → said endA ls a ≠ none := by
    intro g hg a h1 h2
    rw [← g6, told_iff g2]
    exact ⟨g, hg, h1, h2⟩
  have hclear : ∀ g ∈ gs, Clear st g.begin g.end := by
    intro g hg m hmem
    have hmw := hw.each m hmem
    have hml := hmw.lt
    have hgl := (g2 g hg).lt
    apply Classical.byContradiction
    intro hn
    obtain ⟨l, hl, hs, h1, h2⟩ := (said_iff ls _).1 (hin g hg (max m.begin g.begin) (by omega) (by omega))
    have := hc l hl hs m hmem
    omega
  obtain ⟨k1, k2⟩ := addAll_mixed ds gs st hw g2 g3 (fun g hg => hz _ _ (hin g hg)) (fun g hg => Or.inr (hclear g hg))
  have hall : gs.filter (fun g => (lookup st g.begin).isNone) = gs := by
    rw [List.filter_eq_self]
    intro g hg
    have : lookup st g.begin = none := by
      rw [lookup_none]; intro m hm hx
      have := hclear g hg m hm
      have := (g2 g hg).lt
      omega
    rw [this]; rfl
  rw [hall] at k1 k2
  refine ⟨gs.map toM, by rw [scan, g1]; exact k1, k2, ?_, ?_, ?_⟩
  · intro m hmm
    obtain ⟨g, hg, e⟩ := List.mem_map.1 hmm
    rw [← e]
    exact (g2 g hg).inv.1.1
  · rw [List.pairwise_map]; exact g3
  · intro a
    rw [infoAt_append _ _ _ (fun m hm h1 h2 => info_mwf (hw.each m hm) h1 h2), infoAt_groups g2, g6]

/-- **C92.** Scanning when some of the mappings are known already adds just the others.  What a scan from nothing gives
(`st0`) decides which those are. -/
theorem scan_missing (obj : Nat → Nat) (ds endA : Nat) {st st0 : List Mapping} {ls : List Line} (hw : Wf st) (hm : MapOk endA ls)
    (hz : NoHuge endA ls) (h0 : scan obj ds endA [] ls = .ok st0) (hpc : ∀ m ∈ st0, m ∈ st ∨ Clear st m.begin m.end) :
    scan obj ds endA st ls = .ok (st ++ st0.filter (fun m => (lookup st m.begin).isNone)) := by
  obtain ⟨gs, g1, g2, g3, _, g5⟩ := groups obj ls emptySeq hm (Or.inl rfl) (fun l _ => Nat.zero_le _)
  have g6 : ∀ a, told gs a = said endA ls a := fun a => by rw [g5, info_empty, Option.none_or]
  have hsz : ∀ g ∈ gs, g.end - g.begin ≤ 2 ^ 32 := by
    intro g hg
    apply hz
    intro a h1 h2
    rw [← g6, told_iff g2]
    exact ⟨g, hg, h1, h2⟩
  have hw0 : Wf ([] : List Mapping) := ⟨fun m hm => absurd hm List.not_mem_nil, List.Pairwise.nil⟩
  have e0 := (addAll_mixed ds gs [] hw0 g2 g3 hsz (fun g hg => Or.inr (by intro m hm; cases hm))).1
  have e1 : st0 = gs.map toM := by
    rw [scan, g1, e0] at h0
    have h0 := (Mmap.Out.ok.inj h0).symm
    rw [h0, List.nil_append]
    congr 1
    rw [List.filter_eq_self]
    intro g _; rfl
  have := (addAll_mixed ds gs st hw g2 g3 hsz (by
    intro g hg
    exact hpc (toM g) (by rw [e1]; exact List.mem_map_of_mem hg))).1
  rw [scan, g1, this, e1, List.filter_map]
  rfl

/-- Scanning the same map again changes nothing. -/
theorem scan_again (obj : Nat → Nat) (ds endA : Nat) {st st' : List Mapping} {ls : List Line} (hw : Wf st) (hm : MapOk endA ls)
    (hz : NoHuge endA ls) (hc : ∀ l ∈ ls, ¬ Skip endA l → Clear st l.first (top endA l))
    (h : scan obj ds endA st ls = .ok st') : scan obj ds endA st' ls = .ok st' := by
  have hw0 : Wf ([] : List Mapping) := ⟨fun m hm => absurd hm List.not_mem_nil, List.Pairwise.nil⟩
  obtain ⟨new0, n1, n2, _, _, n3⟩ := scan_exact obj ds endA hw0 hm hz (fun l _ _ m hm => by cases hm)
  rw [List.nil_append] at n1 n2
  have hin : ∀ m ∈ new0, ∀ a, m.begin ≤ a → a < m.end → said endA ls a ≠ none := by
    intro m hmem a h1 h2
    have := n3 a
    rw [List.nil_append] at this
    have hx : infoAt new0 a ≠ none := by
      unfold infoAt
      rw [lookup_of_mem n2 hmem ⟨h1, h2⟩]
      exact info_mwf (n2.each m hmem) h1 h2
    rw [this] at hx
    exact hx
  have hclear : ∀ m ∈ new0, Clear st m.begin m.end := by
    intro m hmem k hk
    have h1 := (hw.each k hk).lt
    have h2 := (n2.each m hmem).lt
    apply Classical.byContradiction
    intro hn
    obtain ⟨l, hl, hs, h1, h2⟩ := (said_iff ls _).1 (hin m hmem (max k.begin m.begin) (by omega) (by omega))
    have := hc l hl hs k hk
    omega
  have e := scan_missing obj ds endA hw hm hz n1 (fun m hmem => Or.inr (hclear m hmem))
  have hall : new0.filter (fun m => (lookup st m.begin).isNone) = new0 := by
    rw [List.filter_eq_self]
    intro m hmem
    have : lookup st m.begin = none := by
      rw [lookup_none]; intro k hk hx
      have := hclear m hmem k hk
      have := (n2.each m hmem).lt
      omega
    rw [this]; rfl
  rw [hall] at e
  have e' : st' = st ++ new0 := by rw [e] at h; exact (Mmap.Out.ok.inj h).symm
  obtain ⟨new, m1, m2, _⟩ := scan_exact obj ds endA hw hm hz hc
  rw [m1] at e
  have e3 : st ++ new = st ++ new0 := Mmap.Out.ok.inj e
  rw [e3] at m2
  rw [e']
  have e2 := scan_missing obj ds endA m2 hm hz n1 (fun m hmem => Or.inl (by simp [hmem]))
  rw [e2]
  have hnil : new0.filter (fun m => (lookup (st ++ new0) m.begin).isNone) = [] := by
    rw [List.filter_eq_nil_iff]
    intro m hmem
    rw [lookup_of_mem m2 (by simp [hmem]) ⟨Nat.le_refl _, (n2.each m hmem).lt⟩]
    simp
  rw [hnil, List.append_nil]

/-! ### One file, one sequence -/

theorem aug_join (obj : Nat → Nat) {s : Seq} {r : Req} (hs : GOk s) (hr : 0 < r.begin ∧ r.begin < r.end) (hea : r.end % PAGE = 0)
    (hg : s.end = r.begin) (hn : s.nused < 8) (hname : nameOkClean obj s r = true) :
    ∃ s', augment obj s r = .ret true s' ∧ GOk s' ∧ s'.begin = s.begin ∧ s'.end = r.end ∧ s'.nused = s.nused + 1 ∧
      s'.filename = s.filename ∧ s'.slots s.nused = r.entry := by
  rcases aug_abut obj hs hr hea hg with h | ⟨s', h1, h2, h3, h4, ⟨h5, h6, h7⟩, _⟩
  · exfalso
    have hlt := hs.lt
    have hsane : sane s = true := (sane_iff s).2 (Or.inr hs.run)
    have h2 : isClean s r = true := by simp [isClean, hg]
    have h3 : decide (r.begin ≥ s.begin) = true := by rw [decide_eq_true_eq]; omega
    have h4 : (s.nused != MAXLEN) = true := by
      have : MAXLEN = 8 := rfl
      rw [bne_iff_ne]; omega
    have hfin : ∀ x t, finish true x ≠ .ret false t := by
      intro x t hx; unfold finish at hx; split at hx <;> cases hx
    unfold augment at h
    rw [hsane, h2, h3, h4, hname] at h
    simp only [Bool.not_true, Bool.false_eq_true, if_false, Bool.true_or, Bool.and_self, if_true] at h
    rw [if_neg (by have : MAXLEN = 8 := rfl; omega)] at h
    exact hfin _ _ h
  · exact ⟨s', h1, h2, h3, h4, h5, h6, h7⟩

/-- Consecutive lines, each of the given file, or anonymous and following one of the file. -/
def Chain (n : Nat) : Line → List Line → Prop
  | _, [] => True
  | p, l :: ls => p.second = l.first ∧ (l.rest = .path n ∨ (l.rest = .empty ∧ p.rest = .path n)) ∧ Chain n l ls

/-- The last line. -/
def lastOf : Line → List Line → Line
  | p, [] => p
  | _, l :: ls => lastOf l ls

theorem chain_scan (obj : Nat → Nat) {endA n : Nat} (ls : List Line) (p : Line) (cur : Seq) (hm : MapOk endA ls) (hk : ∀ l ∈ ls, ¬ Skip endA l)
    (hch : Chain n p ls) (hc : GOk cur) (he : cur.end = p.second) (hf : cur.filename = some (2 * n + 1))
    (hlast : (cur.slots (cur.nused - 1)).anon = true → p.rest ≠ .path n) (hcal : (cur.slots (cur.nused - 1)).caller = 0)
    (hlen : cur.nused + ls.length ≤ 8) :
    ∃ s, (∀ ds st, scanFrom obj ds endA st cur ls = addIfAbsent ds st s) ∧ GOk s ∧ s.begin = cur.begin ∧ s.end = (lastOf p ls).second ∧
      s.nused = cur.nused + ls.length ∧ s.filename = some (2 * n + 1) := by
  induction ls generalizing p cur with
  | nil =>
    refine ⟨cur, ?_, hc, rfl, he, rfl, hf⟩
    intro ds st
    unfold scanFrom
    rw [if_pos hc.run.pos]
  | cons l ls ih =>
    have hm' : MapOk endA ls := ⟨hm.ea, fun k hk => hm.each k (by simp [hk]), (List.pairwise_cons.1 hm.sorted).2⟩
    have hlo := hm.each l (by simp)
    obtain ⟨c1, c2, c3⟩ := hch
    rcases kept_ok hm.ea hlo with ⟨hs, _⟩ | ⟨_, k, nm, hke, hn, r1, r2, r3, r4, r5, r6⟩
    · exact absurd hs (hk l (by simp))
    · have hr : 0 < (reqOf k nm).begin ∧ (reqOf k nm).begin < (reqOf k nm).end := by rw [r1, r2]; exact ⟨hlo.pos, r3⟩
      have hnh : l.rest ≠ .heap := by rcases c2 with c | ⟨c, _⟩ <;> rw [c] <;> simp
      have ht : top endA l = l.second := by simp only [top, hnh, if_false]
      have hfile : (reqOf k nm).filename = fileOf l.rest := congrArg Info.file (r6 0)
      have hcal' : (reqOf k nm).caller = 0 := rfl
      have hpos := hc.run.pos
      simp only [List.length_cons] at hlen
      obtain ⟨s', b1, b2, b3, b4, b5, b6, b7⟩ := aug_join obj hc hr (by rw [r2]; exact r5) (by rw [he, c1, r1]) (by omega) (by
        unfold nameOkClean
        rw [hfile, hf, hcal', hcal]
        rcases c2 with c | ⟨c, c'⟩
        · rw [c]; simp [fileOf]
        · have hna : (cur.slots (cur.nused - 1)).anon = false := by
            cases ha : (cur.slots (cur.nused - 1)).anon with
            | false => rfl
            | true => exact absurd c' (hlast ha)
          rw [c, hna]; simp [fileOf])
      obtain ⟨s, g1, g2, g3, g4, g5, g6⟩ := ih l s' hm' (fun k hk' => hk k (by simp [hk'])) c3 b2 (by rw [b4, r2, ht]) (b6.trans hf)
        (by
          rw [b5, show cur.nused + 1 - 1 = cur.nused from rfl, b7]
          intro ha hr
          have : (reqOf k nm).filename.isNone = true := ha
          rw [hfile, hr] at this
          simp [fileOf] at this)
        (by rw [b5, show cur.nused + 1 - 1 = cur.nused from rfl, b7]; rfl) (by omega)
      refine ⟨s, ?_, g2, g3.trans b3, g4, ?_, g6⟩
      · intro ds st
        rw [← g1]
        conv => lhs; unfold scanFrom
        simp only [addMissing, hke, extendCurrent, hn, b1]
      · rw [g5, b5, List.length_cons]; omega

/-- The consecutive mappings of one file, up to eight of them and each followed by at most one anonymous one, become one bigalloc. -/
theorem one_file_partial (obj : Nat → Nat) (ds endA n : Nat) {st : List Mapping} {l : Line} {ls : List Line} (hm : MapOk endA (l :: ls))
    (hk : ∀ k ∈ l :: ls, ¬ Skip endA k) (hl : l.rest = .path n) (hch : Chain n l ls) (hlen : ls.length < 8)
    (hsz : (lastOf l ls).second - l.first ≤ 2 ^ 32) (hc : Clear st l.first (lastOf l ls).second) :
    ∃ m, scan obj ds endA st (l :: ls) = .ok (st ++ [m]) ∧ m.begin = l.first ∧ m.end = (lastOf l ls).second ∧
      m.seq.nused = ls.length + 1 ∧ m.seq.filename = some (2 * n + 1) := by
  have hm' : MapOk endA ls := ⟨hm.ea, fun k hk => hm.each k (by simp [hk]), (List.pairwise_cons.1 hm.sorted).2⟩
  have hlo := hm.each l (by simp)
  rcases kept_ok hm.ea hlo with ⟨hs, _⟩ | ⟨_, k, nm, hke, hn, r1, r2, r3, r4, r5, r6⟩
  · exact absurd hs (hk l (by simp))
  · have hr : 0 < (reqOf k nm).begin ∧ (reqOf k nm).begin < (reqOf k nm).end := by rw [r1, r2]; exact ⟨hlo.pos, r3⟩
    have ht : top endA l = l.second := by simp only [top, hl, reduceCtorEq, if_false]
    have hfile : (reqOf k nm).filename = some (2 * n + 1) := by
      have := congrArg Info.file (r6 0); rw [show (what l 0).file = fileOf l.rest from rfl, hl] at this; exact this
    obtain ⟨s0, a1, a2, a3, a4, ⟨a5, a6, a7⟩, _⟩ := aug_start obj hr (by rw [r1]; exact hlo.fa) (by rw [r2]; exact r5)
    obtain ⟨s, g1, g2, g3, g4, g5, g6⟩ := chain_scan obj ls l s0 hm' (fun k hk' => hk k (by simp [hk'])) hch a2 (by rw [a4, r2, ht])
      (a6.trans hfile) (by
        rw [a5, show 1 - 1 = 0 from rfl, a7]
        intro ha
        have : (reqOf k nm).filename.isNone = true := ha
        rw [hfile] at this
        simp at this) (by rw [a5, show 1 - 1 = 0 from rfl, a7]; rfl) (by omega)
    refine ⟨toM s, ?_, by rw [show (toM s).begin = s.begin from rfl, g3, a3, r1], g4, by rw [show (toM s).seq = s from rfl, g5, a5]; omega, g6⟩
    have hb : s.begin = l.first := by rw [g3, a3, r1]
    rw [← add_clear ds g2 (by rw [g4, hb]; exact hsz) (by rw [g4, hb]; exact hc), ← g1]
    unfold scan
    conv => lhs; unfold scanFrom
    simp only [addMissing, hke, extendCurrent, hn, a1]

/-! ### Reconciling one sequence -/

theorem entriesEq_iff {s t : Seq} {i j n : Nat} : entriesEq s t i j n = true ↔ ∀ k, k < n → s.slots (i + k) = t.slots (j + k) := by
  unfold entriesEq
  rw [List.all_eq_true]
  simp only [List.mem_range, decide_eq_true_eq]

theorem prefix_begin {s t : Seq} (hs : Run s) (ht : Run t) (h : prefixOf s t = true) : s.begin = t.begin := by
  unfold prefixOf at h
  rw [Bool.and_eq_true, Bool.or_eq_true] at h
  have hp := hs.pos
  have hq := ht.pos
  rw [hs.first, ht.first]
  rcases h.2 with h2 | h2
  · have := entriesEq_iff.1 h2 0 hp
    simp only [Nat.zero_add] at this
    rw [this]
  · simp only [Bool.and_eq_true, beq_iff_eq] at h2
    obtain ⟨⟨⟨⟨⟨x1, x2⟩, x3⟩, x4⟩, x5⟩, x6⟩ := h2
    rcases Nat.eq_zero_or_pos (s.nused - 1) with e | e
    · rw [← x2, e] at x5; exact x5
    · have := entriesEq_iff.1 x1 0 e
      simp only [Nat.zero_add] at this
      rw [this]

/-- Attributes and file position agree. -/
def Agree (x y : Option Info) : Prop := ∃ i j, x = some i ∧ y = some j ∧ i.attr = j.attr ∧ i.pos = j.pos

theorem Agree.self {s : Seq} (h : Run s) {a : Nat} (h1 : s.begin ≤ a) (h2 : a < s.end) : Agree (info s a) (info s a) := by
  cases hi : info s a with
  | none => exact absurd hi ((info_iff h a).2 ⟨h1, h2⟩)
  | some i => exact ⟨i, i, rfl, rfl, rfl, rfl⟩

theorem suffix_agree {s t : Seq} (hs : Run s) (ht : Run t) (h : suffixOf s t = true) {a : Nat} (h1 : s.begin ≤ a) (h2 : a < s.end) :
    Agree (info s a) (info t a) := by
  unfold suffixOf at h
  rw [Bool.and_eq_true, decide_eq_true_eq, entriesEq_iff] at h
  obtain ⟨i, j1, j2, j3⟩ := hs.locate a h1 h2
  have e := h.2 i j1
  rw [Nat.zero_add] at e
  unfold info
  rw [(findEntry_run hs a).1 i j1 j2 j3, (findEntry_run ht a).1 (t.nused - s.nused + i) (by omega) (by rw [e]; exact j2) (by rw [e]; exact j3), e]
  exact ⟨_, _, rfl, rfl, rfl, rfl⟩

theorem suffix_end {s t : Seq} (hs : Run s) (ht : Run t) (h : suffixOf s t = true) : s.end = t.end := by
  unfold suffixOf at h
  rw [Bool.and_eq_true, decide_eq_true_eq, entriesEq_iff] at h
  have hp := hs.pos
  have e := h.2 (s.nused - 1) (by omega)
  rw [Nat.zero_add, show t.nused - s.nused + (s.nused - 1) = t.nused - 1 by omega] at e
  rw [hs.last, ht.last, e]

theorem lookup_filter {st : List Mapping} (hw : Wf st) (p : Mapping → Bool) (a : Nat) : lookup (st.filter p) a = (lookup st a).filter p := by
  have hwf : Wf (st.filter p) := ⟨fun m hm => hw.each m (List.mem_filter.1 hm).1, hw.disj.filter p⟩
  cases hl : lookup st a with
  | none =>
    rw [lookup_none] at hl
    simp only [Option.filter_none]
    rw [lookup_none]
    intro m hm; exact hl m (List.mem_filter.1 hm).1
  | some m =>
    obtain ⟨x1, x2, x3⟩ := lookup_mem hl
    cases hp : p m with
    | true =>
      rw [Option.filter_some, if_pos hp]
      exact lookup_of_mem hwf (List.mem_filter.2 ⟨x1, hp⟩) ⟨x2, x3⟩
    | false =>
      rw [Option.filter_some, if_neg (by rw [hp]; simp), lookup_none]
      intro n hn hx
      obtain ⟨n1, n2⟩ := List.mem_filter.1 hn
      rw [hw.inj n1 x1 hx ⟨x2, x3⟩, hp] at n2
      cases n2

/-- What reconciling achieves. -/
structure Reconciled (st : List Mapping) (s : Seq) (st' : List Mapping) : Prop where
  wf : Wf st'
  inside : ∀ a, s.begin ≤ a → a < s.end → Agree (infoAt st' a) (info s a) ∧ (infoAt st' a = info s a ∨ infoAt st' a = infoAt st a)
  outside : ∀ a, ¬ (s.begin ≤ a ∧ a < s.end) → infoAt st' a = infoAt st a ∨
    (infoAt st' a = none ∧ ∃ m ∈ st, m.begin ≤ a ∧ a < m.end ∧ m.begin < s.end ∧ s.begin < m.end)
  ends : ∀ a m, s.begin ≤ a → a < s.end → lookup st' a = some m → m.end ≤ s.end
  below : ∀ a m, a < s.begin → lookup st' a = some m → lookup st a = some m

theorem lookup_one (s : Seq) (a : Nat) : lookup [toM s] a = if s.begin ≤ a ∧ a < s.end then some (toM s) else none := by
  unfold lookup
  split
  · rename_i c; rw [List.find?_cons_of_pos (by exact decide_eq_true c)]
  · rename_i c; rw [List.find?_cons_of_neg (by exact fun h => c (of_decide_eq_true h))]; rfl

theorem goAhead_ok {st st' : List Mapping} {s : Seq} (h : goAhead st s = .ok st') : Clear st s.begin s.end ∧ st' = st ++ [toM s] := by
  unfold goAhead at h
  split at h
  · cases h
  · split at h
    · cases h
    · rename_i c
      refine ⟨?_, (Mmap.Out.ok.inj h).symm⟩
      intro m hm
      apply Classical.byContradiction
      intro hn
      apply c
      rw [List.any_eq_true]
      exact ⟨m, hm, by rw [decide_eq_true_eq]; omega⟩

theorem infoAt_add {st : List Mapping} {s : Seq} (hw : Wf st) (hg : GOk s) (hc : Clear st s.begin s.end) (a : Nat) :
    infoAt (st ++ [toM s]) a = if s.begin ≤ a ∧ a < s.end then info s a else infoAt st a := by
  rw [infoAt_append _ _ _ (fun m hm h1 h2 => info_mwf (hw.each m hm) h1 h2)]
  have h1 : infoAt [toM s] a = info s a := by
    have := infoAt_groups (gs := [s]) (by simpa using hg) a
    rw [show List.map toM [s] = [toM s] from rfl] at this
    rw [this]; simp [told]
  rw [h1]
  split
  · rename_i c
    have : infoAt st a = none := by
      unfold infoAt
      have : lookup st a = none := by
        rw [lookup_none]; intro m hm hx; have := hc m hm; omega
      rw [this]
    rw [this]; rfl
  · rename_i c
    have : info s a = none := by
      apply Classical.byContradiction
      intro hx; exact c ((info_iff hg.run a).1 hx)
    rw [this, Option.or_none]

theorem goAhead_rec {st st' : List Mapping} {s : Seq} (hw : Wf st) (hg : GOk s) (h : goAhead st s = .ok st') : Reconciled st s st' := by
  obtain ⟨hc, e⟩ := goAhead_ok h
  subst e
  refine ⟨add_wf hw hg hc, ?_, ?_, ?_, ?_⟩
  · intro a h1 h2
    rw [infoAt_add hw hg hc, if_pos ⟨h1, h2⟩]
    exact ⟨Agree.self hg.run h1 h2, Or.inl rfl⟩
  · intro a ha
    rw [infoAt_add hw hg hc, if_neg ha]
    exact Or.inl rfl
  · intro a m h1 h2 hl
    have hno : lookup st a = none := by
      rw [lookup_none]; intro n hn hx; have := hc n hn; omega
    rw [lookup_append, hno, lookup_one, if_pos ⟨h1, h2⟩] at hl
    rw [← Option.some.inj hl]; exact Nat.le_refl _
  · intro a m h1 hl
    rw [lookup_append, lookup_one, if_neg (by omega), Option.or_none] at hl
    exact hl

theorem nuke_rec {ds : Nat} {st st' : List Mapping} {e : Mapping} {s : Seq} (hw : Wf st) (he : e ∈ st) (hov : e.begin < s.end ∧ s.begin < e.end)
    (hg : GOk s) (h : nuke ds st e.seq s = .ok st') : Reconciled st s st' := by
  have hme := hw.each e he
  unfold nuke at h
  split at h
  · cases h
  · have hwf : Wf (st.filter (fun m => !decide (m.begin < e.seq.end ∧ e.seq.begin < m.end))) :=
      ⟨fun m hm => hw.each m (List.mem_filter.1 hm).1, hw.disj.filter _⟩
    have hr := goAhead_rec hwf hg h
    have hfil : ∀ a, infoAt (st.filter (fun m => !decide (m.begin < e.seq.end ∧ e.seq.begin < m.end))) a = infoAt st a ∨
        (infoAt (st.filter (fun m => !decide (m.begin < e.seq.end ∧ e.seq.begin < m.end))) a = none ∧ ∃ m ∈ st, m.begin ≤ a ∧ a < m.end ∧ m = e) := by
      intro a
      unfold infoAt
      rw [lookup_filter hw]
      cases hl : lookup st a with
      | none => left; rfl
      | some m =>
        obtain ⟨x1, x2, x3⟩ := lookup_mem hl
        have hml := (hw.each m x1).lt
        by_cases c : m.begin < e.seq.end ∧ e.seq.begin < m.end
        · right
          rw [Option.filter_some, if_neg (by simp [c])]
          refine ⟨rfl, m, x1, x2, x3, ?_⟩
          have hel := hme.lt
          rw [hme.sb, hme.se] at c
          exact hw.inj x1 he (a := max m.begin e.begin) (by omega) (by omega)
        · left
          rw [Option.filter_some, if_pos (by simp only [decide_eq_false c, Bool.not_false])]
    refine ⟨hr.wf, ?_, ?_, hr.ends, ?_⟩
    · intro a h1 h2
      obtain ⟨hc, e'⟩ := goAhead_ok h
      subst e'
      rw [infoAt_add hwf hg hc, if_pos ⟨h1, h2⟩]
      exact ⟨Agree.self hg.run h1 h2, Or.inl rfl⟩
    · intro a ha
      obtain ⟨hc, e'⟩ := goAhead_ok h
      subst e'
      rw [infoAt_add hwf hg hc, if_neg ha]
      rcases hfil a with h' | ⟨h', m, m1, m2, m3, m4⟩
      · exact Or.inl h'
      · right
        refine ⟨h', m, m1, m2, m3, ?_⟩
        rw [m4]; exact hov
    · intro a m h1 hl
      have := hr.below a m h1 hl
      rw [lookup_filter hw, Option.filter_eq_some_iff] at this
      exact this.1

theorem swap_rec {st : List Mapping} {b : Mapping} {s : Seq} (hw : Wf st) (hb : b ∈ st) (hg : GOk s) (hbe : s.begin = b.begin)
    (hd : ∀ n ∈ st, n.begin ≠ b.begin → Disj n (toM s)) : Reconciled st s (subst st b [⟨b.begin, s.end, s⟩]) := by
  have hlt := hg.lt
  have hbl := (hw.each b hb).lt
  have e : (⟨b.begin, s.end, s⟩ : Mapping) = toM s := by unfold toM; rw [hbe]
  rw [e]
  have hd1 : ∀ m ∈ [toM s], ∀ n ∈ st, n.begin ≠ b.begin → Disj n m := by
    intro m hm n hn hx
    rw [List.mem_singleton] at hm
    subst hm
    exact hd n hn hx
  have hl := lookup_one s
  have hinfo : ∀ a, infoAt (subst st b [toM s]) a =
      if s.begin ≤ a ∧ a < s.end then info s a else if b.begin ≤ a ∧ a < b.end then none else infoAt st a := by
    intro a
    unfold infoAt
    rw [lookup_subst hw hb _ hd1, hl]
    by_cases c : s.begin ≤ a ∧ a < s.end
    · simp only [if_pos c]
      by_cases c' : b.begin ≤ a ∧ a < b.end
      · simp only [if_pos c']; rfl
      · simp only [if_neg c']; rfl
    · simp only [if_neg c]
      by_cases c' : b.begin ≤ a ∧ a < b.end
      · simp only [if_pos c']
      · simp only [if_neg c', Option.none_or]
  refine ⟨subst_wf' hw hb _ (by intro m hm; rw [List.mem_singleton] at hm; rw [hm]; exact toM_wf hg) hd1 (List.pairwise_singleton _ _), ?_, ?_, ?_, ?_⟩
  · intro a h1 h2
    rw [hinfo, if_pos ⟨h1, h2⟩]
    exact ⟨Agree.self hg.run h1 h2, Or.inl rfl⟩
  · intro a ha
    rw [hinfo, if_neg ha]
    split
    · rename_i c
      right
      exact ⟨rfl, b, hb, c.1, c.2, by omega, by omega⟩
    · exact Or.inl rfl
  · intro a m h1 h2 hlk
    rw [lookup_subst hw hb _ hd1, hl, if_pos (show s.begin ≤ a ∧ a < s.end from ⟨h1, h2⟩)] at hlk
    have : toM s = m := by
      split at hlk
      · exact Option.some.inj hlk
      · exact Option.some.inj hlk
    rw [← this]; exact Nat.le_refl _
  · intro a m h1 hlk
    rw [lookup_subst hw hb _ hd1, hl, if_neg (show ¬ (s.begin ≤ a ∧ a < s.end) by omega), if_neg (by omega), Option.none_or] at hlk
    exact hlk

theorem chop_ok {s : Seq} {e : Mapping} (hg : GOk s) (he : MWf e) (hms : memSuffix e.seq s = true) (hsu : suffixOf e.seq s = true)
    (hs : sane (chop s e.seq.nused e.seq.begin) = true) :
    GOk (chop s e.seq.nused e.seq.begin) ∧ (∀ a, a < e.begin → info (chop s e.seq.nused e.seq.begin) a = info s a) ∧
      s.begin < e.begin ∧ e.end = s.end := by
  have hre : Run e.seq := by rcases he.inv.1.2 with ⟨z, _⟩ | h'; exact absurd z he.ne; exact h'
  unfold memSuffix at hms
  rw [Bool.and_eq_true, beq_iff_eq, decide_eq_true_eq] at hms
  unfold suffixOf at hsu
  rw [Bool.and_eq_true, decide_eq_true_eq, entriesEq_iff] at hsu
  obtain ⟨hnu, hen⟩ := hsu
  have hep := hre.pos
  have hsp := hg.run.pos
  have hlt : s.begin < e.seq.begin := hms.2
  have hpos : s.nused - e.seq.nused ≠ 0 := by
    intro h0
    have := hen 0 hep
    rw [h0] at this
    simp only [Nat.add_zero] at this
    rw [hg.run.first, hre.first, this] at hlt
    omega
  have hrun : Run (chop s e.seq.nused e.seq.begin) := by
    rcases (sane_iff _).1 hs with h | h
    · exact absurd h hpos
    · exact h
  have hsl : ∀ i, i < s.nused - e.seq.nused → (chop s e.seq.nused e.seq.begin).slots i = s.slots i := by
    intro i hi
    show (if _ then _ else _) = _
    rw [if_neg (by omega)]
  have hz : ∀ i, s.nused - e.seq.nused ≤ i → (chop s e.seq.nused e.seq.begin).slots i = zero := by
    intro i hi
    show (if _ then _ else _) = _
    split
    · rfl
    · exact hg.tidy i (by omega)
  refine ⟨⟨⟨⟨?_, Or.inr hrun⟩, ?_⟩, hrun, hg.ba, ?_, hz⟩, ?_, by rw [← he.sb]; exact hlt, by rw [← he.se]; exact hms.1⟩
  · show s.nused - e.seq.nused ≤ MAXLEN
    have := hg.inv.1.1; omega
  · intro i _
    by_cases c : i < s.nused - e.seq.nused
    · right
      obtain ⟨n1, n2⟩ := hrun.nonempty i c
      refine ⟨n1, n2, ?_, ?_⟩
      · rw [hrun.first]
        rcases Nat.eq_zero_or_pos i with z | z
        · rw [z]; exact Nat.le_refl _
        · have := hrun.mono 0 i z c
          have := (hrun.nonempty 0 hrun.pos).2
          omega
      · rw [hrun.last]
        have hnn : (chop s e.seq.nused e.seq.begin).nused = s.nused - e.seq.nused := rfl
        rw [hnn]
        rcases Nat.eq_or_lt_of_le (Nat.le_sub_one_of_lt c) with z | z
        · rw [z]; exact Nat.le_refl _
        · have := hrun.mono i (s.nused - e.seq.nused - 1) z (by rw [hnn]; omega)
          have := (hrun.nonempty (s.nused - e.seq.nused - 1) (by rw [hnn]; omega)).2
          omega
    · left; exact hz i (by omega)
  · show e.seq.begin % PAGE = 0
    rw [he.sb]; exact he.ba
  · intro a ha
    by_cases c : s.begin ≤ a
    · obtain ⟨i, j1, j2, j3⟩ := hrun.locate a c (by show a < e.seq.begin; rw [he.sb]; exact ha)
      have j1' : i < s.nused - e.seq.nused := j1
      unfold info
      rw [(findEntry_run hrun a).1 i j1 j2 j3]
      rw [hsl i j1'] at j2 j3 ⊢
      rw [(findEntry_run hg.run a).1 i (by omega) j2 j3]
      rfl
    · unfold info
      rw [(findEntry_run hrun a).2 (Or.inl (by show a < s.begin; omega)), (findEntry_run hg.run a).2 (Or.inl (by omega))]
      rfl

theorem infoAt_mem {st : List Mapping} (hw : Wf st) {b : Mapping} (hb : b ∈ st) {a : Nat} (h : b.begin ≤ a ∧ a < b.end) :
    infoAt st a = info b.seq a := by
  unfold infoAt; rw [lookup_of_mem hw hb h]

theorem Wf.disj_of {st : List Mapping} (hw : Wf st) {m n : Mapping} (hm : m ∈ st) (hn : n ∈ st) (h : m.begin ≠ n.begin) : Disj m n := by
  have h1 := (hw.each m hm).lt
  have h2 := (hw.each n hn).lt
  apply Classical.byContradiction
  intro hc
  unfold Disj at hc
  apply h
  rw [hw.inj hm hn (a := max m.begin n.begin) (by omega) (by omega)]

/-- **C93.** Reconciling a sequence with what is known: if it succeeds, every address of the sequence has the sequence's attributes
and file position, and elsewhere knowledge is kept, except that a known mapping met by the sequence may be dropped or cut. -/
theorem reconcile_partial {ds : Nat} {st st' : List Mapping} {s : Seq} (hw : Wf st) (hg : GOk s) (h : addIfAbsent ds st s = .ok st') :
    Reconciled st s st' := by
  have hlt := hg.lt
  unfold addIfAbsent at h
  split at h
  · cases h
  · rename_i hne
    split at h
    · exact goAhead_rec hw hg h
    · rename_i e hb0 he0
      obtain ⟨e1, e2, e3⟩ := lookup_mem he0
      have hme := hw.each e e1
      have hel := hme.lt
      have hre : Run e.seq := by rcases hme.inv.1.2 with ⟨z, _⟩ | h'; exact absurd z hme.ne; exact h'
      rw [lookup_none] at hb0
      have hnb := hb0 e e1
      unfold onlyEnd at h
      split at h
      · rename_i hms
        split at h
        · rename_i hsu
          split at h
          · rename_i hsane
            obtain ⟨k1, k2, k3, k4⟩ := chop_ok hg hme hms hsu hsane.1
            have hr := goAhead_rec hw k1 h
            have hce : (chop s e.seq.nused e.seq.begin).end = e.begin := hme.sb
            have hcb : (chop s e.seq.nused e.seq.begin).begin = s.begin := rfl
            have hkeep : ∀ a m, e.begin ≤ a → lookup st' a = some m → a < s.end → m = e := by
              intro a m h1 hl h2
              have hs' := (goAhead_ok h).2
              subst hs'
              rw [lookup_append, lookup_of_mem hw e1 ⟨h1, by omega⟩] at hl
              exact (Option.some.inj hl).symm
            refine ⟨hr.wf, ?_, ?_, ?_, ?_⟩
            · intro a h1 h2
              by_cases c : a < e.begin
              · have := hr.inside a (by rw [hcb]; exact h1) (by rw [hce]; exact c)
                rw [k2 a c] at this
                exact this
              · have hin : infoAt st a = info e.seq a := infoAt_mem hw e1 ⟨by omega, by omega⟩
                rcases hr.outside a (by rw [hce]; omega) with h' | ⟨_, m, m1, m2, m3, m4, m5⟩
                · rw [h']
                  refine ⟨?_, Or.inr rfl⟩
                  rw [hin]
                  exact suffix_agree hre hg.run hsu (by rw [hme.sb]; omega) (by rw [hme.se]; omega)
                · exfalso
                  have := hw.inj m1 e1 (a := a) ⟨m2, m3⟩ ⟨by omega, by omega⟩
                  rw [this, hce] at m4
                  omega
            · intro a ha
              rcases hr.outside a (by rw [hce, hcb]; omega) with h' | ⟨h', m, m1, m2, m3, m4, m5⟩
              · exact Or.inl h'
              · right
                rw [hce] at m4
                exact ⟨h', m, m1, m2, m3, by omega, m5⟩
            · intro a m h1 h2 hl
              by_cases c : a < e.begin
              · have := hr.ends a m (by rw [hcb]; exact h1) (by rw [hce]; exact c) hl
                rw [hce] at this; omega
              · rw [hkeep a m (by omega) hl h2, k4]; exact Nat.le_refl _
            · intro a m h1 hl
              exact hr.below a m (by rw [hcb]; exact h1) hl
          · cases h
        · exact nuke_rec hw e1 ⟨by omega, by omega⟩ hg h
      · rename_i hms
        split at h
        · rename_i hone
          exfalso
          split at h
          · rename_i hsane
            rcases (sane_iff _).1 hsane with hz | hrun
            · have : e.seq.nused = 0 := hz
              omega
            · have h1 : e.seq.end = _ := hrun.last
              have h2 : ({ MapSeq.setSlot e.seq 0 (s.slots 0) with begin := s.begin } : Seq).nused - 1 = 0 := by
                show e.seq.nused - 1 = 0; omega
              rw [h2] at h1
              have h3 : e.seq.end = (s.slots 0).end := h1
              have h4 := hg.run.last
              rw [hone.1] at h4
              have h5 : s.end = (s.slots 0).end := h4
              apply hms
              unfold memSuffix
              rw [Bool.and_eq_true, beq_iff_eq, decide_eq_true_eq]
              refine ⟨by rw [h3, h5], ?_⟩
              rw [hme.sb]
              omega
          · cases h
        · exact nuke_rec hw e1 ⟨by omega, by omega⟩ hg h
    · rename_i b hb0 he0
      obtain ⟨b1, b2, b3⟩ := lookup_mem hb0
      have hmb := hw.each b b1
      have hrb : Run b.seq := by rcases hmb.inv.1.2 with ⟨z, _⟩ | h'; exact absurd z hmb.ne; exact h'
      rw [lookup_none] at he0
      unfold onlyBegin at h
      split at h
      · rename_i hp
        split at h
        · cases h
        · split at h
          · cases h
          · rename_i hmeet
            have hbe := prefix_begin hrb hg.run hp
            rw [hmb.sb] at hbe
            have e := Mmap.Out.ok.inj h
            rw [← e]
            refine swap_rec hw b1 hg hbe.symm ?_
            intro n hn hx
            have hnl := (hw.each n hn).lt
            have hdis := Wf.disj_of hw hn b1 hx
            have h1 : ¬ (n.begin < s.end ∧ b.end < n.end) := by
              intro c
              apply hmeet
              unfold meets
              rw [List.any_eq_true]
              exact ⟨n, hn, by rw [Bool.and_eq_true, decide_eq_true_eq]; exact ⟨by simpa using hx, c⟩⟩
            unfold Disj at hdis ⊢
            show n.end ≤ s.begin ∨ s.end ≤ n.begin
            omega
      · cases h
    · rename_i b e hb0 he0
      obtain ⟨b1, b2, b3⟩ := lookup_mem hb0
      obtain ⟨e1, e2, e3⟩ := lookup_mem he0
      split at h
      · rename_i hbe
        have heq : b = e := by
          apply hw.inj b1 e1 (a := b.begin) ⟨Nat.le_refl _, (hw.each b b1).lt⟩
          exact ⟨by omega, by have := (hw.each e e1).lt; omega⟩
        subst heq
        have hmb := hw.each b b1
        have hrb : Run b.seq := by rcases hmb.inv.1.2 with ⟨z, _⟩ | h'; exact absurd z hmb.ne; exact h'
        unfold within at h
        split at h
        · rename_i hsu
          rw [Bool.and_eq_true] at hsu
          have e := Mmap.Out.ok.inj h
          subst e
          refine ⟨hw, ?_, fun a _ => Or.inl rfl, ?_, fun a m _ hl => hl⟩
          · intro a h1 h2
            refine ⟨?_, Or.inr rfl⟩
            rw [infoAt_mem hw b1 ⟨by omega, by omega⟩]
            exact suffix_agree hrb hg.run hsu.1 (by rw [hmb.sb]; omega) (by rw [hmb.se]; omega)
          · intro a m h1 h2 hl
            rw [lookup_of_mem hw b1 ⟨by omega, by omega⟩] at hl
            rw [← Option.some.inj hl, ← hmb.se, suffix_end hrb hg.run hsu.1]
            exact Nat.le_refl _
        · split at h
          · rename_i hp
            have hbe := prefix_begin hg.run hrb hp
            rw [hmb.sb] at hbe
            have hd : ∀ n ∈ st, n.begin ≠ b.begin → Disj n (toM s) := by
              intro n hn hx
              have hdis := Wf.disj_of hw hn b1 hx
              unfold Disj at hdis ⊢
              show n.end ≤ s.begin ∨ s.end ≤ n.begin
              omega
            split at h
            · rename_i hee
              rw [hmb.se] at hee
              have e := Mmap.Out.ok.inj h
              rw [← e, ← hee]
              exact swap_rec hw b1 hg hbe hd
            · have e := Mmap.Out.ok.inj h
              rw [← e]
              exact swap_rec hw b1 hg hbe hd
          · exact nuke_rec hw b1 ⟨by omega, by omega⟩ hg h
      · cases h

/-! ### Exactly when a known mapping is continued -/

/-- `t` continues `s`: its entries begin with those of `s`, or they are those of `s` but for the last, an anonymous one that grew. -/
def Continues (s t : Seq) : Prop :=
  (s.nused ≤ t.nused ∧ ∀ i, i < s.nused → s.slots i = t.slots i) ∨
  (s.nused = t.nused ∧ (∀ i, i + 1 < s.nused → s.slots i = t.slots i) ∧
    ∃ x y : Entry, s.slots (s.nused - 1) = x ∧ t.slots (t.nused - 1) = y ∧ x.anon = true ∧ y.anon = true ∧ x.begin = y.begin ∧ x.end ≤ y.end)

theorem prefixOf_iff (s t : Seq) : prefixOf s t = true ↔ Continues s t := by
  unfold prefixOf Continues
  simp only [Bool.and_eq_true, Bool.or_eq_true, decide_eq_true_eq, entriesEq_iff, beq_iff_eq, Nat.zero_add]
  constructor
  · rintro ⟨h1, h | ⟨⟨⟨⟨⟨h2, h3⟩, h4⟩, h5⟩, h6⟩, h7⟩⟩
    · exact Or.inl ⟨h1, h⟩
    · exact Or.inr ⟨h3, fun i hi => h2 i (by omega), _, _, rfl, rfl, h4, h5, h6, h7⟩
  · rintro (⟨h1, h⟩ | ⟨h1, h2, x, y, rfl, rfl, h4, h5, h6, h7⟩)
    · exact ⟨h1, Or.inl h⟩
    · exact ⟨by omega, Or.inr ⟨⟨⟨⟨⟨fun i hi => h2 i (by omega), h1⟩, h4⟩, h5⟩, h6⟩, h7⟩⟩

instance (s t : Seq) : Decidable (Continues s t) := decidable_of_iff _ (prefixOf_iff s t)

/-- The same entries. -/
def Same (s t : Seq) : Prop := s.nused = t.nused ∧ ∀ i, i < s.nused → s.slots i = t.slots i

theorem same_iff (s t : Seq) : (suffixOf s t && suffixOf t s) = true ↔ Same s t := by
  unfold suffixOf Same
  simp only [Bool.and_eq_true, decide_eq_true_eq, entriesEq_iff, Nat.zero_add]
  constructor
  · rintro ⟨⟨h1, h2⟩, h3, h4⟩
    have e : s.nused = t.nused := by omega
    refine ⟨e, fun i hi => ?_⟩
    have := h4 i (by omega)
    rw [e, Nat.sub_self, Nat.zero_add] at this
    exact this
  · rintro ⟨e, h⟩
    refine ⟨⟨by omega, fun k hk => ?_⟩, by omega, fun k hk => ?_⟩
    · rw [e, Nat.sub_self, Nat.zero_add]; exact (h k hk).symm
    · rw [e, Nat.sub_self, Nat.zero_add]; exact h k (by omega)

instance (s t : Seq) : Decidable (Same s t) := decidable_of_iff _ (same_iff s t)

/-- **C93.** A sequence that goes on past the end of a known mapping, into free memory: it takes the mapping's place if it continues it
and adds at most 4 GiB, else the program ends. -/
theorem past_end (ds : Nat) {st : List Mapping} {b : Mapping} {s : Seq} (hw : Wf st) (hg : GOk s) (hb : lookup st s.begin = some b)
    (hlt : b.end < s.end) (hc : Clear st b.end s.end) :
    addIfAbsent ds st s = if Continues b.seq s ∧ s.end ≤ b.end + 2 ^ 32 then .ok (subst st b [toM s]) else .abort := by
  obtain ⟨b1, b2, b3⟩ := lookup_mem hb
  have hmb := hw.each b b1
  have hrb : Run b.seq := by rcases hmb.inv.1.2 with ⟨z, _⟩ | h'; exact absurd z hmb.ne; exact h'
  have he : lookup st (s.end - 1) = none := by
    rw [lookup_none]; intro m hm hx; have := hc m hm; omega
  have hne : s.nused ≠ 0 := by have := hg.run.pos; omega
  have hB : Syscalls.BIGGEST = 2 ^ 32 := rfl
  have hmeet : meets st b.begin b.end s.end = false := by
    unfold meets
    rw [List.any_eq_false]
    intro m hm
    have := hc m hm
    simp only [Bool.and_eq_true, decide_eq_true_eq]
    omega
  unfold addIfAbsent
  rw [if_neg hne, hb, he]
  simp only [onlyBegin, hB, hmeet]
  by_cases c : Continues b.seq s
  · have hbe := prefix_begin hrb hg.run ((prefixOf_iff _ _).2 c)
    rw [hmb.sb] at hbe
    rw [if_pos ((prefixOf_iff _ _).2 c)]
    by_cases c2 : s.end ≤ b.end + 2 ^ 32
    · rw [if_neg (by omega), if_neg (by simp), if_pos (And.intro c c2)]
      unfold toM; rw [hbe]
    · rw [if_pos (by omega), if_neg (fun h => c2 h.2)]
  · rw [if_neg (fun h => c ((prefixOf_iff _ _).1 h)), if_neg (fun h => c h.1)]

/-- **C93.** A sequence inside a known mapping: nothing changes if the entries are the same; if the mapping continues the sequence, the
mapping is cut to it; otherwise the mapping is dropped and the sequence recorded, except that the mapping holding the executable's data
segment is never dropped. -/
theorem inside_known (ds : Nat) {st : List Mapping} {b : Mapping} {s : Seq} (hw : Wf st) (hg : GOk s) (hb : lookup st s.begin = some b)
    (hle : s.end ≤ b.end) (hsz : s.end ≤ s.begin + 2 ^ 32) :
    addIfAbsent ds st s =
      if Same b.seq s then .ok st
      else if Continues s b.seq then .ok (subst st b [toM s])
      else if ds ≠ 0 ∧ b.begin ≤ ds ∧ ds < b.end then .abort
      else .ok (st.filter (fun m => decide (m.begin ≠ b.begin)) ++ [toM s]) := by
  obtain ⟨b1, b2, b3⟩ := lookup_mem hb
  have hlt := hg.lt
  have hmb := hw.each b b1
  have hbl := hmb.lt
  have hrb : Run b.seq := by rcases hmb.inv.1.2 with ⟨z, _⟩ | h'; exact absurd z hmb.ne; exact h'
  have he : lookup st (s.end - 1) = some b := lookup_of_mem hw b1 ⟨by omega, by omega⟩
  have hne : s.nused ≠ 0 := by have := hg.run.pos; omega
  have hB : Syscalls.BIGGEST = 2 ^ 32 := rfl
  unfold addIfAbsent
  rw [if_neg hne, hb, he]
  simp only [if_true, within]
  by_cases c1 : Same b.seq s
  · rw [if_pos ((same_iff _ _).2 c1), if_pos c1]
  rw [if_neg (fun h => c1 ((same_iff _ _).1 h)), if_neg c1]
  by_cases c2 : Continues s b.seq
  · have hp := (prefixOf_iff _ _).2 c2
    have hbe := prefix_begin hg.run hrb hp
    rw [hmb.sb] at hbe
    rw [if_pos hp, if_pos c2]
    split
    · rename_i c3
      rw [hmb.se] at c3
      unfold toM; rw [hbe, c3]
    · unfold toM; rw [hbe]
  rw [if_neg (fun h => c2 ((prefixOf_iff _ _).1 h)), if_neg c2]
  unfold nuke
  rw [hmb.sb, hmb.se]
  by_cases c3 : ds ≠ 0 ∧ b.begin ≤ ds ∧ ds < b.end
  · rw [if_pos c3, if_pos c3]
  rw [if_neg c3, if_neg c3]
  have hf : st.filter (fun m => !decide (m.begin < b.end ∧ b.begin < m.end)) = st.filter (fun m => decide (m.begin ≠ b.begin)) := by
    apply List.filter_congr
    intro m hm
    have hml := (hw.each m hm).lt
    by_cases c4 : m.begin = b.begin
    · rw [decide_eq_true (p := m.begin < b.end ∧ b.begin < m.end) (by omega), decide_eq_false (p := m.begin ≠ b.begin) (fun h => h c4)]; rfl
    · have hd := Wf.disj_of hw hm b1 c4
      unfold Disj at hd
      rw [decide_eq_false (p := m.begin < b.end ∧ b.begin < m.end) (by omega), decide_eq_true (p := m.begin ≠ b.begin) c4]; rfl
  rw [hf]
  unfold goAhead
  rw [hB, if_neg (by omega), if_neg]
  · rfl
  · rw [Bool.not_eq_true, List.any_eq_false]
    intro m hm
    rw [List.mem_filter, decide_eq_true_eq] at hm
    have hd := Wf.disj_of hw hm.1 b1 hm.2
    unfold Disj at hd
    rw [decide_eq_true_eq]
    omega

theorem addAll_sound {ds : Nat} (gs : List Seq) {st st' : List Mapping} (hw : Wf st) (hg : ∀ g ∈ gs, GOk g)
    (hd : gs.Pairwise (fun g k => g.end ≤ k.begin)) (h : addAll ds st gs = .ok st') :
    Wf st' ∧ (∀ a, told gs a ≠ none → Agree (infoAt st' a) (told gs a)) ∧
      ∀ a, (∀ g ∈ gs, a < g.begin) → (∀ m, lookup st a = some m → ∀ g ∈ gs, m.end ≤ g.begin) → infoAt st' a = infoAt st a := by
  induction gs generalizing st with
  | nil =>
    have e := Mmap.Out.ok.inj h
    subst e
    exact ⟨hw, fun a h => absurd rfl h, fun a _ _ => rfl⟩
  | cons g gs ih =>
    rw [List.pairwise_cons] at hd
    have hg0 := hg g (by simp)
    have hlt := hg0.lt
    unfold addAll at h
    split at h
    · rename_i st1 hadd
      have hr := reconcile_partial hw hg0 hadd
      obtain ⟨i1, i2, i3⟩ := ih hr.wf (fun k hk => hg k (by simp [hk])) hd.2 h
      refine ⟨i1, ?_, ?_⟩
      · intro a ha
        show Agree _ ((info g a).or (told gs a))
        by_cases c : g.begin ≤ a ∧ a < g.end
        · have h2 := i3 a (fun k hk => by have := hd.1 k hk; omega) (by
            intro m hm k hk
            have := hr.ends a m c.1 c.2 hm
            have := hd.1 k hk
            omega)
          obtain ⟨i, j, x1, x2, x3⟩ := (hr.inside a c.1 c.2).1
          rw [h2, x2]
          exact ⟨i, j, x1, rfl, x3⟩
        · have hn : info g a = none := by
            apply Classical.byContradiction
            intro hx; exact c ((info_iff hg0.run a).1 hx)
          have ha' : told gs a ≠ none := by
            have hx : (info g a).or (told gs a) ≠ none := ha
            rw [hn] at hx; exact hx
          rw [hn]
          exact i2 a ha'
      · intro a h1 h2
        have hag := h1 g (by simp)
        have e1 := i3 a (fun k hk => h1 k (by simp [hk])) (by
          intro m hm k hk
          exact h2 m (hr.below a m hag hm) k (by simp [hk]))
        rw [e1]
        rcases hr.outside a (by omega) with h' | ⟨_, m, m1, m2, m3, m4, m5⟩
        · exact h'
        · exfalso
          have := h2 m (lookup_of_mem hw m1 ⟨m2, m3⟩) g (by simp)
          omega
    · rename_i hno
      exact absurd h (hno st')

/-- **C93.** Whatever was known before, if the scan succeeds then each address the lines speak of has the attributes and
file position that they say. -/
theorem scan_sound_partial {obj : Nat → Nat} {ds endA : Nat} {st st' : List Mapping} {ls : List Line} (hw : Wf st) (hm : MapOk endA ls)
    (h : scan obj ds endA st ls = .ok st') : Wf st' ∧ ∀ a, said endA ls a ≠ none → Agree (infoAt st' a) (said endA ls a) := by
  obtain ⟨gs, g1, g2, g3, _, g5⟩ := groups obj ls emptySeq hm (Or.inl rfl) (fun l _ => Nat.zero_le _)
  have g6 : ∀ a, told gs a = said endA ls a := fun a => by rw [g5, info_empty, Option.none_or]
  rw [scan, g1] at h
  obtain ⟨h1, h2, _⟩ := addAll_sound gs hw g2 g3 h
  exact ⟨h1, fun a ha => by rw [← g6] at ha ⊢; exact h2 a ha⟩

/-! ### What goes wrong -/

theorem beginNew_odd {obj : Nat → Nat} {ds : Nat} {st : List Mapping} {cur : Seq} {l : Line} (h : l.rest = .odd) :
    ∃ o, beginNew obj ds st cur l = .error o ∧ ∀ st', o ≠ .ok st' := by
  unfold beginNew
  have he : extendCurrent obj emptySeq l = .ret false emptySeq := by unfold extendCurrent; rw [h]; rfl
  cases hadd : addIfAbsent ds st cur with
  | ok st1 => simp only [he]; exact ⟨.abort, rfl, fun _ h => by cases h⟩
  | abort => exact ⟨_, rfl, fun _ h => by cases h⟩
  | spin => exact ⟨_, rfl, fun _ h => by cases h⟩
  | overlaid => exact ⟨_, rfl, fun _ h => by cases h⟩
  | overrun => exact ⟨_, rfl, fun _ h => by cases h⟩

/-- **C94.** One line the scan cannot classify (and does not leave out) ends the program, though the code says to keep going. -/
theorem odd_line_fails (obj : Nat → Nat) (ds endA : Nat) (ls : List Line) (st : List Mapping) (cur : Seq)
    (h : ∃ l ∈ ls, l.rest = .odd ∧ l.first < l.second ∧ ¬ Skip endA l) : ∀ st', scanFrom obj ds endA st cur ls ≠ .ok st' := by
  induction ls generalizing st cur with
  | nil => obtain ⟨l, hl, _⟩ := h; cases hl
  | cons k ls ih =>
    intro st' hok
    unfold scanFrom at hok
    split at hok
    · rename_i st1 s1 hadd
      have hls : ∃ l ∈ ls, l.rest = .odd ∧ l.first < l.second ∧ ¬ Skip endA l := by
        obtain ⟨l, hl, h1, h2, h3⟩ := h
        rcases List.mem_cons.1 hl with e | e
        · exfalso
          subst e
          simp only [Skip, not_or, not_and] at h3
          obtain ⟨c1, c2, c3⟩ := h3
          have hB : Syscalls.BIGGEST = 2 ^ 32 := rfl
          have hkept : kept endA l = some l := by
            unfold kept
            rw [hB, if_neg c1, if_neg (by omega), if_neg (by rw [h1]; simp)]
          unfold addMissing at hadd
          rw [hkept] at hadd
          have he : extendCurrent obj cur l = .ret false cur := by unfold extendCurrent; rw [h1]; rfl
          simp only [he] at hadd
          obtain ⟨o, ho, _⟩ := beginNew_odd (obj := obj) (ds := ds) (st := st) (cur := cur) h1
          rw [ho] at hadd
          cases hadd
        · exact ⟨l, e, h1, h2, h3⟩
      exact ih _ _ hls _ hok
    · rename_i o hadd
      subst hok
      unfold addMissing at hadd
      split at hadd
      · cases hadd
      · split at hadd
        · cases hadd
        · unfold beginNew at hadd
          split at hadd
          · split at hadd <;> cases hadd
          · rename_i hno
            injection hadd with hadd
            exact hno _ hadd
        · cases hadd
        · cases hadd

/-- The "silently extended" case of a single-entry sequence never gets past its sanity check. -/
theorem preextend_fails {ds : Nat} {st : List Mapping} {e : Mapping} {s : Seq} (hw : Wf st) (hg : GOk s) (hb : lookup st s.begin = none)
    (he : lookup st (s.end - 1) = some e) (h1 : s.nused = 1) (h2 : e.seq.nused = 1) (hend : s.end ≠ e.end) : addIfAbsent ds st s = .abort := by
  obtain ⟨e1, e2, e3⟩ := lookup_mem he
  have hme := hw.each e e1
  unfold addIfAbsent
  rw [if_neg (by omega), hb, he]
  simp only [onlyEnd]
  have hms : memSuffix e.seq s = false := by
    simp only [memSuffix, Bool.and_eq_false_iff, beq_eq_false_iff_ne, hme.se]
    left; exact fun h => hend h.symm
  rw [hms, if_neg (by simp), if_pos ⟨h1, h2⟩]
  rw [if_neg]
  intro hsane
  rcases (sane_iff _).1 hsane with hz | hrun
  · have : e.seq.nused = 0 := hz
    omega
  · have h3 : e.seq.end = _ := hrun.last
    have h4 : ({ MapSeq.setSlot e.seq 0 (s.slots 0) with begin := s.begin } : Seq).nused - 1 = 0 := by
      show e.seq.nused - 1 = 0; omega
    rw [h4] at h3
    have h5 : e.seq.end = (s.slots 0).end := h3
    have h6 := hg.run.last
    rw [h1] at h6
    have h7 : s.end = (s.slots 0).end := h6
    exact hend (by rw [h7, ← h5, hme.se])

/-! ### Concrete cases -/

/-- A library with its bss, an unrelated anonymous mapping, the stack, and a kernel page. -/
def demo : List Line :=
  [⟨0x1000, 0x2000, true, false, false, true, 0, .path 5⟩,
   ⟨0x2000, 0x4000, true, false, true, true, 0x1000, .path 5⟩,
   ⟨0x4000, 0x5000, true, true, false, true, 0x3000, .path 5⟩,
   ⟨0x5000, 0x6000, true, true, false, true, 0, .empty⟩,
   ⟨0x8000, 0x9000, true, true, false, true, 0, .heap⟩,
   ⟨0xa000, 0xb000, true, true, false, false, 0, .empty⟩,
   ⟨0x7000000, 0x7002000, true, true, false, true, 0, .stack 0⟩,
   ⟨0xffffffffff600000, 0xffffffffff601000, false, false, true, true, 0, .bracket⟩]

def noObj : Nat → Nat := fun _ => 0

/-- A short view of an outcome: bounds, number of entries and name of each known mapping. -/
def view : Mmap.Out → Option (List (Nat × Nat × Nat × Option Nat))
  | .ok st => some (st.map (fun m => (m.begin, m.end, m.seq.nused, m.seq.filename)))
  | _ => none

example : view (scan noObj 0 0x6000 [] demo) =
    some [(0x1000, 0x6000, 4, some 11), (0xa000, 0xb000, 1, none), (0x7000000, 0x7002000, 1, some 0)] := by decide +kernel

theorem demo_ok : MapOk 0x6000 demo := by
  refine ⟨by decide, ?_, by decide⟩
  intro l hl
  simp only [demo, List.mem_cons, List.not_mem_nil, or_false] at hl
  rcases hl with e | e | e | e | e | e | e | e <;> subst e <;> exact ⟨by decide, by decide, by decide, by decide, by decide, by decide⟩

/-- A heap line that begins before the executable's end is cut there and becomes anonymous memory. -/
example : view (scan noObj 0 0x3000 [] [⟨0x1000, 0x2000, true, true, false, true, 0, .path 5⟩, ⟨0x2000, 0x9000, true, true, false, true, 0, .heap⟩]) =
    some [(0x1000, 0x3000, 2, some 11)] := by decide +kernel

/-- The stack grew downwards between two scans: the old mapping is replaced. -/
example : view (match scan noObj 0 0 [] [⟨0x7000000, 0x7002000, true, true, false, true, 0, .stack 0⟩] with
    | .ok st => scan noObj 0 0 st [⟨0x6fff000, 0x7002000, true, true, false, true, 0, .stack 0⟩]
    | o => o) = some [(0x6fff000, 0x7002000, 1, some 0)] := by decide +kernel

/-- Nine consecutive mappings of one file are two bigallocs: `one_file_partial` needs its bound. -/
theorem one_file_fails : view (scan noObj 0 0 [] ((List.range 9).map (fun i =>
    ⟨0x1000 * (i + 1), 0x1000 * (i + 2), true, i % 2 == 0, false, true, 0x1000 * i, .path 5⟩))) =
    some [(0x1000, 0x9000, 8, some 11), (0x9000, 0xa000, 1, some 11)] := by decide +kernel

/-- Two adjacent anonymous mappings, each below the limit, are one sequence above it, and the program ends:
`scan_exact` needs `NoHuge`. -/
theorem scan_huge_fails : view (scan noObj 0 0 [] [⟨0x1000, 0xc0001000, true, true, false, true, 0, .empty⟩,
    ⟨0xc0001000, 0x180001000, true, false, false, true, 0, .empty⟩]) = none := by decide +kernel

/-- When another file now is mapped where a file was, with the same offset and rights, the old name stays: `scan_sound_partial`
cannot promise the file. -/
theorem scan_file_fails : view (match scan noObj 0 0 [] [⟨0x1000, 0x2000, true, false, false, true, 0, .path 5⟩] with
    | .ok st => scan noObj 0 0 st [⟨0x1000, 0x2000, true, false, false, true, 0, .path 6⟩]
    | o => o) = some [(0x1000, 0x2000, 1, some 11)] := by decide +kernel

/-- An anonymous mapping that has grown downwards and shrunk at its top (another took its place) meets the failing case. -/
theorem scan_preextend_fails : view (match scan noObj 0 0 [] [⟨0x3000, 0x6000, true, true, false, true, 0, .empty⟩] with
    | .ok st => scan noObj 0 0 st [⟨0x2000, 0x5000, true, true, false, true, 0, .empty⟩]
    | o => o) = none := by decide +kernel

/-- A file in a second scan that lies across two known mappings ends the program. -/
theorem scan_across_fails : view (match scan noObj 0 0 [] [⟨0x1000, 0x2000, true, true, false, true, 0, .path 5⟩, ⟨0x2000, 0x3000, true, true, false, true, 0, .path 6⟩] with
    | .ok st => scan noObj 0 0 st [⟨0x1000, 0x3000, true, true, false, true, 0, .path 5⟩]
    | o => o) = none := by decide +kernel

end Liballocs.StartScan
