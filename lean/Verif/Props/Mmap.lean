import Verif.Proofs.Mmap
/-! # C63, C64, C65: notification of mmap and mremap -/
namespace Liballocs.Mmap
open MapSeq Munmap

/-- What is known about an address: attributes, backing file if any, and position in it. -/
structure Info where
  attr : Attr
  file : Option Nat
  pos : Nat
  deriving DecidableEq

def info (s : Seq) (a : Nat) : Option Info :=
  (findEntry s a).map (fun e => ⟨e.attr, if e.anon then none else s.filename, e.filePos a⟩)

def infoAt (st : List Mapping) (a : Nat) : Option Info :=
  match lookup st a with
  | none => none
  | some m => info m.seq a

theorem infoAt_attr (st : List Mapping) (a : Nat) : (infoAt st a).map Info.attr = attrAt st a := by
  unfold infoAt attrAt info
  cases lookup st a with
  | none => rfl
  | some m => cases h : findEntry m.seq a <;> simp [h]

/-- No known mapping meets the range. -/
def Clear (st : List Mapping) (lo hi : Nat) : Prop := ∀ m ∈ st, m.end ≤ lo ∨ hi ≤ m.begin

/-- A known mapping is still there, with at most more entries after its old ones. -/
def Grew (b b' : Mapping) : Prop :=
  b'.begin = b.begin ∧ b'.seq.filename = b.seq.filename ∧ b.seq.nused ≤ b'.seq.nused ∧
    ∀ j, j < b.seq.nused → b'.seq.slots j = b.seq.slots j

theorem Grew.refl (b : Mapping) : Grew b b := ⟨rfl, rfl, Nat.le_refl _, fun _ _ => rfl⟩

theorem Grew.trans {a b c : Mapping} (h1 : Grew a b) (h2 : Grew b c) : Grew a c :=
  ⟨h2.1.trans h1.1, h2.2.1.trans h1.2.1, Nat.le_trans h1.2.2.1 h2.2.2.1, fun j hj =>
    (h2.2.2.2 j (Nat.lt_of_lt_of_le hj h1.2.2.1)).trans (h1.2.2.2 j hj)⟩

/-- What a successful recording does, whatever the mapping. -/
theorem aug_true (obj : Nat → Nat) {s s' : Seq} {r : Req} (hs : MapSeq.Inv s) (hr : 0 < r.begin ∧ r.begin < r.end)
    (h : augment obj s r = .ret true s') :
    Fits s r ∧ MapSeq.Inv s' ∧ Run s' ∧ Recorded s r s' ∧ s'.end = max s.end r.end ∧ (s.nused ≠ 0 → s'.begin = s.begin) := by
  have hfit : Fits s r := by
    apply Classical.byContradiction; intro hn
    rcases augment_unfit obj hs.1 hr hn with e | e <;> rw [h] at e <;> cases e
  obtain ⟨b, s1, e1, e2⟩ := augment_inv obj s r hs hr hfit
  obtain ⟨b2, s2, f1, f2, f3⟩ := augment_wf_partial obj s r hs.1 hr hfit
  obtain ⟨b3, s3, g1, g2, g3⟩ := augment_recorded obj hs.1 hr hfit
  rw [h] at e1 f1 g1
  cases e1; cases f1; cases g1
  obtain ⟨_, f4, f5, f6⟩ := f3 rfl
  exact ⟨hfit, e2, f4, (g3 rfl).1, f5, f6⟩

theorem aug_false (obj : Nat → Nat) {s s' : Seq} {r : Req} (hs : MapSeq.Inv s) (hr : 0 < r.begin ∧ r.begin < r.end)
    (h : augment obj s r = .ret false s') : s' = s := by
  by_cases hfit : Fits s r
  · obtain ⟨b3, s3, g1, g2, g3⟩ := augment_recorded obj hs.1 hr hfit
    rw [h] at g1; cases g1; exact g2 rfl
  · rcases augment_unfit obj hs.1 hr hfit with e | e <;> rw [h] at e <;> cases e; rfl

theorem empty_inv : MapSeq.Inv emptySeq := by
  refine ⟨⟨Nat.zero_le _, Or.inl ⟨rfl, rfl, rfl⟩⟩, ?_⟩
  intro i _; left; rfl

/-- Recording in a cleared sequence always succeeds, and the sequence is that one mapping. -/
theorem aug_empty (obj : Nat → Nat) {r : Req} (hr : 0 < r.begin ∧ r.begin < r.end) :
    ∃ s', augment obj emptySeq r = .ret true s' ∧ s'.nused = 1 ∧ s'.slots 0 = r.entry ∧ s'.filename = r.filename ∧
      s'.begin = r.begin ∧ s'.end = r.end := by
  obtain ⟨b, s', e1, e2, e3⟩ := augment_recorded obj empty_inv.1 hr (Or.inr (Or.inr rfl))
  cases b with
  | false =>
    exfalso
    have hfin : ∀ x, finish true x ≠ .ret false s' := by
      intro x hx; unfold finish at hx; split at hx <;> cases hx
    apply hfin _
    rw [← e1]
    unfold augment
    have h1 : sane emptySeq = true := rfl
    have h2 : isClean emptySeq r = true := rfl
    have h3 : nameOkClean obj emptySeq r = true := by simp [nameOkClean, emptySeq]
    rw [h1, h2, h3]
    simp [emptySeq, MAXLEN]
    rfl
  | true =>
    refine ⟨s', e1, ?_⟩
    obtain ⟨hrec, _⟩ := e3 rfl
    cases hrec with
    | clean hc hn hb he hsl hfn =>
      refine ⟨hn, ?_, ?_, ?_, he⟩
      · rw [hsl]; rfl
      · rw [hfn]; rfl
      · rw [hb]; rfl
    | overlap f l bp ep _ h2 => exact absurd h2 (Nat.not_lt_zero _)

theorem roundUp_pos {len : Nat} (h : 0 < len) : len ≤ roundUp len PAGE ∧ 0 < roundUp len PAGE ∧ roundUp len PAGE % PAGE = 0 := by
  have e : roundUp len PAGE = (len + 4095) / 4096 * 4096 := rfl
  have hP : PAGE = 4096 := rfl
  rw [e, hP]; omega

/-- A fresh mapping sequence makes a well-formed mapping. -/
theorem create_ok (obj : Nat → Nat) {st : List Mapping} {r : Req} (hw : Wf st) (hr : 0 < r.begin ∧ r.begin < r.end)
    (hb : r.begin % PAGE = 0) (he : r.end % PAGE = 0) :
    (Clear st r.begin r.end → ∃ st', create obj st r = .ok st' ∧ Wf st' ∧
      (∀ a b, lookup st a = some b → ∃ b', lookup st' a = some b' ∧ Grew b b') ∧
      ∀ a, infoAt st' a = if r.begin ≤ a ∧ a < r.end then some ⟨r.entry.attr, r.filename, r.offset + (a - r.begin)⟩ else infoAt st a) ∧
    (¬ Clear st r.begin r.end → create obj st r = .overlaid) := by
  obtain ⟨s', e1, e2, e3, e4, e5, e6⟩ := aug_empty obj hr
  obtain ⟨_, i1, i2, _⟩ := aug_true obj empty_inv hr e1
  have hany : (st.any (fun m => decide (m.begin < r.end ∧ r.begin < m.end)) = true) ↔ ¬ Clear st r.begin r.end := by
    unfold Clear
    rw [List.any_eq_true]
    constructor
    · rintro ⟨m, hm, hc⟩ h
      rw [decide_eq_true_eq] at hc
      have := h m hm; omega
    · intro h
      apply Classical.byContradiction
      intro hn
      apply h
      intro m hm
      have : ¬ (m.begin < r.end ∧ r.begin < m.end) := fun hc => hn ⟨m, hm, by rw [decide_eq_true_eq]; exact hc⟩
      omega
  constructor
  · intro hc
    refine ⟨st ++ [⟨r.begin, r.end, s'⟩], ?_, ?_, ?_, ?_⟩
    · unfold create; rw [e1]; simp only
      rw [if_neg (by rw [hany]; simp [hc])]
    · constructor
      · intro m hm
        rcases List.mem_append.1 hm with h | h
        · exact hw.each m h
        · rw [List.mem_singleton] at h
          subst h
          exact ⟨hr.2, hb, he, i1, by simp only; omega, e5, e6⟩
      · rw [List.pairwise_append]
        refine ⟨hw.disj, List.pairwise_singleton _ _, ?_⟩
        intro m hm n hn
        rw [List.mem_singleton] at hn
        subst hn
        exact hc m hm
    · intro a b hb
      refine ⟨b, ?_, Grew.refl b⟩
      rw [lookup_append, hb]; rfl
    · intro a
      unfold infoAt
      rw [lookup_append]
      by_cases c : r.begin ≤ a ∧ a < r.end
      · rw [if_pos c]
        have : lookup st a = none := by
          rw [lookup_none]; intro m hm hx; have := hc m hm; omega
        rw [this]
        have h2 : lookup [(⟨r.begin, r.end, s'⟩ : Mapping)] a = some ⟨r.begin, r.end, s'⟩ := by
          unfold lookup; rw [List.find?_cons_of_pos (by simpa using c)]
        rw [h2]
        simp only [Option.none_or]
        unfold info
        rw [(findEntry_run i2 a).1 0 (by omega) (by rw [e3]; exact c.1) (by rw [e3]; exact c.2), e3, e4]
        simp only [Option.map_some, Req.entry, Entry.filePos]
        cases r.filename <;> rfl
      · rw [if_neg c]
        have h2 : lookup [(⟨r.begin, r.end, s'⟩ : Mapping)] a = none := by
          unfold lookup; rw [List.find?_cons_of_neg (by simpa using c)]; rfl
        rw [h2, Option.or_none]
  · intro hc
    unfold create; rw [e1]; simp only
    rw [if_pos (hany.2 hc)]

/-- A clean extension: the new entry follows the old ones. -/
theorem info_clean (obj : Nat → Nat) {s s' : Seq} {r : Req} (hs : MapSeq.Inv s) (hr : 0 < r.begin ∧ r.begin < r.end)
    (hne : s.nused ≠ 0) (hend : s.end = r.begin) (h : augment obj s r = .ret true s') (a : Nat) :
    (info s' a = if r.begin ≤ a ∧ a < r.end then some ⟨r.entry.attr, r.filename, r.offset + (a - r.begin)⟩ else info s a) ∧
    s'.filename = s.filename ∧ s.nused ≤ s'.nused ∧ ∀ j, j < s.nused → s'.slots j = s.slots j := by
  have hrun : Run s := by rcases hs.1.2 with ⟨z, _⟩ | h; exact absurd z hne; exact h
  obtain ⟨_, i1, i2, hrec, i3, i4⟩ := aug_true obj hs hr h
  have hname : nameOkClean obj s r = true := by
    cases hn : nameOkClean obj s r with
    | true => rfl
    | false =>
      exfalso
      have hsane : sane s = true := (sane_iff s).2 (Or.inr hrun)
      unfold augment at h
      have h2 : isClean s r = true := by simp [isClean, hend]
      rw [hsane, h2, hn] at h
      simp only [Bool.not_true, Bool.false_eq_true, if_false, Bool.not_false, if_true] at h
      have hf : finish false s = .ret false s := finish_ok (Or.inr hrun)
      split at h <;> rw [hf] at h <;> cases h
  cases hrec with
  | overlap f l bp ep x1 x2 _ _ _ _ _ x8 =>
    exfalso
    have : (s.slots l).end ≤ s.end := by
      rw [hrun.last]
      rcases Nat.eq_or_lt_of_le (Nat.le_sub_one_of_lt x2) with e | e
      · rw [← e]; exact Nat.le_refl _
      · have := hrun.mono l (s.nused - 1) e (by omega)
        have := (hrun.nonempty (s.nused - 1) (by omega)).2
        omega
    omega
  | clean hc hn hb he hsl hfn =>
    have hfile : s'.filename = s.filename := by
      rw [hfn]
      split
      · rename_i hx
        rw [Option.isNone_iff_eq_none] at hx
        rw [hx]
        cases hf : r.filename with
        | none => rfl
        | some n =>
          exfalso
          simp [nameOkClean, hf, hx, hne] at hname
      · rfl
    refine ⟨?_, hfile, by omega, fun j hj => by rw [hsl, if_neg (by omega)]⟩
    unfold info
    by_cases c : r.begin ≤ a ∧ a < r.end
    · rw [if_pos c, (findEntry_run i2 a).1 s.nused (by omega) (by rw [hsl, if_pos rfl]; exact c.1) (by rw [hsl, if_pos rfl]; exact c.2),
        hsl, if_pos rfl, hfile]
      simp only [Option.map_some, Req.entry, Entry.filePos, Option.some.injEq, Info.mk.injEq, true_and, and_true]
      cases hf : r.filename with
      | none => rfl
      | some n =>
        simp [nameOkClean, hf, hne] at hname
        rw [← hname.2]; rfl
    · rw [if_neg c, hfile]
      by_cases c2 : s.begin ≤ a ∧ a < s.end
      · obtain ⟨i, j1, j2, j3⟩ := hrun.locate a c2.1 c2.2
        rw [(findEntry_run hrun a).1 i j1 j2 j3,
          (findEntry_run i2 a).1 i (by omega) (by rw [hsl, if_neg (by omega)]; exact j2) (by rw [hsl, if_neg (by omega)]; exact j3),
          hsl, if_neg (by omega)]
      · rw [(findEntry_run hrun a).2 (by omega), (findEntry_run i2 a).2 (by rw [i4 hne, he]; omega)]

theorem sawOverlap_false {st : List Mapping} {lo n : Nat} (h : Clear st lo (lo + n)) : sawOverlap st lo n = false := by
  unfold sawOverlap
  rw [List.any_eq_false]
  intro i hi
  rw [List.mem_range] at hi
  have hP : PAGE = 4096 := rfl
  have : lookup st (lo + i * PAGE) = none := by
    rw [lookup_none]; intro m hm hc
    have := h m hm
    rw [hP] at hc hi; omega
  rw [this]; simp

/-- Extending a mapping by a clean extension. -/
theorem extend_ok {st : List Mapping} {b : Mapping} {s' : Seq} {e : Nat} (hw : Wf st) (hb : b ∈ st)
    (hd : ∀ n ∈ st, n.begin ≠ b.begin → n.end ≤ b.begin ∨ e ≤ n.begin) (hbe : b.end ≤ e) (hea : e % PAGE = 0)
    (i1 : MapSeq.Inv s') (i2 : Run s') (i3 : s'.end = e) (i4 : s'.begin = b.begin) :
    Wf (subst st b [⟨b.begin, e, s'⟩]) ∧
      ∀ a, lookup (subst st b [⟨b.begin, e, s'⟩]) a =
        if b.begin ≤ a ∧ a < e then some ⟨b.begin, e, s'⟩ else lookup st a := by
  have hbw := hw.each b hb
  have hlt := hbw.lt
  have hp := i2.pos
  have hdj : ∀ m ∈ [(⟨b.begin, e, s'⟩ : Mapping)], ∀ n ∈ st, n.begin ≠ b.begin → Disj n m := by
    intro m hm n hn hx
    rw [List.mem_singleton] at hm
    subst hm
    exact hd n hn hx
  refine ⟨subst_wf' hw hb _ ?_ hdj (List.pairwise_singleton _ _), ?_⟩
  · intro m hm
    rw [List.mem_singleton] at hm
    subst hm
    exact ⟨by simp only; omega, hbw.ba, hea, i1, by simp only; omega, i4, i3⟩
  · intro a
    rw [lookup_subst hw hb _ hdj]
    by_cases c : b.begin ≤ a ∧ a < e
    · have h2 : lookup [(⟨b.begin, e, s'⟩ : Mapping)] a = some ⟨b.begin, e, s'⟩ := by
        unfold lookup; rw [List.find?_cons_of_pos (by simpa using c)]
      rw [if_pos c, h2]
      split <;> rfl
    · have h2 : lookup [(⟨b.begin, e, s'⟩ : Mapping)] a = none := by
        unfold lookup; rw [List.find?_cons_of_neg (by simpa using c)]; rfl
      rw [if_neg c, h2, if_neg (by omega)]; rfl

/-- The mapping chosen for extension when the range is free ends where the range begins. -/
theorem before_clear {st : List Mapping} {lo n : Nat} (h0 : 0 < lo) (hn : 0 < n) (h : Clear st lo (lo + n)) :
    (before st lo n = none) ∨ ∃ b, before st lo n = some b ∧ b ∈ st ∧ b.end = lo := by
  unfold before
  cases hl : lookup st (lo - 1) with
  | some b =>
    right
    obtain ⟨h1, h2, h3⟩ := lookup_mem hl
    refine ⟨b, rfl, h1, ?_⟩
    have := h b h1; omega
  | none =>
    left
    have : lookup st lo = none := by
      rw [lookup_none]; intro m hm hc; have := h m hm; omega
    simp only [this]

theorem record_clear (obj : Nat → Nat) {st : List Mapping} {r : Req} (hw : Wf st) (hr : 0 < r.begin ∧ r.begin < r.end)
    (ha : r.begin % PAGE = 0) (he : r.end % PAGE = 0) (hc : Clear st r.begin r.end) :
    ∃ st', record obj st r = .ok st' ∧ Wf st' ∧
      (∀ a b, lookup st a = some b → ∃ b', lookup st' a = some b' ∧ Grew b b') ∧
      ∀ a, infoAt st' a = if r.begin ≤ a ∧ a < r.end then some ⟨r.entry.attr, r.filename, r.offset + (a - r.begin)⟩ else infoAt st a := by
  unfold record
  have hn : r.begin + (r.end - r.begin) = r.end := by omega
  have hcreate := (create_ok obj hw hr ha he).1 hc
  rcases before_clear (n := r.end - r.begin) hr.1 (by omega) (by rw [hn]; exact hc) with h | ⟨b, h, hb, hbe⟩
  · rw [h]; exact hcreate
  · rw [h]
    simp only
    have hbw := hw.each b hb
    have hblt := hbw.lt
    cases hau : augment obj b.seq r with
    | assertFail =>
      exfalso
      obtain ⟨x, y, hx, _⟩ := augment_recorded obj hbw.inv.1 hr (Or.inr (Or.inl (by rw [hbw.se, hbe])))
      rw [hau] at hx; cases hx
    | overrun =>
      exfalso
      obtain ⟨x, y, hx, _⟩ := augment_recorded obj hbw.inv.1 hr (Or.inr (Or.inl (by rw [hbw.se, hbe])))
      rw [hau] at hx; cases hx
    | ret bb s' =>
      cases bb with
      | false =>
        simp only
        rw [aug_false obj hbw.inv hr hau, subst_self hw hb]
        exact hcreate
      | true =>
        simp only
        obtain ⟨_, i1, i2, hrec, i3, i4⟩ := aug_true obj hbw.inv hr hau
        have i4' := i4 hbw.ne
        rw [hbw.sb] at i4'
        rw [hbw.se, hbe, Nat.max_eq_right (by omega)] at i3
        have hmeets : meets st b.begin b.end r.end = false := by
          unfold meets
          rw [List.any_eq_false]
          intro m hm
          have := hc m hm
          simp only [Bool.and_eq_true, bne_iff_ne, ne_eq, decide_eq_true_eq]
          omega
        rw [if_pos (by omega), hmeets]
        simp only [Bool.false_eq_true, if_false]
        rw [if_pos ⟨i4', i3⟩]
        have hdd : ∀ m ∈ st, m.begin ≠ b.begin → m.end ≤ b.begin ∨ r.end ≤ m.begin := by
          intro m hm hx
          have hmw := (hw.each m hm).lt
          obtain ⟨A, B, hst, hd, _⟩ := mem_split hw hb
          have hm' : m ∈ A ++ B := by
            rw [hst] at hm
            simp only [List.mem_append, List.mem_cons] at hm ⊢
            rcases hm with h | h | h
            · exact Or.inl h
            · rw [h] at hx; exact absurd rfl hx
            · exact Or.inr h
          have := (hd m hm').1
          unfold Disj at this
          have := hc m hm
          omega
        obtain ⟨w1, w2⟩ := extend_ok hw hb hdd (by omega) he i1 i2 i3 i4'
        refine ⟨_, rfl, w1, ?_, ?_⟩
        · intro a x hx
          rw [w2]
          by_cases c : b.begin ≤ a ∧ a < r.end
          · rw [if_pos c]
            obtain ⟨x1, x2⟩ := lookup_mem hx
            have hxb : x = b := by
              apply Classical.byContradiction; intro hne
              have hxx := hdd x x1 (fun hbb => hne (hw.inj x1 hb ⟨Nat.le_refl _, (hw.each x x1).lt⟩ (by omega)))
              omega
            subst hxb
            exact ⟨_, rfl, rfl, (info_clean obj hbw.inv hr hbw.ne (by rw [hbw.se, hbe]) hau a).2⟩
          · rw [if_neg c]; exact ⟨x, hx, Grew.refl x⟩
        intro a
        have hinfo := (info_clean obj hbw.inv hr hbw.ne (by rw [hbw.se, hbe]) hau a).1
        unfold infoAt
        rw [w2]
        by_cases c : r.begin ≤ a ∧ a < r.end
        · rw [if_pos c, if_pos (by omega)]
          simp only
          rw [hinfo, if_pos c]
        · rw [if_neg c]
          by_cases c2 : b.begin ≤ a ∧ a < r.end
          · rw [if_pos c2]
            simp only
            rw [hinfo, if_neg c, lookup_of_mem hw hb (by omega)]
          · rw [if_neg c2]

theorem doMmap_clear (obj : Nat → Nat) {st : List Mapping} {mapped len : Nat}
    (hw : Wf st) (h0 : 0 < mapped) (ha : mapped % PAGE = 0) (hl : 0 < len)
    (hc : Clear st mapped (mapped + (len + 4095) / 4096 * 4096)) (prot flags : Nat) (filename : Option Nat) (offset caller : Nat) :
    ∃ st', doMmap obj st mapped len prot flags filename offset caller = .ok st' ∧ Wf st' ∧
      (∀ a b, lookup st a = some b → ∃ b', lookup st' a = some b' ∧ Grew b b') ∧
      ∀ a, infoAt st' a =
        if mapped ≤ a ∧ a < mapped + (len + 4095) / 4096 * 4096
        then some ⟨⟨prot, flags, filename.isNone, caller⟩, filename, offset + (a - mapped)⟩ else infoAt st a := by
  have hru : roundUp len PAGE = (len + 4095) / 4096 * 4096 := rfl
  rw [← hru] at hc ⊢
  obtain ⟨hl1, hl2, hl3⟩ := roundUp_pos hl
  unfold doMmap
  rw [if_neg (by omega)]
  simp only
  rw [sawOverlap_false hc]
  simp only [Bool.false_and, Bool.false_eq_true, if_false]
  exact record_clear obj (r := ⟨mapped, mapped + roundUp len PAGE, prot, flags, offset, filename, caller⟩) hw
    ⟨h0, by simp only; omega⟩ ha (by simp only [PAGE] at *; omega) hc

/-- C63: notification of a mapping at a free page-aligned range always completes, and afterwards
every address of the page-rounded range is known with exactly the given protection, flags, anonymity,
caller, file and position in the file, while everything known about every other address is as before. -/
theorem mmap_correct (obj : Nat → Nat) (st : List Mapping) (mapped len prot flags : Nat) (filename : Option Nat) (offset caller : Nat)
    (hw : Wf st) (h0 : 0 < mapped) (ha : mapped % PAGE = 0) (hl : 0 < len)
    (hc : ∀ m ∈ st, m.end ≤ mapped ∨ mapped + (len + 4095) / 4096 * 4096 ≤ m.begin) :
    ∃ st', notifyMmap obj st mapped len prot flags filename offset caller = .ok st' ∧ Wf st' ∧
      ∀ a, infoAt st' a =
        if mapped ≤ a ∧ a < mapped + (len + 4095) / 4096 * 4096
        then some ⟨⟨prot, flags, filename.isNone, caller⟩, filename, offset + (a - mapped)⟩ else infoAt st a := by
  obtain ⟨st', e1, e2, _, e4⟩ := doMmap_clear obj hw h0 ha hl hc prot flags filename offset caller
  exact ⟨st', e1, e2, e4⟩

/-! ### C64: requests over existing mappings -/

theorem before_mem {st : List Mapping} {lo n : Nat} {b : Mapping} (h0 : 0 < lo) (h : before st lo n = some b) :
    b ∈ st ∧ b.begin ≤ lo ∧ lo ≤ b.end := by
  unfold before at h
  cases hl : lookup st (lo - 1) with
  | some x =>
    rw [hl] at h
    cases h
    obtain ⟨h1, h2, h3⟩ := lookup_mem hl
    exact ⟨h1, by omega, by omega⟩
  | none =>
    rw [hl] at h
    simp only at h
    cases hl2 : lookup st lo with
    | none => rw [hl2] at h; cases h
    | some x =>
      rw [hl2] at h
      obtain ⟨h1, h2, h3⟩ := lookup_mem hl2
      cases hl3 : lookup st (lo + n - 1) with
      | none => rw [hl3] at h; cases h; exact ⟨h1, by omega, by omega⟩
      | some y =>
        rw [hl3] at h
        simp only at h
        split at h
        · cases h; exact ⟨h1, by omega, by omega⟩
        · cases h

theorem record_ok (obj : Nat → Nat) {st st' : List Mapping} {r : Req} (hw : Wf st) (hr : 0 < r.begin ∧ r.begin < r.end)
    (ha : r.begin % PAGE = 0) (he : r.end % PAGE = 0) (h : record obj st r = .ok st') :
    Wf st' ∧ ∀ a, attrAt st' a = if r.begin ≤ a ∧ a < r.end then some r.entry.attr else attrAt st a := by
  by_cases hc : Clear st r.begin r.end
  · obtain ⟨x, e1, e2, _, e4⟩ := record_clear obj hw hr ha he hc
    rw [h] at e1; cases e1
    refine ⟨e2, fun a => ?_⟩
    rw [← infoAt_attr, e4, ← infoAt_attr]
    split <;> rfl
  · have hcr := (create_ok obj hw hr ha he).2 hc
    unfold record at h
    cases hb : before st r.begin (r.end - r.begin) with
    | none => rw [hb] at h; simp only at h; rw [hcr] at h; cases h
    | some b =>
      rw [hb] at h
      simp only at h
      obtain ⟨b1, b2, b3⟩ := before_mem hr.1 hb
      have hbw := hw.each b b1
      cases hau : augment obj b.seq r with
      | assertFail => rw [hau] at h; cases h
      | overrun => rw [hau] at h; cases h
      | ret bb s' =>
        rw [hau] at h
        cases bb with
        | false =>
          simp only at h
          rw [aug_false obj hbw.inv hr hau, subst_self hw b1, hcr] at h
          cases h
        | true =>
          simp only at h
          obtain ⟨hfit, i1, i2, hrec, i3, i4⟩ := aug_true obj hbw.inv hr hau
          have i4' := i4 hbw.ne
          rw [hbw.sb] at i4'
          by_cases c : r.end > b.end
          · exfalso
            rw [if_pos c] at h
            by_cases hm : meets st b.begin b.end r.end = true
            · rw [if_pos hm] at h; cases h
            · apply hc
              intro m hmm
              rcases hfit with hf | hf | hf
              · rw [hbw.se] at hf; omega
              · rw [hbw.se] at hf
                by_cases hbb : m.begin = b.begin
                · left
                  have := hw.inj hmm b1 ⟨Nat.le_refl _, (hw.each m hmm).lt⟩ ⟨by omega, by have := hbw.lt; omega⟩
                  rw [this]; omega
                · unfold meets at hm
                  rw [Bool.not_eq_true, List.any_eq_false] at hm
                  have := hm m hmm
                  simp only [Bool.and_eq_true, bne_iff_ne, ne_eq, decide_eq_true_eq, not_and] at this
                  have := this hbb
                  omega
              · exact absurd hf hbw.ne
          · rw [if_neg c] at h
            cases h
            rw [hbw.se, Nat.max_eq_left (by omega)] at i3
            have hp := i2.pos
            obtain ⟨g1, g2⟩ := subst_wf hw b1 [⟨b.begin, b.end, s'⟩] (by
              intro m hm
              rw [List.mem_singleton] at hm
              subst hm
              exact ⟨⟨hbw.lt, hbw.ba, hbw.ea, i1, by simp only; omega, i4', i3⟩, Nat.le_refl _, Nat.le_refl _⟩)
              (List.pairwise_singleton _ _)
            refine ⟨g1, fun a => ?_⟩
            obtain ⟨d1, d2, _⟩ := augment_attrs_partial obj b.seq r hbw.inv.1 hr hfit s' hau a
            rw [g2, attrAt_single _ a i1 (by simp only; omega) i4' i3]
            by_cases c1 : b.begin ≤ a ∧ a < b.end
            · rw [if_pos c1]
              by_cases c2 : r.begin ≤ a ∧ a < r.end
              · rw [if_pos c2]
                obtain ⟨e, e1, e2, _⟩ := d1 c2
                rw [e1, Option.map_some, e2]
              · rw [if_neg c2, d2 c2, attrAt_of_mem hw b1 a c1]
            · rw [if_neg c1, if_neg (by omega)]

/-- C64 (partial): whatever the requested range overlaps, if the notification completes then the
known mappings are well formed, every address of the page-rounded range has the given protection,
flags, anonymity and caller, and every other address has those it had.  Partial: legitimate fixed
mappings that the notification does not complete for are below. -/
theorem mmap_completed_partial (obj : Nat → Nat) (st st' : List Mapping) (mapped len prot flags : Nat) (filename : Option Nat)
    (offset caller : Nat) (hw : Wf st) (ha : mapped % PAGE = 0) (hl : 0 < len)
    (h : notifyMmap obj st mapped len prot flags filename offset caller = .ok st') :
    Wf st' ∧ ∀ a, attrAt st' a =
      if mapped ≤ a ∧ a < mapped + (len + 4095) / 4096 * 4096 then some ⟨prot, flags, filename.isNone, caller⟩ else attrAt st a := by
  unfold notifyMmap doMmap at h
  split at h
  · cases h
  · rename_i h0
    simp only at h
    split at h
    · cases h
    · obtain ⟨hl1, hl2, hl3⟩ := roundUp_pos hl
      exact record_ok obj (r := ⟨mapped, mapped + roundUp len PAGE, prot, flags, offset, filename, caller⟩) hw
        ⟨by simp only; omega, by simp only; omega⟩ ha (by simp only [PAGE] at *; omega) h

/-- Without `MAP_FIXED`, a mapping over a known one is a fatal error, never recorded. -/
theorem mmap_unfixed_overlap (obj : Nat → Nat) (st : List Mapping) (mapped len prot flags : Nat) (filename : Option Nat)
    (offset caller : Nat) (hw : Wf st) (ha : mapped % PAGE = 0) (hl : 0 < len) (hf : flags / 16 % 2 = 0) (m : Mapping) (hm : m ∈ st)
    (ho : m.begin < mapped + (len + 4095) / 4096 * 4096 ∧ mapped < m.end) :
    notifyMmap obj st mapped len prot flags filename offset caller = .abort := by
  unfold notifyMmap doMmap
  by_cases h0 : mapped = 0
  · rw [if_pos h0]
  · rw [if_neg h0]
    simp only
    have hmw := hw.each m hm
    have hs : sawOverlap st mapped (roundUp len PAGE) = true := by
      have hru : roundUp len PAGE = (len + 4095) / 4096 * 4096 := rfl
      unfold sawOverlap
      rw [List.any_eq_true]
      have hP : PAGE = 4096 := rfl
      have h1 := hmw.ba
      have h2 := hmw.ea
      have h3 := hmw.lt
      refine ⟨(max mapped m.begin - mapped) / PAGE, ?_, ?_⟩
      · rw [List.mem_range, hru, hP]; rw [hP] at h1 ha; omega
      · have : mapped + (max mapped m.begin - mapped) / PAGE * PAGE = max mapped m.begin := by
          rw [hP] at h1 ha ⊢; omega
        rw [this, lookup_of_mem hw hm (by omega)]; rfl
    rw [hs, if_pos]
    simp [isFixed, hf]

/-! ### C65: mremap -/

/-- What is known about a remapped address: as at its source, with the caller of the remapping. -/
def Info.moved (i : Info) (caller extra : Nat) : Info := ⟨{ i.attr with caller := caller }, i.file, i.pos + extra⟩

/-- The known mapping that contains the whole remapped range; its entries are page aligned, and all of
them anonymous or all of them backed by the file. -/
structure Source (st : List Mapping) (old osz : Nat) (b : Mapping) : Prop where
  mem : b ∈ st
  lo : b.begin ≤ old
  hi : old + osz ≤ b.end
  pos : 0 < osz
  oa : old % PAGE = 0
  sa : osz % PAGE = 0
  ea : ∀ i, i < b.seq.nused → (b.seq.slots i).begin % PAGE = 0 ∧ (b.seq.slots i).end % PAGE = 0
  anon : ∀ i, i < b.seq.nused → (b.seq.slots i).anon = b.seq.filename.isNone

theorem run_within {s : Seq} (h : Run s) {i : Nat} (hi : i < s.nused) :
    s.begin ≤ (s.slots i).begin ∧ (s.slots i).end ≤ s.end := by
  constructor
  · rcases Nat.eq_zero_or_pos i with e | e
    · subst e; have := h.first; omega
    · have := h.mono 0 i e hi
      have := (h.nonempty 0 (by omega)).2
      have := h.first; omega
  · rcases Nat.lt_or_ge i (s.nused - 1) with e | e
    · have := h.mono i (s.nused - 1) e (by omega)
      have := (h.nonempty (s.nused - 1) (by omega)).2
      have := h.last; omega
    · have : i = s.nused - 1 := by omega
      subst this; have := h.last; omega

theorem mwf_run {m : Mapping} (h : MWf m) : Run m.seq := by
  rcases h.inv.1.2 with ⟨z, _⟩ | h'
  · exact absurd z h.ne
  · exact h'

theorem info_entry {st : List Mapping} (hw : Wf st) {b : Mapping} (hb : b ∈ st) {i : Nat} (hi : i < b.seq.nused) {a : Nat}
    (h1 : (b.seq.slots i).begin ≤ a) (h2 : a < (b.seq.slots i).end) :
    infoAt st a = some ⟨(b.seq.slots i).attr, if (b.seq.slots i).anon then none else b.seq.filename,
      (b.seq.slots i).offset + (a - (b.seq.slots i).begin)⟩ := by
  have hm := hw.each b hb
  have hrun := mwf_run hm
  have hwi := run_within hrun hi
  rw [hm.sb, hm.se] at hwi
  unfold infoAt
  rw [lookup_of_mem hw hb (by omega)]
  simp only [info]
  rw [(findEntry_run hrun a).1 i hi h1 h2]; rfl

theorem clear_of_info {st : List Mapping} (hw : Wf st) {lo hi : Nat} (hlt : lo < hi) (h : ∀ a, lo ≤ a → a < hi → infoAt st a = none) :
    Clear st lo hi := by
  intro m hm
  apply Classical.byContradiction
  intro hc
  have hmw := hw.each m hm
  have hlt2 := hmw.lt
  have hrun := mwf_run hmw
  have hx : m.begin ≤ max m.begin lo ∧ max m.begin lo < m.end := by omega
  obtain ⟨i, i1, i2, i3⟩ := hrun.locate (max m.begin lo) (by rw [hmw.sb]; exact hx.1) (by rw [hmw.se]; exact hx.2)
  have := h (max m.begin lo) (by omega) (by omega)
  rw [info_entry hw hm i1 i2 i3] at this
  cases this

theorem info_of_clear {st : List Mapping} {lo hi : Nat} (h : Clear st lo hi) {a : Nat} (h1 : lo ≤ a) (h2 : a < hi) :
    infoAt st a = none := by
  have : lookup st a = none := by
    rw [lookup_none]; intro m hm hc; have := h m hm; omega
  unfold infoAt; rw [this]

/-- How far the loop has got: the beginning of entry `i`, or the end of the sequence. -/
def cut (b : Mapping) (i : Nat) : Nat := if i < b.seq.nused then (b.seq.slots i).begin else b.seq.end

theorem cut_succ {b : Mapping} (hrun : Run b.seq) {i : Nat} (hi : i < b.seq.nused) : cut b (i + 1) = (b.seq.slots i).end := by
  unfold cut
  by_cases c : i + 1 < b.seq.nused
  · rw [if_pos c]; exact (hrun.contig i c).symm
  · rw [if_neg c]
    have : i = b.seq.nused - 1 := by omega
    rw [this]; exact hrun.last

theorem moveLoop_ok (obj : Nat → Nat) {st0 : List Mapping} {old osz mapped caller : Nat} {b : Mapping} (hw0 : Wf st0)
    (hs : Source st0 old osz b) (hm0 : 0 < mapped) (hma : mapped % PAGE = 0) (hc : Clear st0 mapped (mapped + osz))
    (k i : Nat) (st : List Mapping) (hk : MAXLEN < k + i) (hw : Wf st)
    (hb : ∃ b', lookup st old = some b' ∧ Grew b b' ∧ i ≤ b'.seq.nused)
    (hinfo : ∀ a, infoAt st a = if mapped ≤ a ∧ a < mapped + osz ∧ old + (a - mapped) < cut b i
      then (infoAt st0 (old + (a - mapped))).map (fun x => x.moved caller 0) else infoAt st0 a) :
    ∃ st', moveLoop obj old osz mapped caller k i st = .ok st' ∧ Wf st' ∧
      (∃ b', lookup st' old = some b' ∧ Grew b b') ∧
      ∀ a, infoAt st' a = if mapped ≤ a ∧ a < mapped + osz
        then (infoAt st0 (old + (a - mapped))).map (fun x => x.moved caller 0) else infoAt st0 a := by
  have hbw0 := hw0.each b hs.mem
  have hrun0 := mwf_run hbw0
  have hse : b.seq.end = b.end := hbw0.se
  have hhi := hs.hi
  induction k generalizing i st with
  | zero =>
    obtain ⟨b', hl, hg, hi⟩ := hb
    have hcap := (hw.each b' (lookup_mem hl).1).inv.1.1
    omega
  | succ k ih =>
    obtain ⟨b', hl, hg, hi⟩ := hb
    have hbw := hw.each b' (lookup_mem hl).1
    have hcap := hbw.inv.1.1
    have hrun := mwf_run hbw
    rw [moveLoop, hl]
    simp only
    by_cases c0 : i = b'.seq.nused
    · rw [if_pos c0]
      refine ⟨st, rfl, hw, ⟨b', hl, hg⟩, ?_⟩
      intro a
      rw [hinfo a]
      have hcut : cut b i = b.end := by
        unfold cut; rw [if_neg (by have := hg.2.2.1; omega)]; exact hse
      rw [hcut]
      by_cases c : mapped ≤ a ∧ a < mapped + osz
      · rw [if_pos (by omega), if_pos c]
      · rw [if_neg (by omega), if_neg c]
    · rw [if_neg c0, if_neg (by omega)]
      by_cases c1 : i < b.seq.nused
      · have he : b'.seq.slots i = b.seq.slots i := hg.2.2.2 i c1
        rw [he, hg.2.1]
        have hne := hrun0.nonempty i c1
        have hcs := cut_succ hrun0 c1
        have hci : cut b i = (b.seq.slots i).begin := by unfold cut; rw [if_pos c1]
        obtain ⟨hea1, hea2⟩ := hs.ea i c1
        have hoa := hs.oa
        have hsa := hs.sa
        by_cases c2 : max (b.seq.slots i).begin old < min (b.seq.slots i).end (old + osz)
        · rw [if_pos c2]
          generalize hlo : max (b.seq.slots i).begin old = lo at *
          generalize hhi' : min (b.seq.slots i).end (old + osz) = hi' at *
          have hP : PAGE = 4096 := rfl
          rw [hP] at hea1 hea2 hoa hsa hma
          have hlen : (hi' - lo + 4095) / 4096 * 4096 = hi' - lo := by omega
          have hclear : Clear st (mapped + (lo - old)) (mapped + (lo - old) + (hi' - lo + 4095) / 4096 * 4096) := by
            rw [hlen]
            apply clear_of_info hw (by omega)
            intro a a1 a2
            rw [hinfo a, if_neg (by omega)]
            exact info_of_clear hc (by omega) (by omega)
          obtain ⟨st', e1, e2, e3, e4⟩ := doMmap_clear obj hw (by omega) (by rw [hP]; omega) (by omega) hclear
            (b.seq.slots i).prot (b.seq.slots i).flags b.seq.filename ((b.seq.slots i).offset + (lo - (b.seq.slots i).begin)) caller
          rw [e1]
          simp only
          obtain ⟨b2, l2, g2⟩ := e3 old b' hl
          refine ih (i + 1) st' (by omega) e2 ⟨b2, l2, hg.trans g2, by have := g2.2.2.1; omega⟩ ?_
          intro a
          rw [e4, hlen, hinfo a, hci, hcs]
          by_cases ca : mapped + (lo - old) ≤ a ∧ a < mapped + (lo - old) + (hi' - lo)
          · rw [if_pos ca, if_pos (by omega), info_entry hw0 hs.mem c1 (a := old + (a - mapped)) (by omega) (by omega)]
            simp only [Option.map_some, Info.moved, Entry.attr, hs.anon i c1]
            congr 1
            simp only [Info.mk.injEq]
            refine ⟨trivial, ?_, by omega⟩
            cases b.seq.filename <;> rfl
          · rw [if_neg ca]
            by_cases cb : mapped ≤ a ∧ a < mapped + osz ∧ old + (a - mapped) < (b.seq.slots i).begin
            · rw [if_pos cb, if_pos (by omega)]
            · rw [if_neg cb, if_neg (by omega)]
        · rw [if_neg c2]
          refine ih (i + 1) st (by omega) hw ⟨b', hl, hg, by omega⟩ ?_
          intro a
          rw [hinfo a, hci, hcs]
          by_cases cb : mapped ≤ a ∧ a < mapped + osz ∧ old + (a - mapped) < (b.seq.slots i).begin
          · rw [if_pos cb, if_pos (by omega)]
          · rw [if_neg cb, if_neg (by omega)]
      · have hgt : b.end ≤ (b'.seq.slots i).begin := by
          have hp := hrun0.pos
          have h1 := hrun.mono (b.seq.nused - 1) i (by omega) (by omega)
          rw [hg.2.2.2 (b.seq.nused - 1) (by omega), ← hrun0.last, hse] at h1
          exact h1
        rw [if_neg (by omega)]
        refine ih (i + 1) st (by omega) hw ⟨b', hl, hg, by omega⟩ ?_
        intro a
        rw [hinfo a]
        have h1 : cut b i = b.seq.end := by unfold cut; rw [if_neg c1]
        have h2 : cut b (i + 1) = b.seq.end := by unfold cut; rw [if_neg (by omega)]
        rw [h1, h2]

/-- The munmap theorem for a page-aligned range, in terms of attributes. -/
theorem munmap_attr {st : List Mapping} {addr len : Nat} (hw : Wf st) (ha : addr % PAGE = 0) (hl : len % PAGE = 0) :
    ∃ st', munmap st addr len = .ok st' ∧ Wf st' ∧
      ∀ a, attrAt st' a = if addr ≤ a ∧ a < addr + len then none else attrAt st a := by
  obtain ⟨st', e1, e2, e3⟩ := munmap_correct st addr len hw ha
  refine ⟨st', e1, e2, ?_⟩
  intro a
  have hP : PAGE = 4096 := rfl
  have : (len + 4095) / 4096 * 4096 = len := by rw [hP] at hl; omega
  obtain ⟨h1, h2⟩ := e3 a
  rw [this] at h1
  by_cases c : addr ≤ a ∧ a < addr + len
  · rw [if_pos c, attrAt_none_iff e2, h1]; exact fun h => h.2 c
  · rw [if_neg c]
    by_cases hm : Mapped st' a
    · exact h2 hm
    · rw [(attrAt_none_iff e2 a).2 hm, eq_comm, attrAt_none_iff hw]
      intro h; exact hm (h1.2 ⟨h, c⟩)

theorem roundUp_mul {n : Nat} (h : n % PAGE = 0) : roundUp n PAGE = n := by
  have e : roundUp n PAGE = (n + 4095) / 4096 * 4096 := rfl
  have hP : PAGE = 4096 := rfl
  rw [e]; rw [hP] at h; omega

/-- C65 (partial), moving without resizing and keeping the old mapping: every address of the new
range has the attributes, file and file position of its source, and nothing else changes. -/
theorem mremap_copy_partial (obj : Nat → Nat) (st : List Mapping) (mapped old osz caller : Nat) (b : Mapping) (hw : Wf st)
    (hs : Source st old osz b) (hm0 : 0 < mapped) (hma : mapped % PAGE = 0)
    (hc : ∀ m ∈ st, m.end ≤ mapped ∨ mapped + osz ≤ m.begin) :
    ∃ st', notifyMremap obj st mapped old osz osz true caller = .ok st' ∧ Wf st' ∧
      ∀ a, infoAt st' a = if mapped ≤ a ∧ a < mapped + osz
        then (infoAt st (old + (a - mapped))).map (fun x => x.moved caller 0) else infoAt st a := by
  have hbw := hw.each b hs.mem
  have hpos := hs.pos
  have hlo := hs.lo
  have hhi := hs.hi
  have hl : lookup st old = some b := lookup_of_mem hw hs.mem (by omega)
  have hne : mapped ≠ old := by intro e; have := hc b hs.mem; omega
  obtain ⟨st', e1, e2, _, e4⟩ := moveLoop_ok obj hw hs hm0 hma hc (MAXLEN + 1) 0 st (by omega) hw ⟨b, hl, Grew.refl b, Nat.zero_le _⟩
    (by
      intro a
      rw [if_neg]
      have hrun := mwf_run hbw
      have hp := hrun.pos
      unfold cut
      rw [if_pos hp, ← hrun.first, hbw.sb]; omega)
  refine ⟨st', ?_, e2, e4⟩
  unfold notifyMremap
  rw [roundUp_mul hs.sa]
  simp only
  rw [hl]
  simp only
  unfold remapKnown
  rw [hbw.se, if_neg (by omega), if_neg (by omega), if_neg (by omega), if_neg (by omega), if_neg (by omega), if_neg (by omega),
    if_pos (by omega)]
  unfold move
  rw [e1]
  simp only
  unfold moveExcess
  rw [if_neg (by omega)]
  rfl

/-- C65 (partial), moving without resizing: every address of the new range has the attributes of
its source, the old range is no longer known, and no other address's attributes change. -/
theorem mremap_move_partial (obj : Nat → Nat) (st : List Mapping) (mapped old osz caller : Nat) (b : Mapping) (hw : Wf st)
    (hs : Source st old osz b) (hm0 : 0 < mapped) (hma : mapped % PAGE = 0)
    (hc : ∀ m ∈ st, m.end ≤ mapped ∨ mapped + osz ≤ m.begin) :
    ∃ st', notifyMremap obj st mapped old osz osz false caller = .ok st' ∧ Wf st' ∧
      ∀ a, attrAt st' a = if mapped ≤ a ∧ a < mapped + osz
        then (attrAt st (old + (a - mapped))).map (fun x => { x with caller := caller })
        else if old ≤ a ∧ a < old + osz then none else attrAt st a := by
  have hbw := hw.each b hs.mem
  have hpos := hs.pos
  have hlo := hs.lo
  have hhi := hs.hi
  have hl : lookup st old = some b := lookup_of_mem hw hs.mem (by omega)
  have hne : mapped ≠ old := by intro e; have := hc b hs.mem; omega
  obtain ⟨st1, e1, e2, _, e4⟩ := moveLoop_ok obj hw hs hm0 hma hc (MAXLEN + 1) 0 st (by omega) hw ⟨b, hl, Grew.refl b, Nat.zero_le _⟩
    (by
      intro a
      rw [if_neg]
      have hrun := mwf_run hbw
      have hp := hrun.pos
      unfold cut
      rw [if_pos hp, ← hrun.first, hbw.sb]; omega)
  obtain ⟨st', f1, f2, f3⟩ := munmap_attr e2 hs.oa hs.sa
  refine ⟨st', ?_, f2, ?_⟩
  · unfold notifyMremap
    rw [roundUp_mul hs.sa]
    simp only
    rw [hl]
    simp only
    unfold remapKnown
    rw [hbw.se, if_neg (by omega), if_neg (by omega), if_neg (by omega), if_neg (by omega), if_neg (by omega), if_neg (by omega),
      if_pos (by omega)]
    unfold move
    rw [e1]
    simp only
    unfold moveExcess
    rw [if_neg (by omega)]
    simp only [Bool.false_eq_true, if_false]
    rw [f1]; rfl
  · intro a
    have hd := hc b hs.mem
    rw [f3, ← infoAt_attr st1, e4]
    by_cases c : mapped ≤ a ∧ a < mapped + osz
    · rw [if_pos c, if_pos c, if_neg (by omega), ← infoAt_attr st]
      cases infoAt st (old + (a - mapped)) <;> rfl
    · rw [if_neg c, if_neg c, infoAt_attr]

/-- C65 (partial), moving and growing: unless it reads past the array of entries, the notification completes; then the moved
range has the attributes of its source, the added pages up to the new size are known, the old range is no longer known, and no
other address's attributes change. What is missing is the attributes of the added pages (see `mremap_move_grow_fails`). -/
theorem mremap_move_grow_partial (obj : Nat → Nat) (st : List Mapping) (mapped old osz newSize caller : Nat) (b : Mapping) (hw : Wf st)
    (hs : Source st old osz b) (hm0 : 0 < mapped) (hma : mapped % PAGE = 0) (hn : osz < newSize)
    (hc : ∀ m ∈ st, m.end ≤ mapped ∨ mapped + (newSize + 4095) / 4096 * 4096 ≤ m.begin) :
    notifyMremap obj st mapped old osz newSize false caller = .overrun ∨
    ∃ st', notifyMremap obj st mapped old osz newSize false caller = .ok st' ∧ Wf st' ∧
      ∀ a, (mapped + osz ≤ a → a < mapped + (newSize + 4095) / 4096 * 4096 → ∃ x, attrAt st' a = some x ∧ x.caller = caller) ∧
        (¬ (mapped + osz ≤ a ∧ a < mapped + (newSize + 4095) / 4096 * 4096) →
          attrAt st' a = if mapped ≤ a ∧ a < mapped + osz
            then (attrAt st (old + (a - mapped))).map (fun x => { x with caller := caller })
            else if old ≤ a ∧ a < old + osz then none else attrAt st a) := by
  have hbw := hw.each b hs.mem
  have hpos := hs.pos
  have hlo := hs.lo
  have hhi := hs.hi
  have hsa := hs.sa
  have hP : PAGE = 4096 := rfl
  rw [hP] at hsa
  have hle : osz ≤ (newSize + 4095) / 4096 * 4096 := by omega
  have hl : lookup st old = some b := lookup_of_mem hw hs.mem (by omega)
  have hd := hc b hs.mem
  have hne : mapped ≠ old := by intro e; omega
  have hc' : Clear st mapped (mapped + osz) := by
    intro m hm
    have := hc m hm
    omega
  obtain ⟨st1, e1, e2, ⟨b', l', _⟩, e4⟩ := moveLoop_ok obj hw hs hm0 hma hc' (MAXLEN + 1) 0 st (by omega) hw ⟨b, hl, Grew.refl b, Nat.zero_le _⟩
    (by
      intro a
      rw [if_neg]
      have hrun := mwf_run hbw
      have hp := hrun.pos
      unfold cut
      rw [if_pos hp, ← hrun.first, hbw.sb]; omega)
  have start : notifyMremap obj st mapped old osz newSize false caller =
      (match moveExcess obj st1 old osz mapped newSize caller with
        | .ok st => ofMunmap (munmap st old osz)
        | o => o) := by
    unfold notifyMremap
    rw [roundUp_mul hs.sa]
    simp only
    rw [hl]
    simp only
    unfold remapKnown
    rw [hbw.se, if_neg (by omega), if_neg (by omega), if_neg (by omega), if_neg (by omega), if_neg (by omega), if_neg (by omega),
      if_pos (by omega)]
    unfold move
    rw [e1]
    rfl
  rw [start]
  unfold moveExcess
  rw [if_pos hn, l']
  simp only
  by_cases hov : b'.seq.nused ≥ MAXLEN
  · rw [if_pos hov]; exact Or.inl rfl
  · rw [if_neg hov]
    right
    have hlen : (newSize - osz + 4095) / 4096 * 4096 = (newSize + 4095) / 4096 * 4096 - osz := by omega
    have hclear : Clear st1 (mapped + osz) (mapped + osz + (newSize - osz + 4095) / 4096 * 4096) := by
      apply clear_of_info e2 (by omega)
      intro a a1 a2
      rw [e4, if_neg (by omega)]
      exact info_of_clear (lo := mapped + osz) (hi := mapped + (newSize + 4095) / 4096 * 4096)
        (by intro m hm; have := hc m hm; omega) (by omega) (by omega)
    obtain ⟨st2, g1, g2, _, g4⟩ := doMmap_clear obj e2 (by omega) (by rw [hP] at hma ⊢; omega) (by omega) hclear
      (b'.seq.slots b'.seq.nused).prot (b'.seq.slots b'.seq.nused).flags b'.seq.filename
      ((b'.seq.slots b'.seq.nused).offset + (old + osz - (b'.seq.slots b'.seq.nused).begin)) caller
    rw [g1]
    simp only
    obtain ⟨st', f1, f2, f3⟩ := munmap_attr g2 hs.oa hs.sa
    rw [f1]
    refine ⟨st', rfl, f2, ?_⟩
    intro a
    rw [f3, ← infoAt_attr st2, g4, hlen]
    constructor
    · intro a1 a2
      rw [if_neg (by omega), if_pos (by omega)]
      exact ⟨_, rfl, rfl⟩
    · intro ha
      rw [if_neg (c := mapped + osz ≤ a ∧ _) (by omega), e4]
      by_cases c : mapped ≤ a ∧ a < mapped + osz
      · rw [if_pos c, if_pos c, if_neg (by omega), ← infoAt_attr st]
        cases infoAt st (old + (a - mapped)) <;> rfl
      · rw [if_neg c, if_neg c, infoAt_attr]

/-- C65 (partial), shrinking in place to a whole number of pages: exactly the pages beyond the new
size stop being known. -/
theorem mremap_shrink_partial (obj : Nat → Nat) (st : List Mapping) (old osz newSize caller : Nat) (dontunmap : Bool) (b : Mapping)
    (hw : Wf st) (hs : Source st old osz b) (hn : 0 < newSize ∧ newSize < osz) (hna : newSize % PAGE = 0) :
    ∃ st', notifyMremap obj st old old osz newSize dontunmap caller = .ok st' ∧ Wf st' ∧
      ∀ a, attrAt st' a = if old + newSize ≤ a ∧ a < old + osz then none else attrAt st a := by
  have hbw := hw.each b hs.mem
  have hpos := hs.pos
  have hlo := hs.lo
  have hhi := hs.hi
  have hoa := hs.oa
  have hsa := hs.sa
  have hP : PAGE = 4096 := rfl
  have hl : lookup st old = some b := lookup_of_mem hw hs.mem (by omega)
  have hrun := mwf_run hbw
  obtain ⟨i, i1, i2, i3⟩ := hrun.locate old (by rw [hbw.sb]; exact hlo) (by rw [hbw.se]; omega)
  obtain ⟨st', f1, f2, f3⟩ := munmap_attr (st := st) (addr := old + newSize) (len := osz - newSize) hw
    (by rw [hP] at hoa hna ⊢; omega) (by rw [hP] at hsa hna ⊢; omega)
  refine ⟨st', ?_, f2, ?_⟩
  · unfold notifyMremap
    rw [roundUp_mul hs.sa]
    simp only
    rw [hl]
    simp only
    unfold remapKnown
    rw [hbw.se, if_neg (by omega), if_neg (by omega), if_neg (by omega), if_pos ⟨rfl, hn.2⟩,
      (findEntry_run hrun old).1 i i1 i2 i3]
    simp only
    rw [f1]; rfl
  · intro a
    rw [f3, show old + newSize + (osz - newSize) = old + osz by omega]

/-- C65 (partial), growing in place over free pages: the added pages continue the old mapping, with
its attributes, file and position; nothing else changes. -/
theorem mremap_grow_partial (obj : Nat → Nat) (st : List Mapping) (old osz newSize caller : Nat) (dontunmap : Bool) (b : Mapping)
    (hw : Wf st) (hs : Source st old osz b) (hn : osz < newSize)
    (hc : ∀ m ∈ st, m.end ≤ old + osz ∨ old + (newSize + 4095) / 4096 * 4096 ≤ m.begin) :
    ∃ st', notifyMremap obj st old old osz newSize dontunmap caller = .ok st' ∧ Wf st' ∧
      ∀ a, infoAt st' a = if old + osz ≤ a ∧ a < old + (newSize + 4095) / 4096 * 4096
        then (infoAt st old).map (fun x => x.moved caller (a - old)) else infoAt st a := by
  have hbw := hw.each b hs.mem
  have hpos := hs.pos
  have hlo := hs.lo
  have hhi := hs.hi
  have hoa := hs.oa
  have hsa := hs.sa
  have hP : PAGE = 4096 := rfl
  have hl : lookup st old = some b := lookup_of_mem hw hs.mem (by omega)
  have hrun := mwf_run hbw
  obtain ⟨i, i1, i2, i3⟩ := hrun.locate old (by rw [hbw.sb]; exact hlo) (by rw [hbw.se]; omega)
  have hlen : old + osz + (newSize - osz + 4095) / 4096 * 4096 = old + (newSize + 4095) / 4096 * 4096 := by
    rw [hP] at hsa; omega
  obtain ⟨st', f1, f2, _, f3⟩ := doMmap_clear obj (st := st) (mapped := old + osz) (len := newSize - osz) hw (by omega)
    (by rw [hP] at hoa hsa ⊢; omega) (by omega) (by rw [hlen]; exact hc) (b.seq.slots i).prot (b.seq.slots i).flags b.seq.filename
    ((b.seq.slots i).offset + (old - (b.seq.slots i).begin) + osz) caller
  refine ⟨st', ?_, f2, ?_⟩
  · unfold notifyMremap
    rw [roundUp_mul hs.sa]
    simp only
    rw [hl]
    simp only
    unfold remapKnown
    rw [hbw.se, if_neg (by omega), if_neg (by omega), if_neg (by omega), if_neg (by omega), if_pos ⟨rfl, hpos, hn⟩,
      (findEntry_run hrun old).1 i i1 i2 i3]
    exact f1
  · intro a
    rw [f3, hlen]
    by_cases c : old + osz ≤ a ∧ a < old + (newSize + 4095) / 4096 * 4096
    · rw [if_pos c, if_pos c, info_entry hw hs.mem i1 i2 i3]
      simp only [Option.map_some, Info.moved, Entry.attr, hs.anon i i1]
      congr 1
      simp only [Info.mk.injEq]
      refine ⟨trivial, ?_, by omega⟩
      cases b.seq.filename <;> rfl
    · rw [if_neg c, if_neg c]

/-- C65 (partial), old size zero: the new range duplicates the mapping from the old address on, with
the attributes, file and positions of the entry there; nothing else changes. -/
theorem mremap_duplicate_partial (obj : Nat → Nat) (st : List Mapping) (mapped old newSize caller : Nat) (dontunmap : Bool) (b : Mapping)
    (hw : Wf st) (hs : Source st old PAGE b) (hn : 0 < newSize) (hm0 : 0 < mapped) (hma : mapped % PAGE = 0) (hne : mapped ≠ old)
    (hc : ∀ m ∈ st, m.end ≤ mapped ∨ mapped + (newSize + 4095) / 4096 * 4096 ≤ m.begin) :
    ∃ st', notifyMremap obj st mapped old 0 newSize dontunmap caller = .ok st' ∧ Wf st' ∧
      ∀ a, infoAt st' a = if mapped ≤ a ∧ a < mapped + (newSize + 4095) / 4096 * 4096
        then (infoAt st old).map (fun x => x.moved caller (a - mapped)) else infoAt st a := by
  have hbw := hw.each b hs.mem
  have hpos := hs.pos
  have hlo := hs.lo
  have hhi := hs.hi
  have hl : lookup st old = some b := lookup_of_mem hw hs.mem (by omega)
  have hrun := mwf_run hbw
  obtain ⟨i, i1, i2, i3⟩ := hrun.locate old (by rw [hbw.sb]; exact hlo) (by rw [hbw.se]; omega)
  obtain ⟨st', f1, f2, _, f3⟩ := doMmap_clear obj (st := st) (mapped := mapped) (len := newSize) hw hm0
    hma hn hc (b.seq.slots i).prot (b.seq.slots i).flags b.seq.filename
    ((b.seq.slots i).offset + (old - (b.seq.slots i).begin)) caller
  refine ⟨st', ?_, f2, ?_⟩
  · unfold notifyMremap
    rw [show roundUp 0 PAGE = 0 from rfl]
    simp only
    rw [hl]
    simp only
    unfold remapKnown
    rw [hbw.se, if_neg (by omega), if_neg (by omega), if_neg (by omega), if_neg (by omega), if_neg (by omega), if_neg (by omega),
      if_neg (by omega), (findEntry_run hrun old).1 i i1 i2 i3]
    exact f1
  · intro a
    rw [f3]
    by_cases c : mapped ≤ a ∧ a < mapped + (newSize + 4095) / 4096 * 4096
    · rw [if_pos c, if_pos c, info_entry hw hs.mem i1 i2 i3]
      simp only [Option.map_some, Info.moved, Entry.attr, hs.anon i i1]
      congr 1
      simp only [Info.mk.injEq]
      refine ⟨trivial, ?_, trivial⟩
      cases b.seq.filename <;> rfl
    · rw [if_neg c, if_neg c]

/-- C65: a remapping that neither moves nor resizes changes nothing. -/
theorem mremap_same (obj : Nat → Nat) (st : List Mapping) (old osz caller : Nat) (dontunmap : Bool) (b : Mapping)
    (hw : Wf st) (hs : Source st old osz b) : notifyMremap obj st old old osz osz dontunmap caller = .ok st := by
  have hbw := hw.each b hs.mem
  have hpos := hs.pos
  have hlo := hs.lo
  have hhi := hs.hi
  have hl : lookup st old = some b := lookup_of_mem hw hs.mem (by omega)
  unfold notifyMremap
  rw [roundUp_mul hs.sa]
  simp only
  rw [hl]
  simp only
  unfold remapKnown
  rw [hbw.se, if_neg (by omega), if_pos ⟨rfl, rfl⟩]

/-! ### Witnesses and examples -/

/-- Did the notification leave a usable state? -/
def Out.completed : Out → Bool
  | .ok _ => true
  | _ => false

/-- What a completed notification leaves at an address. -/
def Out.at (o : Out) (a : Nat) : Option Info :=
  match o with
  | .ok st => infoAt st a
  | _ => none

deriving instance DecidableEq for MapSeq.Attr
deriving instance DecidableEq for Info

/-- C63 example: a mapping just above a sequence of the same file, and one in a gap. -/
example : (notifyMmap (fun _ => 0) ex 0x8000 0x1000 3 2 (some 1) 0x7000 9).at 0x8800 = some ⟨⟨3, 2, false, 9⟩, some 1, 0x7800⟩ ∧
    (notifyMmap (fun _ => 0) ex 0x9000 0x1 3 0x22 none 0 9).at 0x9fff = some ⟨⟨3, 0x22, true, 9⟩, none, 0xfff⟩ ∧
    (notifyMmap (fun _ => 0) ex 0x9000 0x1 3 0x22 none 0 9).at 0x7fff = infoAt ex 0x7fff := by decide +kernel

/-- C64 fails: the kernel accepts a fixed mapping anywhere, but these four do not leave the record
of it that the theorem above describes: one of another file inside a known sequence, one that runs
past the end of a known sequence, one at the very start of a known sequence, and one that replaces
the start of a known sequence and begins where another ends. -/
theorem mmap_fixed_fails : Wf ex ∧ isFixed 0x12 = true ∧ isFixed 0x32 = true ∧
    (notifyMmap (fun _ => 0) ex 0x3000 0x1000 3 0x12 (some 2) 0 0).completed = false ∧
    (notifyMmap (fun _ => 0) ex 0x7000 0x2000 3 0x12 (some 1) 0x6000 0).completed = false ∧
    (notifyMmap (fun _ => 0) ex 0x1000 0x1000 3 0x32 none 0 0).completed = false ∧
    (notifyMmap (fun _ => 0) ex 0x8000 0x3000 3 0x12 (some 1) 0x7000 9).completed = false :=
  ⟨ex_wf, by decide +kernel⟩

/-- C64 example: a fixed mapping of the same file inside a sequence is recorded there. -/
example : (notifyMmap (fun _ => 0) ex 0x3000 0x1000 7 0x12 (some 1) 0x2000 9).at 0x3800 = some ⟨⟨7, 0x12, false, 9⟩, some 1, 0x2800⟩ ∧
    (notifyMmap (fun _ => 0) ex 0x3000 0x1000 7 0x12 (some 1) 0x2000 9).at 0x2fff = infoAt ex 0x2fff := by decide +kernel

theorem ex_source : Source ex 0x2000 0x5000 ⟨0x1000, 0x8000, exSeq⟩ where
  mem := List.mem_cons_self
  lo := by decide
  hi := by decide
  pos := by decide
  oa := by decide
  sa := by decide
  ea := by decide +kernel
  anon := by decide +kernel

/-- C65 example: moving a range that spans three entries; the theorem applies and its result is this. -/
example : (∃ st', notifyMremap (fun _ => 0) ex 0x20000 0x2000 0x5000 0x5000 false 9 = .ok st' ∧ Wf st') ∧
    (notifyMremap (fun _ => 0) ex 0x20000 0x2000 0x5000 0x5000 false 9).at 0x21800 = some ⟨⟨1, 2, false, 9⟩, some 1, 0x2800⟩ ∧
    (notifyMremap (fun _ => 0) ex 0x20000 0x2000 0x5000 0x5000 false 9).at 0x3000 = none ∧
    (notifyMremap (fun _ => 0) ex 0x20000 0x2000 0x5000 0x5000 true 9).at 0x3000 = infoAt ex 0x3000 := by
  refine ⟨?_, by decide +kernel⟩
  obtain ⟨st', h1, h2, _⟩ := mremap_move_partial (fun _ => 0) ex 0x20000 0x2000 0x5000 9 _ ex_wf ex_source (by decide) (by decide)
    (by intro m hm; simp only [ex, List.mem_cons, List.not_mem_nil, or_false] at hm; rcases hm with rfl | rfl <;> decide)
  exact ⟨st', h1, h2⟩

/-- C65 fails, new size that is not a whole number of pages: the kernel rounds it up, so
`mremap(p, 8192, 4097)` changes nothing, but most of the second page is forgotten, together with
the first byte of the page after the range; and growing within the last page shrinks the record. -/
theorem mremap_unrounded_fails : Wf ex ∧
    (infoAt ex 0x3001).isSome ∧ (notifyMremap (fun _ => 0) ex 0x2000 0x2000 0x2000 0x1001 false 9).at 0x3001 = none ∧
    (infoAt ex 0x4000).isSome ∧ (notifyMremap (fun _ => 0) ex 0x2000 0x2000 0x2000 0x1001 false 9).at 0x4000 = none ∧
    (infoAt ex 0x7fff).isSome ∧ (notifyMremap (fun _ => 0) ex 0x6000 0x6000 0x1800 0x1900 false 9).at 0x7fff = none :=
  ⟨ex_wf, by decide +kernel⟩

/-- C65 fails, moving and growing: the added pages are recorded with the protection and flags of the
entry after the last one in use, here zero, and not with those of the mapping. -/
theorem mremap_move_grow_fails : Wf ex ∧ (infoAt ex 0x6fff).map (fun i => (i.attr.prot, i.attr.flags)) = some (3, 2) ∧
    ((notifyMremap (fun _ => 0) ex 0x20000 0x2000 0x5000 0x7000 false 9).at 0x25000).map (fun i => (i.attr.prot, i.attr.flags)) = some (0, 0) :=
  ⟨ex_wf, by decide +kernel⟩

/-- C65 fails, moving and shrinking: addresses beyond the new size are recorded as mapped. -/
theorem mremap_move_shrink_fails : Wf ex ∧ infoAt ex 0x24000 = none ∧
    ((notifyMremap (fun _ => 0) ex 0x20000 0x2000 0x5000 0x1000 false 9).at 0x24000).isSome :=
  ⟨ex_wf, by decide +kernel⟩

/-- C65 fails, moving onto a known mapping: the kernel replaces it, the notification aborts. -/
theorem mremap_onto_fails : Wf ex ∧ (notifyMremap (fun _ => 0) ex 0xa000 0x1000 0x2000 0x2000 false 9).completed = false :=
  ⟨ex_wf, by decide +kernel⟩

end Liballocs.Mmap
