import Verif.Model.ExecScan
/-! # C96: the executable's bounds and holes -/
namespace Liballocs.ExecScan

/-! ### Specification -/

/-- The pages of a segment begin and end here. -/
def Phdr.lo (p : Phdr) : Nat := p.vaddr - p.vaddr % 4096
def Phdr.hi (p : Phdr) : Nat := p.vaddr + p.memsz + (4096 - (p.vaddr + p.memsz) % 4096) % 4096

/-- The address is in a page of some loaded segment. -/
def InSeg (base : Nat) (ps : List Phdr) (a : Nat) : Prop := ∃ p ∈ ps, p.kind = .load ∧ base + p.lo ≤ a ∧ a < base + p.hi

/-- The address is in one of the mapped holes. -/
def InHole (hs : List (Nat × Nat)) (a : Nat) : Prop := ∃ h ∈ hs, h.1 ≤ a ∧ a < h.1 + h.2

/-- Segments are non-empty, in order, and no two share a page. -/
structure Ordered (ps : List Phdr) : Prop where
  size : ∀ p ∈ ps, p.kind = .load → 0 < p.memsz
  sorted : ps.Pairwise (fun p q => p.kind = .load → q.kind = .load → p.hi ≤ q.lo)

theorem lo_eq (p : Phdr) : roundDown p.vaddr PAGE = p.lo := by
  unfold roundDown Phdr.lo; show p.vaddr / 4096 * 4096 = _; omega

theorem hi_eq (p : Phdr) : roundUp (p.vaddr + p.memsz) PAGE = p.hi := by
  unfold roundUp Phdr.hi; show (_ + 4095) / 4096 * 4096 = _; omega

theorem hi_base {base : Nat} (hb : base % 4096 = 0) (p : Phdr) : roundUp (base + p.vaddr + p.memsz) PAGE = base + p.hi := by
  unfold roundUp Phdr.hi; show (_ + 4095) / 4096 * 4096 = _; omega

theorem lo_lt_hi {p : Phdr} (h : 0 < p.memsz) : p.lo < p.hi := by unfold Phdr.lo Phdr.hi; omega

theorem Ordered.tail {p : Phdr} {ps : List Phdr} (h : Ordered (p :: ps)) : Ordered ps :=
  ⟨fun q hq => h.size q (by simp [hq]), (List.pairwise_cons.1 h.sorted).2⟩

theorem inSeg_cons {base : Nat} {p : Phdr} {ps : List Phdr} {a : Nat} :
    InSeg base (p :: ps) a ↔ (p.kind = .load ∧ base + p.lo ≤ a ∧ a < base + p.hi) ∨ InSeg base ps a := by
  unfold InSeg; simp

theorem inHole_cons {h : Nat × Nat} {hs : List (Nat × Nat)} {a : Nat} :
    InHole (h :: hs) a ↔ (h.1 ≤ a ∧ a < h.1 + h.2) ∨ InHole hs a := by
  unfold InHole; simp

/-- What the loop does after the first segment. -/
theorem loop_spec {base : Nat} (hb : base % 4096 = 0) (ps : List Phdr) (s : S) (e : Nat) (ho : Ordered ps) (hl : s.last = some e)
    (he : ∀ p ∈ ps, p.kind = .load → e ≤ p.lo) (hbe : s.bigEnd = base + e) (hbs : s.bigStart < s.bigEnd) :
    ∃ s' e', loop base s ps = some s' ∧ s'.bigEnd = base + e' ∧ e ≤ e' ∧
      (∀ a, (InHole s'.holes a ∨ InSeg base ps a) ↔ (InHole s.holes a ∨ (base + e ≤ a ∧ a < base + e'))) ∧
      (∀ a, InHole s'.holes a → InHole s.holes a ∨ (base + e ≤ a ∧ ¬ InSeg base ps a)) ∧
      ((∀ p ∈ ps, p.kind = .load → p.hi ≤ e') ∧ ((s'.bigStart = s.bigStart ∧ e' = e) ∨
        ∃ p ∈ ps, p.kind = .load ∧ s'.bigStart = base + p.vaddr ∧ e' = p.hi)) := by
  induction ps generalizing s e with
  | nil =>
    refine ⟨s, e, rfl, hbe, Nat.le_refl _, ?_, fun a h => Or.inl h, ⟨by simp, Or.inl ⟨rfl, rfl⟩⟩⟩
    intro a
    have : ¬ InSeg base [] a := by unfold InSeg; simp
    constructor
    · rintro (h | h)
      · exact Or.inl h
      · exact absurd h this
    · rintro (h | h)
      · exact Or.inl h
      · omega
  | cons p ps ih =>
    unfold loop
    by_cases hk : p.kind = .load
    · rw [if_pos hk]
      have hsz := ho.size p (by simp) hk
      have hlh := lo_lt_hi hsz
      have hep := he p (by simp) hk
      have hnote : note base s p = { s with bigEnd := base + p.hi, bigStart := base + p.vaddr } := by
        unfold note; rw [hi_base hb, if_pos (by rw [hbe]; omega)]
      have hord := (List.pairwise_cons.1 ho.sorted).1
      have hvlt : base + p.vaddr < base + p.hi := by unfold Phdr.hi; omega
      have hseg : ∀ a, InSeg base ps a → base + p.hi ≤ a := by
        rintro a ⟨q, hq, hqk, h1, _⟩
        have := hord q hq hk hqk
        omega
      by_cases hg : p.lo = e
      · have hf : fill base (note base s p) p = some (note base s p) := by
          unfold fill; rw [hnote]; simp only [hl]; rw [lo_eq, if_pos hg]
        rw [hf, hnote]
        simp only
        rw [hi_eq]
        obtain ⟨s', e', i1, i2, i3, i4, i5, i6⟩ := ih ⟨base + p.hi, base + p.vaddr, some p.hi, s.holes⟩ p.hi ho.tail rfl
          (fun q hq hqk => hord q hq hk hqk) rfl hvlt
        refine ⟨s', e', i1, i2, by omega, ?_, ?_, ⟨?_, ?_⟩⟩
        · intro a
          have := i4 a
          rw [inSeg_cons]
          constructor
          · rintro (h | h | h)
            · rcases this.1 (Or.inl h) with x | x
              · exact Or.inl x
              · right; omega
            · right; omega
            · rcases this.1 (Or.inr h) with x | x
              · exact Or.inl x
              · right; omega
          · rintro (h | h)
            · rcases this.2 (Or.inl h) with x | x
              · exact Or.inl x
              · exact Or.inr (Or.inr x)
            · by_cases c : a < base + p.hi
              · exact Or.inr (Or.inl ⟨hk, by omega, c⟩)
              · rcases this.2 (Or.inr (by omega)) with x | x
                · exact Or.inl x
                · exact Or.inr (Or.inr x)
        · intro a h
          rcases i5 a h with x | ⟨x, y⟩
          · exact Or.inl x
          · right
            refine ⟨by omega, ?_⟩
            rw [inSeg_cons]
            rintro (z | z)
            · omega
            · exact y z
        · intro q hq hqk
          rcases List.mem_cons.1 hq with x | x
          · rw [x]; exact i3
          · exact i6.1 q x hqk
        · right
          rcases i6.2 with ⟨x, y⟩ | ⟨q, x, y⟩
          · exact ⟨p, by simp, hk, x, y⟩
          · exact ⟨q, by simp [x], y⟩
      · have hf : fill base (note base s p) p =
            some ⟨base + p.hi, base + p.vaddr, some e, (base + e, p.lo - e) :: s.holes⟩ := by
          unfold fill; rw [hnote]; simp only [hl]; rw [lo_eq, if_neg hg, if_neg (by omega)]
        rw [hf]
        simp only
        rw [hi_eq]
        obtain ⟨s', e', i1, i2, i3, i4, i5, i6⟩ := ih ⟨base + p.hi, base + p.vaddr, some p.hi, (base + e, p.lo - e) :: s.holes⟩ p.hi ho.tail rfl
          (fun q hq hqk => hord q hq hk hqk) rfl hvlt
        refine ⟨s', e', i1, i2, by omega, ?_, ?_, ⟨?_, ?_⟩⟩
        · intro a
          have := i4 a
          rw [inHole_cons] at this
          rw [inSeg_cons]
          simp only at this
          constructor
          · rintro (h | h | h)
            · rcases this.1 (Or.inl h) with (x | x) | x
              · right; omega
              · exact Or.inl x
              · right; omega
            · right; omega
            · rcases this.1 (Or.inr h) with (x | x) | x
              · right; omega
              · exact Or.inl x
              · right; omega
          · rintro (h | h)
            · rcases this.2 (Or.inl (Or.inr h)) with x | x
              · exact Or.inl x
              · exact Or.inr (Or.inr x)
            · by_cases c : a < base + p.hi
              · by_cases c2 : base + p.lo ≤ a
                · exact Or.inr (Or.inl ⟨hk, c2, c⟩)
                · rcases this.2 (Or.inl (Or.inl (by omega))) with x | x
                  · exact Or.inl x
                  · exact Or.inr (Or.inr x)
              · rcases this.2 (Or.inr (by omega)) with x | x
                · exact Or.inl x
                · exact Or.inr (Or.inr x)
        · intro a h
          rcases i5 a h with x | ⟨x, y⟩
          · rw [inHole_cons] at x
            rcases x with x | x
            · right
              simp only at x
              refine ⟨x.1, ?_⟩
              rw [inSeg_cons]
              rintro (z | z)
              · omega
              · have := hseg a z; omega
            · exact Or.inl x
          · right
            refine ⟨by omega, ?_⟩
            rw [inSeg_cons]
            rintro (z | z)
            · omega
            · exact y z
        · intro q hq hqk
          rcases List.mem_cons.1 hq with x | x
          · rw [x]; exact i3
          · exact i6.1 q x hqk
        · right
          rcases i6.2 with ⟨x, y⟩ | ⟨q, x, y⟩
          · exact ⟨p, by simp, hk, x, y⟩
          · exact ⟨q, by simp [x], y⟩
    · rw [if_neg hk]
      obtain ⟨s', e', i1, i2, i3, i4, i5, i6⟩ := ih s e ho.tail hl (fun q hq => he q (by simp [hq])) hbe hbs
      have hsegeq : ∀ a, InSeg base (p :: ps) a ↔ InSeg base ps a := by
        intro a; rw [inSeg_cons]
        exact ⟨fun h => h.elim (fun x => absurd x.1 hk) id, Or.inr⟩
      refine ⟨s', e', i1, i2, i3, ?_, ?_, ⟨?_, ?_⟩⟩
      · intro a; rw [hsegeq]; exact i4 a
      · intro a; rw [hsegeq]; exact i5 a
      · intro q hq hqk
        rcases List.mem_cons.1 hq with x | x
        · rw [x] at hqk; exact absurd hqk hk
        · exact i6.1 q x hqk
      · rcases i6.2 with x | ⟨q, x, y⟩
        · exact Or.inl x
        · exact Or.inr ⟨q, by simp [x], y⟩

/-- The first loaded segment. -/
def firstLoad : List Phdr → Option Phdr
  | [] => none
  | p :: ps => if p.kind = .load then some p else firstLoad ps

/-- **C96.** The holes and the segments' pages, which are disjoint, make up the whole range from the first segment's first page to the end
address; and that is the end of the segment reaching highest, whose start is taken for the data segment's. -/
theorem loop_tiles {base : Nat} (hb : base % 4096 = 0) (ps : List Phdr) (ho : Ordered ps) (f : Phdr) (hf : firstLoad ps = some f) :
    ∃ s, loop base ⟨0, 0, none, []⟩ ps = some s ∧
      (∀ a, (InHole s.holes a ∨ InSeg base ps a) ↔ (base + f.lo ≤ a ∧ a < s.bigEnd)) ∧
      (∀ a, ¬ (InHole s.holes a ∧ InSeg base ps a)) ∧
      (∀ p ∈ ps, p.kind = .load → base + p.hi ≤ s.bigEnd) ∧
      ∃ p ∈ ps, p.kind = .load ∧ s.bigEnd = base + p.hi ∧ s.bigStart = base + p.vaddr := by
  induction ps with
  | nil => cases hf
  | cons p ps ih =>
    unfold firstLoad at hf
    by_cases hk : p.kind = .load
    · rw [if_pos hk] at hf
      have e := Option.some.inj hf
      subst e
      have hsz := ho.size p (by simp) hk
      have hlh := lo_lt_hi hsz
      have hord := (List.pairwise_cons.1 ho.sorted).1
      have hvlt : base + p.vaddr < base + p.hi := by unfold Phdr.hi; omega
      have hseg : ∀ a, InSeg base ps a → base + p.hi ≤ a := by
        rintro a ⟨q, hq, hqk, h1, _⟩
        have := hord q hq hk hqk
        omega
      obtain ⟨s', e', i1, i2, i3, i4, i5, i6⟩ := loop_spec hb ps ⟨base + p.hi, base + p.vaddr, some p.hi, []⟩ p.hi ho.tail rfl
        (fun q hq hqk => hord q hq hk hqk) rfl hvlt
      have hnil : ∀ a, ¬ InHole [] a := by unfold InHole; simp
      refine ⟨s', ?_, ?_, ?_, ?_, ?_⟩
      · unfold loop
        rw [if_pos hk]
        have hnote : note base ⟨0, 0, none, []⟩ p = ⟨base + p.hi, base + p.vaddr, none, []⟩ := by
          unfold note; rw [hi_base hb, if_pos (by show 0 < _; omega)]
        rw [hnote]
        simp only [fill]
        rw [hi_eq]
        exact i1
      · intro a
        have := i4 a
        rw [inSeg_cons, i2]
        constructor
        · rintro (h | h | h)
          · rcases this.1 (Or.inl h) with x | x
            · exact absurd x (hnil a)
            · omega
          · omega
          · rcases this.1 (Or.inr h) with x | x
            · exact absurd x (hnil a)
            · omega
        · intro h
          by_cases c : a < base + p.hi
          · exact Or.inr (Or.inl ⟨hk, h.1, c⟩)
          · rcases this.2 (Or.inr (by omega)) with x | x
            · exact Or.inl x
            · exact Or.inr (Or.inr x)
      · rintro a ⟨h1, h2⟩
        rcases i5 a h1 with x | ⟨x, y⟩
        · exact hnil a x
        · rw [inSeg_cons] at h2
          rcases h2 with z | z
          · omega
          · exact y z
      · intro q hq hqk
        rw [i2]
        rcases List.mem_cons.1 hq with x | x
        · rw [x]; omega
        · have := i6.1 q x hqk; omega
      · rcases i6.2 with ⟨x, y⟩ | ⟨q, x, y1, y2, y3⟩
        · exact ⟨p, by simp, hk, by rw [i2, y], x⟩
        · exact ⟨q, by simp [x], y1, by rw [i2, y3], y2⟩
    · rw [if_neg hk] at hf
      obtain ⟨s, i1, i2, i3, i4, i5⟩ := ih ho.tail hf
      have hsegeq : ∀ a, InSeg base (p :: ps) a ↔ InSeg base ps a := by
        intro a; rw [inSeg_cons]
        exact ⟨fun h => h.elim (fun x => absurd x.1 hk) id, Or.inr⟩
      refine ⟨s, ?_, ?_, ?_, ?_, ?_⟩
      · unfold loop; rw [if_neg hk]; exact i1
      · intro a; rw [hsegeq]; exact i2 a
      · intro a; rw [hsegeq]; exact i3 a
      · intro q hq hqk
        rcases List.mem_cons.1 hq with x | x
        · rw [x] at hqk; exact absurd hqk hk
        · exact i4 q x hqk
      · obtain ⟨q, x, y⟩ := i5
        exact ⟨q, by simp [x], y⟩

/-- The load address is right if the header table's own header is the first in it. -/
theorem load_partial {b v m : Nat} {ps : List Phdr} (h : b + v < 2 ^ 64) : loadAddr (b + v) (⟨.phdr, v, m⟩ :: ps) = b := by
  unfold loadAddr
  rw [if_pos rfl]
  show (b + v + 2 ^ 64 - v) % 2 ^ 64 = b
  omega

/-- Where it stands after `n` others, the load address is too high by their size. -/
theorem load_fails {b v m : Nat} {pre ps : List Phdr} (hp : ∀ p ∈ pre, p.kind ≠ .phdr) (h : b + v + 56 * pre.length < 2 ^ 64) :
    loadAddr (b + v) (pre ++ ⟨.phdr, v, m⟩ :: ps) = b + 56 * pre.length := by
  have key : ∀ (pre : List Phdr) (x : Nat), (∀ p ∈ pre, p.kind ≠ .phdr) →
      loadAddr x (pre ++ ⟨.phdr, v, m⟩ :: ps) = (x + 56 * pre.length + 2 ^ 64 - v) % 2 ^ 64 := by
    intro pre
    induction pre with
    | nil => intro x _; simp only [List.nil_append, loadAddr, if_true, List.length_nil, Nat.mul_zero, Nat.add_zero]
    | cons p pre ih =>
      intro x hp
      rw [List.cons_append]
      unfold loadAddr
      rw [if_neg (hp p (by simp)), ih (x + 56) (fun q hq => hp q (by simp [hq])), List.length_cons]
      congr 1; omega
  rw [key pre _ hp]
  omega

/-- The whole computation, for a table that begins with its own header. -/
theorem execBounds_partial {b v m : Nat} {ps : List Phdr} (h : b + v < 2 ^ 64) (hb : b % 4096 = 0) (ho : Ordered ps) (f : Phdr)
    (hf : firstLoad ps = some f) :
    ∃ s, execBounds (b + v) (⟨.phdr, v, m⟩ :: ps) = some (b, s) ∧
      (∀ a, (InHole s.holes a ∨ InSeg b ps a) ↔ (b + f.lo ≤ a ∧ a < s.bigEnd)) ∧ (∀ a, ¬ (InHole s.holes a ∧ InSeg b ps a)) ∧
      (∀ p ∈ ps, p.kind = .load → b + p.hi ≤ s.bigEnd) ∧
      ∃ p ∈ ps, p.kind = .load ∧ s.bigEnd = b + p.hi ∧ s.bigStart = b + p.vaddr := by
  obtain ⟨s, i1, i2, i3, i4, q, i5, i6, i7, i8⟩ := loop_tiles hb ps ho f hf
  refine ⟨s, ?_, i2, i3, i4, q, i5, i6, i7, i8⟩
  unfold execBounds
  rw [load_partial h]
  have e : loop b ⟨0, 0, none, []⟩ (⟨.phdr, v, m⟩ :: ps) = some s := by
    conv => lhs; unfold loop
    rw [if_neg (by simp)]; exact i1
  rw [e]
  have := lo_lt_hi (ho.size q i5 i6)
  simp only
  rw [if_neg (by omega)]

/-- Two segments with a common page end the program. -/
theorem shared_page_fails {base : Nat} {s : S} {e : Nat} {p : Phdr} {ps : List Phdr} (hl : s.last = some e) (hk : p.kind = .load)
    (h : p.lo < e) : loop base s (p :: ps) = none := by
  unfold loop
  rw [if_pos hk]
  have : (note base s p).last = some e := by unfold note; split <;> exact hl
  have hf : fill base (note base s p) p = none := by
    unfold fill; rw [this]; simp only
    rw [lo_eq, if_neg (by omega), if_pos h]
  rw [hf]

/-- A position-independent executable at 0x555555554000 with a hole before its data. -/
def demo : List Phdr := [⟨.phdr, 0x40, 0x2d8⟩, ⟨.other, 0x318, 0x1c⟩, ⟨.load, 0, 0x628⟩, ⟨.load, 0x1000, 0x1c5⟩, ⟨.load, 0x3db8, 0x260⟩]

example : (execBounds 0x555555554040 demo).map (fun r => (r.1, r.2.bigEnd, r.2.bigStart, r.2.holes)) =
    some (0x555555554000, 0x555555559000, 0x555555557db8, [(0x555555556000, 0x1000)]) := by decide +kernel

example : Ordered demo := by
  refine ⟨by decide, by decide⟩

end Liballocs.ExecScan
