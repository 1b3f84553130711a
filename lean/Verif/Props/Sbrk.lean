import Verif.Model.Sbrk
/- C43: the private heap break never leaves its arena. -/
namespace Liballocs.Sbrk

/-- The break a state stands for: before the first call it is the arena base. -/
def St.brk (base : BitVec 64) (s : St) : Nat := if s.curbrk = 0#64 then base.toNat else s.curbrk.toNat

/-- Specification of one call on mathematical integers: move by exactly `inc` if that stays within
the arena, otherwise fail and change nothing. -/
def specBrk (base limit : Nat) (b : Nat) (inc : Int) : Nat × Option Nat :=
  if (base : Int) ≤ b + inc ∧ (b : Int) + inc ≤ limit then ((b + inc).toNat, some b) else (b, none)

/-- C43 for one call: the code refines the specification, for every arena, break inside it and
64-bit signed increment. -/
theorem sbrk_refines (base limit : BitVec 64) (s : St) (inc : BitVec 64)
    (h0 : 0 < base.toNat) (h1 : base.toNat ≤ s.brk base) (h2 : s.brk base ≤ limit.toNat) :
    let r := sbrk base limit s inc
    (r.1.brk base, r.2.map BitVec.toNat) = specBrk base.toNat limit.toNat (s.brk base) inc.toInt := by
  have hne : base ≠ 0#64 := by intro h; rw [h] at h0; simp at h0
  obtain ⟨cur, hcur⟩ : ∃ cur, cur = if s.curbrk = 0#64 then base else s.curbrk := ⟨_, rfl⟩
  have hb : s.brk base = cur.toNat := by
    unfold St.brk; rw [hcur]; split <;> rfl
  rw [hb] at h1 h2 ⊢
  have hcur0 : cur ≠ 0#64 := by intro h; rw [h] at h1; simp at h1; omega
  have hst : ∀ x : BitVec 64, base.toNat ≤ x.toNat → ({ curbrk := x } : St).brk base = x.toNat := by
    intro x hx
    unfold St.brk
    have : x ≠ 0#64 := by intro h; rw [h] at hx; simp at hx; omega
    simp [this]
  have hcl := cur.isLt
  have hll := limit.isLt
  have hil := inc.isLt
  have hreq : (cur + inc).toNat = (cur.toNat + inc.toNat) % 2 ^ 64 := BitVec.toNat_add ..
  have hint : inc.toInt = if 2 * inc.toNat < 2 ^ 64 then (inc.toNat : Int) else inc.toNat - 2 ^ 64 := by
    rw [BitVec.toInt_eq_toNat_cond]; simp
  simp only [sbrk, ← hcur, specBrk]
  by_cases hs : 2 * inc.toNat < 2 ^ 64
  · simp only [hs, if_true] at hint
    rw [hint]
    by_cases hz : inc.toNat = 0
    · -- no change
      have e : cur + inc = cur := by
        apply BitVec.eq_of_toNat_eq; rw [hreq]; omega
      simp only [hz, e]
      have : ¬ (base.toNat > cur.toNat) := by omega
      simp [this, hst cur h1, h1, h2]
    · have e : (cur + inc).toNat = cur.toNat + inc.toNat ∨
          (cur + inc).toNat + 2 ^ 64 = cur.toNat + inc.toNat := by rw [hreq]; omega
      split
      · rename_i hf
        have : ¬ ((base.toNat : Int) ≤ cur.toNat + inc.toNat ∧
            (cur.toNat : Int) + inc.toNat ≤ limit.toNat) := by omega
        simp [this, hst cur h1]
      · rename_i hf
        have e' : (cur + inc).toNat = cur.toNat + inc.toNat := by omega
        have hpos : (0 : Int) < inc.toNat := by omega
        simp only [hpos, if_true]
        by_cases hl : limit.toNat < (cur + inc).toNat
        · have hn : limit ≠ cur + inc := by intro h; rw [← h] at hl; omega
          have : ¬ ((base.toNat : Int) ≤ cur.toNat + inc.toNat ∧
            (cur.toNat : Int) + inc.toNat ≤ limit.toNat) := by omega
          simp only [hl, if_true, hn, if_false, this, hst cur h1, Option.map_none]
        · have : ((base.toNat : Int) ≤ cur.toNat + inc.toNat ∧
            (cur.toNat : Int) + inc.toNat ≤ limit.toNat) := by omega
          simp only [hl, if_false, if_true, this, and_self]
          rw [hst (cur + inc) (by omega)]
          simp only [Option.map_some, e']
          congr 1
  · simp only [hs, if_false] at hint
    rw [hint]
    have e : (cur + inc).toNat = cur.toNat + inc.toNat ∨
          (cur + inc).toNat + 2 ^ 64 = cur.toNat + inc.toNat := by rw [hreq]; omega
    split
    · rename_i hf
      have : ¬ ((base.toNat : Int) ≤ cur.toNat + (inc.toNat - 2 ^ 64) ∧
          (cur.toNat : Int) + (inc.toNat - 2 ^ 64) ≤ limit.toNat) := by omega
      simp only [this, if_false, hst cur h1, Option.map_none]
    · rename_i hf
      have e' : (cur + inc).toNat + 2 ^ 64 = cur.toNat + inc.toNat := by omega
      have hpos : ¬ (0 : Int) < inc.toNat - 2 ^ 64 := by omega
      simp only [hpos, if_false]
      by_cases hl : base.toNat > (cur + inc).toNat
      · have hn : base ≠ cur + inc := by intro h; rw [← h] at hl; omega
        have : ¬ ((base.toNat : Int) ≤ cur.toNat + (inc.toNat - 2 ^ 64) ∧
            (cur.toNat : Int) + (inc.toNat - 2 ^ 64) ≤ limit.toNat) := by omega
        simp only [hl, if_true, hn, if_false, this, hst cur h1, Option.map_none]
      · have : ((base.toNat : Int) ≤ cur.toNat + (inc.toNat - 2 ^ 64) ∧
            (cur.toNat : Int) + (inc.toNat - 2 ^ 64) ≤ limit.toNat) := by omega
        simp only [hl, if_false, if_true, this, and_self]
        rw [hst (cur + inc) (by omega)]
        simp only [Option.map_some]
        congr 1
        omega

/-- The specification's history. -/
def specRun (base limit : Nat) : Nat → List Int → Nat × List (Option Nat)
  | b, [] => (b, [])
  | b, i :: is =>
    let r := specBrk base limit b i
    let r' := specRun base limit r.1 is
    (r'.1, r.2 :: r'.2)

theorem specBrk_bounds (base limit b : Nat) (i : Int) (h1 : base ≤ b) (h2 : b ≤ limit) :
    base ≤ (specBrk base limit b i).1 ∧ (specBrk base limit b i).1 ≤ limit := by
  unfold specBrk; split <;> simp only <;> omega

/-- C43: over every history of increments from the initial state, the break stays in the arena,
every successful call moved it by exactly its increment and returned the old break, and every
failed call changed nothing. -/
theorem sbrk_history (base limit : BitVec 64) (h0 : 0 < base.toNat)
    (hbl : base.toNat ≤ limit.toNat) (incs : List (BitVec 64)) :
    let r := run base limit ⟨0#64⟩ incs
    (r.1.brk base, r.2.map (Option.map BitVec.toNat)) =
      specRun base.toNat limit.toNat base.toNat (incs.map BitVec.toInt) ∧
    base.toNat ≤ r.1.brk base ∧ r.1.brk base ≤ limit.toNat := by
  have gen : ∀ (incs : List (BitVec 64)) (s : St), base.toNat ≤ s.brk base →
      s.brk base ≤ limit.toNat →
      let r := run base limit s incs
      (r.1.brk base, r.2.map (Option.map BitVec.toNat)) =
        specRun base.toNat limit.toNat (s.brk base) (incs.map BitVec.toInt) ∧
      base.toNat ≤ r.1.brk base ∧ r.1.brk base ≤ limit.toNat := by
    intro incs
    induction incs with
    | nil => intro s h1 h2; simp [run, specRun, h1, h2]
    | cons i is ih =>
      intro s h1 h2
      have hr := sbrk_refines base limit s i h0 h1 h2
      simp only at hr
      have hbd := specBrk_bounds base.toNat limit.toNat (s.brk base) i.toInt h1 h2
      rw [← hr] at hbd
      have := ih (sbrk base limit s i).1 hbd.1 hbd.2
      simp only [run, List.map_cons, specRun] at this ⊢
      rw [← hr]
      refine ⟨?_, this.2⟩
      have h3 := this.1
      rw [Prod.ext_iff] at h3 ⊢
      simp only at h3
      exact ⟨h3.1, by simp only; rw [h3.2]⟩
  have := gen incs ⟨0#64⟩ (by simp [St.brk]) (by simpa [St.brk] using hbl)
  simpa [St.brk] using this

example : run 0x1000#64 0x3000#64 ⟨0#64⟩ [0x1800#64, 0x1000#64, -0x2000#64, -0x800#64] =
    (⟨0x2000#64⟩, [some 0x1000#64, none, none, some 0x2800#64]) := by decide

end Liballocs.Sbrk
