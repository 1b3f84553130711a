import Verif.Model.EarlyFind
import Verif.Props.Brk
/-! Properties of early lookups. -/
namespace Liballocs.EarlyFind
open Brk

/-! ## The search -/

/-- However the index looks, the search looks at the address's page and the one before it, and no other: the distance is taken the wrong
way round, so that it wraps and is over the limit after one step. -/
theorem back_one (idx : Nat → Bool) {start : Nat} (h0 : 0 < start) (h64 : start < 2 ^ 64) :
    back idx start start = if idx start then start else start - 1 := by
  obtain ⟨p, rfl⟩ : ∃ p, start = p + 1 := ⟨start - 1, by omega⟩
  rw [back]
  split
  · rfl
  · rw [if_neg (by unfold LIMIT; omega)]
    cases p with
    | zero => rfl
    | succ q =>
      rw [back]
      split
      · rfl
      · rw [if_pos (by unfold LIMIT; omega)]
        rfl

private theorem indexed_map {s : State} {others : Nat → Bool} {p : Nat} (h1 : s.mapB ≤ p * 4096) (h2 : p * 4096 < s.mapE) : indexed s others p = true := by
  unfold indexed PAGE
  simp [h1, h2]

private theorem indexed_off {s : State} {others : Nat → Bool} {p : Nat} (h1 : s.mapE ≤ p * 4096) (h2 : others p = false) : indexed s others p = false := by
  unfold indexed PAGE
  simp [h2]
  omega

/-! ## C136 -/

/-- **C136 (partial).** An address up to which the break has moved without notice is found, and afterwards lies in the break allocation, which
ends at the break. Partial: the address is on the first page above the mapping, and the break allocation was thought to end with that page. -/
theorem near_found_partial (r : Run) (others : Nat → Bool) (old cur addr : Nat) (htr : ∀ s ∈ r.trace, Nested s) (hs : Synced old r.st)
    (hend : r.st.brkE = r.st.mapE) (hne : r.st.brkB < r.st.brkE) (hpB : r.st.mapB % 4096 = 0) (hpg : addr / 4096 = r.st.mapE / 4096) (h64 : addr < 2 ^ 64)
    (hcur : addr < cur) (ho : others (addr / 4096) = false) (ho' : others (addr / 4096 - 1) = false) :
    ∃ r', find true r others cur addr = some (r', true) ∧ r'.st.brkB = r.st.brkB ∧ r'.st.brkE = cur ∧ r'.st.brkB ≤ addr ∧ addr < r'.st.brkE ∧
      ∀ s ∈ r'.trace, Nested s := by
  have h1 := hs.lo; have h2 := hs.base; have h3 := hs.hi; have h5 := hs.page
  have hpE : r.st.mapE % 4096 = 0 := by rw [h5]; unfold roundUp; simp only [PAGE]; omega
  have hlt : r.st.mapB + 4096 ≤ r.st.mapE := by omega
  obtain ⟨r', e1, e2, e3, e4, e5, e6⟩ := step_ok r old (.notified cur true) htr hs (by simp only [Event.new]; omega)
  simp only [step, if_true, Event.new] at e1 e3 e4
  refine ⟨r', ?_, e5, e4, by omega, by omega, e2⟩
  unfold find
  simp only [PAGE]
  rw [back_one _ (by omega) (by omega), indexed_off (by omega) ho]
  simp only [Bool.false_eq_true, if_false, Bool.not_true]
  have hi : indexed r.st others (addr / 4096 - 1) = true := indexed_map (by omega) (by omega)
  have hb : inBrk r.st others ((addr / 4096 - 1) * 4096 + (4096 - 1)) = true := by
    have hd : ((addr / 4096 - 1) * 4096 + 4095) / 4096 = addr / 4096 - 1 := by omega
    unfold inBrk PAGE
    rw [hd, ho']
    simp only [Bool.not_false, Bool.true_and, Bool.and_eq_true, decide_eq_true_eq]
    omega
  rw [hi, hb]
  simp only [Bool.and_self, if_true, e1]
  have hp' : r'.st.mapE = roundUp cur PAGE := e3.page
  have hm : cur ≤ r'.st.mapE := by rw [hp']; exact le_roundUp cur
  rw [indexed_map (by rw [e6]; omega) (by omega)]

/-- An address whose page is indexed is found at once, and nothing changes. -/
theorem indexed_found (early : Bool) (r : Run) (others : Nat → Bool) (cur addr : Nat)
    (h : others (addr / 4096) = true ∨ (r.st.mapB ≤ addr / 4096 * 4096 ∧ addr / 4096 * 4096 < r.st.mapE)) : find early r others cur addr = some (r, true) := by
  have : indexed r.st others (addr / PAGE) = true := by
    rcases h with h | ⟨h1, h2⟩
    · unfold indexed PAGE
      rw [h, Bool.or_true]
    · exact indexed_map h1 h2
  unfold find
  rw [if_pos this]

/-- Once system calls are trapped nothing is searched for. -/
theorem later_absent (r : Run) (others : Nat → Bool) (cur addr : Nat) (h1 : r.st.mapE ≤ addr / 4096 * 4096) (h2 : others (addr / 4096) = false) :
    find false r others cur addr = some (r, false) := by
  unfold find
  have := indexed_off (others := others) h1 h2
  simp only [PAGE]
  rw [this]
  simp

/-! ## Where it fails -/

/-- **C136 fails** two pages or more above the mapping: wherever the break is by now, the address is not found and the break allocation stays
as it was. The search is meant to go back 128 pages. -/
theorem far_fails (r : Run) (others : Nat → Bool) (cur addr : Nat) (h64 : addr < 2 ^ 64) (hfar : r.st.mapE + 4096 ≤ addr / 4096 * 4096)
    (ho : others (addr / 4096) = false) (ho' : others (addr / 4096 - 1) = false) : find true r others cur addr = some (r, false) := by
  unfold find
  simp only [PAGE]
  rw [back_one _ (by omega) (by omega), indexed_off (by omega) ho]
  simp only [Bool.false_eq_true, if_false, Bool.not_true]
  rw [indexed_off (by omega) ho']
  simp

/-- **C136 fails** when the break was thought to be within a page: the last byte of that page, which is looked at, is not in the break
allocation, so the break is not asked for. -/
theorem unaligned_fails (r : Run) (others : Nat → Bool) (cur addr : Nat) (h64 : addr < 2 ^ 64) (h0 : 4096 ≤ addr) (hpg : addr / 4096 * 4096 = r.st.mapE)
    (hin : r.st.brkE < r.st.mapE) (ho : others (addr / 4096) = false) : find true r others cur addr = some (r, false) := by
  have hb : inBrk r.st others ((addr / 4096 - 1) * 4096 + (4096 - 1)) = false := by
    unfold inBrk
    have : ¬ ((addr / 4096 - 1) * 4096 + (4096 - 1) < r.st.brkE) := by omega
    simp [this]
  unfold find
  simp only [PAGE]
  rw [back_one _ (by omega) (by omega), indexed_off (by omega) ho]
  simp only [Bool.false_eq_true, if_false, Bool.not_true]
  rw [hb]
  simp

/-! ## A case -/

private def exSeq : MapSeq.Seq := ⟨0x1000, 0x3000, 1, none, fun i => if i = 0 then ⟨0x1000, 0x3000, 3, 0, 0, true, 0⟩ else ⟨0, 0, 0, 0, 0, false, 0⟩⟩
private def exRun (e : Nat) : Run := ⟨⟨0x1800, e, 0x1000, 0x3000, exSeq⟩, []⟩

/-- The break moves from 0x3000 to 0x9800: an address on the next page is found, the one after that is not; nor is the first if the break was 0x2800. -/
example : (find true (exRun 0x3000) (fun _ => false) 0x9800 0x3010).map (fun x => (x.1.st.brkE, x.1.st.mapE, x.2)) = some (0x9800, 0xa000, true) ∧
    (find true (exRun 0x3000) (fun _ => false) 0x9800 0x4010).map (fun x => (x.1.st.brkE, x.1.st.mapE, x.2)) = some (0x3000, 0x3000, false) ∧
    (find true (exRun 0x2800) (fun _ => false) 0x9800 0x3010).map (fun x => (x.1.st.brkE, x.1.st.mapE, x.2)) = some (0x2800, 0x3000, false) := by
  decide +kernel

end Liballocs.EarlyFind
