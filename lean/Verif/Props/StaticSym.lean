import Verif.Model.StaticSym
/-!
# A static query reports the object containing the address (C49)
-/
namespace Liballocs.StaticSym

/-! ## Specification -/

/-- The address lies in the object. -/
def Rec.covers (r : Rec) (load a : Nat) : Prop := load + r.vaddr ≤ a ∧ a < load + r.vaddr + r.size

/-- The table is in address order and its objects do not overlap. -/
def Tidy (recs : List Rec) : Prop := recs.Pairwise (fun r q => r.vaddr + r.size ≤ q.vaddr ∧ r.vaddr < q.vaddr)

/-- The last record at or below an address is the one containing it. -/
theorem search_covering : ∀ (recs : List Rec), Tidy recs → ∀ (t : Nat) (r : Rec), r ∈ recs → r.vaddr ≤ t →
    t < r.vaddr + r.size → searchLeq recs t = some r := by
  intro recs
  unfold searchLeq
  induction recs with
  | nil => intro _ t r h; simp at h
  | cons q recs ih =>
    intro ht t r hr h1 h2
    obtain ⟨hq, ht'⟩ := List.pairwise_cons.mp ht
    rcases List.mem_cons.mp hr with rfl | hr
    · rw [List.filter_cons_of_pos (by simpa using h1)]
      have : recs.filter (fun r => decide (r.vaddr ≤ t)) = [] := by
        rw [List.filter_eq_nil_iff]
        intro p hp
        have := hq p hp
        simp; omega
      rw [this]; rfl
    · have := ih ht' t r hr h1 h2
      by_cases hv : q.vaddr ≤ t
      · rw [List.filter_cons_of_pos (by simpa using hv)]
        rw [List.getLast?_cons, this]; rfl
      · rw [List.filter_cons_of_neg (by simpa using hv)]; exact this

theorem search_mem {recs t r} (h : searchLeq recs t = some r) : r ∈ recs ∧ r.vaddr ≤ t := by
  have := List.mem_of_getLast? h
  rw [List.mem_filter] at this
  exact ⟨this.1, by simpa using this.2⟩

/-- **C49 (partial).** For every table of disjoint objects, load address and queried address: inside an object the query
reports the object's base and (for symbols) its size and type; outside all objects it fails. Partial: the address one past
an object is excluded from the second part, and relocation targets' sizes from the first. -/
theorem static_query_partial (recs : List Rec) (ht : Tidy recs) (load pb obj : Nat) (ho : load ≤ obj) :
    (∀ r ∈ recs, r.covers load obj → ∃ i, getInfo recs load pb obj = some i ∧ i.base = load + r.vaddr ∧
      (r.isReloc = false → i.size = r.size ∧ i.type = r.type) ∧ (r.isReloc = true → i.type = pb)) ∧
    ((∀ r ∈ recs, ¬ r.covers load obj ∧ obj ≠ load + r.vaddr + r.size) → getInfo recs load pb obj = none) := by
  refine ⟨?_, ?_⟩
  · intro r hr ⟨h1, h2⟩
    have := search_covering recs ht (obj - load) r hr (by omega) (by omega)
    unfold getInfo doLookup
    rw [this]
    simp only
    rw [if_neg (by omega)]
    refine ⟨_, rfl, rfl, fun h => ?_, fun h => ?_⟩ <;> simp [h]
  · intro h
    unfold getInfo doLookup
    cases hs : searchLeq recs (obj - load) with
    | none => rfl
    | some r =>
      obtain ⟨h1, h2⟩ := search_mem hs
      have := h r h1
      unfold Rec.covers at this
      simp only
      rw [if_pos (by omega)]

def table : List Rec := [⟨0x100, 8, false, 1⟩, ⟨0x108, 4, false, 2⟩, ⟨0x120, 16, true, 0⟩, ⟨0x140, 40, false, 3⟩]

theorem table_tidy : Tidy table := by unfold Tidy table; decide

/-- Inside, at the edges, in a gap. -/
example : [0x10ff, 0x1100, 0x1107, 0x1108, 0x1111, 0x1167].map (fun a => (getInfo table 0x1000 99 a).map Info.base) =
    [none, some 0x1100, some 0x1100, some 0x1108, none, some 0x1140] := by decide

/-- **C49 fails** one past the end of an object, when no other object begins there: the gap byte is attributed to it. -/
theorem past_end_fails (v n ty load pb : Nat) (hn : 0 < n) :
    getInfo [⟨v, n, false, ty⟩] load pb (load + v + n) = some ⟨load + v, n, ty⟩ ∧
    ¬ (⟨v, n, false, ty⟩ : Rec).covers load (load + v + n) := by
  constructor
  · have : load + v + n - load = v + n := by omega
    simp [getInfo, doLookup, searchLeq, this]
  · unfold Rec.covers; simp

/-- **C49 fails** for the size of relocation targets: their address is added to it. -/
theorem reloc_size_fails (v n load pb : Nat) (hn : 0 < n) :
    (getInfo [⟨v, n, true, 0⟩] load pb (load + v)).map Info.size = some (v + n) := by
  have : load + v - load = v := by omega
  have h : ¬ v + n < v := by omega
  simp [getInfo, doLookup, searchLeq, this, h]

/-- **C49 fails** when a symbol lies inside another: addresses of the outer one beyond the inner one are not found. -/
theorem nested_symbol_fails : getInfo [⟨0x100, 64, false, 1⟩, ⟨0x108, 4, false, 2⟩] 0x1000 99 0x1120 = none := by decide

/-- A query made without giving the big allocation (as for an object's name) indexes the table of big allocations with a
page number: out of bounds for exactly the addresses from 128 MiB on; below, the page's own number is taken for that of a
big allocation. -/
theorem no_bigalloc_fails (obj : Nat) :
    (container none obj = none ↔ 32768 * 4096 ≤ obj) ∧ ∀ b, container none obj = some b → b * 4096 ≤ obj ∧ obj < (b + 1) * 4096 := by
  unfold container NBIGALLOCS
  simp only
  constructor
  · split <;> simp <;> omega
  · intro b hb
    split at hb
    · simp at hb; omega
    · simp at hb

end Liballocs.StaticSym
