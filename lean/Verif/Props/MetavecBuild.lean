import Verif.Proofs.MetavecBuild
/-!
# C84–C86: the tables of static objects, from the tool that writes them to the query that reads them
-/
namespace Liballocs.MetavecBuild
open StaticSym (Tidy Info getInfo static_query_partial)

/-- Each static's symbol table entry says where it is and how big it is. -/
def Described (tabs : Tabs) (statics : List Static) : Prop :=
  ∀ pre s post, statics = pre ++ s :: post → (tabs.of s.kind)[idxOf pre s]? = some (s.lo, s.hi - s.lo)

/-- What a segment's table may have a record for. -/
def Begins (symtab : List Sym) (statics : List Static) (scns : List RelScn) (a : Nat) : Prop :=
  (∃ s ∈ statics, s.lo = a) ∨ (Refers symtab scns a ∧ ¬ Inside statics a)

/-- **C84.** For every set of disjoint statics below 4 GiB and all relocation sections with symbol indices in range, the
tool succeeds, and its records are: in strictly increasing address order, one for each static at its lowest address, with
its kind, index and type; and one for each place referred to that is inside no static; and no others. -/
theorem records_exact (symtab : List Sym) (statics : List Static) (scns : List RelScn) (ho : Ordered statics)
    (hlo : ∀ s ∈ statics, s.lo < 2 ^ 32) (hsym : ∀ sc ∈ scns, ∀ r ∈ sc.rels, r.sym < symtab.length) :
    ∃ recs, generate symtab statics scns = some recs ∧ recs.Pairwise (fun x y => x.1 < y.1) ∧
      (∀ a k i ty, (a, GRec.sym k i ty) ∈ recs ↔ ∃ pre s post, statics = pre ++ s :: post ∧ s.lo = a ∧ s.kind = k ∧
        s.type = ty ∧ (k ≠ .extrasym → i = s.idx) ∧
        (k = .extrasym → i = (pre.filter (fun q => decide (q.kind = .extrasym))).length + 2)) ∧
      (∀ a, (a, GRec.reloc) ∈ recs ↔ Refers symtab scns a ∧ ¬ Inside statics a) ∧
      (∀ a, (∃ r, (a, r) ∈ recs) ↔ Begins symtab statics scns a) := by
  obtain ⟨recs, h⟩ := addScns_some symtab statics scns (addSyms (addExtras 1 [] statics) statics) hlo hsym
  obtain ⟨h1, h2⟩ := generate_spec ho h
  refine ⟨recs, h, h1, fun a k i ty => ?_, fun a => ?_, fun a => ?_⟩
  · rw [h2]
    constructor
    · rintro (⟨pre, s, post, e, e'⟩ | ⟨t, _, _, e⟩)
      · injection e' with e1 e2
        injection e2 with e2 e3 e4
        subst e1 e2 e4
        refine ⟨pre, s, post, e, rfl, rfl, rfl, fun hk => ?_, fun hk => ?_⟩
        · rw [e3]; unfold idxOf; cases hk' : s.kind with
          | extrasym => exact absurd hk' hk
          | dynsym => rfl
          | symtab => rfl
        · rw [e3]; unfold idxOf; rw [hk]; rfl
      · injection e with _ e; cases e
    · rintro ⟨pre, s, post, e, e1, e2, e3, e4, e5⟩
      refine Or.inl ⟨pre, s, post, e, ?_⟩
      subst e1 e2 e3
      have : i = idxOf pre s := by
        unfold idxOf
        cases hk : s.kind with
        | extrasym => exact e5 hk
        | dynsym => exact e4 (by rw [hk]; decide)
        | symtab => exact e4 (by rw [hk]; decide)
      rw [this]
  · rw [h2]
    constructor
    · rintro (⟨pre, s, post, e, e'⟩ | ⟨t, e1, e2, e⟩)
      · injection e' with _ e'; cases e'
      · injection e with e _; subst e; exact ⟨e1, e2⟩
    · rintro ⟨e1, e2⟩; exact Or.inr ⟨a, e1, e2, rfl⟩
  · constructor
    · rintro ⟨r, hr⟩
      rcases (h2 _).1 hr with ⟨pre, s, post, e, e'⟩ | ⟨t, e1, e2, e⟩
      · injection e' with e' _; exact Or.inl ⟨s, by rw [e]; simp, e'.symm⟩
      · injection e with e _; subst e; exact Or.inr ⟨e1, e2⟩
    · rintro (⟨s, hs, e⟩ | ⟨e1, e2⟩)
      · obtain ⟨pre, post, e'⟩ := List.append_of_mem hs
        exact ⟨_, (h2 _).2 (Or.inl ⟨pre, s, post, e', by rw [← e]⟩)⟩
      · exact ⟨_, (h2 _).2 (Or.inr ⟨a, e1, e2, rfl⟩)⟩

/-- **C84.** The records do not depend on the order, grouping or repetition of the relocation records, only on the places
they refer to. -/
theorem order_irrelevant (symtab symtab' : List Sym) (statics : List Static) (scns scns' : List RelScn) (ho : Ordered statics)
    (recs recs' : List (Nat × GRec)) (h : generate symtab statics scns = some recs)
    (h' : generate symtab' statics scns' = some recs') (he : ∀ t, Refers symtab scns t ↔ Refers symtab' scns' t) :
    recs = recs' := by
  obtain ⟨h1, h2⟩ := generate_spec ho h
  obtain ⟨h3, h4⟩ := generate_spec ho h'
  refine h1.ext h3 fun x => ?_
  rw [h2, h4]
  simp only [he]

theorem sound {symtab : List Sym} {statics : List Static} {scns : List RelScn} (ho : Ordered statics) {tabs : Tabs}
    (hd : Described tabs statics) {recs : List (Nat × GRec)} (h : generate symtab statics scns = some recs) :
    Sound tabs recs := by
  obtain ⟨h1, h2⟩ := generate_spec ho h
  intro a k i ty hm
  rcases (h2 _).1 hm with ⟨pre, s, post, e, e'⟩ | ⟨_, _, _, e⟩
  · injection e' with e1 e2
    injection e2 with e2 e3 e4
    subst e1 e2 e3
    have hs : s ∈ statics := by rw [e]; simp
    have hlt := ho.1 s hs
    refine ⟨s.hi - s.lo, hd pre s post e, by omega, fun b q hb hab => ?_⟩
    have key : s.hi ≤ b := by
      rcases (h2 _).1 hb with ⟨pre', s', post', f, f'⟩ | ⟨t, _, f2, f3⟩
      · injection f' with f' _
        exact f' ▸ ho.disjoint hs (by rw [f]; simp) (by omega)
      · injection f3 with f3 _
        subst f3
        refine Classical.byContradiction fun hn => f2 ⟨s, hs, by omega, by omega⟩
    omega
  · injection e with _ e; cases e

/-- **C85 (partial).** From tool to query: take any disjoint statics whose symbol table entries agree with them, any
relocation sections, any segment, any load address and any address `x` of the segment.
* Inside a static that begins in the segment, the query reports that static's base, size and type.
* If the last thing to begin at or below `x` is a place referred to by relocation records, outside the statics and in the
  segment, the query reports that place as base, and bytes as type.
* If `x` is inside no static, is not one past the end of one, and since the last place referred to a static has begun (or
  there is no such place), the query fails.
Partial: the size reported for places referred to is wrong (`StaticSym.reloc_size_fails`), and so is the answer one past
the end of a static (`StaticSym.past_end_fails`). -/
theorem tool_to_query_partial (symtab : List Sym) (statics : List Static) (scns : List RelScn) (ho : Ordered statics)
    (tabs : Tabs) (hd : Described tabs statics) (recs : List (Nat × GRec)) (h : generate symtab statics scns = some recs)
    (base limit load pb x : Nat) (hx : base ≤ x ∧ x < limit) :
    ∃ out, query tabs recs base limit load pb (load + x) = some out ∧
      (∀ s ∈ statics, base ≤ s.lo → s.lo ≤ x → x < s.hi → out = some ⟨load + s.lo, s.hi - s.lo, s.type⟩) ∧
      (∀ t, base ≤ t → t ≤ x → Refers symtab scns t → ¬ Inside statics t →
        (∀ b, t < b → b ≤ x → ¬ Begins symtab statics scns b) → ∃ n, out = some ⟨load + t, n, pb⟩) ∧
      ((∀ s ∈ statics, ¬ (s.lo ≤ x ∧ x ≤ s.hi)) →
        (∀ t, base ≤ t → t ≤ x → Refers symtab scns t → ¬ Inside statics t → ∃ s ∈ statics, t < s.lo ∧ s.lo ≤ x) →
        out = none) := by
  obtain ⟨h1, h2⟩ := generate_spec ho h
  obtain ⟨v, hv, ht, hf, hc⟩ := segment_spec tabs base limit recs h1 (sound ho hd h)
  have hbeg : ∀ a r, (a, r) ∈ recs → Begins symtab statics scns a := by
    intro a r hr
    rcases (h2 _).1 hr with ⟨pre, s, post, e, e'⟩ | ⟨t, e1, e2, e⟩
    · injection e' with e' _; exact Or.inl ⟨s, by rw [e]; simp, e'.symm⟩
    · injection e with e _; subst e; exact Or.inr ⟨e1, e2⟩
  have hsq := static_query_partial v ht load pb (load + x) (by omega)
  refine ⟨getInfo v load pb (load + x), by unfold query; rw [hv], ?_, ?_, ?_⟩
  · intro s hs hb hlo hhi
    obtain ⟨pre, post, e⟩ := List.append_of_mem hs
    have hm : (s.lo, GRec.sym s.kind (idxOf pre s) s.type) ∈ recs := (h2 _).2 (Or.inl ⟨pre, s, post, e, rfl⟩)
    obtain ⟨y, hy, ey⟩ := hc _ _ hm hb (by omega)
    obtain ⟨_, _, _, q, hq, h5, h6⟩ := hf y hy
    rw [ey] at hq
    have eq := h1.unique hq hm
    have hnr : y.isReloc = false := by
      cases hr : y.isReloc with
      | false => rfl
      | true => have := (h6 hr).1; rw [eq] at this; cases this
    obtain ⟨k, i, e1, e2⟩ := h5 hnr
    rw [eq] at e1
    injection e1 with e1 e3 e4
    rw [← e1, ← e3, hd pre s post e] at e2
    have e2 := (Option.some.inj e2)
    injection e2 with _ e5
    obtain ⟨i', f1, f2, f3, _⟩ := hsq.1 y hy ⟨by omega, by omega⟩
    obtain ⟨f4, f5⟩ := f3 hnr
    rw [f1]
    obtain ⟨b', n', t'⟩ := i'
    simp only at f2 f4 f5
    rw [f2, f4, f5, ey, e4, ← e5]
  · intro t hb hlo href hni hlast
    have hm : (t, GRec.reloc) ∈ recs := (h2 _).2 (Or.inr ⟨t, href, hni, rfl⟩)
    obtain ⟨y, hy, ey⟩ := hc _ _ hm hb (by omega)
    obtain ⟨_, _, _, q, hq, h5, h6⟩ := hf y hy
    rw [ey] at hq
    have eq := h1.unique hq hm
    have hr : y.isReloc = true := by
      cases hr : y.isReloc with
      | true => rfl
      | false => obtain ⟨k, i, e, _⟩ := h5 hr; rw [eq] at e; cases e
    obtain ⟨_, h8, h9⟩ := h6 hr
    have hcov : x < t + y.size := by
      rw [ey] at h9
      rcases h9 with ⟨r, h9⟩ | ⟨h9, _⟩
      · refine Classical.byContradiction fun hn => ?_
        have := (hf y hy).2.2.1
        exact hlast (t + y.size) (by omega) (by omega) (hbeg _ _ h9)
      · omega
    obtain ⟨i', f1, f2, _, f3⟩ := hsq.1 y hy ⟨by omega, by omega⟩
    refine ⟨i'.size, ?_⟩
    rw [f1]
    obtain ⟨b', n', t'⟩ := i'
    simp only at f2 f3 ⊢
    rw [f2, f3 hr, ey]
  · intro hns hnt
    apply hsq.2
    intro y hy
    obtain ⟨g1, g2, g3, q, hq, h5, h6⟩ := hf y hy
    cases hr : y.isReloc with
    | false =>
      obtain ⟨k, i, e, e'⟩ := h5 hr
      rw [e] at hq
      rcases (h2 _).1 hq with ⟨pre, s, post, f, f'⟩ | ⟨_, _, _, f⟩
      · injection f' with f1 f2
        injection f2 with f2 f3 f4
        rw [f2, f3, hd pre s post f] at e'
        have e' := Option.some.inj e'
        injection e' with _ e'
        have hs : s ∈ statics := by rw [f]; simp
        have := hns s hs
        have := ho.1 s hs
        unfold StaticSym.Rec.covers
        omega
      · injection f with _ f; cases f
    | true =>
      obtain ⟨e, h8, h9⟩ := h6 hr
      rw [e] at hq
      rcases (h2 _).1 hq with ⟨pre, s, post, f, f'⟩ | ⟨t, f1, f2, f⟩
      · injection f' with _ f'; cases f'
      · injection f with f _
        -- if the record reached as far as `x`, a static would begin inside it
        have hbig : y.vaddr ≤ x → y.vaddr + y.size < x ∨ x = y.vaddr + y.size := by
          intro hle
          obtain ⟨s, hs, e1, e2⟩ := hnt t (by omega) (by omega) f1 f2
          obtain ⟨pre, post, e3⟩ := List.append_of_mem hs
          have := h8 s.lo _ ((h2 _).2 (Or.inl ⟨pre, s, post, e3, rfl⟩)) (by omega)
          omega
        have hne : x ≠ y.vaddr + y.size := by
          intro hxe
          rcases h9 with ⟨r, h9⟩ | ⟨h9, _⟩
          · rw [← hxe] at h9
            rcases hbeg _ _ h9 with ⟨s, hs, e1⟩ | ⟨e1, e2⟩
            · have := ho.1 s hs
              exact hns s hs ⟨by omega, by omega⟩
            · obtain ⟨s, hs, e3, e4⟩ := hnt x hx.1 (Nat.le_refl _) e1 e2
              omega
          · omega
        unfold StaticSym.Rec.covers
        refine ⟨fun hcv => ?_, by omega⟩
        have := hbig (by omega)
        omega

/-- The positions of the extra symbols. -/
theorem extraTab_get (lead : Nat) (pre : List Static) (s : Static) (post : List Static) (hk : s.kind = .extrasym) :
    (extraTab lead (pre ++ s :: post))[lead + extras pre]? = some (s.lo, s.hi - s.lo) := by
  unfold extraTab extras
  rw [List.getElem?_append_right (by simp), List.length_replicate, Nat.add_sub_cancel_left, List.filter_append, List.map_append,
    List.getElem?_append_right (by simp)]
  rw [List.length_map, Nat.sub_self]
  simp [hk]

/-- **C85 (partial), extra symbols.** For every list of disjoint statics with at least one needing an extra symbol, none of
them at address zero: the indices written to the records agree with the table of extra symbols exactly when that table
begins with two entries for nothing. -/
theorem extrasym_iff (statics : List Static) (ho : Ordered statics) (h0 : ∀ s ∈ statics, s.lo ≠ 0) (lead : Nat)
    (hex : ∃ s ∈ statics, s.kind = .extrasym) :
    (∀ pre s post, statics = pre ++ s :: post → s.kind = .extrasym →
      (extraTab lead statics)[idxOf pre s]? = some (s.lo, s.hi - s.lo)) ↔ lead = 2 := by
  constructor
  · intro h
    obtain ⟨s, hs, hk⟩ := hex
    obtain ⟨pre, post, e⟩ := List.append_of_mem hs
    have h1 := h pre s post e hk
    have h2 := extraTab_get lead pre s post hk
    rw [← e] at h2
    unfold idxOf at h1
    rw [hk] at h1
    simp only at h1
    by_cases hl : extras pre + 2 < lead
    · unfold extraTab at h1
      rw [List.getElem?_append_left (by simpa using hl), List.getElem?_replicate, if_pos hl] at h1
      have := Option.some.inj h1
      injection this with this _
      exact absurd this.symm (h0 s hs)
    · -- both positions are in the part that lists the statics, which has no repetition
      have hnd : ((statics.filter (fun s => decide (s.kind = .extrasym))).map (fun s => (s.lo, s.hi - s.lo))).Pairwise
          (fun a b => a.1 < b.1) := by
        rw [List.pairwise_map]
        apply List.Pairwise.filter
        exact ho.2.imp_of_mem (fun {a b} ha hb hab => by
          have := ho.1 a ha
          show a.lo < b.lo
          omega)
      unfold extraTab at h1 h2
      rw [List.getElem?_append_right (by simp; omega), List.length_replicate] at h1
      rw [List.getElem?_append_right (by simp), List.length_replicate, Nat.add_sub_cancel_left] at h2
      obtain ⟨b1, h1⟩ := List.getElem?_eq_some_iff.1 h1
      obtain ⟨b2, h2⟩ := List.getElem?_eq_some_iff.1 h2
      have hp := List.pairwise_iff_getElem.1 hnd
      rcases Nat.lt_trichotomy (extras pre + 2 - lead) (extras pre) with hlt | heq | hgt
      · have := hp _ _ b1 b2 hlt
        rw [h1, h2] at this
        simp at this
      · omega
      · have := hp _ _ b2 b1 hgt
        rw [h1, h2] at this
        simp at this
  · rintro rfl pre s post e hk
    rw [e]
    unfold idxOf
    rw [hk]
    simp only
    rw [Nat.add_comm]
    exact extraTab_get 2 pre s post hk

/-- **C85 fails** with the one entry for nothing that tools/extrasyms.cpp allows for: the record of the last static needing
an extra symbol refers past the end of the table, and every other one to the next static. -/
theorem extrasym_index_fails (pre : List Static) (s : Static) (post : List Static) (hk : s.kind = .extrasym) :
    (extras post = 0 → (extraTab 1 (pre ++ s :: post))[idxOf pre s]? = none) ∧
    (∀ mid q post', post = mid ++ q :: post' → extras mid = 0 → q.kind = .extrasym →
      (extraTab 1 (pre ++ s :: post))[idxOf pre s]? = some (q.lo, q.hi - q.lo)) := by
  have hi : idxOf pre s = extras pre + 2 := by unfold idxOf; rw [hk]
  constructor
  · intro h
    rw [List.getElem?_eq_none_iff, hi]
    have : (extraTab 1 (pre ++ s :: post)).length = 1 + extras (pre ++ s :: post) := by
      simp [extraTab, extras]; omega
    rw [this, show pre ++ s :: post = pre ++ ([s] ++ post) from rfl, extras_append, extras_append, extras_extra hk, h]
    omega
  · rintro mid q post' rfl hm hq
    have := extraTab_get 1 (pre ++ s :: mid) q post' hq
    rw [show pre ++ s :: mid = pre ++ ([s] ++ mid) from rfl, extras_append, extras_append, extras_extra hk, hm] at this
    rw [hi, show extras pre + 2 = 1 + (extras pre + (1 + 0)) by omega, show pre ++ s :: (mid ++ q :: post') = pre ++ ([s] ++ mid) ++ q :: post' by simp]
    exact this

/-- Signed value of a 64-bit word. -/
def signed (w : Nat) : Int := if w < 2 ^ 63 then (w : Int) else (w : Int) - 2 ^ 64

/-- **C86 (partial).** The place a relocation record refers to: symbol plus addend, plus the distance from the relocated
field to the end of the instruction for the listed types.  Partial: places from 2 GiB on, and PC-relative types not listed. -/
theorem target_partial (s : Sym) (r : Reloc) (p : Nat) (hp : p < 2 ^ 31)
    (he : (p : Int) = s.value + signed r.addend + (if r.type = 2 ∨ r.type = 4 ∨ r.type = 9 then 4 else 0)) :
    target true s r = p := by
  have hd : (distance r.type : Int) = if r.type = 2 ∨ r.type = 4 ∨ r.type = 9 then 4 else 0 := by
    unfold distance; split <;> rfl
  rw [← hd] at he
  unfold target sword
  simp only
  unfold signed at he
  have hm : (s.value + r.addend + distance r.type) % 2 ^ 64 = p := by
    split at he <;> omega
  rw [hm, Nat.mod_eq_of_lt (by omega), if_pos hp]

/-- Records without addends refer to the symbol itself, up to the distance of their type. -/
theorem target_rel_partial (s : Sym) (r : Reloc) (h : s.value + 4 < 2 ^ 31) :
    target false s r = s.value + (if r.type = 2 ∨ r.type = 4 ∨ r.type = 9 then 4 else 0) := by
  unfold target sword distance
  simp only
  split <;> (rw [if_pos (by omega)]; omega)

/-- **C86 (partial), PC-relative records.** A record of a listed type, whose relocated field is followed by `k` more bytes of
the instruction, is written with addend (offset − 4 − k): the tool takes it to refer to `k` bytes before the place meant.
So it is right exactly when the field ends the instruction. -/
theorem pcrel_iff (s : Sym) (r : Reloc) (ht : r.type = 2 ∨ r.type = 4 ∨ r.type = 9) (off k : Nat)
    (ha : signed r.addend = (off : Int) - 4 - k) (hp : s.value + off < 2 ^ 31) (hk : k ≤ s.value + off) :
    target true s r + k = s.value + off ∧ (target true s r = s.value + off ↔ k = 0) := by
  have := target_partial s r (s.value + off - k) (by omega) (by rw [if_pos ht, ha]; omega)
  rw [this]
  omega

/-- **C86 fails** for the PC-relative types not listed, such as R_X86_64_GOTPCRELX (41), R_X86_64_REX_GOTPCRELX (42) and
R_X86_64_PC64 (24): the place recorded is four bytes before the one meant. -/
theorem unlisted_fails (s : Sym) (r : Reloc) (ht : r.type = 41 ∨ r.type = 42 ∨ r.type = 24) (off : Nat)
    (ha : signed r.addend = (off : Int) - 4) (hp : s.value + off < 2 ^ 31) (hk : 4 ≤ s.value + off) :
    target true s r + 4 = s.value + off := by
  have := target_partial s r (s.value + off - 4) (by omega) (by rw [if_neg (by omega), ha]; omega)
  omega

/-- **C86 fails** for places from 2 GiB up to 4 GiB: the address is sign-extended, so the place is recorded where no segment
is, and no segment's table has a record for it. -/
theorem high_place_fails (p : Nat) (h1 : 2 ^ 31 ≤ p) (h2 : p < 2 ^ 32) :
    sword p = p + (2 ^ 64 - 2 ^ 32) ∧
    ∀ base limit, limit < 2 ^ 63 → segment base limit [(sword p, .reloc)] = [] := by
  have hs : sword p = p + (2 ^ 64 - 2 ^ 32) := by
    unfold sword; rw [Nat.mod_eq_of_lt h2, if_neg (by omega)]
  refine ⟨hs, fun base limit hl => ?_⟩
  unfold segment
  rw [if_neg (by omega)]
  rfl

/-- **C85 fails**: the section's end, said to bound a place's extent, is not used.  A last place in a segment extends up to the
first record of a later segment, past the end of its own. -/
theorem extent_fails (base limit t b : Nat) (r : GRec) (l : List (Nat × GRec)) (h1 : base ≤ t) (h2 : t < limit) (h3 : limit < b) :
    ∃ n, Word.reloc t n ∈ segment base limit ((t, .reloc) :: (b, r) :: l) ∧ limit < t + n := by
  refine ⟨b - t, ?_, by omega⟩
  unfold segment
  rw [if_pos ⟨h1, h2⟩]
  exact List.mem_cons_self

/-- The bitmap has just the words that contain an address of the segment. -/
theorem bitmapWords_exact (base limit : Nat) (h : base < limit) (k : Nat) :
    k < bitmapWords base limit ↔ ∃ a, base ≤ a ∧ a < limit ∧ a / 64 = base / 64 + k := by
  unfold bitmapWords bitmapBase
  constructor
  · intro hk
    by_cases h0 : k = 0
    · exact ⟨base, by omega, h, by omega⟩
    · exact ⟨(base / 64 + k) * 64, by omega, by omega, by omega⟩
  · rintro ⟨a, h1, h2, h3⟩
    omega

/-- **C84.** The bitmap written for a segment: the assertion holds, every bit is inside the array of words, and the bits set
are those of the records' addresses in the segment. -/
theorem bits_exact (base limit : Nat) (recs : List (Nat × GRec)) :
    ∃ bs, bits base limit recs = some bs ∧ (∀ i ∈ bs, i < 64 * bitmapWords base limit) ∧
      ∀ i, i ∈ bs ↔ ∃ a r, (a, r) ∈ recs ∧ base ≤ a ∧ a < limit ∧ a = i + base / 64 * 64 := by
  induction recs with
  | nil => exact ⟨[], rfl, by simp, by simp⟩
  | cons y recs ih =>
    obtain ⟨a, r⟩ := y
    obtain ⟨bs, h1, h2, h3⟩ := ih
    unfold bits
    split
    · rename_i hin
      have hb : bitmapBase base ≤ base := by unfold bitmapBase; omega
      have hlim : limit ≤ (limit + 63) / 64 * 64 := by omega
      rw [if_pos (by omega), h1]
      refine ⟨_, rfl, fun i hi => ?_, fun i => ?_⟩
      · rcases List.mem_cons.1 hi with e | hi
        · subst e; unfold bitmapWords bitmapBase; unfold bitmapBase at hb; omega
        · exact h2 i hi
      · rw [List.mem_cons, h3]
        unfold bitmapBase at hb ⊢
        constructor
        · rintro (e | ⟨a', r', hm, e⟩)
          · exact ⟨a, r, List.mem_cons_self, hin.1, hin.2, by omega⟩
          · exact ⟨a', r', List.mem_cons_of_mem _ hm, e⟩
        · rintro ⟨a', r', hm, e1, e2, e3⟩
          rcases List.mem_cons.1 hm with e | hm
          · injection e with e _; left; omega
          · exact Or.inr ⟨a', r', hm, e1, e2, e3⟩
    · rename_i hout
      refine ⟨bs, h1, h2, fun i => ?_⟩
      rw [h3]
      constructor
      · rintro ⟨a', r', hm, e⟩; exact ⟨a', r', List.mem_cons_of_mem _ hm, e⟩
      · rintro ⟨a', r', hm, e1, e2, e3⟩
        rcases List.mem_cons.1 hm with e | hm
        · injection e with e _; subst e; exact absurd ⟨e1, e2⟩ hout
        · exact ⟨a', r', hm, e1, e2, e3⟩

/-! ## A concrete file -/

def exStatics : List Static :=
  [⟨0x1000, 0x1040, .symtab, 5, 8⟩, ⟨0x1080, 0x1090, .extrasym, 0, 16⟩, ⟨0x10a0, 0x10a8, .dynsym, 1, 0⟩, ⟨0x3000, 0x3010, .extrasym, 0, 24⟩]
def exSyms : List Sym := [⟨0, false, true, true⟩, ⟨0x1000, true, false, true⟩, ⟨0x3000, false, false, false⟩]
/-- Places 0x1050 (a PC32 record with addend 0x4c), 0x1010 (inside a static), 0x1060 twice; a record through a global symbol;
a section relocating debugging information. -/
def exScns : List RelScn :=
  [⟨true, some true, [⟨1, 2, 0x4c⟩, ⟨1, 1, 0x10⟩, ⟨1, 1, 0x60⟩, ⟨2, 1, 0x70⟩]⟩, ⟨true, some false, [⟨1, 1, 0x44⟩]⟩, ⟨true, none, [⟨1, 1, 0x60⟩]⟩]
def exTabs : Tabs :=
  ⟨[(0, 0), (0x10a0, 8)], [(0, 0), (0, 0), (0, 0), (0, 0), (0, 0), (0x1000, 0x40)], extraTab 2 exStatics⟩

theorem ex_ordered : Ordered exStatics := by unfold Ordered exStatics; decide

example : generate exSyms exStatics exScns =
    some [(0x1000, .sym .symtab 5 8), (0x1050, .reloc), (0x1060, .reloc), (0x1080, .sym .extrasym 2 16),
      (0x10a0, .sym .dynsym 1 0), (0x3000, .sym .extrasym 3 24)] := by decide +kernel

example : (generate exSyms exStatics exScns).map (segment 0x1000 0x2000) =
    some [.sym .symtab 5 8, .reloc 0x1050 0x10, .reloc 0x1060 0x20, .sym .extrasym 2 16, .sym .dynsym 1 0] := by decide +kernel

/-- Inside a static; in no static, before the first place; at a place; inside an extra symbol's object; after it; at the last. -/
example : ((generate exSyms exStatics exScns).map fun recs =>
    [0x103f, 0x1048, 0x1050, 0x107f, 0x108f, 0x1098, 0x10a7].map fun x =>
      (query exTabs recs 0x1000 0x2000 0x7000 99 (0x7000 + x)).map (fun o => o.map (fun i => (i.base, i.type)))) =
    some [some (some (0x8000, 8)), some none, some (some (0x8050, 99)), some (some (0x8060, 99)), some (some (0x8080, 16)),
      some none, some (some (0x80a0, 0))] := by decide +kernel

/-- With one leading entry the first extra symbol's record resolves to the other object: its own is not found.  Without the
other object, the record refers outside the table. -/
example : ((generate exSyms exStatics exScns).map fun recs =>
      (query { exTabs with extrasym := extraTab 1 exStatics } recs 0x1000 0x2000 0x7000 99 0x8088)) = some (some none) ∧
    ((generate exSyms (exStatics.take 3) exScns).map fun recs =>
      (query { exTabs with extrasym := extraTab 1 (exStatics.take 3) } recs 0x1000 0x2000 0x7000 99 0x8088)) = some none := by
  decide +kernel

/-- The example satisfies the hypotheses of `tool_to_query_partial`. -/
theorem ex_described : Described exTabs exStatics := by
  have key : ∀ n < exStatics.length, (match exStatics[n]? with
      | none => true
      | some s => decide ((exTabs.of s.kind)[idxOf (exStatics.take n) s]? = some (s.lo, s.hi - s.lo))) = true := by
    decide +kernel
  intro pre s post e
  have h := key pre.length (by rw [e]; simp)
  rw [e] at h
  simpa using h

end Liballocs.MetavecBuild
