import Verif.Model.Insert
/-
C12 (metadata word round-trips), C13 (sizes), C50 (lifetime bits survive queries), C51 (fresh
lifetime bits), C52 (metadata is read where it was written).
-/
namespace Liballocs.Insert

/-! Bit-field lemmas -/

theorem getF_setF_same (w : W) (lo len : Nat) (v : BitVec len) (h : lo + len ≤ 64) :
    getF (setF w lo v) lo len = v := by
  unfold getF setF
  apply BitVec.eq_of_getLsbD_eq
  intro i hi
  have h1 : lo + i < 64 := by omega
  have h2 : ¬ (lo + i < lo) := by omega
  simp [h1, h2, hi]

theorem getF_setF_other (w : W) (lo len lo' len' : Nat) (v : BitVec len)
    (hd : lo' + len' ≤ lo ∨ lo + len ≤ lo') :
    getF (setF w lo v) lo' len' = getF w lo' len' := by
  unfold getF setF
  apply BitVec.eq_of_getLsbD_eq
  intro i hi
  by_cases h1 : lo' + i < 64
  · by_cases h2 : lo' + i < lo
    · simp [h1, h2, hi]
    · have h3 : ¬ (lo' + i - lo < len) := by omega
      simp [h1, h2, hi, h3, BitVec.getLsbD_of_ge v _ (Nat.le_of_not_lt h3)]
  · simp [h1, hi, BitVec.getLsbD_of_ge w _ (Nat.le_of_not_lt h1)]

/-! ### C12 -/

theorem lifetime_indexInsert (w : W) (c : BitVec 64) :
    lifetime (indexInsert w c) = lifetime w := by
  unfold lifetime indexInsert
  rw [getF_setF_other _ _ _ _ _ _ (by omega), getF_setF_other _ _ _ _ _ _ (by omega)]

theorem allocSite_indexInsert (w : W) (c : BitVec 64) (hc : c.toNat < 2 ^ 47) :
    allocSite (indexInsert w c) = c := by
  unfold allocSite indexInsert
  rw [getF_setF_same _ _ _ _ (by omega)]
  apply BitVec.eq_of_toNat_eq
  simp
  omega

theorem not_isWithType_indexInsert (w : W) (c : BitVec 64) :
    isWithType (indexInsert w c) = false := by
  unfold isWithType indexInsert
  rw [getF_setF_other _ _ _ _ _ _ (by omega), getF_setF_same _ _ _ _ (by omega)]
  decide

theorem siteId_mkWithType (u : BitVec 64) (id : BitVec 15) : siteId (mkWithType u id) = id := by
  unfold siteId mkWithType
  rw [getF_setF_other _ _ _ _ _ _ (by omega), getF_setF_same _ _ _ _ (by omega)]

theorem lifetime_mkWithType (u : BitVec 64) (id : BitVec 15) :
    lifetime (mkWithType u id) = 0#4 := by
  unfold lifetime mkWithType
  rw [getF_setF_other _ _ _ _ _ _ (by omega), getF_setF_other _ _ _ _ _ _ (by omega),
    getF_setF_other _ _ _ _ _ _ (by omega)]
  decide

theorem typeOf_mkWithType (u : BitVec 64) (id : BitVec 15)
    (h8 : u.toNat % 8 = 0) (hu : u.toNat < 2 ^ 47) : typeOf (mkWithType u id) = u := by
  unfold typeOf mkWithType
  rw [getF_setF_other _ _ _ _ _ _ (by omega), getF_setF_other _ _ _ _ _ _ (by omega),
    getF_setF_same _ _ _ _ (by omega)]
  apply BitVec.eq_of_toNat_eq
  simp [Nat.shiftRight_eq_div_pow, Nat.shiftLeft_eq]
  omega

theorem hi_mkWithType (u : BitVec 64) (id : BitVec 15) :
    getF (mkWithType u id) 48 12 = u.extractLsb' 35 12 := by
  unfold mkWithType
  rw [getF_setF_other _ _ _ _ _ _ (by omega), getF_setF_other _ _ _ _ _ _ (by omega)]
  have : ∀ (w : W), getF w 48 12 = (getF w 16 44).extractLsb' 32 12 := by
    intro w
    unfold getF
    apply BitVec.eq_of_getLsbD_eq
    intro i hi
    have : 32 + i < 44 := by omega
    simp [hi, this]
    congr 1
    omega
  rw [this, getF_setF_same _ _ _ _ (by omega)]
  apply BitVec.eq_of_getLsbD_eq
  intro i hi
  have : 32 + i < 44 := by omega
  simp [hi, this]
  congr 1
  omega

theorem isWithType_mkWithType (u : BitVec 64) (id : BitVec 15) (hu : u.toNat < 2 ^ 47) :
    isWithType (mkWithType u id) = true ↔ 2 ^ 35 ≤ u.toNat := by
  unfold isWithType
  rw [hi_mkWithType]
  simp only [bne_iff_ne, ne_eq]
  rw [← BitVec.toNat_inj]
  simp [Nat.shiftRight_eq_div_pow]
  omega

/-- C12, first half.  Whatever the memory held before, after a chunk is indexed the word reads back
the caller's site exactly (for every user-space, i.e. 47-bit, address), is not mistaken for a typed
word, and the lifetime bits are untouched. -/
theorem site_roundtrip (w : W) (c : BitVec 64) (hc : c.toNat < 2 ^ 47) :
    allocSite (indexInsert w c) = c ∧ isWithType (indexInsert w c) = false ∧
      lifetime (indexInsert w c) = lifetime w :=
  ⟨allocSite_indexInsert w c hc, not_isWithType_indexInsert w c, lifetime_indexInsert w c⟩

/-- C12, second half (partial: type addresses below 2^35 are excluded).  The first query of a
chunk whose site has type `u` returns `u` and the site, and leaves a word recognised as typed that
holds exactly `u` and the site's id. -/
theorem resolve_roundtrip_partial (find : BitVec 64 → BitVec 64) (idOf : BitVec 64 → BitVec 15)
    (w : W) (c u : BitVec 64) (hc : c.toNat < 2 ^ 47) (hf : find c = u)
    (h8 : u.toNat % 8 = 0) (hlo : 2 ^ 35 ≤ u.toNat) (hu : u.toNat < 2 ^ 47) :
    let r := extract true find idOf (indexInsert w c)
    r.2 = { site := c, type := some u } ∧ isWithType r.1 = true ∧ typeOf r.1 = u ∧
      siteId r.1 = idOf c := by
  have h0 : u ≠ 0#64 := by
    intro h; rw [h] at hlo; simp at hlo
  simp only [extract, not_isWithType_indexInsert, allocSite_indexInsert w c hc, hf, h0, if_true,
    if_false, Bool.false_eq_true]
  exact ⟨trivial, (isWithType_mkWithType u _ hu).2 hlo, typeOf_mkWithType u _ h8 hu,
    siteId_mkWithType u _⟩

example : ∃ (w : W) (c u : BitVec 64), c.toNat < 2 ^ 47 ∧ u.toNat % 8 = 0 ∧ 2 ^ 35 ≤ u.toNat ∧
    u.toNat < 2 ^ 47 ∧ typeOf (extract true (fun _ => u) (fun _ => 5) (indexInsert w c)).1 = u :=
  ⟨0xdeadbeefcafef00d#64, 0x555555554321#64, 0x7ffff7dd1238#64, by decide⟩

/-- The same holds for an explicit type change. -/
theorem setType_roundtrip_partial (idOf : BitVec 64 → BitVec 15) (w : W) (u : BitVec 64)
    (h8 : u.toNat % 8 = 0) (hlo : 2 ^ 35 ≤ u.toNat) (hu : u.toNat < 2 ^ 47) :
    isWithType (setType idOf w u) = true ∧ typeOf (setType idOf w u) = u ∧
      siteId (setType idOf w u) = (if isWithType w then siteId w else idOf (allocSite w)) :=
  ⟨(isWithType_mkWithType u _ hu).2 hlo, typeOf_mkWithType u _ h8 hu, siteId_mkWithType u _⟩

/-- Any number of queries of one chunk give the same type (partial in the same way). -/
theorem queries_type_stable_partial (ndebug : Bool) (find : BitVec 64 → BitVec 64)
    (idOf : BitVec 64 → BitVec 15) (w : W) (c u : BitVec 64) (hc : c.toNat < 2 ^ 47)
    (hf : find c = u) (h8 : u.toNat % 8 = 0) (hlo : 2 ^ 35 ≤ u.toNat) (hu : u.toNat < 2 ^ 47)
    (n : Nat) :
    ∀ o ∈ queries ndebug find idOf n (indexInsert w c), o.type = some u := by
  have h0 : u ≠ 0#64 := by
    intro h; rw [h] at hlo; simp at hlo
  -- typed words are a fixed point
  have typed : ∀ n id, ∀ o ∈ queries ndebug find idOf n (mkWithType u id), o.type = some u := by
    intro n
    induction n with
    | zero => intro id o ho; simp [queries] at ho
    | succ n ih =>
      intro id o ho
      have e : extract ndebug find idOf (mkWithType u id) =
          (mkWithType u id, { site := 0#64, type := some u }) := by
        simp only [extract, (isWithType_mkWithType u id hu).2 hlo, if_true,
          typeOf_mkWithType u id h8 hu, h0, if_false]
      simp only [queries, e, List.mem_cons] at ho
      rcases ho with rfl | ho
      · rfl
      · exact ih id o ho
  induction n with
  | zero => intro o ho; simp [queries] at ho
  | succ n ih =>
    intro o ho
    have e : extract ndebug find idOf (indexInsert w c) =
        (if ndebug then mkWithType u (idOf c) else indexInsert w c,
          { site := c, type := some u }) := by
      simp only [extract, not_isWithType_indexInsert, allocSite_indexInsert w c hc, hf, h0,
        if_false, Bool.false_eq_true]
    simp only [queries, e, List.mem_cons] at ho
    rcases ho with rfl | ho
    · rfl
    · cases ndebug
      · exact ih o (by simpa using ho)
      · exact typed n (idOf c) o (by simpa using ho)

/-- What is missing from C12: every type address below 2^35 (a non-PIE executable's own types, for
example) produces a word that is *not* recognised as typed. -/
theorem low_type_never_recognised (u : BitVec 64) (id : BitVec 15) (hu : u.toNat < 2 ^ 35) :
    isWithType (mkWithType u id) = false := by
  have := isWithType_mkWithType u id (by omega)
  cases h : isWithType (mkWithType u id)
  · rfl
  · have := this.1 h; omega

/-- C12 fails as stated: an 8-aligned user-space type address is stored on the first query and the
second query then reports another site and no type. -/
theorem resolve_roundtrip_fails :
    ∃ (find : BitVec 64 → BitVec 64) (idOf : BitVec 64 → BitVec 15) (w : W) (c u : BitVec 64),
      c.toNat < 2 ^ 47 ∧ u.toNat % 8 = 0 ∧ u.toNat < 2 ^ 47 ∧ find c = u ∧
      queries true find idOf 2 (indexInsert w c) =
        [{ site := c, type := some u }, { site := 0x601900c8007#64, type := none }] :=
  ⟨fun c => if c = 0x401234#64 then 0x601900c8#64 else 0#64, fun _ => 7#15, 0#64, 0x401234#64,
    0x601900c8#64, by decide⟩

/-- A second failure: after a query of a chunk with an unrecognised site, the next query reports
the bogus site 0x7fff instead of the real one. -/
theorem unrecognised_site_forgotten (idOf : BitVec 64 → BitVec 15) :
    ∃ (w : W) (c : BitVec 64), c.toNat < 2 ^ 47 ∧
      queries true (fun _ => 0#64) idOf 2 (indexInsert w c) =
        [{ site := c, type := none }, { site := 0x7fff#64, type := none }] := by
  refine ⟨0#64, 0x401234#64, by decide, ?_⟩
  simp only [queries, extract, if_true]
  decide

/-! ### C50: queries and type changes keep the lifetime policies -/

/-- Query outputs never change the lifetime policies in a debug build. -/
theorem query_keeps_lifetime_partial (find : BitVec 64 → BitVec 64) (idOf : BitVec 64 → BitVec 15)
    (w : W) : lifetime (extract false find idOf w).1 = lifetime w := by
  simp only [extract]
  repeat' split
  all_goals first | contradiction | rfl

/-- In a release build, and for explicit type changes in every build, the policies are all
cleared: the object then counts as already freed although nothing was detached. -/
theorem query_drops_lifetime (find : BitVec 64 → BitVec 64) (idOf : BitVec 64 → BitVec 15)
    (w : W) (h : isWithType w = false) : lifetime (extract true find idOf w).1 = 0#4 := by
  simp only [extract, h, Bool.false_eq_true, if_false, if_true]
  split <;> exact lifetime_mkWithType _ _

theorem setType_drops_lifetime (idOf : BitVec 64 → BitVec 15) (w : W) (u : BitVec 64) :
    lifetime (setType idOf w u) = 0#4 := lifetime_mkWithType _ _

/-- C50 fails as stated. -/
theorem query_keeps_lifetime_fails :
    ∃ (find : BitVec 64 → BitVec 64) (idOf : BitVec 64 → BitVec 15) (w : W),
      lifetime w ≠ 0#4 ∧ lifetime (extract true find idOf w).1 = 0#4 :=
  ⟨fun _ => 0x7ffff7dd1238#64, fun _ => 3#15, postAlloc 1#4 0#64 0x401234#64, by decide⟩

/-! ### C51: a new chunk has exactly the initial policies -/

/-- Partial: holds when the recycled memory had no policy bits in that position. -/
theorem fresh_policies_partial (p : BitVec 4) (w : W) (c : BitVec 64) (h : lifetime w = 0#4) :
    lifetime (postAlloc p w c) = p ∧ allocSite (postAlloc p w c) = allocSite (indexInsert w c) := by
  unfold postAlloc
  by_cases hp : p = 0#4
  · simp [hp, lifetime_indexInsert, h]
  · simp only [ne_eq, hp, not_false_eq_true, if_true]
    constructor
    · unfold attachInitial
      rw [lifetime_indexInsert, h]
      unfold lifetime
      rw [getF_setF_same _ _ _ _ (by omega)]
      simp
    · unfold attachInitial allocSite
      rw [getF_setF_other _ _ _ _ _ _ (by omega)]

example : lifetime (0x0123456789abcdef#64) = 0#4 := by decide

/-- C51 fails as stated: leftover bits of the recycled memory become attached policies. -/
theorem fresh_policies_fails :
    ∃ (p : BitVec 4) (w : W) (c : BitVec 64), lifetime (postAlloc p w c) ≠ p :=
  ⟨1#4, 0xf000000000000000#64, 0x401234#64, by decide⟩

/-! ### C13 -/

theorem toNat_chunkSize (sz : BitVec 64) (h : sz.toNat + 16 ≤ 2 ^ 64) :
    (chunkSize sz).toNat = (sz.toNat + 15) / 8 * 8 := by
  unfold chunkSize padToAlign
  have e : (sz + 8#64).toNat = sz.toNat + 8 := by
    rw [BitVec.toNat_add]
    simp
    omega
  split
  · rename_i h0
    have := congrArg BitVec.toNat h0
    rw [BitVec.umod_eq, BitVec.toNat_umod, e] at this
    simp at this
    omega
  · rename_i h0
    have h1 : ¬ ((sz.toNat + 8) % 8 = 0) := by
      intro hc
      apply h0
      apply BitVec.eq_of_toNat_eq
      rw [BitVec.umod_eq, BitVec.toNat_umod, e]
      simpa using hc
    rw [BitVec.toNat_sub, BitVec.toNat_add, e, BitVec.umod_eq, BitVec.toNat_umod, e]
    simp
    omega

/-- C13 (partial: requests within 16 bytes of 2^64, and the size reported by queries, are
excluded).  For every request and every usable size the malloc may deliver for the padded request:
the caller's bytes, then the metadata word, fit in the chunk without overlap; the caller-usable
size covers the request and excludes the word; on an 8-aligned chunk with a size that is a multiple
of 8 the word is aligned. -/
theorem trailer_layout_partial (p sz usable : BitVec 64) (hsz : sz.toNat + 16 ≤ 2 ^ 64)
    (hus : (chunkSize sz).toNat ≤ usable.toNat) (hfit : p.toNat + usable.toNat ≤ 2 ^ 64) :
    p.toNat + sz.toNat ≤ (insertAddr p usable).toNat ∧
    (insertAddr p usable).toNat + 8 = p.toNat + usable.toNat ∧
    sz.toNat ≤ (callerUsable usable).toNat ∧
    (callerUsable usable).toNat + 8 = usable.toNat ∧
    (chunkSize sz).toNat % 8 = 0 ∧ (chunkSize sz).toNat < sz.toNat + 16 ∧
    (p.toNat % 8 = 0 → usable.toNat % 8 = 0 → (insertAddr p usable).toNat % 8 = 0) := by
  have hc := toNat_chunkSize sz hsz
  have e : (callerUsable usable).toNat = usable.toNat - 8 := by
    unfold callerUsable
    rw [BitVec.toNat_sub]
    simp
    omega
  have e2 : (insertAddr p usable).toNat = p.toNat + (usable.toNat - 8) := by
    unfold insertAddr
    rw [BitVec.toNat_add, e]
    omega
  refine ⟨?_, ?_, ?_, ?_, ?_, ?_, ?_⟩ <;> omega

example : ∃ p sz usable : BitVec 64, sz.toNat + 16 ≤ 2 ^ 64 ∧
    (chunkSize sz).toNat ≤ usable.toNat ∧ p.toNat + usable.toNat ≤ 2 ^ 64 :=
  ⟨0x555555559010#64, 100#64, 120#64, by decide⟩

/-- C13 fails for huge requests: the padded request wraps round to 8 bytes, so an absurd request
"succeeds" with a chunk smaller than the caller asked for. -/
theorem huge_request_wraps (sz : BitVec 64) (h : 2 ^ 64 - 8 ≤ sz.toNat) :
    (chunkSize sz).toNat ≤ 8 := by
  unfold chunkSize padToAlign
  have hlt := sz.isLt
  have e : (sz + 8#64).toNat = sz.toNat + 8 - 2 ^ 64 := by
    rw [BitVec.toNat_add]
    simp
    omega
  split
  · omega
  · rw [BitVec.toNat_sub, BitVec.toNat_add, e, BitVec.umod_eq, BitVec.toNat_umod, e]
    simp
    omega

theorem trailer_layout_fails : ∃ sz : BitVec 64, (chunkSize sz).toNat < sz.toNat :=
  ⟨-1#64, by decide⟩

/-- The size reported by a query is always 8 less than the caller-usable size. -/
theorem reported_size_short (usable : BitVec 64) (h : 16 ≤ usable.toNat) :
    (reportedSize usable).toNat + 8 = (callerUsable usable).toNat := by
  unfold reportedSize callerUsable
  simp only [BitVec.toNat_sub]
  simp
  omega

/-- C13 fails for the reported size: a chunk laid out correctly is reported smaller than what was
requested. -/
theorem reported_size_fails :
    ∃ sz usable : BitVec 64, (chunkSize sz).toNat ≤ usable.toNat ∧
      (reportedSize usable).toNat < sz.toNat :=
  ⟨24#64, 32#64, by decide⟩

/-- The reported size does cover the request when the malloc delivers at least 16 spare bytes. -/
theorem reported_size_partial (sz usable : BitVec 64) (h : sz.toNat + 16 ≤ usable.toNat) :
    sz.toNat ≤ (reportedSize usable).toNat := by
  unfold reportedSize callerUsable
  simp only [BitVec.toNat_sub]
  simp
  omega

/-! ### C52: metadata is read where it was written -/

/-- For a promoted chunk the word is read where it was written exactly when the usable size is
the requested size plus 16. -/
theorem promoted_read_iff (p requested usable : BitVec 64) :
    promotedReadAddr p requested = insertAddr p usable ↔ usable = requested + 16#64 := by
  unfold promotedReadAddr insertAddr callerUsable
  simp only [← BitVec.toNat_inj, BitVec.toNat_add, BitVec.toNat_sub]
  simp
  have := p.isLt
  have := usable.isLt
  have := requested.isLt
  omega

/-- Partial C52: when the usable size is the requested size plus 16, the query reads the word the
insertion wrote. -/
theorem promoted_read_partial (p requested usable : BitVec 64) (h : usable = requested + 16#64) :
    promotedReadAddr p requested = insertAddr p usable := (promoted_read_iff p requested usable).2 h

/-- C52 fails as stated: for the smallest chunk the padded request can produce, the query reads
8 bytes past the word that was written. -/
theorem promoted_read_fails : ∃ p sz usable : BitVec 64,
    (chunkSize sz).toNat ≤ usable.toNat ∧ 131072 < usable.toNat ∧
      promotedReadAddr p sz ≠ insertAddr p usable :=
  ⟨0x7ffff0000010#64, 200000#64, 200008#64, by decide⟩

end Liballocs.Insert
