import Verif.Model.Allocsites
/-! # C31, C32: allocation-site ids -/
namespace Liballocs.Allocsites

/-- The number of sites of a file. -/
def nSites (f : File) : Nat := (f.sites.getD []).length

/-- A file is well formed: its table is strictly sorted and its sites lie in its range. -/
structure FileOk (f : File) : Prop where
  sorted : (f.sites.getD []).Pairwise (· < ·)
  inside : ∀ v ∈ f.sites.getD [], f.lo ≤ f.base + v ∧ f.base + v < f.hi

/-- Files loaded together occupy disjoint ranges, and are well formed; at most 256 of them have
tables, and they have at most 65535 sites together. -/
structure FilesOk (fs : List File) : Prop where
  ok : ∀ f ∈ fs, FileOk f
  disjoint : fs.Pairwise (fun f g => f.hi ≤ g.lo ∨ g.hi ≤ f.lo)
  few : (fs.filter (fun f => f.sites.isSome)).length ≤ 256
  small : (fs.map nSites).sum ≤ 65535

/-! ### Helper lemmas -/

theorem takeWhile_sorted {keys : List Nat} (hs : keys.Pairwise (· ≤ ·)) (t : Nat) (i : Nat) :
    i < (keys.takeWhile (· ≤ t)).length ↔ ∃ v, keys[i]? = some v ∧ v ≤ t := by
  induction keys generalizing i with
  | nil => simp
  | cons k ks ih =>
    rw [List.pairwise_cons] at hs
    rw [List.takeWhile_cons]
    by_cases hk : k ≤ t
    · simp only [hk, decide_true, if_true, List.length_cons]
      cases i with
      | zero => simp [hk]
      | succ i => simp [ih hs.2 i]
    · simp only [hk, decide_false, Bool.false_eq_true, if_false, List.length_nil]
      constructor
      · omega
      · rintro ⟨v, hv, hvt⟩
        cases i with
        | zero => simp at hv; omega
        | succ i =>
          simp only [List.getElem?_cons_succ] at hv
          have := hs.1 v (List.mem_of_getElem? hv); omega

/-- The search contract: the last index whose key is at most the target. -/
theorem leq_some {keys : List Nat} (hs : keys.Pairwise (· ≤ ·)) {t i : Nat} :
    leq keys t = some i ↔ (∃ v, keys[i]? = some v ∧ v ≤ t) ∧ ∀ j v, i < j → keys[j]? = some v → t < v := by
  unfold leq
  simp only
  constructor
  · intro h
    split at h
    · cases h
    · rename_i hk
      have hi : (keys.takeWhile (· ≤ t)).length = i + 1 := by
        simp only [Option.some.injEq] at h; omega
      refine ⟨(takeWhile_sorted hs t i).1 (by omega), ?_⟩
      intro j v hj hv
      cases Nat.lt_or_ge t v with
      | inl h => exact h
      | inr h =>
        have := (takeWhile_sorted hs t j).2 ⟨v, hv, h⟩; omega
  · rintro ⟨h1, h2⟩
    have a := (takeWhile_sorted hs t i).2 h1
    have b : ¬ i + 1 < (keys.takeWhile (· ≤ t)).length := by
      intro h
      obtain ⟨v, hv, hvt⟩ := (takeWhile_sorted hs t (i + 1)).1 h
      have := h2 (i + 1) v (by omega) hv; omega
    rw [if_neg (by omega)]
    congr 1; omega

theorem leq_none {keys : List Nat} (hs : keys.Pairwise (· ≤ ·)) {t : Nat} :
    leq keys t = none ↔ ∀ v ∈ keys, t < v := by
  unfold leq
  simp only
  constructor
  · intro h
    split at h
    · rename_i hk
      intro v hv
      obtain ⟨j, hj⟩ := List.getElem?_of_mem hv
      cases Nat.lt_or_ge t v with
      | inl h => exact h
      | inr h => have := (takeWhile_sorted hs t j).2 ⟨v, hj, h⟩; omega
    · cases h
  · intro h
    rw [if_pos]
    cases Nat.eq_zero_or_pos (keys.takeWhile (· ≤ t)).length with
    | inl h => exact h
    | inr hp =>
      obtain ⟨v, hv, hvt⟩ := (takeWhile_sorted hs t 0).1 hp
      have := h v (List.mem_of_getElem? hv); omega

/-- What the loader maintains: files loaded so far and the spine agree. -/
structure Inv (s : State) (fs : List File) : Prop where
  files : s.files.map (·.1) = fs
  spineLen : s.spine.length = (fs.filter (fun f => f.sites.isSome)).length
  slot : ∀ f k, (f, some k) ∈ s.files → ∃ ss e, f.sites = some ss ∧ s.spine[k]? = some e ∧
    e.base = f.base ∧ e.ptr = ss
  noslot : ∀ f, (f, none) ∈ s.files → f.sites = none
  count : ∀ e ∈ s.spine, e.count = e.ptr.length
  /-- consecutive ranges -/
  chain : ∀ k e, s.spine[k]? = some e → e.start = ((s.spine.take k).map (fun e => e.ptr.length)).sum
  total : (s.spine.map (fun e => e.ptr.length)).sum = (fs.map nSites).sum

theorem inv_init : Inv ⟨[], []⟩ [] := ⟨rfl, rfl, by simp, by simp, by simp, by simp, rfl⟩

theorem load_ok {s : State} {fs : List File} (h : Inv s fs) (f : File)
    (hfew : ((fs ++ [f]).filter (fun f => f.sites.isSome)).length ≤ 256)
    (hsmall : ((fs ++ [f]).map nSites).sum ≤ 65535) :
    ∃ s', load s f = .ok s' ∧ Inv s' (fs ++ [f]) := by
  obtain ⟨h1, h2, h3, h4, h5, h6, h7⟩ := h
  rw [List.filter_append, List.length_append] at hfew
  simp only [List.map_append, List.sum_append, List.map_cons, List.map_nil, List.sum_cons, List.sum_nil,
    Nat.add_zero] at hsmall
  unfold load
  cases hf : f.sites with
  | none =>
    refine ⟨_, rfl, ?_, ?_, ?_, ?_, h5, h6, ?_⟩
    · simp [h1]
    · rw [List.filter_append]; simp [hf, h2]
    · intro g k hg
      simp only [List.mem_append, List.mem_singleton] at hg
      rcases hg with hg | hg
      · exact h3 g k hg
      · simp at hg
    · intro g hg
      simp only [List.mem_append, List.mem_singleton] at hg
      rcases hg with hg | hg
      · exact h4 g hg
      · simp at hg; rw [hg]; exact hf
    · simp [h7, nSites, hf]
  | some ss =>
    have hlen : s.spine.length < 256 := by
      rw [h2]; simp [hf] at hfew; omega
    have hss : ss.length + (fs.map nSites).sum ≤ 65535 := by
      simp only [nSites, hf, Option.getD_some] at hsmall; exact (by simpa [nSites] using (by omega : ss.length + _ ≤ 65535))
    simp only
    rw [if_neg (by simp [SIZE]; omega)]
    -- the start id
    have hst : nextStart s.spine = some (fs.map nSites).sum := by
      unfold nextStart
      rcases List.eq_nil_or_concat s.spine with e | ⟨A, p, e⟩
      · rw [e]
        simp only [List.getLast?_nil]
        rw [← h7, e]; rfl
      · rw [List.concat_eq_append] at e
        rw [e]
        simp only [List.getLast?_append, List.getLast?_singleton, Option.some_or]
        have hc := h5 p (by rw [e]; simp)
        have hp := h6 A.length p (by rw [e]; simp)
        rw [e, List.take_left] at hp
        have ht := h7
        rw [e, List.map_append, List.sum_append] at ht
        simp only [List.map_cons, List.map_nil, List.sum_cons, List.sum_nil, Nat.add_zero] at ht
        have : p.start + p.count = (fs.map nSites).sum := by rw [hp, hc]; exact ht
        rw [this, Nat.mod_eq_of_lt (by omega), if_neg (by omega)]
    rw [hst]
    simp only
    rw [if_neg (by simp [SIZE]; omega)]
    refine ⟨_, rfl, ?_, ?_, ?_, ?_, ?_, ?_, ?_⟩
    · simp [h1]
    · rw [List.filter_append]; simp [hf, h2]
    · intro g k hg
      simp only [List.mem_append, List.mem_singleton, Prod.mk.injEq, Option.some.injEq] at hg
      rcases hg with hg | ⟨rfl, rfl⟩
      · obtain ⟨ss', e', g1, g2, g3⟩ := h3 g k hg
        refine ⟨ss', e', g1, ?_, g3⟩
        rw [List.getElem?_append_left (by have := (List.getElem?_eq_some_iff.1 g2).1; exact this)]
        exact g2
      · exact ⟨ss, ⟨(fs.map nSites).sum, ss.length % 65536, g.base, ss⟩, hf, by simp, rfl, rfl⟩
    · intro g hg
      simp only [List.mem_append, List.mem_singleton] at hg
      rcases hg with hg | hg
      · exact h4 g hg
      · simp at hg
    · intro e he
      rcases List.mem_append.1 he with he | he
      · exact h5 e he
      · rw [List.mem_singleton.1 he]
        exact Nat.mod_eq_of_lt (by omega)
    · intro k e he
      rcases Nat.lt_or_ge k s.spine.length with hk | hk
      · rw [List.getElem?_append_left hk] at he
        rw [List.take_append_of_le_length (by omega)]
        exact h6 k e he
      · rw [List.getElem?_append_right hk] at he
        have hk' : k - s.spine.length = 0 := by
          have := (List.getElem?_eq_some_iff.1 he).1
          simp at this; omega
        rw [hk'] at he
        simp only [List.getElem?_cons_zero, Option.some.injEq] at he
        have hke : k = s.spine.length := by omega
        rw [← he, hke, List.take_left]
        simp only [h7]
    · simp [h7, nSites, hf]

theorem loadAll_ok {s : State} {fs : List File} (h : Inv s fs) (gs : List File)
    (hfew : ((fs ++ gs).filter (fun f => f.sites.isSome)).length ≤ 256)
    (hsmall : ((fs ++ gs).map nSites).sum ≤ 65535) :
    ∃ s', loadAll s gs = .ok s' ∧ Inv s' (fs ++ gs) := by
  induction gs generalizing s fs with
  | nil => exact ⟨s, rfl, by simpa using h⟩
  | cons g gs ih =>
    have e : fs ++ g :: gs = (fs ++ [g]) ++ gs := by simp
    rw [e] at hfew hsmall ⊢
    obtain ⟨s1, e1, h1⟩ := load_ok h g
      (by rw [List.filter_append, List.length_append] at hfew; omega)
      (by rw [List.map_append, List.sum_append] at hsmall; omega)
    obtain ⟨s2, e2, h2⟩ := ih h1 hfew hsmall
    refine ⟨s2, ?_, h2⟩
    unfold loadAll
    rw [e1]
    exact e2

theorem getFile_eq {s : State} {fs : List File} (h : Inv s fs)
    (hd : fs.Pairwise (fun f g => f.hi ≤ g.lo ∨ g.hi ≤ f.lo)) {f : File} (hf : f ∈ fs) {a : Nat}
    (ha : f.lo ≤ a ∧ a < f.hi) : ∃ k, getFile s a = some (f, k) ∧ (f, k) ∈ s.files := by
  have key : ∀ l : List (File × Option Nat), (l.map (·.1)).Pairwise (fun f g => f.hi ≤ g.lo ∨ g.hi ≤ f.lo) →
      f ∈ l.map (·.1) → ∃ k, l.find? (fun f => decide (f.1.lo ≤ a ∧ a < f.1.hi)) = some (f, k) ∧ (f, k) ∈ l := by
    intro l
    induction l with
    | nil => intro _ h; simp at h
    | cons x l ih =>
      intro hp hm
      rw [List.map_cons, List.pairwise_cons] at hp
      rw [List.map_cons] at hm
      rw [List.find?_cons]
      rcases List.mem_cons.1 hm with e | e
      · subst e
        simp only [ha, and_self, decide_true]
        exact ⟨x.2, rfl, by simp⟩
      · have := hp.1 f e
        have hx : decide (x.1.lo ≤ a ∧ a < x.1.hi) = false := by simp only [decide_eq_false_iff_not]; omega
        rw [hx]
        obtain ⟨k, h1, h2⟩ := ih hp.2 e
        exact ⟨k, h1, List.mem_cons_of_mem _ h2⟩
  exact key s.files (by rw [h.files]; exact hd) (by rw [h.files]; exact hf)

/-- The site found for a site address of a loaded file is that site. -/
theorem entryAt_site {s : State} {fs : List File} (h : Inv s fs) (hok : FilesOk fs) {f : File} (hf : f ∈ fs)
    {ss : List Nat} (hss : f.sites = some ss) {i v : Nat} (hv : ss[i]? = some v) :
    ∃ k e, (f, some k) ∈ s.files ∧ s.spine[k]? = some e ∧ e.ptr = ss ∧ e.base = f.base ∧
      entryAt s (f.base + v) = some (e, i) ∧ ∃ k', getFile s (f.base + v) = some (f, k') := by
  have hfo := hok.ok f hf
  have hmem : v ∈ f.sites.getD [] := by rw [hss]; exact List.mem_of_getElem? hv
  obtain ⟨k, g1, g2⟩ := getFile_eq h hok.disjoint hf (hfo.inside v hmem)
  cases k with
  | none => have := h.noslot f g2; rw [hss] at this; cases this
  | some k =>
    obtain ⟨ss', e, e1, e2, e3, e4⟩ := h.slot f k g2
    rw [hss] at e1
    cases e1
    refine ⟨k, e, g2, e2, e4, e3, ?_, some k, g1⟩
    unfold entryAt
    rw [g1]
    simp only [e2]
    have hc := h.count e (List.mem_of_getElem? e2)
    have hsorted : ss.Pairwise (· < ·) := by have := hfo.sorted; rwa [hss] at this
    have : leq (e.ptr.take e.count) (f.base + v - f.base) = some i := by
      rw [hc, List.take_length, e4, Nat.add_sub_cancel_left, leq_some (hsorted.imp (fun h => Nat.le_of_lt h))]
      refine ⟨⟨v, hv, Nat.le_refl _⟩, ?_⟩
      intro j w hj hw
      obtain ⟨hi', hi''⟩ := List.getElem?_eq_some_iff.1 hv
      obtain ⟨hj', hj''⟩ := List.getElem?_eq_some_iff.1 hw
      rw [← hi'', ← hj'']
      exact List.pairwise_iff_getElem.1 hsorted i j hi' hj' hj
    rw [this]; rfl

theorem take_sum_mono (l : List Nat) (i j : Nat) (h : i ≤ j) : (l.take i).sum ≤ (l.take j).sum := by
  induction l generalizing i j with
  | nil => simp
  | cons a l ih =>
    cases i with
    | zero => simp
    | succ i =>
      cases j with
      | zero => omega
      | succ j => simp only [List.take_succ_cons, List.sum_cons]; have := ih i j (by omega); omega

theorem take_sum_succ (l : List Nat) (i v : Nat) (h : l[i]? = some v) : (l.take (i + 1)).sum = (l.take i).sum + v := by
  rw [List.take_add_one, List.sum_append, h]; simp

theorem start_sorted {s : State} {fs : List File} (h : Inv s fs) : (s.spine.map (·.start)).Pairwise (· ≤ ·) := by
  rw [List.pairwise_iff_getElem]
  intro i j hi hj hij
  simp only [List.length_map] at hi hj
  simp only [List.getElem_map]
  rw [h.chain i _ (List.getElem?_eq_getElem hi), h.chain j _ (List.getElem?_eq_getElem hj)]
  rw [List.map_take, List.map_take]
  exact take_sum_mono _ i j (by omega)

/-- Mapping the id of the `i`-th site of the `k`-th table back. -/
theorem siteById_ok {s : State} {fs : List File} (h : Inv s fs) {k i v : Nat} {e : Ent}
    (he : s.spine[k]? = some e) (hv : e.ptr[i]? = some v) :
    siteById s (e.start + i) = some (some (e.base + v)) := by
  have hi := (List.getElem?_eq_some_iff.1 hv).1
  have hk := (List.getElem?_eq_some_iff.1 he).1
  unfold siteById
  have : leq (s.spine.map (·.start)) (e.start + i) = some k := by
    rw [leq_some (start_sorted h)]
    refine ⟨⟨e.start, by rw [List.getElem?_map, he]; rfl, by omega⟩, ?_⟩
    intro j w hj hw
    rw [List.getElem?_map] at hw
    cases hj' : s.spine[j]? with
    | none => rw [hj'] at hw; cases hw
    | some e' =>
      rw [hj'] at hw
      simp only [Option.map_some, Option.some.injEq] at hw
      rw [← hw, h.chain j e' hj', h.chain k e he]
      have m := take_sum_mono (s.spine.map (fun e => e.ptr.length)) (k + 1) j (by omega)
      rw [take_sum_succ _ k e.ptr.length (by rw [List.getElem?_map, he]; rfl)] at m
      rw [List.map_take, List.map_take]
      omega
  rw [this]
  simp only [he, Nat.add_sub_cancel_left, hv, Option.map_some]

theorem id_bound {s : State} {fs : List File} (h : Inv s fs) (hok : FilesOk fs) {k i v : Nat} {e : Ent}
    (he : s.spine[k]? = some e) (hv : e.ptr[i]? = some v) : e.start + i < 65535 := by
  have hi := (List.getElem?_eq_some_iff.1 hv).1
  have hk := (List.getElem?_eq_some_iff.1 he).1
  have m := take_sum_mono (s.spine.map (fun e => e.ptr.length)) (k + 1) (s.spine.map (fun e => e.ptr.length)).length
    (by simp; omega)
  rw [List.take_length, take_sum_succ _ k e.ptr.length (by rw [List.getElem?_map, he]; rfl)] at m
  have c := h.chain k e he
  rw [List.map_take] at c
  have := h.total
  have := hok.small
  omega

/-! ### C31 -/

/-- `a` is an allocation site of one of the files. -/
def IsSite (fs : List File) (a : Nat) : Prop := ∃ f ∈ fs, ∃ ss, f.sites = some ss ∧ ∃ v ∈ ss, a = f.base + v

/-- C31 (partial): load any sequence of well-formed files: loading succeeds, every site has an id
other than the reserved 65535, the id maps back to the site, and different sites have different ids.
Partial: at most 256 files with tables and 65535 sites in all. -/
theorem id_roundtrip_partial (fs : List File) (hok : FilesOk fs) :
    ∃ s, loadAll ⟨[], []⟩ fs = .ok s ∧
      (∀ a, IsSite fs a → siteId s a < 65535 ∧ siteById s (siteId s a) = some (some a)) ∧
      (∀ a b, IsSite fs a → IsSite fs b → siteId s a = siteId s b → a = b) := by
  obtain ⟨s, e, h⟩ := loadAll_ok inv_init fs (by simpa using hok.few) (by simpa using hok.small)
  rw [List.nil_append] at h
  have key : ∀ a, IsSite fs a → siteId s a < 65535 ∧ siteById s (siteId s a) = some (some a) := by
    rintro a ⟨f, hf, ss, hss, v, hv, rfl⟩
    obtain ⟨i, hi⟩ := List.getElem?_of_mem hv
    obtain ⟨k, e, e1, e2, e3, e4, e5, k', e6⟩ := entryAt_site h hok hf hss hi
    have hb := id_bound h hok e2 (by rw [e3]; exact hi)
    have hid : siteId s (f.base + v) = e.start + i := by
      unfold siteId
      rw [e6, e5]
      exact Nat.mod_eq_of_lt (by omega)
    rw [hid]
    refine ⟨hb, ?_⟩
    rw [siteById_ok h e2 (by rw [e3]; exact hi), e4]
  refine ⟨s, e, key, ?_⟩
  intro a b ha hb hab
  have h1 := (key a ha).2
  have h2 := (key b hb).2
  rw [hab, h2] at h1
  injection h1 with h1
  injection h1 with h1
  exact h1.symm

/-- Three files, one without a table and one with an empty table. -/
def exFiles : List File :=
  [⟨0x1000, 0x2000, 0x1000, some [0x10, 0x20, 0x800]⟩, ⟨0x4000, 0x5000, 0x4000, none⟩,
   ⟨0x5000, 0x6000, 0x5000, some []⟩, ⟨0x8000, 0x9000, 0x7000, some [0x1100, 0x1f00]⟩]

example : FilesOk exFiles ∧ IsSite exFiles 0x8f00 := by
  refine ⟨⟨?_, by simp [exFiles], by decide, by decide⟩, ⟨⟨0x8000, 0x9000, 0x7000, some [0x1100, 0x1f00]⟩, by simp [exFiles], _, rfl, 0x1f00, by simp, rfl⟩⟩
  intro f hf
  simp only [exFiles, List.mem_cons, List.not_mem_nil, or_false] at hf
  rcases hf with h | h | h | h <;> subst h <;> exact ⟨by simp, by simp⟩

/-- An address in no loaded file has the id of the first site of the first table. -/
theorem id_of_unknown_fails : ∃ s, loadAll ⟨[], []⟩ exFiles = .ok s ∧ siteId s 0xf000 = 0 ∧
    siteById s 0 = some (some 0x1010) ∧ ¬ IsSite exFiles 0xf000 := by
  refine ⟨_, rfl, by decide, by decide, ?_⟩
  rintro ⟨f, hf, ss, hss, v, hv, ha⟩
  simp only [exFiles, List.mem_cons, List.not_mem_nil, or_false] at hf
  rcases hf with h | h | h | h <;> subst h <;> simp at hss <;> (try subst hss) <;> simp at hv <;> simp only at ha <;> omega

/-- With 65537 sites in one file ids collide: the count itself is truncated to one site, so the
second site is not even found. -/
theorem id_collision_fails (ss : List Nat) (hs : ss.length = 65537) (hsort : ss.Pairwise (· < ·)) :
    ∃ s, loadAll ⟨[], []⟩ [⟨0, 1000000, 0, some ss⟩] = .ok s ∧
      ∀ v, v ∈ ss → v < 1000000 → siteId s v = 0 := by
  refine ⟨_, rfl, ?_⟩
  intro v hv hlt
  have hne : ss ≠ [] := by rintro rfl; simp at hs
  obtain ⟨x, xs, rfl⟩ := List.exists_cons_of_ne_nil hne
  have hx : x ≤ v := by
    rw [List.pairwise_cons] at hsort
    rcases List.mem_cons.1 hv with e | e
    · omega
    · have := hsort.1 v e; omega
  have e1 : getFile ⟨[] ++ [⟨0, (x :: xs).length % 65536, 0, x :: xs⟩], [] ++ [(⟨0, 1000000, 0, some (x :: xs)⟩, some 0)]⟩ v =
      some (⟨0, 1000000, 0, some (x :: xs)⟩, some 0) := by
    simp [getFile, hlt]
  have hl : (x :: xs).length % 65536 = 1 := by rw [hs]
  show siteId ⟨[] ++ [⟨0, (x :: xs).length % 65536, 0, x :: xs⟩], [] ++ [(⟨0, 1000000, 0, some (x :: xs)⟩, some 0)]⟩ v = 0
  unfold siteId entryAt
  rw [e1]
  simp only [List.nil_append, List.getElem?_cons_zero, hl]
  have : leq (List.take 1 (x :: xs)) (v - 0) = some 0 := by
    unfold leq
    simp [hx]
  rw [this]; rfl

/-- The 257th file with a table is stored past the end of the spine. -/
theorem spine_overrun_fails (s : State) (h : s.spine.length = 256) (f : File) (ss : List Nat) (hf : f.sites = some ss)
    (p : Ent) (hp : s.spine.getLast? = some p) (hsm : p.start + p.count < 65536) : load s f = .overrun := by
  unfold load
  rw [hf]
  simp only [h]
  rw [if_neg (by simp [SIZE])]
  have : nextStart s.spine = some (p.start + p.count) := by
    unfold nextStart
    rw [hp]
    simp only
    rw [Nat.mod_eq_of_lt hsm, if_neg (by omega)]
  rw [this]
  simp [SIZE]

/-! ### C32 -/

/-- C32 (partial): a lookup in a loaded set of files finds nothing for an address outside every file,
in a file without sites, or below a file's first site; at a site it finds that site; and elsewhere
it finds the nearest site below.  Partial: that last case should find nothing. -/
theorem entry_lookup_partial (fs : List File) (hok : FilesOk fs) :
    ∃ s, loadAll ⟨[], []⟩ fs = .ok s ∧
      (∀ a, (∀ f ∈ fs, ¬ (f.lo ≤ a ∧ a < f.hi)) → entryAt s a = none) ∧
      (∀ f ∈ fs, ∀ a, f.lo ≤ a ∧ a < f.hi → f.sites = none → entryAt s a = none) ∧
      (∀ f ∈ fs, ∀ a ss, f.lo ≤ a ∧ a < f.hi → f.sites = some ss →
        (entryAt s a = none ↔ ∀ v ∈ ss, a - f.base < v) ∧
        (∀ e i, entryAt s a = some (e, i) → e.base = f.base ∧ e.ptr = ss ∧
          ∃ v, ss[i]? = some v ∧ v ≤ a - f.base ∧ ∀ w ∈ ss, w ≤ a - f.base → w ≤ v)) := by
  obtain ⟨s, e, h⟩ := loadAll_ok inv_init fs (by simpa using hok.few) (by simpa using hok.small)
  rw [List.nil_append] at h
  refine ⟨s, e, ?_, ?_, ?_⟩
  · intro a ha
    have : getFile s a = none := by
      unfold getFile
      rw [List.find?_eq_none]
      intro x hx
      have : x.1 ∈ fs := by rw [← h.files]; exact List.mem_map_of_mem hx
      simpa using ha x.1 this
    unfold entryAt; rw [this]
  · intro f hf a ha hn
    obtain ⟨k, g1, g2⟩ := getFile_eq h hok.disjoint hf ha
    unfold entryAt
    rw [g1]
    cases k with
    | none => rfl
    | some k =>
      obtain ⟨ss', e, e1, _⟩ := h.slot f k g2
      rw [hn] at e1; cases e1
  · intro f hf a ss ha hss
    obtain ⟨k, g1, g2⟩ := getFile_eq h hok.disjoint hf ha
    cases k with
    | none => have := h.noslot f g2; rw [hss] at this; cases this
    | some k =>
      obtain ⟨ss', e, e1, e2, e3, e4⟩ := h.slot f k g2
      rw [hss] at e1; cases e1
      have hc := h.count e (List.mem_of_getElem? e2)
      have hsorted : ss.Pairwise (· < ·) := by have := (hok.ok f hf).sorted; rwa [hss] at this
      have hle : ss.Pairwise (· ≤ ·) := hsorted.imp (fun h => Nat.le_of_lt h)
      have heq : entryAt s a = (leq ss (a - f.base)).map (fun i => (e, i)) := by
        unfold entryAt
        rw [g1]
        simp only [e2, hc, List.take_length, e4]
      rw [heq]
      constructor
      · rw [Option.map_eq_none_iff, leq_none hle]
      · intro e' i hei
        rw [Option.map_eq_some_iff] at hei
        obtain ⟨i', hi', he⟩ := hei
        cases he
        obtain ⟨⟨v, hv, hva⟩, hmax⟩ := (leq_some hle).1 hi'
        refine ⟨e3, e4, v, hv, hva, ?_⟩
        intro w hw hwa
        obtain ⟨j, hj⟩ := List.getElem?_of_mem hw
        rcases Nat.lt_or_ge i j with hij | hij
        · have := hmax j w hij hj; omega
        · obtain ⟨hi1, hi2⟩ := List.getElem?_eq_some_iff.1 hv
          obtain ⟨hj1, hj2⟩ := List.getElem?_eq_some_iff.1 hj
          rcases Nat.lt_or_ge j i with h' | h'
          · have := List.pairwise_iff_getElem.1 hle j i hj1 hi1 h'; omega
          · have : i = j := by omega
            subst this; rw [← hi2, ← hj2]; exact Nat.le_refl _

/-- An address in a file that is not a site is answered with the site before it. -/
theorem entry_lookup_fails : ∃ s e, loadAll ⟨[], []⟩ exFiles = .ok s ∧
    entryAt s 0x1030 = some (e, 1) ∧ e.ptr[1]? = some 0x20 ∧ ¬ IsSite exFiles 0x1030 := by
  refine ⟨_, _, rfl, rfl, rfl, ?_⟩
  rintro ⟨f, hf, ss, hss, v, hv, ha⟩
  simp only [exFiles, List.mem_cons, List.not_mem_nil, or_false] at hf
  rcases hf with h | h | h | h <;> subst h <;> simp at hss <;> (try subst hss) <;> simp at hv <;> simp only at ha <;> omega

end Liballocs.Allocsites
