import Verif.Model.SegMeta
/-! Properties of the tables given to segments. -/
namespace Liballocs.SegMeta

/-! ## Names -/

/-- The value of a digit. -/
def value (ch : Char) : Nat := if ch.toNat < 58 then ch.toNat - 48 else ch.toNat - 87

private theorem value_digit {d : Nat} (h : d < 16) : value (digit d) = d := by
  have : ∀ d : Fin 16, value (digit d.val) = d.val := by decide
  exact this ⟨d, h⟩

/-- Reading a number back. -/
def read (l : List Char) : Nat := l.foldl (fun v ch => 16 * v + value ch) 0

private theorem read_hexN : ∀ (k n : Nat), n < 16 ^ k → read (hexN k n) = n
  | 0, n, h => by simp at h; subst h; rfl
  | k + 1, n, h => by
    rw [hexN]
    split
    · rename_i h16
      simp [read, value_digit h16]
    · have hk : n / 16 < 16 ^ k := by rw [Nat.pow_succ] at h; omega
      have ih := read_hexN k (n / 16) hk
      unfold read at ih ⊢
      rw [List.foldl_append, ih, List.foldl_cons, List.foldl_nil, value_digit (Nat.mod_lt _ (by decide))]
      omega

/-- Different addresses have different names. -/
theorem toolName_inj {v w : Nat} (hv : v < 2 ^ 64) (hw : w < 2 ^ 64) (h : toolName v = toolName w) : v = w := by
  have h' : hex v = hex w := List.append_cancel_left h
  have := congrArg read h'
  rwa [hex, hex, read_hexN 16 v (by omega), read_hexN 16 w (by omega)] at this

private theorem hexN_length : ∀ (j k n : Nat), n < 16 ^ j → 0 < j → j ≤ k → (hexN k n).length ≤ j
  | 0, _, _, _, h, _ => absurd h (Nat.lt_irrefl 0)
  | j + 1, 0, _, _, _, h => by omega
  | j + 1, k + 1, n, h, _, hk => by
    rw [hexN]
    split
    · simp
    · rename_i h16
      have hj : 0 < j := by
        cases j with
        | zero => simp at h; omega
        | succ j => omega
      have := hexN_length j k (n / 16) (by rw [Nat.pow_succ] at h; omega) hj (by omega)
      rw [List.length_append, List.length_singleton]
      omega

/-- The name looked for is always whole: it is the tool's name for the low 32 bits of the address. -/
theorem lookName_eq (v : Nat) : lookName v = toolName (v % 2 ^ 32) := by
  unfold lookName toolName
  apply List.take_of_length_le
  have := hexN_length 8 16 (v % 2 ^ 32) (by omega) (by omega) (by omega)
  rw [List.length_append]
  unfold hex
  simp only [PREFIX, List.length_cons, List.length_nil]
  omega

/-! ## Specification -/

/-- The loadable headers with their numbers, in order. -/
def loads (phdrs : List Phdr) : List (Nat × Phdr) := ((List.range phdrs.length).zip phdrs).filter (fun x => x.2.load)

/-- As `loads`, counting from `i`. -/
private def loadsFrom : List Phdr → Nat → List (Nat × Phdr)
  | [], _ => []
  | p :: ps, i => if p.load then (i, p) :: loadsFrom ps (i + 1) else loadsFrom ps (i + 1)

private theorem loadsFrom_eq (ps : List Phdr) (i : Nat) : loadsFrom ps i = ((List.range' i ps.length).zip ps).filter (fun x => x.2.load) := by
  induction ps generalizing i with
  | nil => rfl
  | cons p ps ih =>
    rw [loadsFrom, List.length_cons, List.range'_succ, List.zip_cons_cons, List.filter_cons, ih (i + 1)]

private theorem loads_eq (ps : List Phdr) : loads ps = loadsFrom ps 0 := by
  rw [loadsFrom_eq, loads, List.range_eq_range']

/-- What is found for a segment in a meta object that may be missing. -/
private def look (h : Option MetaObj) (p : Phdr) : Option Nat := h.bind (fun m => find m (lookName p.vaddr))

private theorem setupAll_spec (all : List Phdr) (h : Option MetaObj) (v : Nat × Phdr → Option Nat) : ∀ (ps : List Phdr) (pre : List Phdr) (done : List Seg), all = pre ++ ps →
    setupAll ps pre.length done.length ⟨all, done ++ (loadsFrom ps pre.length).map (fun x => ⟨x.1, v x⟩), h⟩ =
      some ⟨all, done ++ (loadsFrom ps pre.length).map (fun x => ⟨x.1, look h x.2⟩), h⟩
  | [], pre, done, _ => by simp [setupAll, loadsFrom]
  | p :: ps, pre, done, hall => by
    have hnext : all = (pre ++ [p]) ++ ps := by rw [hall]; simp
    rw [setupAll, loadsFrom]
    by_cases hp : p.load = true
    · rw [if_pos hp, if_pos hp]
      have h1 : all[pre.length]? = some p := by rw [hall]; simp
      have hs : setup ⟨all, done ++ ((pre.length, p) :: loadsFrom ps (pre.length + 1)).map (fun x => (⟨x.1, v x⟩ : Seg)), h⟩ pre.length done.length =
          some ⟨all, (done ++ [⟨pre.length, look h p⟩]) ++ (loadsFrom ps (pre.length + 1)).map (fun x => ⟨x.1, v x⟩), h⟩ := by
        unfold setup
        simp only [h1, List.map_cons]
        rw [List.getElem?_append_right (Nat.le_refl _), Nat.sub_self]
        simp only [List.getElem?_cons_zero, if_true]
        rw [List.set_append_right _ _ (Nat.le_refl _), Nat.sub_self, List.set_cons_zero, List.append_assoc]
        cases h <;> rfl
      rw [hs]
      simp only
      have ih := setupAll_spec all h v ps (pre ++ [p]) (done ++ [⟨pre.length, look h p⟩]) hnext
      simp only [List.length_append, List.length_singleton] at ih
      rw [ih]
      simp
    · rw [if_neg hp, if_neg hp]
      have ih := setupAll_spec all h v ps (pre ++ [p]) done hnext
      simp only [List.length_append, List.length_singleton] at ih
      exact ih

private theorem blank_eq (ps : List Phdr) (i : Nat) : blank ps i = (loadsFrom ps i).map (fun x => ⟨x.1, none⟩) := by
  induction ps generalizing i with
  | nil => rfl
  | cons p ps ih =>
    rw [blank, loadsFrom]
    split <;> simp [ih]

private theorem load_eq (early : Bool) (phdrs : List Phdr) (m : Option MetaObj) :
    notifyLoad early phdrs m = some ⟨phdrs, (loads phdrs).map (fun x => ⟨x.1, none⟩), if early then none else m⟩ := by
  unfold notifyLoad
  have := setupAll_spec phdrs none (fun _ => none) phdrs [] [] rfl
  simp only [List.length_nil, List.nil_append] at this
  rw [blank_eq, this, loads_eq]
  cases early <;> rfl

private theorem early_eq (phdrs : List Phdr) (m : Option MetaObj) :
    (notifyLoad true phdrs m).bind (fun f => loadEarly f m) = some ⟨phdrs, (loads phdrs).map (fun x => ⟨x.1, look m x.2⟩), m⟩ := by
  rw [load_eq]
  have := setupAll_spec phdrs m (fun _ => none) phdrs [] [] rfl
  simp only [List.length_nil, List.nil_append] at this
  simp only [Option.bind_some, loadEarly, loads_eq, if_true]
  exact this

private theorem find_make (tab : Nat → Nat) (phdrs : List Phdr) (hv : ∀ p ∈ phdrs, p.vaddr < 2 ^ 64) (w : Nat) (hw : w < 2 ^ 64) :
    find (make tab phdrs) (toolName w) = if ∃ p ∈ phdrs, p.load = true ∧ p.vaddr = w then some (tab w) else none := by
  induction phdrs with
  | nil => simp [find, make]
  | cons p ps ih =>
    have ih := ih (fun q hq => hv q (by simp [hq]))
    by_cases hp : p.load = true
    · have hm : make tab (p :: ps) = (toolName p.vaddr, tab p.vaddr) :: make tab ps := by simp [make, hp]
      rw [hm]
      by_cases e : p.vaddr = w
      · subst e
        rw [if_pos ⟨p, by simp, hp, rfl⟩]
        simp [find]
      · have hne : ¬ toolName p.vaddr = toolName w := fun h => e (toolName_inj (hv p (by simp)) hw h)
        have : find ((toolName p.vaddr, tab p.vaddr) :: make tab ps) (toolName w) = find (make tab ps) (toolName w) := by
          simp [find, hne]
        rw [this, ih]
        simp [hp, e]
    · have hm : make tab (p :: ps) = make tab ps := by simp [make, hp]
      rw [hm, ih]
      simp [hp]

/-! ## C139 -/

/-- **C139 (partial).** After a file is loaded, each loadable segment has the table that the tool made for it. Partial: the file is one of the early ones,
and its segments' addresses are below 4 GiB. -/
theorem early_own_partial (tab : Nat → Nat) (phdrs : List Phdr) (hv : ∀ p ∈ phdrs, p.vaddr < 2 ^ 32) :
    ∃ f, (notifyLoad true phdrs (some (make tab phdrs))).bind (fun f => loadEarly f (some (make tab phdrs))) = some f ∧
      f.segs = (loads phdrs).map (fun x => ⟨x.1, some (tab x.2.vaddr)⟩) := by
  refine ⟨_, early_eq phdrs _, ?_⟩
  apply List.map_congr_left
  intro x hx
  have hmem : x.2 ∈ phdrs ∧ x.2.load = true := by
    unfold loads at hx
    have := List.mem_filter.1 hx
    exact ⟨(List.of_mem_zip this.1).2, this.2⟩
  have h32 := hv _ hmem.1
  simp only [look, Option.bind_some, lookName_eq, Nat.mod_eq_of_lt h32]
  rw [find_make tab phdrs (fun p hp => by have := hv p hp; omega) _ (by omega), if_pos ⟨x.2, hmem.1, hmem.2, rfl⟩]

/-- If the meta object of an early file cannot be loaded, its segments have no tables. -/
theorem early_missing (phdrs : List Phdr) :
    ∃ f, (notifyLoad true phdrs none).bind (fun f => loadEarly f none) = some f ∧ f.segs = (loads phdrs).map (fun x => ⟨x.1, none⟩) :=
  ⟨_, early_eq phdrs none, rfl⟩

/-! ## Where it fails -/

/-- **C139 fails** for every file that is not early, such as one that the program loads: its segments are set up before its meta object is loaded, and
not again. None has a table, whatever is in the meta object. -/
theorem late_fails (phdrs : List Phdr) (m : Option MetaObj) :
    ∃ f, notifyLoad false phdrs m = some f ∧ f.handle = m ∧ f.segs = (loads phdrs).map (fun x => ⟨x.1, none⟩) :=
  ⟨_, load_eq false phdrs m, rfl, rfl⟩

/-- **C139 fails** for a segment at 4 GiB or more: it has the table of the segment 4 GiB below it, if there is one, and else none. -/
theorem large_fails (tab : Nat → Nat) (w : Nat) (hw : w < 2 ^ 32) :
    (∃ f, (notifyLoad true [⟨true, w⟩, ⟨true, 2 ^ 32 + w⟩] (some (make tab [⟨true, w⟩, ⟨true, 2 ^ 32 + w⟩]))).bind
        (fun f => loadEarly f (some (make tab [⟨true, w⟩, ⟨true, 2 ^ 32 + w⟩]))) = some f ∧ f.segs = [⟨0, some (tab w)⟩, ⟨1, some (tab w)⟩]) ∧
    (∃ f, (notifyLoad true [⟨true, 2 ^ 32 + w⟩] (some (make tab [⟨true, 2 ^ 32 + w⟩]))).bind
        (fun f => loadEarly f (some (make tab [⟨true, 2 ^ 32 + w⟩]))) = some f ∧ f.segs = [⟨0, none⟩]) := by
  have hmod : (2 ^ 32 + w) % 2 ^ 32 = w := by omega
  refine ⟨⟨_, early_eq _ _, ?_⟩, ⟨_, early_eq _ _, ?_⟩⟩
  · simp only [loads_eq, loadsFrom, if_true, List.map_cons, List.map_nil, look, Option.bind_some, lookName_eq, hmod, Nat.mod_eq_of_lt hw]
    rw [find_make tab _ (by intro p hp; simp at hp; rcases hp with rfl | rfl <;> simp only <;> omega) w (by omega),
      if_pos ⟨⟨true, w⟩, by simp, rfl, rfl⟩]
  · simp only [loads_eq, loadsFrom, if_true, List.map_cons, List.map_nil, look, Option.bind_some, lookName_eq, hmod]
    rw [find_make tab _ (by intro p hp; simp at hp; subst hp; simp only; omega) w (by omega), if_neg]
    rintro ⟨p, hp, _, hw'⟩
    simp at hp
    subst hp
    simp only at hw'
    omega

/-! ## A case -/

example : toolName 0x3d60 = ['m', 'e', 't', 'a', 'v', 'e', 'c', '_', '0', 'x', '3', 'd', '6', '0'] := by decide

/-- Four headers, two loadable. -/
example : ((notifyLoad true [⟨false, 0x40⟩, ⟨true, 0⟩, ⟨true, 0x3d60⟩, ⟨false, 0x3d60⟩] none).bind (fun f =>
      loadEarly f (some (make (· + 7) [⟨false, 0x40⟩, ⟨true, 0⟩, ⟨true, 0x3d60⟩, ⟨false, 0x3d60⟩])))).map File.segs =
    some [⟨1, some 7⟩, ⟨2, some 0x3d67⟩] := by decide +kernel

end Liballocs.SegMeta
