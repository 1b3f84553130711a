import Verif.Model.SectionInfo
import Verif.Props.StaticObj
/-! # C182: What is said of a section -/
namespace Liballocs.SectionInfo

open PageIndex StaticObj
open FileLoad (fileId segId secId symId Shdr LoadOk loadFile inR secR NoNest Made loads)

/-! ## The search of headers -/

/-- The scan of a table in memory finds what a search of the list finds. -/
theorem scan_list (la obj : Nat) (hs : List Shdr) (hdr : Nat → Option Shdr) : ∀ (k i : Nat), i + k = hs.length → (∀ j, j < hs.length → hdr j = hs[j]?) →
    scan (some la) hdr obj k i =
      some (((hs.drop i).find? (fun h => h.alloc && decide (la + h.addr ≤ obj) && decide (obj < la + h.addr + h.size))).map (fun h => (la + h.addr, h.size))) := by
  intro k
  induction k with
  | zero =>
    intro i hi _
    have : hs.drop i = [] := List.drop_eq_nil_of_le (by omega)
    rw [this]; rfl
  | succ k ih =>
    intro i hi hh
    have hlt : i < hs.length := by omega
    rw [List.drop_eq_getElem_cons hlt, List.find?_cons, scan, hh i hlt, List.getElem?_eq_getElem hlt]
    have := ih (i + 1) (by omega) hh
    by_cases ha : (hs[i]).alloc = true
    · by_cases hin : la + (hs[i]).addr ≤ obj ∧ obj < la + (hs[i]).addr + (hs[i]).size
      · simp [ha, hin]
      · simp only [ha, if_true, if_neg hin, Bool.true_and, this]
        have : (decide (la + (hs[i]).addr ≤ obj) && decide (obj < la + (hs[i]).addr + (hs[i]).size)) = false := by
          simp only [Bool.and_eq_false_iff, decide_eq_false_iff_not]; omega
        rw [this]
    · simp [ha, this]

/-- A pointer is to librunt's part of the record of a file: its fields lead to the file's load address and section headers, and have the site of the load. -/
structure Describes (mem : Nat → Nat) (L : Layout) (R : Refs) (fm : Nat) (F : FileLoad.File) (site : Nat) : Prop where
  l : R.lAddr (mem (fm + L.l)) = some F.laddr
  ehdr : R.shnum (mem (fm + L.ehdr)) = some F.shdrs.length
  shdrs : ∀ j, j < F.shdrs.length → R.hdr (mem (fm + L.shdrs)) j = F.shdrs[j]?
  site : mem (fm + L.site) = site

/-- Given such a pointer, the search says which loaded section has an address, if there is only one, and where the file was loaded. Missing: the function does not have
such a pointer (`search_never`). -/
theorem search_partial {mem : Nat → Nat} {L : Layout} {R : Refs} {fm : Nat} {F : FileLoad.File} {site : Nat} (hd : Describes mem L R fm F site) (obj : Nat)
    (hu : ∀ x ∈ F.shdrs, ∀ y ∈ F.shdrs, x.alloc = true → y.alloc = true → inR (secR F x) obj → inR (secR F y) obj → x.addr = y.addr ∧ x.size = y.size) :
    (∀ x ∈ F.shdrs, x.alloc = true → inR (secR F x) obj → search mem L R fm obj = some (some ⟨F.laddr + x.addr, x.size, 0, site⟩)) ∧
    ((∀ x ∈ F.shdrs, x.alloc = true → ¬ inR (secR F x) obj) → search mem L R fm obj = some none) := by
  have e : search mem L R fm obj = some ((FileLoad.sectionOf F obj).map (fun p => ⟨p.1, p.2, 0, site⟩)) := by
    unfold search
    rw [hd.ehdr, hd.l, Option.bind_some, scan_list F.laddr obj F.shdrs _ _ 0 (by omega) hd.shdrs, hd.site]
    rfl
  constructor
  · intro x hx ha hin
    have := ((FileLoad.sectionOf_iff F obj (F.laddr + x.addr) x.size hu).1).2 ⟨x, hx, ha, hin, rfl, rfl⟩
    rw [e, this]; rfl
  · intro hno
    have := ((FileLoad.sectionOf_iff F obj 0 0 hu).2).2 hno
    rw [e, this]; rfl

/-! ## Where the file is found -/

/-- Climbing never finds anything but a file above. -/
theorem toFile_sound {s : State} {n : Nat} : ∀ {k b : Nat}, toFile s k b = some n → n ≠ 0 ∧ s.alloc n = fileId ∧ Anc s n b := by
  intro k
  induction k with
  | zero => intro b h; cases h
  | succ k ih =>
    intro b h
    rw [toFile] at h
    split at h
    · cases h
    · rename_i hb
      split at h
      · rename_i ha
        cases h
        exact ⟨hb, ha, .refl⟩
      · obtain ⟨h1, h2, h3⟩ := ih h
        refine ⟨h1, h2, .step ?_ h3⟩
        intro h0
        rw [h0] at h
        cases k <;> simp [toFile] at h

/-- Under no file, the climb goes above the top. -/
theorem outside_file_faults {c : Config} {w : World} {b : Nat} (hs : w.pi.alloc b ≠ secId) (hno : ∀ n, Anc w.pi n b → w.pi.alloc n ≠ fileId) (L : Layout) (R : Refs)
    (pb obj : Nat) : getInfo c w L R pb b obj = none := by
  unfold getInfo
  by_cases hb : b = 0
  · rw [if_pos hb]
  · rw [if_neg hb, if_neg hs]
    cases e : toFile w.pi (c.nb + 1) b with
    | none => rfl
    | some n =>
      obtain ⟨_, h2, h3⟩ := toFile_sound e
      exact absurd h2 (hno n h3)

theorem nb_pos {c : Config} {align : Nat → Nat} {s : State} (hr : Reach c align s) {n : Nat} (h : Live s n) : 1 < c.nb := by
  have h0 := FileLoad.live_ne_zero hr h
  obtain ⟨_, kids, rank, hinv⟩ := reach_good hr
  have := hinv.lt n h
  omega

/-! ## Records by address -/

/-- What librunt gets for an address is its part of the record of the file that has the address, or NULL if no file has it. -/
theorem meta_by_addr {c : Config} {align : Nat → Nat} {s : State} (hr : Reach c align s) (hn : NoNest s) (addr : Nat)
    (hp : ∀ f, Live s f → s.alloc f = fileId → s.priv f ≠ 0) :
    (∀ f, Live s f → s.alloc f = fileId → Has s f addr → metaByAddr c s addr = some (s.priv f + OFF_M)) ∧
    ((∀ f, Live s f → Has s f addr → s.alloc f ≠ fileId) → metaByAddr c s addr = some 0) := by
  constructor
  · intro f hf ha hh
    obtain ⟨r, e, h1⟩ := (lookup_by_allocator hr addr fileId (by decide)).1
    have hrf : r = f := by
      rcases h1 with ⟨_, h2⟩ | ⟨h2, h3, h4, h5⟩
      · exact absurd ha (h2 f hf hh)
      · exact hn r f h2 hf h4 ha (h5 f hf hh ha)
    subst hrf
    unfold metaByAddr
    rw [e, Option.bind_some, if_neg (FileLoad.live_ne_zero hr hf)]
    have : (s.priv r != 0) = true := by simpa using hp r hf ha
    simp [assertIf, this]
  · intro hno
    unfold metaByAddr
    rw [FileLoad.fromRoot_none hr (by decide) hno]
    rfl

/-- A new record is all zeros in both parts and nothing else is changed; librunt's pointer is into it. -/
theorem alloc_meta {malloc mem : Nat → Nat} {offSegs segLen nsegs p : Nat} {mem' : Nat → Nat} (h : allocMeta malloc mem offSegs segLen nsegs = some (p, mem')) :
    OFF_M ≤ p ∧ p - OFF_M ≠ 0 ∧ p - OFF_M = malloc (OFF_M + offSegs + nsegs * segLen) ∧
      (∀ o, o < OFF_M → mem' (p - OFF_M + o) = 0) ∧ (∀ o, o < offSegs → mem' (p + o) = 0) ∧
      (∀ i o, i < nsegs → o < segLen → mem' (p + offSegs + i * segLen + o) = 0) ∧
      (∀ a, (a < p - OFF_M ∨ p + offSegs + nsegs * segLen ≤ a) → mem' a = mem a) := by
  unfold allocMeta at h
  simp only at h
  split at h
  · cases h
  · rename_i hz
    simp only [Option.some.injEq, Prod.mk.injEq] at h
    obtain ⟨rfl, rfl⟩ := h
    refine ⟨by omega, by omega, by omega, ?_, ?_, ?_, ?_⟩
    · intro o ho
      exact if_pos (by omega)
    · intro o ho
      exact if_pos (by omega)
    · intro i o hi ho
      have : (i + 1) * segLen ≤ nsegs * segLen := Nat.mul_le_mul_right _ hi
      rw [Nat.add_mul, Nat.one_mul] at this
      exact if_pos (by omega)
    · intro a ha
      exact if_neg (by omega)

/-! ## Sections -/

/-- Once a file is loaded, what is said of any of its sections is its start and its size, as bytes; and as the site, the word of the file's record at the offset that
librunt's field has in librunt's part. Missing: that is not where the site is (`site_never`). -/
theorem section_partial {c : Config} {align : Nat → Nat} {s : State} {F : FileLoad.File} {m lo hi : Nat} (hr : Reach c align s) (ho : LoadOk c s F m lo hi) :
    ∃ s', loadFile c s F = some s' ∧ ∀ (x : Shdr), x ∈ F.shdrs → x.size ≠ 0 → ∃ n, (∀ a, inR (secR F x) a → deepest c s' a = some n) ∧
      ∀ (w : World), w.pi = s' → ∀ (L : Layout) (R : Refs) (pb obj : Nat),
        getInfo c w L R pb n obj = some (some ⟨F.laddr + x.addr, x.size, pb, w.mem (F.info + L.site)⟩) := by
  obtain ⟨s', f, e, hr', _, hf, _, hsec, _⟩ := FileLoad.load_partial hr ho
  refine ⟨s', e, ?_⟩
  intro x hx h0
  obtain ⟨i, hi, hix⟩ := List.mem_iff_getElem.1 hx
  obtain ⟨n, g, j, p, _, hn, _, _, hg, _, _, hd⟩ := hsec i x (by rw [List.getElem?_eq_getElem hi, hix]) h0
  refine ⟨n, hd, ?_⟩
  intro w hw L R pb obj
  subst hw
  have n0 := FileLoad.live_ne_zero hr' hn.live
  have g0 := FileLoad.live_ne_zero hr' hg.live
  have f0 := FileLoad.live_ne_zero hr' hf.live
  unfold getInfo
  rw [if_neg n0, if_pos hn.alloc, hn.par, if_neg g0, hg.par, if_neg f0, hn.beg, hn.fin, hf.priv]
  have : F.laddr + x.addr + x.size - (F.laddr + x.addr) = x.size := by omega
  simp only [secR, this]

/-- The same for as long as the file is loaded, as far as the site goes. -/
theorem site_run {c : Config} {align : Nat → Nat} {w : World} {bs : List Bin} (h : Run c align w bs) {b : Bin} (hb : b ∈ bs)
    {p : FileLoad.Phdr} (hp : p ∈ b.file.phdrs) (hl : p.load = true) {x : Nat} (h1 : p.vaddr ≤ x) (h2 : x < p.vaddr + p.memsz)
    (hc : ∃ y ∈ b.file.shdrs, y.addr ≤ x ∧ x < y.addr + y.size) (L : Layout) (hL : L.site < b.recLen) (R : Refs) (pb obj : Nat) :
    ∃ n, deepest c w.pi (b.file.laddr + x) = some n ∧
      getInfo c w L R pb n obj = some (some ⟨w.pi.beg n, w.pi.fin n - w.pi.beg n, pb, b.words L.site⟩) := by
  obtain ⟨hr, hall⟩ := run_settled h
  obtain ⟨f, hs⟩ := hall b hb
  obtain ⟨i, hi⟩ := phdr_idx hp hl
  obtain ⟨g, hg, _, hx⟩ := hs.seg i p hi
  obtain ⟨n, hd, hn, ho⟩ := hx x h1 h2
  refine ⟨n, hd, ?_⟩
  rcases ho with ⟨_, hno⟩ | ⟨ha, hpar, _, _⟩
  · exact absurd hc hno
  · unfold getInfo
    rw [if_neg (FileLoad.live_ne_zero hr hn), if_pos ha, hpar, if_neg (FileLoad.live_ne_zero hr hg.live), hg.par,
      if_neg (FileLoad.live_ne_zero hr hs.live), hs.priv, hs.mem L.site hL]

/-- Whatever the layout of librunt's part, what is said of a section does not depend on the site that loaded the file. -/
theorem site_never {c : Config} {w : World} {L : Layout} {R : Refs} {pb b obj v : Nat} (hs : w.pi.alloc b = secId) :
    getInfo c { w with mem := upd w.mem (w.pi.priv (w.pi.par (w.pi.par b)) + OFF_M + L.site) v } L R pb b obj = getInfo c w L R pb b obj := by
  unfold getInfo
  simp only [hs, if_true]
  have : upd w.mem (w.pi.priv (w.pi.par (w.pi.par b)) + OFF_M + L.site) v (w.pi.priv (w.pi.par (w.pi.par b)) + L.site) =
      w.mem (w.pi.priv (w.pi.par (w.pi.par b)) + L.site) := by
    refine upd_ne ?_
    have : OFF_M = 48 := rfl
    omega
  rw [this]

/-- From a segment or a file, the fields are read from the start of the whole record; if what is there in place of the ELF header's address is NULL, as liballocs's own
fields are in a new record, that is a fault. -/
theorem search_never {c : Config} {align : Nat → Nat} {w : World} (hr : Reach c align w.pi) {b f : Nat} (hb : Live w.pi b)
    (hf : Live w.pi f) (hfa : w.pi.alloc f = fileId) (hbf : b = f ∨ (w.pi.par b = f ∧ w.pi.alloc b = segId)) (L : Layout) (R : Refs) (pb obj : Nat) :
    getInfo c w L R pb b obj = search w.mem L R (w.pi.priv f) obj ∧
      (R.shnum 0 = none → w.mem (w.pi.priv f + L.ehdr) = 0 → getInfo c w L R pb b obj = none) := by
  have b0 := FileLoad.live_ne_zero hr hb
  have f0 := FileLoad.live_ne_zero hr hf
  have hnb := nb_pos hr hf
  have hsec : w.pi.alloc b ≠ secId := by
    rcases hbf with rfl | ⟨_, h⟩
    · rw [hfa]; decide
    · rw [h]; decide
  have e : toFile w.pi (c.nb + 1) b = some f := by
    obtain ⟨k, hk⟩ : ∃ k, c.nb + 1 = k + 2 := ⟨c.nb - 1, by omega⟩
    rw [hk, toFile, if_neg b0]
    rcases hbf with rfl | ⟨h1, h2⟩
    · rw [if_pos hfa]
    · rw [if_neg (by rw [h2]; decide), h1, toFile, if_neg f0, if_pos hfa]
  have e2 : getInfo c w L R pb b obj = search w.mem L R (w.pi.priv f) obj := by
    unfold getInfo
    rw [if_neg b0, if_neg hsec, e, Option.bind_some]
  refine ⟨e2, ?_⟩
  intro h1 h2
  rw [e2]
  unfold search
  rw [h2, h1, Option.bind_none]

/-! ## Cases -/

/-- librunt's part with the file's name, the link map, the site, and later the headers. -/
def exLayout : Layout := ⟨8, 40, 32, 16⟩

/-- Link maps at 0x7000, ELF headers at 0x7100 and tables at 0x7200. -/
def exRefs (F : FileLoad.File) : Refs where
  lAddr p := if p = 0x7000 then some F.laddr else none
  shnum p := if p = 0x7100 then some F.shdrs.length else none
  hdr p i := if p = 0x7200 then F.shdrs[i]? else none

/-- A record at 0x100: liballocs's own part is a handle and otherwise zero. -/
def exMem (a : Nat) : Nat :=
  if a = 0x100 then 0x5555 else if a = 0x100 + 48 + 8 then 0x7000 else if a = 0x100 + 48 + 16 then 0xabcd
  else if a = 0x100 + 48 + 32 then 0x7200 else if a = 0x100 + 48 + 40 then 0x7100 else 0

/-- The pages with the file of other cases loaded, whose record this is. -/
def exAsk (b obj : Nat) : Option (Option (Option Query.Rec)) :=
  after FileLoad.cfg FileLoad.mapping (fun s => (loadFile FileLoad.cfg s exBin.file).map (fun s =>
    getInfo FileLoad.cfg ⟨s, fun _ => [], fun _ => none, exMem⟩ exLayout (exRefs exBin.file) 9 b obj))

/-- The sections, by their big allocations: start and size are right; the site, 0xabcd, is not said. -/
example : [6, 7, 8].map (fun b => exAsk b 0) = [some (some (some ⟨0x400100, 0x700, 9, 0⟩)), some (some (some ⟨0x400800, 0x400, 9, 0⟩)),
    some (some (some ⟨0x402000, 0x800, 9, 0⟩))] := by decide +kernel
/-- Segments, the file, the mapping, nothing. -/
example : [4, 5, 3, 2, 0].map (fun b => exAsk b 0x400800) = [some none, some none, some none, some none, some none] := by decide +kernel
/-- The search with librunt's pointer. -/
example : [0x400100, 0x4007ff, 0x400800, 0x400bff, 0x400c00].map (search exMem exLayout (exRefs exBin.file) (0x100 + 48)) =
    [some (some ⟨0x400100, 0x700, 0, 0xabcd⟩), some (some ⟨0x400100, 0x700, 0, 0xabcd⟩), some (some ⟨0x400800, 0x400, 0, 0xabcd⟩),
      some (some ⟨0x400800, 0x400, 0, 0xabcd⟩), some none] := by decide +kernel
theorem exMem_describes : Describes exMem exLayout (exRefs exBin.file) (0x100 + 48) exBin.file 0xabcd := by
  refine ⟨by decide +kernel, by decide +kernel, ?_, by decide +kernel⟩
  intro j _
  simp [exRefs, exMem, exLayout]
/-- Records by address: in the file, in a hole of it, and outside. -/
example : after FileLoad.cfg FileLoad.mapping (fun s => (loadFile FileLoad.cfg s exBin.file).bind (fun s =>
    [0x400000, 0x401900, 0x403fff, 0x404000, 0x600000].mapM (metaByAddr FileLoad.cfg s))) = some [0x130, 0x130, 0x130, 0, 0] := by decide +kernel
example : (allocMeta (fun _ => 0x100) (fun _ => 7) 96 32 2).map (fun r => (r.1, [0xff, 0x100, 0x130, 0x130 + 96 + 63, 0x130 + 96 + 64].map r.2)) =
    some (0x130, [7, 0, 0, 0, 7]) := by decide +kernel
example : (allocMeta (fun _ => 0) (fun _ => 7) 96 32 2).isNone = true := by decide +kernel

end Liballocs.SectionInfo
