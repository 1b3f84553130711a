import Verif.Model.SitePipe
import Verif.Props.ObjdumpMeta
import Verif.Props.MergeSites
import Verif.Props.Allocsites
import Verif.Props.HeapObj
import Verif.Model.CcArgs
/-! # C149: a heap object has the type that its source line was recorded with -/
namespace Liballocs.SitePipe
open MergeSites (Text pad6 le lt Call Rec Plain Trim written)
open CcArgs
open ObjdumpMeta (Insn Place Sect reports report insnsOf Out)

/-! ## Specification -/

/-- Printable: neither blank nor a control character. -/
def Printable (t : Text) : Prop := ∀ c ∈ t, 32 < c.toNat

/-- An object file: its name, its disassembly and the records of its sources. -/
structure Source where
  obj : Text
  parts : List Sect
  recs : List Rec

/-- A call that the disassembly shows: it comes from lines of a file, from `first` up to but without `last`, and returns to `ret`. -/
structure Shown (s : Source) (file : Text) (first last ret : Nat) : Prop where
  ex : ∃ (pre : List (Insn × Place)) (x y : Insn × Place) (post : List (Insn × Place)), insnsOf s.parts = pre ++ x :: y :: post ∧
    x.1.alloc = true ∧ x.2.loc = some (file, first) ∧ last = first + max 1 x.2.shown ∧ ret = y.1.addr

/-- Object files that the tools can deal with. -/
structure Source.Good (s : Source) : Prop where
  name : Printable s.obj ∧ s.obj ≠ []
  parts : ∀ x ∈ s.parts, ∀ g ∈ x.groups, g.Good
  syms : ∀ i ∈ insnsOf s.parts, Printable i.1.sym ∧ i.1.sym ≠ []
  files : ∀ i ∈ insnsOf s.parts, ∀ l, i.2.loc = some l → Printable l.1 ∧ l.1 ≠ [] ∧ l.2 + max 1 i.2.shown < 1000000
  shown : ∀ i ∈ insnsOf s.parts, i.2.loc = none → i.2.shown < 999999
  addrs : ((insnsOf s.parts).map fun i => i.1.addr).Nodup
  small : ∀ i ∈ insnsOf s.parts, i.1.addr < 2 ^ 64
  recs : ∀ r ∈ s.recs, r.Good
  order : s.recs.Pairwise fun a b => lt a.file b.file = true ∨ (a.file = b.file ∧ a.line ≤ b.line)

/-- The tables are what the tools may make of the object files. -/
def Made (typeOf : Text → Option Nat) (s : Source) (m : Module) : Prop :=
  Makes (sites typeOf s.obj (ObjdumpMeta.listing s.parts) (s.recs.map Rec.text)) m.table

/-! ## The order of lines -/

theorem le_tab : ∀ {f g s t : Text}, Printable f → Printable g → le (f ++ '\t' :: s) (g ++ '\t' :: t) = true →
    lt f g = true ∨ (f = g ∧ le s t = true)
  | [], [], s, t, _, _, h => by
    right
    simp only [List.nil_append, le, Bool.or_eq_true, Bool.and_eq_true, decide_eq_true_eq, Nat.lt_irrefl, false_or, true_and] at h
    exact ⟨rfl, h⟩
  | [], b :: g, s, t, _, _, _ => by left; simp [lt, le]
  | a :: f, [], s, t, hf, _, h => by
    exfalso
    have := hf a (by simp)
    simp only [List.cons_append, List.nil_append, le, Bool.or_eq_true, Bool.and_eq_true, decide_eq_true_eq] at h
    rcases h with h | ⟨rfl, _⟩
    · have e : ('\t' : Char).toNat = 9 := rfl
      omega
    · have e : ('\t' : Char).toNat = 9 := rfl
      omega
  | a :: f, b :: g, s, t, hf, hg, h => by
    simp only [List.cons_append, le, Bool.or_eq_true, Bool.and_eq_true, decide_eq_true_eq] at h
    rcases h with h | ⟨rfl, h⟩
    · left
      have hne : a ≠ b := by rintro rfl; omega
      simp [lt, le, hne, h]
    · rcases le_tab (fun c hc => hf c (by simp [hc])) (fun c hc => hg c (by simp [hc])) h with h | ⟨rfl, h2⟩
      · left
        simp only [lt, Bool.and_eq_true, Bool.not_eq_true', decide_eq_false_iff_not] at h
        simp [lt, le, h.1, h.2]
      · exact .inr ⟨rfl, h2⟩

theorem digits_printable : ∀ (k n : Nat), Printable (MergeSites.rdigs k n)
  | 0, _ => fun c h => by cases h
  | k + 1, n => fun c h => by
    rw [MergeSites.rdigs] at h
    rcases List.mem_cons.mp h with rfl | h
    · have : ∀ d : Fin 10, 32 < (Char.ofNat (48 + d.val)).toNat := by decide
      exact this ⟨n % 10, Nat.mod_lt _ (by decide)⟩
    · exact digits_printable k _ c h

theorem pad6_printable {n : Nat} (h : n < 1000000) : Printable (pad6 n) := by
  rw [MergeSites.pad6_eq h]
  intro c hc
  exact digits_printable 6 n c (List.mem_reverse.mp hc)

/-- A line of the script that can be sorted. -/
def OutOk (o : Out) : Prop := Printable o.file ∧ o.file ≠ [] ∧ o.first < 1000000 ∧ o.last < 1000000 ∧ o.first ≤ o.last ∧
  Printable o.sym ∧ o.sym ≠ [] ∧ o.ret < 2 ^ 64

theorem key_order {a b : Out} (ha : OutOk a) (hb : OutOk b) (h : le (key a) (key b) = true) :
    lt a.file b.file = true ∨ (a.file = b.file ∧ a.first ≤ b.first) := by
  rcases le_tab ha.1 hb.1 h with h | ⟨h1, h⟩
  · exact .inl h
  · right
    refine ⟨h1, ?_⟩
    have hp := MergeSites.pad_order_partial ha.2.2.1 hb.2.2.1
    rcases le_tab (pad6_printable ha.2.2.1) (pad6_printable hb.2.2.1) h with h | ⟨h, _⟩
    · exact Nat.le_of_lt (hp.2.1.1 h)
    · exact Nat.le_of_eq (hp.2.2.1 h)

theorem sorted_order {l : List Out} (h : ∀ o ∈ l, OutOk o) :
    (sorted l).Pairwise fun a b => lt a.file b.file = true ∨ (a.file = b.file ∧ a.first ≤ b.first) := by
  have hp : (sorted l).Pairwise fun a b => le (key a) (key b) = true := by
    refine List.pairwise_mergeSort (le := fun a b => le (key a) (key b)) (fun a b c h1 h2 => MergeSites.le_trans h1 h2) (fun a b => ?_) l
    rcases MergeSites.le_total (key a) (key b) with h | h <;> simp [h]
  refine hp.imp_of_mem ?_
  intro a b ha hb hab
  exact key_order (h a (List.mem_mergeSort.1 ha)) (h b (List.mem_mergeSort.1 hb)) hab

/-! ## Addresses -/

theorem digitVal_digit {d : Nat} (h : d < 16) : digitVal (SegMeta.digit d) = some d := by
  have : ∀ d : Fin 16, digitVal (SegMeta.digit d.val) = some d.val := by decide
  exact this ⟨d, h⟩

theorem unhexFrom_append : ∀ (s t : Text) (n : Nat), unhexFrom n (s ++ t) = match unhexFrom n s with | none => none | some m => unhexFrom m t
  | [], _, _ => rfl
  | c :: s, t, n => by
    simp only [List.cons_append, unhexFrom]
    cases digitVal c with
    | none => rfl
    | some d => exact unhexFrom_append s t _

theorem unhex_hexN : ∀ (k n : Nat), n < 16 ^ k → unhexFrom 0 (SegMeta.hexN k n) = some n
  | 0, n, h => by
    have : n = 0 := by simpa using h
    subst this; rfl
  | k + 1, n, h => by
    rw [SegMeta.hexN]
    split
    · next h1 => simp [unhexFrom, digitVal_digit h1]
    · rw [unhexFrom_append, unhex_hexN k (n / 16) (by rw [Nat.pow_succ] at h; omega)]
      simp only [unhexFrom, digitVal_digit (Nat.mod_lt n (by decide : 16 > 0))]
      congr 1; omega

theorem unhex_hex {n : Nat} (h : n < 2 ^ 64) : unhex ('0' :: 'x' :: SegMeta.hex n) = some n := by
  rw [unhex]
  exact unhex_hexN 16 n (by omega)

theorem hex_printable : ∀ (k n : Nat), Printable (SegMeta.hexN k n)
  | 0, _ => fun c h => by cases h
  | k + 1, n => by
    have hd : ∀ d, d < 16 → 32 < (SegMeta.digit d).toNat := by
      intro d h
      have : ∀ d : Fin 16, 32 < (SegMeta.digit d.val).toNat := by decide
      exact this ⟨d, h⟩
    rw [SegMeta.hexN]
    split
    · next h1 => intro c hc; rw [List.mem_singleton.1 hc]; exact hd n h1
    · intro c hc
      rcases List.mem_append.1 hc with hc | hc
      · exact hex_printable k _ c hc
      · rw [List.mem_singleton.1 hc]; exact hd _ (Nat.mod_lt _ (by decide))

/-! ## The merge -/

theorem plain_of {t : Text} (h : Printable t) (hn : t ≠ []) : Plain t := by
  refine ⟨hn, fun c hc => ?_⟩
  have := h c hc
  unfold MergeSites.blank
  rw [Bool.or_eq_false_iff, decide_eq_false_iff_not, decide_eq_false_iff_not]
  constructor
  · rintro rfl; exact absurd this (by decide)
  · rintro rfl; exact absurd this (by decide)

/-- A line as the merge reads it. -/
def call (obj : Text) (o : Out) : Call := ⟨obj, o.sym, '0' :: 'x' :: SegMeta.hex o.ret, o.file, o.first, o.last, []⟩

theorem line_eq (obj : Text) (o : Out) : line obj o = (call obj o).text := by
  simp [line, key, call, Call.text, written, FAILED]

theorem call_good {obj : Text} (hn : Printable obj ∧ obj ≠ []) {o : Out} (h : OutOk o) : (call obj o).Good := by
  obtain ⟨h1, h2, h3, h4, h5, h6, h7, h8⟩ := h
  refine ⟨plain_of hn.1 hn.2, plain_of h6 h7, plain_of ?_ (by simp [call]), plain_of h1 h2, ⟨rfl, rfl⟩, h5, h4⟩
  intro c hc
  simp only [call, List.mem_cons] at hc
  rcases hc with rfl | rfl | hc
  · decide
  · decide
  · exact hex_printable 16 _ c hc

/-- The first record in the range of a line. -/
def wantedOut (o : Out) (rs : List Rec) : Option Text :=
  (rs.find? fun r => decide (r.file = o.file ∧ o.first ≤ r.line ∧ r.line < o.last)).map Rec.rest

theorem out_ok {s : Source} (h : s.Good) : ∀ o ∈ reports (insnsOf s.parts), OutOk o := by
  intro o ho
  obtain ⟨pre, x, y, post, e, _, rfl⟩ := (ObjdumpMeta.mem_reports _ _).1 ho
  have hx : x ∈ insnsOf s.parts := by rw [e]; simp
  have hy : y ∈ insnsOf s.parts := by rw [e]; simp
  have hs := h.syms y hy
  have ha := h.small y hy
  unfold report OutOk
  cases hl : x.2.loc with
  | none =>
    have := h.shown x hx hl
    refine ⟨?_, by simp, by simp, ?_, ?_, hs.1, hs.2, ha⟩
    · intro c hc
      simp only [List.mem_cons, List.not_mem_nil, or_false, or_self] at hc
      subst hc; decide
    · simp only; omega
    · simp only; omega
  | some l =>
    have := h.files x hx l hl
    refine ⟨this.1, this.2.1, ?_, this.2.2, ?_, hs.1, hs.2, ha⟩
    · simp only; have := this.2.2; omega
    · simp only; omega

/-- The sites that the tool is given. -/
theorem sites_eq {typeOf : Text → Option Nat} {s : Source} (h : s.Good) :
    sites typeOf s.obj (ObjdumpMeta.listing s.parts) (s.recs.map Rec.text) =
      (sorted (reports (insnsOf s.parts))).map fun o =>
        ⟨s.obj, o.ret, match wantedOut o s.recs with | none => none | some t => typeOf t⟩ := by
  have hok : ∀ o ∈ sorted (reports (insnsOf s.parts)), OutOk o := fun o ho => out_ok h o (List.mem_mergeSort.1 ho)
  unfold sites
  rw [ObjdumpMeta.script_partial s.parts h.parts]
  have hl : (sorted (reports (insnsOf s.parts))).map (line s.obj) = ((sorted (reports (insnsOf s.parts))).map (call s.obj)).map Call.text := by
    rw [List.map_map]
    exact List.map_congr_left fun o _ => line_eq s.obj o
  rw [hl, MergeSites.script_partial ?_ h.recs ?_ h.order]
  · rw [List.map_map, List.filterMap_map]
    have : ∀ l : List Out, (∀ o ∈ l, OutOk o) →
        l.filterMap (readSite typeOf ∘ ((fun c => (c.toObj, MergeSites.wanted c s.recs)) ∘ call s.obj)) =
          l.map fun o => ⟨s.obj, o.ret, match wantedOut o s.recs with | none => none | some t => typeOf t⟩ := by
      intro l
      induction l with
      | nil => intro _; rfl
      | cons o l ih =>
        intro ho
        rw [List.filterMap_cons_some (b := ⟨s.obj, o.ret, match wantedOut o s.recs with | none => none | some t => typeOf t⟩), List.map_cons,
          ih fun o h => ho o (by simp [h])]
        show readSite typeOf ((call s.obj o).toObj, MergeSites.wanted (call s.obj o) s.recs) = _
        unfold readSite
        have hu : unhex (call s.obj o).toObj.addr = some o.ret := unhex_hex (ho o (by simp)).2.2.2.2.2.2.2
        rw [hu]
        rfl
    exact this _ hok
  · intro c hc
    obtain ⟨o, ho, rfl⟩ := List.mem_map.1 hc
    exact call_good h.name (hok o ho)
  · rw [List.pairwise_map]
    exact sorted_order (out_ok h)

/-! ## The table -/

/-- The sites of an object file are at different addresses. -/
theorem sites_nodup {typeOf : Text → Option Nat} {s : Source} (h : s.Good) :
    ((sites typeOf s.obj (ObjdumpMeta.listing s.parts) (s.recs.map Rec.text)).map Site.addr).Nodup := by
  rw [sites_eq h, List.map_map]
  show ((sorted (reports (insnsOf s.parts))).map fun o => o.ret).Nodup
  have hp : ((sorted (reports (insnsOf s.parts))).map fun o => o.ret).Perm ((reports (insnsOf s.parts)).map fun o => o.ret) :=
    (List.mergeSort_perm _ _).map _
  rw [hp.nodup_iff]
  have key : ∀ l : List (Insn × Place), ((reports l).map fun o => o.ret).Sublist ((l.drop 1).map fun i => i.1.addr) := by
    intro l
    induction l with
    | nil => exact .slnil
    | cons x l ih =>
      cases l with
      | nil => exact .slnil
      | cons y l =>
        rw [reports]
        simp only [List.drop_succ_cons, List.drop_zero, List.map_cons] at ih ⊢
        split
        · rw [List.singleton_append, List.map_cons]
          exact ih.cons_cons _
        · rw [List.nil_append]
          exact ih.cons _
  exact ((key _).trans ((List.drop_sublist 1 _).map _)).nodup h.addrs

theorem mem_entries : ∀ {l : List Site} {a t : Nat}, (a, t) ∈ entries l ↔ ∃ s ∈ l, s.addr = a ∧ s.type = some t
  | [], a, t => by simp [entries]
  | s :: l, a, t => by
    rw [entries]
    cases hs : s.type with
    | none =>
      simp only [mem_entries (l := l), List.mem_cons, exists_eq_or_imp, hs, reduceCtorEq, and_false, false_or]
    | some u =>
      simp only [List.mem_cons, mem_entries (l := l), exists_eq_or_imp, hs, Prod.mk.injEq, Option.some.injEq]
      constructor
      · rintro (⟨rfl, rfl⟩ | h)
        · exact .inl ⟨rfl, rfl⟩
        · exact .inr h
      · rintro (⟨rfl, rfl⟩ | h)
        · exact .inl ⟨rfl, rfl⟩
        · exact .inr h

theorem entries_addrs : ∀ l : List Site, ((entries l).map fun e => e.1).Sublist (l.map Site.addr)
  | [] => .slnil
  | s :: l => by
    rw [entries]
    cases s.type with
    | none => exact (entries_addrs l).cons _
    | some t => exact (entries_addrs l).cons_cons _

/-- Tables are sorted, and have just the sites with types. -/
theorem made_table {typeOf : Text → Option Nat} {s : Source} (h : s.Good) {m : Module} (hm : Made typeOf s m) {t : List (Nat × Nat)}
    (ht : m.table = some t) :
    (t.map fun e => e.1).Pairwise (· < ·) ∧
      ∀ a u, (a, u) ∈ t ↔ ∃ x ∈ sites typeOf s.obj (ObjdumpMeta.listing s.parts) (s.recs.map Rec.text), x.addr = a ∧ x.type = some u := by
  unfold Made at hm
  rw [ht] at hm
  obtain ⟨_, l', ⟨h1, h2⟩, rfl⟩ := hm
  have hobj : ∀ x ∈ sites typeOf s.obj (ObjdumpMeta.listing s.parts) (s.recs.map Rec.text), x.obj = s.obj := by
    rw [sites_eq h]
    intro x hx
    obtain ⟨o, _, rfl⟩ := List.mem_map.1 hx
    rfl
  have hn : (l'.map Site.addr).Nodup := ((h1.map Site.addr).nodup_iff).2 (sites_nodup h)
  have hs : (l'.map Site.addr).Pairwise (· < ·) := by
    rw [List.pairwise_map]
    rw [List.Nodup, List.pairwise_map] at hn
    refine (h2.and hn).imp_of_mem ?_
    intro a b ha hb ⟨hab, hne⟩
    have e1 := hobj a (h1.mem_iff.1 ha)
    have e2 := hobj b (h1.mem_iff.1 hb)
    simp only [siteLt, e1, e2, decide_true, Bool.true_and, Bool.or_eq_false_iff, decide_eq_false_iff_not] at hab
    have := hab.2
    omega
  refine ⟨hs.sublist (entries_addrs l'), fun a u => ?_⟩
  rw [mem_entries]
  constructor
  · rintro ⟨x, hx, e⟩; exact ⟨x, h1.mem_iff.1 hx, e⟩
  · rintro ⟨x, hx, e⟩; exact ⟨x, h1.mem_iff.2 hx, e⟩

/-- A call that is shown, and for whose lines there are records of just one type, is in the table with that type. -/
theorem in_table {typeOf : Text → Option Nat} {s : Source} (h : s.Good) {m : Module} (hm : Made typeOf s m)
    {file : Text} {first last ret : Nat} (hc : Shown s file first last ret) {r : Rec} (hr : r ∈ s.recs)
    (hin : r.file = file ∧ first ≤ r.line ∧ r.line < last)
    (hone : ∀ r' ∈ s.recs, r'.file = file → first ≤ r'.line → r'.line < last → typeOf r'.rest = typeOf r.rest)
    {u : Nat} (hu : typeOf r.rest = some u) : ∃ t, m.table = some t ∧ (ret, u) ∈ t := by
  obtain ⟨pre, x, y, post, e, hx, hl, hlast, hret⟩ := hc.ex
  have ho : report x.1 x.2 y.1 ∈ reports (insnsOf s.parts) := (ObjdumpMeta.mem_reports _ _).2 ⟨pre, x, y, post, e, hx, rfl⟩
  have hfile : (report x.1 x.2 y.1).file = file := by simp [report, hl]
  have hfirst : (report x.1 x.2 y.1).first = first := by simp [report, hl]
  have hlst : (report x.1 x.2 y.1).last = last := by simp [report, hl, hlast]
  have hret' : (report x.1 x.2 y.1).ret = ret := by rw [hret]; rfl
  have hmem : (⟨s.obj, ret, some u⟩ : Site) ∈ sites typeOf s.obj (ObjdumpMeta.listing s.parts) (s.recs.map Rec.text) := by
    rw [sites_eq h]
    refine List.mem_map.2 ⟨report x.1 x.2 y.1, List.mem_mergeSort.2 ho, ?_⟩
    rw [hret']
    congr 1
    unfold wantedOut
    rw [hfile, hfirst, hlst]
    cases hf : s.recs.find? (fun r => decide (r.file = file ∧ first ≤ r.line ∧ r.line < last)) with
    | none => rw [List.find?_eq_none] at hf; exact absurd (by simpa using hin) (hf r hr)
    | some r' =>
      have h1 := List.find?_some hf
      rw [decide_eq_true_eq] at h1
      simp only [Option.map_some]
      rw [hone r' (List.mem_of_find?_eq_some hf) h1.1 h1.2.1 h1.2.2, hu]
  cases ht : m.table with
  | none =>
    unfold Made at hm
    rw [ht] at hm
    simp only [Makes] at hm
    rw [hm] at hmem
    cases hmem
  | some t => exact ⟨t, rfl, ((made_table h hm ht).2 ret u).2 ⟨_, hmem, rfl, rfl⟩⟩

/-! ## The run-time look-up -/

/-- The files that are loaded, each with the object file that it was made from: in different places, and with the table made for it. -/
structure Loaded (typeOf : Text → Option Nat) (fs : List (Source × Module)) : Prop where
  good : ∀ f ∈ fs, f.1.Good
  made : ∀ f ∈ fs, Made typeOf f.1 f.2
  inside : ∀ f ∈ fs, ∀ i ∈ insnsOf f.1.parts, f.2.lo ≤ f.2.base + i.1.addr ∧ f.2.base + i.1.addr < f.2.hi
  apart : fs.Pairwise fun f g => f.2.hi ≤ g.2.lo ∨ g.2.hi ≤ f.2.lo
  high : ∀ f ∈ fs, 0x7fff < f.2.lo
  few : fs.length ≤ 256
  sites : (fs.map fun f => (reports (insnsOf f.1.parts)).length).sum ≤ 65535

theorem site_of {typeOf : Text → Option Nat} {s : Source} (h : s.Good) {x : Site}
    (hx : x ∈ sites typeOf s.obj (ObjdumpMeta.listing s.parts) (s.recs.map Rec.text)) : ∃ i ∈ insnsOf s.parts, x.addr = i.1.addr := by
  rw [sites_eq h] at hx
  obtain ⟨o, ho, rfl⟩ := List.mem_map.1 hx
  obtain ⟨pre, x, y, post, e, _, rfl⟩ := (ObjdumpMeta.mem_reports _ _).1 (List.mem_mergeSort.1 ho)
  exact ⟨y, by rw [e]; simp, rfl⟩

theorem table_length {typeOf : Text → Option Nat} {s : Source} (h : s.Good) {m : Module} (hm : Made typeOf s m) :
    Allocsites.nSites m.file ≤ (reports (insnsOf s.parts)).length := by
  unfold Allocsites.nSites Module.file
  cases ht : m.table with
  | none => simp
  | some t =>
    unfold Made at hm
    rw [ht] at hm
    obtain ⟨_, l', ⟨h1, _⟩, rfl⟩ := hm
    have e1 := (entries_addrs l').length_le
    have e2 := h1.length_eq
    rw [sites_eq h] at e2
    simp only [List.length_map, sorted, List.length_mergeSort] at e1 e2
    simp only [Option.map_some, Option.getD_some, List.length_map]
    omega

theorem sum_le {α : Type} {f g : α → Nat} : ∀ {l : List α}, (∀ a ∈ l, f a ≤ g a) → (l.map f).sum ≤ (l.map g).sum
  | [], _ => Nat.le_refl _
  | a :: l, h => by
    simp only [List.map_cons, List.sum_cons]
    have := h a (by simp)
    have := sum_le (l := l) fun b hb => h b (by simp [hb])
    omega

theorem filesOk {typeOf : Text → Option Nat} {fs : List (Source × Module)} (h : Loaded typeOf fs) :
    Allocsites.FilesOk (fs.map fun f => f.2.file) := by
  refine ⟨?_, ?_, ?_, ?_⟩
  · intro g hg
    obtain ⟨f, hf, rfl⟩ := List.mem_map.1 hg
    cases ht : f.2.table with
    | none => constructor <;> simp [Module.file, ht]
    | some t =>
      have hm := made_table (h.good f hf) (h.made f hf) ht
      constructor
      · simpa [Module.file, ht] using hm.1
      · intro v hv
        simp only [Module.file, ht, Option.map_some, Option.getD_some] at hv
        obtain ⟨⟨a, u⟩, he, rfl⟩ := List.mem_map.1 hv
        obtain ⟨x, hx, e, _⟩ := (hm.2 a u).1 he
        obtain ⟨i, hi, e'⟩ := site_of (h.good f hf) hx
        have := h.inside f hf i hi
        simp only [Module.file]
        rw [← e, e']
        exact this
  · rw [List.pairwise_map]
    exact h.apart
  · refine Nat.le_trans (List.length_filter_le _ _) ?_
    rw [List.length_map]
    exact h.few
  · rw [List.map_map]
    exact Nat.le_trans (sum_le fun f hf => table_length (h.good f hf) (h.made f hf)) h.sites

theorem find_module : ∀ {fs : List (Source × Module)}, (fs.Pairwise fun f g => f.2.hi ≤ g.2.lo ∨ g.2.hi ≤ f.2.lo) →
    ∀ {f : Source × Module}, f ∈ fs → ∀ {a : Nat}, f.2.lo ≤ a ∧ a < f.2.hi →
      (fs.map (·.2)).find? (fun m => decide (m.lo ≤ a ∧ a < m.hi)) = some f.2
  | [], _, _, h, _, _ => by cases h
  | g :: fs, hp, f, hf, a, ha => by
    rw [List.pairwise_cons] at hp
    rw [List.map_cons]
    rcases List.mem_cons.1 hf with rfl | hf
    · rw [List.find?_cons_of_pos (by simpa using ha)]
    · have := hp.1 f hf
      rw [List.find?_cons_of_neg (by rw [decide_eq_true_eq]; omega)]
      exact find_module hp.2 hf ha

theorem typeAt_cases (link : Nat → BitVec 64) (ms : List Module) (s : Allocsites.State) (a : Nat) :
    typeAt link ms s a = 0#64 ∨ ∃ t, typeAt link ms s a = link t := by
  unfold typeAt
  split
  · exact .inl rfl
  · unfold entryType
    split
    · exact .inl rfl
    · split
      · exact .inl rfl
      · split
        · exact .inl rfl
        · exact .inr ⟨_, rfl⟩

/-- Loading succeeds, and the type at a call that is in the table of its file is the one in the table. -/
theorem typeAt_site {typeOf : Text → Option Nat} {fs : List (Source × Module)} (h : Loaded typeOf fs) (link : Nat → BitVec 64) :
    ∃ s, Allocsites.loadAll ⟨[], []⟩ (fs.map fun f => f.2.file) = .ok s ∧ typeAt link (fs.map (·.2)) s 0x7fff = 0#64 ∧
      ∀ f ∈ fs, ∀ t, f.2.table = some t → ∀ a u, (a, u) ∈ t → typeAt link (fs.map (·.2)) s (f.2.base + a) = link u := by
  have hok := filesOk h
  obtain ⟨s, hs, hI⟩ := Allocsites.loadAll_ok Allocsites.inv_init (fs.map fun f => f.2.file) (by simpa using hok.few) (by simpa using hok.small)
  rw [List.nil_append] at hI
  refine ⟨s, hs, ?_, ?_⟩
  · have : Allocsites.getFile s 0x7fff = none := by
      unfold Allocsites.getFile
      rw [List.find?_eq_none]
      intro p hp
      have : p.1 ∈ fs.map fun f => f.2.file := by rw [← hI.files]; exact List.mem_map_of_mem hp
      obtain ⟨f, hf, e⟩ := List.mem_map.1 this
      have := h.high f hf
      rw [← e]
      have e1 : f.2.file.lo = f.2.lo := rfl
      rw [decide_eq_true_eq, e1]
      omega
    unfold typeAt Allocsites.entryAt
    rw [this]
  · intro f hf t ht a u hau
    obtain ⟨i, hi⟩ := List.mem_iff_getElem?.1 hau
    have hss : f.2.file.sites = some (t.map fun e => e.1) := by simp [Module.file, ht]
    have hv : (t.map fun e => e.1)[i]? = some a := by rw [List.getElem?_map, hi]; rfl
    obtain ⟨k, e, _, _, _, _, h5, _⟩ := Allocsites.entryAt_site hI hok (List.mem_map.2 ⟨f, hf, rfl⟩) hss hv
    have hb : f.2.file.base = f.2.base := rfl
    rw [hb] at h5
    have hm := made_table (h.good f hf) (h.made f hf) ht
    obtain ⟨x, hx, e1, _⟩ := (hm.2 a u).1 hau
    obtain ⟨j, hj, e2⟩ := site_of (h.good f hf) hx
    have hin := h.inside f hf j hj
    rw [← e2, e1] at hin
    unfold typeAt
    rw [h5]
    simp only [entryType]
    rw [find_module h.apart hf hin]
    simp only [ht, hi]

/-! ## From the source to a query -/

/-- **C149** (partial: the call is followed by another instruction; calls without a type get the type of the call before them, so only what is recorded
is right; and as for C121, C122, C31 and C148). Take any files, disassembled, merged with the records of their sources, and loaded with the tables that are
made for them. Take an object that a call shown in one of them has made, for the lines of which just one type is recorded. Then, whatever
happened before, a query of any address inside the object reports that type, if it is loaded and no other type was given to the object. -/
theorem typed_partial {typeOf : Text → Option Nat} {fs : List (Source × Module)} (h : Loaded typeOf fs) {link : Nat → BitVec 64}
    (hlink : ∀ t, link t = 0#64 ∨ HeapObj.GoodType (link t)) (ndebug : Bool) :
    ∃ st, Allocsites.loadAll ⟨[], []⟩ (fs.map fun f => f.2.file) = .ok st ∧
      ∀ {lo hi : Nat}, 2 ^ 18 ≤ lo → hi ≤ lo + 2 ^ 36 - 1024 → hi < 2 ^ 64 → ∀ (mem : Detour.Mem) {es : List HeapObj.Ev} {L : List HeapObj.Obj},
        HeapObj.History (build ndebug link (fs.map (·.2)) st) lo hi [] es L →
        ∃ s, HeapObj.run (build ndebug link (fs.map (·.2)) st) (HeapObj.fresh lo mem) es = some s ∧
          ∀ o ∈ L, HeapObj.Readable o.c → o.set = none → ∀ a, HeapObj.Inside o.c a →
            ∀ f ∈ fs, ∀ (file : Text) (first last ret : Nat), Shown f.1 file first last ret → o.site.toNat = f.2.base + ret →
              ∀ r ∈ f.1.recs, (r.file = file ∧ first ≤ r.line ∧ r.line < last) →
                (∀ r' ∈ f.1.recs, r'.file = file → first ≤ r'.line → r'.line < last → typeOf r'.rest = typeOf r.rest) →
                ∀ u, typeOf r.rest = some u →
                  ∃ i s', HeapObj.getInfo (build ndebug link (fs.map (·.2)) st) s a = .ok (i, s') ∧ i.base = o.c.start ∧
                    i.type = if link u = 0#64 then none else some (link u) := by
  obtain ⟨st, hst, h0, ht⟩ := typeAt_site h link
  refine ⟨st, hst, ?_⟩
  intro lo hi hlo hsz hhi mem es L hH
  have hB : HeapObj.GoodBuild (build ndebug link (fs.map (·.2)) st) := by
    constructor
    · intro x
      rcases typeAt_cases link (fs.map (·.2)) st x.toNat with e | ⟨t, e⟩
      · exact .inl e
      · simp only [build]; rw [e]; exact hlink t
    · exact h0
  obtain ⟨s, hs, hq⟩ := HeapObj.heap_object_partial hlo hsz hhi hB mem hH
  refine ⟨s, hs, ?_⟩
  intro o ho hr hset a ha f hf file first last ret hc hsite r hrm hin hone u hu
  obtain ⟨i, s', e1, e2, _, _, e3, _⟩ := hq o ho hr a ha
  refine ⟨i, s', e1, e2, ?_⟩
  obtain ⟨t, htab, hmem⟩ := in_table (h.good f hf) (h.made f hf) hc hrm hin hone hu
  have hfind : (build ndebug link (fs.map (·.2)) st).find o.site = link u := by
    simp only [build]
    rw [hsite]
    exact ht f hf t htab ret u hmem
  rw [e3]
  unfold HeapObj.Obj.type
  rw [hset]
  simp only [hfind]

/-! ## A program -/

/-- A program that calls `malloc` in lines 7 and 8 of a file, and, through a pointer, in line 12. -/
def exParts : List Sect :=
  [⟨[⟨true, some (w! "m.c", 7), [], [⟨0x1100, w! "f", false⟩, ⟨0x1104, w! "f", true⟩]⟩,
    ⟨false, some (w! "m.c", 8), [.other], [⟨0x1109, w! "f", false⟩, ⟨0x110c, w! "f", true⟩, ⟨0x1111, w! "f", false⟩]⟩,
    ⟨true, some (w! "m.c", 12), [], [⟨0x1120, w! "g", true⟩, ⟨0x1122, w! "g", false⟩]⟩]⟩]

/-- The records of its source: nothing is known of the third call. -/
def exSource : Source := ⟨w! "a.out", exParts, [⟨w! "m.c", 7, w! "malloc int"⟩, ⟨w! "m.c", 8, w! "malloc long"⟩]⟩

def exTypeOf (t : Text) : Option Nat := if t = w! "malloc int" then some 0 else if t = w! "malloc long" then some 1 else none

def exSites : List Site := [⟨w! "a.out", 0x1109, some 0⟩, ⟨w! "a.out", 0x1111, some 1⟩, ⟨w! "a.out", 0x1122, none⟩]

def exModule : Module := ⟨0x555555554000, 0x555555558000, 0x555555554000, some [(0x1109, 0), (0x1111, 1)]⟩

def exLink (t : Nat) : BitVec 64 := if t = 0 then 0x7ffff7dd1238#64 else if t = 1 then 0x7ffff7dd2340#64 else 0#64

theorem exGood : exSource.Good := by
  refine ⟨⟨?_, by decide⟩, ?_, ?_, ?_, ?_, by decide +kernel, by decide +kernel, ?_, ?_⟩
  · unfold Printable; decide
  · intro x hx g hg
    simp only [exSource, exParts, List.mem_cons, List.not_mem_nil, or_false] at hx
    subst hx
    simp only [List.mem_cons, List.not_mem_nil, or_false] at hg
    rcases hg with rfl | rfl | rfl <;> simp [ObjdumpMeta.Group.Good, ObjdumpMeta.Inert]
  · unfold Printable; decide +kernel
  · have : ∀ i ∈ insnsOf exParts, (∃ n, i.2.loc = some (w! "m.c", n) ∧ n < 100) ∧ i.2.shown < 100 := by
      intro i hi
      have e : insnsOf exParts = [(⟨0x1100, w! "f", false⟩, ⟨some (w! "m.c", 7), 0⟩), (⟨0x1104, w! "f", true⟩, ⟨some (w! "m.c", 7), 0⟩),
        (⟨0x1109, w! "f", false⟩, ⟨some (w! "m.c", 8), 1⟩), (⟨0x110c, w! "f", true⟩, ⟨some (w! "m.c", 8), 1⟩),
        (⟨0x1111, w! "f", false⟩, ⟨some (w! "m.c", 8), 1⟩), (⟨0x1120, w! "g", true⟩, ⟨some (w! "m.c", 12), 0⟩),
        (⟨0x1122, w! "g", false⟩, ⟨some (w! "m.c", 12), 0⟩)] := rfl
      rw [e] at hi
      simp only [List.mem_cons, List.not_mem_nil, or_false] at hi
      rcases hi with rfl | rfl | rfl | rfl | rfl | rfl | rfl <;> exact ⟨⟨_, rfl, by decide⟩, by decide⟩
    intro i hi l hl
    obtain ⟨⟨n, e, hn⟩, hs⟩ := this i hi
    rw [e, Option.some.injEq] at hl
    subst hl
    refine ⟨(by unfold Printable; decide : Printable (w! "m.c")), (by decide : (w! "m.c") ≠ []), ?_⟩
    simp only
    omega
  · intro i hi h
    exfalso
    revert i
    decide +kernel
  · intro r hr
    simp only [exSource, List.mem_cons, List.not_mem_nil, or_false] at hr
    rcases hr with rfl | rfl <;> exact ⟨⟨by decide, by decide⟩, ⟨by decide, by decide⟩, by decide⟩
  · simp [exSource]

theorem exSites_eq : sites exTypeOf exSource.obj (ObjdumpMeta.listing exSource.parts) (exSource.recs.map Rec.text) = exSites := by
  rw [sites_eq exGood]
  have e : sorted (reports (insnsOf exSource.parts)) = reports (insnsOf exSource.parts) :=
    List.mergeSort_of_pairwise (by decide +kernel)
  rw [e]
  decide +kernel

theorem exMade : Made exTypeOf exSource exModule := by
  unfold Made
  rw [exSites_eq]
  refine ⟨by decide, exSites, ⟨.refl _, ?_⟩, rfl⟩
  simp [exSites, siteLt, lt]

theorem exLoaded : Loaded exTypeOf [(exSource, exModule)] := by
  refine ⟨?_, ?_, ?_, by simp, ?_, by simp, by decide +kernel⟩
  · intro f hf; rw [List.mem_singleton.1 hf]; exact exGood
  · intro f hf; rw [List.mem_singleton.1 hf]; exact exMade
  · intro f hf; rw [List.mem_singleton.1 hf]; decide +kernel
  · intro f hf; rw [List.mem_singleton.1 hf]; decide

/-- Line 8's call. -/
example : Shown exSource (w! "m.c") 8 9 0x1111 :=
  ⟨(insnsOf exParts).take 3, (⟨0x110c, w! "f", true⟩, ⟨some (w! "m.c", 8), 1⟩), (⟨0x1111, w! "f", false⟩, ⟨some (w! "m.c", 8), 1⟩), (insnsOf exParts).drop 5,
    rfl, rfl, rfl, rfl, rfl⟩

/-- What is answered about an object of the program. -/
def exAnswer (ndebug : Bool) (site : BitVec 64) : Option HeapObj.Info :=
  match Allocsites.loadAll ⟨[], []⟩ [exModule.file] with
  | .ok st => HeapObj.answer (build ndebug exLink [exModule] st) 0x100000 [.alloc 0x100010 100 120 site] 0x100017
  | _ => none

example (ndebug : Bool) : exAnswer ndebug 0x555555555109#64 = some ⟨0x100010, 104, 0x555555555109#64, some 0x7ffff7dd1238#64⟩ ∧
    exAnswer ndebug 0x555555555111#64 = some ⟨0x100010, 104, 0x555555555111#64, some 0x7ffff7dd2340#64⟩ := by
  cases ndebug <;> decide +kernel

/-- **C149 fails** for calls of which no type is known: they are left out of the table (tools/allocsites.cpp:87), and the look-up takes the last entry that is
not after the address (src/allocsites.c:113-119). So the object made in line 12 is said to be of the type recorded for line 8. -/
theorem unknown_fails (ndebug : Bool) :
    (⟨w! "a.out", 0x1122, none⟩ : Site) ∈ sites exTypeOf exSource.obj (ObjdumpMeta.listing exSource.parts) (exSource.recs.map Rec.text) ∧
    exAnswer ndebug 0x555555555122#64 = some ⟨0x100010, 104, 0x555555555122#64, some 0x7ffff7dd2340#64⟩ := by
  refine ⟨by rw [exSites_eq]; decide, ?_⟩
  cases ndebug <;> decide +kernel

end Liballocs.SitePipe
