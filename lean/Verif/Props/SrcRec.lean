import Verif.Model.SrcRec
import Verif.Props.AllocCalls
import Verif.Props.Sizeof
import Verif.Props.SitePipe
/-! # C153, C154, C155: from calls in C sources to records, and to the types of heap objects -/
namespace Liballocs.SrcRec
open CilTypes Sizeof AllocCalls
open MergeSites (Text pad6 revDigits le lt Rec Plain Trim written)
open SitePipe (Printable Source Module Shown)
open CcArgs hiding Env
open ObjdumpMeta (Sect insnsOf reports)

/-! ## Numbers -/

theorem value_digit {d : Nat} (h : d < 10) : value (Char.ofNat (48 + d)) = d := by
  unfold value
  rw [MergeSites.digit_toNat h]
  omega

theorem decVal_snoc (s : Text) (m : Nat) (c : Char) : decVal m (s ++ [c]) = decVal m s * 10 + value c := by
  unfold decVal
  rw [List.foldl_append, List.foldl_cons, List.foldl_nil]

theorem revDigits_value : ∀ (fuel n : Nat), n < fuel → decVal 0 (revDigits fuel n).reverse = n
  | 0, _, h => absurd h (Nat.not_lt_zero _)
  | fuel + 1, n, h => by
    rw [revDigits]
    split
    · next h1 =>
      rw [List.reverse_singleton, decVal, List.foldl_cons, List.foldl_nil, value_digit h1]
      omega
    · next h1 =>
      rw [List.reverse_cons, decVal_snoc, revDigits_value fuel (n / 10) (by omega), value_digit (Nat.mod_lt _ (by decide))]
      omega

theorem revDigits_head : ∀ (fuel n : Nat), n < fuel → n ≠ 0 → ∃ c s, (revDigits fuel n).reverse = c :: s ∧ c ≠ '0'
  | 0, _, h, _ => absurd h (Nat.not_lt_zero _)
  | fuel + 1, n, h, h0 => by
    rw [revDigits]
    split
    · next h1 =>
      refine ⟨_, [], rfl, fun e => ?_⟩
      have := congrArg Char.toNat e
      rw [MergeSites.digit_toNat h1] at this
      have e0 : ('0' : Char).toNat = 48 := rfl
      omega
    · next h1 =>
      obtain ⟨c, s, e, hc⟩ := revDigits_head fuel (n / 10) (by omega) (by omega)
      exact ⟨c, s ++ [Char.ofNat (48 + n % 10)], by rw [List.reverse_cons, e]; rfl, hc⟩

theorem revDigits_digit : ∀ (fuel n : Nat), ∀ c ∈ revDigits fuel n, digit c = true
  | 0, _, _, h => by cases h
  | fuel + 1, n, c, h => by
    have hd : ∀ d, d < 10 → digit (Char.ofNat (48 + d)) = true := by
      intro d hd
      unfold digit
      rw [MergeSites.digit_toNat hd]
      simp; omega
    rw [revDigits] at h
    split at h
    · next h1 => rw [List.mem_singleton] at h; subst h; exact hd n h1
    · rcases List.mem_cons.mp h with rfl | h
      · exact hd _ (Nat.mod_lt _ (by decide))
      · exact revDigits_digit fuel _ c h

theorem dec_digit (n : Nat) : ∀ c ∈ dec n, digit c = true := fun c h => revDigits_digit _ _ c (List.mem_reverse.mp h)

theorem dec_ne (n : Nat) : dec n ≠ [] := by
  unfold dec
  rw [revDigits]
  split <;> simp

/-- Numbers as they are written are read as what they are. -/
theorem cNum_dec (n : Nat) : cNum (dec n) = n := by
  by_cases h : n = 0
  · subst h; rfl
  · obtain ⟨c, s, e, hc⟩ := revDigits_head (n + 1) n (Nat.lt_succ_self n) h
    have hv := revDigits_value (n + 1) n (Nat.lt_succ_self n)
    unfold dec
    rw [e] at hv ⊢
    rw [cNum, if_neg hc, hv]

theorem padField_dec (n : Nat) : padField (dec n) = pad6 n := by
  unfold padField
  rw [if_pos ⟨dec_ne n, List.all_eq_true.mpr (dec_digit n)⟩, cNum_dec]

/-! ## Fields -/

/-- Without tabs. -/
def NoTab (t : Text) : Prop := ∀ c ∈ t, c ≠ '\t'

theorem splitTab_ne : ∀ t : Text, splitTab t ≠ []
  | [] => by simp [splitTab]
  | c :: t => by
    rw [splitTab]
    split
    · simp
    · split <;> simp

theorem splitTab_tab : ∀ {f : Text}, NoTab f → ∀ s : Text, splitTab (f ++ '\t' :: s) = f :: splitTab s
  | [], _, s => by rw [List.nil_append, splitTab, if_pos rfl]
  | c :: f, h, s => by
    rw [List.cons_append, splitTab, if_neg (h c (by simp)), splitTab_tab (f := f) (fun d hd => h d (by simp [hd]))]

theorem splitTab_last : ∀ {f : Text}, NoTab f → splitTab f = [f]
  | [], _ => rfl
  | c :: f, h => by rw [splitTab, if_neg (h c (by simp)), splitTab_last (f := f) (fun d hd => h d (by simp [hd]))]

theorem split_join : ∀ {fs : List Text}, fs ≠ [] → (∀ f ∈ fs, NoTab f) → splitTab (joinTab fs) = fs
  | [], h, _ => absurd rfl h
  | [f], _, h => splitTab_last (h f (by simp))
  | f :: g :: fs, _, h => by
    rw [joinTab, splitTab_tab (h f (by simp)), split_join (by simp) fun x hx => h x (by simp only [List.mem_cons] at hx ⊢; exact .inr hx)]

/-- What is not just digits. -/
def Word (t : Text) : Prop := ∃ c ∈ t, digit c = false

theorem padField_word {t : Text} (h : Word t) : padField t = t := by
  unfold padField
  rw [if_neg]
  rintro ⟨_, h'⟩
  obtain ⟨c, hc, e⟩ := h
  rw [List.all_eq_true.mp h' c hc] at e
  cases e

/-! ## A record -/

/-- The function's name as it is written. -/
def target (c : Call) : Text := match c.func with | some f => f | none => w! "(indirect)"

/-- The flag as it is gathered. -/
def flag (b : Bool) : Text := pad6 (if b then 1 else 0)

/-- The record of a call. -/
def rec_ (path : Text) (c : Call) (o : Out × Bool) : Rec :=
  ⟨path, c.line, target c ++ '\t' :: (allocString path c.line o.1 ++ '\t' :: flag o.2)⟩

/-- Calls whose records are one line, with six fields of which just the numbers look like numbers. -/
structure Fit (path : Text) (c : Call) (o : Out) : Prop where
  file : Printable path ∧ Word path
  target : Printable (target c) ∧ Word (target c)
  name : NoTab (allocString path c.line o) ∧ Word (allocString path c.line o)
  line : c.line < 1000000

theorem printable_noTab {t : Text} (h : Printable t) : NoTab t := fun c hc e => by
  have := h c hc
  rw [e] at this
  exact absurd this (by decide)

theorem digit_noTab {t : Text} (h : ∀ c ∈ t, digit c = true) : NoTab t := fun c hc e => by
  have := h c hc
  rw [e] at this
  exact absurd this (by decide)

theorem printed_join (path : Text) (c : Call) (o : Out × Bool) :
    printed path c o = joinTab [path, dec c.line, dec c.line, target c, allocString path c.line o.1, dec (if o.2 then 1 else 0)] := by
  have : ∀ b : Bool, (if b then ['1'] else ['0']) = dec (if b then 1 else 0) := by decide
  rw [printed, this]
  simp only [fileAndLine, joinTab, target, List.append_assoc, List.cons_append]
  cases c.func <;> rfl

/-- **C153**. The line that is written for a call comes out of `pad_numbers` as the record of the call: all of its fields as they are, but numbers with six
digits. -/
theorem padded {path : Text} {c : Call} {o : Out × Bool} (h : Fit path c o.1) : padLine (printed path c o) = (rec_ path c o).text := by
  rw [printed_join]
  unfold padLine
  rw [split_join (by simp)]
  · simp only [List.map_cons, List.map_nil, padField_word h.file.2, padField_word h.target.2, padField_word h.name.2, padField_dec]
    simp [joinTab, rec_, Rec.text, written, flag]
  · intro f hf
    simp only [List.mem_cons, List.not_mem_nil, or_false] at hf
    rcases hf with rfl | rfl | rfl | rfl | rfl | rfl
    · exact printable_noTab h.file.1
    · exact digit_noTab (dec_digit _)
    · exact digit_noTab (dec_digit _)
    · exact printable_noTab h.target.1
    · exact h.name.1
    · exact digit_noTab (dec_digit _)

theorem skip_of {t : Text} (hn : t ≠ []) (h : ∀ c ∈ t.head?, MergeSites.blank c = false) : MergeSites.skip t = t := by
  cases t with
  | nil => exact absurd rfl hn
  | cons c t => rw [MergeSites.skip, if_neg]; rw [h c (by simp)]; exact Bool.false_ne_true

theorem printable_blank {t : Text} (h : Printable t) : ∀ c ∈ t, MergeSites.blank c = false := by
  intro c hc
  have := h c hc
  unfold MergeSites.blank
  rw [Bool.or_eq_false_iff, decide_eq_false_iff_not, decide_eq_false_iff_not]
  constructor
  · rintro rfl; exact absurd this (by decide)
  · rintro rfl; exact absurd this (by decide)

theorem word_ne {t : Text} (h : Word t) : t ≠ [] := by
  rintro rfl
  obtain ⟨c, hc, _⟩ := h
  cases hc

theorem flag_ok (b : Bool) : flag b = "000000".toList ∨ flag b = "000001".toList := by cases b <;> decide +kernel

/-- Records can be read back. -/
theorem rec_good {path : Text} {c : Call} {o : Out × Bool} (h : Fit path c o.1) : (rec_ path c o).Good := by
  refine ⟨⟨word_ne h.file.2, printable_blank h.file.1⟩, ⟨?_, ?_⟩, h.line⟩
  · exact MergeSites.skip_plain ⟨word_ne h.target.2, printable_blank h.target.1⟩ _
  · have : (rec_ path c o).rest = (target c ++ '\t' :: (allocString path c.line o.1 ++ ['\t'])) ++ flag o.2 := by simp [rec_]
    rw [this, List.reverse_append]
    refine MergeSites.skip_plain ⟨?_, ?_⟩ _
    · rcases flag_ok o.2 with e | e <;> rw [e] <;> decide +kernel
    · intro d hd
      have hd := List.mem_reverse.mp hd
      revert d
      rcases flag_ok o.2 with e | e <;> rw [e] <;> decide +kernel

/-- The name is read back. -/
theorem rec_name {path : Text} {c : Call} {o : Out × Bool} (h : Fit path c o.1) (find : Text → Option Nat) :
    typeNamed find (rec_ path c o).rest = find (allocString path c.line o.1) := by
  unfold typeNamed rec_
  simp only
  rw [splitTab_tab (printable_noTab h.target.1), splitTab_tab h.name.1]

/-! ## Lines in order, each once -/

theorem uniq_mem : ∀ (l : List Text) (a : Text), a ∈ uniq l ↔ a ∈ l
  | [], _ => Iff.rfl
  | [_], _ => Iff.rfl
  | a :: b :: l, x => by
    rw [uniq]
    split
    · next h => subst h; rw [uniq_mem (a :: l) x]; simp
    · rw [List.mem_cons, uniq_mem (b :: l) x, List.mem_cons (l := b :: l)]

theorem uniq_strict : ∀ {l : List Text}, (l.Pairwise fun a b => le a b = true) → (uniq l).Pairwise fun a b => lt a b = true
  | [], _ => .nil
  | [_], _ => by simp [uniq]
  | a :: b :: l, h => by
    rw [List.pairwise_cons] at h
    have ih := uniq_strict h.2
    rw [uniq]
    split
    · exact ih
    · next hab =>
      rw [List.pairwise_cons]
      refine ⟨fun c hc => ?_, ih⟩
      rw [uniq_mem] at hc
      have hb : lt a b = true := by
        have := h.1 b (by simp)
        simp [lt, hab, this]
      rcases List.mem_cons.mp hc with rfl | hc
      · exact hb
      · exact MergeSites.lt_of_lt_of_le hb ((List.pairwise_cons.mp h.2).1 c hc)

theorem sorted_pairwise (l : List Text) : (sortLines l).Pairwise fun a b => le a b = true := by
  refine List.pairwise_mergeSort (le := le) (fun a b c h1 h2 => MergeSites.le_trans h1 h2) (fun a b => ?_) l
  rcases MergeSites.le_total a b with h | h <;> simp [h]

/-- What is gathered is in order, without repetitions, and has just the lines that were found or are in the section, padded. -/
theorem gather_lines (fs : Text → Option (List Text)) (us : List (Nat × Text)) (sect : List Text) :
    ((gather fs us sect).Pairwise fun a b => lt a b = true) ∧
      ∀ t, t ∈ gather fs us sect ↔ (∃ l, (l ∈ found fs us ∨ l ∈ sect) ∧ padLine l = t) ∨ (sect = [] ∧ t = []) := by
  refine ⟨uniq_strict (sorted_pairwise _), fun t => ?_⟩
  unfold gather sortLines
  rw [uniq_mem, List.mem_mergeSort, List.mem_map]
  have hn : padLine [] = [] := by decide +kernel
  constructor
  · rintro ⟨l, hl, rfl⟩
    rcases List.mem_append.mp hl with hl | hl
    · exact .inl ⟨l, .inl hl, rfl⟩
    · split at hl
      · next hs => rw [List.mem_singleton.mp hl]; exact .inr ⟨hs, hn⟩
      · exact .inl ⟨l, .inr hl, rfl⟩
  · rintro (⟨l, hl, rfl⟩ | ⟨hs, rfl⟩)
    · refine ⟨l, List.mem_append.mpr ?_, rfl⟩
      rcases hl with hl | hl
      · exact .inl hl
      · right
        rw [if_neg (fun e => by rw [e] at hl; cases hl)]
        exact hl
    · exact ⟨[], List.mem_append.mpr (.inr (by rw [if_pos hs]; simp)), hn⟩

/-! ## Records in order -/

/-- A record that is printable but for blanks in the name. -/
def Clear (r : Rec) : Prop := r.Good ∧ Printable r.file

theorem text_inj {r s : Rec} (hr : r.Good) (hs : s.Good) (h : r.text = s.text) : r = s := by
  have h1 := MergeSites.readSrc_text hr
  rw [h, MergeSites.readSrc_text hs, Option.some.injEq] at h1
  simp only [Rec.src, MergeSites.Src.mk.injEq] at h1
  obtain ⟨e1, e2, _, e3⟩ := h1
  have e2 := (MergeSites.pad_order_partial hs.2.2 hr.2.2).2.2.mp e2
  cases r; cases s
  simp_all

theorem text_order {r s : Rec} (hr : Clear r) (hs : Clear s) (h : lt r.text s.text = true) :
    lt r.file s.file = true ∨ (r.file = s.file ∧ r.line ≤ s.line) := by
  have hle : le r.text s.text = true := by
    simp only [lt, Bool.and_eq_true] at h
    exact h.2
  have e : ∀ r : Rec, r.text = r.file ++ '\t' :: (pad6 r.line ++ '\t' :: (pad6 r.line ++ '\t' :: r.rest)) := by
    intro r; simp [Rec.text, written]
  rw [e r, e s] at hle
  rcases SitePipe.le_tab hr.2 hs.2 hle with h | ⟨h1, h⟩
  · exact .inl h
  · right
    refine ⟨h1, ?_⟩
    have hp := MergeSites.pad_order_partial hr.1.2.2 hs.1.2.2
    rcases SitePipe.le_tab (SitePipe.pad6_printable hr.1.2.2) (SitePipe.pad6_printable hs.1.2.2) h with h | ⟨h, _⟩
    · exact Nat.le_of_lt (hp.2.1.1 h)
    · exact Nat.le_of_eq (hp.2.2.1 h)

theorem text_ne (r : Rec) : r.text ≠ [] := by simp [Rec.text, written]

theorem all_texts : ∀ {l : List Text}, (∀ t ∈ l, ∃ r, Clear r ∧ r.text = t) → ∃ rs : List Rec, l = rs.map Rec.text ∧ ∀ r ∈ rs, Clear r
  | [], _ => ⟨[], rfl, by simp⟩
  | t :: l, h => by
    obtain ⟨r, hr, rfl⟩ := h t (by simp)
    obtain ⟨rs, rfl, hrs⟩ := all_texts (l := l) fun t ht => h t (by simp [ht])
    exact ⟨r :: rs, rfl, by simpa using ⟨hr, hrs⟩⟩

theorem le_nil {t : Text} (h : lt t [] = true) : False := by
  cases t with
  | nil => simp [lt] at h
  | cons c t => simp [lt, le] at h

/-- Lines in order, all of which are records or empty, are an empty one or none, and then records. -/
theorem as_records {l : List Text} (hp : l.Pairwise fun a b => lt a b = true) (h : ∀ t ∈ l, t = [] ∨ ∃ r, Clear r ∧ r.text = t) :
    ∃ rs : List Rec, (l = rs.map Rec.text ∨ l = [] :: rs.map Rec.text) ∧ (∀ r ∈ rs, Clear r) ∧
      rs.Pairwise fun a b => lt a.file b.file = true ∨ (a.file = b.file ∧ a.line ≤ b.line) := by
  have order : ∀ {rs : List Rec}, (∀ r ∈ rs, Clear r) → ((rs.map Rec.text).Pairwise fun a b => lt a b = true) →
      rs.Pairwise fun a b => lt a.file b.file = true ∨ (a.file = b.file ∧ a.line ≤ b.line) := by
    intro rs hc hp
    rw [List.pairwise_map] at hp
    exact hp.imp_of_mem fun ha hb hab => text_order (hc _ ha) (hc _ hb) hab
  have tail : ∀ {l : List Text}, (∀ t ∈ l, t = [] ∨ ∃ r, Clear r ∧ r.text = t) → [] ∉ l → ∀ t ∈ l, ∃ r, Clear r ∧ r.text = t := by
    intro l h hn t ht
    rcases h t ht with rfl | h
    · exact absurd ht hn
    · exact h
  cases l with
  | nil => exact ⟨[], .inl rfl, by simp, .nil⟩
  | cons t l =>
    rw [List.pairwise_cons] at hp
    have hn : [] ∉ l := fun hm => le_nil (hp.1 _ hm)
    rcases h t (by simp) with rfl | ⟨r, hr, e⟩
    · obtain ⟨rs, rfl, hrs⟩ := all_texts (tail (fun t ht => h t (by simp [ht])) hn)
      exact ⟨rs, .inr rfl, hrs, order hrs hp.2⟩
    · obtain ⟨rs, rfl, hrs⟩ := all_texts (tail (fun t ht => h t (by simp [ht])) hn)
      have hc : ∀ x ∈ r :: rs, Clear x := by simpa using ⟨hr, hrs⟩
      refine ⟨r :: rs, .inl (by rw [List.map_cons, e]), hc, order hc ?_⟩
      rw [List.map_cons, e, List.pairwise_cons]
      exact hp

/-! ## The empty line -/

/-- An empty line among the records, which there is if the file has no section, changes nothing. -/
theorem empty_line {typeOf : Text → Option Nat} {obj : Text} {parts : List Sect} (h : (⟨obj, parts, []⟩ : Source).Good) (srcs : List Text) :
    SitePipe.sites typeOf obj (ObjdumpMeta.listing parts) ([] :: srcs) = SitePipe.sites typeOf obj (ObjdumpMeta.listing parts) srcs := by
  unfold SitePipe.sites
  rw [ObjdumpMeta.script_partial parts h.parts]
  congr 1
  unfold MergeSites.script
  have hr : MergeSites.readSrc [] = some ⟨[], [], [], []⟩ := rfl
  rw [List.filterMap_cons_some hr]
  have hok : ∀ o ∈ SitePipe.sorted (reports (insnsOf parts)), SitePipe.OutOk o := fun o ho => SitePipe.out_ok h o (List.mem_mergeSort.1 ho)
  cases hl : SitePipe.sorted (reports (insnsOf parts)) with
  | nil => rfl
  | cons o l =>
    have ho := hok o (by rw [hl]; simp)
    have hro : MergeSites.readObj (SitePipe.line obj o) = some (SitePipe.call obj o).toObj := by
      rw [SitePipe.line_eq]
      exact MergeSites.readObj_text (SitePipe.call_good h.name ho)
    rw [List.map_cons, List.filterMap_cons_some hro, MergeSites.merge, MergeSites.merge]
    have hv : MergeSites.verdict (SitePipe.call obj o).toObj ⟨[], [], [], []⟩ = .skip := by
      have hf : (SitePipe.call obj o).toObj.file ≠ [] := ho.2.1
      unfold MergeSites.verdict
      rw [if_neg (fun e => hf e.1.symm), if_pos]
      left
      cases hc : (SitePipe.call obj o).toObj.file with
      | nil => exact absurd hc hf
      | cons c f => rfl
    have hs : ∀ l, MergeSites.serve (SitePipe.call obj o).toObj none (⟨[], [], [], []⟩ :: l) = MergeSites.serve (SitePipe.call obj o).toObj none l := by
      intro l
      simp only [MergeSites.serve, MergeSites.search, hv]
    rw [hs]

/-! ## Programs -/

/-- A function: what it does, and its calls. -/
structure Func where
  body : List Stmt
  calls : List Call

/-- A unit that is compiled: where, with which structures and which further allocation functions, and its functions. -/
structure CUnit where
  cwd : Text
  gs : Structs
  user : List Text
  funcs : List Func

/-- The plug-in ends, and writes these lines for a unit's functions. -/
inductive Writes (u : CUnit) : List Func → List Text → Prop
  | nil : Writes u [] []
  | cons {f : Func} {fs : List Func} {env : Env} {l ls : List Text} : Ends u.gs f.body env → recordAll u.gs env u.user u.cwd f.calls = some l → Writes u fs ls →
      Writes u (f :: fs) (l ++ ls)

/-- A call that allocates, with the size found for it and the path of the source. -/
structure Allocates (u : CUnit) (c : Call) (path : Text) (s : Sz) : Prop where
  ex : ∃ f ∈ u.funcs, c ∈ f.calls ∧ ∃ env, Ends u.gs f.body env ∧ allocExpr u.gs env c.func c.args c.ret (allAllocs u.user) = some (some s)
  path : abspath u.cwd c.file = some path

theorem recordAll_mem {gs : Structs} {env : Env} {user : List Text} {cwd : Text} : ∀ {cs : List Call} {l : List Text}, recordAll gs env user cwd cs = some l →
    ∀ t, t ∈ l ↔ ∃ c ∈ cs, record gs env user cwd c = some (some t)
  | [], l, h, t => by
    rw [recordAll, Option.some.injEq] at h
    subst h
    simp
  | c :: cs, l, h, t => by
    rw [recordAll] at h
    split at h
    · cases h
    · next r hr =>
      split at h
      · cases h
      · next ls hls =>
        have ih := recordAll_mem hls t
        split at h
        · rw [Option.some.injEq] at h
          subst h
          rw [ih]
          constructor
          · rintro ⟨x, hx, e⟩; exact ⟨x, by simp [hx], e⟩
          · rintro ⟨x, hx, e⟩
            rcases List.mem_cons.mp hx with rfl | hx
            · rw [hr] at e; cases e
            · exact ⟨x, hx, e⟩
        · next y =>
          rw [Option.some.injEq] at h
          subst h
          rw [List.mem_cons, ih]
          constructor
          · rintro (rfl | ⟨x, hx, e⟩)
            · exact ⟨c, by simp, hr⟩
            · exact ⟨x, by simp [hx], e⟩
          · rintro ⟨x, hx, e⟩
            rcases List.mem_cons.mp hx with rfl | hx
            · rw [hr] at e
              simp only [Option.some.injEq] at e
              exact .inl e.symm
            · exact .inr ⟨x, hx, e⟩

theorem record_iff {gs : Structs} {env : Env} {user : List Text} {cwd : Text} {c : Call} {t : Text} :
    record gs env user cwd c = some (some t) ↔
      ∃ s path, allocExpr gs env c.func c.args c.ret (allAllocs user) = some (some s) ∧ abspath cwd c.file = some path ∧ t = printed path c (output s) := by
  unfold record
  constructor
  · intro h
    split at h
    · cases h
    · next path hp =>
      split at h
      · cases h
      · cases h
      · next s hs =>
        simp only [Option.some.injEq] at h
        exact ⟨s, path, hs, hp, h.symm⟩
  · rintro ⟨s, path, h1, h2, rfl⟩
    rw [h2]
    simp only [h1]

theorem writes_mem {u : CUnit} {fs : List Func} {ls : List Text} (h : Writes u fs ls) (t : Text) :
    t ∈ ls ↔ ∃ f ∈ fs, ∃ c ∈ f.calls, ∃ env, Ends u.gs f.body env ∧ record u.gs env u.user u.cwd c = some (some t) := by
  induction h with
  | nil => simp
  | @cons f fs env l ls he hl _ ih =>
    rw [List.mem_append, recordAll_mem hl, ih]
    constructor
    · rintro (⟨c, hc, e⟩ | ⟨f', hf, r⟩)
      · exact ⟨f, by simp, c, hc, env, he, e⟩
      · exact ⟨f', by simp [hf], r⟩
    · rintro ⟨f', hf, c, hc, env', he', e⟩
      rcases List.mem_cons.mp hf with rfl | hf
      · rw [he.unique he']; exact .inl ⟨c, hc, e⟩
      · exact .inr ⟨f', hf, c, hc, env', he', e⟩

/-- What is written is a line for each call that allocates. -/
theorem writes_iff {u : CUnit} {ls : List Text} (h : Writes u u.funcs ls) (t : Text) :
    t ∈ ls ↔ ∃ c path s, Allocates u c path s ∧ t = printed path c (output s) := by
  rw [writes_mem h]
  constructor
  · rintro ⟨f, hf, c, hc, env, he, e⟩
    obtain ⟨s, path, h1, h2, rfl⟩ := record_iff.mp e
    exact ⟨c, path, s, ⟨⟨f, hf, hc, env, he, h1⟩, h2⟩, rfl⟩
  · rintro ⟨c, path, s, ⟨⟨f, hf, hc, env, he, h1⟩, h2⟩, rfl⟩
    exact ⟨f, hf, c, hc, env, he, record_iff.mpr ⟨s, path, h1, h2, rfl⟩⟩

/-- A linked file: its name, its disassembly, the units it comes from with what was written for each, the files there are, the units that its debugging
information tells of, and the lines in its section. -/
structure CFile where
  obj : Text
  parts : List Sect
  units : List (CUnit × List Text)
  fs : Text → Option (List Text)
  cus : List (Nat × Text)
  sect : List Text

/-- Its records. -/
def CFile.lines (x : CFile) : List Text := gather x.fs x.cus x.sect

/-- Files that the tools can deal with, all of what was written for which is found, beside the sources or in the section, and nothing else is. -/
structure CFile.Good (x : CFile) : Prop where
  base : (⟨x.obj, x.parts, []⟩ : Source).Good
  wrote : ∀ u ∈ x.units, Writes u.1 u.1.funcs u.2
  all : ∀ l, (l ∈ found x.fs x.cus ∨ l ∈ x.sect) ↔ ∃ u ∈ x.units, l ∈ u.2
  fit : ∀ u ∈ x.units, ∀ c path s, Allocates u.1 c path s → Fit path c (output s).1

/-- Some unit of the file has the call. -/
def CFile.Has (x : CFile) (c : Call) (path : Text) (s : Sz) : Prop := ∃ u ∈ x.units, Allocates u.1 c path s

/-- **C153**. What is gathered for a file are the records of the calls that allocate in the sources it is made from, each once and in order, but for an empty
line if nothing is in the section; and they can be read. -/
theorem gathered {x : CFile} (h : x.Good) :
    ∃ recs : List Rec, (x.lines = recs.map Rec.text ∨ x.lines = [] :: recs.map Rec.text) ∧ (⟨x.obj, x.parts, recs⟩ : Source).Good ∧ recs.Nodup ∧
      ∀ r, r ∈ recs ↔ ∃ c path s, x.Has c path s ∧ r = rec_ path c (output s) := by
  obtain ⟨hp, hm⟩ := gather_lines x.fs x.cus x.sect
  have clear : ∀ {c path s}, x.Has c path s → Clear (rec_ path c (output s)) := by
    rintro c path s ⟨u, hu, ha⟩
    have hf := h.fit u hu c path s ha
    exact ⟨rec_good hf, hf.file.1⟩
  have hin : ∀ t, t ∈ x.lines ↔ (∃ c path s, x.Has c path s ∧ t = (rec_ path c (output s)).text) ∨ (x.sect = [] ∧ t = []) := by
    intro t
    unfold CFile.lines
    rw [hm]
    constructor
    · rintro (⟨l, hl, rfl⟩ | h2)
      · obtain ⟨u, hu, hl⟩ := (h.all l).mp hl
        obtain ⟨c, path, s, ha, rfl⟩ := (writes_iff (h.wrote u hu) l).mp hl
        exact .inl ⟨c, path, s, ⟨u, hu, ha⟩, padded (h.fit u hu c path s ha)⟩
      · exact .inr h2
    · rintro (⟨c, path, s, ⟨u, hu, ha⟩, rfl⟩ | h2)
      · exact .inl ⟨printed path c (output s), (h.all _).mpr ⟨u, hu, (writes_iff (h.wrote u hu) _).mpr ⟨c, path, s, ha, rfl⟩⟩, padded (h.fit u hu c path s ha)⟩
      · exact .inr h2
  obtain ⟨recs, he, hc, ho⟩ := as_records (l := x.lines) hp (by
    intro t ht
    rcases (hin t).mp ht with ⟨c, path, s, hh, rfl⟩ | ⟨_, rfl⟩
    · exact .inr ⟨_, clear hh, rfl⟩
    · exact .inl rfl)
  have hmem : ∀ r, Clear r → (r ∈ recs ↔ r.text ∈ x.lines) := by
    intro r hr
    have : r.text ∈ x.lines ↔ r.text ∈ recs.map Rec.text := by
      rcases he with e | e <;> rw [e]
      simp [text_ne]
    rw [this]
    constructor
    · exact fun h => List.mem_map_of_mem h
    · intro h
      obtain ⟨s, hs, e⟩ := List.mem_map.mp h
      rw [← text_inj (hc s hs).1 hr.1 e]
      exact hs
  refine ⟨recs, he, ⟨h.base.name, h.base.parts, h.base.syms, h.base.files, h.base.shown, h.base.addrs, h.base.small, fun r hr => (hc r hr).1, ho⟩, ?_, ?_⟩
  · have hp' : (recs.map Rec.text).Pairwise fun a b => lt a b = true := by
      have hp : x.lines.Pairwise fun a b => lt a b = true := hp
      rcases he with e | e
      · rw [e] at hp; exact hp
      · rw [e] at hp; exact (List.pairwise_cons.mp hp).2
    rw [List.pairwise_map] at hp'
    refine hp'.imp fun hab e => ?_
    subst e
    simp [lt] at hab
  · intro r
    constructor
    · intro hr
      have := (hin r.text).mp ((hmem r (hc r hr)).mp hr)
      rcases this with ⟨c, path, s, hh, e⟩ | ⟨_, e⟩
      · exact ⟨c, path, s, hh, text_inj (hc r hr).1 (clear hh).1 e⟩
      · exact absurd e (text_ne r)
    · rintro ⟨c, path, s, hh, rfl⟩
      exact (hmem _ (clear hh)).mpr ((hin _).mpr (.inl ⟨c, path, s, hh, rfl⟩))

open Classical in
/-- The records of a file. -/
noncomputable def CFile.recs (x : CFile) : List Rec := if h : x.Good then (gathered h).choose else []

/-- The file as the tools see it. -/
noncomputable def CFile.source (x : CFile) : Source := ⟨x.obj, x.parts, x.recs⟩

theorem recs_spec {x : CFile} (h : x.Good) : (x.lines = x.recs.map Rec.text ∨ x.lines = [] :: x.recs.map Rec.text) ∧ x.source.Good ∧
    ∀ r, r ∈ x.recs ↔ ∃ c path s, x.Has c path s ∧ r = rec_ path c (output s) := by
  have e : x.recs = (gathered h).choose := by unfold CFile.recs; rw [dif_pos h]
  have hs := (gathered h).choose_spec
  rw [← e] at hs
  exact ⟨hs.1, hs.2.1, hs.2.2.2⟩

/-- Files that are loaded, each with the table that is made for it; `find` tells which number the type of a name has in the tables. -/
structure CLoaded (find : Text → Option Nat) (xs : List (CFile × Module)) : Prop where
  good : ∀ x ∈ xs, x.1.Good
  made : ∀ x ∈ xs, SitePipe.Makes (SitePipe.sites (typeNamed find) x.1.obj (ObjdumpMeta.listing x.1.parts) x.1.lines) x.2.table
  inside : ∀ x ∈ xs, ∀ i ∈ insnsOf x.1.parts, x.2.lo ≤ x.2.base + i.1.addr ∧ x.2.base + i.1.addr < x.2.hi
  apart : xs.Pairwise fun x y => x.2.hi ≤ y.2.lo ∨ y.2.hi ≤ x.2.lo
  high : ∀ x ∈ xs, 0x7fff < x.2.lo
  few : xs.length ≤ 256
  sites : (xs.map fun x => (reports (insnsOf x.1.parts)).length).sum ≤ 65535

theorem loaded {find : Text → Option Nat} {xs : List (CFile × Module)} (h : CLoaded find xs) :
    SitePipe.Loaded (typeNamed find) (xs.map fun x => (x.1.source, x.2)) := by
  refine ⟨?_, ?_, ?_, ?_, ?_, ?_, ?_⟩
  · intro f hf
    obtain ⟨x, hx, rfl⟩ := List.mem_map.mp hf
    exact (recs_spec (h.good x hx)).2.1
  · intro f hf
    obtain ⟨x, hx, rfl⟩ := List.mem_map.mp hf
    have hm := h.made x hx
    have hs := recs_spec (h.good x hx)
    show SitePipe.Makes (SitePipe.sites (typeNamed find) x.1.obj (ObjdumpMeta.listing x.1.parts) (x.1.recs.map Rec.text)) x.2.table
    rcases hs.1 with e | e
    · rwa [e] at hm
    · rwa [e, empty_line (h.good x hx).base] at hm
  · intro f hf
    obtain ⟨x, hx, rfl⟩ := List.mem_map.mp hf
    exact h.inside x hx
  · rw [List.pairwise_map]; exact h.apart
  · intro f hf
    obtain ⟨x, hx, rfl⟩ := List.mem_map.mp hf
    exact h.high x hx
  · simpa using h.few
  · have := h.sites
    rw [List.map_map]
    exact this

/-- A call that the disassembly shows, as `SitePipe.Shown`. -/
def ShownIn (x : CFile) (file : Text) (first last ret : Nat) : Prop := Shown ⟨x.obj, x.parts, []⟩ file first last ret

/-- **C155** (partial: as C149; all calls that allocate in the lines shown for the call instruction have the same type). Compile C sources with the plug-in, link them, let the tools
gather what was written, merge it with the disassembly and make tables, and load the files. Take an object made by a call instruction in one of them, to lines of which
belongs a call in the sources whose size is found to be a number of `t`s, where `t` is not a pointer to data that stands for all such. Then a query of any
address in the object reports the type with `t`'s name, if it is loaded and no other type was given to the object. -/
theorem program_partial {find : Text → Option Nat} {xs : List (CFile × Module)} (h : CLoaded find xs) {link : Nat → BitVec 64}
    (hlink : ∀ t, link t = 0#64 ∨ HeapObj.GoodType (link t)) (ndebug : Bool) :
    ∃ st, Allocsites.loadAll ⟨[], []⟩ (xs.map fun x => x.2.file) = .ok st ∧
      ∀ {lo hi : Nat}, 2 ^ 18 ≤ lo → hi ≤ lo + 2 ^ 36 - 1024 → hi < 2 ^ 64 → ∀ (mem : Detour.Mem) {es : List HeapObj.Ev} {L : List HeapObj.Obj},
        HeapObj.History (SitePipe.build ndebug link (xs.map (·.2)) st) lo hi [] es L →
        ∃ s, HeapObj.run (SitePipe.build ndebug link (xs.map (·.2)) st) (HeapObj.fresh lo mem) es = some s ∧
          ∀ o ∈ L, HeapObj.Readable o.c → o.set = none → ∀ a, HeapObj.Inside o.c a →
            ∀ x ∈ xs, ∀ (file : Text) (first last ret : Nat), ShownIn x.1 file first last ret → o.site.toNat = x.2.base + ret →
              ∀ (c : Call) (t : Ty) (b : Bool), x.1.Has c file (.existing t b) → singlyGeneric t = false → first ≤ c.line → c.line < last →
                (∀ c' s', x.1.Has c' file s' → first ≤ c'.line → c'.line < last → ∃ b', s' = .existing t b') →
                ∀ u, find (symname t) = some u →
                  ∃ i s', HeapObj.getInfo (SitePipe.build ndebug link (xs.map (·.2)) st) s a = .ok (i, s') ∧ i.base = o.c.start ∧
                    i.type = if link u = 0#64 then none else some (link u) := by
  obtain ⟨st, h1, h2⟩ := SitePipe.typed_partial (loaded h) hlink ndebug
  have e1 : (xs.map fun x => (x.1.source, x.2)).map (fun f => f.2.file) = xs.map fun x => x.2.file := by rw [List.map_map]; rfl
  have e2 : (xs.map fun x => (x.1.source, x.2)).map (fun f => f.2) = xs.map (·.2) := by rw [List.map_map]; rfl
  rw [e1] at h1
  rw [e2] at h2
  refine ⟨st, h1, ?_⟩
  intro lo hi hlo hsz hhi mem es L hH
  obtain ⟨s, hs, hq⟩ := h2 hlo hsz hhi mem hH
  refine ⟨s, hs, ?_⟩
  intro o ho hr hset a ha x hx file first last ret hsh hsite c t b hc hg hl1 hl2 hone u hu
  have hx' : (x.1.source, x.2) ∈ xs.map fun x => (x.1.source, x.2) := List.mem_map_of_mem (f := fun x : CFile × Module => (x.1.source, x.2)) hx
  have hrec := (recs_spec (h.good x hx)).2.2
  have hfit : ∀ {c path s}, x.1.Has c path s → Fit path c (output s).1 := by
    rintro c path s ⟨u, hu, ha⟩
    exact (h.good x hx).fit u hu c path s ha
  have hty : ∀ {c' : Call} {b' : Bool}, x.1.Has c' file (.existing t b') → typeNamed find (rec_ file c' (output (.existing t b'))).rest = some u := by
    intro c' b' hc'
    rw [rec_name (hfit hc')]
    have : output (.existing t b') = (.named t, b') := by rw [output, hg]; rfl
    rw [this]
    exact hu
  refine hq o ho hr hset a ha _ hx' file first last ret ⟨hsh.ex⟩ hsite (rec_ file c (output (.existing t b))) ((hrec _).mpr ⟨c, file, _, hc, rfl⟩) ⟨rfl, hl1, hl2⟩ ?_ u (hty hc)
  intro r' hr' hf' hl1' hl2'
  obtain ⟨c', path', s', hc', rfl⟩ := (hrec r').mp hr'
  have : path' = file := hf'
  subst this
  obtain ⟨b', rfl⟩ := hone c' s' hc' hl1' hl2'
  rw [hty hc, hty hc']

/-! ## Calls of the usual functions -/

/-- Calls of the usual functions for an object whose size is an expression. -/
inductive Usual (e : Ex) : Option Text → List Ex → Prop
  | malloc : Usual e (some "malloc".toList) [e]
  | calloc (n : Ex) : Usual e (some "calloc".toList) [n, e]
  | realloc (p : Ex) : Usual e (some "realloc".toList) [p, e]
  | memalign (p n : Ex) : Usual e (some "posix_memalign".toList) [p, n, e]
  | alloca : Usual e (some "alloca".toList) [e]
  | builtin : Usual e (some "__builtin_alloca".toList) [e]

theorem hit {gs : Structs} {env : Env} {e : Ex} {f sig : Text} {letters : List Char} {args : List Ex} {p : Nat} {s : Sz} (ret : Option (Ty × Bool)) (sigs : List Text)
    (h1 : parse sig = some (some f, letters)) (h2 : args.length = letters.length) (h3 : sizeArg sig = some p) (h4 : args[p]? = some e)
    (hs : getSize gs env e = some s) : allocExpr gs env (some f) args ret (sig :: sigs) = some (some s) := by
  rw [allocExpr, extract, h1]
  simp only [h2, and_self, if_true, matchArgs, h3, h4, hs, Option.map_some]
  rw [if_pos (.inr (by simp))]

theorem miss {gs : Structs} {env : Env} {f g sig : Text} {letters : List Char} {args : List Ex} (ret : Option (Ty × Bool)) (sigs : List Text)
    (h1 : parse sig = some (some g, letters)) (h2 : g ≠ f) : allocExpr gs env (some f) args ret (sig :: sigs) = allocExpr gs env (some f) args ret sigs := by
  rw [allocExpr, extract, h1]
  simp [h2]

/-- Whatever functions are added, the size found for these is that of the expression. -/
theorem usual {gs : Structs} {env : Env} {e : Ex} {f : Option Text} {args : List Ex} (h : Usual e f args) (ret : Option (Ty × Bool)) (user : List Text) {s : Sz}
    (hs : getSize gs env e = some s) : allocExpr gs env f args ret (allAllocs user) = some (some s) := by
  have p1 : parse "malloc(Z)p".toList = some (some "malloc".toList, ['Z']) := by decide +kernel
  have p2 : parse "calloc(zZ)p".toList = some (some "calloc".toList, ['z', 'Z']) := by decide +kernel
  have p3 : parse "realloc(pZ)p".toList = some (some "realloc".toList, ['p', 'Z']) := by decide +kernel
  have p4 : parse "posix_memalign(pzZ)p".toList = some (some "posix_memalign".toList, ['p', 'z', 'Z']) := by decide +kernel
  have p5 : parse "alloca(Z)p".toList = some (some "alloca".toList, ['Z']) := by decide +kernel
  have p6 : parse "__builtin_alloca(Z)p".toList = some (some "__builtin_alloca".toList, ['Z']) := by decide +kernel
  unfold allAllocs
  simp only [List.cons_append, List.nil_append]
  cases h with
  | malloc => exact hit (p := 0) _ _ p1 rfl (by decide +kernel) rfl hs
  | calloc n =>
    rw [miss _ _ p1 (by decide +kernel)]
    exact hit (p := 1) _ _ p2 rfl (by decide +kernel) rfl hs
  | realloc n =>
    rw [miss _ _ p1 (by decide +kernel), miss _ _ p2 (by decide +kernel)]
    exact hit (p := 1) _ _ p3 rfl (by decide +kernel) rfl hs
  | memalign a n =>
    rw [miss _ _ p1 (by decide +kernel), miss _ _ p2 (by decide +kernel), miss _ _ p3 (by decide +kernel)]
    exact hit (p := 2) _ _ p4 rfl (by decide +kernel) rfl hs
  | alloca =>
    rw [miss _ _ p1 (by decide +kernel), miss _ _ p2 (by decide +kernel), miss _ _ p3 (by decide +kernel), miss _ _ p4 (by decide +kernel)]
    exact hit (p := 0) _ _ p5 rfl (by decide +kernel) rfl hs
  | builtin =>
    rw [miss _ _ p1 (by decide +kernel), miss _ _ p2 (by decide +kernel), miss _ _ p3 (by decide +kernel), miss _ _ p4 (by decide +kernel),
      miss _ _ p5 (by decide +kernel)]
    exact hit (p := 0) _ _ p6 rfl (by decide +kernel) rfl hs

/-- So a call of one of these with a size that is written as a number of `t`s allocates `t`s, as **C155** has it. -/
theorem usual_has {x : CFile} {u : CUnit} {ls : List Text} (hu : (u, ls) ∈ x.units) {f : Func} (hf : f ∈ u.funcs) {c : Call} (hc : c ∈ f.calls) {env : Env}
    (he : Ends u.gs f.body env) {path : Text} (hp : abspath u.cwd c.file = some path) {t : Ty} (ht : ∀ v n, t ≠ .arr v n) {e : Ex} (ho : Of u.gs env t e)
    (hk : Usual e c.func c.args) : ∃ b, x.Has c path (.existing t b) := by
  obtain ⟨b, hb⟩ := recognised ht ho
  exact ⟨b, (u, ls), hu, ⟨⟨f, hf, hc, env, he, usual hk c.ret u.user hb⟩, hp⟩⟩

/-! ## Where the records are looked for -/

/-- Without a dot that is followed by `c` or `i`. -/
def Undotted (s : Text) : Prop := ∀ a b y, y = 'c' ∨ y = 'i' → s ≠ a ++ '.' :: y :: b

theorem Undotted.tail {c : Char} {s : Text} (h : Undotted (c :: s)) : Undotted s := fun a b y hy e => h (c :: a) b y hy (by rw [e]; rfl)

theorem begins_eq : ∀ {p s : Text}, begins p s = true ↔ ∃ r, s = p ++ r
  | [], s => by simp [begins]
  | a :: p, [] => by simp [begins]
  | a :: p, b :: s => by
    rw [begins, Bool.and_eq_true, decide_eq_true_eq, begins_eq]
    constructor
    · rintro ⟨rfl, r, rfl⟩; exact ⟨r, rfl⟩
    · rintro ⟨r, e⟩
      simp only [List.cons_append, List.cons.injEq] at e
      exact ⟨e.1.symm, r, e.2⟩

theorem not_begins {d y : Char} {s q z : Text} (h : Undotted (d :: s)) (hy : y = 'c' ∨ y = 'i') : begins ('.' :: y :: q) (d :: s ++ '.' :: z) = false := by
  rw [← Bool.not_eq_true, begins_eq]
  rintro ⟨r, e⟩
  simp only [List.cons_append, List.cons.injEq] at e
  obtain ⟨rfl, e⟩ := e
  cases s with
  | nil =>
    simp only [List.nil_append, List.cons.injEq] at e
    rcases hy with rfl | rfl <;> exact absurd e.1 (by decide)
  | cons x s =>
    simp only [List.cons_append, List.cons.injEq] at e
    obtain ⟨rfl, _⟩ := e
    exact h [] s x hy rfl

theorem replace_dot (r : Text) : ∀ {s : Text}, Undotted s → ∀ {y : Char} {z : Text}, y = 'c' ∨ y = 'i' → replaceFirst ['.'] r (s ++ '.' :: y :: z) = s ++ (r ++ z)
  | [], _, y, z, hy => by
    rw [List.nil_append, replaceFirst, if_pos]
    · rfl
    · rcases hy with rfl | rfl
      · left; simp [begins]
      · right; simp [begins]
  | d :: s, h, y, z, hy => by
    rw [List.cons_append, replaceFirst, if_neg, replace_dot r h.tail hy]
    · rfl
    · rw [← List.cons_append]
      simp only [List.cons_append, List.nil_append]
      rw [← List.cons_append, not_begins h (.inl rfl), not_begins h (.inr rfl)]
      simp

theorem replace_cil (r : Text) : ∀ {s : Text}, Undotted s → ∀ {y : Char} {z : Text}, y = 'c' ∨ y = 'i' →
    replaceFirst (w! ".cil.") r (s ++ (w! ".cil." ++ y :: z)) = s ++ (r ++ z)
  | [], _, y, z, hy => by
    rw [List.nil_append]
    show replaceFirst (w! ".cil.") r ('.' :: (w! "cil." ++ y :: z)) = _
    rw [replaceFirst, if_pos]
    · rfl
    · rcases hy with rfl | rfl
      · left; simp [begins]
      · right; simp [begins]
  | d :: s, h, y, z, hy => by
    rw [List.cons_append, replaceFirst, if_neg, replace_cil r h.tail hy]
    · rfl
    · simp only [List.cons_append, List.nil_append]
      rw [← List.cons_append, not_begins h (.inl rfl), not_begins h (.inl rfl)]
      simp

theorem endsWith_iff {p s : Text} : endsWith p s = true ↔ ∃ r, s = r ++ p := by
  unfold endsWith
  rw [begins_eq]
  constructor
  · rintro ⟨r, e⟩
    refine ⟨r.reverse, ?_⟩
    have := congrArg List.reverse e
    simpa using this
  · rintro ⟨r, rfl⟩
    exact ⟨r.reverse, by simp⟩

/-- **C154** (partial: no directory and no earlier part of the name has a dot that is followed by `c` or `i`). The records of a unit are looked for in the
file that is named as the source is, but with the extension `.i.allocs`. -/
theorem path_partial {s : Text} (h : Undotted s) : allocsPath (s ++ w! ".c") = s ++ w! ".i.allocs" ∧ allocsPath (s ++ w! ".cil.c") = s ++ w! ".i.allocs" ∧
    allocsPath (s ++ w! ".cil.i") = s ++ w! ".i.allocs" := by
  unfold allocsPath
  refine ⟨?_, ?_, ?_⟩
  · rw [if_neg, if_pos (endsWith_iff.mpr ⟨s, rfl⟩), replace_dot _ h (.inl rfl)]
    · rfl
    · rintro (e | e)
      · obtain ⟨r, e⟩ := endsWith_iff.mp e
        have : s = r ++ '.' :: 'c' :: ['i', 'l'] := by
          have e : s ++ w! ".c" = (r ++ w! ".cil") ++ w! ".c" := by rw [e, List.append_assoc]; rfl
          exact List.append_cancel_right e
        exact h r _ _ (.inl rfl) this
      · obtain ⟨r, e⟩ := endsWith_iff.mp e
        have e : (s ++ ['.']) ++ ['c'] = (r ++ w! ".cil.") ++ ['i'] := by rw [List.append_assoc, List.append_assoc]; exact e
        have := (List.append_inj' e rfl).2
        exact absurd this (by decide)
  · rw [if_pos (.inl (endsWith_iff.mpr ⟨s, rfl⟩))]
    exact replace_cil _ h (z := []) (.inl rfl)
  · rw [if_pos (.inr (endsWith_iff.mpr ⟨s, rfl⟩))]
    exact replace_cil _ h (z := []) (.inr rfl)

/-- **C154 fails** for other sources: the first dot that is followed by `c` or `i` is taken for that of the extension, so no records are found in a directory as
`.config`, nor for a file as `x.int.c` (tools/lang/c/bin/c-gather-srcallocs:62). -/
theorem path_fails : allocsPath (w! "/home/u/.config/m.c") = w! "/home/u/.i.allocsonfig/m.c" ∧ allocsPath (w! "/src/x.int.c") = w! "/src/x.i.allocsnt.c" := by
  decide +kernel

example : allocsPath (w! "/src/lib.d/x.y.c") = w! "/src/lib.d/x.y.i.allocs" := by decide +kernel

/-! ## Which records fit -/

mutual
/-- All tags in a type are without tabs. -/
def Tags : Ty → Prop
  | .arr t _ => Tags t
  | .ptr t => Tags t
  | .comp _ name => NoTab name
  | .fn r _ args _ => Tags r ∧ AllTags args
  | .enum name => NoTab name
  | .void => True
  | .int _ => True
  | .float _ => True
  | .valist => True
def AllTags : Tys → Prop
  | .nil => True
  | .cons t ts => Tags t ∧ AllTags ts
end

theorem noTab_append {a b : Text} (ha : NoTab a) (hb : NoTab b) : NoTab (a ++ b) := by
  intro c hc
  rcases List.mem_append.mp hc with h | h
  · exact ha c h
  · exact hb c h

theorem noTab_cons {c : Char} {b : Text} (hc : c ≠ '\t') (hb : NoTab b) : NoTab (c :: b) := by
  intro d hd
  rcases List.mem_cons.mp hd with rfl | h
  · exact hc
  · exact hb d h

theorem dec_noTab (n : Nat) : NoTab (dec n) := digit_noTab (dec_digit n)

theorem digits_noTab (n : Nat) : NoTab (digits n) := by
  intro c hc
  unfold digits at hc
  rintro rfl
  have := Nat.isDigit_of_mem_toDigits (b := 10) (by decide) (by decide) (by simpa [Nat.repr] using hc)
  exact absurd this (by decide)

theorem enc_noTab (k : IKind) : NoTab (ident (enc k)) ∧ NoTab (idlIdent (enc k)) := by cases k <;> exact ⟨by unfold NoTab; decide +kernel, by unfold NoTab; decide +kernel⟩

theorem fenc_noTab (k : FKind) : NoTab (ident (fenc k)) ∧ NoTab (idlIdent (fenc k)) := by cases k <;> exact ⟨by unfold NoTab; decide +kernel, by unfold NoTab; decide +kernel⟩

theorem sep_noTab (va : Bool) : NoTab (sep va) := by cases va <;> (unfold NoTab; decide +kernel)

mutual
theorem bare_noTab : ∀ (t : Ty), Tags t → NoTab (bare t)
  | .arr t n, h => by
    rw [bare]
    refine noTab_append (by unfold NoTab; decide +kernel) (noTab_append ?_ (noTab_cons (by decide) (bare_noTab t (by rwa [Tags] at h))))
    cases n with
    | none => unfold NoTab; decide +kernel
    | some k => exact digits_noTab k
  | .ptr t, h => by
    rw [bare]
    exact noTab_append (by unfold NoTab; decide +kernel) (bare_noTab t (by rwa [Tags] at h))
  | .comp _ _, h => by rw [bare]; rwa [Tags] at h
  | .fn r known args va, h => by
    rw [Tags] at h
    rw [bare]
    refine noTab_append (by unfold NoTab; decide +kernel) (noTab_append ?_ (noTab_append (sep_noTab va) (bare_noTab r h.1)))
    cases known with
    | true => exact bareArgs_noTab args 0 h.2
    | false => exact fun c hc => by cases hc
  | .enum _, h => by rw [bare]; rwa [Tags] at h
  | .void, _ => by rw [bare]; unfold NoTab; decide +kernel
  | .int k, _ => by rw [bare]; exact (enc_noTab k).1
  | .float k, _ => by rw [bare]; exact (fenc_noTab k).1
  | .valist, _ => by rw [bare]; unfold NoTab; decide +kernel
theorem bareArgs_noTab : ∀ (ts : Tys) (k : Nat), AllTags ts → NoTab (bareArgs ts k)
  | .nil, _, _ => by rw [bareArgs]; exact fun c hc => by cases hc
  | .cons t ts, k, h => by
    rw [AllTags] at h
    rw [bareArgs]
    exact noTab_append (by unfold NoTab; decide +kernel) (noTab_append (digits_noTab k) (noTab_cons (by decide) (noTab_append (bare_noTab t h.1) (bareArgs_noTab ts (k + 1) h.2))))
end

mutual
theorem idl_noTab : ∀ (t : Ty), Tags t → NoTab (idl t)
  | .arr t n, h => by
    rw [idl]
    refine noTab_append (by unfold NoTab; decide +kernel) (noTab_append (idl_noTab t (by rwa [Tags] at h)) (noTab_append (by unfold NoTab; decide +kernel)
      (noTab_append ?_ (by unfold NoTab; decide +kernel))))
    cases n with
    | none => exact fun c hc => by cases hc
    | some k => exact noTab_append (by unfold NoTab; decide +kernel) (noTab_append (dec_noTab k) (by unfold NoTab; decide +kernel))
  | .ptr t, h => by
    rw [idl]
    exact noTab_append (by unfold NoTab; decide +kernel) (noTab_append (idl_noTab t (by rwa [Tags] at h)) (by unfold NoTab; decide +kernel))
  | .comp _ _, h => by rw [idl]; rwa [Tags] at h
  | .fn r true args false, h => by
    rw [Tags] at h
    rw [idl]
    exact noTab_cons (by decide) (noTab_append (idlArgs_noTab args h.2) (noTab_append (by unfold NoTab; decide +kernel) (idl_noTab r h.1)))
  | .fn r true args true, h => by
    rw [Tags] at h
    rw [idl]
    exact noTab_cons (by decide) (noTab_append (idlArgs_noTab args h.2) (noTab_append (by unfold NoTab; decide +kernel) (idl_noTab r h.1)))
  | .fn r false _ true, h => by
    rw [Tags] at h
    rw [idl]
    exact noTab_append (by unfold NoTab; decide +kernel) (bare_noTab r h.1)
  | .fn r false _ false, h => by
    rw [Tags] at h
    rw [idl]
    exact noTab_append (by unfold NoTab; decide +kernel) (bare_noTab r h.1)
  | .enum _, h => by rw [idl]; rwa [Tags] at h
  | .void, _ => by rw [idl]; unfold NoTab; decide +kernel
  | .int k, _ => by rw [idl]; exact (enc_noTab k).2
  | .float k, _ => by rw [idl]; exact (fenc_noTab k).2
  | .valist, _ => by rw [idl]; unfold NoTab; decide +kernel
theorem idlArgs_noTab : ∀ (ts : Tys), AllTags ts → NoTab (idlArgs ts)
  | .nil, _ => by rw [idlArgs]; exact fun c hc => by cases hc
  | .cons t .nil, h => by
    rw [AllTags] at h
    rw [idlArgs]
    exact idl_noTab t h.1
  | .cons t (.cons t' ts), h => by
    rw [AllTags] at h
    rw [idlArgs]
    · exact noTab_append (idl_noTab t h.1) (noTab_append (by unfold NoTab; decide +kernel) (idlArgs_noTab (.cons t' ts) h.2))
    · intro e; cases e
end

/-- All tags in what is written are without tabs. -/
def OutTags : Out → Prop
  | .anyPtr => True
  | .named t => Tags t
  | .idl l => ∀ t ∈ l, Tags t
  | .bytes => True

theorem hex_noTab {n : Nat} (h : n < 16) : hexDigit n ≠ '\t' := by
  intro e
  have := congrArg Char.toNat e
  rw [hexDigit_toNat h] at this
  have e9 : ('\t' : Char).toNat = 9 := rfl
  split at this <;> omega

theorem ident_noTab : ∀ {s : Text}, (∀ c ∈ s, c.toNat < 256) → NoTab (ident s)
  | [], _ => fun c hc => by cases hc
  | d :: s, h => by
    have ih := ident_noTab (s := s) fun c hc => h c (by simp [hc])
    have hd := h d (by simp)
    rw [ident]
    split
    · exact noTab_cons (by decide) (noTab_cons (by decide) ih)
    · split
      · next hp =>
        refine noTab_cons ?_ ih
        rintro rfl
        exact absurd hp (by decide)
      · exact noTab_cons (by decide) (noTab_cons (hex_noTab (by omega)) (noTab_cons (hex_noTab (by omega)) ih))

theorem members_noTab : ∀ {l : List Ty}, (∀ t ∈ l, Tags t) → NoTab (members l)
  | [], _ => fun c hc => by cases hc
  | t :: l, h => by
    rw [members]
    exact noTab_append (by unfold NoTab; decide +kernel) (noTab_append (idl_noTab t (h t (by simp))) (noTab_append (by unfold NoTab; decide +kernel)
      (members_noTab fun t ht => h t (by simp [ht]))))

theorem dec_small (n : Nat) : ∀ c ∈ dec n, c.toNat < 256 := by
  intro c hc
  have := dec_digit n c hc
  unfold digit at this
  rw [decide_eq_true_eq] at this
  omega

theorem begins_word {c : Char} (t : Text) (h : digit c = false) : Word (c :: t) := ⟨c, by simp, h⟩

theorem fileAndLine_small {path : Text} (hb : ∀ c ∈ path, c.toNat < 256) (line : Nat) : ∀ c ∈ fileAndLine path line, c.toNat < 256 := by
  intro c hc
  rw [fileAndLine, List.mem_append, List.mem_cons, List.mem_append, List.mem_cons] at hc
  rcases hc with hc | rfl | hc | rfl | hc
  · exact hb c hc
  · decide
  · exact dec_small line c hc
  · decide
  · exact dec_small line c hc

/-- The records fit: it takes that paths and functions' names are without blanks, that the path is absolute, that no function's name is a number, that there are
fewer than a million lines, and that there are no tabs in tags. -/
theorem fit_of {path : Text} {c : Call} {o : Out} (hp : Printable ('/' :: path)) (hb : ∀ d ∈ '/' :: path, d.toNat < 256)
    (hf : ∀ f, c.func = some f → Printable f ∧ Word f) (hl : c.line < 1000000) (ho : OutTags o) : Fit ('/' :: path) c o := by
  refine ⟨⟨hp, begins_word _ (by decide)⟩, ?_, ?_, hl⟩
  · unfold target
    cases h : c.func with
    | none => exact ⟨by unfold Printable; decide +kernel, by unfold Word; decide +kernel⟩
    | some f => exact hf f h
  · have hword : ∀ (s t : Text), Word s → Word (s ++ t) := by
      rintro s t ⟨d, hd, e⟩
      exact ⟨d, List.mem_append_left _ hd, e⟩
    cases o with
    | anyPtr => exact ⟨(by unfold NoTab; decide +kernel : NoTab (w! "__uniqtype____EXISTS1___PTR__1")), (by unfold Word; decide +kernel : Word (w! "__uniqtype____EXISTS1___PTR__1"))⟩
    | bytes => exact ⟨(by unfold NoTab; decide +kernel : NoTab (w! "__uniqtype____uninterpreted_byte")), (by unfold Word; decide +kernel : Word (w! "__uniqtype____uninterpreted_byte"))⟩
    | named t => exact ⟨noTab_append (by unfold NoTab; decide +kernel) (bare_noTab t ho), hword _ _ (by unfold Word; decide +kernel)⟩
    | idl l =>
      refine ⟨?_, hword _ _ (by unfold Word; decide +kernel)⟩
      rw [allocString, structure_]
      refine noTab_append (by unfold NoTab; decide +kernel) (noTab_append (ident_noTab ?_) (noTab_append (by unfold NoTab; decide +kernel)
        (noTab_append (members_noTab ho) (by unfold NoTab; decide +kernel))))
      intro d hd
      rcases List.mem_append.mp hd with hd | hd
      · have : ∀ d ∈ w! "dumpallocs_synthetic_", d.toNat < 256 := by decide +kernel
        exact this d hd
      · exact fileAndLine_small hb c.line d hd

/-! ## Names, paths and numbers in records -/

/-- How a reader takes a name in which a backslash quotes the next character; `none` where an unquoted blank or colon ends the name before its end. -/
def unquote : Text → Option Text
  | [] => some []
  | ['\\'] => none
  | '\\' :: c :: s => (unquote s).map (c :: ·)
  | c :: s => if c = ' ' ∨ c = ':' then none else (unquote s).map (c :: ·)

private theorem unquote_plain {c : Char} {s : Text} (h1 : c ≠ '\\') (h2 : c ≠ ' ') (h3 : c ≠ ':') : unquote (c :: s) = (unquote s).map (c :: ·) := by
  rw [unquote]
  · rw [if_neg (by simp [h2, h3])]
  · intro h; exact absurd h h1
  · intro d r h; exact absurd h h1

/-- A name without backslashes is read back as it was. -/
theorem ident_back : ∀ {s : Text}, '\\' ∉ s → unquote (idlIdent s) = some s
  | [], _ => rfl
  | c :: s, h => by
    have hs := ident_back (s := s) fun hm => h (List.mem_cons_of_mem _ hm)
    have hc : c ≠ '\\' := fun e => h (e ▸ List.mem_cons_self ..)
    rw [idlIdent]
    by_cases hb : c = ' ' ∨ c = ':'
    · rw [if_pos hb, unquote, hs]; rfl
    · rw [if_neg hb, unquote_plain hc (fun e => hb (.inl e)) (fun e => hb (.inr e)), hs]; rfl

/-- The quoted name differs from the name only where it has to. -/
theorem ident_same {s : Text} (h : ' ' ∉ s ∧ ':' ∉ s) : idlIdent s = s := by
  induction s with
  | nil => rfl
  | cons c s ih =>
    rw [idlIdent, if_neg, ih ⟨fun hm => h.1 (List.mem_cons_of_mem _ hm), fun hm => h.2 (List.mem_cons_of_mem _ hm)⟩]
    rintro (e | e)
    · exact h.1 (e ▸ List.mem_cons_self ..)
    · exact h.2 (e ▸ List.mem_cons_self ..)

theorem ident_case : idlIdent w! "long long: x" = w! "long\\ long\\:\\ x" := by decide +kernel

/-- The directories and the file that a path goes through. -/
def steps (cur : Text) : Text → List Text
  | [] => if cur = [] then [] else [cur]
  | c :: s => if c = '/' then (if cur = [] then steps [] s else cur :: steps [] s) else steps (cur ++ [c]) s

/-- The file that a path means in a directory. -/
def meant (dir path : Text) : List Text := if path.head? = some '/' then steps [] path else steps [] dir ++ steps [] path

private theorem steps_slash : ∀ (a cur b : Text), steps cur (a ++ '/' :: b) = steps cur a ++ steps [] b
  | [], cur, b => by
    by_cases h : cur = []
    · simp [steps, h]
    · simp [steps, h]
  | c :: a, cur, b => by
    rw [List.cons_append, steps, steps]
    by_cases hc : c = '/'
    · rw [if_pos hc, if_pos hc]
      by_cases h : cur = []
      · rw [if_pos h, if_pos h, steps_slash a]
      · rw [if_neg h, if_neg h, steps_slash a]; rfl
    · rw [if_neg hc, if_neg hc, steps_slash a]

/-- The path in a record is absolute, and means, in any directory, the file that the compiler was given. -/
theorem abspath_means {cwd f p : Text} (hc : cwd.head? = some '/') (h : abspath cwd f = some p) : p.head? = some '/' ∧ ∀ dir, meant dir p = meant cwd f := by
  cases f with
  | nil => cases h
  | cons c f =>
    rw [abspath] at h
    by_cases hs : c = '/'
    · rw [if_pos hs] at h
      injection h with h
      subst h hs
      exact ⟨rfl, fun dir => rfl⟩
    · rw [if_neg hs] at h
      injection h with h
      subst h
      cases cwd with
      | nil => cases hc
      | cons d w =>
        refine ⟨hc, fun dir => ?_⟩
        unfold meant
        rw [if_pos (by exact hc), if_neg (by simp [hs]), steps_slash]

theorem abspath_case : abspath w! "/s/x" w! "../m.c" = some w! "/s/x/../m.c" ∧ abspath w! "/s/x" w! "/t/m.c" = some w! "/t/m.c" ∧
    meant w! "/" w! "/s/x/../m.c" = [w! "s", w! "x", w! "..", w! "m.c"] := by decide +kernel

/-- What is found beside the sources: the lines of the readable files for the units in C (DW_LANG_C89, DW_LANG_C, DW_LANG_C99, DW_LANG_C11). -/
theorem found_iff (fs : Text → Option (List Text)) (t : Text) : ∀ us : List (Nat × Text),
    t ∈ found fs us ↔ ∃ lang path ls, (lang, path) ∈ us ∧ lang ∈ [0x01, 0x02, 0x0c, 0x1d] ∧ fs (allocsPath path) = some ls ∧ t ∈ ls
  | [] => by simp [found]
  | u :: us => by
    have ih := found_iff fs t us
    have hC : isC u.1 = true ↔ u.1 ∈ [0x01, 0x02, 0x0c, 0x1d] := by
      unfold isC
      simp only [Bool.or_eq_true, decide_eq_true_eq, List.mem_cons, List.not_mem_nil, or_false, or_assoc]
    have rest : t ∈ found fs us → ∃ lang path ls, (lang, path) ∈ u :: us ∧ lang ∈ [0x01, 0x02, 0x0c, 0x1d] ∧ fs (allocsPath path) = some ls ∧ t ∈ ls := by
      intro h
      obtain ⟨lang, path, ls, h1, h2⟩ := ih.1 h
      exact ⟨lang, path, ls, List.mem_cons_of_mem _ h1, h2⟩
    rw [found]
    by_cases hc : isC u.1 = true
    · rw [if_pos hc]
      cases hf : fs (allocsPath u.2) with
      | none =>
        dsimp only
        refine ⟨rest, ?_⟩
        rintro ⟨lang, path, ls, h1, h2, h3, h4⟩
        rcases List.mem_cons.1 h1 with rfl | h1
        · rw [hf] at h3; cases h3
        · exact ih.2 ⟨lang, path, ls, h1, h2, h3, h4⟩
      | some ls =>
        dsimp only
        rw [List.mem_append]
        constructor
        · rintro (h | h)
          · exact ⟨u.1, u.2, ls, List.mem_cons_self .., hC.1 hc, hf, h⟩
          · exact rest h
        · rintro ⟨lang, path, ls', h1, h2, h3, h4⟩
          rcases List.mem_cons.1 h1 with rfl | h1
          · rw [hf] at h3; injection h3 with h3; subst h3; exact .inl h4
          · exact .inr (ih.2 ⟨lang, path, ls', h1, h2, h3, h4⟩)
    · rw [if_neg hc]
      refine ⟨rest, ?_⟩
      rintro ⟨lang, path, ls, h1, h2, h3, h4⟩
      rcases List.mem_cons.1 h1 with rfl | h1
      · exact absurd (hC.2 h2) hc
      · exact ih.2 ⟨lang, path, ls, h1, h2, h3, h4⟩

/-- The digits are the ten digits. -/
theorem digit_iff (c : Char) : digit c = true ↔ c ∈ w! "0123456789" := by
  constructor
  · intro h
    unfold digit at h
    rw [decide_eq_true_eq] at h
    have e : Char.ofNat c.toNat = c := Char.ofNat_toNat c
    have : c.toNat = 48 ∨ c.toNat = 49 ∨ c.toNat = 50 ∨ c.toNat = 51 ∨ c.toNat = 52 ∨ c.toNat = 53 ∨ c.toNat = 54 ∨ c.toNat = 55 ∨ c.toNat = 56 ∨ c.toNat = 57 := by omega
    rcases this with h | h | h | h | h | h | h | h | h | h <;> (rw [h] at e; rw [← e]; decide)
  · intro h
    simp only [List.mem_cons, List.not_mem_nil, or_false] at h
    rcases h with rfl | rfl | rfl | rfl | rfl | rfl | rfl | rfl | rfl | rfl <;> decide

/-- The value of octal digits, the last first. -/
def octal : List Nat → Nat
  | [] => 0
  | d :: ds => d + 8 * octal ds

private theorem octVal_acc : ∀ (ds : List Nat) (n : Nat) (t : Text), (∀ d ∈ ds, d < 8) → octVal n (ds.reverse.map (fun d => Char.ofNat (48 + d)) ++ t) = octVal (n * 8 ^ ds.length + octal ds) t
  | [], n, t, _ => by simp [octal]
  | d :: ds, n, t, h => by
    have hd : d < 8 := h d (List.mem_cons_self ..)
    rw [List.reverse_cons, List.map_append, List.append_assoc, octVal_acc ds n _ fun x hx => h x (List.mem_cons_of_mem _ hx)]
    have hv : (Char.ofNat (48 + d)).toNat = 48 + d := by
      have := value_digit (d := d) (by omega)
      have hcases : d = 0 ∨ d = 1 ∨ d = 2 ∨ d = 3 ∨ d = 4 ∨ d = 5 ∨ d = 6 ∨ d = 7 := by omega
      rcases hcases with rfl | rfl | rfl | rfl | rfl | rfl | rfl | rfl <;> decide
    rw [List.map_singleton, List.singleton_append, octVal, hv, if_pos (by omega), value_digit (by omega)]
    congr 1
    rw [octal, List.length_cons, Nat.pow_succ, Nat.add_mul, Nat.mul_assoc]
    omega

/-- A field that has a zero in front is taken for octal, up to a digit that is not. -/
theorem octal_field {ds : List Nat} (h : ∀ d ∈ ds, d < 8) (t : Text) (ht : t = [] ∨ ∃ r, t = '8' :: r ∨ t = '9' :: r) :
    cNum ('0' :: (ds.reverse.map (fun d => Char.ofNat (48 + d)) ++ t)) = octal ds := by
  rw [cNum, if_pos rfl, octVal_acc ds 0 t h, Nat.zero_mul, Nat.zero_add]
  rcases ht with rfl | ⟨r, rfl | rfl⟩
  · rfl
  · rw [octVal, if_neg (by decide)]
  · rw [octVal, if_neg (by decide)]

/-- So padding a second time makes another number of a line's. -/
theorem repad_fails : padField (dec 10) = w! "000010" ∧ padField w! "000010" = w! "000008" ∧ padField w! "000019" = w! "000001" := by decide +kernel

/-! ## A program -/

def exCalls : List Call :=
  [⟨w! "m.c", 7, some "malloc".toList, [Sizeof.Ex1.x 0], none⟩, ⟨w! "/s/m.c", 8, some "calloc".toList, [.other 5, .size (.int .long) true], none⟩,
    ⟨w! "m.c", 12, none, [.other 4], none⟩]

def exFunc : Func := ⟨[Sizeof.Ex1.st 0 (.mul (.other 3) (.size Sizeof.Ex1.A true))], exCalls⟩

/-- A function that calls `malloc(n)` in line 7, after `n = 3 * sizeof (struct A)`; `calloc(5, sizeof (long))` in line 8; and, through a pointer, something with one
argument in line 12. -/
def exUnit : CUnit := ⟨w! "/s", Sizeof.Ex1.gs, [], [exFunc]⟩

def exEnv : Env := [(0, .existing Sizeof.Ex1.A true)]

/-- What is written for it. -/
def exLines : List Text := [w! "/s/m.c\t7\t7\tmalloc\t__uniqtype__A\t1", w! "/s/m.c\t8\t8\tcalloc\t__uniqtype__int$$64\t1"]

theorem exEnds : Ends exUnit.gs exFunc.body exEnv := ⟨1, by decide +kernel, by decide +kernel⟩

theorem exWrites : Writes exUnit exUnit.funcs exLines := by
  have h := Writes.cons (u := exUnit) (f := exFunc) (fs := []) (l := exLines) (ls := []) exEnds (by decide +kernel) .nil
  rwa [List.append_nil] at h

/-- The disassembly of `SitePipe.exParts`, with the path of the source. -/
def exParts : List Sect :=
  [⟨[⟨true, some (w! "/s/m.c", 7), [], [⟨0x1100, w! "f", false⟩, ⟨0x1104, w! "f", true⟩]⟩,
    ⟨false, some (w! "/s/m.c", 8), [.other], [⟨0x1109, w! "f", false⟩, ⟨0x110c, w! "f", true⟩, ⟨0x1111, w! "f", false⟩]⟩,
    ⟨true, some (w! "/s/m.c", 12), [], [⟨0x1120, w! "g", true⟩, ⟨0x1122, w! "g", false⟩]⟩]⟩]

/-- The lines are in the section; nothing is found beside the source. -/
def exFile : CFile := ⟨w! "a.out", exParts, [(exUnit, exLines)], fun _ => none, [(12, w! "/s/m.c")], exLines⟩

theorem exBase : (⟨w! "a.out", exParts, []⟩ : Source).Good := by
  refine ⟨⟨?_, by decide⟩, ?_, ?_, ?_, ?_, by decide +kernel, by decide +kernel, by simp, by simp⟩
  · unfold Printable; decide
  · intro x hx g hg
    simp only [exParts, List.mem_cons, List.not_mem_nil, or_false] at hx
    subst hx
    simp only [List.mem_cons, List.not_mem_nil, or_false] at hg
    rcases hg with rfl | rfl | rfl <;> simp [ObjdumpMeta.Group.Good, ObjdumpMeta.Inert]
  · unfold Printable; decide +kernel
  · have : ∀ i ∈ insnsOf exParts, (∃ n, i.2.loc = some (w! "/s/m.c", n) ∧ n < 100) ∧ i.2.shown < 100 := by
      intro i hi
      have e : insnsOf exParts = [(⟨0x1100, w! "f", false⟩, ⟨some (w! "/s/m.c", 7), 0⟩), (⟨0x1104, w! "f", true⟩, ⟨some (w! "/s/m.c", 7), 0⟩),
        (⟨0x1109, w! "f", false⟩, ⟨some (w! "/s/m.c", 8), 1⟩), (⟨0x110c, w! "f", true⟩, ⟨some (w! "/s/m.c", 8), 1⟩),
        (⟨0x1111, w! "f", false⟩, ⟨some (w! "/s/m.c", 8), 1⟩), (⟨0x1120, w! "g", true⟩, ⟨some (w! "/s/m.c", 12), 0⟩),
        (⟨0x1122, w! "g", false⟩, ⟨some (w! "/s/m.c", 12), 0⟩)] := rfl
      rw [e] at hi
      simp only [List.mem_cons, List.not_mem_nil, or_false] at hi
      rcases hi with rfl | rfl | rfl | rfl | rfl | rfl | rfl <;> exact ⟨⟨_, rfl, by decide⟩, by decide⟩
    intro i hi l hl
    obtain ⟨⟨n, e, hn⟩, hs⟩ := this i hi
    rw [e, Option.some.injEq] at hl
    subst hl
    refine ⟨(by unfold Printable; decide : Printable (w! "/s/m.c")), (by decide : (w! "/s/m.c") ≠ []), ?_⟩
    simp only
    omega
  · intro i hi h
    exfalso
    revert i
    decide +kernel

/-- The calls of the unit that allocate: those in lines 7 and 8. -/
theorem exAllocates {c : Call} {path : Text} {s : Sz} (h : Allocates exUnit c path s) :
    path = w! "/s/m.c" ∧ ((c = exCalls[0] ∧ s = .existing Sizeof.Ex1.A true) ∨ (c = exCalls[1] ∧ s = .existing (.int .long) true)) := by
  obtain ⟨⟨f, hf, hc, env, he, hs⟩, hp⟩ := h
  simp only [exUnit, List.mem_singleton] at hf
  subst hf
  have := exEnds.unique he
  subst this
  simp only [exFunc, exCalls, List.mem_cons, List.not_mem_nil, or_false] at hc
  rcases hc with rfl | rfl | rfl
  · have e : allocExpr exUnit.gs exEnv (some "malloc".toList) [Sizeof.Ex1.x 0] none (allAllocs exUnit.user) = some (some (.existing Sizeof.Ex1.A true)) := by decide +kernel
    rw [e] at hs
    have e : abspath exUnit.cwd (w! "m.c") = some (w! "/s/m.c") := by decide +kernel
    rw [e] at hp
    simp only [Option.some.injEq] at hs hp
    exact ⟨hp.symm, .inl ⟨rfl, hs.symm⟩⟩
  · have e : allocExpr exUnit.gs exEnv (some "calloc".toList) [.other 5, .size (.int .long) true] none (allAllocs exUnit.user) = some (some (.existing (.int .long) true)) := by
      decide +kernel
    rw [e] at hs
    have e : abspath exUnit.cwd (w! "/s/m.c") = some (w! "/s/m.c") := by decide +kernel
    rw [e] at hp
    simp only [Option.some.injEq] at hs hp
    exact ⟨hp.symm, .inr ⟨rfl, hs.symm⟩⟩
  · have e : allocExpr exUnit.gs exEnv none [.other 4] none (allAllocs exUnit.user) = some none := by decide +kernel
    rw [e] at hs
    cases hs

theorem exGood : exFile.Good := by
  refine ⟨exBase, ?_, ?_, ?_⟩
  · intro u hu
    rw [List.mem_singleton.mp hu]
    exact exWrites
  · intro l
    have : found exFile.fs exFile.cus = [] := by decide +kernel
    rw [this]
    simp [exFile]
  · intro u hu c path s h
    rw [List.mem_singleton.mp hu] at h
    obtain ⟨rfl, ⟨rfl, rfl⟩ | ⟨rfl, rfl⟩⟩ := exAllocates h
    · refine fit_of (by unfold Printable; decide +kernel) (by decide +kernel) ?_ (by decide +kernel) ?_
      · intro f hf
        simp only [exCalls, List.getElem_cons_zero, Option.some.injEq] at hf
        subst hf
        exact ⟨by unfold Printable; decide +kernel, by unfold Word; decide +kernel⟩
      · have e : output (.existing Sizeof.Ex1.A true) = (.named Sizeof.Ex1.A, true) := by decide +kernel
        rw [e]
        simp only [OutTags, Sizeof.Ex1.A, Tags]
        unfold NoTab; decide +kernel
    · refine fit_of (by unfold Printable; decide +kernel) (by decide +kernel) ?_ (by decide +kernel) ?_
      · intro f hf
        simp only [exCalls, List.getElem_cons_succ, List.getElem_cons_zero, Option.some.injEq] at hf
        subst hf
        exact ⟨by unfold Printable; decide +kernel, by unfold Word; decide +kernel⟩
      · have e : output (.existing (.int .long) true) = (.named (.int .long), true) := by decide +kernel
        rw [e]
        simp only [OutTags, Tags]

def exRecs : List Rec := [⟨w! "/s/m.c", 7, w! "malloc\t__uniqtype__A\t000001"⟩, ⟨w! "/s/m.c", 8, w! "calloc\t__uniqtype__int$$64\t000001"⟩]

/-- What is gathered for it. -/
theorem exGathered : exFile.lines = exRecs.map Rec.text := by
  unfold CFile.lines gather sortLines
  rw [List.mergeSort_of_pairwise (by decide +kernel)]
  decide +kernel

def exFind (t : Text) : Option Nat := if t = w! "__uniqtype__A" then some 0 else if t = w! "__uniqtype__int$$64" then some 1 else none

theorem exSites_eq : SitePipe.sites (typeNamed exFind) exFile.obj (ObjdumpMeta.listing exFile.parts) exFile.lines = SitePipe.exSites := by
  have hg : (⟨w! "a.out", exParts, exRecs⟩ : Source).Good := by
    have h := exBase
    refine ⟨h.name, h.parts, h.syms, h.files, h.shown, h.addrs, h.small, ?_, by simp [exRecs]⟩
    intro r hr
    simp only [exRecs, List.mem_cons, List.not_mem_nil, or_false] at hr
    rcases hr with rfl | rfl <;> exact ⟨⟨by decide, by decide⟩, ⟨by decide, by decide⟩, by decide⟩
  rw [exGathered]
  have := SitePipe.sites_eq (typeOf := typeNamed exFind) hg
  simp only [exFile]
  rw [this]
  have e : SitePipe.sorted (reports (insnsOf exParts)) = reports (insnsOf exParts) := List.mergeSort_of_pairwise (by decide +kernel)
  rw [e]
  decide +kernel

theorem exLoaded : CLoaded exFind [(exFile, SitePipe.exModule)] := by
  refine ⟨?_, ?_, ?_, by simp, ?_, by simp, by decide +kernel⟩
  · intro f hf; rw [List.mem_singleton.1 hf]; exact exGood
  · intro f hf
    rw [List.mem_singleton.1 hf]
    simp only
    rw [exSites_eq]
    refine ⟨by decide, SitePipe.exSites, ⟨.refl _, ?_⟩, rfl⟩
    simp [SitePipe.exSites, SitePipe.siteLt, lt]
  · intro f hf; rw [List.mem_singleton.1 hf]; decide +kernel
  · intro f hf; rw [List.mem_singleton.1 hf]; decide

/-- The call in line 8 is as `program_partial` has it. -/
example : ShownIn exFile (w! "/s/m.c") 8 9 0x1111 ∧ exFile.Has exCalls[1] (w! "/s/m.c") (.existing (.int .long) true) ∧ singlyGeneric (.int .long) = false ∧
    (∀ c' s', exFile.Has c' (w! "/s/m.c") s' → 8 ≤ c'.line → c'.line < 9 → ∃ b', s' = .existing (.int .long) b') ∧ exFind (symname (.int .long)) = some 1 := by
  refine ⟨⟨(insnsOf exParts).take 3, (⟨0x110c, w! "f", true⟩, ⟨some (w! "/s/m.c", 8), 1⟩), (⟨0x1111, w! "f", false⟩, ⟨some (w! "/s/m.c", 8), 1⟩),
    (insnsOf exParts).drop 5, rfl, rfl, rfl, rfl, rfl⟩, ⟨(exUnit, exLines), by simp [exFile], ⟨⟨exFunc, by simp [exUnit], by simp [exFunc, exCalls], exEnv, exEnds, by decide +kernel⟩,
    by decide +kernel⟩⟩, by decide +kernel, ?_, by decide +kernel⟩
  rintro c' s' ⟨u, hu, ha⟩ h1 h2
  rw [List.mem_singleton.mp hu] at ha
  obtain ⟨_, ⟨rfl, rfl⟩ | ⟨rfl, rfl⟩⟩ := exAllocates ha
  · exact absurd h1 (by decide +kernel)
  · exact ⟨true, rfl⟩

/-! ## Two types in a line -/

/-- `f(malloc(sizeof (struct A)), malloc(sizeof (long)))` in line 7. -/
def bothCalls : List Call :=
  [⟨w! "m.c", 7, some "malloc".toList, [.size Sizeof.Ex1.A true], none⟩, ⟨w! "m.c", 7, some "malloc".toList, [.size (.int .long) true], none⟩]

/-- The two call instructions. -/
def bothParts : List Sect :=
  [⟨[⟨true, some (w! "/s/m.c", 7), [], [⟨0x1100, w! "f", true⟩, ⟨0x1105, w! "f", false⟩, ⟨0x110c, w! "f", true⟩, ⟨0x1111, w! "f", false⟩]⟩]⟩]

def bothRecs : List Rec := [⟨w! "/s/m.c", 7, w! "malloc\t__uniqtype__A\t000001"⟩, ⟨w! "/s/m.c", 7, w! "malloc\t__uniqtype__int$$64\t000001"⟩]

/-- **C155 fails** for two allocating calls in one line: both types are recorded, with the line, and both call instructions are given the same one. -/
theorem line_fails : recordAll exUnit.gs [] [] exUnit.cwd bothCalls = some [w! "/s/m.c\t7\t7\tmalloc\t__uniqtype__A\t1", w! "/s/m.c\t7\t7\tmalloc\t__uniqtype__int$$64\t1"] ∧
    gather (fun _ => none) [(12, w! "/s/m.c")] [w! "/s/m.c\t7\t7\tmalloc\t__uniqtype__A\t1", w! "/s/m.c\t7\t7\tmalloc\t__uniqtype__int$$64\t1"] = bothRecs.map Rec.text ∧
    SitePipe.sites (typeNamed exFind) (w! "a.out") (ObjdumpMeta.listing bothParts) (bothRecs.map Rec.text) =
      [⟨w! "a.out", 0x1105, some 0⟩, ⟨w! "a.out", 0x1111, some 0⟩] := by
  refine ⟨by decide +kernel, ?_, ?_⟩
  · unfold gather sortLines
    rw [List.mergeSort_of_pairwise (by decide +kernel)]
    decide +kernel
  · have hg : (⟨w! "a.out", bothParts, bothRecs⟩ : Source).Good := by
      refine ⟨⟨?_, by decide⟩, ?_, ?_, ?_, ?_, by decide +kernel, by decide +kernel, ?_, by decide +kernel⟩
      · unfold Printable; decide
      · intro x hx g hg
        simp only [bothParts, List.mem_cons, List.not_mem_nil, or_false] at hx
        subst hx
        simp only [List.mem_cons, List.not_mem_nil, or_false] at hg
        subst hg
        simp [ObjdumpMeta.Group.Good]
      · unfold Printable; decide +kernel
      · have : ∀ i ∈ insnsOf bothParts, i.2.loc = some (w! "/s/m.c", 7) ∧ i.2.shown < 100 := by decide +kernel
        intro i hi l hl
        obtain ⟨e, hs⟩ := this i hi
        rw [e, Option.some.injEq] at hl
        subst hl
        refine ⟨(by unfold Printable; decide : Printable (w! "/s/m.c")), (by decide : (w! "/s/m.c") ≠ []), ?_⟩
        simp only
        omega
      · intro i hi h
        exfalso
        revert i
        decide +kernel
      · intro r hr
        simp only [bothRecs, List.mem_cons, List.not_mem_nil, or_false] at hr
        rcases hr with rfl | rfl <;> exact ⟨⟨by decide, by decide⟩, ⟨by decide, by decide⟩, by decide⟩
    rw [SitePipe.sites_eq (typeOf := typeNamed exFind) hg]
    have e : SitePipe.sorted (reports (insnsOf bothParts)) = reports (insnsOf bothParts) := List.mergeSort_of_pairwise (by decide +kernel)
    rw [e]
    decide +kernel

end Liballocs.SrcRec
