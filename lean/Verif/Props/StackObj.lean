import Verif.Model.StackObj
import Verif.Props.FrameTypes
import Verif.Props.Unwind
import Verif.Props.InnerType
/-! # C160: local variables are found with their types, from debugging information to query -/
namespace Liballocs.StackObj

open Unwind (Act Stack Calls Big shown)
open FrameTypes (Dwarf Subp Var OnStack Tidy Disjoint Layout Rec table found toEntry)
open StackFrame (Res)

/-! ## Walking up to the activation -/

/-- Where each activation's own variables begin: below are only the arguments of its calls. -/
structure Split (low : Act → Nat) (l : List Act) : Prop where
  sp : ∀ x ∈ l, x.sp ≤ low x
  fp : ∀ x ∈ l, x.fp = 0 ∨ low x ≤ x.fp
  mult : ∀ x ∈ l, 8 ∣ low x

/-- What is described of an activation is between the beginning of its variables and that of its caller's. -/
def Within (d : Nat → Option (Nat × Nat × Nat)) (low : Act → Nat) (l : List Act) : Prop :=
  ∀ x y, Calls l x y → ∀ ty size off : Nat, d x.ip = some (ty, size, off) → (low x : Int) ≤ y.sp - off ∧ (y.sp : Int) - off + size ≤ low y

theorem calls_mem : ∀ {l : List Act} {x y : Act}, Calls l x y → x ∈ l ∧ y ∈ l
  | a :: b :: r, x, y, h => by
    rcases h with ⟨rfl, rfl⟩ | h
    · simp
    · have := calls_mem h
      exact ⟨List.mem_cons_of_mem _ this.1, List.mem_cons_of_mem _ this.2⟩
  | [], _, _, h => (by cases h)
  | [_], _, _, h => (by cases h)

/-- Variables of activations further out begin higher. -/
theorem low_le {mem : Unwind.Mem} {low : Act → Nat} : ∀ {l : List Act} {a : Act}, Stack mem (a :: l) → Split low (a :: l) → ∀ x ∈ l, low a ≤ x.sp
  | [], _, _, _, _, h => (by cases h)
  | b :: r, a, h, hs, x, hx => by
    obtain ⟨h1, h2, h3, h4, h5, h6, h7, h8⟩ := h
    have ha : low a ≤ b.sp := by
      rcases hs.fp a (by simp) with h | h
      · have := hs.mult a (by simp)
        omega
      · omega
    rcases List.mem_cons.mp hx with rfl | hx
    · exact ha
    · have := low_le h8 ⟨fun x h => hs.sp x (by simp [h]), fun x h => hs.fp x (by simp [h]), fun x h => hs.mult x (by simp [h])⟩ x hx
      have := hs.sp b (by simp)
      omega

theorem visit_past {d : Nat → Option (Nat × Nat × Nat)} {obj ip hsp : Nat} {skip : Bool}
    (h : ∀ ty size off : Nat, d ip = some (ty, size, off) → (hsp : Int) - off ≤ obj ∧ (hsp : Int) - off + size ≤ obj) : visit d obj ip hsp skip = none := by
  unfold visit
  cases skip with
  | true => rfl
  | false =>
    simp only [Bool.false_eq_true, if_false]
    cases hd : d ip with
    | none => rfl
    | some p =>
      obtain ⟨ty, size, off⟩ := p
      obtain ⟨h1, h2⟩ := h ty size off hd
      simp only
      rw [if_neg (by omega), if_neg (by omega)]

theorem visit_hit {d : Nat → Option (Nat × Nat × Nat)} {obj ip hsp ty size off : Nat}
    (h : d ip = some (ty, size, off)) (h1 : (hsp : Int) - off ≤ obj) (h2 : (obj : Int) < hsp - off + size) : visit d obj ip hsp false = some (.ok (hsp - off) size ty ip) := by
  unfold visit
  rw [h]
  simp only [Bool.false_eq_true, if_false]
  rw [if_pos ⟨h1, h2⟩]

/-- An address in what is described of an activation is found there, whatever is called by it. -/
theorem walk_finds {mem : Unwind.Mem} {d : Nat → Option (Nat × Nat × Nat)} {low : Act → Nat} {top obj : Nat} (htop : 2 ^ 47 ≤ top) :
    ∀ {l : List Act} {a : Act}, Stack mem (a :: l) → (∀ x ∈ a :: l, ¬ Big x) → Split low (a :: l) → Within d low (a :: l) →
      ∀ {x y : Act}, Calls (a :: l) x y → ∀ {ty size off : Nat}, d x.ip = some (ty, size, off) → (y.sp : Int) - off ≤ obj → (obj : Int) < y.sp - off + size →
        ∀ {fuel : Nat}, l.length < fuel → ∀ old, walk mem d top obj fuel old (shown a) = some (.ok (y.sp - off) size ty x.ip)
  | [], _, _, _, _, _, _, _, hc, _, _, _, _, _, _, _, _, _ => (by cases hc)
  | b :: r, a, hst, hbig, hs, hw, x, y, hc, ty, size, off, hd, h1, h2, fuel, hf, old => by
    obtain ⟨f, rfl⟩ : ∃ f, fuel = f + 1 := ⟨fuel - 1, by omega⟩
    have hba : ¬ Big a := hbig a (by simp)
    have hbb : ¬ Big b := hbig b (by simp)
    obtain ⟨hstep, hd16⟩ := Unwind.step_shown hst hba
    have hpos : (0 : Int) < ((b.sp - a.sp : Nat) : Int) := by omega
    have hst' := hst.2.2.2.2.2.2.2
    have hs' : Split low (b :: r) := ⟨fun x h => hs.sp x (by simp at h; simp [h]), fun x h => hs.fp x (by simp at h; simp [h]), fun x h => hs.mult x (by simp at h; simp [h])⟩
    have hsp : (shown b).sp = b.sp := rfl
    have hip : (shown a).ip = a.ip := rfl
    have hbp : (shown b).bp = b.fp := by simp [shown, hbb]
    rw [walk, hstep]
    simp only
    rw [if_pos hpos, hsp, hip, hbp]
    rcases hc with ⟨rfl, rfl⟩ | hc
    · have hskip : StackFrame.skips (StackFrame.bpVar old (if (shown x).bp = 0 then none else some (shown x).bp)) (if y.fp = 0 then none else some y.fp) obj = false := by
        by_cases h0 : y.fp = 0
        · simp [h0, StackFrame.skips]
        · have := (hw x y (Or.inl ⟨rfl, rfl⟩) ty size off hd).2
          have := (hs.fp y (by simp)).resolve_left h0
          simp only [h0, if_false, StackFrame.skips, Bool.and_eq_false_imp, decide_eq_true_eq, decide_eq_false_iff_not]
          intro _
          omega
      rw [hskip, visit_hit hd h1 h2]
    · have hxy := calls_mem hc
      have hwx := hw x y (Or.inr hc) ty size off hd
      have hle : low b ≤ low x := by
        rcases List.mem_cons.mp hxy.1 with rfl | hx
        · exact Nat.le_refl _
        · have := low_le hst' hs' x hx
          have := hs'.sp x hxy.1
          omega
      have hbs := hs'.sp b (by simp)
      rw [visit_past (fun ty' size' off' hd' => by
        have := hw a b (Or.inl ⟨rfl, rfl⟩) ty' size' off' hd'
        omega)]
      simp only
      have hlt : b.sp < 2 ^ 47 := hst.2.2.2.2.2.2.1
      rw [if_neg (by omega)]
      exact walk_finds htop hst' (fun x hx => hbig x (List.mem_cons_of_mem _ hx)) hs' (fun x y h => hw x y (Or.inr h)) hc hd h1 h2 (by simpa using hf) _

/-! ## The same loop as before -/

theorem visit_same (tbl : List StackFrame.Entry) (obj ip hsp : Nat) (skip : Bool) : visit (StackFrame.pcDesc tbl) obj ip hsp skip = StackFrame.visit tbl obj ip hsp skip := rfl

def finOf : Unwind.Fin → StackFrame.Fin
  | .done => .done
  | _ => .bad

theorem walk_same {mem : Unwind.Mem} {tbl : List StackFrame.Entry} {top obj : Nat} : ∀ (fuel old : Nat) (c : Unwind.Cursor) {cs : List Unwind.Cursor} {fin : Unwind.Fin},
    Unwind.walk mem fuel c = some (cs, fin) → fin ≠ .crash →
      walk mem (StackFrame.pcDesc tbl) top obj fuel old c = some (StackFrame.walk tbl top (finOf fin) obj old (cs.map Unwind.frameOf)) ∧ ∃ r, cs = c :: r
  | 0, _, _, _, _, h, _ => (by cases h)
  | n + 1, old, c, cs, fin, h, hf => by
    rw [Unwind.walk] at h
    rw [walk]
    cases hs : Unwind.step mem c with
    | crash => rw [hs] at h; cases h; exact absurd rfl hf
    | failed => rw [hs] at h; cases h; exact ⟨rfl, [], rfl⟩
    | stop =>
      rw [hs] at h
      cases h
      exact ⟨rfl, [], rfl⟩
    | moved g ret =>
      rw [hs] at h
      simp only at h ⊢
      by_cases hr : 0 < ret
      · rw [if_pos hr] at h ⊢
        cases hw : Unwind.walk mem n g with
        | none => rw [hw] at h; cases h
        | some q =>
          obtain ⟨cs', fin'⟩ := q
          rw [hw] at h
          simp only [Option.map_some, Option.some.injEq, Prod.mk.injEq] at h
          obtain ⟨rfl, rfl⟩ := h
          obtain ⟨h1, r, rfl⟩ := walk_same (tbl := tbl) (top := top) (obj := obj) n (StackFrame.bpVar old (if c.bp = 0 then none else some c.bp)) g hw hf
          refine ⟨?_, _, rfl⟩
          rw [visit_same]
          show _ = some (StackFrame.walk tbl top (finOf fin') obj old (Unwind.frameOf c :: Unwind.frameOf g :: r.map Unwind.frameOf))
          rw [StackFrame.walk]
          show _ = some (match StackFrame.visit tbl obj c.ip g.sp (StackFrame.skips (StackFrame.bpVar old (if c.bp = 0 then none else some c.bp)) (if g.bp = 0 then none else some g.bp) obj) with
            | some r => r
            | none => if g.sp = top then .topOfStack else
              StackFrame.walk tbl top (finOf fin') obj (StackFrame.bpVar old (if c.bp = 0 then none else some c.bp)) ((g :: r).map Unwind.frameOf))
          rw [h1]
          cases StackFrame.visit tbl obj c.ip g.sp (StackFrame.skips (StackFrame.bpVar old (if c.bp = 0 then none else some c.bp)) (if g.bp = 0 then none else some g.bp) obj) with
          | some r => rfl
          | none =>
            simp only
            by_cases ht : g.sp = top
            · rw [if_pos ht, if_pos ht]
            · rw [if_neg ht, if_neg ht]
      · rw [if_neg hr] at h ⊢
        simp only [Option.some.injEq, Prod.mk.injEq] at h
        obtain ⟨rfl, rfl⟩ := h
        refine ⟨?_, [], rfl⟩
        by_cases h0 : ret = 0
        · rw [if_pos h0, if_pos h0]; rfl
        · rw [if_neg h0, if_neg h0]; rfl

/-- With one table for all code, the query is that of C48 and C78, which walks the whole stack first. -/
theorem query_same {mem : Unwind.Mem} {tbl : List StackFrame.Entry} {top obj fuel : Nat} {c : Unwind.Cursor} {r : Res} (h : Unwind.query mem tbl top obj fuel c = some r) :
    walk mem (StackFrame.pcDesc tbl) top obj fuel 0 c = some r := by
  unfold Unwind.query at h
  split at h
  · rename_i l hw
    cases h
    exact (walk_same fuel 0 c hw (by simp)).1
  · rename_i l hw
    cases h
    exact (walk_same fuel 0 c hw (by simp)).1
  · cases h

/-! ## What the files' tables say -/

def InFile (f : LoadedFile) (ip : Nat) : Prop := f.lo ≤ ip ∧ ip < f.hi

/-- A file whose metadata were generated from this debugging information. -/
structure Built (num : Layout → Nat) (D : Dwarf) (subps : List Subp) (f : LoadedFile) : Prop where
  tidy : Tidy D subps
  frames : ∃ (tbl : List Rec) (esz : Nat), table D subps = some tbl ∧ 0 < esz ∧ f.frames = initFrames esz (some (some (esz * tbl.length, tbl.map (toEntry num))))
  base : f.base ≤ f.lo
  hi : f.hi ≤ 2 ^ 64

/-- Loaded files do not overlap. -/
def Apart (files : List LoadedFile) : Prop := files.Pairwise fun f g => ∀ ip, InFile f ip → ¬ InFile g ip

theorem fileAt_of : ∀ {files : List LoadedFile}, Apart files → ∀ {f : LoadedFile} {ip : Nat}, f ∈ files → InFile f ip → fileAt files ip = some f
  | [], _, _, _, h, _ => (by cases h)
  | g :: r, ha, f, ip, h, hi => by
    have ha' := List.pairwise_cons.mp ha
    unfold fileAt
    rcases List.mem_cons.mp h with rfl | h
    · rw [List.find?_cons_of_pos (by simpa [InFile] using hi)]
    · have : ¬ InFile g ip := fun hg => ha'.1 f h ip hg hi
      rw [List.find?_cons_of_neg (by simpa [InFile] using this)]
      exact fileAt_of ha'.2 h hi

theorem Built.some {num : Layout → Nat} {D : Dwarf} {subps : List Subp} {f : LoadedFile} (h : Built num D subps f) :
    ∃ tbl, table D subps = some tbl ∧ f.frames = some (tbl.map (toEntry num)) := by
  obtain ⟨tbl, esz, h1, h2, h3⟩ := h.frames
  refine ⟨tbl, h1, ?_⟩
  rw [h3, initFrames, Nat.mul_div_cancel_left _ h2]
  congr 1
  exact List.take_of_length_le (by simp)

theorem describe_built {num : Layout → Nat} {D : Dwarf} {subps : List Subp} {f : LoadedFile} (h : Built num D subps f) {files : List LoadedFile} (ha : Apart files)
    (hf : f ∈ files) {ip : Nat} (hi : InFile f ip) {tbl : List Rec} (ht : table D subps = some tbl) :
    describe files ip = (found tbl (ip - f.base)).map (fun r => (num r.lay, r.lay.size, r.off)) := by
  obtain ⟨tbl', h1, h2⟩ := h.some
  rw [ht] at h1
  cases h1
  have hb := h.base
  have hh := h.hi
  have hlo := hi.1
  have hhi := hi.2
  have hpc : (ip + (2 ^ 64 - f.base)) % 2 ^ 64 = ip - f.base := by omega
  unfold describe
  rw [fileAt_of ha hf hi]
  simp only [h2]
  rw [hpc, StackFrame.pcDesc, FrameTypes.search_map]
  cases found tbl (ip - f.base) <;> rfl

/-- An activation of a function whose variables on the stack are known, between `low x` and `low y`. -/
structure Framed (D : Dwarf) (s : Subp) (pc : Nat) (low : Act → Nat) (x y : Act) : Prop where
  live : ∃ v ty size off, OnStack D s pc v ty size off
  disjoint : Disjoint D s pc
  above : ∀ pc' v ty size off, OnStack D s pc' v ty size off → (low x : Int) ≤ y.sp + off
  below : ∀ v ty n off, OnStack D s pc v ty (some n) off → (y.sp : Int) + off + n ≤ low y

/-- What is known of an activation. -/
inductive Told (files : List LoadedFile) (num : Layout → Nat) (low : Act → Nat) (x y : Act) : Prop
  /-- Its code is in no file. -/
  | unfiled : (∀ f ∈ files, ¬ InFile f x.ip) → Told files num low x y
  /-- It is in a file without metadata. -/
  | bare (f : LoadedFile) : f ∈ files → InFile f x.ip → f.frames = none → Told files num low x y
  /-- It is below all code that has variables on the stack. -/
  | early (f : LoadedFile) (D : Dwarf) (subps : List Subp) : f ∈ files → InFile f x.ip → Built num D subps f →
    (∀ s ∈ subps, ∀ pc, pc + f.base ≤ x.ip → ∀ v ty size off, ¬ OnStack D s pc v ty size off) → Told files num low x y
  /-- It has variables on the stack. -/
  | frame (f : LoadedFile) (D : Dwarf) (subps : List Subp) (s : Subp) : f ∈ files → InFile f x.ip → Built num D subps f → s ∈ subps →
    Framed D s (x.ip - f.base) low x y → Told files num low x y

/-- A record begins where some variable is on the stack. -/
theorem begins {D : Dwarf} {subps : List Subp} (h : Tidy D subps) {tbl : List Rec} (ht : table D subps = some tbl) {r : Rec} (hr : r ∈ tbl) :
    ∃ s ∈ subps, ∃ v ty size off, OnStack D s r.lo v ty size off := by
  obtain ⟨_, k2, _⟩ := FrameTypes.table_spec h ht
  obtain ⟨s, hs, rs, e1, e2⟩ := k2 r hr
  obtain ⟨foff, m, hsay, hm⟩ := FrameTypes.subpRecs_spec (h.each s hs) e1
  obtain ⟨t, ht', rfl⟩ := (hm r).mp e2
  obtain ⟨e, he⟩ := FrameTypes.dom_at hsay.ordered ht' (Nat.le_refl _) (hsay.ordered.low t ht').2.1
  obtain ⟨v, hv, _⟩ := (hsay.at_iff _ e).mp he
  exact ⟨s, hs, v, _, _, _, hv⟩

/-- A frame's base and end are within its bounds. -/
theorem frame_bounds {D : Dwarf} {subps : List Subp} (h : Tidy D subps) {tbl : List Rec} (ht : table D subps = some tbl) {s : Subp} (hs : s ∈ subps) {pc : Nat}
    {low : Act → Nat} {x y : Act} (hf : Framed D s pc low x y) (h8 : 8 ∣ y.sp) (h8' : 8 ∣ low x) (hxy : low x ≤ y.sp) (hy : y.sp ≤ low y) :
    ∃ r, found tbl pc = some r ∧ (low x : Int) ≤ y.sp - r.off ∧ (y.sp : Int) - r.off + r.lay.size ≤ low y := by
  obtain ⟨v, ty, size, off, hv⟩ := hf.live
  obtain ⟨r, g1, g2, g3, _⟩ := FrameTypes.member_partial h ht hs hv
  obtain ⟨n, rfl, _, _⟩ := hf.disjoint.sized _ _ _ _ hv
  obtain ⟨_, w, ty', n', off', hw, hsz⟩ := FrameTypes.size_partial h ht hs hf.disjoint g1 hv
  obtain ⟨foff, k1, k2, k3, k4⟩ := FrameTypes.offset_partial h ht hs
  have hro := k2 r (FrameTypes.found_mem g1).1 g2
  refine ⟨r, g1, ?_, ?_⟩
  · rcases k4 with k4 | ⟨pc', v', ty', size', off', hv', k4⟩
    · omega
    · have := hf.above _ _ _ _ _ hv'
      omega
  · have := hf.below _ _ _ _ hw
    omega

/-- So everything described is in its activation. -/
theorem told_within {files : List LoadedFile} (ha : Apart files) {num : Layout → Nat} {low : Act → Nat} {x y : Act} (h : Told files num low x y)
    (h8 : 8 ∣ y.sp) (h8' : 8 ∣ low x) (hxy : low x ≤ y.sp) (hy : y.sp ≤ low y) {ty size off : Nat} (hd : describe files x.ip = some (ty, size, off)) :
    (low x : Int) ≤ y.sp - off ∧ (y.sp : Int) - off + size ≤ low y := by
  cases h with
  | unfiled h =>
    have : fileAt files x.ip = none := by
      unfold fileAt
      rw [List.find?_eq_none]
      intro f hf
      simpa [InFile] using h f hf
    rw [describe, this] at hd
    cases hd
  | bare f hf hi h0 =>
    rw [describe, fileAt_of ha hf hi] at hd
    simp only [h0] at hd
    cases hd
  | early f D subps hf hi hb he =>
    obtain ⟨tbl, ht, _⟩ := hb.some
    rw [describe_built hb ha hf hi ht] at hd
    cases hr : found tbl (x.ip - f.base) with
    | none => rw [hr] at hd; cases hd
    | some r =>
      obtain ⟨q1, q2⟩ := FrameTypes.found_mem hr
      obtain ⟨s, hs, v, ty, size, off, hv⟩ := begins hb.tidy ht q1
      have := hb.base
      have := hi.1
      exact absurd hv (he s hs _ (by omega) _ _ _ _)
  | frame f D subps s hf hi hb hs hfr =>
    obtain ⟨tbl, ht, _⟩ := hb.some
    rw [describe_built hb ha hf hi ht] at hd
    obtain ⟨r, g1, g2, g3⟩ := frame_bounds hb.tidy ht hs hfr h8 h8' hxy hy
    rw [g1] at hd
    simp only [Option.map_some, Option.some.injEq, Prod.mk.injEq] at hd
    obtain ⟨_, rfl, rfl⟩ := hd
    exact ⟨g2, g3⟩

theorem within_of {mem : Unwind.Mem} {files : List LoadedFile} (ha : Apart files) {num : Layout → Nat} {low : Act → Nat} : ∀ {l : List Act} {a : Act},
    Stack mem (a :: l) → Split low (a :: l) → (∀ x y, Calls (a :: l) x y → Told files num low x y) → Within (describe files) low (a :: l)
  | [], _, _, _, _, _, _, h => (by cases h)
  | b :: r, a, hst, hs, ht, x, y, hc => by
    intro ty size off hd
    have hs' : Split low (b :: r) := ⟨fun x h => hs.sp x (by simp at h; simp [h]), fun x h => hs.fp x (by simp at h; simp [h]), fun x h => hs.mult x (by simp at h; simp [h])⟩
    rcases hc with ⟨rfl, rfl⟩ | hc
    · have h8 : 8 ∣ y.sp := by
        have := hst.2.1
        have := hst.2.2.2.2.1
        omega
      exact told_within ha (ht x y (Or.inl ⟨rfl, rfl⟩)) h8 (hs.mult x (by simp)) (low_le hst hs y (by simp)) (hs.sp y (by simp)) hd
    · exact within_of ha hst.2.2.2.2.2.2.2 hs' (fun x y h => ht x y (Or.inr h)) x y hc ty size off hd

/-! ## Queries -/

/-- A query for an address in a local variable of an activation, however many calls deep, finds the activation, in bounds that contain the variable.
Missing: activations of 64 KiB or more and code without frame pointers (`Unwind`), callers in gaps between descriptions (`FrameTypes.gap_fails`), overlapping variables. -/
theorem info_partial {mem : Unwind.Mem} {files : List LoadedFile} (ha : Apart files) {num : Layout → Nat} {low : Act → Nat} {l : List Act} {a : Act}
    (hst : Stack mem (a :: l)) (hbig : ∀ x ∈ a :: l, ¬ Big x) (hs : Split low (a :: l)) (ht : ∀ x y, Calls (a :: l) x y → Told files num low x y)
    {x y : Act} (hc : Calls (a :: l) x y) {f : LoadedFile} {D : Dwarf} {subps : List Subp} {s : Subp} (hf : f ∈ files) (hi : InFile f x.ip) (hb : Built num D subps f)
    (hsub : s ∈ subps) (hfr : Framed D s (x.ip - f.base) low x y) {v : Var} {ty n : Nat} {off : Int} (hv : OnStack D s (x.ip - f.base) v ty (some n) off)
    {obj : Nat} (h1 : (y.sp : Int) + off ≤ obj) (h2 : (obj : Int) < y.sp + off + n) {top fuel : Nat} (htop : 2 ^ 47 ≤ top) (hfuel : l.length < fuel) :
    ∃ tbl, table D subps = some tbl ∧ ∃ r, found tbl (x.ip - f.base) = some r ∧
      getInfo mem files top obj fuel (shown a) = some (.ok (y.sp - r.off) r.lay.size (num r.lay) x.ip) ∧
      (y.sp : Int) - r.off ≤ y.sp + off ∧ (y.sp : Int) + off + n ≤ y.sp - r.off + r.lay.size ∧ (x.sp : Int) ≤ y.sp - r.off := by
  obtain ⟨tbl, htb, _⟩ := hb.some
  obtain ⟨r, g1, g2, _, o, _, g5⟩ := FrameTypes.member_partial hb.tidy htb hsub hv
  obtain ⟨g6, _⟩ := FrameTypes.size_partial hb.tidy htb hsub hfr.disjoint g1 hv
  have hw := within_of ha hst hs ht
  have hd : describe files x.ip = some (num r.lay, r.lay.size, r.off) := by rw [describe_built hb ha hf hi htb, g1]; rfl
  have hx := (hw x y hc _ _ _ hd).1
  have hx' := hs.sp x (calls_mem hc).1
  exact ⟨tbl, htb, r, g1, walk_finds htop hst hbig hs hw hc hd (by omega) (by omega) hfuel 0, by omega, by omega, by omega⟩

theorem members_sorted {D : Dwarf} {subps : List Subp} (h : Tidy D subps) {tbl : List Rec} (ht : table D subps = some tbl) {r : Rec} (hr : r ∈ tbl) :
    r.lay.members.Pairwise (fun a b => a.1 ≤ b.1) := by
  obtain ⟨_, k2, _⟩ := FrameTypes.table_spec h ht
  obtain ⟨s, hs, rs, e1, e2⟩ := k2 r hr
  obtain ⟨foff, m, hsay, hm⟩ := FrameTypes.subpRecs_spec (h.each s hs) e1
  obtain ⟨t, ht', rfl⟩ := (hm r).mp e2
  have hrange : ∀ e ∈ t.els, 0 ≤ e.off + foff ∧ e.off + foff < 2 ^ 32 := by
    intro e he
    have := hsay.small t ht' e he
    have := hsay.bound
    exact ⟨hsay.nonneg t ht' e he, by omega⟩
  simp only [FrameTypes.layout, List.pairwise_map]
  refine List.Pairwise.imp_of_mem ?_ (hsay.inner t ht')
  intro e e' he he' hlt
  have := hrange e he
  have := hrange e' he'
  rw [FrameTypes.elLt_iff] at hlt
  omega

theorem descend_c (env : Subobject.Env) : ∀ (f u t c c' : Nat), (InnerType.descend env f u t c).map (·.1) = (InnerType.descend env f u t c').map (·.1)
  | 0, _, _, _, _ => rfl
  | f + 1, u, t, c, c' => by
    rw [InnerType.descend, InnerType.descend]
    cases h : InnerType.first env u t with
    | none => rfl
    | some p => cases p with
      | none => rfl
      | some q => rfl

theorem getInner_eq (env : Subobject.Env) (f start sz u obj : Nat) (hu : u ≠ 0) :
    InnerType.getInner env (fun _ => none) f (.ok start sz u) obj 0 =
      match (InnerType.descend env f u ((obj - start) % 2 ^ 32) 0).map (·.1) with
      | none => .crash
      | some v => .ret v := by
  unfold InnerType.getInner
  simp only [if_neg hu]
  cases InnerType.descend env f u ((obj - start) % 2 ^ 32) 0 <;> rfl

/-- The types of the file's frames are as written, and not null. -/
def Typed (env : Subobject.Env) (num : Layout → Nat) (D : Dwarf) (subps : List Subp) : Prop :=
  ∀ tbl, table D subps = some tbl → ∀ r ∈ tbl, num r.lay ≠ 0 ∧ env (num r.lay) = .comp r.lay.size r.lay.members

/-- The variable shares no memory with another. -/
def Alone (D : Dwarf) (s : Subp) (pc : Nat) (v : Var) (n : Nat) (off : Int) : Prop :=
  ∀ w ty' n' off', OnStack D s pc w ty' (some n') off' → (w = v ∧ off' = off) ∨ off + n ≤ off' ∨ off' + n' ≤ off

/-- The type found is what it would be for an object of the variable's type that is on its own, at the variable's place. -/
theorem type_partial {mem : Unwind.Mem} {files : List LoadedFile} (ha : Apart files) {num : Layout → Nat} {low : Act → Nat} {l : List Act} {a : Act}
    (hst : Stack mem (a :: l)) (hbig : ∀ x ∈ a :: l, ¬ Big x) (hs : Split low (a :: l)) (ht : ∀ x y, Calls (a :: l) x y → Told files num low x y)
    {x y : Act} (hc : Calls (a :: l) x y) {f : LoadedFile} {D : Dwarf} {subps : List Subp} {s : Subp} (hf : f ∈ files) (hi : InFile f x.ip) (hb : Built num D subps f)
    (hsub : s ∈ subps) (hfr : Framed D s (x.ip - f.base) low x y) {v : Var} {ty n : Nat} {off : Int} (hv : OnStack D s (x.ip - f.base) v ty (some n) off)
    (hal : Alone D s (x.ip - f.base) v n off) {env : Subobject.Env} (henv : Typed env num D subps) (hty : ty ≠ 0)
    {obj : Nat} (h1 : (y.sp : Int) + off ≤ obj) (h2 : (obj : Int) < y.sp + off + n) {top fuel : Nat} (htop : 2 ^ 47 ≤ top) (hfuel : l.length < fuel) (depth : Nat) :
    innermost env mem files top obj fuel (shown a) (depth + 1) = InnerType.getInner env (fun _ => none) depth (.ok (y.sp + off).toNat n ty) obj 0 := by
  obtain ⟨tbl, htb, r, g1, g2, g3, g4, g5⟩ := info_partial ha hst hbig hs ht hc hf hi hb hsub hfr hv h1 h2 htop hfuel
  obtain ⟨r', g1', g6, g7, o, g8, g9⟩ := FrameTypes.member_partial hb.tidy htb hsub hv
  rw [g1] at g1'
  cases g1'
  obtain ⟨q1, q2⟩ := FrameTypes.found_mem g1
  obtain ⟨e1, e2⟩ := henv tbl htb r q1
  obtain ⟨s', hs', hdie, hlive⟩ := FrameTypes.live_partial hb.tidy htb g1 g7
  have hss := hb.tidy.dies s' hs' s hsub (by rw [← hdie, g6])
  subst hss
  have hsize : r.lay.size < 2 ^ 32 := by
    obtain ⟨_, k2, _⟩ := FrameTypes.table_spec hb.tidy htb
    obtain ⟨s, hs, rs, e1, e2⟩ := k2 r q1
    obtain ⟨foff, m, hsay, hm⟩ := FrameTypes.subpRecs_spec (hb.tidy.each s hs) e1
    obtain ⟨t, ht', rfl⟩ := (hm r).mp e2
    exact Nat.mod_lt _ (by omega)
  obtain ⟨_, hn, _, hn30⟩ := hfr.disjoint.sized _ _ _ _ hv
  cases hn
  unfold innermost
  rw [g2]
  simp only
  rw [getInner_eq _ _ _ _ _ _ e1, getInner_eq _ _ _ _ _ _ hty]
  have hoff : (obj - ((y.sp : Int) - r.off).toNat) % 2 ^ 32 = obj - ((y.sp : Int) - r.off).toNat := by omega
  have hoff' : (obj - ((y.sp : Int) + off).toNat) % 2 ^ 32 = obj - ((y.sp : Int) + off).toNat := by omega
  rw [hoff, hoff']
  generalize hT : obj - ((y.sp : Int) - r.off).toNat = T
  have hTo : o ≤ T ∧ T < o + n := by omega
  have hrest : obj - ((y.sp : Int) + off).toNat = T - o := by omega
  rw [hrest]
  -- the first step is into the variable
  have hfirst : InnerType.first env (num r.lay) T = some (some (ty, T - o)) := by
    unfold InnerType.first
    rw [e2]
    simp only
    rcases Subobject.firstMember_spec (members_sorted hb.tidy htb q1) T with ⟨_, h⟩ | ⟨lo, g, h3, h4, h5, _, _⟩
    · have := h _ g8
      simp only at this
      omega
    · rw [h3]
      simp only [h4]
      have hg := List.mem_of_getElem? h4
      unfold Subobject.isNear at h5
      simp only [decide_eq_true_eq] at h5
      have hle := h5.2 _ g8 hTo.1
      simp only at hle
      obtain ⟨w, size, hw⟩ := hlive g.1 g.2 hg
      obtain ⟨n', rfl, hn', _⟩ := hfr.disjoint.sized _ _ _ _ hw
      rcases hal _ _ _ _ hw with ⟨rfl, h6⟩ | h6 | h6
      · have h7 := hw.2.1
        rw [hv.2.1] at h7
        simp only [Option.some.injEq, Prod.mk.injEq] at h7
        rw [← h7.1, show g.1 = o by omega]
      · omega
      · omega
  rw [InnerType.descend, hfirst]
  simp only
  rw [descend_c env depth ty (T - o) (num r.lay) 0]

/-- A variable of a type with no contained objects is found to have this type. -/
theorem simple_partial {mem : Unwind.Mem} {files : List LoadedFile} (ha : Apart files) {num : Layout → Nat} {low : Act → Nat} {l : List Act} {a : Act}
    (hst : Stack mem (a :: l)) (hbig : ∀ x ∈ a :: l, ¬ Big x) (hs : Split low (a :: l)) (ht : ∀ x y, Calls (a :: l) x y → Told files num low x y)
    {x y : Act} (hc : Calls (a :: l) x y) {f : LoadedFile} {D : Dwarf} {subps : List Subp} {s : Subp} (hf : f ∈ files) (hi : InFile f x.ip) (hb : Built num D subps f)
    (hsub : s ∈ subps) (hfr : Framed D s (x.ip - f.base) low x y) {v : Var} {ty n : Nat} {off : Int} (hv : OnStack D s (x.ip - f.base) v ty (some n) off)
    (hal : Alone D s (x.ip - f.base) v n off) {env : Subobject.Env} (henv : Typed env num D subps) (hty : ty ≠ 0) (hsim : ∃ k, env ty = .other k)
    {obj : Nat} (h1 : (y.sp : Int) + off ≤ obj) (h2 : (obj : Int) < y.sp + off + n) {top fuel : Nat} (htop : 2 ^ 47 ≤ top) (hfuel : l.length < fuel) (depth : Nat) :
    innermost env mem files top obj fuel (shown a) (depth + 2) = .ret ty := by
  rw [type_partial ha hst hbig hs ht hc hf hi hb hsub hfr hv hal henv hty h1 h2 htop hfuel, getInner_eq _ _ _ _ _ _ hty, InnerType.descend]
  obtain ⟨k, hk⟩ := hsim
  have : ∀ t, InnerType.first env ty t = some none := by intro t; unfold InnerType.first; rw [hk]
  rw [this]
  rfl

/-! ## A concrete case -/

open FrameTypes (exD exS exT exTbl)

/-- A function called through a library without metadata by a function with three variables on the stack. -/
def exA : Act := ⟨0x7fff0000, 0x7fff0010, 0x10000 + 4170⟩
def exB : Act := ⟨0x7fff0020, 0x7fff0100, 0x90010⟩
def exC : Act := ⟨0x7fff0110, 0x7fff0200, 0x10000 + 4120⟩
def exE : Act := ⟨0x7fff0210, 0, 0xffff0000⟩

def exMem : Unwind.Mem := fun a =>
  if a = 0x7fff0010 then some 0x7fff0100 else if a = 0x7fff0018 then some 0x90010 else if a = 0x7fff0100 then some 0x7fff0200
  else if a = 0x7fff0108 then some (0x10000 + 4120) else if a = 0x7fff0200 then some 0 else if a = 0x7fff0208 then some 0xffff0000 else none

def exLow (x : Act) : Nat := if x = exA then 0x7fff0008 else if x = exB then 0x7fff0020 else if x = exC then 0x7fff01e8 else 0x7fff0228

def exNum (lay : Layout) : Nat := 100 + (lay.members.map (·.1)).sum

def exEnv : Subobject.Env := fun u =>
  if u = 156 then .comp 64 [(56, 20)] else if u = 172 then .comp 64 [(16, 21), (56, 20)] else if u = 176 then .comp 64 [(4, 22), (16, 21), (56, 20)]
  else if u = 160 then .comp 64 [(4, 22), (56, 20)] else if u = 100 then .comp 8 [(0, 23)] else if u = 21 then .arr 16 22 4 else if u = 22 then .other 4 else .other 8

def exF : LoadedFile := ⟨0x10000, 0x20000, 0x10000, initFrames 24 (some (some (24 * 6, exTbl.map (toEntry exNum))))⟩
def exG : LoadedFile := ⟨0x90000, 0x91000, 0x90000, initFrames 24 none⟩

example : innermost exEnv exMem [exF, exG] (2 ^ 47) (0x7fff0210 - 12) 9 (shown exA) 4 = .ret 22 := by decide +kernel

theorem ex_stack : Stack exMem [exA, exB, exC, exE] := by simp [Stack, exMem, exA, exB, exC, exE]

theorem ex_built : Built exNum exD [exS, exT] exF :=
  ⟨FrameTypes.ex_tidy, ⟨exTbl, 24, by decide +kernel, by omega, rfl⟩, by simp [exF], by simp [exF]⟩

theorem exS_on {pc : Nat} {v : Var} {ty : Nat} {size : Option Nat} {off : Int} (h : OnStack exD exS pc v ty size off) :
    (v.die = 2 ∧ size = some 8 ∧ off = 16) ∨ (v.die = 3 ∧ size = some 16 ∧ off = -24) ∨ (v.die = 4 ∧ size = some 4 ∧ off = -36) := by
  obtain ⟨hv, ht, l, hl, hc, hp⟩ := h
  simp only [exS, List.mem_cons, List.not_mem_nil, or_false] at hv
  rcases hv with rfl | rfl | rfl <;> simp only [List.mem_cons, List.not_mem_nil, or_false] at hl
  · subst hl; simp [exD] at hp ht; simp [← ht.2]; omega
  · subst hl; simp [exD] at hp ht; simp [← ht.2]; omega
  · rcases hl with rfl | rfl
    · simp [exD] at hp
    · simp [exD] at hp ht; simp [← ht.2]; omega

theorem exT_on {pc : Nat} {v : Var} {ty : Nat} {size : Option Nat} {off : Int} (h : OnStack exD exT pc v ty size off) : v.die = 10 ∧ size = some 8 ∧ off = -8 := by
  obtain ⟨hv, ht, l, hl, hc, hp⟩ := h
  simp only [exT, List.mem_cons, List.not_mem_nil, or_false] at hv
  subst hv
  simp only [List.mem_cons, List.not_mem_nil, or_false] at hl
  subst hl; simp [exD] at hp ht; simp [← ht.2]; omega

theorem exS_live : OnStack exD exS 4120 ⟨3, some (21, some 16), [⟨8, 40, 976⟩]⟩ 21 (some 16) (-24) :=
  ⟨by simp [exS], rfl, ⟨8, 40, 976⟩, by simp, .some (by decide) rfl (by decide) (by decide), by decide⟩

theorem exT_live : OnStack exD exT 4170 ⟨10, some (23, some 8), [⟨64, 96, 992⟩]⟩ 23 (some 8) (-8) :=
  ⟨by simp [exT], rfl, ⟨64, 96, 992⟩, by simp, .some (by decide) rfl (by decide) (by decide), by decide⟩

theorem ex_frameS : Framed exD exS 4120 exLow exC exE := by
  refine ⟨⟨_, _, _, _, exS_live⟩, FrameTypes.ex_disjoint, ?_, ?_⟩
  · intro pc' v ty size off h
    have : exLow exC = 0x7fff01e8 := by decide
    rcases exS_on h with ⟨_, _, h⟩ | ⟨_, _, h⟩ | ⟨_, _, h⟩ <;> rw [this, h] <;> decide
  · intro v ty n off h
    have : exLow exE = 0x7fff0228 := by decide
    rcases exS_on h with ⟨_, hn, ho⟩ | ⟨_, hn, ho⟩ | ⟨_, hn, ho⟩ <;> cases hn <;> rw [this, ho] <;> decide

theorem ex_frameT : Framed exD exT 4170 exLow exA exB := by
  refine ⟨⟨_, _, _, _, exT_live⟩, ⟨fun v ty size off h => ⟨8, (exT_on h).2.1, by omega, by omega⟩, ?_⟩, ?_, ?_⟩
  · intro v w ty ty' n n' off off' hv hw
    have h1 := exT_on hv
    have h2 := exT_on hw
    exact Or.inl ⟨(FrameTypes.ex_tidy.each exT (by simp)).dies v hv.1 w hw.1 (by omega), by omega⟩
  · intro pc' v ty size off h
    have : exLow exA = 0x7fff0008 := by decide
    rw [this, (exT_on h).2.2]
    decide
  · intro v ty n off h
    have : exLow exB = 0x7fff0020 := by decide
    obtain ⟨_, hn, ho⟩ := exT_on h
    cases hn
    rw [this, ho]
    decide

theorem ex_apart : Apart [exF, exG] := by
  simp [Apart, InFile, exF, exG]
  omega

theorem ex_told : ∀ x y, Calls [exA, exB, exC, exE] x y → Told [exF, exG] exNum exLow x y := by
  intro x y h
  rcases h with ⟨rfl, rfl⟩ | ⟨rfl, rfl⟩ | ⟨rfl, rfl⟩ | h
  · exact .frame exF exD [exS, exT] exT (by simp) (by simp [InFile, exF, exA]) ex_built (by simp) ex_frameT
  · exact .bare exG (by simp) (by simp [InFile, exG, exB]) rfl
  · exact .frame exF exD [exS, exT] exS (by simp) (by simp [InFile, exF, exC]) ex_built (by simp) ex_frameS
  · cases h

theorem ex_typed : Typed exEnv exNum exD [exS, exT] := by
  intro tbl ht r hr
  have : table exD [exS, exT] = some exTbl := by decide +kernel
  rw [this] at ht
  cases ht
  simp only [exTbl, List.mem_cons, List.not_mem_nil, or_false] at hr
  rcases hr with rfl | rfl | rfl | rfl | rfl | rfl <;> exact ⟨by decide, rfl⟩

/-- The array in the third activation: the query, by the theorem, finds the type of its elements. -/
example : innermost exEnv exMem [exF, exG] (2 ^ 47) (0x7fff0210 - 12) 9 (shown exA) 4 = .ret 22 := by
  rw [type_partial (num := exNum) (low := exLow) ex_apart ex_stack (by decide) ⟨by decide, by decide, by decide⟩ ex_told (x := exC) (y := exE) (Or.inr (Or.inr (Or.inl ⟨rfl, rfl⟩)))
    (f := exF) (by simp) (by simp [InFile, exF, exC]) ex_built (s := exS) (by simp) ex_frameS exS_live (env := exEnv)
    (by
      intro w ty' n' off' hw
      have d := (FrameTypes.ex_tidy.each exS (by simp)).dies w hw.1 _ exS_live.1
      rcases exS_on hw with ⟨h1, h2, h3⟩ | ⟨h1, h2, h3⟩ | ⟨h1, h2, h3⟩ <;> cases h2
      · right; omega
      · exact Or.inl ⟨d h1, h3⟩
      · right; omega) ex_typed (by decide) (by decide) (by decide) (Nat.le_refl _) (by simp) 3]
  decide +kernel

/-! ## What fails -/

/-- A function without variables on the stack, after `exS` in the file, is called by `exS`. -/
def gapX : Act := ⟨0x7fff0000, 0x7fff0010, 0x10000 + 8300⟩
def gapY : Act := ⟨0x7fff0020, 0x7fff0038, 0x10000 + 4120⟩
def gapZ : Act := ⟨0x7fff0048, 0, 0xffff0000⟩

def gapMem : Unwind.Mem := fun a =>
  if a = 0x7fff0010 then some 0x7fff0038 else if a = 0x7fff0018 then some (0x10000 + 4120) else if a = 0x7fff0038 then some 0
  else if a = 0x7fff0040 then some 0xffff0000 else none

/-- The stale description of the called function's code has a parameter that is the caller's array: a query for the array finds the parameter's type. -/
theorem gap_query_fails : Stack gapMem [gapX, gapY, gapZ] ∧ Built exNum exD [exS, exT] exF ∧ InFile exF gapX.ip ∧ InFile exF gapY.ip ∧
    (∀ s ∈ [exS, exT], ∀ v ty size off, ¬ OnStack exD s (gapX.ip - exF.base) v ty size off) ∧
    OnStack exD exS (gapY.ip - exF.base) ⟨3, some (21, some 16), [⟨8, 40, 976⟩]⟩ 21 (some 16) (-24) ∧
    innermost exEnv gapMem [exF, exG] (2 ^ 47) (gapZ.sp - 24) 9 (shown gapX) 4 = .ret 20 ∧
    InnerType.getInner exEnv (fun _ => none) 4 (.ok (gapZ.sp - 24) 16 21) (gapZ.sp - 24) 0 = .ret 22 := by
  refine ⟨by simp [Stack, gapMem, gapX, gapY, gapZ], ex_built, by simp [InFile, exF, gapX], by simp [InFile, exF, gapY], ?_, exS_live, by decide +kernel, by decide +kernel⟩
  intro s hs v ty size off ⟨hv, _, l, hl, hc, _⟩
  have := (FrameTypes.ex_tidy.each s hs).inside v hv l hl _ hc
  simp only [List.mem_cons, List.not_mem_nil, or_false] at hs
  rcases hs with rfl | rfl <;> simp [FrameTypes.InRanges, exS, exT, gapX, exF] at this

end Liballocs.StackObj
