import Verif.Model.LdSoWalk
import Verif.Props.Detour

/-!
# C177 All of the dynamic linker's allocation functions are detoured, each to its own detour
-/

namespace Liballocs.LdSoWalk

open Detour

/-! ## What is claimed -/

/-- The name that is looked for. -/
def label : Fn → List Char
  | .malloc => w! "__minimal_malloc"
  | .calloc => w! "__minimal_calloc"
  | .realloc => w! "__minimal_realloc"
  | .free => w! "__minimal_free"

/-- Function `f` is at `a`: a symbol has its name. -/
def At (e : Env) (l : List Sym) (f : Fn) (a : Nat) : Prop := ∃ y ∈ l, y.name = label f ∧ y.defined = true ∧ a = e.base + y.value

/-- The function at `a`, as it was in `m`, is detoured in `m'`: it begins with a jump to the detour; the variable has the address `t`; there the function's first
instructions are, `n` bytes in all, with what they refer to, and then a jump to the rest of the function. -/
def Detoured (dec : Mem → Nat → Info) (m m' : Mem) (detour slot a t n : Nat) : Prop :=
  ∃ fs, Whole (dec m) a n fs ∧ 5 ≤ n ∧ n ≤ 19 ∧ JumpsTo m' a detour ∧ rd m' slot 8 = t ∧
    (∀ i, i < n → (∀ f ∈ fs, i < f.1 ∨ f.1 + size f.2 ≤ i) → m' (t + i) = m (a + i)) ∧
    (∀ f ∈ fs, refers m' (t + f.1) f.2 = refers m (a + f.1) f.2) ∧ JumpsTo m' (t + n) ((a + n : Nat) : Int)

/-- Two regions do not overlap. -/
def Apart (a n b k : Nat) : Prop := a + n ≤ b ∨ b + k ≤ a

/-- A decoder: it looks at the bytes of the instruction only. -/
structure Decoder (dec : Mem → Nat → Info) : Prop where
  sane : ∀ m, Sane (dec m)
  bytes : ∀ m m' a, (∀ i, i < (dec m a).len → m' (a + i) = m (a + i)) → dec m' a = dec m a

/-- What is needed of the functions found, with `lo` the beginning of some two gigabytes that everything is in: they can be decoded, each is found once, they are
apart from each other and from the variables. -/
structure Good (dec : Mem → Nat → Info) (e : Env) (m : Mem) (lo : Nat) (l : List (Fn × Nat)) : Prop where
  len : ∀ x ∈ l, ∀ n, n < 5 → (dec m (x.2 + n)).len ≠ 0
  low : ∀ x ∈ l, e.base ≤ x.2
  high : ∀ x ∈ l, x.2 + 64 < lo + 2 ^ 31
  detour : ∀ x ∈ l, lo ≤ e.detour x.1 ∧ e.detour x.1 < lo + 2 ^ 31
  refs : ∀ x ∈ l, ∀ n fs, Whole (dec m) x.2 n fs → n ≤ 19 → ∀ f ∈ fs, f.2 = .pc32 →
    lo + 64 ≤ refers m (x.2 + f.1) .pc32 ∧ refers m (x.2 + f.1) .pc32 < lo + 2 ^ 31
  slotFn : ∀ x ∈ l, ∀ y ∈ l, Apart x.2 24 (e.slot y.1) 8
  slotBuf : ∀ x ∈ l, Apart (e.base - 8192) 8192 (e.slot x.1) 8
  slots : l.Pairwise (fun x y => Apart (e.slot x.1) 8 (e.slot y.1) 8)
  once : l.Pairwise (fun x y => x.1 ≠ y.1 ∧ Apart x.2 24 y.2 24)

/-! ## Proofs -/

theorem which_iff (n : List Char) (f : Fn) : which n = some f ↔ n = label f := by
  unfold which
  cases f <;> (repeat' split) <;> simp_all [label]

/-- The functions found. -/
def found (e : Env) (l : List Sym) : List (Fn × Nat) := l.filterMap (fun y => (which y.name).map (fun f => (f, e.base + y.value)))

theorem mem_found {e : Env} {l : List Sym} {f : Fn} {a : Nat} : (f, a) ∈ found e l ↔ ∃ y ∈ l, y.name = label f ∧ a = e.base + y.value := by
  unfold found
  simp only [List.mem_filterMap, Option.map_eq_some_iff, Prod.mk.injEq]
  constructor
  · rintro ⟨y, hy, g, hg, rfl, rfl⟩
    exact ⟨y, hy, (which_iff _ _).mp hg, rfl⟩
  · rintro ⟨y, hy, hg, rfl⟩
    exact ⟨y, hy, f, (which_iff _ _).mpr hg, rfl, rfl⟩

theorem jumps_congr {m m' : Mem} {p : Nat} {t : Int} (h : ∀ x, p ≤ x → x < p + 5 → m' x = m x) (hj : JumpsTo m p t) : JumpsTo m' p t := by
  obtain ⟨h1, h2⟩ := hj
  refine ⟨by rw [h p (by omega) (by omega)]; exact h1, ?_⟩
  rw [rd_congr 4 (p + 1) (p + 1) (m' := m) (fun i hi => h _ (by omega) (by omega))]
  exact h2

/-- What is detoured stays so if its places are kept. -/
theorem Detoured.keep {dec : Mem → Nat → Info} (hs : Decoder dec) {m m1 m2 : Mem} {d s a t n : Nat} (h : Detoured dec m m1 d s a t n)
    (ha : ∀ x, a ≤ x → x < a + 5 → m2 x = m1 x) (hsl : ∀ x, s ≤ x → x < s + 8 → m2 x = m1 x)
    (ht : ∀ x, t ≤ x → x < t + n + 5 → m2 x = m1 x) : Detoured dec m m2 d s a t n := by
  obtain ⟨fs, hw, h5, h19, hj, hr, hb, hf, hj2⟩ := h
  obtain ⟨hin, _⟩ := hw.fields (hs.sane _)
  refine ⟨fs, hw, h5, h19, jumps_congr ha hj, ?_, ?_, ?_, jumps_congr (fun x h1 h2 => ht x (by omega) (by omega)) hj2⟩
  · rw [rd_congr 8 s s (m' := m1) (fun i hi => hsl _ (by omega) (by omega))]
    exact hr
  · intro i hi hno
    rw [ht _ (by omega) (by omega)]
    exact hb i hi hno
  · intro f hff
    have := hin f hff
    rw [refers_congr (m := m2) (m' := m1) (fun i hi => ht _ (by omega) (by omega))]
    exact hf f hff

theorem whole_congr {dec : Mem → Nat → Info} (hs : Decoder dec) {m m' : Mem} {a k : Nat} (h : ∀ x, a ≤ x → x < a + k → m' x = m x) {n : Nat} {fs : List Field}
    (hw : Whole (dec m) a n fs) (hn : n ≤ k) : Whole (dec m') a n fs := by
  induction hw with
  | zero => exact Whole.zero
  | @step n fs hw hl ih =>
    have e := hs.bytes m m' (a + n) (fun i hi => h _ (by omega) (by omega))
    have := Whole.step (ih (by omega)) (by rw [e]; exact hl)
    rw [e] at this
    exact this

/-- Only the function's first bytes matter of the memory before. -/
theorem Detoured.before {dec : Mem → Nat → Info} (hs : Decoder dec) {m m1 m2 : Mem} {d s a t n : Nat} (h : Detoured dec m1 m2 d s a t n)
    (ha : ∀ x, a ≤ x → x < a + 24 → m1 x = m x) : Detoured dec m m2 d s a t n := by
  obtain ⟨fs, hw, h5, h19, hj, hr, hb, hf, hj2⟩ := h
  obtain ⟨hin, _⟩ := hw.fields (hs.sane _)
  refine ⟨fs, whole_congr hs (k := 24) (fun x h1 h2 => (ha x h1 h2).symm) hw (by omega), h5, h19, hj, hr, ?_, ?_, hj2⟩
  · intro i hi hno
    rw [hb i hi hno, ha _ (by omega) (by omega)]
  · intro f hff
    have := hin f hff
    rw [hf f hff]
    exact refers_congr (fun i hi => ha _ (by omega) (by omega))

theorem protect_in {prot : Nat → Prot} {b e q : Nat} {p : Prot} (h1 : b ≤ q * page) (h2 : q * page < e) : protect prot b e p q = p := by
  unfold protect
  rw [if_pos ⟨h1, h2⟩]

theorem protect_out {prot : Nat → Prot} {b e q : Nat} {p : Prot} (h : q * page < b ∨ e ≤ q * page) : protect prot b e p q = prot q := by
  unfold protect
  rw [if_neg (by omega)]

theorem protect_or (prot : Nat → Prot) (b e q : Nat) (p : Prot) : protect prot b e p q = p ∨ protect prot b e p q = prot q := by
  unfold protect
  split <;> simp

/-- One function found. -/
theorem visit_found {dec : Mem → Nat → Info} (hs : Decoder dec) {e : Env} {s : St} {lo : Nat} {y : Sym} {f : Fn} {l : List (Fn × Nat)} (hb : e.base % 4096 = 0)
    (hbase : lo + 8192 ≤ e.base) (hlo : lo + 2 ^ 31 < 2 ^ 63) (hm : ∀ x, s.mem x < 256) (hy : which y.name = some f)
    (hg : Good dec e s.mem lo ((f, e.base + y.value) :: l)) (h1 : e.base - 8192 ≤ s.next) (h2 : s.next + 24 ≤ e.base - 4096)
    (hw : (s.prot ((e.base - 8192) / page)).w = true) :
    ∃ s' n, visit dec e s y = some s' ∧ s'.next = s.next + n + 5 ∧ n ≤ 19 ∧ Detoured dec s.mem s'.mem (e.detour f) (e.slot f) (e.base + y.value) s.next n ∧
      (∀ x, ¬ (e.base + y.value ≤ x ∧ x < e.base + y.value + 5) → ¬ (s.next ≤ x ∧ x < s'.next) → ¬ (e.slot f ≤ x ∧ x < e.slot f + 8) → s'.mem x = s.mem x) ∧
      (∀ x, s'.mem x < 256) ∧
      (∀ q, s'.prot q = ⟨false, true⟩ ∨ s'.prot q = s.prot q) ∧ (∀ q, q * page < e.base → s'.prot q = s.prot q) ∧
      s'.prot ((e.base + y.value) / page) = ⟨false, true⟩ ∧ s'.prot ((e.base + y.value + 4) / page) = ⟨false, true⟩ := by
  have hx := List.mem_cons_self (a := (f, e.base + y.value)) (l := l)
  have g1 := hg.len _ hx
  have g2 := hg.high _ hx
  have g3 := hg.detour _ hx
  have g4 := hg.refs _ hx
  have g5 := hg.slotFn _ hx _ hx
  have g6 := hg.slotBuf _ hx
  simp only [Apart] at g1 g2 g3 g4 g5 g6
  generalize ha : e.base + y.value = a at *
  obtain ⟨m', n, fs, e1, w1, w2, w3, w4, w5, w6, w7, w8, w9, w10⟩ := detour_partial (hs.sane s.mem) hm (func := a) (detour := e.detour f) (slot := e.slot f) (buf := s.next)
    g1 (by omega) (by omega) (by omega) (by omega) (by omega) (by omega) (by unfold InRange; omega) (by intro i hi; unfold InRange; omega)
    (by
      intro n fs hw hn k hk hk2
      have := g4 n fs hw hn k hk hk2
      have := (hw.fields (hs.sane _)).1 k hk
      unfold InRange
      omega)
  have hp : page = 4096 := rfl
  refine ⟨⟨m', protect (protect s.prot (a / page * page) ((a + 5 + page - 1) / page * page) ⟨true, false⟩) (a / page * page) ((a + 5 + page - 1) / page * page) ⟨false, true⟩, s.next + n + 5⟩, n, ?_, rfl, w3, ⟨fs, w1, w2, w3, w4, w5, w6, w7, w8⟩, ?_, w10, ?_, ?_, ?_, ?_⟩
  · unfold visit
    rw [hy]
    simp only [ha, e1]
    rw [if_pos]
    rw [protect_in (by omega) (by rw [hp]; omega), protect_in (by rw [hp]; omega) (by rw [hp]; omega), protect_out (by rw [hp]; omega), protect_out (by rw [hp]; omega)]
    rw [show s.next / page = (e.base - 8192) / page by rw [hp]; omega, show (s.next + n + 5 - 1) / page = (e.base - 8192) / page by rw [hp]; omega, hw]
    rfl
  · exact fun x h3 h4 h5 => w9 x h3 h4 h5
  · intro q
    rcases protect_or (protect s.prot (a / page * page) ((a + 5 + page - 1) / page * page) ⟨true, false⟩) (a / page * page) ((a + 5 + page - 1) / page * page) q ⟨false, true⟩ with h | h
    · exact Or.inl h
    · by_cases hq : a / page * page ≤ q * page ∧ q * page < (a + 5 + page - 1) / page * page
      · exact Or.inl (protect_in hq.1 hq.2)
      · exact Or.inr (h.trans (protect_out (by omega)))
  · intro q hq
    have : q * page < a / page * page := by rw [hp] at hq ⊢; omega
    show protect _ _ _ _ q = _
    rw [protect_out (Or.inl this), protect_out (Or.inl this)]
  · exact protect_in (by omega) (by rw [hp]; omega)
  · exact protect_in (by rw [hp]; omega) (by rw [hp]; omega)

theorem Good.tail {dec : Mem → Nat → Info} (hs : Decoder dec) {e : Env} {m m' : Mem} {lo : Nat} {x : Fn × Nat} {l : List (Fn × Nat)} (h : Good dec e m lo (x :: l))
    (hk : ∀ y ∈ l, ∀ z, y.2 ≤ z → z < y.2 + 24 → m' z = m z) : Good dec e m' lo l where
  len y hy n hn := by
    have := (hs.sane m).len (y.2 + n)
    rw [hs.bytes m m' (y.2 + n) (fun i hi => hk y hy _ (by omega) (by omega))]
    exact h.len y (List.mem_cons_of_mem _ hy) n hn
  low y hy := h.low y (List.mem_cons_of_mem _ hy)
  high y hy := h.high y (List.mem_cons_of_mem _ hy)
  detour y hy := h.detour y (List.mem_cons_of_mem _ hy)
  refs y hy n fs hw hn f hf hk2 := by
    have hin := (hw.fields (hs.sane _)).1 f hf
    rw [hk2] at hin
    rw [refers_congr (m := m') (m' := m) (fun i hi => hk y hy _ (by omega) (by omega))]
    exact h.refs y (List.mem_cons_of_mem _ hy) n fs (whole_congr hs (k := 24) (fun x h1 h2 => (hk y hy x h1 h2).symm) hw (by omega)) hn f hf hk2
  slotFn y hy z hz := h.slotFn y (List.mem_cons_of_mem _ hy) z (List.mem_cons_of_mem _ hz)
  slotBuf y hy := h.slotBuf y (List.mem_cons_of_mem _ hy)
  slots := (List.pairwise_cons.mp h.slots).2
  once := (List.pairwise_cons.mp h.once).2

theorem iterate_found {dec : Mem → Nat → Info} (hs : Decoder dec) {e : Env} {lo : Nat} (hb : e.base % 4096 = 0) (hbase : lo + 8192 ≤ e.base) (hlo : lo + 2 ^ 31 < 2 ^ 63) :
    ∀ (l : List Sym) (s : St), (∀ x, s.mem x < 256) → Good dec e s.mem lo (found e l) → e.base - 8192 ≤ s.next →
    s.next + 24 * (found e l).length ≤ e.base - 4096 → (s.prot ((e.base - 8192) / page)).w = true →
    ∃ (s' : St) (T : Fn → Nat × Nat), iterate dec e s l = some s' ∧ s.next ≤ s'.next ∧ s'.next ≤ s.next + 24 * (found e l).length ∧
      (∀ x ∈ found e l, Detoured dec s.mem s'.mem (e.detour x.1) (e.slot x.1) x.2 (T x.1).1 (T x.1).2 ∧ s.next ≤ (T x.1).1 ∧ (T x.1).1 + (T x.1).2 + 5 ≤ s'.next ∧
        s'.prot (x.2 / page) = ⟨false, true⟩ ∧ s'.prot ((x.2 + 4) / page) = ⟨false, true⟩) ∧
      (found e l).Pairwise (fun x y => (T x.1).1 + (T x.1).2 + 5 ≤ (T y.1).1) ∧
      (∀ x, (∀ y ∈ found e l, ¬ (y.2 ≤ x ∧ x < y.2 + 5) ∧ ¬ (e.slot y.1 ≤ x ∧ x < e.slot y.1 + 8)) → ¬ (s.next ≤ x ∧ x < s'.next) → s'.mem x = s.mem x) ∧
      (∀ q, s'.prot q = ⟨false, true⟩ ∨ s'.prot q = s.prot q) ∧ (∀ q, q * page < e.base → s'.prot q = s.prot q)
  | [], s, _, _, _, _, _ => ⟨s, fun _ => (0, 0), rfl, Nat.le_refl _, by simp [found], by simp [found], by simp [found], fun _ _ _ => rfl, fun _ => Or.inr rfl, fun _ _ => rfl⟩
  | y :: l, s, hm, hg, h1, h2, hw => by
    cases hy : which y.name with
    | none =>
      have e0 : found e (y :: l) = found e l := by simp [found, hy]
      have ev : visit dec e s y = some s := by unfold visit; rw [hy]
      rw [e0] at hg h2 ⊢
      obtain ⟨s', T, r⟩ := iterate_found hs hb hbase hlo l s hm hg h1 h2 hw
      exact ⟨s', T, by rw [iterate, ev]; exact r.1, r.2⟩
    | some f =>
      have e0 : found e (y :: l) = (f, e.base + y.value) :: found e l := by simp [found, hy]
      rw [e0] at hg h2 ⊢
      rw [List.length_cons] at h2 ⊢
      obtain ⟨s1, n, ev, v1, v2, v3, v4, v5, v6, v7, v8, v9⟩ := visit_found hs hb hbase hlo hm hy hg h1 (by omega) hw
      have ho := (List.pairwise_cons.mp hg.once).1
      have hsl := (List.pairwise_cons.mp hg.slots).1
      have hx0 := List.mem_cons_self (a := (f, e.base + y.value)) (l := found e l)
      have hk : ∀ z ∈ found e l, ∀ x, z.2 ≤ x → x < z.2 + 24 → s1.mem x = s.mem x := by
        intro z hz x h3 h4
        have a1 := (ho z hz).2
        have a2 := hg.low z (List.mem_cons_of_mem _ hz)
        have a3 := hg.slotFn z (List.mem_cons_of_mem _ hz) _ hx0
        simp only [Apart] at a1 a3
        exact v4 x (by omega) (by omega) (by omega)
      obtain ⟨s', T, r1, r2, r3, r4, r5, r6, r7, r8⟩ := iterate_found hs hb hbase hlo l s1 v5 (hg.tail hs hk) (by omega) (by omega) (by
        rw [v7 _ (by show (e.base - 8192) / 4096 * 4096 < _; omega)]; exact hw)
      have hT : ∀ z ∈ found e l, (if z.1 = f then (s.next, n) else T z.1) = T z.1 := by
        intro z hz
        rw [if_neg]
        exact fun h => (ho z hz).1 h.symm
      have hrest : ∀ x, (∀ z ∈ found e l, ¬ (z.2 ≤ x ∧ x < z.2 + 5) ∧ ¬ (e.slot z.1 ≤ x ∧ x < e.slot z.1 + 8)) → ¬ (s1.next ≤ x ∧ x < s'.next) → s'.mem x = s1.mem x := r6
      have hlow := hg.low _ hx0
      have hsb := hg.slotBuf _ hx0
      simp only [Apart] at hsb
      refine ⟨s', fun g => if g = f then (s.next, n) else T g, by rw [iterate, ev]; exact r1, by omega, by omega, ?_, ?_, ?_, ?_, ?_⟩
      · intro x hx
        rcases List.mem_cons.mp hx with rfl | hx
        · simp only [if_true]
          refine ⟨v3.keep hs ?_ ?_ ?_, by omega, by omega, ?_, ?_⟩
          · intro x h3 h4
            refine hrest x (fun z hz => ?_) (by omega)
            have a1 := (ho z hz).2
            have a2 := hg.slotFn _ hx0 z (List.mem_cons_of_mem _ hz)
            simp only [Apart] at a1 a2
            omega
          · intro x h3 h4
            refine hrest x (fun z hz => ?_) (by omega)
            have a1 := hsl z hz
            have a2 := hg.slotFn z (List.mem_cons_of_mem _ hz) _ hx0
            simp only [Apart] at a1 a2
            omega
          · intro x h3 h4
            refine hrest x (fun z hz => ?_) (by omega)
            have a1 := hg.low z (List.mem_cons_of_mem _ hz)
            have a2 := hg.slotBuf z (List.mem_cons_of_mem _ hz)
            simp only [Apart] at a1 a2
            omega
          · rcases r7 ((e.base + y.value) / page) with h | h
            · exact h
            · rw [h, v8]
          · rcases r7 ((e.base + y.value + 4) / page) with h | h
            · exact h
            · rw [h, v9]
        · simp only [hT x hx]
          obtain ⟨b1, b2, b3, b4⟩ := r4 x hx
          exact ⟨b1.before hs (hk x hx), by omega, b3, b4⟩
      · refine List.pairwise_cons.mpr ⟨?_, ?_⟩
        · intro z hz
          simp only [if_true, hT z hz]
          have := (r4 z hz).2.1
          omega
        · refine List.Pairwise.imp_of_mem ?_ r5
          intro a b hma hmb hab
          simp only [hT a hma, hT b hmb]
          exact hab
      · intro x h3 h4
        have := h3 _ hx0
        rw [hrest x (fun z hz => h3 z (List.mem_cons_of_mem _ hz)) (by omega), v4 x this.1 (by omega) this.2]
      · intro q
        rcases r7 q with h | h
        · exact Or.inl h
        · rw [h]
          exact v6 q
      · intro q hq
        rw [r8 q hq, v7 q hq]

theorem count_four : ∀ l : List Fn, l.length = l.count .malloc + l.count .calloc + l.count .realloc + l.count .free
  | [] => rfl
  | f :: l => by
    have := count_four l
    cases f <;> simp [List.count_cons] <;> omega

theorem four {l : List (Fn × Nat)} (h : l.Pairwise (fun x y => x.1 ≠ y.1)) : l.length ≤ 4 := by
  have hn : (l.map (·.1)).Nodup := List.pairwise_map.mpr h
  have := count_four (l.map (·.1))
  rw [List.length_map] at this
  have h1 := fun f => List.nodup_iff_count.mp hn f
  have := h1 .malloc
  have := h1 .calloc
  have := h1 .realloc
  have := h1 .free
  omega

theorem iterate_append (dec : Mem → Nat → Info) (e : Env) : ∀ (l l' : List Sym) (s : St), iterate dec e s (l ++ l') = (iterate dec e s l).bind (fun s => iterate dec e s l')
  | [], _, _ => rfl
  | y :: l, l', s => by
    rw [List.cons_append, iterate, iterate]
    cases visit dec e s y with
    | none => rfl
    | some s => exact iterate_append dec e l l' s

theorem pick {α : Type} {R : α → α → Prop} (hr : ∀ x y, R x y → R y x) : ∀ {l : List α}, l.Pairwise R → ∀ {x y : α}, x ∈ l → y ∈ l → x ≠ y → R x y
  | [], _, _, _, hx, _, _ => by simp at hx
  | a :: l, h, x, y, hx, hy, hne => by
    obtain ⟨h1, h2⟩ := List.pairwise_cons.mp h
    rcases List.mem_cons.mp hx with rfl | hx' <;> rcases List.mem_cons.mp hy with rfl | hy'
    · exact absurd rfl hne
    · exact h1 _ hy'
    · exact hr _ _ (h1 _ hx')
    · exact pick hr h2 hx' hy' hne

/-- All symbols that are walked. -/
def syms (dynsym : List Sym) : Meta → List Sym
  | .extra l => dynsym ++ l
  | _ => dynsym

theorem walk_eq (dec : Mem → Nat → Info) (e : Env) (s : St) (dynsym : List Sym) {mt : Meta} (h : mt ≠ .noExtra) :
    walk dec e s dynsym mt = iterate dec e s (syms dynsym mt) := by
  unfold walk
  cases mt with
  | none =>
    show (iterate dec e s dynsym).bind (fun s => some s) = iterate dec e s dynsym
    cases iterate dec e s dynsym <;> rfl
  | noDynamic =>
    show (iterate dec e s dynsym).bind (fun s => some s) = iterate dec e s dynsym
    cases iterate dec e s dynsym <;> rfl
  | noExtra => exact absurd rfl h
  | extra l => exact (iterate_append dec e dynsym l s).symm

/-- **C177.** If the two pages before the dynamic linker are free, everything is within reach, each of the allocation functions is found at most once and those found can
be decoded and are apart: each function defined is detoured to its own detour, by a trampoline of its own in the first 96 bytes of the page, and can be executed, as can the
trampolines, and neither can be written; the rest of memory is as before, and so is the protection of all other pages or it is what that of code is. -/
theorem instrument_partial {dec : Mem → Nat → Info} (hs : Decoder dec) {e : Env} {lo : Nat} {m : Mem} {prot : Nat → Prot} {mapped : Nat → Bool} {dynsym : List Sym}
    {mt : Meta} (hb : e.base % 4096 = 0) (hbase : lo + 8192 ≤ e.base) (hlo : lo + 2 ^ 31 < 2 ^ 63) (hm : ∀ x, m x < 256) (hmt : mt ≠ .noExtra)
    (hfree : mapped ((e.base - 4096) / page) = false ∧ mapped ((e.base - 8192) / page) = false) (hg : Good dec e m lo (found e (syms dynsym mt))) :
    ∃ (s : St) (T : Fn → Nat × Nat), instrument dec e m prot mapped dynsym mt = some s ∧
      (∀ f a, At e (syms dynsym mt) f a → Detoured dec m s.mem (e.detour f) (e.slot f) a (T f).1 (T f).2 ∧
        e.base - 8192 ≤ (T f).1 ∧ (T f).1 + (T f).2 + 5 ≤ e.base - 8192 + 96 ∧
        s.prot (a / page) = ⟨false, true⟩ ∧ s.prot ((a + 4) / page) = ⟨false, true⟩) ∧
      (∀ f a g b, At e (syms dynsym mt) f a → At e (syms dynsym mt) g b → f ≠ g → Apart (T f).1 ((T f).2 + 5) (T g).1 ((T g).2 + 5)) ∧
      (∀ x, (∀ y ∈ syms dynsym mt, ∀ f, y.name = label f → ¬ (e.base + y.value ≤ x ∧ x < e.base + y.value + 5) ∧ ¬ (e.slot f ≤ x ∧ x < e.slot f + 8)) →
        ¬ (e.base - 8192 ≤ x ∧ x < e.base - 8192 + 96) → s.mem x = m x) ∧
      s.prot ((e.base - 8192) / page) = ⟨false, true⟩ ∧ s.prot ((e.base - 4096) / page) = ⟨true, false⟩ ∧
      (∀ q, q * page < e.base - 8192 → s.prot q = prot q) ∧ (∀ q, e.base ≤ q * page → s.prot q = ⟨false, true⟩ ∨ s.prot q = prot q) := by
  have hp : page = 4096 := rfl
  have h4 := four (hg.once.imp (fun h => h.1))
  obtain ⟨s, T, r1, r2, r3, r4, r5, r6, r7, r8⟩ := iterate_found hs hb hbase hlo (syms dynsym mt)
    ⟨m, protect (protect prot (e.base - 4096) e.base ⟨true, false⟩) (e.base - 8192) (e.base - 4096) ⟨true, true⟩, e.base - 8192⟩ hm hg (Nat.le_refl _)
    (by simp only; omega) (by
      dsimp only
      rw [protect_in (by rw [hp]; omega) (by rw [hp]; omega)])
  simp only at r2 r3 r4 r5 r6 r7 r8
  refine ⟨{ s with prot := protect s.prot (e.base - 8192) (e.base - 4096) ⟨false, true⟩ }, T, ?_, ?_, ?_, ?_, ?_, ?_, ?_, ?_⟩
  · unfold instrument
    rw [hfree.1, hfree.2]
    simp only [Bool.false_eq_true, if_false]
    rw [walk_eq _ _ _ _ hmt, r1, Option.map_some]
  · rintro f a ⟨y, hy, hn, _, rfl⟩
    obtain ⟨b1, b2, b3, b4, b5⟩ := r4 (f, e.base + y.value) (mem_found.mpr ⟨y, hy, hn, rfl⟩)
    refine ⟨b1, b2, by simp only at b3; omega, ?_, ?_⟩
    · dsimp only
      rw [protect_out (by rw [hp]; omega), b4]
    · dsimp only
      rw [protect_out (by rw [hp]; omega), b5]
  · rintro f a g b ⟨y, hy, hn, _, rfl⟩ ⟨z, hz, hn', _, rfl⟩ hfg
    have h1 := (mem_found (e := e)).mpr ⟨y, hy, hn, rfl⟩
    have h2 := (mem_found (e := e)).mpr ⟨z, hz, hn', rfl⟩
    have r5' := r5.imp (S := fun x y => Apart (T x.1).1 ((T x.1).2 + 5) (T y.1).1 ((T y.1).2 + 5)) (fun h => Or.inl (by omega))
    exact pick (fun _ _ => Or.symm) r5' h1 h2 (fun h => hfg (congrArg Prod.fst h))
  · intro x h1 h2
    refine r6 x ?_ (by omega)
    intro ⟨f, a⟩ hx
    obtain ⟨y, hy, hn, rfl⟩ := mem_found.mp hx
    exact h1 y hy f hn
  · dsimp only
    rw [protect_in (by rw [hp]; omega) (by rw [hp]; omega)]
  · dsimp only
    have h1 : ∀ q p, q * page = e.base - 4096 → protect prot (e.base - 4096) e.base p q = p := by
      intro q p h
      unfold protect
      rw [if_pos (by omega)]
    have h2 : (e.base - 4096) / page * page = e.base - 4096 := by rw [hp]; omega
    rw [protect_out (by omega), r8 _ (by omega), protect_out (by omega), h1 _ _ h2]
  · intro q hq
    dsimp only
    rw [protect_out (by omega), r8 _ (by omega), protect_out (by omega), protect_out (by omega)]
  · intro q hq
    dsimp only
    rw [protect_out (by omega)]
    rcases r7 q with h | h
    · exact Or.inl h
    · right
      rw [h, protect_out (by omega), protect_out (by omega)]

/-- The process ends if a trampoline is written to a page that is not writable, at either end. -/
theorem readonly_aborts {dec : Mem → Nat → Info} {e : Env} {s : St} {y : Sym} {f : Fn} {m : Mem} {next x : Nat} (hy : which y.name = some f)
    (hw : write (dec s.mem) s.mem (e.base + y.value) (e.detour f) (e.slot f) s.next = some (m, next)) (hx : x = s.next ∨ x = next - 1)
    (hlow : x / page * page < (e.base + y.value) / page * page) (hr : (s.prot (x / page)).w = false) : visit dec e s y = none := by
  unfold visit
  rw [hy]
  simp only [hw]
  refine if_neg ?_
  have h : ∀ b p, protect s.prot ((e.base + y.value) / page * page) b p (x / page) = s.prot (x / page) := fun b p => protect_out (Or.inl hlow)
  rcases hx with rfl | rfl <;> simp [h, hr]

/-- The process ends if the file of metadata has a dynamic section but no further symbols, also if all functions have been found. -/
theorem extra_aborts (dec : Mem → Nat → Info) (e : Env) (m : Mem) (prot : Nat → Prot) (mapped : Nat → Bool) (dynsym : List Sym) :
    instrument dec e m prot mapped dynsym .noExtra = none := by
  have h : ∀ s, walk dec e s dynsym .noExtra = none := by
    intro s
    unfold walk
    cases iterate dec e s dynsym <;> rfl
  simp [instrument, h]

/-- The process ends if something is in one of the two pages. -/
theorem mapped_aborts (dec : Mem → Nat → Info) (e : Env) (m : Mem) (prot : Nat → Prot) {mapped : Nat → Bool} (dynsym : List Sym) (mt : Meta)
    (h : mapped ((e.base - 4096) / page) = true ∨ mapped ((e.base - 8192) / page) = true) : instrument dec e m prot mapped dynsym mt = none := by
  rcases h with h | h <;> simp [instrument, h]

/-! ## Cases -/

/-- `push %rbp; mov %rsp,%rbp; nop ...` at each multiple of 256. -/
def code : Mem := fun x => if x % 256 = 0 then 0x55 else if x % 256 = 1 then 0x48 else if x % 256 = 2 then 0x89 else if x % 256 = 3 then 0xe5 else 0x90

/-- A decoder that knows these instructions, and `jmp`. -/
def decode (m : Mem) (a : Nat) : Info := if m a = 0x48 then ⟨3, []⟩ else if m a = 0xe9 then ⟨5, [(1, .pc32)]⟩ else ⟨1, []⟩

def env : Env where
  base := 0x7f0000000000
  detour f := match f with | .malloc => 0x7f0000100000 | .calloc => 0x7f0000100100 | .realloc => 0x7f0000100200 | .free => 0x7f0000100300
  slot f := match f with | .malloc => 0x7f0000200000 | .calloc => 0x7f0000200008 | .realloc => 0x7f0000200010 | .free => 0x7f0000200018

def dynsym : List Sym := [⟨w! "_rtld_global", 0x2000, true⟩, ⟨w! "__minimal_malloc", 0x1100, true⟩]

def further : List Sym := [⟨w! "__minimal_free", 0x1300, true⟩, ⟨w! "__minimal_calloc", 0x1200, true⟩]

theorem decode_ok : Decoder decode where
  sane m := by
    constructor
    all_goals
      intro a
      unfold decode
      split <;> (try split) <;> simp [size]
  bytes m m' a h := by
    have : 0 < (decode m a).len := by unfold decode; split <;> (try split) <;> simp
    have h0 := h 0 this
    unfold decode
    rw [show m' a = m a from h0]

theorem whole_none {n a : Nat} {fs : List Field} (h : Whole (decode code) a n fs) : fs = [] := by
  induction h with
  | zero => rfl
  | @step n fs hw hl ih =>
    rw [ih]
    have : (decode code (a + n)).fields = [] := by
      unfold decode code
      (repeat' split) <;> simp_all
    rw [this]
    rfl

theorem found_case : found env (syms dynsym (.extra further)) = [(.malloc, 0x7f0000001100), (.free, 0x7f0000001300), (.calloc, 0x7f0000001200)] := by
  decide +kernel

/-- The functions of the case are as they should be. -/
theorem case_good : Good decode env code 0x7effffffe000 (found env (syms dynsym (.extra further))) := by
  rw [found_case]
  constructor
  · intro x _ n _
    unfold decode
    split <;> (try split) <;> simp
  · decide +kernel
  · decide +kernel
  · decide +kernel
  · intro x _ n fs hw _ f hf
    rw [whole_none hw] at hf
    simp at hf
  · simp only [Apart]
    decide +kernel
  · simp only [Apart]
    decide +kernel
  · simp only [Apart]
    decide +kernel
  · simp only [Apart]
    decide +kernel

/-- Bytes of `malloc` and of `free`; the three trampolines in order; the variables of `malloc`, `calloc`, `realloc` and `free`; the protection of the pages. -/
theorem case_three : (instrument decode env code (fun _ => ⟨false, true⟩) (fun _ => false) dynsym (.extra further)).map (fun s =>
    ((List.range 6).map (fun i => s.mem (0x7f0000001100 + i)), (List.range 6).map (fun i => s.mem (0x7f0000001300 + i)),
      (List.range 30).map (fun i => s.mem (0x7effffffe000 + i)),
      [rd s.mem 0x7f0000200000 8, rd s.mem 0x7f0000200008 8, rd s.mem 0x7f0000200018 8],
      [s.prot 0x7effffffe, s.prot 0x7efffffff, s.prot 0x7f0000000, s.prot 0x7f0000001])) =
    some ([0xe9, 0xfb, 0xee, 0x0f, 0, 0x90], [0xe9, 0xfb, 0xef, 0x0f, 0, 0x90],
      [0x55, 0x48, 0x89, 0xe5, 0x90, 0xe9, 0xfb, 0x30, 0, 0, 0x55, 0x48, 0x89, 0xe5, 0x90, 0xe9, 0xf1, 0x32, 0, 0,
       0x55, 0x48, 0x89, 0xe5, 0x90, 0xe9, 0xe7, 0x31, 0, 0],
      [0x7effffffe000, 0x7effffffe014, 0x7effffffe00a], [⟨false, true⟩, ⟨true, false⟩, ⟨false, true⟩, ⟨false, true⟩]) := by decide +kernel

/-- **C177 fails** if a function is in both tables of symbols: the trampoline that its variable has the address of begins with a jump to the detour, which
calls itself. -/
theorem twice_fails : (instrument decode env code (fun _ => ⟨false, true⟩) (fun _ => false) dynsym (.extra dynsym)).map (fun s =>
    (rd s.mem 0x7f0000200000 8, s.mem 0x7effffffe00a, (0x7effffffe00a + 5 + sext (rd s.mem 0x7effffffe00b 4) : Int) == env.detour .malloc)) =
    some (0x7effffffe00a, 0xe9, true) := by decide +kernel

/-- **C177 fails** for a symbol that is not defined: the beginning of the file's header becomes a jump. -/
theorem undefined_fails : (instrument decode env code (fun _ => ⟨false, true⟩) (fun _ => false) [⟨w! "__minimal_malloc", 0, false⟩] .none).map (fun s =>
    (s.mem 0x7f0000000000, code 0x7f0000000000)) = some (0xe9, 0x55) := by decide +kernel

/-- **C177 fails** if the page of trampolines is full, of which the limit is handed on but never looked at: the index of allocations in the next page is overwritten. -/
theorem limit_fails : (visit decode env ⟨code, fun q => if q = 0x7effffffe then ⟨true, true⟩ else ⟨true, false⟩, 0x7effffffeffd⟩
    ⟨w! "__minimal_malloc", 0x1100, true⟩).map (fun s => ((List.range 7).map (fun i => s.mem (0x7effffffeffd + 3 + i)), s.next)) =
    some ([0xe5, 0x90, 0xe9, 0xfe, 0x20, 0, 0], 0x7efffffff007) := by decide +kernel

end Liballocs.LdSoWalk
