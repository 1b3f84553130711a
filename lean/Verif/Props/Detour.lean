import Verif.Model.Detour
/-!
# C103 Relocating a displaced instruction keeps what it refers to
# C104 A detoured function behaves as before when called through its trampoline
-/
namespace Liballocs.Detour

/-- A 32-bit number as the processor extends it. -/
def sext (v : Nat) : Int := if v < 2 ^ 31 then v else (v : Int) - 2 ^ 32

/-- What a field at `a` refers to: relative to the field, an address, or an offset. -/
def refers (m : Mem) (a : Nat) : Kind → Int
  | .pc32 => a + sext (rd m a 4)
  | .abs64 => rd m a 8
  | .abs32 => rd m a 4
  | .abs32s => sext (rd m a 4)
  | .tpoff32 => sext (rd m a 4)
  | .other => 0

def size : Kind → Nat
  | .abs64 => 8
  | .other => 0
  | _ => 4

/-! ## Bytes -/

theorem rd_wr (m : Mem) (a v : Nat) : ∀ n k, k ≤ n → rd (wr m a v n) (a + (n - k)) k = v / 256 ^ (n - k) % 256 ^ k
  | n, 0, _ => by simp [rd, Nat.mod_one]
  | n, k + 1, h => by
    rw [rd, show a + (n - (k + 1)) + 1 = a + (n - k) by omega, rd_wr m a v n k (by omega)]
    have : wr m a v n (a + (n - (k + 1))) = v / 256 ^ (n - (k + 1)) % 256 := by
      unfold wr
      rw [if_pos (by omega), show a + (n - (k + 1)) - a = n - (k + 1) by omega]
    rw [this, show n - k = n - (k + 1) + 1 by omega, Nat.pow_succ, ← Nat.div_div_eq_div_mul, Nat.pow_succ, Nat.mul_comm (256 ^ k) 256, Nat.mod_mul]

theorem rd_wr_self (m : Mem) (a v n : Nat) : rd (wr m a v n) a n = v % 256 ^ n := by
  have := rd_wr m a v n n (Nat.le_refl _)
  simpa using this

theorem rd_congr {m m' : Mem} : ∀ (n a b : Nat), (∀ i, i < n → m (a + i) = m' (b + i)) → rd m a n = rd m' b n
  | 0, _, _, _ => rfl
  | n + 1, a, b, h => by
    rw [rd, rd, rd_congr n (a + 1) (b + 1) (fun i hi => by have := h (i + 1) (by omega); rwa [Nat.add_assoc, Nat.add_assoc, Nat.add_comm 1 i])]
    have := h 0 (by omega)
    simp only [Nat.add_zero] at this
    rw [this]

theorem rd_lt {m : Mem} (hm : ∀ x, m x < 256) : ∀ (n a : Nat), rd m a n < 256 ^ n
  | 0, _ => by simp [rd]
  | n + 1, a => by
    have := rd_lt hm n (a + 1)
    have := hm a
    rw [rd, Nat.pow_succ]
    omega

theorem wr_byte {m : Mem} (hm : ∀ x, m x < 256) (a v n : Nat) : ∀ x, wr m a v n x < 256 := by
  intro x
  unfold wr
  split
  · omega
  · exact hm x

theorem wr_out (m : Mem) {a v n x : Nat} (h : x < a ∨ a + n ≤ x) : wr m a v n x = m x := by
  unfold wr
  rw [if_neg (by omega)]

theorem rd_wr_out (m : Mem) {a v n b k : Nat} (h : b + k ≤ a ∨ a + n ≤ b) : rd (wr m a v n) b k = rd m b k :=
  rd_congr k b b (fun i hi => wr_out m (by omega))

/-! ## C103 -/

/-- The displacement needed. -/
theorem disp {t r v : Nat} (ht : t < 2 ^ 63) (hv : v < 2 ^ 32) (hr : r < 2 ^ 63) {e : Int}
    (he : e = (t : Int) + sext v - r) (h1 : -(2 ^ 31) ≤ e) (h2 : e < 2 ^ 31) :
    sext (((t + v) % W + (W - r % W) + 0) % W % 2 ^ 32) = e := by
  unfold sext W at *
  subst he
  split at h1 <;> split <;> simp only [*, if_true, if_false] at * <;> omega

theorem disp_iff {t r v : Nat} (ht : t < 2 ^ 63) (hv : v < 2 ^ 32) (hr : r < 2 ^ 63) :
    sext (((t + v) % W + (W - r % W) + 0) % W % 2 ^ 32) = (t : Int) + sext v - r ↔
      -(2 ^ 31) ≤ (t : Int) + sext v - r ∧ (t : Int) + sext v - r < 2 ^ 31 := by
  constructor
  · intro h
    rw [← h]
    have : (((t + v) % W + (W - r % W) + 0) % W % 2 ^ 32) < 2 ^ 32 := Nat.mod_lt _ (by decide)
    unfold sext
    split <;> omega
  · rintro ⟨h1, h2⟩
    exact disp ht hv hr rfl h1 h2

/-- The displacement reaches the referent. -/
def InRange (e : Int) (a : Nat) : Prop := -(2 ^ 31) ≤ e - a ∧ e - a < 2 ^ 31

theorem refers_congr {m m' : Mem} {a : Nat} {k : Kind} (h : ∀ i, i < size k → m (a + i) = m' (a + i)) : refers m a k = refers m' a k := by
  cases k with
  | other => rfl
  | abs64 => simp only [refers, rd_congr 8 a a h]
  | _ => simp only [refers, rd_congr 4 a a h]

/-- **C103.** A field moved from `t` to `r` refers to what it did, except when it is relative to its place and its referent is out of
reach from the new place; nothing else changes. -/
theorem field_exact {m : Mem} (hm : ∀ x, m x < 256) {t r : Nat} (ht : t < 2 ^ 63) (hr : r < 2 ^ 63) {k : Kind} (hk : k ≠ .other) :
    ∃ s m', readReloc m t k = some s ∧ applyReloc m r k s 0 = some m' ∧ (∀ x, m' x < 256) ∧ (∀ x, x < r ∨ r + size k ≤ x → m' x = m x) ∧
      (refers m' r k = refers m t k ↔ (k = .pc32 → InRange (refers m t .pc32) r)) := by
  have h4 : rd m t 4 < 2 ^ 32 := rd_lt hm 4 t
  have h8 : rd m t 8 < W := rd_lt hm 8 t
  have e4 : rd m t 4 % W % 2 ^ 32 = rd m t 4 := by unfold W; omega
  cases k with
  | other => exact absurd rfl hk
  | pc32 =>
    refine ⟨_, _, rfl, rfl, wr_byte hm _ _ _, fun x hx => wr_out m hx, ?_⟩
    have := disp_iff ht h4 hr
    show ((r : Int) + sext (rd (wr m r _ 4) r 4) = t + sext (rd m t 4)) ↔ _
    rw [rd_wr_self, show (256 : Nat) ^ 4 = 2 ^ 32 from rfl]
    constructor
    · intro h _
      exact this.mp (by omega)
    · intro h
      have := this.mpr (h rfl)
      omega
  | abs64 =>
    refine ⟨_, _, rfl, rfl, wr_byte hm _ _ _, fun x hx => wr_out m hx, ?_⟩
    show (((rd (wr m r _ 8) r 8 : Nat) : Int) = (rd m t 8 : Nat)) ↔ _
    rw [rd_wr_self, show (256 : Nat) ^ 8 = W from rfl, Nat.mod_mod, Nat.add_zero, Nat.mod_eq_of_lt h8]
    simp
  | abs32 =>
    refine ⟨_, _, rfl, rfl, wr_byte hm _ _ _, fun x hx => wr_out m hx, ?_⟩
    show (((rd (wr m r _ 4) r 4 : Nat) : Int) = (rd m t 4 : Nat)) ↔ _
    rw [rd_wr_self, show (256 : Nat) ^ 4 = 2 ^ 32 from rfl, Nat.add_zero, e4]
    simp
  | abs32s =>
    refine ⟨_, _, rfl, rfl, wr_byte hm _ _ _, fun x hx => wr_out m hx, ?_⟩
    show (sext (rd (wr m r _ 4) r 4) = sext (rd m t 4)) ↔ _
    rw [rd_wr_self, show (256 : Nat) ^ 4 = 2 ^ 32 from rfl, Nat.zero_mod, Nat.add_zero, Nat.mod_mod, Nat.mod_mod, Nat.mod_eq_of_lt h4]
    simp
  | tpoff32 =>
    refine ⟨_, _, rfl, rfl, wr_byte hm _ _ _, fun x hx => wr_out m hx, ?_⟩
    show (sext (rd (wr m r _ 4) r 4) = sext (rd m t 4)) ↔ _
    rw [rd_wr_self, show (256 : Nat) ^ 4 = 2 ^ 32 from rfl, Nat.add_zero, e4]
    simp

/-! ## C104 -/

/-- A jump at `p` to `t`. -/
def JumpsTo (m : Mem) (p : Nat) (t : Int) : Prop := m p = 0xe9 ∧ (p : Int) + 5 + sext (rd m (p + 1) 4) = t

/-- **C103.** A jump written goes where it should exactly if that is within reach. -/
theorem jmp_exact {m : Mem} (hm : ∀ x, m x < 256) {p t : Nat} (hp : p + 5 < 2 ^ 63) (ht : t < 2 ^ 63) :
    ∃ m', jmp m p t = some m' ∧ (∀ x, m' x < 256) ∧ (∀ x, x < p ∨ p + 5 ≤ x → m' x = m x) ∧
      (JumpsTo m' p t ↔ InRange t (p + 5)) := by
  refine ⟨_, rfl, wr_byte (wr_byte hm _ _ _) _ _ _, ?_, ?_⟩
  · intro x hx
    rw [wr_out _ (by omega), wr_out _ (by omega)]
  · unfold JumpsTo InRange
    rw [rd_wr_self, wr_out _ (by omega)]
    have e9 : wr m p 0xe9 5 p = 0xe9 := by simp [wr]
    rw [e9, show (256 : Nat) ^ 4 = 2 ^ 32 from rfl]
    unfold W sext
    constructor
    · rintro ⟨_, h⟩
      split at h <;> omega
    · rintro ⟨h1, h2⟩
      refine ⟨rfl, ?_⟩
      split <;> omega

/-- `n` bytes from the function's beginning are whole instructions, with these fields. -/
inductive Whole (dec : Nat → Info) (func : Nat) : Nat → List Field → Prop
  | zero : Whole dec func 0 []
  | step {n : Nat} {fs : List Field} : Whole dec func n fs → (dec (func + n)).len ≠ 0 →
      Whole dec func (n + (dec (func + n)).len) (fs ++ (dec (func + n)).fields.map (fun f => (n + f.1, f.2)))

/-- What a decoder of this processor's instructions gives: up to 15 bytes, beginning with an opcode; up to two fields in them,
of known types, which do not overlap. -/
structure Sane (dec : Nat → Info) : Prop where
  len : ∀ a, (dec a).len ≤ 15
  two : ∀ a, (dec a).fields.length ≤ 2
  field : ∀ a, ∀ f ∈ (dec a).fields, f.2 ≠ .other ∧ 1 ≤ f.1 ∧ f.1 + size f.2 ≤ (dec a).len
  apart : ∀ a, (dec a).fields.Pairwise (fun f g => f.1 + size f.2 ≤ g.1 ∨ g.1 + size g.2 ≤ f.1)

/-- The array of fields is not overrun. -/
theorem append_cap (cap n : Nat) : ∀ (l acc : List Field), acc.length ≤ cap → (append cap n acc l).length ≤ cap
  | [], acc, h => by simpa [append] using h
  | f :: l, acc, h => by
    rw [append]
    refine append_cap cap n l _ ?_
    split
    · rename_i h1; simp; omega
    · exact h

/-- However many fields the displaced instructions have, no more than fit are written. -/
theorem prologue_cap (dec : Nat → Info) (func cap : Nat) : ∀ (k n : Nat) (acc : List Field) (r : Nat × List Field),
    prologue dec func cap k n acc = some r → acc.length ≤ cap → r.2.length ≤ cap
  | 0, n, acc, r, h, ha => by
    rw [prologue] at h
    split at h
    · simp at h
    · simp at h; rw [← h]; exact ha
  | k + 1, n, acc, r, h, ha => by
    rw [prologue] at h
    split at h
    · split at h
      · simp at h
      · exact prologue_cap dec func cap k _ _ r h (append_cap cap n _ _ ha)
    · simp at h; rw [← h]; exact ha

theorem append_eq (cap n : Nat) : ∀ (l acc : List Field), acc.length + l.length ≤ cap → append cap n acc l = acc ++ l.map (fun f => (n + f.1, f.2))
  | [], acc, _ => by simp [append]
  | f :: l, acc, h => by
    simp only [List.length_cons] at h
    rw [append, if_pos (by omega), append_eq cap n l _ (by simp; omega)]
    simp

theorem size_four {k : Kind} (h : k ≠ .other) : 4 ≤ size k := by
  cases k <;> simp [size] at * 

/-- Instructions shorter than five bytes have no fields. -/
theorem short {dec : Nat → Info} (hs : Sane dec) {a : Nat} (h : (dec a).len < 5) : (dec a).fields = [] := by
  match hf : (dec a).fields with
  | [] => rfl
  | f :: l =>
    obtain ⟨h1, h2, h3⟩ := hs.field a f (by rw [hf]; exact List.mem_cons_self)
    have := size_four h1
    omega

theorem prologue_from {dec : Nat → Info} (hs : Sane dec) {func : Nat} (hlen : ∀ n, n < 5 → (dec (func + n)).len ≠ 0) : ∀ (k n : Nat) (fs : List Field),
    Whole dec func n fs → 5 ≤ k + n → (n < 5 → fs = []) → fs.length ≤ 2 → n ≤ 19 →
    ∃ n' fs', prologue dec func 4 k n fs = some (n', fs') ∧ Whole dec func n' fs' ∧ 5 ≤ n' ∧ n' ≤ 19 ∧ fs'.length ≤ 2
  | 0, n, fs, hw, hk, _, hl, hn => ⟨n, fs, by rw [prologue, if_neg (by omega)], hw, by omega, hn, hl⟩
  | k + 1, n, fs, hw, hk, hf, hl, hn => by
    rw [prologue]
    by_cases h5 : n < 5
    · rw [if_pos h5, if_neg (hlen n h5)]
      have := hs.two (func + n)
      have := hs.len (func + n)
      have := hlen n h5
      obtain rfl := hf h5
      rw [append_eq 4 n _ _ (by simp; omega)]
      refine prologue_from hs hlen k _ _ (Whole.step hw (hlen n h5)) (by omega) ?_ (by simpa using hs.two (func + n)) (by omega)
      intro h
      rw [short hs (by omega)]
      rfl
    · rw [if_neg h5]
      exact ⟨n, fs, rfl, hw, by omega, hn, hl⟩

/-- The fields of whole instructions lie in them and apart. -/
theorem Whole.fields {dec : Nat → Info} (hs : Sane dec) {func n : Nat} {fs : List Field} (h : Whole dec func n fs) :
    (∀ f ∈ fs, f.2 ≠ .other ∧ f.1 + size f.2 ≤ n) ∧ fs.Pairwise (fun f g => f.1 + size f.2 ≤ g.1 ∨ g.1 + size g.2 ≤ f.1) := by
  induction h with
  | zero => exact ⟨by simp, List.Pairwise.nil⟩
  | @step n fs hw hl ih =>
    obtain ⟨h1, h2⟩ := ih
    refine ⟨?_, ?_⟩
    · intro f hf
      rcases List.mem_append.mp hf with hf | hf
      · have := h1 f hf
        exact ⟨this.1, by omega⟩
      · obtain ⟨g, hg, rfl⟩ := List.mem_map.mp hf
        obtain ⟨h3, h4, h5⟩ := hs.field _ g hg
        exact ⟨h3, by show n + g.1 + size g.2 ≤ _; omega⟩
    · rw [List.pairwise_append]
      refine ⟨h2, ?_, ?_⟩
      · rw [List.pairwise_map]
        refine (hs.apart (func + n)).imp ?_
        intro f g hfg
        show n + f.1 + size f.2 ≤ n + g.1 ∨ n + g.1 + size g.2 ≤ n + f.1
        omega
      · intro f hf g hg
        obtain ⟨g', hg', rfl⟩ := List.mem_map.mp hg
        have := (h1 f hf).2
        left
        show _ ≤ n + g'.1
        omega

/-- Relocating fields: each refers to what it did, and other bytes are kept. -/
theorem relocate_spec {func buf n : Nat} (hf : func + n < 2 ^ 63) (hb : buf + n < 2 ^ 63) (hapart : func + n ≤ buf ∨ buf + n ≤ func) :
    ∀ (fs : List Field) (m : Mem), (∀ x, m x < 256) → (∀ f ∈ fs, f.2 ≠ .other ∧ f.1 + size f.2 ≤ n) →
      fs.Pairwise (fun f g => f.1 + size f.2 ≤ g.1 ∨ g.1 + size g.2 ≤ f.1) →
      (∀ f ∈ fs, f.2 = .pc32 → InRange (refers m (func + f.1) .pc32) (buf + f.1)) →
      ∃ m', relocate func buf m fs = some m' ∧ (∀ x, m' x < 256) ∧
        (∀ x, (∀ f ∈ fs, x < buf + f.1 ∨ buf + f.1 + size f.2 ≤ x) → m' x = m x) ∧
        ∀ f ∈ fs, refers m' (buf + f.1) f.2 = refers m (func + f.1) f.2
  | [], m, hm, _, _, _ => ⟨m, rfl, hm, fun _ _ => rfl, by simp⟩
  | f :: fs, m, hm, hin, hpw, hr => by
    obtain ⟨h1, h2⟩ := hin f List.mem_cons_self
    obtain ⟨s, m1, e1, e2, hm1, hk1, href⟩ := field_exact hm (t := func + f.1) (r := buf + f.1) (by omega) (by omega) h1
    have hfunc : ∀ x, func ≤ x → x < func + n → m1 x = m x := fun x hx1 hx2 => hk1 x (by omega)
    rw [List.pairwise_cons] at hpw
    obtain ⟨m', e3, hm', hk', hrf'⟩ := relocate_spec hf hb hapart fs m1 hm1 (fun g hg => hin g (List.mem_cons_of_mem _ hg)) hpw.2 (by
      intro g hg hgk
      have := hin g (List.mem_cons_of_mem _ hg)
      rw [refers_congr (m := m1) (m' := m) (fun i hi => hfunc _ (by omega) (by rw [hgk] at this; omega))]
      exact hr g (List.mem_cons_of_mem _ hg) hgk)
    refine ⟨m', by rw [relocate, e1, Option.bind_some, e2]; exact e3, hm', ?_, ?_⟩
    · intro x hx
      rw [hk' x (fun g hg => hx g (List.mem_cons_of_mem _ hg)), hk1 x (hx f List.mem_cons_self)]
    · intro g hg
      rcases List.mem_cons.mp hg with rfl | hg
      · rw [refers_congr (m := m') (m' := m1) (fun i hi => hk' _ (fun g' hg' => by have := hpw.1 g' hg'; omega))]
        exact href.mpr (hr g List.mem_cons_self)
      · rw [hrf' g hg]
        have := hin g (List.mem_cons_of_mem _ hg)
        exact refers_congr (fun i hi => hfunc _ (by omega) (by omega))

/-- **C104.** With a decoder that works, and detour and trampoline within reach: the function's first five bytes are a jump to the detour; the detour's
slot has the trampoline's address; the trampoline has the displaced instructions, whose fields refer to what they did, and then a jump to the rest of the
function; the rest of memory is as before. The trampoline takes at most 24 bytes. -/
theorem detour_partial {dec : Nat → Info} (hs : Sane dec) {m : Mem} (hm : ∀ x, m x < 256) {func detour slot buf : Nat}
    (hlen : ∀ n, n < 5 → (dec (func + n)).len ≠ 0) (hfb : func + 24 ≤ buf ∨ buf + 24 ≤ func) (hsf : func + 24 ≤ slot ∨ slot + 8 ≤ func)
    (hsb : buf + 24 ≤ slot ∨ slot + 8 ≤ buf) (hf : func + 24 < 2 ^ 63) (hb : buf + 24 < 2 ^ 63) (hd : detour < 2 ^ 63)
    (hrd : InRange detour (func + 5)) (hrb : ∀ i : Nat, i ≤ 19 → InRange ((func + i : Nat) : Int) (buf + i + 5))
    (hrf : ∀ n fs, Whole dec func n fs → n ≤ 19 → ∀ f ∈ fs, f.2 = .pc32 → InRange (refers m (func + f.1) .pc32) (buf + f.1)) :
    ∃ m' n fs, write dec m func detour slot buf = some (m', buf + n + 5) ∧ Whole dec func n fs ∧ 5 ≤ n ∧ n ≤ 19 ∧
      JumpsTo m' func detour ∧ rd m' slot 8 = buf ∧
      (∀ i, i < n → (∀ f ∈ fs, i < f.1 ∨ f.1 + size f.2 ≤ i) → m' (buf + i) = m (func + i)) ∧
      (∀ f ∈ fs, refers m' (buf + f.1) f.2 = refers m (func + f.1) f.2) ∧
      JumpsTo m' (buf + n) ((func + n : Nat) : Int) ∧
      (∀ x, ¬ (func ≤ x ∧ x < func + 5) → ¬ (buf ≤ x ∧ x < buf + n + 5) → ¬ (slot ≤ x ∧ x < slot + 8) → m' x = m x) ∧
      ∀ x, m' x < 256 := by
  obtain ⟨n, fs, e, hw, h5, h19, _⟩ := prologue_from hs hlen 5 0 [] Whole.zero (by omega) (fun _ => rfl) (by simp) (by omega)
  obtain ⟨hin, hpw⟩ := hw.fields hs
  have hc : ∀ x, copy m buf func n x < 256 := by
    intro x
    unfold copy
    split
    · exact hm _
    · exact hm _
  have hcf : ∀ x, func ≤ x → x < func + n → copy m buf func n x = m x := by
    intro x h1 h2
    unfold copy
    rw [if_neg (by omega)]
  obtain ⟨m1, e1, hm1, hk1, hr1⟩ := relocate_spec (func := func) (buf := buf) (n := n) (by omega) (by omega) (by omega) fs _ hc hin hpw (by
    intro f hff hfk
    have := hin f hff
    rw [refers_congr (m := copy m buf func n) (m' := m) (fun i hi => hcf _ (by omega) (by rw [hfk] at this; omega))]
    exact hrf n fs hw h19 f hff hfk)
  obtain ⟨m2, e2, hm2, hk2, hj2⟩ := jmp_exact hm1 (p := buf + n) (t := func + n) (by omega) (by omega)
  obtain ⟨m3, e3, hm3, hk3, hj3⟩ := jmp_exact (wr_byte hm2 slot buf 8) (p := func) (t := detour) (by omega) hd
  have hslot : ∀ x, ¬ (slot ≤ x ∧ x < slot + 8) → wr m2 slot buf 8 x = m2 x := fun x hx => wr_out _ (by omega)
  have hbuf : ∀ x, buf ≤ x → x < buf + n + 5 → m3 x = m2 x := by
    intro x h1 h2
    rw [hk3 x (by omega), hslot x (by omega)]
  refine ⟨m3, n, fs, ?_, hw, h5, h19, hj3.mpr hrd, ?_, ?_, ?_, ?_, ?_, hm3⟩
  · unfold write
    rw [e]
    show (relocate func buf _ fs).bind _ = _
    rw [e1, Option.bind_some, e2, Option.bind_some, e3, Option.map_some]
  · rw [rd_congr 8 slot slot (m' := wr m2 slot buf 8) (fun i hi => hk3 _ (by omega)), rd_wr_self]
    exact Nat.mod_eq_of_lt (by omega)
  · intro i hi hno
    rw [hbuf _ (by omega) (by omega), hk2 _ (by omega), hk1 _ (fun f hff => by have := hno f hff; omega)]
    unfold copy
    rw [if_pos (by omega), show buf + i - buf = i by omega]
  · intro f hff
    have := hin f hff
    rw [refers_congr (m := m3) (m' := m1) (fun i hi => by rw [hbuf _ (by omega) (by omega), hk2 _ (by omega)]), hr1 f hff]
    exact refers_congr (fun i hi => hcf _ (by omega) (by omega))
  · obtain ⟨j1, j2⟩ := hj2.mpr (hrb n h19)
    refine ⟨by rw [hbuf _ (by omega) (by omega)]; exact j1, ?_⟩
    rw [rd_congr 4 (buf + n + 1) (buf + n + 1) (m' := m2) (fun i hi => hbuf _ (by omega) (by omega))]
    exact j2
  · intro x h1 h2 h3
    rw [hk3 x (by omega), hslot x h3, hk2 x (by omega), hk1 x (fun f hff => by have := hin f hff; omega)]
    unfold copy
    rw [if_neg (by omega)]

/-- **C104 fails** in the code as it is: the decoder's call is commented out, no prologue is ever decoded, and what follows uses a null pointer
and fields never set. -/
theorem stub_fails (m : Mem) (func detour slot buf : Nat) : write stub m func detour slot buf = none := by
  simp [write, prologue, stub]

/-- **C104 fails** for a detour two gigabytes away or more: the jump goes somewhere else. -/
theorem far_fails {m : Mem} (hm : ∀ x, m x < 256) {func detour : Nat} (hf : func + 5 < 2 ^ 63) (hd : detour < 2 ^ 63)
    (h : func + 5 + 2 ^ 31 ≤ detour) : ∃ m', jmp m func detour = some m' ∧ ¬ JumpsTo m' func detour := by
  obtain ⟨m', e, _, _, h1⟩ := jmp_exact hm hf hd
  refine ⟨m', e, fun hj => ?_⟩
  have := (h1.mp hj).2
  omega

/-! ## A concrete case -/

/-- `push %rbp; mov %rsp,%rbp; lea 0x1234(%rip),%rdi; ...` at 0x401000. -/
def code : Mem := fun x =>
  if x < 0x401000 then 0 else ([0x55, 0x48, 0x89, 0xe5, 0x48, 0x8d, 0x3d, 0x34, 0x12, 0, 0, 0xc3][x - 0x401000]?).elim 0 id

/-- Its instructions. -/
def decode (a : Nat) : Info :=
  if a = 0x401000 then ⟨1, []⟩ else if a = 0x401001 then ⟨3, []⟩ else if a = 0x401004 then ⟨7, [(3, .pc32)]⟩ else ⟨1, []⟩

/-- The detour at 0x3f0000, the trampoline at 0x3ff000: bytes of the function, of the trampoline, and of the slot. -/
example : (write decode code 0x401000 0x3f0000 0x500000 0x3ff000).map (fun r =>
    ((List.range 12).map (fun i => r.1 (0x401000 + i)), (List.range 17).map (fun i => r.1 (0x3ff000 + i)), rd r.1 0x500000 8, r.2)) =
    some ([0xe9, 0xfb, 0xef, 0xfe, 0xff, 0x8d, 0x3d, 0x34, 0x12, 0, 0, 0xc3],
      [0x55, 0x48, 0x89, 0xe5, 0x48, 0x8d, 0x3d, 0x34, 0x32, 0, 0, 0xe9, 0xfb, 0x1f, 0, 0, 0], 0x3ff000, 0x3ff010) := by decide +kernel

/-- The `lea` refers to 0x40223f in both places. -/
example : refers code 0x401007 .pc32 + 4 = 0x40223f ∧ ((write decode code 0x401000 0x3f0000 0x500000 0x3ff000).map (fun r =>
    refers r.1 0x3ff007 .pc32 + 4)) = some 0x40223f := by decide +kernel

/-- **C104 fails** if a function is found twice, say in two symbol tables: its first instruction is then the jump to the detour, so the trampoline goes to
the detour and the detour calls itself. -/
theorem twice_fails : ((write decode code 0x401000 0x3f0000 0x500000 0x3ff000).bind (fun r =>
    (write (fun a => if a = 0x401000 then ⟨5, [(1, .pc32)]⟩ else decode a) r.1 0x401000 0x3f0000 0x500000 r.2).map (fun r' =>
      (rd r'.1 0x500000 8 == r.2, r'.1 r.2, (r.2 : Int) + 5 + sext (rd r'.1 (r.2 + 1) 4))))) = some (true, 0xe9, 0x3f0000) := by decide +kernel

end Liballocs.Detour
