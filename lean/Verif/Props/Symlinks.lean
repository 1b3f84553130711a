import Verif.Model.Symlinks

/-!
# C172: the links on the way to a file are all listed
-/

namespace Liballocs.Symlinks

open Liballocs.CcArgs (W)

/-! ## What should be -/

/-- A path from a directory leads to a directory, in so many steps, and these links are followed on the way,
in this order. -/
inductive Leads (fs : Fs) : Nat → Path → Path → Path → List Line → Prop
  | here (d : Path) : Leads fs 0 d [] d []
  | dot {k : Nat} {d cs r : Path} {ls : List Line} : Leads fs k d cs r ls → Leads fs (k + 1) d (w! "." :: cs) r ls
  | up {k : Nat} {d cs r : Path} {ls : List Line} : Leads fs k d.dropLast cs r ls → Leads fs (k + 1) d (w! ".." :: cs) r ls
  | down {k : Nat} {d cs r : Path} {c : W} {ls : List Line} : c ≠ w! "." → c ≠ w! ".." → fs d c = none →
      Leads fs k (d ++ [c]) cs r ls → Leads fs (k + 1) d (c :: cs) r ls
  | abs {k : Nat} {d cs t r : Path} {c : W} {ls : List Line} : c ≠ w! "." → c ≠ w! ".." → fs d c = some ⟨true, t⟩ →
      Leads fs k [] (t ++ cs) r ls → Leads fs (k + 1) d (c :: cs) r ((d, c) :: ls)
  | rel {k : Nat} {d cs t r : Path} {c : W} {ls : List Line} : c ≠ w! "." → c ≠ w! ".." → fs d c = some ⟨false, t⟩ →
      Leads fs k d (t ++ cs) r ls → Leads fs (k + 1) d (c :: cs) r ((d, c) :: ls)

/-- `readlink -f` tells where a path leads. -/
def Real (fs : Fs) (real : Path → Path → Option Path) : Prop := ∀ d cs r, real d cs = some r ↔ ∃ k ls, Leads fs k d cs r ls

/-- `.` and `..` are no links. -/
def Dots (fs : Fs) : Prop := ∀ d, fs d w! "." = none ∧ fs d w! ".." = none

/-- Links are to absolute paths other than the root, to a name in the same directory, or by a relative path on which
there are no more links. -/
def Simple (fs : Fs) : Prop := ∀ d n t, fs d n = some t →
  (t.abs = true ∧ t.names ≠ []) ∨ (t.abs = false ∧ ∃ m, t.names = [m]) ∨ (t.abs = false ∧ ∃ k r, Leads fs k d t.names r [])

/-! ## Where paths lead -/

theorem leads_det {fs : Fs} {k : Nat} {d cs r : Path} {ls : List Line} (h : Leads fs k d cs r ls) :
    ∀ {k' : Nat} {r' : Path} {ls' : List Line}, Leads fs k' d cs r' ls' → k' = k ∧ r' = r ∧ ls' = ls := by
  induction h with
  | here d => intro k' r' ls' h; cases h; exact ⟨rfl, rfl, rfl⟩
  | dot h ih =>
    intro k' r' ls' h
    cases h with
    | dot h => obtain ⟨rfl, rfl, rfl⟩ := ih h; exact ⟨rfl, rfl, rfl⟩
    | down h1 => exact absurd rfl h1
    | abs h1 => exact absurd rfl h1
    | rel h1 => exact absurd rfl h1
  | up h ih =>
    intro k' r' ls' h
    cases h with
    | up h => obtain ⟨rfl, rfl, rfl⟩ := ih h; exact ⟨rfl, rfl, rfl⟩
    | down _ h1 => exact absurd rfl h1
    | abs _ h1 => exact absurd rfl h1
    | rel _ h1 => exact absurd rfl h1
  | down h1 h2 h3 h ih =>
    intro k' r' ls' h'
    cases h' with
    | dot => exact absurd rfl h1
    | up => exact absurd rfl h2
    | down _ _ _ h => obtain ⟨rfl, rfl, rfl⟩ := ih h; exact ⟨rfl, rfl, rfl⟩
    | abs _ _ h4 => rw [h3] at h4; cases h4
    | rel _ _ h4 => rw [h3] at h4; cases h4
  | abs h1 h2 h3 h ih =>
    intro k' r' ls' h'
    cases h' with
    | dot => exact absurd rfl h1
    | up => exact absurd rfl h2
    | down _ _ h4 => rw [h3] at h4; cases h4
    | abs _ _ h4 h => rw [h3] at h4; cases h4; obtain ⟨rfl, rfl, rfl⟩ := ih h; exact ⟨rfl, rfl, rfl⟩
    | rel _ _ h4 => rw [h3] at h4; cases h4
  | rel h1 h2 h3 h ih =>
    intro k' r' ls' h'
    cases h' with
    | dot => exact absurd rfl h1
    | up => exact absurd rfl h2
    | down _ _ h4 => rw [h3] at h4; cases h4
    | abs _ _ h4 => rw [h3] at h4; cases h4
    | rel _ _ h4 h => rw [h3] at h4; cases h4; obtain ⟨rfl, rfl, rfl⟩ := ih h; exact ⟨rfl, rfl, rfl⟩

theorem leads_append {fs : Fs} {k1 : Nat} {d a m : Path} {l1 : List Line} (h : Leads fs k1 d a m l1) :
    ∀ {k2 : Nat} {b r : Path} {l2 : List Line}, Leads fs k2 m b r l2 → Leads fs (k1 + k2) d (a ++ b) r (l1 ++ l2) := by
  induction h with
  | here d => intro k2 b r l2 h; simpa using h
  | dot _ ih => intro k2 b r l2 h; rw [Nat.add_right_comm]; exact .dot (ih h)
  | up _ ih => intro k2 b r l2 h; rw [Nat.add_right_comm]; exact .up (ih h)
  | down h1 h2 h3 _ ih => intro k2 b r l2 h; rw [Nat.add_right_comm]; exact .down h1 h2 h3 (ih h)
  | abs h1 h2 h3 _ ih =>
    intro k2 b r l2 h
    rw [Nat.add_right_comm]
    refine .abs h1 h2 h3 ?_
    have := ih h
    rw [List.append_assoc] at this
    exact this
  | rel h1 h2 h3 _ ih =>
    intro k2 b r l2 h
    rw [Nat.add_right_comm]
    refine .rel h1 h2 h3 ?_
    have := ih h
    rw [List.append_assoc] at this
    exact this

theorem leads_split {fs : Fs} : ∀ (k : Nat) {d a b r : Path} {ls : List Line}, Leads fs k d (a ++ b) r ls →
    ∃ k1 k2 m l1 l2, Leads fs k1 d a m l1 ∧ Leads fs k2 m b r l2 ∧ k = k1 + k2 ∧ ls = l1 ++ l2
  | k, d, [], b, r, ls, h => ⟨0, k, d, [], ls, .here d, h, by omega, rfl⟩
  | 0, d, c :: a, b, r, ls, h => by cases h
  | k + 1, d, c :: a, b, r, ls, h => by
    cases h with
    | dot h =>
      obtain ⟨k1, k2, m, l1, l2, h1, h2, rfl, rfl⟩ := leads_split k (a := a) h
      exact ⟨k1 + 1, k2, m, l1, l2, .dot h1, h2, by omega, rfl⟩
    | up h =>
      obtain ⟨k1, k2, m, l1, l2, h1, h2, rfl, rfl⟩ := leads_split k (a := a) h
      exact ⟨k1 + 1, k2, m, l1, l2, .up h1, h2, by omega, rfl⟩
    | down n1 n2 n3 h =>
      obtain ⟨k1, k2, m, l1, l2, h1, h2, rfl, rfl⟩ := leads_split k (a := a) h
      exact ⟨k1 + 1, k2, m, l1, l2, .down n1 n2 n3 h1, h2, by omega, rfl⟩
    | abs n1 n2 n3 h =>
      rename_i t ls
      obtain ⟨k1, k2, m, l1, l2, h1, h2, rfl, rfl⟩ := leads_split k (a := t ++ a) (by rw [List.append_assoc]; exact h)
      exact ⟨k1 + 1, k2, m, (d, c) :: l1, l2, .abs n1 n2 n3 h1, h2, by omega, rfl⟩
    | rel n1 n2 n3 h =>
      rename_i t ls
      obtain ⟨k1, k2, m, l1, l2, h1, h2, rfl, rfl⟩ := leads_split k (a := t ++ a) (by rw [List.append_assoc]; exact h)
      exact ⟨k1 + 1, k2, m, (d, c) :: l1, l2, .rel n1 n2 n3 h1, h2, by omega, rfl⟩

/-- A directory that has no links on the way to it. -/
def Canon (fs : Fs) (d : Path) : Prop := ∃ k, Leads fs k [] d d []

/-- On the way to a directory without links only names go down. -/
inductive Plain (fs : Fs) : Path → Path → Prop
  | nil (d : Path) : Plain fs d []
  | cons {d cs : Path} {c : W} : c ≠ w! "." → c ≠ w! ".." → fs d c = none → Plain fs (d ++ [c]) cs → Plain fs d (c :: cs)

theorem plain_leads {fs : Fs} {d cs : Path} (h : Plain fs d cs) : ∃ k, Leads fs k d cs (d ++ cs) [] := by
  induction h with
  | nil d => exact ⟨0, by simpa using Leads.here d⟩
  | cons h1 h2 h3 _ ih =>
    obtain ⟨k, hk⟩ := ih
    exact ⟨k + 1, .down h1 h2 h3 (by simpa using hk)⟩

theorem plain_snoc {fs : Fs} {d cs : Path} {c : W} (h : Plain fs d cs) (h1 : c ≠ w! ".") (h2 : c ≠ w! "..") (h3 : fs (d ++ cs) c = none) :
    Plain fs d (cs ++ [c]) := by
  induction h with
  | nil d => exact .cons h1 h2 (by simpa using h3) (.nil _)
  | cons g1 g2 g3 _ ih => exact .cons g1 g2 g3 (ih (by simpa using h3))

theorem plain_drop {fs : Fs} {d cs : Path} (h : Plain fs d cs) : Plain fs d cs.dropLast := by
  induction h with
  | nil d => exact .nil d
  | @cons d cs c g1 g2 g3 _ ih =>
    cases cs with
    | nil => exact .nil _
    | cons c' cs => rw [List.dropLast_cons_of_ne_nil (by simp)]; exact .cons g1 g2 g3 ih

theorem leads_plain {fs : Fs} {k : Nat} {d cs r : Path} {ls : List Line} (h : Leads fs k d cs r ls) : Plain fs [] d → Plain fs [] r := by
  induction h with
  | here d => exact id
  | dot _ ih => exact ih
  | up _ ih => exact fun hd => ih (plain_drop hd)
  | down h1 h2 h3 _ ih => exact fun hd => ih (plain_snoc hd h1 h2 (by simpa using h3))
  | abs _ _ _ _ ih => exact fun _ => ih (.nil _)
  | rel _ _ _ _ ih => exact ih

theorem plain_canon {fs : Fs} {d : Path} (h : Plain fs [] d) : Canon fs d := by
  obtain ⟨k, hk⟩ := plain_leads h
  exact ⟨k, by simpa using hk⟩

theorem real_canon {fs : Fs} {real : Path → Path → Option Path} (hr : Real fs real) {d : Path} (h : Plain fs [] d) : real [] d = some d := by
  obtain ⟨k, hk⟩ := plain_canon h
  exact (hr _ _ _).mpr ⟨k, [], hk⟩

/-- There is a `readlink -f` for every file system. -/
theorem real_exists (fs : Fs) : ∃ real, Real fs real := by
  refine ⟨fun d cs => open Classical in if h : ∃ r k ls, Leads fs k d cs r ls then some h.choose else none, fun d cs r => ?_⟩
  constructor
  · intro h
    dsimp only at h
    split at h
    · rename_i hx
      cases h
      exact hx.choose_spec
    · cases h
  · rintro ⟨k, ls, h⟩
    have hx : ∃ r k ls, Leads fs k d cs r ls := ⟨r, k, ls, h⟩
    dsimp only
    rw [dif_pos hx]
    obtain ⟨k', ls', h'⟩ := hx.choose_spec
    rw [(leads_det h h').2.1]

/-! ## The script -/

theorem split_some : ∀ {p ds : Path} {b : W}, split p = some (ds, b) ↔ p = ds ++ [b]
  | [], ds, b => by simp [split]
  | [a], ds, b => by
    rw [split]
    constructor
    · intro h
      cases h
      rfl
    · intro h
      cases ds with
      | nil => cases h; rfl
      | cons x ds => cases ds <;> cases h
  | a :: c :: t, ds, b => by
    rw [split, Option.map_eq_some_iff]
    constructor
    · rintro ⟨⟨r1, r2⟩, h1, h2⟩
      cases h2
      rw [split_some.mp h1]
      rfl
    · intro h
      cases ds with
      | nil => cases h
      | cons x ds =>
        simp only [List.cons_append, List.cons.injEq] at h
        exact ⟨(ds, b), split_some.mpr h.2, by rw [h.1]⟩

theorem split_none {p : Path} : split p = none ↔ p = [] := by
  constructor
  · intro h
    cases p with
    | nil => rfl
    | cons a t =>
      have := (split_some (p := a :: t) (ds := (a :: t).dropLast) (b := (a :: t).getLast (by simp))).mpr (List.dropLast_concat_getLast (by simp)).symm
      rw [h] at this
      cases this
  · rintro rfl
    rfl

section
variable {fs : Fs} {real : Path → Path → Option Path}

theorem run_mono : ∀ (k : Nat) {t : Task} {o : Out}, run fs real k t = some o → run fs real (k + 1) t = some o
  | 0, t, o, h => by simp [run] at h
  | k + 1, .one d n, o, h => by
    rw [run] at h ⊢
    split at h
    · rename_i hc
      rw [if_pos hc]
      split at h
      · exact h
      · obtain ⟨o', h1, h2⟩ := Option.map_eq_some_iff.mp h
        rw [run_mono k h1]
        exact congrArg some h2
      · rename_i t _
        unfold relative at h ⊢
        split at h
        · rename_i hl
          rw [if_pos hl]
          split at h
          · obtain ⟨o', h1, h2⟩ := Option.map_eq_some_iff.mp h
            dsimp only at h1 ⊢
            rw [run_mono k h1]
            exact congrArg some h2
          · exact h
        · rename_i hl
          rw [if_neg hl]
          exact h
    · rename_i hc
      rw [if_neg hc]
      exact h
  | k + 1, .all p, o, h => by
    rw [run] at h ⊢
    split at h
    · exact h
    · exact run_mono k h
    · rename_i a ds b _
      obtain ⟨o', h1, h2⟩ := Option.bind_eq_some_iff.mp h
      rw [run_mono k h1, Option.bind_some]
      unfold last at h2 ⊢
      cases o' with
      | done ls =>
        dsimp only at h2 ⊢
        split at h2
        · exact h2
        · obtain ⟨o2, h3, h4⟩ := Option.map_eq_some_iff.mp h2
          rw [run_mono k h3]
          exact congrArg some h4
      | exit ls => exact h2
      | lost ls => exact h2

theorem run_le {j k : Nat} (hjk : j ≤ k) {t : Task} {o : Out} (h : run fs real j t = some o) : run fs real k t = some o := by
  induction hjk with
  | refl => exact h
  | step _ ih => exact run_mono _ ih

/-- A path without links on the way is not a link. -/
theorem no_link (hr : Real fs real) (hd : Dots fs) {k : Nat} {d t r : Path} (h : Leads fs k d t r []) : isLink fs real d t = false := by
  unfold isLink
  cases hs : split t with
  | none => rfl
  | some x =>
    obtain ⟨ds, b⟩ := x
    have := split_some.mp hs
    subst this
    obtain ⟨k1, k2, m, l1, l2, h1, h2, -, hl⟩ := leads_split k h
    have h0 := List.append_eq_nil_iff.mp hl.symm
    obtain ⟨rfl, rfl⟩ := h0
    dsimp only
    rw [(hr _ _ _).mpr ⟨k1, [], h1⟩]
    dsimp only
    cases h2 with
    | dot => rw [(hd m).1]; rfl
    | up => rw [(hd m).2]; rfl
    | down _ _ h => rw [h]; rfl

/-- The last name of a path, alone. -/
theorem one_done (hr : Real fs real) (hd : Dots fs) (hs : Simple fs)
    {k : Nat} (ihAll : ∀ j < k, ∀ p r ls, p ≠ [] → Leads fs j [] p r ls → ∃ f, run fs real f (.all p) = some (.done ls))
    (ihOne : ∀ j < k, ∀ d n r ls, Plain fs [] d → Leads fs j d [n] r ls → ∃ f, run fs real f (.one d n) = some (.done ls))
    {d r : Path} {n : W} {ls : List Line} (hp : Plain fs [] d) (h : Leads fs k d [n] r ls) : ∃ f, run fs real f (.one d n) = some (.done ls) := by
  have hc := real_canon hr hp
  have hnone : ∀ {c : W}, fs d c = none → ∃ f, run fs real f (.one d c) = some (.done []) := by
    intro c hf
    refine ⟨1, ?_⟩
    rw [run, if_pos hc, hf]
  cases h with
  | dot h => cases h; exact hnone (hd d).1
  | up h => cases h; exact hnone (hd d).2
  | down _ _ hf h => cases h; exact hnone hf
  | @abs k _ _ t _ _ ls _ _ hf h =>
    rw [List.append_nil] at h
    have ht : t ≠ [] := by
      rcases hs d n _ hf with h' | h' | h'
      · exact h'.2
      · cases h'.1
      · cases h'.1
    obtain ⟨f, hf'⟩ := ihAll k (by omega) t r ls ht h
    refine ⟨f + 1, ?_⟩
    rw [run, if_pos hc, hf]
    dsimp only
    rw [hf']
    rfl
  | @rel k _ _ t _ _ ls _ _ hf h =>
    rw [List.append_nil] at h
    rcases hs d n _ hf with h' | ⟨-, m, hm⟩ | ⟨-, k', r', h'⟩
    · cases h'.1
    rotate_left
    · obtain ⟨-, -, rfl⟩ := leads_det h' h
      refine ⟨1, ?_⟩
      rw [run, if_pos hc, hf]
      dsimp only
      unfold relative
      rw [if_neg (by rw [no_link hr hd h]; decide)]
    dsimp only at hm
    subst hm
    have hself : real d [] = some d := (hr _ _ _).mpr ⟨0, [], .here d⟩
    have hl : isLink fs real d [m] = (fs d m).isSome := by
      unfold isLink
      rw [show split [m] = some ([], m) from rfl]
      dsimp only
      rw [hself]
    cases hm : fs d m with
    | some t' =>
      obtain ⟨f, hf'⟩ := ihOne k (by omega) d m r ls hp h
      refine ⟨f + 1, ?_⟩
      rw [run, if_pos hc, hf]
      dsimp only
      unfold relative
      rw [if_pos (by rw [hl, hm]; rfl)]
      dsimp only
      rw [hf']
      rfl
    | none =>
      refine ⟨1, ?_⟩
      rw [run, if_pos hc, hf]
      dsimp only
      unfold relative
      rw [if_neg (by rw [hl, hm]; decide)]
      cases h with
      | dot h => cases h; rfl
      | up h => cases h; rfl
      | down _ _ _ h => cases h; rfl
      | abs _ _ h' => rw [hm] at h'; cases h'
      | rel _ _ h' => rw [hm] at h'; cases h'

theorem both_done (hr : Real fs real) (hd : Dots fs) (hs : Simple fs) (k : Nat) :
    (∀ p r ls, p ≠ [] → Leads fs k [] p r ls → ∃ f, run fs real f (.all p) = some (.done ls)) ∧
    (∀ d n r ls, Plain fs [] d → Leads fs k d [n] r ls → ∃ f, run fs real f (.one d n) = some (.done ls)) := by
  induction k using Nat.strongRecOn with
  | _ k ih =>
    have hone : ∀ d n r ls, Plain fs [] d → Leads fs k d [n] r ls → ∃ f, run fs real f (.one d n) = some (.done ls) :=
      fun d n r ls hp h => one_done hr hd hs (fun j hj => (ih j hj).1) (fun j hj => (ih j hj).2) hp h
    refine ⟨fun p r ls hne h => ?_, hone⟩
    obtain ⟨ds, b, rfl⟩ : ∃ ds b, p = ds ++ [b] := ⟨p.dropLast, p.getLast hne, (List.dropLast_concat_getLast hne).symm⟩
    cases ds with
    | nil =>
      obtain ⟨f, hf⟩ := hone [] b r ls (.nil _) h
      refine ⟨f + 1, ?_⟩
      rw [run, split_some.mpr rfl]
      exact hf
    | cons a ds =>
      obtain ⟨k1, k2, m, l1, l2, h1, h2, hk, rfl⟩ := leads_split k (a := a :: ds) (b := [b]) h
      have hk2 : 0 < k2 := by
        cases k2 with
        | zero => cases h2
        | succ => omega
      have hk1 : 0 < k1 := by
        cases k1 with
        | zero => cases h1
        | succ => omega
      obtain ⟨f1, hf1⟩ := (ih k1 (by omega)).1 (a :: ds) m l1 (by simp) h1
      have hm := leads_plain h1 (.nil _)
      obtain ⟨f2, hf2⟩ := (ih k2 (by omega)).2 m b r l2 hm h2
      refine ⟨f1 + f2 + 1, ?_⟩
      rw [run, split_some.mpr rfl]
      dsimp only
      rw [run_le (Nat.le_add_right f1 f2) hf1, Option.bind_some]
      unfold last
      dsimp only
      rw [(hr _ _ _).mpr ⟨k1, l1, h1⟩]
      dsimp only
      rw [run_le (Nat.le_add_left f2 f1) hf2]
      rfl

/-- How the script can end if links are simple. -/
theorem both_ends (hr : Real fs real) (hd : Dots fs) (hs : Simple fs) : ∀ (f : Nat),
    (∀ p o, p ≠ [] → run fs real f (.all p) = some o → ∃ k r ls, Leads fs k [] p r ls ∧ o = .done ls) ∧
    (∀ d n o, Plain fs [] d → run fs real f (.one d n) = some o → ∃ k r ls, Leads fs k d [n] r ls ∧ o = .done ls)
  | 0 => ⟨fun p o _ h => by simp [run] at h, fun d n o _ h => by simp [run] at h⟩
  | f + 1 => by
    obtain ⟨ihA, ihO⟩ := both_ends hr hd hs f
    refine ⟨fun p o hne h => ?_, fun d n o hp h => ?_⟩
    · rw [run] at h
      split at h
      · rename_i h0
        exact absurd (split_none.mp h0) hne
      · rename_i b hb
        have := split_some.mp hb
        subst this
        exact ihO [] b o (.nil _) h
      · rename_i a ds b hb
        have := split_some.mp hb
        subst this
        obtain ⟨o1, h1, h2⟩ := Option.bind_eq_some_iff.mp h
        obtain ⟨k1, m, l1, hl1, rfl⟩ := ihA (a :: ds) o1 (by simp) h1
        unfold last at h2
        dsimp only at h2
        rw [(hr _ _ _).mpr ⟨k1, l1, hl1⟩] at h2
        obtain ⟨o2, h3, h4⟩ := Option.map_eq_some_iff.mp h2
        obtain ⟨k2, r, l2, hl2, rfl⟩ := ihO m b o2 (leads_plain hl1 (.nil _)) h3
        exact ⟨k1 + k2, r, l1 ++ l2, leads_append hl1 hl2, h4.symm⟩
    · have hc := real_canon hr hp
      rw [run, if_pos hc] at h
      split at h
      · rename_i hf
        cases h
        by_cases h1 : n = w! "."
        · subst h1; exact ⟨1, d, [], .dot (.here d), rfl⟩
        · by_cases h2 : n = w! ".."
          · subst h2; exact ⟨1, d.dropLast, [], .up (.here _), rfl⟩
          · exact ⟨1, d ++ [n], [], .down h1 h2 hf (.here _), rfl⟩
      · rename_i t hf
        have h1 : n ≠ w! "." := by intro h'; subst h'; rw [(hd d).1] at hf; cases hf
        have h2 : n ≠ w! ".." := by intro h'; subst h'; rw [(hd d).2] at hf; cases hf
        have ht : t ≠ [] := by
          rcases hs d n _ hf with h' | h' | h'
          · exact h'.2
          · cases h'.1
          · cases h'.1
        obtain ⟨o', h3, h4⟩ := Option.map_eq_some_iff.mp h
        obtain ⟨k, r, ls, hl, rfl⟩ := ihA t o' ht h3
        exact ⟨k + 1, r, (d, n) :: ls, .abs h1 h2 hf (by rw [List.append_nil]; exact hl), h4.symm⟩
      · rename_i t hf
        have h1 : n ≠ w! "." := by intro h'; subst h'; rw [(hd d).1] at hf; cases hf
        have h2 : n ≠ w! ".." := by intro h'; subst h'; rw [(hd d).2] at hf; cases hf
        rcases hs d n _ hf with h' | ⟨-, m, hm⟩ | ⟨-, k', r', h'⟩
        · cases h'.1
        rotate_left
        · unfold relative at h
          rw [if_neg (by rw [no_link hr hd h']; decide)] at h
          cases h
          exact ⟨k' + 1, r', _, .rel h1 h2 hf (by rw [List.append_nil]; exact h'), rfl⟩
        dsimp only at hm
        subst hm
        have hself : real d [] = some d := (hr _ _ _).mpr ⟨0, [], .here d⟩
        have hl : isLink fs real d [m] = (fs d m).isSome := by
          unfold isLink
          rw [show split [m] = some ([], m) from rfl]
          dsimp only
          rw [hself]
        unfold relative at h
        split at h
        · dsimp only at h
          obtain ⟨o', h3, h4⟩ := Option.map_eq_some_iff.mp h
          obtain ⟨k, r, ls, hl, rfl⟩ := ihO d m o' hp h3
          exact ⟨k + 1, r, (d, n) :: ls, .rel h1 h2 hf hl, h4.symm⟩
        · rename_i hnl
          cases h
          have hm : fs d m = none := by
            cases hx : fs d m with
            | none => rfl
            | some t' => rw [hl, hx] at hnl; exact absurd rfl hnl
          by_cases g1 : m = w! "."
          · subst g1; exact ⟨2, d, _, .rel h1 h2 hf (.dot (.here d)), rfl⟩
          · by_cases g2 : m = w! ".."
            · subst g2; exact ⟨2, d.dropLast, _, .rel h1 h2 hf (.up (.here _)), rfl⟩
            · exact ⟨2, d ++ [m], _, .rel h1 h2 hf (.down g1 g2 hm (.here _)), rfl⟩

/-! ## C172 -/

/-- The script ends with just the links that are followed on the way, in their order, if the path leads anywhere; and it
ends in no other way. -/
theorem listed_partial (hr : Real fs real) (hd : Dots fs) (hs : Simple fs) {p : Path} (hp : p ≠ []) (o : Out) :
    (∃ f, run fs real f (.all p) = some o) ↔ ∃ k r ls, Leads fs k [] p r ls ∧ o = .done ls := by
  constructor
  · rintro ⟨f, h⟩
    exact (both_ends hr hd hs f).1 p o hp h
  · rintro ⟨k, r, ls, h, rfl⟩
    exact (both_done hr hd hs k).1 p r ls hp h

/-- If links lead in a circle the script does not end. -/
theorem circle_never (hr : Real fs real) (hd : Dots fs) (hs : Simple fs) {p : Path} (hp : p ≠ []) (h : ¬ ∃ k r ls, Leads fs k [] p r ls) (f : Nat) :
    run fs real f (.all p) = none := by
  cases ho : run fs real f (.all p) with
  | none => rfl
  | some o =>
    obtain ⟨k, r, ls, hl, -⟩ := (listed_partial hr hd hs hp o).mp ⟨f, ho⟩
    exact absurd ⟨k, r, ls, hl⟩ h

/-- The lines of an outcome. -/
def Out.lines : Out → List Line
  | .done ls => ls
  | .exit ls => ls
  | .lost ls => ls

theorem after_lines (b : List Line) (o : Out) : (o.after b).lines = b ++ o.lines := by cases o <;> rfl

/-- Whatever links there are, each line is for a link followed on the way, in order, however the script ends. -/
theorem both_sound (hr : Real fs real) (hd : Dots fs) : ∀ (f : Nat),
    (∀ p o k r ls, run fs real f (.all p) = some o → Leads fs k [] p r ls → List.Sublist o.lines ls) ∧
    (∀ d n o k r ls, run fs real f (.one d n) = some o → Leads fs k d [n] r ls → List.Sublist o.lines ls)
  | 0 => ⟨fun p o _ _ _ h => by simp [run] at h, fun d n o _ _ _ h => by simp [run] at h⟩
  | f + 1 => by
    obtain ⟨ihA, ihO⟩ := both_sound hr hd f
    refine ⟨fun p o k r ls h hl => ?_, fun d n o k r ls h hl => ?_⟩
    · rw [run] at h
      split at h
      · cases h; exact List.nil_sublist _
      · rename_i b hb
        have := split_some.mp hb
        subst this
        exact ihO [] b o k r ls h hl
      · rename_i a ds b hb
        have := split_some.mp hb
        subst this
        obtain ⟨k1, k2, m, l1, l2, hl1, hl2, -, rfl⟩ := leads_split k (a := a :: ds) (b := [b]) hl
        obtain ⟨o1, h1, h2⟩ := Option.bind_eq_some_iff.mp h
        have hs1 := ihA (a :: ds) o1 k1 m l1 h1 hl1
        unfold last at h2
        cases o1 with
        | done x =>
          dsimp only at h2
          rw [(hr _ _ _).mpr ⟨k1, l1, hl1⟩] at h2
          obtain ⟨o2, h3, h4⟩ := Option.map_eq_some_iff.mp h2
          rw [← h4, after_lines]
          exact hs1.append (ihO m b o2 k2 r l2 h3 hl2)
        | exit x =>
          cases h2
          exact hs1.trans (List.sublist_append_left _ _)
        | lost x =>
          cases h2
          exact hs1.trans (List.sublist_append_left _ _)
    · rw [run] at h
      split at h
      · split at h
        · cases h; exact List.nil_sublist _
        · rename_i t hf
          cases hl with
          | dot => rw [(hd d).1] at hf; cases hf
          | up => rw [(hd d).2] at hf; cases hf
          | down _ _ h' => rw [hf] at h'; cases h'
          | abs _ _ h' hl =>
            rw [hf] at h'
            cases h'
            rw [List.append_nil] at hl
            obtain ⟨o', h3, h4⟩ := Option.map_eq_some_iff.mp h
            rw [← h4, after_lines]
            exact List.Sublist.cons_cons _ (ihA _ _ _ _ _ h3 hl)
          | rel _ _ h' => rw [hf] at h'; cases h'
        · rename_i t hf
          cases hl with
          | dot => rw [(hd d).1] at hf; cases hf
          | up => rw [(hd d).2] at hf; cases hf
          | down _ _ h' => rw [hf] at h'; cases h'
          | abs _ _ h' => rw [hf] at h'; cases h'
          | rel _ _ h' hl =>
            rw [hf] at h'
            cases h'
            rw [List.append_nil] at hl
            unfold relative at h
            split at h
            · split at h
              · obtain ⟨o', h3, h4⟩ := Option.map_eq_some_iff.mp h
                rw [← h4, after_lines]
                exact List.Sublist.cons_cons _ (ihO _ _ _ _ _ _ h3 hl)
              · cases h
                exact List.Sublist.cons_cons _ (List.nil_sublist _)
            · cases h
              exact List.Sublist.cons_cons _ (List.nil_sublist _)
      · cases h; exact List.nil_sublist _

/-- No line is printed for anything but a link on the way. -/
theorem sound_partial (hr : Real fs real) (hd : Dots fs) {f : Nat} {p r : Path} {o : Out} {k : Nat} {ls : List Line}
    (h : run fs real f (.all p) = some o) (hl : Leads fs k [] p r ls) : List.Sublist o.lines ls :=
  (both_sound hr hd f).1 p o k r ls h hl

/-- A link to a path whose directory leads nowhere is listed, and listing ends there. -/
theorem nowhere (hr : Real fs real) {n : W} {ds : Path} {b : W} (hn : fs [] n = some ⟨false, ds ++ [b]⟩)
    (h : ¬ ∃ k r ls, Leads fs k [] ds r ls) (f : Nat) : run fs real (f + 2) (.all [n]) = some (.done [([], n)]) := by
  have h1 : real [] [] = some [] := (hr _ _ _).mpr ⟨0, [], .here _⟩
  have h2 : real [] ds = none := by
    cases hc : real [] ds with
    | none => rfl
    | some r =>
      obtain ⟨k, ls, hl⟩ := (hr _ _ _).mp hc
      exact absurd ⟨k, r, ls, hl⟩ h
  have h3 : isLink fs real [] (ds ++ [b]) = false := by
    unfold isLink
    rw [split_some.mpr rfl]
    dsimp only
    rw [h2]
  show run fs real (f + 1) (.one [] n) = _
  unfold run
  rw [if_pos h1, hn]
  dsimp only
  unfold relative
  rw [if_neg (by rw [h3]; decide)]

end

/-! ## Cases -/

/-- A file system of some links. -/
def fsOf (l : List (Line × Target)) : Fs := fun d n => (l.find? fun e => decide (e.1 = (d, n))).map Prod.snd

theorem fsOf_mem {l : List (Line × Target)} {d : Path} {n : W} {t : Target} (h : fsOf l d n = some t) : ((d, n), t) ∈ l := by
  unfold fsOf at h
  obtain ⟨⟨x, y⟩, h1, h2⟩ := Option.map_eq_some_iff.mp h
  have := List.find?_some h1
  simp only [decide_eq_true_eq] at this
  subst this
  subst h2
  exact List.mem_of_find?_eq_some h1

theorem fsOf_none {l : List (Line × Target)} {n : W} (h : ∀ e ∈ l, e.1.2 ≠ n) (d : Path) : fsOf l d n = none := by
  cases hf : fsOf l d n with
  | none => rfl
  | some t => exact absurd rfl (h _ (fsOf_mem hf))

theorem fsOf_dots {l : List (Line × Target)} (h : ∀ e ∈ l, e.1.2 ≠ w! "." ∧ e.1.2 ≠ w! "..") : Dots (fsOf l) :=
  fun d => ⟨fsOf_none (fun e he => (h e he).1) d, fsOf_none (fun e he => (h e he).2) d⟩

/-- `/lib` is `usr/lib`; there `a.so` is `a.so.1`, and that is `/opt/a`. -/
def fs0 : Fs := fsOf [(([], w! "lib"), ⟨false, [w! "usr", w! "lib"]⟩), (([w! "usr", w! "lib"], w! "a.so"), ⟨false, [w! "a.so.1"]⟩),
  (([w! "usr", w! "lib"], w! "a.so.1"), ⟨true, [w! "opt", w! "a"]⟩)]

theorem fs0_dots : Dots fs0 := fsOf_dots (by decide)

theorem fs0_simple : Simple fs0 := by
  intro d n t h
  have := fsOf_mem h
  simp only [List.mem_cons, List.not_mem_nil, or_false, Prod.mk.injEq] at this
  rcases this with ⟨⟨rfl, rfl⟩, rfl⟩ | ⟨⟨rfl, rfl⟩, rfl⟩ | ⟨⟨rfl, rfl⟩, rfl⟩
  · exact Or.inr (Or.inr ⟨rfl, 2, [w! "usr", w! "lib"], .down (by decide) (by decide) (by decide) (.down (by decide) (by decide) (by decide) (.here _))⟩)
  · exact Or.inr (Or.inl ⟨rfl, _, rfl⟩)
  · exact Or.inl ⟨rfl, by simp⟩

/-- Three links on the way to `/lib/a.so`. -/
theorem case_listed {real : Path → Path → Option Path} (hr : Real fs0 real) : ∃ f, run fs0 real f (.all [w! "lib", w! "a.so"]) =
    some (.done [([], w! "lib"), ([w! "usr", w! "lib"], w! "a.so"), ([w! "usr", w! "lib"], w! "a.so.1")]) :=
  (listed_partial hr fs0_dots fs0_simple (by simp) _).mpr ⟨_, [w! "opt", w! "a"], _,
    .rel (t := [w! "usr", w! "lib"]) (by decide) (by decide) (by decide) (.down (by decide) (by decide) (by decide) (.down (by decide) (by decide) (by decide)
      (.rel (t := [w! "a.so.1"]) (by decide) (by decide) (by decide) (.abs (t := [w! "opt", w! "a"]) (by decide) (by decide) (by decide)
        (.down (by decide) (by decide) (by decide) (.down (by decide) (by decide) (by decide) (.here _))))))), rfl⟩

/-- `/a` is `b/c`, and `/b` is `/d`: the link `/b` is followed, but not listed. -/
theorem hidden_fails {real : Path → Path → Option Path}
    (hr : Real (fsOf [(([], w! "a"), ⟨false, [w! "b", w! "c"]⟩), (([], w! "b"), ⟨true, [w! "d"]⟩)]) real) :
    run (fsOf [(([], w! "a"), ⟨false, [w! "b", w! "c"]⟩), (([], w! "b"), ⟨true, [w! "d"]⟩)]) real 2 (.all [w! "a"]) = some (.done [([], w! "a")]) ∧
    ∃ k, Leads (fsOf [(([], w! "a"), ⟨false, [w! "b", w! "c"]⟩), (([], w! "b"), ⟨true, [w! "d"]⟩)]) k [] [w! "a"] [w! "d", w! "c"] [([], w! "a"), ([], w! "b")] := by
  have h1 : real [] [] = some [] := (hr _ _ _).mpr ⟨0, [], .here _⟩
  have h2 : real [] [w! "b"] = some [w! "d"] := (hr _ _ _).mpr
    ⟨_, _, .abs (t := [w! "d"]) (by decide) (by decide) (by decide) (.down (by decide) (by decide) (by decide) (.here _))⟩
  refine ⟨?_, _, .rel (t := [w! "b", w! "c"]) (by decide) (by decide) (by decide) (.abs (t := [w! "d"]) (by decide) (by decide) (by decide)
    (.down (by decide) (by decide) (by decide) (.down (by decide) (by decide) (by decide) (.here _))))⟩
  simp [run, split, h1, relative, isLink, h2, fsOf]

/-- `/a` is `b/c`, and that is a link: the script gives up. -/
theorem hop_aborts {real : Path → Path → Option Path}
    (hr : Real (fsOf [(([], w! "a"), ⟨false, [w! "b", w! "c"]⟩), (([w! "b"], w! "c"), ⟨true, [w! "d"]⟩)]) real) :
    run (fsOf [(([], w! "a"), ⟨false, [w! "b", w! "c"]⟩), (([w! "b"], w! "c"), ⟨true, [w! "d"]⟩)]) real 2 (.all [w! "a"]) = some (.exit [([], w! "a")]) := by
  have h1 : real [] [] = some [] := (hr _ _ _).mpr ⟨0, [], .here _⟩
  have h2 : real [] [w! "b"] = some [w! "b"] := (hr _ _ _).mpr ⟨_, _, .down (by decide) (by decide) (by decide) (.here _)⟩
  simp [run, split, h1, relative, isLink, h2, fsOf]

/-- A link to the root: the script gives up. -/
theorem root_aborts {real : Path → Path → Option Path} (hr : Real (fsOf [(([], w! "a"), ⟨true, []⟩)]) real) :
    run (fsOf [(([], w! "a"), ⟨true, []⟩)]) real 3 (.all [w! "a", w! "b"]) = none ∧
    run (fsOf [(([], w! "a"), ⟨true, []⟩)]) real 4 (.all [w! "a", w! "b"]) = some (.exit [([], w! "a")]) := by
  have h1 : real [] [] = some [] := (hr _ _ _).mpr ⟨0, [], .here _⟩
  simp [run, split, h1, fsOf, Out.after, last]

/-- `/a` is `b` and `/b` is `a`. -/
def fs1 : Fs := fsOf [(([], w! "a"), ⟨false, [w! "b"]⟩), (([], w! "b"), ⟨false, [w! "a"]⟩)]

theorem fs1_none : ∀ k r ls, ¬ Leads fs1 k [] [w! "a"] r ls ∧ ¬ Leads fs1 k [] [w! "b"] r ls
  | 0, r, ls => ⟨(by intro h; cases h), (by intro h; cases h)⟩
  | k + 1, r, ls => by
    refine ⟨fun h => ?_, fun h => ?_⟩
    · cases h with
      | down _ _ h => exact absurd h (by decide)
      | abs _ _ h =>
        have : fs1 [] w! "a" = some ⟨false, [w! "b"]⟩ := by decide
        rw [this] at h
        cases h
      | rel _ _ h h' =>
        have : fs1 [] w! "a" = some ⟨false, [w! "b"]⟩ := by decide
        rw [this] at h
        cases h
        exact (fs1_none k _ _).2 h'
    · cases h with
      | down _ _ h => exact absurd h (by decide)
      | abs _ _ h =>
        have : fs1 [] w! "b" = some ⟨false, [w! "a"]⟩ := by decide
        rw [this] at h
        cases h
      | rel _ _ h h' =>
        have : fs1 [] w! "b" = some ⟨false, [w! "a"]⟩ := by decide
        rw [this] at h
        cases h
        exact (fs1_none k _ _).1 h'

theorem circle_fails {real : Path → Path → Option Path} (hr : Real fs1 real) (f : Nat) : run fs1 real f (.all [w! "a"]) = none := by
  refine circle_never hr (fsOf_dots (by decide)) ?_ (by simp) ?_ f
  · intro d n t h
    have := fsOf_mem h
    simp only [List.mem_cons, List.not_mem_nil, or_false, Prod.mk.injEq] at this
    rcases this with ⟨⟨rfl, rfl⟩, rfl⟩ | ⟨⟨rfl, rfl⟩, rfl⟩
    · exact Or.inr (Or.inl ⟨rfl, _, rfl⟩)
    · exact Or.inr (Or.inl ⟨rfl, _, rfl⟩)
  · rintro ⟨k, r, ls, h⟩
    exact (fs1_none k r ls).1 h

end Liballocs.Symlinks
