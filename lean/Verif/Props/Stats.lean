import Verif.Model.Stats
import Verif.Props.Addrlist
/-! C164: the statistics of queries count what was answered, and the summary printed at exit says so. -/
namespace Liballocs.Stats

open Liballocs.Addrlist (St contains add Inv inv_add scan_spec)

/-! ## Specification -/

/-- Whether the type of a heap or `alloca` object can be told, from what was stored with it at first. -/
def known (ins : Nat → Ins) (find : Nat → Option Nat) (o : Nat) : Bool :=
  match ins o with
  | .typed t => t.isSome
  | .site a => (find a).isSome

/-- What a query should answer, whatever was asked before. -/
def answer (ins : Nat → Ins) (find : Nat → Option Nat) : Target → Bool → Bool → Option Err
  | .wild, _, _ => some .unknownStorage
  | .stack e, _, _ => e.map .stackWalk
  | .static found, _, _ => if found then none else some .unrecognisedStatic
  | .heap none, _, _ => some .unindexedHeap
  | .heap (some o), ty, si => if (ty || si) && !known ins find o then some .unrecognisedSite else none
  | .alloca none, _, _ => some .unindexedAlloca
  | .alloca (some o), ty, si => if (ty || si) && !known ins find o then some .unrecognisedSite else none
  | .small none, _, _ => some .unindexedHeap
  | .small (some a), ty, _ => if ty && !(find a).isSome then some .unrecognisedSite else none
  | .other, _, _ => none

/-- What a call should answer. -/
def callAnswer (ins : Nat → Ins) (find : Nat → Option Nat) : Call → Option Err
  | .info t ty si => answer ins find t ty si
  | .tryType .wild => none
  | .tryType t => answer ins find t true false
  | .staticName _ => none

/-- Queries made by the program, not by the library on its own account or for a name. -/
def isQuery : Call → Bool
  | .info _ _ _ => true
  | _ => false

/-- The object a call is about. -/
def target : Call → Target
  | .info t _ _ => t
  | .tryType t => t
  | .staticName b => .static b

/-- What the words of the summary say about a call and its result: which counter should count it. -/
def should : Ctr → Call → Option Err → Bool
  | .abortedStack, _, e => match e with | some (.stackWalk _) => true | _ => false
  | .abortedStatic, _, e => e == some .unrecognisedStatic
  | .abortedUnknown, _, e => e == some .unknownStorage
  | .abortedUnindexedHeap, _, e => e == some .unindexedHeap
  | .abortedUnindexedAlloca, _, e => e == some .unindexedAlloca
  | .abortedUnrecognised, _, e => e == some .unrecognisedSite
  | .hitHeap, c, _ => match target c with | .heap _ => true | _ => false
  | .hitAlloca, c, _ => match target c with | .alloca _ => true | _ => false
  | .hitStack, c, _ => match target c with | .stack _ => true | _ => false
  | .hitStatic, c, _ => match target c with | .static _ => true | _ => false

/-- A call that asks for the type of an object allocated at the site `a`. -/
def AsksAbout (ins : Nat → Ins) (a : Nat) : Call → Prop
  | .info (.heap (some o)) ty si => ins o = .site a ∧ (ty = true ∨ si = true)
  | .info (.alloca (some o)) ty si => ins o = .site a ∧ (ty = true ∨ si = true)
  | .info (.small (some b)) ty _ => b = a ∧ ty = true
  | _ => False

/-- Skip spaces, then read a number. -/
def readNum (t : Text) : Nat :=
  (t.dropWhile (· == ' ')).foldl (fun acc c => acc * 10 + (c.toNat - 48)) 0

/-! ## Counting -/

theorem bump_ctr (c d : Ctr) (s : State) : (bump c s).ctr d = s.ctr d + if d = c then 1 else 0 := by
  unfold bump
  by_cases h : d = c <;> simp [h]

theorem setIns_ctr (o i s) : (setIns o i s).ctr = s.ctr := rfl

theorem remember_ctr {junk find a s s'} (h : remember junk find a s = some s') : s'.ctr = s.ctr ∧ s'.ins = s.ins := by
  unfold remember at h
  split at h
  · split at h
    · cases h
    · cases ha : add junk s.sites a with
      | none => rw [ha] at h; cases h
      | some l => rw [ha] at h; cases h; exact ⟨rfl, rfl⟩
    · cases h; exact ⟨rfl, rfl⟩
  · cases h; exact ⟨rfl, rfl⟩

theorem extract_ctr {opt junk find o s s' e} (h : extract opt junk find o s = some (s', e)) :
    (e = none ∧ s'.ctr = s.ctr) ∨
      (e = some .unrecognisedSite ∧ ∀ c, s'.ctr c = s.ctr c + if c = .abortedUnrecognised then 1 else 0) := by
  unfold extract at h
  split at h
  · cases h; exact .inl ⟨rfl, rfl⟩
  · cases h
    refine .inr ⟨rfl, fun c => ?_⟩
    rw [bump_ctr]
    cases opt <;> rfl
  · cases hr : remember junk find _ s with
    | none => rw [hr] at h; cases h
    | some s₁ =>
      rw [hr] at h
      dsimp only at h
      have hc := (remember_ctr hr).1
      split at h
      · cases h
        refine .inl ⟨rfl, ?_⟩
        cases opt <;> simp [setIns_ctr, hc]
      · cases h
        refine .inr ⟨rfl, fun c => ?_⟩
        rw [bump_ctr]
        cases opt <;> simp [setIns_ctr, hc]

/-- Counting of one query, by cases. -/
theorem getInfo_ctr {opt junk find t ty si s s' e} (h : getInfo opt junk find t ty si s = some (s', e)) (c : Ctr) :
    s'.ctr c = s.ctr c + if should c (.info t ty si) e = true then 1 else 0 := by
  unfold getInfo at h
  split at h
  case h_1 => cases h; rw [bump_ctr]; cases c <;> rfl
  case h_2 => cases h; rw [bump_ctr]; cases c <;> rfl
  case h_3 => cases h; rw [bump_ctr, bump_ctr]; cases c <;> rfl
  case h_4 => cases h; rw [bump_ctr]; cases c <;> rfl
  case h_5 => cases h; rw [bump_ctr, bump_ctr]; cases c <;> rfl
  case h_6 => cases h; rw [bump_ctr, bump_ctr]; cases c <;> rfl
  case h_7 =>
    split at h
    · obtain ⟨rfl, hx⟩ | ⟨rfl, hx⟩ := extract_ctr h
      · rw [hx, bump_ctr]; cases c <;> rfl
      · rw [hx, bump_ctr]; cases c <;> rfl
    · cases h; rw [bump_ctr]; cases c <;> rfl
  case h_8 => cases h; rw [bump_ctr, bump_ctr]; cases c <;> rfl
  case h_9 =>
    split at h
    · obtain ⟨rfl, hx⟩ | ⟨rfl, hx⟩ := extract_ctr h
      · rw [hx, bump_ctr]; cases c <;> rfl
      · rw [hx, bump_ctr]; cases c <;> rfl
    · cases h; rw [bump_ctr]; cases c <;> rfl
  case h_10 => cases h; rw [bump_ctr]; cases c <;> rfl
  case h_11 =>
    split at h
    · split at h
      · cases h
      · rename_i s₁ hr
        have hc := (remember_ctr hr).1
        split at h
        · cases h; rw [hc]; cases c <;> rfl
        · cases h; rw [bump_ctr, hc]; cases c <;> rfl
    · cases h; cases c <;> rfl
  case h_12 => cases h; cases c <;> rfl

/-- The failed lookups for names, which are counted among the static objects. -/
def nameFailure (c : Ctr) : Call → Bool
  | .staticName false => c == .abortedStatic
  | _ => false

theorem step_ctr {opt junk find s s' cl e} (h : step opt junk find s cl = some (s', e)) (c : Ctr) :
    s'.ctr c = s.ctr c + (if should c cl e = true then 1 else 0) + (if nameFailure c cl = true then 1 else 0) := by
  unfold step at h
  split at h
  · rw [getInfo_ctr h c]; rfl
  · cases h; cases c <;> rfl
  · rename_i t _
    split at h
    · cases h
    · rename_i s₁ e₁ hg
      cases h
      have := getInfo_ctr hg c
      show s₁.ctr c = _
      rw [this]
      cases c <;> rfl
  · cases h; rw [bump_ctr]; cases c <;> rfl
  · cases h; rw [bump_ctr, bump_ctr]; cases c <;> rfl

/-- After any calls, each counter has grown by the number of calls it should count and, the one for static objects, by the number
of failed lookups of names. -/
theorem counted {opt junk find s s' cs tr} (h : run opt junk find s cs = some (s', tr)) (c : Ctr) :
    s'.ctr c = s.ctr c + tr.countP (fun ce => should c ce.1 ce.2) + cs.countP (nameFailure c) := by
  induction cs generalizing s s' tr with
  | nil => cases h; simp
  | cons cl cs ih =>
    unfold run at h
    cases hs : step opt junk find s cl with
    | none => rw [hs] at h; cases h
    | some p =>
      obtain ⟨s₁, e⟩ := p
      rw [hs] at h; dsimp only at h
      cases hr : run opt junk find s₁ cs with
      | none => rw [hr] at h; cases h
      | some q =>
        obtain ⟨s₂, tr'⟩ := q
        rw [hr] at h; cases h
        rw [ih hr, step_ctr hs, List.countP_cons, List.countP_cons]
        dsimp only
        omega

/-! ## Answers, and the list of sites -/

/-- What holds between calls: the list holds `l`; the data of an object is as at first, or an optimised build has put the type
found, or none, in place of its site. With `quiet`, the site is then known to be listed. -/
structure Good (opt quiet : Bool) (ins₀ : Nat → Ins) (find : Nat → Option Nat) (s : State) (l : List Nat) : Prop where
  lst : Inv s.sites l
  nodup : l.Nodup
  ins : ∀ o, s.ins o = ins₀ o ∨ (opt = true ∧ ∃ a, ins₀ o = .site a ∧ s.ins o = .typed (find a)
    ∧ (quiet = true → find a = none → a ≠ 0 → a ∈ l))

theorem contains_spec {s l} (h : Inv s l) (a : Nat) : ∃ r, contains s a = some r ∧ (r = 0 ↔ a ∉ l) := by
  obtain ⟨h1, h2, h3, h4⟩ := h
  obtain ⟨r, e, z, nz⟩ := scan_spec s.store a s.count 0 (by omega)
  refine ⟨r, e, ?_, ?_⟩
  · intro hr hm
    rw [← h4] at hm
    obtain ⟨j, hj, hje⟩ := List.mem_iff_getElem.mp hm
    rw [List.length_take] at hj
    rw [List.getElem_take] at hje
    exact z hr j (by omega) (by omega) hje
  · intro hm
    by_cases hr : r = 0
    · exact hr
    · obtain ⟨j, _, _, hj, hs, _⟩ := nz hr
      exfalso; apply hm
      rw [← h4]
      have : (s.store.take s.count)[j]? = some a := by rw [List.getElem?_take, if_pos (by omega)]; exact hs
      exact List.mem_of_getElem? this

theorem remember_spec {junk find s l} (h : Inv s.sites l) (nd : l.Nodup) (a : Nat) :
    ∃ s' l', remember junk find a s = some s' ∧ s'.ins = s.ins ∧ Inv s'.sites l' ∧ l'.Nodup ∧ l <+: l'
      ∧ (∀ b ∈ l', b ∈ l ∨ (b = a ∧ find a = none ∧ a ≠ 0)) ∧ (find a = none → a ≠ 0 → a ∈ l') := by
  unfold remember
  by_cases hc : find a = none ∧ a ≠ 0
  · rw [if_pos hc]
    obtain ⟨r, hr, hz⟩ := contains_spec h a
    rw [hr]
    cases r with
    | zero =>
      obtain ⟨s₂, e₂, i₂⟩ := inv_add junk h a
      rw [e₂]
      refine ⟨_, l ++ [a], rfl, rfl, i₂, ?_, List.prefix_append _ _, ?_, fun _ _ => by simp⟩
      · rw [List.nodup_append]
        refine ⟨nd, by simp, ?_⟩
        intro x hx y hy hxy
        cases List.mem_singleton.mp hy
        subst hxy
        exact hz.mp rfl hx
      · intro b hb
        rcases List.mem_append.mp hb with hb | hb
        · exact .inl hb
        · exact .inr ⟨List.mem_singleton.mp hb, hc⟩
    | succ r =>
      refine ⟨s, l, rfl, rfl, h, nd, List.prefix_refl _, fun b hb => .inl hb, fun _ _ => ?_⟩
      exact Decidable.byContradiction fun hn => absurd (hz.mpr hn) (by omega)
  · rw [if_neg hc]
    exact ⟨s, l, rfl, rfl, h, nd, List.prefix_refl _, fun b hb => .inl hb, fun h1 h2 => absurd ⟨h1, h2⟩ hc⟩

theorem Good.bump {opt quiet ins₀ find s l} (h : Good opt quiet ins₀ find s l) (c) : Good opt quiet ins₀ find (bump c s) l :=
  ⟨h.lst, h.nodup, h.ins⟩

/-- What a query does to the list, and to `Good`. -/
def Out (opt quiet : Bool) (ins₀ : Nat → Ins) (find : Nat → Option Nat) (l : List Nat) (asks : Nat → Prop) (s' : State) : Prop :=
  ∃ l', Good opt quiet ins₀ find s' l' ∧ l <+: l' ∧ (∀ b ∈ l', b ∈ l ∨ (asks b ∧ find b = none ∧ b ≠ 0))
    ∧ (opt = false ∨ quiet = true → ∀ b, asks b → find b = none → b ≠ 0 → b ∈ l')

theorem Out.same {opt quiet ins₀ find s' l} {asks : Nat → Prop} (h : Good opt quiet ins₀ find s' l)
    (hn : ∀ b, ¬ asks b) : Out opt quiet ins₀ find l asks s' :=
  ⟨l, h, List.prefix_refl _, fun _ hb => .inl hb, fun _ b hb => absurd hb (hn b)⟩

theorem Out.bump {opt quiet ins₀ find l asks s'} (h : Out opt quiet ins₀ find l asks s') (c) :
    Out opt quiet ins₀ find l asks (bump c s') := by
  obtain ⟨l', g, r⟩ := h
  exact ⟨l', g.bump c, r⟩

theorem Out.mono {opt quiet ins₀ find l s'} {p q : Nat → Prop} (h : Out opt quiet ins₀ find l p s') (hpq : ∀ b, p b ↔ q b) :
    Out opt quiet ins₀ find l q s' := by
  obtain ⟨l', g, p1, p2, p3⟩ := h
  exact ⟨l', g, p1, fun b hb => (p2 b hb).imp id (fun ⟨x, y⟩ => ⟨(hpq b).mp x, y⟩), fun o b hb => p3 o b ((hpq b).mpr hb)⟩

theorem setIns_ins (o i s p) : (setIns o i s).ins p = if p = o then i else s.ins p := rfl

theorem extract_spec {opt quiet ins₀ find s l} (junk : Nat) (h : Good opt quiet ins₀ find s l) (o : Nat) :
    ∃ s', extract opt junk find o s = some (s', if known ins₀ find o = true then none else some .unrecognisedSite)
      ∧ Out opt quiet ins₀ find l (fun a => ins₀ o = .site a) s' := by
  unfold extract
  -- storing "no type" where it is stored already, or where nothing is found
  have put : ∀ (s : State) (l : List Nat) (t : Option Nat), Good opt quiet ins₀ find s l → opt = true →
      ((∃ a, ins₀ o = .site a ∧ t = find a ∧ (quiet = true → find a = none → a ≠ 0 → a ∈ l)) ∨ ins₀ o = .typed t) →
      Good opt quiet ins₀ find (setIns o (.typed t) s) l := by
    intro s l t hg ho ht
    refine ⟨hg.lst, hg.nodup, fun p => ?_⟩
    rw [setIns_ins]
    by_cases hp : p = o
    · rw [if_pos hp]
      subst hp
      rcases ht with ⟨a, h1, h2, h3⟩ | h1
      · exact .inr ⟨ho, a, h1, by rw [h2], h3⟩
      · exact .inl h1.symm
    · rw [if_neg hp]; exact hg.ins p
  rcases h.ins o with hi | ⟨ho, a, hi, hs, hl⟩
  · rw [hi]
    cases hk : ins₀ o with
    | typed t =>
      cases t with
      | some t =>
        refine ⟨s, by simp [known, hk], Out.same h (fun b hb => by cases hb)⟩
      | none =>
        refine ⟨_, by simp only [known, hk]; rfl, Out.bump (Out.same ?_ (fun b hb => by cases hb)) _⟩
        cases hopt : opt with
        | false => simpa [hopt] using h
        | true => 
          rw [if_pos rfl, ← hopt]
          exact put s l none h hopt (.inr hk)
    | site a =>
      obtain ⟨s₁, l₁, hr, hins, inv₁, nd₁, pre, back, mem⟩ := remember_spec (junk := junk) (find := find) h.lst h.nodup a
      dsimp only
      rw [hr]
      dsimp only
      have g₁ : Good opt quiet ins₀ find s₁ l₁ := by
        refine ⟨inv₁, nd₁, fun p => ?_⟩
        rw [hins]
        rcases h.ins p with hp | ⟨q1, b, q2, q3, q4⟩
        · exact .inl hp
        · exact .inr ⟨q1, b, q2, q3, fun x y z => pre.subset (q4 x y z)⟩
      have out : ∀ s', Good opt quiet ins₀ find s' l₁ →
          Out opt quiet ins₀ find l (fun b => Ins.site a = .site b) s' := by
        intro s' hg
        refine ⟨l₁, hg, pre, fun b hb => (back b hb).imp id (fun hh => ?_), fun _ b hb hf hz => ?_⟩
        · obtain ⟨rfl, y⟩ := hh; exact ⟨rfl, y⟩
        · injection hb with hb; subst hb; exact mem hf hz
      have g₂ : Good opt quiet ins₀ find (if opt = true then setIns o (.typed (find a)) s₁ else s₁) l₁ := by
        by_cases hopt : opt = true
        · rw [if_pos hopt]
          exact put s₁ l₁ _ g₁ hopt (.inl ⟨a, hk, rfl, fun _ => mem⟩)
        · rw [if_neg hopt]; exact g₁
      cases hf : find a with
      | some t =>
        rw [hf] at g₂
        have hkn : known ins₀ find o = true := by simp [known, hk, hf]
        rw [hkn]
        exact ⟨_, rfl, out _ g₂⟩
      | none =>
        rw [hf] at g₂
        have hkn : known ins₀ find o = false := by simp [known, hk, hf]
        rw [hkn]
        refine ⟨_, rfl, (out _ ?_).bump _⟩
        by_cases hopt : opt = true
        · rw [if_pos hopt]
          exact put _ l₁ none g₂ hopt (.inl ⟨a, hk, hf.symm, fun _ => mem⟩)
        · rw [if_neg hopt]; exact g₂
  · rw [hs]
    have out : ∀ s', Good opt quiet ins₀ find s' l → Out opt quiet ins₀ find l (fun b => ins₀ o = .site b) s' := by
      intro s' hg
      refine ⟨l, hg, List.prefix_refl _, fun b hb => .inl hb, fun hq b hb hf hz => ?_⟩
      rw [hi] at hb; cases hb
      rcases hq with hq | hq
      · rw [hq] at ho; cases ho
      · exact hl hq hf hz
    cases hf : find a with
    | some t => exact ⟨s, by simp [known, hi, hf], out _ h⟩
    | none =>
      have hkn : known ins₀ find o = false := by simp [known, hi, hf]
      rw [hkn]
      refine ⟨_, rfl, (out _ ?_).bump _⟩
      rw [if_pos ho]
      exact put s l none h ho (.inl ⟨a, hi, hf.symm, hl⟩)

theorem getInfo_spec {opt quiet ins₀ find s l} (junk : Nat) (h : Good opt quiet ins₀ find s l) (t : Target) (ty si : Bool) :
    ∃ s', getInfo opt junk find t ty si s = some (s', answer ins₀ find t ty si)
      ∧ Out opt quiet ins₀ find l (fun a => AsksAbout ins₀ a (.info t ty si)) s' := by
  have no : ∀ {s' : State}, Good opt quiet ins₀ find s' l →
      (∀ b, ¬ AsksAbout ins₀ b (.info t ty si)) → Out opt quiet ins₀ find l (fun a => AsksAbout ins₀ a (.info t ty si)) s' :=
    fun hg hn => Out.same hg hn
  cases t with
  | wild => exact ⟨_, rfl, no (h.bump _) (fun b hb => hb)⟩
  | stack e => cases e <;> exact ⟨_, rfl, no (by first | exact h.bump _ | exact (h.bump _).bump _) (fun b hb => hb)⟩
  | static f => cases f <;> exact ⟨_, rfl, no (by first | exact h.bump _ | exact (h.bump _).bump _) (fun b hb => hb)⟩
  | other => exact ⟨_, rfl, no h (fun b hb => hb)⟩
  | heap o =>
    cases o with
    | none => exact ⟨_, rfl, no ((h.bump _).bump _) (fun b hb => hb)⟩
    | some o =>
      unfold getInfo
      dsimp only
      by_cases hw : ty = true ∨ si = true
      · rw [if_pos hw]
        obtain ⟨s', e, out⟩ := extract_spec junk (h.bump .hitHeap) o
        refine ⟨s', ?_, out.mono fun b => ⟨fun hb => ⟨hb, hw⟩, fun hb => hb.1⟩⟩
        rw [e]; cases ty <;> cases si <;> cases hk : known ins₀ find o <;> simp [answer, hk] at hw ⊢
      · rw [if_neg hw]
        refine ⟨_, ?_, no (h.bump .hitHeap) (fun b hb => hw hb.2)⟩
        cases ty <;> cases si <;> simp [answer] at hw ⊢
  | alloca o =>
    cases o with
    | none => exact ⟨_, rfl, no ((h.bump _).bump _) (fun b hb => hb)⟩
    | some o =>
      unfold getInfo
      dsimp only
      by_cases hw : ty = true ∨ si = true
      · rw [if_pos hw]
        obtain ⟨s', e, out⟩ := extract_spec junk (h.bump .hitAlloca) o
        refine ⟨s', ?_, out.mono fun b => ⟨fun hb => ⟨hb, hw⟩, fun hb => hb.1⟩⟩
        rw [e]; cases ty <;> cases si <;> cases hk : known ins₀ find o <;> simp [answer, hk] at hw ⊢
      · rw [if_neg hw]
        refine ⟨_, ?_, no (h.bump .hitAlloca) (fun b hb => hw hb.2)⟩
        cases ty <;> cases si <;> simp [answer] at hw ⊢
  | small o =>
    cases o with
    | none => exact ⟨_, rfl, no (h.bump _) (fun b hb => hb)⟩
    | some a =>
      unfold getInfo
      dsimp only
      cases ty with
      | false => exact ⟨_, by simp [answer], no h (fun b hb => by cases hb.2)⟩
      | true =>
        rw [if_pos rfl]
        obtain ⟨s₁, l₁, hr, hins, inv₁, nd₁, pre, back, mem⟩ := remember_spec (junk := junk) (find := find) h.lst h.nodup a
        rw [hr]
        dsimp only
        have g₁ : Good opt quiet ins₀ find s₁ l₁ := by
          refine ⟨inv₁, nd₁, fun p => ?_⟩
          rw [hins]
          rcases h.ins p with hp | ⟨q1, b, q2, q3, q4⟩
          · exact .inl hp
          · exact .inr ⟨q1, b, q2, q3, fun x y z => pre.subset (q4 x y z)⟩
        have out : Out opt quiet ins₀ find l (fun b => AsksAbout ins₀ b (.info (.small (some a)) true si)) s₁ := by
          refine ⟨l₁, g₁, pre, fun b hb => (back b hb).imp id (fun hh => ?_), fun _ b hb hf hz => ?_⟩
          · obtain ⟨rfl, y⟩ := hh; exact ⟨⟨rfl, rfl⟩, y⟩
          · obtain ⟨rfl, _⟩ := hb; exact mem hf hz
        cases hf : find a with
        | some t => exact ⟨_, by simp [answer, hf], out⟩
        | none =>
          have ha : answer ins₀ find (.small (some a)) true si = some .unrecognisedSite := by simp [answer, hf]
          rw [ha]
          exact ⟨_, rfl, out.bump _⟩

theorem inv_cut {s l l'} (h : Inv s l') (hp : l <+: l') : Inv { s with count := l.length } l := by
  obtain ⟨h1, h2, h3, h4⟩ := h
  have hle := hp.length_le
  refine ⟨rfl, h2, by dsimp only; omega, ?_⟩
  dsimp only
  rw [List.prefix_iff_eq_take] at hp
  rw [hp, ← h4, List.take_take, List.length_take]
  congr 1
  omega

theorem step_spec {opt quiet ins₀ find s l} (junk : Nat) (h : Good opt quiet ins₀ find s l) (c : Call)
    (hq : opt = false ∨ quiet = false ∨ ∀ t, c ≠ .tryType t) :
    ∃ s', step opt junk find s c = some (s', callAnswer ins₀ find c)
      ∧ Out opt quiet ins₀ find l (fun a => AsksAbout ins₀ a c) s' := by
  have try_ : ∀ t, (opt = false ∨ quiet = false) →
      ∃ s', (match getInfo opt junk find t true false s with
        | none => none
        | some (s₁, e) => some ({ s₁ with sites := { s₁.sites with count := s.sites.count } }, e))
          = some (s', answer ins₀ find t true false) ∧ Good opt quiet ins₀ find s' l := by
    intro t hq
    obtain ⟨s₁, e, l', g, pre, _, _⟩ := getInfo_spec junk h t true false
    rw [e]
    refine ⟨_, rfl, ⟨?_, h.nodup, fun p => ?_⟩⟩
    · have := inv_cut g.lst pre
      rw [h.lst.count]; exact this
    · rcases g.ins p with hp | ⟨q1, b, q2, q3, q4⟩
      · exact .inl hp
      · rcases hq with hq | hq
        · rw [hq] at q1; cases q1
        · exact .inr ⟨q1, b, q2, q3, fun x => by rw [hq] at x; cases x⟩
  cases c with
  | info t ty si => exact getInfo_spec junk h t ty si
  | staticName f =>
    cases f <;> exact ⟨_, rfl, Out.same (by first | exact h.bump _ | exact (h.bump _).bump _) (fun b hb => hb)⟩
  | tryType t =>
    have hq' : opt = false ∨ quiet = false := by
      rcases hq with hq | hq | hq
      · exact .inl hq
      · exact .inr hq
      · exact absurd rfl (hq t)
    cases t with
    | wild => exact ⟨_, rfl, Out.same h (fun b hb => hb)⟩
    | stack x => obtain ⟨s', e, g⟩ := try_ (.stack x) hq'; exact ⟨s', e, Out.same g (fun b hb => hb)⟩
    | static x => obtain ⟨s', e, g⟩ := try_ (.static x) hq'; exact ⟨s', e, Out.same g (fun b hb => hb)⟩
    | heap x => obtain ⟨s', e, g⟩ := try_ (.heap x) hq'; exact ⟨s', e, Out.same g (fun b hb => hb)⟩
    | alloca x => obtain ⟨s', e, g⟩ := try_ (.alloca x) hq'; exact ⟨s', e, Out.same g (fun b hb => hb)⟩
    | small x => obtain ⟨s', e, g⟩ := try_ (.small x) hq'; exact ⟨s', e, Out.same g (fun b hb => hb)⟩
    | other => obtain ⟨s', e, g⟩ := try_ .other hq'; exact ⟨s', e, Out.same g (fun b hb => hb)⟩

theorem run_spec {opt quiet ins₀ find s l} (junk : Nat) (h : Good opt quiet ins₀ find s l) (cs : List Call)
    (hq : opt = false ∨ quiet = false ∨ ∀ t, Call.tryType t ∉ cs) :
    ∃ s' l', run opt junk find s cs = some (s', cs.map (fun c => (c, callAnswer ins₀ find c)))
      ∧ Good opt quiet ins₀ find s' l' ∧ l <+: l'
      ∧ (∀ b ∈ l', b ∈ l ∨ ((∃ c ∈ cs, AsksAbout ins₀ b c) ∧ find b = none ∧ b ≠ 0))
      ∧ (opt = false ∨ quiet = true → ∀ c ∈ cs, ∀ b, AsksAbout ins₀ b c → find b = none → b ≠ 0 → b ∈ l') := by
  induction cs generalizing s l with
  | nil => exact ⟨s, l, rfl, h, List.prefix_refl _, fun b hb => .inl hb, fun _ c hc => by cases hc⟩
  | cons c cs ih =>
    obtain ⟨s₁, e₁, l₁, g₁, p₁, b₁, m₁⟩ := step_spec junk h c
      (hq.imp id (Or.imp id (fun hh t ht => hh t (by rw [ht]; exact List.mem_cons_self))))
    obtain ⟨s₂, l₂, e₂, g₂, p₂, b₂, m₂⟩ := ih g₁
      (hq.imp id (Or.imp id (fun hh t ht => hh t (List.mem_cons_of_mem _ ht))))
    refine ⟨s₂, l₂, ?_, g₂, p₁.trans p₂, fun b hb => ?_, fun hh d hd b hb hf hz => ?_⟩
    · unfold run
      rw [e₁]; dsimp only; rw [e₂]; rfl
    · rcases b₂ b hb with hb | ⟨⟨d, hd, ha⟩, r⟩
      · rcases b₁ b hb with hb | ⟨ha, r⟩
        · exact .inl hb
        · exact .inr ⟨⟨c, List.mem_cons_self, ha⟩, r⟩
      · exact .inr ⟨⟨d, List.mem_cons_of_mem _ hd, ha⟩, r⟩
    · rcases List.mem_cons.mp hd with rfl | hd
      · exact p₂.subset (m₁ hh b hb hf hz)
      · exact m₂ hh d hd b hb hf hz

theorem good_init (opt quiet : Bool) (ins find) : Good opt quiet ins find (init ins) [] :=
  ⟨⟨rfl, rfl, Nat.le_refl _, rfl⟩, List.nodup_nil, fun _ => .inl rfl⟩

/-! ## Theorems -/

/-- Every history of calls runs without an access outside the list, in either build, and each call answers as it would have
done first: storing the type found, or its absence, with the object changes no later answer. -/
theorem answers_hold (opt : Bool) (junk : Nat) (find ins) (cs : List Call) :
    ∃ s, run opt junk find (init ins) cs = some (s, cs.map (fun c => (c, callAnswer ins find c))) := by
  obtain ⟨s, _, e, _⟩ := run_spec junk (good_init opt false ins find) cs (.inr (.inl rfl))
  exact ⟨s, e⟩

/-- Counters at exit, exactly: the calls each should count, with the library's own ones among them, and the failed lookups of names
counted as failed queries about static objects. -/
theorem counters_exact (opt : Bool) (junk : Nat) (find ins) (cs : List Call) :
    ∃ s tr, run opt junk find (init ins) cs = some (s, tr)
      ∧ ∀ c, s.ctr c = cs.countP (fun cl => should c cl (callAnswer ins find cl)) + cs.countP (nameFailure c) := by
  obtain ⟨s, e⟩ := answers_hold opt junk find ins cs
  refine ⟨s, _, e, fun c => ?_⟩
  rw [counted e c, List.countP_map]
  show 0 + _ + _ = _
  rw [Nat.zero_add]
  rfl

/-- If the program makes only queries, and the library makes none of its own, each counter is the number of queries its line in the
summary speaks of. -/
theorem counters_partial (opt : Bool) (junk : Nat) (find ins) (cs : List Call) (hq : ∀ c ∈ cs, isQuery c = true) :
    ∃ s tr, run opt junk find (init ins) cs = some (s, tr)
      ∧ ∀ c, s.ctr c = cs.countP (fun cl => should c cl (callAnswer ins find cl)) := by
  obtain ⟨s, tr, e, hc⟩ := counters_exact opt junk find ins cs
  refine ⟨s, tr, e, fun c => ?_⟩
  have : cs.countP (nameFailure c) = 0 := by
    rw [List.countP_eq_zero]
    intro x hx hn
    cases x with
    | staticName f => cases hq _ hx
    | _ => simp [nameFailure] at hn
  rw [hc, this, Nat.add_zero]

/-- The library's own queries are counted too: here the program makes no query, and one is reported as failed. A lookup of a name
counts as a query about a static object. -/
theorem counters_fails :
    (∃ s tr, run false 0 (fun _ => none) (init (fun _ => .site 7)) [.tryType (.heap (some 1))] = some (s, tr)
      ∧ s.ctr .abortedUnrecognised = 1 ∧ s.ctr .hitHeap = 1)
    ∧ (∃ s tr, run false 0 (fun _ => none) (init (fun _ => .site 7)) [.staticName false] = some (s, tr)
      ∧ s.ctr .abortedStatic = 1 ∧ s.ctr .hitStatic = 1) :=
  ⟨⟨_, _, rfl, by decide +kernel⟩, ⟨_, _, rfl, by decide +kernel⟩⟩

/-- In a debugging build, or if the library made no queries of its own, the list holds, once each, exactly the sites of the objects
whose type was asked for in vain. -/
theorem sites_partial (opt : Bool) (junk : Nat) (find ins) (cs : List Call)
    (hq : opt = false ∨ ∀ t, Call.tryType t ∉ cs) :
    ∃ s tr, run opt junk find (init ins) cs = some (s, tr)
      ∧ s.sites.count ≤ s.sites.store.length ∧ (s.sites.store.take s.sites.count).Nodup
      ∧ ∀ a, a ∈ s.sites.store.take s.sites.count ↔ ((∃ c ∈ cs, AsksAbout ins a c) ∧ find a = none ∧ a ≠ 0) := by
  obtain ⟨s, l, e, g, _, b, m⟩ := run_spec junk (good_init opt true ins find) cs (hq.imp id .inr)
  have hc := g.lst.content
  refine ⟨s, _, e, by rw [g.lst.alloc]; exact g.lst.fits, by rw [hc]; exact g.nodup, fun a => ?_⟩
  rw [hc]
  constructor
  · intro ha
    rcases b a ha with hn | hn
    · cases hn
    · exact hn
  · rintro ⟨⟨c, h1, h2⟩, h3, h4⟩
    exact m (.inr rfl) c h1 a h2 h3 h4

/-- In any case no other site is listed, and none twice. -/
theorem sites_sound (opt : Bool) (junk : Nat) (find ins) (cs : List Call) :
    ∃ s tr, run opt junk find (init ins) cs = some (s, tr)
      ∧ s.sites.count ≤ s.sites.store.length ∧ (s.sites.store.take s.sites.count).Nodup
      ∧ ∀ a ∈ s.sites.store.take s.sites.count, (∃ c ∈ cs, AsksAbout ins a c) ∧ find a = none ∧ a ≠ 0 := by
  obtain ⟨s, l, e, g, _, b, _⟩ := run_spec junk (good_init opt false ins find) cs (.inr (.inl rfl))
  have hc := g.lst.content
  refine ⟨s, _, e, by rw [g.lst.alloc]; exact g.lst.fits, by rw [hc]; exact g.nodup, fun a ha => ?_⟩
  rw [hc] at ha
  rcases b a ha with hn | hn
  · cases hn
  · exact hn

/-- In an optimised build a query of the library's own forgets the site before the program asks: the program's query fails, is
counted, and its site is not listed. The debugging build lists it. -/
theorem sites_fails :
    (∃ s tr, run true 0 (fun _ => none) (init (fun _ => .site 7)) [.tryType (.heap (some 1)), .info (.heap (some 1)) true true]
        = some (s, tr) ∧ s.sites.store.take s.sites.count = [] ∧ s.ctr .abortedUnrecognised = 2)
    ∧ (∃ s tr, run false 0 (fun _ => none) (init (fun _ => .site 7)) [.tryType (.heap (some 1)), .info (.heap (some 1)) true true]
        = some (s, tr) ∧ s.sites.store.take s.sites.count = [7]) :=
  ⟨⟨_, _, rfl, by decide +kernel⟩, ⟨_, _, rfl, by decide +kernel⟩⟩

/-! ## The summary -/

theorem digit_toNat (n : Nat) (h : n < 10) : (digit n).toNat = 48 + n := by
  have : ∀ m : Fin 10, (digit m.val).toNat = 48 + m.val := by decide
  exact this ⟨n, h⟩

theorem decGo_read (k n : Nat) (h : n < 10 ^ (k + 1)) (acc : Nat) :
    ∃ w, (decGo k n).foldl (fun acc c => acc * 10 + (c.toNat - 48)) acc = acc * 10 ^ w + n := by
  induction k generalizing n with
  | zero =>
    refine ⟨1, ?_⟩
    have : n < 10 := by simpa using h
    simp only [decGo, List.foldl, Nat.mod_eq_of_lt this, digit_toNat n this]
    omega
  | succ k ih =>
    unfold decGo
    by_cases hn : n < 10
    · rw [if_pos hn]
      refine ⟨1, ?_⟩
      simp only [List.foldl, digit_toNat n hn]
      omega
    · rw [if_neg hn]
      obtain ⟨w, hw⟩ := ih (n / 10) (by rw [Nat.pow_succ] at h; exact Nat.div_lt_of_lt_mul (by omega))
      refine ⟨w + 1, ?_⟩
      rw [List.foldl_append, hw]
      simp only [List.foldl, digit_toNat (n % 10) (by omega)]
      rw [Nat.pow_succ, Nat.add_mul, ← Nat.mul_assoc]
      omega

theorem lt_ten_pow (n : Nat) : n < 10 ^ (n + 1) :=
  Nat.lt_of_lt_of_le (Nat.lt_pow_self (by omega : 1 < 10)) (Nat.pow_le_pow_right (by omega) (by omega))

theorem decGo_head (k n : Nat) (h : n < 10 ^ (k + 1)) : ∃ c r, decGo k n = c :: r ∧ c ≠ ' ' := by
  have dne : ∀ m, m < 10 → digit m ≠ ' ' := by
    intro m hm he
    have := digit_toNat m hm
    rw [he] at this
    have h32 : (' ' : Char).toNat = 32 := by decide
    omega
  induction k generalizing n with
  | zero => exact ⟨_, _, rfl, dne _ (by omega)⟩
  | succ k ih =>
    unfold decGo
    by_cases hn : n < 10
    · rw [if_pos hn]; exact ⟨_, _, rfl, dne _ hn⟩
    · rw [if_neg hn]
      obtain ⟨c, r, e, hc⟩ := ih (n / 10) (by rw [Nat.pow_succ] at h; exact Nat.div_lt_of_lt_mul (by omega))
      rw [e]
      exact ⟨c, _, rfl, hc⟩

/-- A number printed in the summary reads back as itself, however long. -/
theorem field_reads (n : Nat) : readNum (field9 n) = n ∧ 9 ≤ (field9 n).length := by
  constructor
  · unfold readNum field9
    obtain ⟨c, r, e, hc⟩ := decGo_head n n (lt_ten_pow n)
    have drop : ∀ k, (List.replicate k ' ' ++ ' ' :: dec n).dropWhile (· == ' ') = dec n := by
      intro k
      induction k with
      | zero =>
        unfold dec
        rw [e]
        simp [hc]
      | succ k ih => rw [List.replicate_succ, List.cons_append, List.dropWhile_cons, if_pos (by decide)]; exact ih
    rw [drop]
    obtain ⟨w, hw⟩ := decGo_read n n (lt_ten_pow n) 0
    unfold dec
    rw [hw]; omega
  · unfold field9
    simp only [List.length_append, List.length_replicate, List.length_cons]
    omega

/-- A summary that is printed has, for each of the ten counters, exactly one kind of line: the label, and a number which reads back
as the counter; then the listed sites, each on its own line, in the order they were met. -/
theorem summary_tells (fmt : Nat → Text) (s : State) (l : List Nat) (hl : Inv s.sites l) (ha : anyQuery s = true) :
    ∃ ls, summary fmt s = some ls
      ∧ (∀ lc ∈ numbered, ∃ num, lc.1.toList ++ num ++ ['\n'] ∈ ls ∧ readNum num = s.ctr lc.2)
      ∧ (l ≠ [] → ls.drop 15 = "Saw the following unrecognised heap alloc sites: \n".toList :: l.map fmt)
      ∧ (l = [] → ls.length = 15) := by
  have hs : siteLines fmt s.sites = some (if s.sites.count = 0 then [] else
      "Saw the following unrecognised heap alloc sites: \n".toList :: (s.sites.store.take s.sites.count).map fmt) := by
    unfold siteLines
    rw [if_pos]
    rw [hl.alloc]; exact hl.fits
  unfold summary
  rw [if_pos ha, hs]
  refine ⟨_, rfl, ?_, ?_, ?_⟩
  · intro lc hlc
    refine ⟨field9 (s.ctr lc.2), ?_, (field_reads _).1⟩
    have : numLine s lc ∈ (numbered.take 5).map (numLine s) ∨ numLine s lc ∈ (numbered.drop 5).map (numLine s) := by
      rw [← List.take_append_drop 5 numbered] at hlc
      rcases List.mem_append.mp hlc with h | h
      · exact .inl (List.mem_map_of_mem h)
      · exact .inr (List.mem_map_of_mem h)
    show numLine s lc ∈ _
    simp only [List.mem_append]
    rcases this with h | h
    · exact .inl (.inl (.inl (.inl (.inr h))))
    · exact .inl (.inl (.inr h))
  · intro hne
    have hc : s.sites.count ≠ 0 := by
      rw [hl.count]; intro hz; exact hne (List.eq_nil_of_length_eq_zero hz)
    rw [if_neg hc, hl.content]
    rfl
  · intro he
    have hc : s.sites.count = 0 := by rw [hl.count, he]; rfl
    rw [if_pos hc]
    rfl

/-- All ten counters have a line, and the labels differ. -/
theorem labels_cover : (∀ c : Ctr, ∃ lb, (lb, c) ∈ numbered) ∧ (numbered.map Prod.fst).Nodup := by
  refine ⟨fun c => ?_, by decide +kernel⟩
  cases c <;> simp [numbered]

/-- A summary is printed if the program, or the library, asked about a stack, static, `malloc` or `alloca` object, or the program
about an address of unknown storage. -/
theorem summary_printed (opt : Bool) (junk : Nat) (find ins) (cs : List Call) :
    ∃ s tr, run opt junk find (init ins) cs = some (s, tr)
      ∧ (anyQuery s = true ↔ ∃ c ∈ cs, match c with
          | .info (.small _) _ _ => False
          | .info .other _ _ => False
          | .tryType (.small _) => False
          | .tryType .other => False
          | .tryType .wild => False
          | _ => True) := by
  obtain ⟨s, tr, e, hc⟩ := counters_exact opt junk find ins cs
  refine ⟨s, tr, e, ?_⟩
  have z : ∀ c, c ≠ .abortedStatic → cs.countP (nameFailure c) = 0 := by
    intro c hne
    rw [List.countP_eq_zero]
    intro x _ hn
    cases x with
    | staticName f => cases f <;> simp [nameFailure] at hn; exact hne hn
    | _ => simp [nameFailure] at hn
  have pos : ∀ c, c ≠ .abortedStatic → (0 < s.ctr c ↔ ∃ cl ∈ cs, should c cl (callAnswer ins find cl) = true) := by
    intro c hne
    rw [hc, z c hne, Nat.add_zero, List.countP_pos_iff]
  have split : anyQuery s = true ↔ 0 < s.ctr .abortedUnknown ∨ 0 < s.ctr .hitStatic ∨ 0 < s.ctr .hitStack ∨ 0 < s.ctr .hitHeap
      ∨ 0 < s.ctr .hitAlloca := by
    unfold anyQuery
    rw [decide_eq_true_iff]
    omega
  rw [split, pos _ (by decide), pos _ (by decide), pos _ (by decide), pos _ (by decide), pos _ (by decide)]
  constructor
  · rintro (⟨c, h, hs⟩ | ⟨c, h, hs⟩ | ⟨c, h, hs⟩ | ⟨c, h, hs⟩ | ⟨c, h, hs⟩) <;>
      refine ⟨c, h, ?_⟩ <;>
      (cases c with
        | staticName f => trivial
        | info t ty si =>
          cases t with
          | small o => cases o <;> simp [should, callAnswer, answer, target] at hs
          | other => simp [should, callAnswer, answer, target] at hs
          | _ => trivial
        | tryType t =>
          cases t with
          | small o => cases o <;> simp [should, callAnswer, answer, target] at hs
          | other => simp [should, callAnswer, answer, target] at hs
          | wild => simp [should, callAnswer, answer, target] at hs
          | _ => trivial)
  · rintro ⟨c, h, hm⟩
    cases c with
    | staticName f => exact .inr (.inl ⟨_, h, rfl⟩)
    | info t ty si =>
      cases t with
      | wild => exact .inl ⟨_, h, rfl⟩
      | stack e => exact .inr (.inr (.inl ⟨_, h, rfl⟩))
      | static f => exact .inr (.inl ⟨_, h, rfl⟩)
      | heap o => exact .inr (.inr (.inr (.inl ⟨_, h, rfl⟩)))
      | alloca o => exact .inr (.inr (.inr (.inr ⟨_, h, rfl⟩)))
      | small o => exact hm.elim
      | other => exact hm.elim
    | tryType t =>
      cases t with
      | wild => exact hm.elim
      | stack e => exact .inr (.inr (.inl ⟨_, h, rfl⟩))
      | static f => exact .inr (.inl ⟨_, h, rfl⟩)
      | heap o => exact .inr (.inr (.inr (.inl ⟨_, h, rfl⟩)))
      | alloca o => exact .inr (.inr (.inr (.inr ⟨_, h, rfl⟩)))
      | small o => exact hm.elim
      | other => exact hm.elim

/-- Failures reported by `generic_small` alone are counted and listed, and never printed. -/
theorem summary_fails :
    ∃ s tr, run false 0 (fun _ => none) (init (fun _ => .site 7)) [.info (.small (some 9)) true true, .info (.small none) true true]
        = some (s, tr)
      ∧ s.ctr .abortedUnrecognised = 1 ∧ s.ctr .abortedUnindexedHeap = 1 ∧ s.sites.store.take s.sites.count = [9]
      ∧ summary (fun _ => []) s = some [] :=
  ⟨_, _, rfl, by decide +kernel⟩

/-- A concrete history: a stack object found, a site asked about twice, an `alloca` object without a type (reported as an unknown
heap site), a wild address; and three of the lines printed. -/
theorem summary_case :
    ∃ s tr ls, run true 5 (fun a => if a = 3 then some 30 else none)
        (init (fun o => if o = 0 then .site 3 else if o = 1 then .site 8 else .typed none))
        [.info (.stack none) true true, .info (.heap (some 0)) true false, .info (.heap (some 1)) true false,
         .info (.heap (some 1)) false true, .info (.alloca (some 2)) true true, .info .wild true true] = some (s, tr)
      ∧ summary (fun a => dec a ++ ['\n']) s = some ls
      ∧ tr.map Prod.snd = [none, none, some .unrecognisedSite, some .unrecognisedSite, some .unrecognisedSite, some .unknownStorage]
      ∧ ls[6]? = some "queries handled by heap case:                      3\n".toList
      ∧ ls[10]? = some "queries aborted for unknown heap allocsite:        3\n".toList
      ∧ ls.drop 15 = ["Saw the following unrecognised heap alloc sites: \n".toList, "8\n".toList] :=
  ⟨_, _, _, rfl, rfl, by decide +kernel⟩

end Liballocs.Stats
