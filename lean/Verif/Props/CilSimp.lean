import Verif.Model.CilSimp
/-!
# C147: simplified expressions mean the same

Spec: types that differ in attributes only (`Same`); casts that change nothing but attributes if they look as if they changed
nothing (`Good`).
-/
namespace Liballocs.CilSimp

/-- A type without attributes. -/
def erase : Ty → Ty
  | .int _ n => .int false n
  | .ptr _ t => .ptr false (erase t)
  | .arr _ t n => .arr false (erase t) n
  | .comp _ i n => .comp false i n
  | .fn _ i => .fn false i

/-- The types differ in attributes only. -/
def Same (t u : Ty) : Prop := erase t = erase u

mutual
/-- Whenever an expression is cast to a type with the same concrete type, only attributes are changed; and the parts of the
expression make sense. -/
def Good : Exp → Prop
  | .const _ _ => True
  | .lval h o => GoodH h ∧ GoodO o
  | .un _ e _ => Good e
  | .bin _ a b _ => Good a ∧ Good b
  | .cast t e => Good e ∧ ∃ u, e.ty = some u ∧ (concrete t = concrete u → Same t u)
  | .addrOf h o => GoodH h ∧ GoodO o
  | .startOf h o => GoodH h ∧ GoodO o
def GoodH : Host → Prop
  | .var _ _ => True
  | .mem e => Good e
def GoodO : Off → Prop
  | .none => True
  | .field _ o => GoodO o
  | .index e o => Good e ∧ GoodO o
end

/-! ## Types -/

theorem same_size {t u : Ty} (h : Same t u) : t.size = u.size := by
  have key : ∀ t : Ty, (erase t).size = t.size := by
    intro t
    induction t with
    | int => rfl
    | ptr => rfl
    | arr c t n ih => simp [erase, Ty.size, ih]
    | comp => rfl
    | fn => rfl
  rw [← key t, ← key u]
  exact congrArg Ty.size h

theorem same_concrete {t u : Ty} (h : Same t u) : concrete t = concrete u := by
  have key : ∀ t : Ty, concrete (erase t) = concrete t := by
    intro t
    induction t with
    | int => rfl
    | ptr c t ih => simp [erase, concrete, ih]
    | arr c t n ih => simp [erase, concrete, ih]
    | comp => rfl
    | fn => rfl
  rw [← key t, ← key u]
  exact congrArg concrete h

theorem same_target {t u s : Ty} (h : Same t u) (ht : target t = some s) : ∃ r, target u = some r ∧ Same s r := by
  cases t <;> simp [target] at ht
  subst ht
  cases u <;> simp [Same, erase] at h
  exact ⟨_, rfl, h⟩

theorem same_element {t u s : Ty} (h : Same t u) (ht : element t = some s) : ∃ r, element u = some r ∧ Same s r := by
  cases t <;> simp [element] at ht
  subst ht
  cases u <;> simp [Same, erase] at h
  exact ⟨_, rfl, h.1⟩

theorem same_wrap {t u : Ty} (h : Same t u) (v : Nat) : wrap t v = wrap u v := by
  cases t <;> cases u <;> simp [Same, erase] at h <;> simp [wrap, h]

theorem wrap_wrap (t : Ty) (v : Nat) : wrap t (wrap t v) = wrap t v := by
  cases t <;> simp [wrap]

theorem off_same : ∀ (o : Off) {t u s : Ty}, Same t u → o.ty t = some s → ∃ r, o.ty u = some r ∧ Same s r
  | .none, t, u, s, h, ht => by
    simp only [Off.ty, Option.some.injEq] at ht
    subst ht
    exact ⟨u, by simp [Off.ty], h⟩
  | .field f o, t, u, s, h, ht => by
    cases t <;> simp [Off.ty] at ht
    cases u <;> simp [Same, erase] at h
    exact ⟨s, by simpa [Off.ty] using ht, rfl⟩
  | .index e o, t, u, s, h, ht => by
    simp only [Off.ty] at ht
    cases he : element t with
    | none => rw [he] at ht; simp at ht
    | some x =>
      rw [he] at ht
      obtain ⟨r, hr, hs⟩ := same_element h he
      obtain ⟨r', h1, h2⟩ := off_same o hs ht
      exact ⟨r', by simp [Off.ty, hr, h1], h2⟩

theorem simpOff_ty : ∀ (o : Off) (t : Ty), (simpOff o).ty t = o.ty t
  | .none, _ => by simp [simpOff]
  | .field f o, t => by cases t <;> simp [simpOff, Off.ty, simpOff_ty o]
  | .index e o, t => by
    simp only [simpOff, Off.ty]
    cases element t with
    | none => rfl
    | some u => exact simpOff_ty o u

theorem app_ty : ∀ (p o : Off) (t : Ty), (p.app o).ty t = match p.ty t with | some u => o.ty u | none => none
  | .none, o, t => by simp [Off.app, Off.ty]
  | .field f p, o, t => by cases t <;> simp [Off.app, Off.ty, app_ty p o]
  | .index e p, o, t => by
    simp only [Off.app, Off.ty]
    cases element t with
    | none => rfl
    | some u => exact app_ty p o u

theorem app_addr (w : World) : ∀ (p o : Off) (t u : Ty) (a b : Nat), p.ty t = some u → offAddr w p t = some a →
    offAddr w o u = some b → offAddr w (p.app o) t = some (a + b)
  | .none, o, t, u, a, b, ht, ha, hb => by
    simp only [Off.ty, Option.some.injEq, offAddr] at ht ha
    subst ht ha
    simpa [Off.app] using hb
  | .field f p, o, t, u, a, b, ht, ha, hb => by
    cases t <;> simp [Off.ty] at ht
    simp only [offAddr] at ha
    cases h : offAddr w p f.ty with
    | none => rw [h] at ha; simp at ha
    | some d =>
      rw [h] at ha
      simp only [Option.some.injEq] at ha
      simp only [Off.app, offAddr, app_addr w p o f.ty u d b ht h hb]
      simp; omega
  | .index e p, o, t, u, a, b, ht, ha, hb => by
    simp only [Off.ty] at ht
    simp only [offAddr] at ha
    simp only [Off.app, offAddr]
    cases he : element t with
    | none => rw [he] at ht; simp at ht
    | some x =>
      rw [he] at ht ha
      simp only at ht ha
      cases hi : eval w e with
      | none => rw [hi] at ha; simp at ha
      | some i =>
        cases h : offAddr w p x with
        | none => rw [hi, h] at ha; simp at ha
        | some d =>
          rw [hi, h] at ha
          simp only [Option.some.injEq] at ha
          simp only [app_addr w p o x u d b ht h hb]
          simp; omega

/-! ## Expressions -/

theorem lval_ty {h : Host} {o : Off} {t : Ty} : (Exp.lval h o).ty = some t ↔ ∃ s, h.ty = some s ∧ o.ty s = some t := by
  simp only [Exp.ty]
  cases h.ty <;> simp

theorem addrOf_ty {h : Host} {o : Off} {t : Ty} :
    (Exp.addrOf h o).ty = some t ↔ ∃ s u, h.ty = some s ∧ o.ty s = some u ∧ t = .ptr false u := by
  simp only [Exp.ty]
  cases h.ty with
  | none => simp
  | some s =>
    cases hs : o.ty s with
    | none => simp [hs]
    | some u => simp [hs, eq_comm]

theorem startOf_ty {h : Host} {o : Off} {t : Ty} : (Exp.startOf h o).ty = some t ↔
    ∃ s u x, h.ty = some s ∧ o.ty s = some u ∧ element u = some x ∧ t = .ptr false x := by
  simp only [Exp.ty]
  cases h.ty with
  | none => simp
  | some s =>
    cases hs : o.ty s with
    | none => simp [hs]
    | some u =>
      cases hu : element u with
      | none => simp [hs, hu]
      | some x => simp [hs, hu, eq_comm]

theorem eval_lval {w : World} {h : Host} {o : Off} {v : Nat} : eval w (.lval h o) = some v ↔
    ∃ s a u d, h.ty = some s ∧ hostAddr w h = some a ∧ o.ty s = some u ∧ offAddr w o s = some d ∧
      v = wrap u (w.load (a + d) u.size) := by
  simp only [eval]
  cases h.ty with
  | none => simp
  | some s =>
    cases hostAddr w h with
    | none => simp
    | some a =>
      cases hs : o.ty s with
      | none => simp [hs]
      | some u =>
        cases hd : offAddr w o s with
        | none => simp [hs, hd]
        | some d => simp [hs, hd, eq_comm]

theorem eval_addrOf {w : World} {h : Host} {o : Off} {v : Nat} : eval w (.addrOf h o) = some v ↔
    ∃ s a u d, h.ty = some s ∧ hostAddr w h = some a ∧ o.ty s = some u ∧ offAddr w o s = some d ∧ v = a + d := by
  simp only [eval]
  cases h.ty with
  | none => simp
  | some s =>
    cases hostAddr w h with
    | none => simp
    | some a =>
      cases hs : o.ty s with
      | none => simp [hs]
      | some u =>
        cases hd : offAddr w o s with
        | none => simp [hs, hd]
        | some d => simp [hs, hd, eq_comm]

theorem eval_startOf {w : World} {h : Host} {o : Off} {v : Nat} : eval w (.startOf h o) = some v ↔
    ∃ s a u d x, h.ty = some s ∧ hostAddr w h = some a ∧ o.ty s = some u ∧ offAddr w o s = some d ∧ element u = some x ∧
      v = a + d := by
  simp only [eval]
  cases h.ty with
  | none => simp
  | some s =>
    cases hostAddr w h with
    | none => simp
    | some a =>
      cases hs : o.ty s with
      | none => simp [hs]
      | some u =>
        cases hd : offAddr w o s with
        | none => simp [hs, hd]
        | some d =>
          cases hx : element u with
          | none => simp [hs, hd, hx]
          | some x => simp [hs, hd, hx, eq_comm]

/-- What has a value has a type. -/
theorem eval_ty {w : World} {e : Exp} {v : Nat} (h : eval w e = some v) : ∃ t, e.ty = some t := by
  cases e with
  | const t _ => exact ⟨t, by simp [Exp.ty]⟩
  | lval h' o =>
    obtain ⟨s, a, u, d, h1, _, h2, _, _⟩ := eval_lval.1 h
    exact ⟨u, lval_ty.2 ⟨s, h1, h2⟩⟩
  | un _ _ t => exact ⟨t, by simp [Exp.ty]⟩
  | bin _ _ _ t => exact ⟨t, by simp [Exp.ty]⟩
  | cast t _ => exact ⟨t, by simp [Exp.ty]⟩
  | addrOf h' o =>
    obtain ⟨s, a, u, d, h1, _, h2, _, _⟩ := eval_addrOf.1 h
    exact ⟨_, addrOf_ty.2 ⟨s, u, h1, h2, rfl⟩⟩
  | startOf h' o =>
    obtain ⟨s, a, u, d, x, h1, _, h2, _, h3, _⟩ := eval_startOf.1 h
    exact ⟨_, startOf_ty.2 ⟨s, u, x, h1, h2, h3, rfl⟩⟩

/-- Values fit their types. -/
theorem eval_wrap {w : World} {e : Exp} {v : Nat} {t : Ty} (h : eval w e = some v) (ht : e.ty = some t) : wrap t v = v := by
  cases e with
  | const t' _ =>
    simp only [Exp.ty, Option.some.injEq, eval] at ht h
    subst ht h
    exact wrap_wrap _ _
  | lval h' o =>
    obtain ⟨s, a, u, d, h1, _, h2, _, rfl⟩ := eval_lval.1 h
    obtain ⟨s', h1', h2'⟩ := lval_ty.1 ht
    rw [h1] at h1'
    cases h1'
    rw [h2] at h2'
    cases h2'
    exact wrap_wrap _ _
  | un f e t' =>
    simp only [Exp.ty, Option.some.injEq, eval] at ht h
    subst ht
    cases he : eval w e with
    | none => rw [he] at h; simp at h
    | some x => rw [he] at h; simp only [Option.some.injEq] at h; subst h; exact wrap_wrap _ _
  | bin op a b t' =>
    simp only [Exp.ty, Option.some.injEq] at ht
    subst ht
    cases op with
    | other f =>
      simp only [eval] at h
      split at h <;> simp at h
      subst h
      exact wrap_wrap _ _
    | plusPI =>
      simp only [eval] at h
      split at h <;> simp at h
      subst h
      exact wrap_wrap _ _
  | cast t' e =>
    simp only [Exp.ty, Option.some.injEq, eval] at ht h
    subst ht
    cases he : eval w e with
    | none => rw [he] at h; simp at h
    | some x => rw [he] at h; simp only [Option.some.injEq] at h; subst h; exact wrap_wrap _ _
  | addrOf h' o => obtain ⟨s, u, _, _, rfl⟩ := addrOf_ty.1 ht; rfl
  | startOf h' o => obtain ⟨s, u, x, _, _, _, rfl⟩ := startOf_ty.1 ht; rfl

/-- The second expression can stand for the first. -/
def Stands (e e' : Exp) : Prop :=
  (∀ t, e.ty = some t → ∃ t', e'.ty = some t' ∧ Same t t') ∧ ∀ w v, eval w e = some v → eval w e' = some v

theorem stands_refl (e : Exp) : Stands e e := ⟨fun t h => ⟨t, h, rfl⟩, fun _ _ h => h⟩

theorem stands_trans {e f g : Exp} (h1 : Stands e f) (h2 : Stands f g) : Stands e g := by
  refine ⟨fun t h => ?_, fun w v h => h2.2 w v (h1.2 w v h)⟩
  obtain ⟨t1, h3, h4⟩ := h1.1 t h
  obtain ⟨t2, h5, h6⟩ := h2.1 t1 h3
  exact ⟨t2, h5, h4.trans h6⟩

theorem mem_ty {e : Exp} {s : Ty} : (Host.mem e).ty = some s ↔ ∃ t, e.ty = some t ∧ target t = some s := by
  simp only [Host.ty]
  cases e.ty <;> simp

theorem top_stands (e : Exp) : Stands e (top e) := by
  unfold top
  split
  · next a p o =>
    refine ⟨fun t h => ?_, fun w v h => ?_⟩
    · obtain ⟨s, h1, h2⟩ := lval_ty.1 h
      obtain ⟨u, h3, h4⟩ := mem_ty.1 h1
      obtain ⟨s', u', h5, h6, rfl⟩ := addrOf_ty.1 h3
      simp only [target, Option.some.injEq] at h4
      subst h4
      exact ⟨t, lval_ty.2 ⟨s', h5, by rw [app_ty, h6]; exact h2⟩, rfl⟩
    · obtain ⟨s, x, u, d, h1, h2, h3, h4, rfl⟩ := eval_lval.1 h
      obtain ⟨u', h5, h6⟩ := mem_ty.1 h1
      obtain ⟨s', u', h7, h8, rfl⟩ := addrOf_ty.1 h5
      simp only [target, Option.some.injEq] at h6
      subst h6
      simp only [hostAddr] at h2
      obtain ⟨s2, y, u2, d2, h9, h10, h11, h12, rfl⟩ := eval_addrOf.1 h2
      rw [h7] at h9
      cases h9
      rw [h8] at h11
      cases h11
      refine eval_lval.2 ⟨s', y, u, d2 + d, h7, h10, by rw [app_ty, h8]; exact h3, app_addr w p o s' u' d2 d h8 h12 h4, ?_⟩
      rw [Nat.add_assoc]
  · next vr vt p o =>
    refine ⟨fun t h => ?_, fun w v h => ?_⟩
    · obtain ⟨s, h1, h2⟩ := lval_ty.1 h
      obtain ⟨u, h3, h4⟩ := mem_ty.1 h1
      obtain ⟨s', u', h5, h6, rfl⟩ := addrOf_ty.1 h3
      simp only [target, Option.some.injEq] at h4
      subst h4
      exact ⟨t, lval_ty.2 ⟨s', h5, by rw [app_ty, h6]; exact h2⟩, rfl⟩
    · obtain ⟨s, x, u, d, h1, h2, h3, h4, rfl⟩ := eval_lval.1 h
      obtain ⟨u', h5, h6⟩ := mem_ty.1 h1
      obtain ⟨s', u', h7, h8, rfl⟩ := addrOf_ty.1 h5
      simp only [target, Option.some.injEq] at h6
      subst h6
      simp only [hostAddr] at h2
      obtain ⟨s2, y, u2, d2, h9, h10, h11, h12, rfl⟩ := eval_addrOf.1 h2
      rw [h7] at h9
      cases h9
      rw [h8] at h11
      cases h11
      refine eval_lval.2 ⟨s', y, u, d2 + d, h7, h10, by rw [app_ty, h8]; exact h3, app_addr w p o s' u' d2 d h8 h12 h4, ?_⟩
      rw [Nat.add_assoc]
  · next a =>
    refine ⟨fun t h => ?_, fun w v h => ?_⟩
    · obtain ⟨s, u, h1, h2, rfl⟩ := addrOf_ty.1 h
      obtain ⟨t, h3, h4⟩ := mem_ty.1 h1
      simp only [Off.ty, Option.some.injEq] at h2
      subst h2
      cases t <;> simp [target] at h4
      subst h4
      exact ⟨_, h3, by simp [Same, erase]⟩
    · obtain ⟨s, x, u, d, h1, h2, h3, h4, rfl⟩ := eval_addrOf.1 h
      simp only [offAddr, Option.some.injEq] at h4
      subst h4
      simpa [hostAddr] using h2
  · next s =>
    split
    · next t ht =>
      refine ⟨fun t' h => ?_, fun w v h => ?_⟩
      · rw [ht] at h
        cases h
        exact ⟨t, by simp [Exp.ty], rfl⟩
      · obtain ⟨_, x, u, d, y, h1, h2, h3, h4, h5, rfl⟩ := eval_startOf.1 h
        obtain ⟨_, _, z, _, _, _, rfl⟩ := startOf_ty.1 ht
        simp only [offAddr, Option.some.injEq] at h4
        subst h4
        simp only [hostAddr] at h2
        simp [eval, h2, wrap]
    · exact stands_refl _
  · exact stands_refl _

/-- The address and type are kept. -/
def StandsH (h h' : Host) : Prop :=
  (∀ t, h.ty = some t → ∃ t', h'.ty = some t' ∧ Same t t') ∧ ∀ w a, hostAddr w h = some a → hostAddr w h' = some a

theorem lval_cong {h h' : Host} {o : Off} (hh : StandsH h h')
    (ho : ∀ w t t' d, Same t t' → offAddr w o t = some d → offAddr w (simpOff o) t' = some d) :
    Stands (.lval h o) (.lval h' (simpOff o)) := by
  refine ⟨fun t hx => ?_, fun w v hx => ?_⟩
  · obtain ⟨s, h1, h2⟩ := lval_ty.1 hx
    obtain ⟨s', h3, h4⟩ := hh.1 s h1
    obtain ⟨r, h5, h6⟩ := off_same o h4 h2
    exact ⟨r, lval_ty.2 ⟨s', h3, by rw [simpOff_ty]; exact h5⟩, h6⟩
  · obtain ⟨s, a, u, d, h1, h2, h3, h4, rfl⟩ := eval_lval.1 hx
    obtain ⟨s', h5, h6⟩ := hh.1 s h1
    obtain ⟨r, h7, h8⟩ := off_same o h6 h3
    refine eval_lval.2 ⟨s', a, r, d, h5, hh.2 w a h2, by rw [simpOff_ty]; exact h7, ho w s s' d h6 h4, ?_⟩
    rw [same_wrap h8, same_size h8]

theorem addrOf_cong {h h' : Host} {o : Off} (hh : StandsH h h')
    (ho : ∀ w t t' d, Same t t' → offAddr w o t = some d → offAddr w (simpOff o) t' = some d) :
    Stands (.addrOf h o) (.addrOf h' (simpOff o)) := by
  refine ⟨fun t hx => ?_, fun w v hx => ?_⟩
  · obtain ⟨s, u, h1, h2, rfl⟩ := addrOf_ty.1 hx
    obtain ⟨s', h3, h4⟩ := hh.1 s h1
    obtain ⟨r, h5, h6⟩ := off_same o h4 h2
    exact ⟨_, addrOf_ty.2 ⟨s', r, h3, by rw [simpOff_ty]; exact h5, rfl⟩, by simpa [Same, erase] using h6⟩
  · obtain ⟨s, a, u, d, h1, h2, h3, h4, rfl⟩ := eval_addrOf.1 hx
    obtain ⟨s', h5, h6⟩ := hh.1 s h1
    obtain ⟨r, h7, h8⟩ := off_same o h6 h3
    exact eval_addrOf.2 ⟨s', a, r, d, h5, hh.2 w a h2, by rw [simpOff_ty]; exact h7, ho w s s' d h6 h4, rfl⟩

theorem startOf_cong {h h' : Host} {o : Off} (hh : StandsH h h')
    (ho : ∀ w t t' d, Same t t' → offAddr w o t = some d → offAddr w (simpOff o) t' = some d) :
    Stands (.startOf h o) (.startOf h' (simpOff o)) := by
  refine ⟨fun t hx => ?_, fun w v hx => ?_⟩
  · obtain ⟨s, u, x, h1, h2, h2', rfl⟩ := startOf_ty.1 hx
    obtain ⟨s', h3, h4⟩ := hh.1 s h1
    obtain ⟨r, h5, h6⟩ := off_same o h4 h2
    obtain ⟨x', h7, h8⟩ := same_element h6 h2'
    exact ⟨_, startOf_ty.2 ⟨s', r, x', h3, by rw [simpOff_ty]; exact h5, h7, rfl⟩, by simpa [Same, erase] using h8⟩
  · obtain ⟨s, a, u, d, x, h1, h2, h3, h4, h4', rfl⟩ := eval_startOf.1 hx
    obtain ⟨s', h5, h6⟩ := hh.1 s h1
    obtain ⟨r, h7, h8⟩ := off_same o h6 h3
    obtain ⟨x', h9, _⟩ := same_element h8 h4'
    exact eval_startOf.2 ⟨s', a, r, d, x', h5, hh.2 w a h2, by rw [simpOff_ty]; exact h7, ho w s s' d h6 h4, h9, rfl⟩

mutual
theorem simp_stands : ∀ e : Exp, Good e → Stands e (simp e)
  | .const t v, _ => by simpa [simp] using top_stands (.const t v)
  | .lval h o, hg => by
    simp only [simp]
    exact stands_trans (lval_cong (host_stands h hg.1) (off_stands o hg.2)) (top_stands _)
  | .addrOf h o, hg => by
    simp only [simp]
    exact stands_trans (addrOf_cong (host_stands h hg.1) (off_stands o hg.2)) (top_stands _)
  | .startOf h o, hg => by
    simp only [simp]
    exact stands_trans (startOf_cong (host_stands h hg.1) (off_stands o hg.2)) (top_stands _)
  | .un f e t, hg => by
    simp only [simp]
    refine stands_trans ⟨fun t' h => ⟨t', by simpa [Exp.ty] using h, rfl⟩, fun w v h => ?_⟩ (top_stands _)
    have ih := simp_stands e hg
    simp only [eval] at h ⊢
    cases he : eval w e with
    | none => rw [he] at h; simp at h
    | some x => rw [he] at h; rw [ih.2 w x he]; exact h
  | .bin op a b t, hg => by
    simp only [simp]
    have iha := simp_stands a hg.1
    have ihb := simp_stands b hg.2
    refine stands_trans ⟨fun t' h => ⟨t', by simpa [Exp.ty] using h, rfl⟩, fun w v h => ?_⟩ (top_stands _)
    cases ha : eval w a with
    | none => cases op <;> simp [eval, ha] at h
    | some x =>
      cases hb : eval w b with
      | none => cases op <;> simp [eval, ha, hb] at h
      | some y =>
        cases op with
        | other f => simpa [eval, ha, hb, iha.2 w x ha, ihb.2 w y hb] using h
        | plusPI =>
          obtain ⟨ta, hta⟩ := eval_ty ha
          obtain ⟨ta', hta', hs⟩ := iha.1 ta hta
          simp only [eval, ha, hb, hta] at h
          simp only [eval, iha.2 w x ha, ihb.2 w y hb, hta']
          cases ta <;> simp at h
          cases ta' <;> simp [Same, erase] at hs
          subst h
          simp only [same_size hs]
  | .cast t e, hg => by
    have ih := simp_stands e hg.1
    obtain ⟨u, hu, hc⟩ := hg.2
    obtain ⟨u', hu', hs⟩ := ih.1 u hu
    simp only [simp]
    refine stands_trans ?_ (top_stands _)
    by_cases hd : dropCast t (simp e).ty = true
    · rw [if_pos hd]
      rw [hu'] at hd
      simp only [dropCast, decide_eq_true_eq] at hd
      have htu : Same t u := hc (hd.trans (same_concrete hs).symm)
      refine ⟨fun t' h => ?_, fun w v h => ?_⟩
      · simp only [Exp.ty, Option.some.injEq] at h
        subst h
        exact ⟨u', hu', htu.trans hs⟩
      · simp only [eval] at h
        cases he : eval w e with
        | none => rw [he] at h; simp at h
        | some x =>
          rw [he] at h
          simp only [Option.some.injEq] at h
          rw [ih.2 w x he, ← h, same_wrap htu, eval_wrap he hu]
    · rw [if_neg hd]
      refine ⟨fun t' h => ⟨t', by simpa [Exp.ty] using h, rfl⟩, fun w v h => ?_⟩
      simp only [eval] at h ⊢
      cases he : eval w e with
      | none => rw [he] at h; simp at h
      | some x => rw [he] at h; rw [ih.2 w x he]; exact h
theorem host_stands : ∀ h : Host, GoodH h → StandsH h (simpHost h)
  | .var v t, _ => by simp only [simpHost]; exact ⟨fun t' h => ⟨t', h, rfl⟩, fun _ _ h => h⟩
  | .mem e, hg => by
    have ih := simp_stands e hg
    simp only [simpHost]
    refine ⟨fun t h => ?_, fun w a h => ?_⟩
    · obtain ⟨s, h1, h2⟩ := mem_ty.1 h
      obtain ⟨s', h3, h4⟩ := ih.1 s h1
      obtain ⟨r, h5, h6⟩ := same_target h4 h2
      exact ⟨r, mem_ty.2 ⟨s', h3, h5⟩, h6⟩
    · simp only [hostAddr] at h ⊢
      exact ih.2 w a h
theorem off_stands : ∀ o : Off, GoodO o → ∀ w t t' d, Same t t' → offAddr w o t = some d → offAddr w (simpOff o) t' = some d
  | .none, _ => by intro w t t' d _ h; simpa [simpOff, offAddr] using h
  | .field f o, hg => by
    intro w t t' d _ h
    have ih := off_stands o hg w f.ty f.ty
    simp only [offAddr, simpOff] at h ⊢
    cases hd : offAddr w o f.ty with
    | none => rw [hd] at h; simp at h
    | some x => rw [hd] at h; rw [ih x rfl hd]; exact h
  | .index e o, hg => by
    intro w t t' d hs h
    have ihe := simp_stands e hg.1
    have iho := off_stands o hg.2 w
    simp only [offAddr, simpOff] at h ⊢
    cases hu : element t with
    | none => rw [hu] at h; simp at h
    | some u =>
      obtain ⟨u', hu', hs'⟩ := same_element hs hu
      rw [hu] at h
      simp only at h
      cases hi : eval w e with
      | none => rw [hi] at h; simp at h
      | some i =>
        cases hd : offAddr w o u with
        | none => rw [hi, hd] at h; simp at h
        | some x =>
          rw [hi, hd] at h
          simp only [hu', ihe.2 w i hi, iho u u' x hs' hd]
          simp only at h
          rw [← same_size hs']
          exact h
end

/-- **C147.** A simplified expression has the value that the expression had, in every state, and its type up to attributes, if
no cast takes pointers to arrays for pointers to the arrays' elements, or the reverse. -/
theorem simplify_partial (e : Exp) (hg : Good e) :
    (∀ t, e.ty = some t → ∃ t', (simp e).ty = some t' ∧ Same t t') ∧ ∀ w v, eval w e = some v → eval w (simp e) = some v :=
  simp_stands e hg

/-- `*&*&…*&v`, with `n` times `*&`. -/
def stars (v : Nat) (t : Ty) : Nat → Host
  | 0 => .var v t
  | n + 1 => .mem (.addrOf (stars v t n) .none)

/-- `*&*&…*&v` becomes `v`, and `&*&*…&v` becomes `&v`. -/
theorem stars_gone (v : Nat) (t : Ty) : ∀ n : Nat, simp (.lval (stars v t n) .none) = .lval (.var v t) .none ∧
    simp (.addrOf (stars v t n) .none) = .addrOf (.var v t) .none
  | 0 => by simp [stars, simp, simpHost, simpOff, top]
  | n + 1 => by
    have h := (stars_gone v t n).2
    constructor
    · rw [stars, simp, simpHost, h, simpOff]; rfl
    · rw [stars, simp, simpHost, h, simpOff]; rfl

/-- Members of members of a variable are seen as such, whatever the expressions within. -/
theorem member_gone (v : Nat) (t : Ty) (p o : Off) :
    simp (.lval (.mem (.addrOf (.var v t) p)) o) = .lval (.var v t) ((simpOff p).app (simpOff o)) := by
  cases p <;> simp [simp, simpHost, simpOff, top]

/-- But only one level of these is seen: `(&(&v.f)->g)->h` becomes `(&v.f)->g.h`. -/
theorem member_fails : ∃ (v : Nat) (t : Ty) (f g h : Fld),
    simp (.lval (.mem (.addrOf (.mem (.addrOf (.var v t) (.field f .none))) (.field g .none))) (.field h .none)) =
      .lval (.mem (.addrOf (.var v t) (.field f .none))) (.field g (.field h .none)) :=
  ⟨0, .comp false 0 8, ⟨0, .comp false 1 8⟩, ⟨0, .comp false 2 8⟩, ⟨0, .int false 4⟩, by
    simp [simp, simpHost, simpOff, top, Off.app]⟩

/-- `int (*p)[10]`, a variable. -/
def exP : Exp := .lval (.var 0 (.ptr false (.arr false (.int false 4) 10))) .none

/-- The variable is at 100 and points to 1000. -/
def exW : World := ⟨fun _ => 100, fun _ _ => 1000⟩

/-- `(int *) p + 1` becomes `p + 1`, which is 36 bytes further on. -/
theorem cast_fails : ∃ (e : Exp) (w : World), e.ty = some (.ptr false (.int false 4)) ∧
    eval w e = some 1004 ∧ eval w (simp e) = some 1040 :=
  ⟨.bin .plusPI (.cast (.ptr false (.int false 4)) exP) (.const (.int false 4) 1) (.ptr false (.int false 4)), exW, by
    refine ⟨by simp [Exp.ty], ?_, ?_⟩ <;> decide +kernel⟩

/-- `*p + 1`, with the array used as a pointer, is right after it has been simplified, but not after it has been simplified
twice. -/
theorem twice_fails : ∃ (e : Exp) (w : World), Good e ∧
    eval w e = some 1004 ∧ eval w (simp e) = some 1004 ∧ eval w (simp (simp e)) = some 1040 :=
  ⟨.bin .plusPI (.startOf (.mem exP) .none) (.const (.int false 4) 1) (.ptr false (.int false 4)), exW, by
    refine ⟨by simp [Good, GoodH, GoodO, exP], ?_, ?_, ?_⟩ <;> decide +kernel⟩

/-! ## An example

`((const struct s *) &*q)->a[*&i]` with `q` a pointer to `struct s { int n; short a[4]; }` and `i` an `unsigned char`. -/

def exS : Ty := .comp false 7 12

def exE : Exp :=
  .lval (.mem (.cast (.ptr true (.comp true 7 12)) (.addrOf (.mem (.lval (.var 1 (.ptr false exS)) .none)) .none)))
    (.field ⟨4, .arr false (.int false 2) 4⟩ (.index (.lval (stars 2 (.int false 1) 3) .none) .none))

def exW2 : World := ⟨fun v => 100 * v, fun a n => if a = 100 then 5000 else if a = 200 then 3 else a + n⟩

theorem exE_good : Good exE := by
  simp [exE, Good, GoodH, GoodO, stars, Exp.ty, Host.ty, Off.ty, target, exS, concrete, Same, erase]

theorem exE_ok : eval exW2 exE = some 5012 ∧ eval exW2 (simp exE) = some 5012 ∧
    simp exE = .lval (.mem (.lval (.var 1 (.ptr false exS)) .none))
      (.field ⟨4, .arr false (.int false 2) 4⟩ (.index (.lval (.var 2 (.int false 1)) .none) .none)) := by
  refine ⟨by decide +kernel, by decide +kernel, ?_⟩
  have h := (stars_gone 2 (.int false 1) 3).1
  rw [exE, simp, simpHost, simpOff, simpOff, h]
  simp [simp, simpHost, simpOff, top, Exp.ty, Host.ty, Off.ty, target, dropCast, concrete, exS]

/-- `(unsigned char) 300` is 44; a pointer has eight bytes; `pp + 2` is sixteen bytes further on than `pp`, a pointer to pointers. -/
example : eval exW2 (.cast (.int false 1) (.const (.int false 2) 300)) = some 44 ∧
    eval ⟨fun _ => 0, fun _ n => n⟩ (.lval (.var 0 (.ptr false exS)) .none) = some 8 ∧
    eval exW2 (.bin .plusPI (.lval (.var 1 (.ptr false (.ptr false exS))) .none) (.const (.int false 4) 2) (.ptr false (.ptr false exS))) = some 5016 := by
  decide +kernel

end Liballocs.CilSimp
