import Verif.Model.RtTypes
namespace Liballocs.RtTypes

/-! # The types made at start-up: one object per name, right sizes and relations -/

/-! ## Symbols -/

theorem find_append (l l' : List (String × Nat)) (n : String) :
    find (l ++ l') n = match find l n with | some a => some a | none => find l' n := by
  induction l with
  | nil => rfl
  | cons e l ih =>
    obtain ⟨m, a⟩ := e
    rw [List.cons_append, find, find]
    by_cases h : m = n
    · rw [if_pos h, if_pos h]
    · rw [if_neg h, if_neg h, ih]

theorem find_last (n : String) (a : Nat) : find [(n, a)] n = some a := by rw [find, if_pos rfl]

/-- What a step may bind. -/
def Op.binds : Op → List String
  | .get _ _ b _ _ _ => [b]
  | _ => []

theorem step_sym {s s' : St} {o : Op} (h : step s o = some s') :
    s'.syms = s.syms ∨ ∃ m a, m ∈ o.binds ∧ s'.syms = s.syms ++ [(m, a)] := by
  cases o with
  | get v look bind mo k rel =>
    simp only [step] at h
    cases hd : s.dlsym look with
    | some a => rw [hd] at h; cases h; exact .inl rfl
    | none => rw [hd] at h; cases h; exact .inr ⟨bind, s.next, List.mem_singleton.mpr rfl, rfl⟩
  | pair a b =>
    simp only [step] at h
    cases he : s.env a with
    | none => rw [he] at h; cases h
    | some p =>
      rw [he] at h
      simp only [fill] at h
      split at h
      · cases h
      · split at h
        · cases h
        · split at h <;> cases h <;> exact .inl rfl
  | only v n => cases h; exact .inl rfl

/-- A binding is never lost or changed. -/
theorem step_keeps_sym {s s' : St} {o : Op} (h : step s o = some s') {n : String} {a : Nat} (hn : s.dlsym n = some a) :
    s'.dlsym n = some a := by
  rcases step_sym h with h' | ⟨m, b, _, h'⟩
  · rw [St.dlsym, h']; exact hn
  · rw [St.dlsym, h', find_append]
    have : find s.syms n = some a := hn
    rw [this]

theorem step_new_sym {s s' : St} {o : Op} (h : step s o = some s') {n : String} {a : Nat} (hn : s'.dlsym n = some a) :
    s.dlsym n = some a ∨ n ∈ o.binds := by
  rcases step_sym h with h' | ⟨m, b, hm, h'⟩
  · rw [St.dlsym, h'] at hn; exact .inl hn
  · rw [St.dlsym, h', find_append] at hn
    cases hf : find s.syms n with
    | some c => rw [hf] at hn; left; rw [St.dlsym, hf]; exact hn
    | none =>
      rw [hf] at hn
      simp only [find] at hn
      by_cases e : m = n
      · subst e; exact .inr hm
      · rw [if_neg e] at hn; cases hn

theorem run_keeps_sym : ∀ {os : List Op} {s s' : St}, run os s = some s' → ∀ {n : String} {a : Nat}, s.dlsym n = some a → s'.dlsym n = some a
  | [], s, s', h, n, a, hn => by cases h; exact hn
  | o :: os, s, s', h, n, a, hn => by
    rw [run] at h
    cases hs : step s o with
    | none => rw [hs] at h; cases h
    | some s1 => rw [hs] at h; exact run_keeps_sym h (step_keeps_sym hs hn)

theorem run_new_sym : ∀ {os : List Op} {s s' : St}, run os s = some s' → ∀ {n : String} {a : Nat}, s'.dlsym n = some a →
    s.dlsym n = some a ∨ n ∈ os.flatMap Op.binds
  | [], s, s', h, n, a, hn => by cases h; exact .inl hn
  | o :: os, s, s', h, n, a, hn => by
    rw [run] at h
    rw [List.flatMap_cons, List.mem_append]
    cases hs : step s o with
    | none => rw [hs] at h; cases h
    | some s1 =>
      rw [hs] at h
      rcases run_new_sym h hn with h1 | h1
      · rcases step_new_sym hs h1 with h2 | h2
        · exact .inl h2
        · exact .inr (.inl h2)
      · exact .inr (.inr h1)

theorem run_append {os os' : List Op} {s s' : St} (h : run (os ++ os') s = some s') : ∃ s1, run os s = some s1 ∧ run os' s1 = some s' := by
  induction os generalizing s with
  | nil => exact ⟨s, rfl, h⟩
  | cons o os ih =>
    rw [List.cons_append, run] at h
    cases hs : step s o with
    | none => rw [hs] at h; cases h
    | some s1 =>
      rw [hs] at h
      obtain ⟨s2, h1, h2⟩ := ih h
      refine ⟨s2, ?_, h2⟩
      rw [run, hs]; exact h1

/-! ## Variables -/

/-- A step sets variable `v`, if at all, to what is bound under `n`. -/
def Op.names (v : Slot) (n : String) : Op → Bool
  | .get w look bind _ _ _ => !decide (w = v) || (decide (look = n) && decide (bind = n))
  | .only w m => !decide (w = v) || decide (m = n)
  | .pair _ _ => true

/-- Variable and symbol agree. -/
def Agree (s : St) (v : Slot) (n : String) : Prop := ∃ a, s.env v = some a ∧ s.dlsym n = some a

theorem step_get {s s' : St} {v : Slot} {n : String} {mo : Option Nat} {k : Kind} {rel : List (Option Slot)}
    (h : step s (.get v n n mo k rel) = some s') : Agree s' v n := by
  simp only [step] at h
  cases hd : s.dlsym n with
  | some a =>
    rw [hd] at h; cases h
    exact ⟨a, by simp [setEnv], hd⟩
  | none =>
    rw [hd] at h; cases h
    refine ⟨s.next, by simp [create, setEnv], ?_⟩
    have : find s.syms n = none := hd
    simp only [St.dlsym, create, find_append, this, find_last]

theorem step_agree {s s' : St} {o : Op} (h : step s o = some s') {v : Slot} {n : String} (hn : o.names v n = true)
    (ha : Agree s v n) : Agree s' v n := by
  obtain ⟨a, h1, h2⟩ := ha
  have h3 := step_keeps_sym h h2
  cases o with
  | get w look bind mo k rel =>
    by_cases e : w = v
    · subst e
      simp only [Op.names, decide_true, Bool.not_true, Bool.false_or, Bool.and_eq_true, decide_eq_true_eq] at hn
      obtain ⟨rfl, rfl⟩ := hn
      exact step_get h
    · refine ⟨a, ?_, h3⟩
      simp only [step] at h
      have e' : v ≠ w := fun x => e x.symm
      cases hd : s.dlsym look with
      | some b => rw [hd] at h; cases h; simp only [setEnv, if_neg e', h1]
      | none => rw [hd] at h; cases h; simp only [create, setEnv, if_neg e', h1]
  | pair x y =>
    refine ⟨a, ?_, h3⟩
    simp only [step] at h
    cases he : s.env x with
    | none => rw [he] at h; cases h
    | some p =>
      rw [he] at h
      simp only [fill] at h
      split at h
      · cases h
      · split at h
        · cases h
        · split at h <;> cases h <;> exact h1
  | only w m =>
    by_cases e : w = v
    · subst e
      simp only [Op.names, decide_true, Bool.not_true, Bool.false_or, decide_eq_true_eq] at hn
      subst hn
      cases h
      exact ⟨a, by simp [setEnv, h2], h2⟩
    · cases h
      refine ⟨a, ?_, h3⟩
      have e' : v ≠ w := fun x => e x.symm
      simp only [setEnv, if_neg e', h1]

theorem run_agree : ∀ {os : List Op} {s s' : St}, run os s = some s' → ∀ {v : Slot} {n : String}, (os.all (Op.names v n)) = true →
    Agree s v n → Agree s' v n
  | [], s, s', h, v, n, _, ha => by cases h; exact ha
  | o :: os, s, s', h, v, n, hn, ha => by
    rw [run] at h
    rw [List.all_cons, Bool.and_eq_true] at hn
    cases hs : step s o with
    | none => rw [hs] at h; cases h
    | some s1 => rw [hs] at h; exact run_agree h hn.2 (step_agree hs hn.1 ha)

theorem agree_of_get {pre post : List Op} {v : Slot} {n : String} {mo : Option Nat} {k : Kind} {rel : List (Option Slot)} {s s' : St}
    (h : run (pre ++ .get v n n mo k rel :: post) s = some s') (hp : (post.all (Op.names v n)) = true) : Agree s' v n := by
  obtain ⟨s1, _, h2⟩ := run_append h
  rw [run] at h2
  cases hs : step s1 (.get v n n mo k rel) with
  | none => rw [hs] at h2; cases h2
  | some s2 => rw [hs] at h2; exact run_agree h2 hp (step_get hs)

/-! ## Types already there are kept -/

/-- A later version of a type: same size, kind and room, and no entry changed unless it was null. -/
structure Later (t t' : Ty) : Prop where
  maxoff : t'.maxoff = t.maxoff
  kind : t'.kind = t.kind
  room : t'.rel.length = t.rel.length
  rel : ∀ (i : Nat) (r : Rel), t.rel[i]? = some r → r.ptr ≠ none → t'.rel[i]? = some r

theorem Later.refl (t : Ty) : Later t t := ⟨rfl, rfl, rfl, fun _ _ h _ => h⟩

theorem Later.trans {a b c : Ty} (h : Later a b) (g : Later b c) : Later a c :=
  ⟨g.maxoff.trans h.maxoff, g.kind.trans h.kind, g.room.trans h.room, fun i r h1 h2 => g.rel i r (h.rel i r h1 h2) h2⟩

/-- Memory is allocated below `next` only. -/
def WF (s : St) : Prop := ∀ a, s.next ≤ a → s.heap a = none

theorem step_later {s s' : St} {o : Op} (hw : WF s) (h : step s o = some s') :
    WF s' ∧ ∀ a t, s.heap a = some t → ∃ t', s'.heap a = some t' ∧ Later t t' := by
  cases o with
  | get v look bind mo k rel =>
    simp only [step] at h
    cases hd : s.dlsym look with
    | some b => rw [hd] at h; cases h; exact ⟨hw, fun a t ht => ⟨t, ht, .refl t⟩⟩
    | none =>
      rw [hd] at h; cases h
      refine ⟨?_, ?_⟩
      · intro a ha
        simp only [create] at ha ⊢
        simp only [setHeap]
        rw [if_neg (by omega), hw a (by omega)]
      · intro a t ht
        have : a ≠ s.next := by
          rintro rfl
          rw [hw _ (Nat.le_refl _)] at ht; cases ht
        exact ⟨t, by simp only [create, setHeap]; rw [if_neg this, ht], .refl t⟩
  | only v n => cases h; exact ⟨hw, fun a t ht => ⟨t, ht, .refl t⟩⟩
  | pair x y =>
    simp only [step] at h
    cases he : s.env x with
    | none => rw [he] at h; cases h
    | some p =>
      rw [he] at h
      simp only [fill] at h
      split at h
      · cases h
      · rename_i t0 hp
        split at h
        · cases h
        · rename_i r rs hr
          split at h
          · cases h; exact ⟨hw, fun a t ht => ⟨t, ht, .refl t⟩⟩
          · rename_i hn
            cases h
            refine ⟨?_, ?_⟩
            · intro a ha
              simp only [setHeap]
              have : a ≠ p := by
                rintro rfl
                rw [hw _ ha] at hp; cases hp
              rw [if_neg this, hw a ha]
            · intro a t ht
              by_cases e : a = p
              · subst e
                rw [hp] at ht; cases ht
                refine ⟨{ t0 with rel := ⟨s.env y, 0⟩ :: rs }, by simp [setHeap], ⟨rfl, rfl, by rw [hr]; rfl, ?_⟩⟩
                intro i r' h1 h2
                cases i with
                | zero => rw [hr] at h1; cases h1; exact absurd hn h2
                | succ i => rw [hr] at h1; exact h1
              · exact ⟨t, by simp only [setHeap]; rw [if_neg e, ht], .refl t⟩

theorem run_later : ∀ {os : List Op} {s s' : St}, WF s → run os s = some s' →
    WF s' ∧ ∀ a t, s.heap a = some t → ∃ t', s'.heap a = some t' ∧ Later t t'
  | [], s, s', hw, h => by cases h; exact ⟨hw, fun a t ht => ⟨t, ht, .refl t⟩⟩
  | o :: os, s, s', hw, h => by
    rw [run] at h
    cases hs : step s o with
    | none => rw [hs] at h; cases h
    | some s1 =>
      rw [hs] at h
      obtain ⟨w1, k1⟩ := step_later hw hs
      obtain ⟨w2, k2⟩ := run_later w1 h
      refine ⟨w2, fun a t ht => ?_⟩
      obtain ⟨t1, h1, l1⟩ := k1 a t ht
      obtain ⟨t2, h2, l2⟩ := k2 a t1 h1
      exact ⟨t2, h2, l1.trans l2⟩

/-! ## What a created type looks like in the end -/

theorem made {pre post : List Op} {v : Slot} {n b : String} {mo : Option Nat} {k : Kind} {rel : List (Option Slot)} {s s' : St}
    (hw : WF s) (h : run (pre ++ .get v n b mo k rel :: post) s = some s') (habs : s.dlsym n = none)
    (hpre : n ∉ pre.flatMap Op.binds) :
    ∃ s1 a t, run pre s = some s1 ∧ a = s1.next ∧ step s1 (.get v n b mo k rel) = some (create s1 v b mo k rel) ∧
      run post (create s1 v b mo k rel) = some s' ∧ WF (create s1 v b mo k rel) ∧ s'.heap a = some t ∧
      Later ⟨mo, k, rel.map (relOf s1.env)⟩ t := by
  obtain ⟨s1, h1, h2⟩ := run_append h
  have hn : s1.dlsym n = none := by
    cases hd : s1.dlsym n with
    | none => rfl
    | some a =>
      rcases run_new_sym h1 hd with h3 | h3
      · rw [habs] at h3; cases h3
      · exact absurd h3 hpre
  have hs : step s1 (.get v n b mo k rel) = some (create s1 v b mo k rel) := by simp only [step, hn]
  rw [run, hs] at h2
  have w1 := (run_later hw h1).1
  have w2 := (step_later w1 hs).1
  obtain ⟨t, ht, hl⟩ := (run_later w2 h2).2 s1.next ⟨mo, k, rel.map (relOf s1.env)⟩ (by simp [create, setHeap])
  exact ⟨s1, s1.next, t, h1, rfl, hs, h2, w2, ht, hl⟩

/-! ## Main statements -/

/-- The types that the rest of liballocs uses, each with its symbol's name, its size in bytes and its kind. -/
def spec : List (Slot × String × Nat × Kind) := [
  (.void, "__uniqtype__void", 0, .void),
  (.byte, "__uniqtype____uninterpreted_byte", 1, .base 0),
  (.schar, "__uniqtype__signed_char$$8", 1, .base 6),
  (.uchar, "__uniqtype__unsigned_char$$8", 1, .base 8),
  (.ulong, "__uniqtype__uint$$64", 8, .base 7),
  (.long, "__uniqtype__int$$64", 8, .base 5),
  (.pschar, "__uniqtype____PTR_signed_char$$8", 8, .address 1),
  (.ppschar, "__uniqtype____PTR___PTR_signed_char$$8", 8, .address 2),
  (.auxv, "__uniqtype__Elf64_auxv_t", 16, .composite 2)]

theorem init_at : ∀ e, e ∈ spec → ∃ pre post rel, init = pre ++ Op.get e.1 e.2.1 e.2.1 (some e.2.2.1) e.2.2.2 rel :: post ∧
    post.all (Op.names e.1 e.2.1) = true ∧ e.2.1 ∉ pre.flatMap Op.binds := by
  intro e he
  simp only [spec, List.mem_cons, List.not_mem_nil, or_false] at he
  rcases he with rfl | rfl | rfl | rfl | rfl | rfl | rfl | rfl | rfl
  · exact ⟨init.take 0, init.drop 1, _, rfl, by decide +kernel, by decide +kernel⟩
  · exact ⟨init.take 1, init.drop 2, _, rfl, by decide +kernel, by decide +kernel⟩
  · exact ⟨init.take 2, init.drop 3, _, rfl, by decide +kernel, by decide +kernel⟩
  · exact ⟨init.take 3, init.drop 4, _, rfl, by decide +kernel, by decide +kernel⟩
  · exact ⟨init.take 7, init.drop 8, _, rfl, by decide +kernel, by decide +kernel⟩
  · exact ⟨init.take 8, init.drop 9, _, rfl, by decide +kernel, by decide +kernel⟩
  · exact ⟨init.take 11, init.drop 12, _, rfl, by decide +kernel, by decide +kernel⟩
  · exact ⟨init.take 12, init.drop 13, _, rfl, by decide +kernel, by decide +kernel⟩
  · exact ⟨init.take 13, init.drop 14, _, rfl, by decide +kernel, by decide +kernel⟩

/-- **C119** (partial: not for the zero-length array and `intptr_t`).  After start-up, each of these variables holds the one
object that its symbol's name is bound to; if the program had already bound the name, it is the program's object. -/
theorem one_object_partial {s s' : St} (h : run init s = some s') (e : Slot × String × Nat × Kind) (he : e ∈ spec) :
    ∃ a, s'.env e.1 = some a ∧ s'.dlsym e.2.1 = some a ∧ ∀ b, s.dlsym e.2.1 = some b → b = a := by
  obtain ⟨pre, post, rel, hi, hp, _⟩ := init_at e he
  have h' := h
  rw [hi] at h'
  obtain ⟨a, h1, h2⟩ := agree_of_get h' hp
  refine ⟨a, h1, h2, fun b hb => ?_⟩
  have := run_keeps_sym h hb
  rw [h2] at this
  exact (Option.some.inj this).symm

/-- **C119**.  Start-up keeps every binding there was, and binds no names but those of its own types. -/
theorem bindings_kept {s s' : St} (h : run init s = some s') (n : String) (a : Nat) :
    (s.dlsym n = some a → s'.dlsym n = some a) ∧
    (s'.dlsym n = some a → s.dlsym n = some a ∨ n ∈ spec.map (·.2.1) ∨ n = "__uniqtype____ARR0_signed_char") := by
  refine ⟨run_keeps_sym h, fun hn => ?_⟩
  rcases run_new_sym h hn with h1 | h1
  · exact .inl h1
  · right
    revert h1
    have : ∀ m, m ∈ init.flatMap Op.binds → m ∈ spec.map (·.2.1) ∨ m = "__uniqtype____ARR0_signed_char" := by decide +kernel
    exact this n

/-- **C119**.  Start-up changes no type that the program has, except for filling in null `related` entries. -/
theorem types_kept {s s' : St} (hw : WF s) (h : run init s = some s') (a : Nat) (t : Ty) (ht : s.heap a = some t) :
    ∃ t', s'.heap a = some t' ∧ Later t t' := (run_later hw h).2 a t ht

/-- **C120** (partial: not for the zero-length array and `intptr_t`).  A type that the program lacks is made with the right
size and kind. -/
theorem made_partial {s s' : St} (hw : WF s) (h : run init s = some s') (e : Slot × String × Nat × Kind) (he : e ∈ spec)
    (habs : s.dlsym e.2.1 = none) :
    ∃ a t, s'.env e.1 = some a ∧ s'.heap a = some t ∧ s.heap a = none ∧ t.maxoff = some e.2.2.1 ∧ t.kind = e.2.2.2 := by
  obtain ⟨pre, post, rel, hi, hp, hpre⟩ := init_at e he
  have h' := h
  rw [hi] at h'
  obtain ⟨s1, a, t, h1, ha, hs, h2, w2, ht, hl⟩ := made hw h' habs hpre
  have hag : Agree (create s1 e.1 e.2.1 (some e.2.2.1) e.2.2.2 rel) e.1 e.2.1 := step_get hs
  obtain ⟨b, hb1, hb2⟩ := hag
  have hb : b = s1.next := by simp only [create, setEnv] at hb1; exact (Option.some.inj hb1).symm
  obtain ⟨c, hc1, hc2⟩ := run_agree h2 hp ⟨b, hb1, hb2⟩
  have := run_keeps_sym h2 hb2
  rw [hc2] at this
  have hcb : c = b := Option.some.inj this
  refine ⟨a, t, by rw [hc1, hcb, hb, ha], ht, ?_, hl.maxoff, hl.kind⟩
  cases hh : s.heap a with
  | none => rfl
  | some u =>
    obtain ⟨u', hu, _⟩ := (run_later hw h1).2 a u hh
    rw [ha, (run_later hw h1).1 _ (Nat.le_refl _)] at hu
    cases hu

/-- What a created type points to: the entry holds what the variable holds in the end. -/
theorem made_rel {s s' : St} (hw : WF s) (h : run init s = some s') {pre post : List Op} {v w : Slot} {n m : String} {mo : Option Nat}
    {k : Kind} {rel : List (Option Slot)} (hi : init = pre ++ Op.get v n n mo k rel :: post)
    (hp : post.all (Op.names v n) = true) (hpre : n ∉ pre.flatMap Op.binds) (habs : s.dlsym n = none)
    (hm : ∃ pre' post' mo' k' rel', pre = pre' ++ Op.get w m m mo' k' rel' :: post' ∧ post'.all (Op.names w m) = true)
    (hpw : post.all (Op.names w m) = true) (hvw : v ≠ w) (i : Nat) (hr : rel[i]? = some (some w)) :
    ∃ a t p, s'.env v = some a ∧ s'.heap a = some t ∧ s'.env w = some p ∧ t.rel[i]? = some ⟨some p, 0⟩ := by
  have h' := h
  rw [hi] at h'
  obtain ⟨s1, a, t, h1, ha, hs, h2, w2, ht, hl⟩ := made hw h' habs hpre
  obtain ⟨pre', post', mo', k', rel', he, hq⟩ := hm
  have h1' := h1
  rw [he] at h1'
  obtain ⟨p, hp1, hp2⟩ := agree_of_get h1' hq
  have hpc : Agree (create s1 v n mo k rel) w m := step_agree hs (by simp [Op.names, hvw]) ⟨p, hp1, hp2⟩
  obtain ⟨p', hp1', hp2'⟩ := run_agree h2 hpw hpc
  obtain ⟨q, hq1, hq2⟩ := hpc
  have e1 : q = p := by
    have : (create s1 v n mo k rel).env w = s1.env w := by simp only [create, setEnv]; rw [if_neg (fun e => hvw e.symm)]
    rw [this, hp1] at hq1; exact (Option.some.inj hq1).symm
  have e2 := run_keeps_sym h2 hq2
  rw [hp2'] at e2
  have e3 : p' = q := Option.some.inj e2
  obtain ⟨b, hb1, hb2⟩ := step_get hs
  have hb : b = s1.next := by simp only [create, setEnv] at hb1; exact (Option.some.inj hb1).symm
  obtain ⟨c, hc1, hc2⟩ := run_agree h2 hp ⟨b, hb1, hb2⟩
  have e4 := run_keeps_sym h2 hb2
  rw [hc2] at e4
  have hcb : c = b := Option.some.inj e4
  refine ⟨a, t, p, by rw [hc1, hcb, hb, ha], ht, by rw [hp1', e3, e1], ?_⟩
  refine hl.rel i ⟨some p, 0⟩ ?_ (by simp)
  rw [List.getElem?_map, hr]
  simp only [Option.map_some, relOf, hp1]

/-- **C120**.  A `char *` made at start-up points to `char`; a `char **` points to `char *`. -/
theorem pointer_right {s s' : St} (hw : WF s) (h : run init s = some s') :
    (s.dlsym "__uniqtype____PTR_signed_char$$8" = none →
      ∃ a t p, s'.env .pschar = some a ∧ s'.heap a = some t ∧ s'.env .schar = some p ∧ t.rel[0]? = some ⟨some p, 0⟩) ∧
    (s.dlsym "__uniqtype____PTR___PTR_signed_char$$8" = none →
      ∃ a t p, s'.env .ppschar = some a ∧ s'.heap a = some t ∧ s'.env .pschar = some p ∧ t.rel[0]? = some ⟨some p, 0⟩) := by
  refine ⟨fun habs => ?_, fun habs => ?_⟩
  · exact made_rel hw h (pre := init.take 11) (post := init.drop 12) (m := "__uniqtype__signed_char$$8") rfl (by decide +kernel) (by decide +kernel) habs
      ⟨init.take 2, (init.take 11).drop 3, _, _, _, rfl, by decide +kernel⟩ (by decide +kernel) (by decide +kernel) 0 rfl
  · exact made_rel hw h (pre := init.take 12) (post := init.drop 13) (m := "__uniqtype____PTR_signed_char$$8") rfl (by decide +kernel) (by decide +kernel) habs
      ⟨init.take 11, (init.take 12).drop 12, _, _, _, rfl, by decide +kernel⟩ (by decide +kernel) (by decide +kernel) 0 rfl

/-! ## Complements -/

/-- Everything bound and every variable lies below `next`. -/
def Low (s : St) : Prop := (∀ n a, s.dlsym n = some a → a < s.next) ∧ ∀ v a, s.env v = some a → a < s.next

theorem step_low {s s' : St} {o : Op} (hl : Low s) (h : step s o = some s') : Low s' := by
  obtain ⟨l1, l2⟩ := hl
  cases o with
  | get v lk bind mo k rel =>
    simp only [step] at h
    cases hd : s.dlsym lk with
    | some b =>
      rw [hd] at h; cases h
      refine ⟨l1, fun w a ha => ?_⟩
      simp only [setEnv] at ha
      by_cases e : w = v
      · rw [if_pos e] at ha; cases ha; exact l1 lk _ hd
      · rw [if_neg e] at ha; exact l2 w a ha
    | none =>
      rw [hd] at h; cases h
      refine ⟨fun n a ha => ?_, fun w a ha => ?_⟩
      · simp only [St.dlsym, create, find_append] at ha ⊢
        cases hf : find s.syms n with
        | some c => rw [hf] at ha; cases ha; exact Nat.lt_succ_of_lt (l1 n _ hf)
        | none =>
          rw [hf] at ha
          simp only [find] at ha
          by_cases e : bind = n
          · rw [if_pos e] at ha; cases ha; exact Nat.lt_succ_self _
          · rw [if_neg e] at ha; cases ha
      · simp only [create, setEnv] at ha ⊢
        by_cases e : w = v
        · rw [if_pos e] at ha; cases ha; exact Nat.lt_succ_self _
        · rw [if_neg e] at ha; exact Nat.lt_succ_of_lt (l2 w a ha)
  | only v n =>
    cases h
    refine ⟨l1, fun w a ha => ?_⟩
    simp only [setEnv] at ha
    by_cases e : w = v
    · rw [if_pos e] at ha; exact l1 n a ha
    · rw [if_neg e] at ha; exact l2 w a ha
  | pair x y =>
    simp only [step] at h
    cases he : s.env x with
    | none => rw [he] at h; cases h
    | some p =>
      rw [he] at h
      simp only [fill] at h
      split at h
      · cases h
      · split at h
        · cases h
        · split at h <;> cases h <;> exact ⟨l1, l2⟩

theorem run_low : ∀ {os : List Op} {s s' : St}, Low s → run os s = some s' → Low s'
  | [], s, s', hl, h => by cases h; exact hl
  | o :: os, s, s', hl, h => by
    rw [run] at h
    cases hs : step s o with
    | none => rw [hs] at h; cases h
    | some s1 => rw [hs] at h; exact run_low (step_low hl hs) h

/-- The object at `a` is as made, and is reached only through variable `x` and name `n`. -/
structure Mine (s : St) (a : Nat) (t : Ty) (x : Slot) (n : String) : Prop where
  heap : s.heap a = some t
  env : s.env x = some a
  low : a < s.next
  envs : ∀ w, w ≠ x → s.env w ≠ some a
  syms : ∀ m, s.dlsym m = some a → m = n

/-- A step that has nothing to do with a variable or name. -/
def Op.avoids (x : Slot) (n : String) : Op → Bool
  | .get w lk b _ _ _ => !decide (w = x) && !decide (lk = n) && !decide (b = n)
  | .pair w _ => !decide (w = x)
  | .only w m => !decide (w = x) && !decide (m = n)

theorem step_mine {s s' : St} {o : Op} {a : Nat} {t : Ty} {x : Slot} {n : String} (hm : Mine s a t x n)
    (ho : o.avoids x n = true) (h : step s o = some s') : Mine s' a t x n := by
  cases o with
  | get w lk b mo k rel =>
    simp only [Op.avoids, Bool.and_eq_true, Bool.not_eq_true', decide_eq_false_iff_not] at ho
    obtain ⟨⟨h1, h2⟩, h3⟩ := ho
    simp only [step] at h
    cases hd : s.dlsym lk with
    | some c =>
      rw [hd] at h; cases h
      refine ⟨hm.heap, ?_, hm.low, ?_, hm.syms⟩
      · simp only [setEnv]; rw [if_neg (fun e => h1 e.symm)]; exact hm.env
      · intro w' hw'
        simp only [setEnv]
        by_cases e : w' = w
        · rw [if_pos e]
          intro e'
          cases e'
          exact h2 (hm.syms lk hd)
        · rw [if_neg e]; exact hm.envs w' hw'
    | none =>
      rw [hd] at h; cases h
      have hlow := hm.low
      refine ⟨?_, ?_, ?_, ?_, ?_⟩
      · simp only [create, setHeap]; rw [if_neg (by omega)]; exact hm.heap
      · simp only [create, setEnv]; rw [if_neg (fun e => h1 e.symm)]; exact hm.env
      · exact Nat.lt_succ_of_lt hm.low
      · intro w' hw'
        simp only [create, setEnv]
        by_cases e : w' = w
        · rw [if_pos e]
          intro e'
          have := Option.some.inj e'
          omega
        · rw [if_neg e]; exact hm.envs w' hw'
      · intro m hmm
        simp only [St.dlsym, create, find_append] at hmm
        cases hf : find s.syms m with
        | some c => rw [hf] at hmm; cases hmm; exact hm.syms m hf
        | none =>
          rw [hf] at hmm
          simp only [find] at hmm
          by_cases e : b = m
          · rw [if_pos e] at hmm
            have := Option.some.inj hmm
            omega
          · rw [if_neg e] at hmm; cases hmm
  | pair w y =>
    simp only [Op.avoids, Bool.not_eq_true', decide_eq_false_iff_not] at ho
    simp only [step] at h
    cases he : s.env w with
    | none => rw [he] at h; cases h
    | some p =>
      rw [he] at h
      have hne : p ≠ a := fun e => hm.envs w ho (by rw [he, e])
      simp only [fill] at h
      split at h
      · cases h
      · split at h
        · cases h
        · split at h
          · cases h; exact hm
          · cases h
            refine ⟨?_, hm.env, hm.low, hm.envs, hm.syms⟩
            simp only [setHeap]
            rw [if_neg (fun e => hne e.symm)]
            exact hm.heap
  | only w m =>
    simp only [Op.avoids, Bool.and_eq_true, Bool.not_eq_true', decide_eq_false_iff_not] at ho
    cases h
    refine ⟨hm.heap, ?_, hm.low, ?_, hm.syms⟩
    · simp only [setEnv]; rw [if_neg (fun e => ho.1 e.symm)]; exact hm.env
    · intro w' hw'
      simp only [setEnv]
      by_cases e : w' = w
      · rw [if_pos e]
        intro e'
        exact ho.2 (hm.syms m e')
      · rw [if_neg e]; exact hm.envs w' hw'

theorem run_mine : ∀ {os : List Op} {s s' : St} {a : Nat} {t : Ty} {x : Slot} {n : String}, Mine s a t x n →
    os.all (Op.avoids x n) = true → run os s = some s' → Mine s' a t x n
  | [], s, s', a, t, x, n, hm, _, h => by cases h; exact hm
  | o :: os, s, s', a, t, x, n, hm, ho, h => by
    rw [run] at h
    rw [List.all_cons, Bool.and_eq_true] at ho
    cases hs : step s o with
    | none => rw [hs] at h; cases h
    | some s1 => rw [hs] at h; exact run_mine (step_mine hm ho.1 hs) ho.2 h

theorem create_mine {s : St} (hl : Low s) {x : Slot} {n : String} {mo : Option Nat} {k : Kind} {rel : List (Option Slot)} :
    Mine (create s x n mo k rel) s.next ⟨mo, k, rel.map (relOf s.env)⟩ x n := by
  refine ⟨by simp [create, setHeap], by simp [create, setEnv], Nat.lt_succ_self _, ?_, ?_⟩
  · intro w hw e
    simp only [create, setEnv] at e
    rw [if_neg hw] at e
    exact Nat.lt_irrefl _ (hl.2 w _ e)
  · intro m hm
    simp only [St.dlsym, create, find_append] at hm
    cases hf : find s.syms m with
    | some c => rw [hf] at hm; cases hm; exact absurd (hl.1 m _ hf) (Nat.lt_irrefl _)
    | none =>
      rw [hf] at hm
      simp only [find] at hm
      by_cases e : n = m
      · exact e.symm
      · rw [if_neg e] at hm; cases hm

/-- A base type that is made and later paired ends with the other one as its complement. -/
theorem complement {pre mid post : List Op} {x y : Slot} {nx ny : String} {mo : Option Nat} {k : Kind} {s s' : St}
    (hw : WF s) (hl : Low s) (h : run (pre ++ .get x nx nx mo k [none] :: (mid ++ .pair x y :: post)) s = some s')
    (habs : s.dlsym nx = none) (hpre : nx ∉ pre.flatMap Op.binds) (hmid : mid.all (Op.avoids x nx) = true)
    (hx : post.all (Op.names x nx) = true)
    (hy : ∃ pre' post' mo' k' rel', pre ++ .get x nx nx mo k [none] :: mid = pre' ++ Op.get y ny ny mo' k' rel' :: post' ∧
      post'.all (Op.names y ny) = true)
    (hyp : post.all (Op.names y ny) = true) :
    ∃ a t b, s'.env x = some a ∧ s'.heap a = some t ∧ s'.env y = some b ∧ t.rel = [⟨some b, 0⟩] := by
  obtain ⟨s1, a, t, h1, ha, hs, h2, w2, ht, hlt⟩ := made hw h habs hpre
  obtain ⟨s2, g1, g2⟩ := run_append h2
  have hm := run_mine (create_mine (run_low hl h1)) hmid g1
  have hfront : run (pre ++ .get x nx nx mo k [none] :: mid) s = some s2 := by
    have key : ∀ (p q : List Op) (u v w : St), run p u = some v → run q v = some w → run (p ++ q) u = some w := by
      intro p
      induction p with
      | nil => intro q u v w hp hq; cases hp; exact hq
      | cons o p ih =>
        intro q u v w hp hq
        rw [run] at hp
        rw [List.cons_append, run]
        cases ho : step u o with
        | none => rw [ho] at hp; cases hp
        | some u1 => rw [ho] at hp; exact ih q u1 v w hp hq
    refine key pre _ s s1 s2 h1 ?_
    rw [run, hs]; exact g1
  obtain ⟨pre', post', mo', k', rel', he, hq⟩ := hy
  rw [he] at hfront
  obtain ⟨b, hb1, hb2⟩ := agree_of_get hfront hq
  rw [run] at g2
  simp only [step, hm.env, fill, hm.heap, List.map, relOf] at g2
  obtain ⟨w3, _⟩ := run_later w2 g1
  have hstep : step s2 (.pair x y) = some { s2 with heap := setHeap s2.heap s1.next ⟨mo, k, [⟨s2.env y, 0⟩]⟩ } := by
    simp only [step, hm.env, fill, hm.heap, List.map, relOf]
  have w4 := (step_later w3 hstep).1
  obtain ⟨t', ht', hlt'⟩ := (run_later w4 g2).2 s1.next ⟨mo, k, [⟨s2.env y, 0⟩]⟩ (by simp [setHeap])
  have hxs : Agree s2 x nx := by
    refine run_agree (v := x) (n := nx) g1 ?_ (step_get hs)
    · rw [List.all_eq_true] at hmid ⊢
      intro o ho
      have := hmid o ho
      cases o with
      | get w lk b _ _ _ =>
        simp only [Op.avoids, Bool.and_eq_true, Bool.not_eq_true', decide_eq_false_iff_not] at this
        simp [Op.names, this.1.1]
      | pair _ _ => rfl
      | only w m =>
        simp only [Op.avoids, Bool.and_eq_true, Bool.not_eq_true', decide_eq_false_iff_not] at this
        simp [Op.names, this.1]
  obtain ⟨c, hc1, hc2⟩ := hxs
  have hca : c = s1.next := by rw [hm.env] at hc1; exact (Option.some.inj hc1).symm
  have hxf : s'.env x = some s1.next := by
    obtain ⟨d, hd1, hd2⟩ := run_agree g2 hx ⟨c, hc1, hc2⟩
    have := run_keeps_sym g2 hc2
    rw [hd2] at this
    rw [hd1, Option.some.inj this, hca]
  have hyf : s'.env y = some b := by
    obtain ⟨d, hd1, hd2⟩ := run_agree g2 hyp ⟨b, hb1, hb2⟩
    have := run_keeps_sym g2 hb2
    rw [hd2] at this
    rw [hd1, Option.some.inj this]
  refine ⟨s1.next, t', b, hxf, ht', hyf, ?_⟩
  have r0 := hlt'.rel 0 ⟨s2.env y, 0⟩ rfl (by rw [hb1]; simp)
  have len := hlt'.room
  rw [hb1] at r0
  cases hr : t'.rel with
  | nil => rw [hr] at len; cases len
  | cons r rs =>
    rw [hr] at r0 len
    cases rs with
    | nil => cases r0; rfl
    | cons _ _ => simp at len

/-- **C120**.  The signed and unsigned character and 64-bit types made at start-up are each other's complements (or the
program's, if it has the other one). -/
theorem complements_right {s s' : St} (hw : WF s) (hl : Low s) (h : run init s = some s') :
    (s.dlsym "__uniqtype__unsigned_char$$8" = none →
      ∃ a t b, s'.env .uchar = some a ∧ s'.heap a = some t ∧ s'.env .schar = some b ∧ t.rel = [⟨some b, 0⟩]) ∧
    (s.dlsym "__uniqtype__signed_char$$8" = none →
      ∃ a t b, s'.env .schar = some a ∧ s'.heap a = some t ∧ s'.env .uchar = some b ∧ t.rel = [⟨some b, 0⟩]) ∧
    (s.dlsym "__uniqtype__uint$$64" = none →
      ∃ a t b, s'.env .ulong = some a ∧ s'.heap a = some t ∧ s'.env .long = some b ∧ t.rel = [⟨some b, 0⟩]) ∧
    (s.dlsym "__uniqtype__int$$64" = none →
      ∃ a t b, s'.env .long = some a ∧ s'.heap a = some t ∧ s'.env .ulong = some b ∧ t.rel = [⟨some b, 0⟩]) := by
  refine ⟨fun ha => ?_, fun ha => ?_, fun ha => ?_, fun ha => ?_⟩
  · exact complement (pre := init.take 3) (mid := (init.drop 4).take 1) (post := init.drop 6) (ny := "__uniqtype__signed_char$$8") hw hl h ha
      (by decide +kernel) (by decide +kernel) (by decide +kernel)
      ⟨init.take 2, (init.drop 3).take 2, _, _, _, rfl, by decide +kernel⟩ (by decide +kernel)
  · exact complement (pre := init.take 2) (mid := (init.drop 3).take 3) (post := init.drop 7) (ny := "__uniqtype__unsigned_char$$8") hw hl h ha
      (by decide +kernel) (by decide +kernel) (by decide +kernel)
      ⟨init.take 3, (init.drop 4).take 2, _, _, _, rfl, by decide +kernel⟩ (by decide +kernel)
  · exact complement (pre := init.take 7) (mid := (init.drop 8).take 1) (post := init.drop 10) (ny := "__uniqtype__int$$64") hw hl h ha
      (by decide +kernel) (by decide +kernel) (by decide +kernel)
      ⟨init.take 8, [], _, _, _, rfl, by decide +kernel⟩ (by decide +kernel)
  · exact complement (pre := init.take 8) (mid := (init.drop 9).take 1) (post := init.drop 11) (ny := "__uniqtype__uint$$64") hw hl h ha
      (by decide +kernel) (by decide +kernel) (by decide +kernel)
      ⟨init.take 7, (init.drop 8).take 2, _, _, _, rfl, by decide +kernel⟩ (by decide +kernel)

/-! ## It does not go wrong -/

/-- The four base types that get complements, with their names. -/
def based : Slot → Option String
  | .schar => some "__uniqtype__signed_char$$8"
  | .uchar => some "__uniqtype__unsigned_char$$8"
  | .ulong => some "__uniqtype__uint$$64"
  | .long => some "__uniqtype__int$$64"
  | _ => none

/-- The object at `a` is a type with room for a complement. -/
def Roomy (s : St) (a : Nat) : Prop := ∃ t, s.heap a = some t ∧ t.rel ≠ []

/-- The program's own versions of the four base types have room for a complement. -/
def Usable (s : St) : Prop := ∀ v n a, based v = some n → s.dlsym n = some a → Roomy s a

/-- Checks that the steps look up a base type, under its name, before pairing it, and make it with room. -/
def ordered : List Op → List Slot → Bool
  | [], _ => true
  | .get v lk b _ _ rel :: os, done =>
    (match based v with
      | some n => decide (lk = n) && decide (b = n) && !rel.isEmpty
      | none => [Slot.schar, .uchar, .ulong, .long].all fun w => !decide (based w = some b)) && ordered os (v :: done)
  | .pair x _ :: os, done => decide (x ∈ done) && (based x).isSome && ordered os done
  | .only v _ :: os, done => !decide (v ∈ done) && !(based v).isSome && ordered os done

theorem defined_gen : ∀ (os : List Op) (done : List Slot) (s : St), WF s → ordered os done = true → Usable s →
    (∀ v, v ∈ done → ∃ a, s.env v = some a) → (∀ v n a, based v = some n → s.env v = some a → Roomy s a) → ∃ s', run os s = some s'
  | [], _, s, _, _, _, _, _ => ⟨s, rfl⟩
  | o :: os, done, s, hw, ho, hu, hd, hr => by
    rw [run]
    have later : ∀ {s1}, step s o = some s1 → ∀ a, Roomy s a → Roomy s1 a := by
      rintro s1 h a ⟨t, ht, hne⟩
      obtain ⟨t', ht', hl⟩ := (step_later hw h).2 a t ht
      refine ⟨t', ht', fun e => hne ?_⟩
      have := hl.room
      rw [e] at this
      exact List.eq_nil_of_length_eq_zero this.symm
    cases o with
    | get v lk b mo k rel =>
      rw [ordered, Bool.and_eq_true] at ho
      obtain ⟨ho1, ho2⟩ := ho
      cases hs : step s (.get v lk b mo k rel) with
      | none =>
        simp only [step] at hs
        split at hs <;> cases hs
      | some s1 =>
        refine defined_gen os (v :: done) s1 (step_later hw hs).1 ho2 ?_ ?_ ?_
        · intro w n a hwn hna
          rcases step_new_sym hs hna with h1 | h1
          · exact later hs a (hu w n a hwn h1)
          · rw [Op.binds, List.mem_singleton] at h1
            subst h1
            simp only [step] at hs
            cases hdl : s.dlsym lk with
            | some c =>
              rw [hdl] at hs; cases hs
              exact hu w n a hwn hna
            | none =>
              rw [hdl] at hs; cases hs
              cases hv : based v with
              | none =>
                rw [hv] at ho1
                exfalso
                simp only [List.all_cons, List.all_nil, Bool.and_true, Bool.and_eq_true, Bool.not_eq_true', decide_eq_false_iff_not] at ho1
                cases w <;> first | exact ho1.1 hwn | exact ho1.2.1 hwn | exact ho1.2.2.1 hwn | exact ho1.2.2.2 hwn | cases hwn
              | some n' =>
                rw [hv] at ho1
                simp only [Bool.and_eq_true, decide_eq_true_eq, Bool.not_eq_true'] at ho1
                obtain ⟨⟨rfl, rfl⟩, he⟩ := ho1
                simp only [St.dlsym, create, find_append] at hna
                have hnone : find s.syms _ = none := hdl
                rw [hnone] at hna
                simp only [find_last] at hna
                cases hna
                refine ⟨_, by simp [create, setHeap]; rfl, ?_⟩
                simp only [ne_eq, List.map_eq_nil_iff]
                intro e; rw [e] at he; cases he
        · intro w hw'
          rcases List.mem_cons.mp hw' with rfl | h1
          · simp only [step] at hs
            split at hs
            · rename_i a _; cases hs; exact ⟨a, by simp [setEnv]⟩
            · cases hs; exact ⟨s.next, by simp [create, setEnv]⟩
          · obtain ⟨a, ha⟩ := hd w h1
            simp only [step] at hs
            by_cases e : w = v
            · subst e
              split at hs
              · rename_i a _; cases hs; exact ⟨a, by simp [setEnv]⟩
              · cases hs; exact ⟨s.next, by simp [create, setEnv]⟩
            · split at hs
              · cases hs; exact ⟨a, by simp [setEnv, e, ha]⟩
              · cases hs; exact ⟨a, by simp [create, setEnv, e, ha]⟩
        · intro w n a hwn hwa
          have hs0 := hs
          simp only [step] at hs
          by_cases e : w = v
          · subst e
            rw [hwn] at ho1
            simp only [Bool.and_eq_true, decide_eq_true_eq, Bool.not_eq_true'] at ho1
            obtain ⟨⟨e1, e2⟩, he⟩ := ho1
            rw [e1, e2] at hs
            cases hdl : s.dlsym n with
            | some c =>
              rw [hdl] at hs; cases hs
              simp only [setEnv, if_pos] at hwa
              cases hwa
              exact hu w _ _ hwn hdl
            | none =>
              rw [hdl] at hs; cases hs
              simp only [create, setEnv, if_pos] at hwa
              cases hwa
              refine ⟨_, by simp [create, setHeap]; rfl, ?_⟩
              simp only [ne_eq, List.map_eq_nil_iff]
              intro e; rw [e] at he; cases he
          · have hwa' : s.env w = some a := by
              split at hs
              · cases hs; simpa [setEnv, e] using hwa
              · cases hs; simpa [create, setEnv, e] using hwa
            exact later hs0 a (hr w n a hwn hwa')
    | pair x y =>
      rw [ordered, Bool.and_eq_true, Bool.and_eq_true, decide_eq_true_eq] at ho
      obtain ⟨⟨ho1, ho2⟩, ho3⟩ := ho
      obtain ⟨a, ha⟩ := hd x ho1
      obtain ⟨n, hn⟩ := Option.isSome_iff_exists.mp ho2
      obtain ⟨t, ht, hne⟩ := hr x n a hn ha
      cases hs : step s (.pair x y) with
      | none =>
        simp only [step, ha, fill, ht] at hs
        split at hs
        · rename_i e; exact absurd e hne
        · split at hs <;> cases hs
      | some s1 =>
        have henv : s1.env = s.env ∧ s1.syms = s.syms := by
          simp only [step, ha, fill, ht] at hs
          split at hs
          · cases hs
          · split at hs <;> cases hs <;> exact ⟨rfl, rfl⟩
        refine defined_gen os done s1 (step_later hw hs).1 ho3 ?_ ?_ ?_
        · intro w n a hwn hna
          rw [St.dlsym, henv.2] at hna
          exact later hs a (hu w n a hwn hna)
        · intro w hw'; rw [henv.1]; exact hd w hw'
        · intro w n a hwn hwa
          rw [henv.1] at hwa
          exact later hs a (hr w n a hwn hwa)
    | only v m =>
      rw [ordered, Bool.and_eq_true, Bool.and_eq_true, Bool.not_eq_true', Bool.not_eq_true', decide_eq_false_iff_not] at ho
      obtain ⟨⟨ho0, ho1⟩, ho2⟩ := ho
      have hnb : based v = none := by cases hb : based v with
        | none => rfl
        | some _ => rw [hb] at ho1; cases ho1
      cases hs : step s (.only v m) with
      | none => cases hs
      | some s1 =>
        refine defined_gen os done s1 (step_later hw hs).1 ho2 ?_ ?_ ?_
        · intro w n a hwn hna
          exact later hs a (hu w n a hwn (by cases hs; exact hna))
        · intro w hw'
          obtain ⟨a, ha⟩ := hd w hw'
          have e : w ≠ v := by rintro rfl; exact ho0 hw'
          cases hs
          exact ⟨a, by simp [setEnv, e, ha]⟩
        · intro w n a hwn hwa
          have e : w ≠ v := by rintro rfl; rw [hnb] at hwn; cases hwn
          refine later hs a (hr w n a hwn ?_)
          cases hs
          simpa [setEnv, e] using hwa

/-- **C120**.  Start-up does not read or write outside the types: it comes to an end, whatever the program has bound, provided
the program's own character and 64-bit types have room for a complement. -/
theorem ends {s : St} (hw : WF s) (hu : Usable s) (he : ∀ v, s.env v = none) : ∃ s', run init s = some s' := by
  refine defined_gen init [] s hw (by decide +kernel) hu (fun v hv => by cases hv) ?_
  intro v n a _ h
  rw [he v] at h
  cases h

/-! ## Where it goes wrong -/

/-- A program with no types of its own. -/
def bare : St := ⟨[], fun _ => none, 0, fun _ => none⟩

/-- A program whose only type is its own `signed char`, at 7. -/
def own : St := ⟨[("__uniqtype__signed_char$$8", 7)], fun a => if a = 7 then some ⟨some 1, .base 6, [⟨none, 0⟩]⟩ else none, 8, fun _ => none⟩

/-- `run` on `init`, and then a look at what it did. -/
def after {α : Type} (s : St) (f : St → α) : Option α := (run init s).map f

-- the hypotheses are met by both programs
example : WF bare ∧ Low bare ∧ Usable bare :=
  ⟨fun _ _ => rfl, ⟨fun _ _ h => by simp [bare, St.dlsym, find] at h, fun _ _ h => by simp [bare] at h⟩,
    fun _ _ _ _ h => by simp [bare, St.dlsym, find] at h⟩

example : WF own ∧ Low own ∧ Usable own := by
  have key : ∀ n a, own.dlsym n = some a → a = 7 := by
    intro n a h
    simp only [own, St.dlsym, find] at h
    split at h <;> cases h
    rfl
  refine ⟨fun a h => ?_, ⟨fun n a h => ?_, fun _ _ h => by cases h⟩, fun v n a _ h => ?_⟩
  · simp only [own] at h ⊢
    rw [if_neg (by omega)]
  · have := key n a h
    simp only [own]; omega
  · rw [key n a h]
    exact ⟨⟨some 1, .base 6, [⟨none, 0⟩]⟩, rfl, by simp⟩

-- the program's `signed char` is kept, and given the new `unsigned char` as its complement; `char *` points to it
example : after own (fun s => (s.env .schar, s.env .uchar, s.heap 7)) = some (some 7, some 10, some ⟨some 1, .base 6, [⟨some 10, 0⟩]⟩) := by
  decide +kernel
example : after own (fun s => ((s.env .pschar).bind s.heap)) = some (some ⟨some 8, .address 1, [⟨some 7, 0⟩]⟩) := by decide +kernel
example : after bare (fun s => (s.env .uchar, (s.env .uchar).bind s.heap)) = some (some 3, some ⟨some 1, .base 8, [⟨some 2, 0⟩]⟩) := by
  decide +kernel

/-- **C119**, the exception.  The zero-length array of `char` is looked up under one name and bound under another: after
start-up, no object has the name that it is looked up by, and a second look-up would make a second one. -/
theorem arr0_fails : after bare (fun s => (s.env .arr0, s.dlsym "__uniqtype____ARR0_signed_char$$8")) = some (some 9, none) := by
  decide +kernel

/-- **C119**, the exception.  There is no `intptr_t` unless the program has one. -/
theorem intptr_fails : after bare (fun s => s.env .intptr) = some none := by decide +kernel

/-- **C120**, the exception.  The two members of the auxiliary vector's entry type are both at offset 0. -/
theorem auxv_fails : after bare (fun s => (s.env .auxv).bind s.heap) =
    some (some ⟨some 16, .composite 2, [⟨some 4, 0⟩, ⟨some 4, 0⟩]⟩) := by decide +kernel

/-- **C120**, the exception.  A pointer type made at start-up has no room for its ultimate pointee type, which is read when a
pointer to it is made. -/
theorem ultimate_fails : after bare (fun s => (s.env .ppschar).map (fun a => (s.heap a, ultimatePointee s a))) =
    some (some (some ⟨some 8, .address 2, [⟨some 6, 0⟩]⟩, none)) := by decide +kernel

end Liballocs.RtTypes
