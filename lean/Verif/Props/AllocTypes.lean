import Verif.Model.AllocTypes
/-!
# What the types of allocation sites need is declared
-/
namespace Liballocs.AllocTypes

/-! ## What is needed -/

/-- `void`, or a type that is neither a typedef nor qualified. -/
def Plain (I : Info) (t : Option Nat) : Prop := ∀ x, t = some x → I.concrete x = some x

/-- An element that is a member with a type defined inside of what it stands for, or with no type. -/
def Selfish (I : Info) (t : Option Nat) (r : Reason) : Prop := r = .member false ∧ ∀ x, t = some x → I.concrete x = I.parent x

/-- The types needed, and the elements that mention them: those of the sites, and what needed types are made of; static members make up nothing. -/
inductive Needed (I : Info) (sites : List (Option Nat)) : Option Nat → Reason → Prop
  | site {t : Option Nat} : t ∈ sites → Needed I sites t .start
  | kid {t : Nat} {r : Reason} {k : Option Nat × Reason} : Needed I sites (some t) r → k ∈ I.kids t → k.2 ≠ .member true → Needed I sites k.1 k.2

/-- What is come to first from an element: a plain type, through typedefs and qualifiers; or something that stops the tool. -/
inductive First (I : Info) : Option Nat → Reason → Option Nat → Prop
  | name {t : Option Nat} {r : Reason} : r ≠ .member true → Plain I t → First I t r (some (I.name t))
  | stop {t : Option Nat} {r : Reason} : Selfish I t r → First I t r none
  | through {t : Nat} {r : Reason} {k : Option Nat × Reason} {o : Option Nat} : r ≠ .member true → ¬ Plain I (some t) → k ∈ I.kids t → First I k.1 k.2 o →
      First I (some t) r o

/-- Types of the same name are made of the same. -/
def Same (I : Info) : Prop :=
  ∀ t t', Plain I t → Plain I t' → I.name t = I.name t' → ∀ o, (∃ k ∈ kidsOf I t, First I k.1 k.2 o) → ∃ k ∈ kidsOf I t', First I k.1 k.2 o

theorem Needed.notStatic {I : Info} {sites : List (Option Nat)} {t : Option Nat} {r : Reason} (h : Needed I sites t r) : r ≠ .member true := by
  cases h with
  | site _ => simp
  | kid _ _ h => exact h

theorem First.notStatic {I : Info} {t : Option Nat} {r : Reason} {o : Option Nat} (h : First I t r o) : r ≠ .member true := by
  cases h with
  | name h _ => exact h
  | stop h => rw [h.1]; simp
  | through h => exact h

/-! ## The walk -/

theorem isConcrete_iff {I : Info} {t : Option Nat} : isConcrete I t = true ↔ Plain I t := by
  cases t with
  | none => simp [isConcrete, Plain]
  | some x => simp [isConcrete, Plain]

theorem isConcrete_not {I : Info} {t : Option Nat} : isConcrete I t = false ↔ ¬ Plain I t := by
  rw [← isConcrete_iff]
  cases isConcrete I t <;> simp

theorem memberOk_iff {I : Info} {t : Option Nat} : memberOk I t = false ↔ ∀ x, t = some x → I.concrete x = I.parent x := by
  cases t with
  | none => simp [memberOk]
  | some x => simp [memberOk]

theorem not_plain {I : Info} {t : Option Nat} (h : ¬ Plain I t) : ∃ x, t = some x := by
  cases t with
  | none => exact absurd (by intro x hx; cases hx) h
  | some x => exact ⟨x, rfl⟩

/-- What the function passed to `walk_type` answers. -/
theorem visit_spec (I : Info) (seen : List Nat) (t : Option Nat) (r : Reason) :
    (r = .member true ∧ visit I seen t r = .ok (false, seen)) ∨
    (r ≠ .member true ∧ Selfish I t r ∧ visit I seen t r = .error .assertion) ∨
    (r ≠ .member true ∧ ¬ Selfish I t r ∧ ¬ Plain I t ∧ visit I seen t r = .ok (true, seen)) ∨
    (r ≠ .member true ∧ ¬ Selfish I t r ∧ Plain I t ∧ I.name t ∈ seen ∧ visit I seen t r = .ok (false, seen)) ∨
    (r ≠ .member true ∧ ¬ Selfish I t r ∧ Plain I t ∧ I.name t ∉ seen ∧ visit I seen t r = .ok (true, seen ++ [I.name t])) := by
  unfold visit
  by_cases h1 : r = .member true
  · exact Or.inl ⟨h1, if_pos h1⟩
  · rw [if_neg h1]
    by_cases h2 : r = .member false ∧ memberOk I t = false
    · rw [if_pos h2]
      exact Or.inr (Or.inl ⟨h1, ⟨h2.1, memberOk_iff.mp h2.2⟩, rfl⟩)
    · rw [if_neg h2]
      have h2' : ¬ Selfish I t r := fun h => h2 ⟨h.1, memberOk_iff.mpr h.2⟩
      by_cases h3 : isConcrete I t = false
      · rw [if_pos h3]
        exact Or.inr (Or.inr (Or.inl ⟨h1, h2', isConcrete_not.mp h3, rfl⟩))
      · rw [if_neg h3]
        have h3' : Plain I t := Classical.not_not.mp fun h => h3 (isConcrete_not.mpr h)
        by_cases h4 : I.name t ∈ seen
        · rw [if_pos h4]
          exact Or.inr (Or.inr (Or.inr (Or.inl ⟨h1, h2', h3', h4, rfl⟩)))
        · rw [if_neg h4]
          exact Or.inr (Or.inr (Or.inr (Or.inr ⟨h1, h2', h3', h4, rfl⟩)))

/-- What is first come to is a name in the list. -/
def In (s : List Nat) (o : Option Nat) : Prop := ∃ n ∈ s, o = some n

theorem In.mono {s s' : List Nat} (h : ∀ n ∈ s, n ∈ s') {o : Option Nat} : In s o → In s' o := fun ⟨n, hn, he⟩ => ⟨n, h n hn, he⟩

/-- What a walk from some elements does to the names: keeps them, without repetition; has the names first come to; and for each new name there is a
type of that name whose own are there too. -/
structure Did (I : Info) (ks : List (Option Nat × Reason)) (s s' : List Nat) : Prop where
  keeps : ∀ n ∈ s, n ∈ s'
  nodup : s.Nodup → s'.Nodup
  first : ∀ k ∈ ks, ∀ o, First I k.1 k.2 o → In s' o
  closed : ∀ n ∈ s', n ∉ s → ∃ t, Plain I t ∧ I.name t = n ∧ ∀ k ∈ kidsOf I t, ∀ o, First I k.1 k.2 o → In s' o

theorem steps_did {I : Info} {f : List Nat → Option Nat × Reason → Except Stop (List Nat)}
    (hf : ∀ s k s', f s k = .ok s' → Did I [k] s s') : ∀ (ks : List (Option Nat × Reason)) (s s' : List Nat), steps f s ks = .ok s' → Did I ks s s'
  | [], s, s', h => by
    injection h with h
    subst h
    exact ⟨fun _ h => h, fun h => h, by simp, fun n h h' => absurd h h'⟩
  | k :: ks, s, s', h => by
    unfold steps at h
    cases hk : f s k with
    | error e => rw [hk] at h; cases h
    | ok s1 =>
      rw [hk] at h
      dsimp only at h
      have d1 := hf _ _ _ hk
      have d2 := steps_did hf ks s1 s' h
      refine ⟨fun n hn => d2.keeps n (d1.keeps n hn), fun hn => d2.nodup (d1.nodup hn), ?_, ?_⟩
      · intro j hj o ho
        rcases List.mem_cons.mp hj with rfl | hj
        · exact (d1.first j (by simp) o ho).mono d2.keeps
        · exact d2.first j hj o ho
      · intro n hn hn'
        by_cases h1 : n ∈ s1
        · obtain ⟨t, a1, a2, a3⟩ := d1.closed n h1 hn'
          exact ⟨t, a1, a2, fun k hk o ho => (a3 k hk o ho).mono d2.keeps⟩
        · exact d2.closed n hn h1

theorem walk_did {I : Info} : ∀ (n : Nat) (s : List Nat) (k : Option Nat × Reason) (s' : List Nat), walk I n s k = .ok s' → Did I [k] s s'
  | 0, s, k, s', h => by cases h
  | n + 1, s, k, s', h => by
    obtain ⟨t, r⟩ := k
    unfold walk at h
    dsimp only at h
    rcases visit_spec I s t r with ⟨h1, hv⟩ | ⟨h1, h2, hv⟩ | ⟨h1, h2, h3, hv⟩ | ⟨h1, h2, h3, h4, hv⟩ | ⟨h1, h2, h3, h4, hv⟩ <;> rw [hv] at h <;> dsimp only at h
    · injection h with h
      subst h
      refine ⟨fun _ h => h, fun h => h, ?_, fun n h h' => absurd h h'⟩
      intro k hk o ho
      simp at hk
      subst hk
      cases ho with
      | name h => exact absurd h1 h
      | stop h => rw [h1] at h; exact absurd h.1 (by simp)
      | through h => exact absurd h1 h
    · cases h
    · have d := steps_did (walk_did n) _ _ _ h
      obtain ⟨x, rfl⟩ := not_plain h3
      refine ⟨d.keeps, d.nodup, ?_, d.closed⟩
      intro k hk o ho
      simp at hk
      subst hk
      cases ho with
      | name _ hp => exact absurd hp h3
      | stop h => exact absurd h h2
      | through _ _ hk hf => exact d.first _ hk o hf
    · injection h with h
      subst h
      refine ⟨fun _ h => h, fun h => h, ?_, fun n h h' => absurd h h'⟩
      intro k hk o ho
      simp at hk
      subst hk
      cases ho with
      | name _ _ => exact ⟨_, h4, rfl⟩
      | stop h => exact absurd h h2
      | through _ hp => exact absurd h3 hp
    · have d := steps_did (walk_did n) _ _ _ h
      have hin : I.name t ∈ s' := d.keeps _ (by simp)
      refine ⟨fun n hn => d.keeps n (by simp [hn]), fun hs => d.nodup ?_, ?_, ?_⟩
      · rw [List.nodup_append]
        refine ⟨hs, by simp, ?_⟩
        intro a ha b hb hab
        simp at hb
        subst hb hab
        exact h4 ha
      · intro k hk o ho
        simp at hk
        subst hk
        cases ho with
        | name _ _ => exact ⟨_, hin, rfl⟩
        | stop h => exact absurd h h2
        | through _ hp => exact absurd h3 hp
      · intro m hm hm'
        by_cases he : m = I.name t
        · subst he
          exact ⟨t, h3, rfl, fun k hk o ho => d.first k hk o ho⟩
        · exact d.closed m hm (by simp [hm', he])

/-- Names come from types that are needed. -/
theorem steps_sound {P : Nat → Prop} {Q : Option Nat × Reason → Prop} {f : List Nat → Option Nat × Reason → Except Stop (List Nat)}
    (hf : ∀ s k s', f s k = .ok s' → Q k → (∀ n ∈ s, P n) → ∀ n ∈ s', P n) :
    ∀ (ks : List (Option Nat × Reason)) (s s' : List Nat), steps f s ks = .ok s' → (∀ k ∈ ks, Q k) → (∀ n ∈ s, P n) → ∀ n ∈ s', P n
  | [], s, s', h, _, hs => by injection h with h; subst h; exact hs
  | k :: ks, s, s', h, hq, hs => by
    unfold steps at h
    cases hk : f s k with
    | error e => rw [hk] at h; cases h
    | ok s1 =>
      rw [hk] at h
      exact steps_sound hf ks s1 s' h (fun j hj => hq j (List.mem_cons_of_mem _ hj)) (hf _ _ _ hk (hq k List.mem_cons_self) hs)

theorem walk_sound {I : Info} {sites : List (Option Nat)} : ∀ (n : Nat) (s : List Nat) (k : Option Nat × Reason) (s' : List Nat), walk I n s k = .ok s' →
    (k.2 ≠ .member true → Needed I sites k.1 k.2) → (∀ n ∈ s, ∃ t r, Needed I sites t r ∧ Plain I t ∧ I.name t = n) →
    ∀ n ∈ s', ∃ t r, Needed I sites t r ∧ Plain I t ∧ I.name t = n
  | 0, s, k, s', h, _, _ => by cases h
  | n + 1, s, k, s', h, hq, hs => by
    obtain ⟨t, r⟩ := k
    unfold walk at h
    dsimp only at h hq
    have hkids : r ≠ .member true → ∀ k ∈ kidsOf I t, k.2 ≠ .member true → Needed I sites k.1 k.2 := by
      intro h1 k hk hk2
      cases t with
      | none => cases hk
      | some x => exact .kid (hq h1) hk hk2
    rcases visit_spec I s t r with ⟨h1, hv⟩ | ⟨h1, h2, hv⟩ | ⟨h1, h2, h3, hv⟩ | ⟨h1, h2, h3, h4, hv⟩ | ⟨h1, h2, h3, h4, hv⟩ <;> rw [hv] at h <;> dsimp only at h
    · injection h with h; subst h; exact hs
    · cases h
    · exact steps_sound (walk_sound n) _ _ _ h (hkids h1) hs
    · injection h with h; subst h; exact hs
    · refine steps_sound (walk_sound n) _ _ _ h (hkids h1) ?_
      intro m hm
      rcases List.mem_append.mp hm with hm | hm
      · exact hs m hm
      · simp at hm
        exact ⟨t, r, hq h1, h3, hm.symm⟩

theorem names_did {I : Info} {n : Nat} {sites : List (Option Nat)} {ns : List Nat} (h : names I n sites = .ok ns) :
    Did I (sites.map fun t => (t, .start)) [] ns := steps_did (walk_did n) _ _ _ h

/-- All that is first come to from what is needed is in the list. -/
theorem first_in {I : Info} (hs : Same I) {n : Nat} {sites : List (Option Nat)} {ns : List Nat} (h : names I n sites = .ok ns) {t : Option Nat} {r : Reason}
    (hn : Needed I sites t r) : ∀ o, First I t r o → In ns o := by
  have d := names_did h
  induction hn with
  | site ht => exact d.first _ (List.mem_map.mpr ⟨_, ht, rfl⟩)
  | @kid x r k hp hk hk2 ih =>
    intro o ho
    by_cases hx : Plain I (some x)
    · obtain ⟨m, hm, he⟩ := ih _ (.name hp.notStatic hx)
      injection he with he
      obtain ⟨t', a1, a2, a3⟩ := d.closed m hm (by simp)
      obtain ⟨k', hk', hf⟩ := hs (some x) t' hx a1 (by rw [a2, he]) o ⟨k, hk, ho⟩
      exact a3 k' hk' o hf
    · exact ih _ (.through hp.notStatic hx hk ho)

/-! ## The properties -/

/-- **C169 (partial).** When the walk is done, the names declared, each once, are just those of the plain types that are needed. Partial: it may stop. -/
theorem names_partial {I : Info} (hs : Same I) {n : Nat} {sites : List (Option Nat)} {ns : List Nat} (h : names I n sites = .ok ns) :
    ns.Nodup ∧ ∀ m, m ∈ ns ↔ ∃ t r, Needed I sites t r ∧ Plain I t ∧ I.name t = m := by
  refine ⟨(names_did h).nodup List.nodup_nil, fun m => ⟨?_, ?_⟩⟩
  · refine steps_sound (Q := fun k => k.2 ≠ .member true → Needed I sites k.1 k.2) (walk_sound n) _ _ _ h ?_ (by simp) m
    intro k hk _
    obtain ⟨t, ht, rfl⟩ := List.mem_map.mp hk
    exact .site ht
  · rintro ⟨t, r, h1, h2, rfl⟩
    obtain ⟨m, hm, he⟩ := first_in hs h h1 _ (.name h1.notStatic h2)
    injection he with he
    rw [he]
    exact hm

/-- **C169 fails** where a type that is needed has a member whose type is named by a typedef inside of what it stands for, as in a class that has a typedef
for itself; the tool stops. -/
theorem self_aborts {I : Info} (hs : Same I) {sites : List (Option Nat)} {t : Option Nat} {r : Reason} (hn : Needed I sites t r) (hb : Selfish I t r)
    (n : Nat) (ns : List Nat) : names I n sites ≠ .ok ns := by
  intro h
  obtain ⟨m, _, he⟩ := first_in hs h hn none (.stop hb)
  cases he

/-! ## It ends -/

/-- How many names of a list are not there yet. -/
def left (all s : List Nat) : Nat := (all.filter fun n => decide (n ∉ s)).length

theorem left_le {s s' : List Nat} (h : ∀ n ∈ s, n ∈ s') : ∀ all : List Nat, left all s' ≤ left all s
  | [] => by simp [left]
  | a :: all => by
    have ih := left_le h all
    unfold left at *
    by_cases h1 : a ∈ s
    · have := h a h1
      simp only [List.filter_cons, h1, this, not_true, decide_false] at *
      exact ih
    · by_cases h2 : a ∈ s' <;> simp [h1, h2] at * <;> omega

theorem left_lt {s : List Nat} {m : Nat} (hm : m ∉ s) : ∀ {all : List Nat}, m ∈ all → left all (s ++ [m]) < left all s
  | a :: all, h => by
    by_cases he : m = a
    · subst he
      have := left_le (s := s) (s' := s ++ [m]) (by intro n hn; simp [hn]) all
      unfold left at *
      simp [hm] at *
      omega
    · have ih := left_lt hm (all := all) (by simpa [he] using h)
      have he' : a ≠ m := fun h => he h.symm
      unfold left at *
      by_cases h1 : a ∈ s <;> simp [h1, he'] at * <;> omega

/-- Nothing needed stops the tool; names are among those of a list; and typedefs and qualifiers lead to a plain type in so many steps. -/
structure Sound (I : Info) (sites : List (Option Nat)) (all : List Nat) (rank : Option Nat → Nat) (deep : Nat) : Prop where
  free : ∀ t r, Needed I sites t r → ¬ Selfish I t r
  among : ∀ t r, Needed I sites t r → Plain I t → I.name t ∈ all
  most : ∀ t, rank t ≤ deep
  down : ∀ t, ¬ Plain I (some t) → ∀ k ∈ I.kids t, rank k.1 < rank (some t)

theorem steps_total {I : Info} {sites : List (Option Nat)} {n : Nat} {all : List Nat} {b : Nat} {ks0 : List (Option Nat × Reason)}
    (hw : ∀ s k, (k.2 ≠ .member true → Needed I sites k.1 k.2) → left all s ≤ b → k ∈ ks0 → ∃ s', walk I n s k = .ok s') :
    ∀ (ks : List (Option Nat × Reason)) (s : List Nat), (∀ k ∈ ks, (k.2 ≠ .member true → Needed I sites k.1 k.2) ∧ k ∈ ks0) → left all s ≤ b →
    ∃ s', steps (walk I n) s ks = .ok s'
  | [], s, _, _ => ⟨s, rfl⟩
  | k :: ks, s, hq, hb => by
    obtain ⟨s1, h1⟩ := hw s k (hq k List.mem_cons_self).1 hb (hq k List.mem_cons_self).2
    have d := walk_did n _ _ _ h1
    obtain ⟨s2, h2⟩ := steps_total hw ks s1 (fun j hj => hq j (List.mem_cons_of_mem _ hj)) (Nat.le_trans (left_le d.keeps all) hb)
    refine ⟨s2, ?_⟩
    unfold steps
    rw [h1]
    exact h2

theorem walk_total {I : Info} {sites : List (Option Nat)} {all : List Nat} {rank : Option Nat → Nat} {deep : Nat} (hw : Sound I sites all rank deep) :
    ∀ (n : Nat) (s : List Nat) (k : Option Nat × Reason), (k.2 ≠ .member true → Needed I sites k.1 k.2) → left all s * (deep + 1) + rank k.1 < n →
    ∃ s', walk I n s k = .ok s'
  | 0, s, k, _, h => by omega
  | n + 1, s, (t, r), hq, hn => by
    dsimp only at hq hn
    have hkids : r ≠ .member true → ∀ k ∈ kidsOf I t, k.2 ≠ .member true → Needed I sites k.1 k.2 := by
      intro h1 k hk hk2
      cases t with
      | none => cases hk
      | some x => exact .kid (hq h1) hk hk2
    unfold walk
    dsimp only
    rcases visit_spec I s t r with ⟨h1, hv⟩ | ⟨h1, h2, hv⟩ | ⟨h1, h2, h3, hv⟩ | ⟨h1, h2, h3, h4, hv⟩ | ⟨h1, h2, h3, h4, hv⟩ <;> rw [hv] <;> dsimp only
    · exact ⟨_, rfl⟩
    · exact absurd h2 (hw.free t r (hq h1))
    · obtain ⟨x, rfl⟩ := not_plain h3
      refine steps_total (ks0 := kidsOf I (some x)) (all := all) (b := left all s) (fun s' k hk hb hin => walk_total hw n s' k hk ?_) _ _
        (fun k hk => ⟨hkids h1 k hk, hk⟩) (Nat.le_refl _)
      have := hw.down x h3 k hin
      have := Nat.mul_le_mul_right (deep + 1) hb
      omega
    · exact ⟨_, rfl⟩
    · have hlt := left_lt h4 (hw.among t r (hq h1) h3)
      refine steps_total (ks0 := kidsOf I t) (all := all) (b := left all (s ++ [I.name t])) (fun s' k hk hb hin => walk_total hw n s' k hk ?_) _ _
        (fun k hk => ⟨hkids h1 k hk, hk⟩) (Nat.le_refl _)
      have h5 := hw.most k.1
      have h6 : left all s' * (deep + 1) + (deep + 1) ≤ left all s * (deep + 1) := by
        rw [← Nat.succ_mul]
        exact Nat.mul_le_mul_right _ (by omega)
      omega

/-- **C169 (partial).** It ends, for types that are made of each other in whatever way; the depth of the stack is at most the number of names times the
longest chain of typedefs. -/
theorem ends_partial {I : Info} {sites : List (Option Nat)} {all : List Nat} {rank : Option Nat → Nat} {deep : Nat} (hw : Sound I sites all rank deep)
    {n : Nat} (hn : (all.length + 1) * (deep + 1) ≤ n) : ∃ ns, names I n sites = .ok ns := by
  refine steps_total (sites := sites) (ks0 := sites.map fun t => (t, .start)) (all := all) (b := all.length) (fun s k hk hb hin => walk_total hw n s k hk ?_) _ _ ?_ ?_
  · have h1 := hw.most k.1
    have h2 := Nat.mul_le_mul_right (deep + 1) hb
    rw [Nat.succ_mul] at hn
    omega
  · intro k hk
    refine ⟨fun _ => ?_, hk⟩
    obtain ⟨t, ht, rfl⟩ := List.mem_map.mp hk
    exact .site ht
  · exact List.length_filter_le _ _

/-- What a definition of a type mentions: itself, and what it is made of, without typedefs and qualifiers. -/
def Mentions (I : Info) (t m : Nat) : Prop := m = I.name (some t) ∨ ∃ k ∈ I.kids t, First I k.1 k.2 (some m)

/-- **C169 (partial).** In the output every definition comes after declarations of all that it mentions. Partial: the types created are needed by the sites. -/
theorem output_partial {I : Info} (hs : Same I) {n : Nat} {sites : List (Option Nat)} {created : List Nat} {ls : List Line}
    (h : output I n sites created = .ok ls) (hc : ∀ t ∈ created, Plain I (some t) ∧ ∃ r, Needed I sites (some t) r) {i t m : Nat}
    (hi : ls[i]? = some (.define t)) (hm : Mentions I t m) : ∃ j, j < i ∧ ls[j]? = some (.declare m) := by
  unfold output at h
  cases hn : names I n sites with
  | error e => rw [hn] at h; cases h
  | ok ns =>
    rw [hn] at h
    injection h with h
    subst h
    have hge : ns.length ≤ i := by
      refine Nat.le_of_not_lt fun hlt => ?_
      rw [List.getElem?_append_left (by simpa using hlt), List.getElem?_map] at hi
      cases hx : ns[i]? with
      | none => rw [hx] at hi; cases hi
      | some x => rw [hx] at hi; cases hi
    have hcr : t ∈ created := by
      have := List.mem_of_getElem? hi
      simpa using this
    obtain ⟨hp, r, hr⟩ := hc t hcr
    have hmem : m ∈ ns := by
      rcases hm with rfl | ⟨k, hk, hf⟩
      · obtain ⟨_, h1, h2⟩ := first_in hs hn hr _ (.name hr.notStatic hp)
        injection h2 with h2
        rw [h2]; exact h1
      · obtain ⟨_, h1, h2⟩ := first_in hs hn (.kid hr hk hf.notStatic) _ hf
        injection h2 with h2
        rw [h2]; exact h1
    obtain ⟨j, hj, hj'⟩ := List.getElem_of_mem hmem
    refine ⟨j, by omega, ?_⟩
    rw [List.getElem?_append_left (by simpa using hj), List.getElem?_map, List.getElem?_eq_getElem hj, hj']
    rfl

/-! ## Cases -/

/-- A list cell: 0 is the structure, with a member of type 1 (a pointer to 2, a typedef for 0) and one of type 3 (`int`); 4 is a class that has in it a
typedef 5 for itself, and 6 a structure with a member of type 5. -/
def ex : Info where
  kids := fun
    | 0 => [(some 1, .member false), (some 3, .member false)]
    | 1 => [(some 2, .other)]
    | 2 => [(some 0, .other)]
    | 4 => [(some 3, .member false), (some 6, .member true)]
    | 5 => [(some 4, .other)]
    | 6 => [(some 5, .member false)]
    | _ => []
  concrete := fun t => if t = 2 then some 0 else if t = 5 then some 4 else some t
  parent := fun t => if t = 5 then some 4 else none
  name := fun
    | none => 1000
    | some t => 10 * t + 1

/-- Types that refer to each other. -/
theorem case_cell : names ex 9 [some 2, none] = .ok [1, 11, 31, 1000] := by rfl

/-- A class with a typedef for itself is no trouble by itself, nor through its static member. -/
theorem case_class : names ex 9 [some 5] = .ok [41, 31] := by rfl

/-- **C169 fails**: a structure that has a member of the class, by way of that typedef. -/
theorem case_aborts : names ex 9 [some 6] = .error .assertion := by rfl

theorem plain_ex (t : Nat) : Plain ex (some t) ↔ t ≠ 2 ∧ t ≠ 5 := by
  constructor
  · intro h
    have h' := h t rfl
    refine ⟨?_, ?_⟩ <;> rintro rfl <;> simp [ex] at h'
  · rintro ⟨h1, h2⟩ x hx
    injection hx with hx
    subst hx
    simp [ex, h1, h2]

/-- The hypotheses of the properties hold there: names are of just one type. -/
theorem case_same : Same ex := by
  intro t t' _ _ h o ho
  have : t = t' := by
    cases t <;> cases t' <;> simp only [ex] at h
    · rfl
    · rename_i x; omega
    · rename_i x; omega
    · congr 1; omega
  rw [← this]
  exact ho

/-- What is needed for the list cell. -/
theorem needed_ex {t : Option Nat} {r : Reason} (h : Needed ex [some 2, none] t r) : t = none ∧ r = .start ∨ ∃ x, t = some x ∧ x ≤ 3 := by
  induction h with
  | site h =>
    simp at h
    rcases h with rfl | rfl
    · exact Or.inr ⟨2, rfl, by omega⟩
    · exact Or.inl ⟨rfl, rfl⟩
  | @kid t r k hp hk _ ih =>
    rcases ih with ⟨h, _⟩ | ⟨x, h, hx⟩
    · cases h
    · injection h with h
      subst h
      match t, hx with
      | 0, _ => simp [ex] at hk; rcases hk with rfl | rfl <;> exact Or.inr ⟨_, rfl, by omega⟩
      | 1, _ => simp [ex] at hk; subst hk; exact Or.inr ⟨_, rfl, by omega⟩
      | 2, _ => simp [ex] at hk; subst hk; exact Or.inr ⟨_, rfl, by omega⟩
      | 3, _ => simp [ex] at hk

theorem case_sound : Sound ex [some 2, none] [1, 11, 31, 1000] (fun t => if t = some 2 ∨ t = some 5 then 1 else 0) 1 := by
  refine ⟨?_, ?_, ?_, ?_⟩
  · rintro t r h ⟨h1, h2⟩
    rcases needed_ex h with ⟨_, h3⟩ | ⟨x, rfl, hx⟩
    · rw [h3] at h1; cases h1
    · have := h2 x rfl
      match x, hx with
      | 0, _ => simp [ex] at this
      | 1, _ => simp [ex] at this
      | 2, _ => simp [ex] at this
      | 3, _ => simp [ex] at this
  · intro t r h hp
    rcases needed_ex h with ⟨rfl, _⟩ | ⟨x, rfl, hx⟩
    · simp [ex]
    · have := (plain_ex x).mp hp
      match x, hx with
      | 0, _ => simp [ex]
      | 1, _ => simp [ex]
      | 2, _ => omega
      | 3, _ => simp [ex]
  · intro t
    split <;> omega
  · intro t ht k hk
    rw [plain_ex] at ht
    by_cases h2 : t = 2
    · subst h2; simp [ex] at hk; subst hk; simp
    · have h5 : t = 5 := Classical.not_not.mp fun h => ht ⟨h2, h⟩
      subst h5; simp [ex] at hk; subst hk; simp

end Liballocs.AllocTypes
