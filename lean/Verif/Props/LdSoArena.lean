import Verif.Model.LdSoArena
import Verif.Props.FileLoad
import Verif.Props.PageIndexFails
/-!
# C102 Every chunk of the dynamic linker's malloc lies in an arena of it
-/
namespace Liballocs.LdSoArena

open PageIndex FileLoad

/-- A big allocation is an arena of the linker's malloc. -/
structure IsArena (s : State) (index b : Nat) : Prop where
  live : Live s b
  sub : s.sub b = ldsoId
  priv : s.subPriv b = index

/-- The mapping of an address. -/
structure InMapping (s : State) (m addr : Nat) : Prop where
  live : Live s m
  top : s.par m = 0
  alloc : s.alloc m = mmapId
  has : Has s m addr

/-- Addresses the linker's malloc may return: in an arena there is, in an anonymous mapping with nothing in it, or after the only file of a mapping, with
nothing else there. -/
inductive Fit (c : Config) (s : State) (named : Nat → Bool) (index addr : Nat) : Prop
  | old (m x : Nat) : InMapping s m addr → deepest c s addr = some x → IsArena s index x → Fit c s named index addr
  | anon (m : Nat) : InMapping s m addr → named (s.priv m) = false → (∀ d, Live s d → s.par d ≠ m) → s.sub m ≠ ldsoId → Fit c s named index addr
  | file (m f : Nat) : InMapping s m addr → named (s.priv m) = true → Live s f → s.par f = m → s.alloc f = fileId → s.fin f ≤ addr →
      (∀ d, Live s d → s.par d = m → d ≠ f → s.alloc d ≠ fileId ∧ s.fin d ≤ s.beg f) → s.sub m ≠ ldsoId → Fit c s named index addr

/-- Where an arena goes: all of an anonymous mapping, or from the end of the file to the end of the mapping. -/
def Place (s : State) (named : Nat → Bool) (m lo hi : Nat) : Prop :=
  hi = s.fin m ∧ ((named (s.priv m) = false ∧ lo = s.beg m) ∨ (named (s.priv m) = true ∧ ∃ f, Live s f ∧ s.par f = m ∧ s.alloc f = fileId ∧ s.fin f = lo))

/-- What a call may do. -/
structure Grown (c : Config) (s s' : State) (named : Nat → Bool) (index m lo hi b : Nat) : Prop where
  fresh : ¬ Live s b
  arena : IsArena s' index b
  beg : s'.beg b = lo
  fin : s'.fin b = hi
  par : s'.par b = m
  alloc : s'.alloc b = brkId
  place : Place s named m lo hi
  kept : ∀ n, Live s n → Kept s s' n
  live : ∀ n, Live s' n ↔ Live s n ∨ n = b
  inside : ∀ a, lo ≤ a → a < hi → deepest c s' a = some b
  outside : ∀ a, ¬ (lo ≤ a ∧ a < hi) → deepest c s' a = deepest c s a

theorem claim_spec {c : Config} {align : Nat → Nat} {s : State} (hr : Reach c align s) {b index : Nat} (hb : Live s b) :
    Reach c align (claim s b index) ∧ ∀ a, deepest c (claim s b index) a = deepest c s a := by
  have h1 : Reach c align (claim s b index) := by
    refine Reach.step (op := .setSub b ldsoId index (s.subPrivFree b)) hr hb ?_
    simp only [apply, claim]
    rw [show upd s.subPrivFree b (s.subPrivFree b) = s.subPrivFree from by funext j; simp [upd]; intro e; rw [e]]
  refine ⟨h1, ?_⟩
  intro a
  obtain ⟨r, e, hd, _⟩ := lookup_deepest_partial hr a
  obtain ⟨_, kids, rank, h⟩ := reach_good h1
  rw [e, h.deepest_iff]
  have hanc : ∀ x y, Anc s x y → Anc (claim s b index) x y := by
    intro x y hxy
    induction hxy with
    | refl => exact Anc.refl
    | step h2 _ ih => exact Anc.step h2 ih
  rcases hd with ⟨h0, h2⟩ | ⟨h2, h3, h4⟩
  · exact Or.inl ⟨h0, h2⟩
  · exact Or.inr ⟨h2, h3, fun n hn hna => hanc _ _ (h4 n hn hna)⟩

/-- Making an arena. -/
theorem arena_spec {c : Config} {align : Nat → Nat} {s : State} (hr : Reach c align s) {named : Nat → Bool} {index m lo size : Nat}
    (hm : Live s m) (hlo : s.beg m ≤ lo) (hsz : 0 < size) (hfin : lo + size = s.fin m) (hroom : Room c s 1)
    (hkids : ∀ d, Live s d → s.par d = m → s.fin d ≤ lo) (hp : Place s named m lo (lo + size)) :
    ∃ s' b, arena c s index lo size m = some (s', b) ∧ Reach c align s' ∧ Grown c s s' named index m lo (lo + size) b := by
  obtain ⟨_, kids, rank, h⟩ := reach_good hr
  have hm0 := live_ne_zero hr hm
  have hb0 := hm.1
  have hsmall := h.small m hm
  have ho : NewOk c s lo size m := by
    refine ⟨by omega, hsz, by omega, Room.some hroom, fun _ => ⟨hm, by omega, by omega, ?_⟩, fun e => absurd e hm0⟩
    intro d hd hdp
    exact Or.inl (hkids d hd hdp)
  obtain ⟨s1, b, q, e, hr1, hb, hq, _, ha, hlive, hl1, hl2⟩ := create_correct (m := ⟨brkId, 0, 0, 0, 0, 0⟩) hr ho
  obtain rfl := hq hm0
  have hbl : Live s1 b := (hlive b).mpr (Or.inr rfl)
  obtain ⟨hr2, hd2⟩ := claim_spec (index := index) hr1 hbl
  refine ⟨claim s1 b index, b, by rw [arena, e]; rfl, hr2, ?_⟩
  constructor
  · exact hb
  · exact ⟨hbl, upd_same _ _ _, upd_same _ _ _⟩
  · show s1.beg b = _; rw [ha.beg, upd_same]
  · show s1.fin b = _; rw [ha.fin, upd_same]
  · show s1.par b = _; rw [ha.par, upd_same]
  · show s1.alloc b = _; rw [ha.alloc, upd_same]
  · exact hp
  · intro n hn
    have hne : n ≠ b := fun e => hb (e ▸ hn)
    refine ⟨(hlive n).mpr (Or.inl hn), ?_, ?_, ?_, ?_, ?_, ?_, ?_, ?_, ?_⟩
    · show s1.beg n = _; rw [ha.beg, upd_ne hne]
    · show s1.fin n = _; rw [ha.fin, upd_ne hne]
    · show s1.par n = _; rw [ha.par, upd_ne hne]
    · show s1.alloc n = _; rw [ha.alloc, upd_ne hne]
    · show upd s1.sub b ldsoId n = _; rw [upd_ne hne, ha.sub, upd_ne hne]
    · show s1.priv n = _; rw [ha.priv, upd_ne hne]
    · show s1.privFree n = _; rw [ha.privFree, upd_ne hne]
    · show upd s1.subPriv b index n = _; rw [upd_ne hne, ha.subPriv, upd_ne hne]
    · show s1.subPrivFree n = _; rw [ha.subPrivFree, upd_ne hne]
  · exact hlive
  · intro a h1 h2
    rw [hd2]; exact hl1 a h1 h2
  · intro a h1
    rw [hd2]; exact hl2 a h1

/-- The loop finds the file. -/
theorem files_spec {c : Config} {s : State} {index addr f m : Nat} (hf : s.alloc f = fileId) (hfa : s.fin f ≤ addr) (hp : s.par f = m)
    (hend : s.fin f < s.fin m) :
    ∀ (l : List Nat) (fuel p : Nat), Seg s.next s.prev p l 0 → 0 ∉ l → f ∈ l → l.length < fuel →
      (∀ d ∈ l, d ≠ f → s.alloc d ≠ fileId ∧ s.fin d ≤ addr) →
      files c s index addr fuel (hd l 0) = arena c s index (s.fin f) (s.fin m - s.fin f) m
  | [], _, _, _, _, h, _, _ => by simp at h
  | x :: l, 0, _, _, _, _, h, _ => by simp at h
  | x :: l, fuel + 1, p, hs, h0, hm, hlen, hd' => by
    show files c s index addr (fuel + 1) x = _
    rw [files]
    have hx0 : x ≠ 0 := fun e => h0 (e ▸ List.mem_cons_self)
    rw [if_neg hx0]
    obtain ⟨_, hs2, hs3⟩ := hs
    by_cases hxf : x = f
    · subst hxf
      have : spans s x addr = false := by simp [spans]; omega
      rw [this]
      simp [hf, assertIf, hfa, hp, hend]
    · obtain ⟨h1, h2⟩ := hd' x List.mem_cons_self hxf
      have : spans s x addr = false := by simp [spans]; omega
      rw [this, if_neg h1]
      simp only [Bool.false_eq_true, if_false]
      rw [hs2]
      refine files_spec hf hfa hp hend l fuel x hs3 (fun h => h0 (List.mem_cons_of_mem _ h)) ?_ (by simp at hlen; omega)
        (fun d hd => hd' d (List.mem_cons_of_mem _ hd))
      rcases List.mem_cons.mp hm with h | h
      · exact absurd h.symm hxf
      · exact h

theorem InMapping.found {c : Config} {align : Nat → Nat} {s : State} (hr : Reach c align s) {m addr : Nat} (h : InMapping s m addr) :
    fromRoot c s addr mmapId false = some m := by
  obtain ⟨r, e, h1⟩ := (lookup_by_allocator hr addr mmapId (by decide)).1
  rcases h1 with ⟨_, h2⟩ | ⟨_, _, _, h5⟩
  · exact absurd h.alloc (h2 m h.live h.has)
  · have := h5 m h.live h.has h.alloc
    cases this with
    | refl => exact e
    | step h6 _ => exact absurd h.top h6

theorem InMapping.anc {c : Config} {align : Nat → Nat} {s : State} (hr : Reach c align s) {m addr : Nat} (h : InMapping s m addr) {x : Nat}
    (hx : Live s x) (hxa : Has s x addr) : Anc s m x := by
  obtain ⟨_, kids, rank, hi⟩ := reach_good hr
  rcases hi.laminar h.live hx h.has hxa with h3 | h3
  · exact h3
  · cases h3 with
    | refl => exact Anc.refl
    | step h4 _ => exact absurd h.top h4

theorem under_spec {c : Config} {align : Nat → Nat} {s : State} (hr : Reach c align s) {m addr : Nat} (h : InMapping s m addr) :
    ∃ r, findUnder c s addr ldsoId true (c.nb + 1) m = some r ∧
      ((r = 0 ∧ ∀ x, Live s x → Has s x addr → s.sub x ≠ ldsoId) ∨ (Live s r ∧ Has s r addr ∧ s.sub r = ldsoId)) := by
  obtain ⟨_, kids, rank, hi⟩ := reach_good hr
  obtain ⟨r, e, h2⟩ := hi.findUnder_spec addr ldsoId true (c.nb + 1) m _ h.live h.has (Path.top (n := m)) (by simp; omega)
  refine ⟨r, e, ?_⟩
  rcases h2 with ⟨rfl, h3⟩ | ⟨h3, h4, h5, h6, _⟩
  · exact Or.inl ⟨rfl, fun x hx hxa => h3 x hx hxa (h.anc hr hx hxa)⟩
  · exact Or.inr ⟨h3, h4, h6⟩

/-- Where no child has the address, only the mapping has. -/
theorem only {c : Config} {align : Nat → Nat} {s : State} (hr : Reach c align s) {m addr : Nat} (h : InMapping s m addr)
    (hk : ∀ d, Live s d → s.par d = m → ¬ Has s d addr) {x : Nat} (hx : Live s x) (hxa : Has s x addr) : x = m := by
  obtain ⟨_, kids, rank, hi⟩ := reach_good hr
  have key : ∀ {k}, Anc s m k → Live s k → k ≠ m → ∃ d, Live s d ∧ s.par d = m ∧ Anc s d k := by
    intro k hk
    induction hk with
    | refl => intro _ hne; exact absurd rfl hne
    | @step k h4 h5 ih =>
      intro hl hne
      by_cases h6 : s.par k = m
      · exact ⟨k, hl, h6, Anc.refl⟩
      · obtain ⟨d, hd1, hd2, hd3⟩ := ih (hi.parLive k hl h4) h6
        exact ⟨d, hd1, hd2, Anc.step h4 hd3⟩
  by_cases hne : x = m
  · exact hne
  · obtain ⟨d, hd1, hd2, hd3⟩ := key (h.anc hr hx hxa) hx hne
    have := hi.anc_nest hd3 hx
    exact absurd ⟨by unfold Has at hxa; omega, by unfold Has at hxa; omega⟩ (hk d hd1 hd2)

/-- **C102.** After a call the address is in an arena; either there was one and nothing has changed, or one was made. -/
theorem ensure_partial {c : Config} {align : Nat → Nat} {s : State} (hr : Reach c align s) {named : Nat → Bool} {index addr : Nat}
    (hf : Fit c s named index addr) (hroom : Room c s 1) :
    ∃ s' b, ensure c named index s addr = some (s', b) ∧ Reach c align s' ∧ Has s' b addr ∧ s'.sub b = ldsoId ∧
      ((s' = s ∧ ∃ x, deepest c s addr = some x ∧ IsArena s index x) ∨
       ∃ m lo hi, InMapping s m addr ∧ lo ≤ addr ∧ addr < hi ∧ Grown c s s' named index m lo hi b) := by
  obtain ⟨_, kids, rank, hi⟩ := reach_good hr
  cases hf with
  | old m x hm hd hx =>
    obtain ⟨r, e, h1⟩ := under_spec hr hm
    obtain ⟨y, e2, hd2, _⟩ := lookup_deepest_partial hr addr
    rw [hd] at e2
    cases e2
    have hxa : Has s x addr := by
      rcases hd2 with ⟨h0, _⟩ | ⟨_, h3, _⟩
      · exact absurd h0 (live_ne_zero hr hx.live)
      · exact h3
    rcases h1 with ⟨_, h2⟩ | ⟨h2, h3, h4⟩
    · exact absurd hx.sub (h2 x hx.live hxa)
    · refine ⟨s, r, ?_, hr, h3, h4, Or.inl ⟨rfl, x, hd, hx⟩⟩
      rw [ensure, hm.found hr, Option.bind_some, if_neg (live_ne_zero hr hm.live), e, Option.bind_some, if_pos (live_ne_zero hr h2)]
  | anon m hm hn hk hs =>
    obtain ⟨r, e, h1⟩ := under_spec hr hm
    have hnone : r = 0 := by
      rcases h1 with ⟨h0, _⟩ | ⟨h2, h3, h4⟩
      · exact h0
      · have := only hr hm (fun d hd hdp _ => hk d hd hdp) h2 h3
        subst this
        exact absurd h4 hs
    have hha := hm.has
    unfold Has at hha
    obtain ⟨s', b, e3, hr', hg⟩ := arena_spec (named := named) (index := index) hr hm.live (Nat.le_refl _) (size := s.fin m - s.beg m) (by omega)
      (by omega) hroom (fun d hd hdp => absurd hdp (hk d hd)) ⟨by omega, Or.inl ⟨hn, rfl⟩⟩
    rw [show s.beg m + (s.fin m - s.beg m) = s.fin m by omega] at hg
    refine ⟨s', b, ?_, hr', ⟨by rw [hg.beg]; omega, by rw [hg.fin]; omega⟩, hg.arena.sub, Or.inr ⟨m, _, _, hm, hha.1, hha.2, hg⟩⟩
    rw [ensure, hm.found hr, Option.bind_some, if_neg (live_ne_zero hr hm.live), e, Option.bind_some, if_neg (by simp [hnone]), create, if_pos hn, e3]
  | file m f hm hn hfl hfp hfa hle hk hs =>
    obtain ⟨r, e, h1⟩ := under_spec hr hm
    have hfpos := hi.pos f hfl
    have hha := hm.has
    unfold Has at hha
    have hm0 := live_ne_zero hr hm.live
    have hfn := hi.nest f hfl (by rw [hfp]; exact hm0)
    rw [hfp] at hfn
    have hkd : ∀ d, Live s d → s.par d = m → s.fin d ≤ s.fin f := by
      intro d hd hdp
      by_cases hdf : d = f
      · subst hdf; omega
      · have := (hk d hd hdp hdf).2
        omega
    have hnone : r = 0 := by
      rcases h1 with ⟨h0, _⟩ | ⟨h2, h3, h4⟩
      · exact h0
      · have := only hr hm (fun d hd hdp hda => by have := hkd d hd hdp; unfold Has at hda; omega) h2 h3
        subst this
        exact absurd h4 hs
    obtain ⟨s', b, e3, hr', hg⟩ := arena_spec (named := named) (index := index) (m := m) (lo := s.fin f) (size := s.fin m - s.fin f) hr hm.live
      (by omega) (by omega) (by omega) hroom hkd ⟨by omega, Or.inr ⟨hn, f, hfl, hfp, hfa, rfl⟩⟩
    rw [show s.fin f + (s.fin m - s.fin f) = s.fin m by omega] at hg
    refine ⟨s', b, ?_, hr', ⟨by rw [hg.beg]; omega, by rw [hg.fin]; omega⟩, hg.arena.sub, Or.inr ⟨m, _, _, hm, hle, hha.2, hg⟩⟩
    rw [ensure, hm.found hr, Option.bind_some, if_neg hm0, e, Option.bind_some, if_neg (by simp [hnone]), create, if_neg (by simp [hn]),
      hi.firstKid m hm.live]
    rw [files_spec (f := f) (m := m) hfa hle hfp (by omega) (kids m) (c.nb + 1) 0 (hi.seg m) (hi.zero_not_mem m) ((hi.mem f m).mpr ⟨hfl, hfp⟩)
      (by have := hi.kids_length m; omega) ?_, e3]
    intro d hd hdf
    obtain ⟨hd1, hd2⟩ := (hi.mem d m).mp hd
    obtain ⟨h5, h6⟩ := hk d hd1 hd2 hdf
    exact ⟨h5, by omega⟩

theorem InMapping.kept {s s' : State} {m a : Nat} (h : InMapping s m a) (hk : Kept s s' m) : InMapping s' m a :=
  ⟨hk.live, by rw [hk.par, h.top], by rw [hk.alloc, h.alloc], ⟨by rw [hk.beg]; exact h.has.1, by rw [hk.fin]; exact h.has.2⟩⟩

/-- Making an arena for one address does not make another unfit. -/
theorem fit_kept {c : Config} {s s' : State} {named : Nat → Bool} {index m lo hi b a : Nat}
    (hg : Grown c s s' named index m lo hi b) (hf : Fit c s named index a) : Fit c s' named index a := by
  cases hf with
  | old m' x h1 h2 h3 =>
    have hm' := h1.kept (hg.kept m' h1.live)
    by_cases hin : lo ≤ a ∧ a < hi
    · exact .old m' b hm' (hg.inside a hin.1 hin.2) hg.arena
    · have hk := hg.kept x h3.live
      exact .old m' x hm' (by rw [hg.outside a hin, h2]) ⟨hk.live, by rw [hk.sub, h3.sub], by rw [hk.subPriv, h3.priv]⟩
  | anon m' h1 h2 h3 h4 =>
    have hk := hg.kept m' h1.live
    have hm' := h1.kept hk
    by_cases he : m' = m
    · subst he
      obtain ⟨p1, p2⟩ := hg.place
      have hlo : lo = s.beg m' := by
        rcases p2 with ⟨_, p2⟩ | ⟨p2, _⟩
        · exact p2
        · rw [h2] at p2; cases p2
      exact .old m' b hm' (hg.inside a (by rw [hlo]; exact h1.has.1) (by rw [p1]; exact h1.has.2)) hg.arena
    · refine .anon m' hm' (by rw [hk.priv]; exact h2) ?_ (by rw [hk.sub]; exact h4)
      intro d hd
      rcases (hg.live d).mp hd with h5 | h5
      · rw [(hg.kept d h5).par]; exact h3 d h5
      · subst h5; rw [hg.par]; exact fun e => he e.symm
  | file m' f h1 h2 h3 h4 h5 h6 h7 h8 =>
    have hk := hg.kept m' h1.live
    have hm' := h1.kept hk
    by_cases he : m' = m
    · subst he
      obtain ⟨p1, p2⟩ := hg.place
      have hlo : lo = s.fin f := by
        rcases p2 with ⟨p2, _⟩ | ⟨_, f', q1, q2, q3, q4⟩
        · rw [h2] at p2; cases p2
        · by_cases hff : f' = f
          · subst hff; exact q4.symm
          · exact absurd q3 (h7 f' q1 q2 hff).1
      exact .old m' b hm' (hg.inside a (by rw [hlo]; exact h6) (by rw [p1]; exact h1.has.2)) hg.arena
    · have hkf := hg.kept f h3
      refine .file m' f hm' (by rw [hk.priv]; exact h2) hkf.live (by rw [hkf.par]; exact h4) (by rw [hkf.alloc]; exact h5) (by rw [hkf.fin]; exact h6)
        ?_ (by rw [hk.sub]; exact h8)
      intro d hd hdp hdf
      rcases (hg.live d).mp hd with h9 | h9
      · have hkd := hg.kept d h9
        rw [hkd.alloc, hkd.fin, hkf.beg]
        exact h7 d h9 (by rw [← hkd.par]; exact hdp) hdf
      · subst h9
        rw [hg.par] at hdp
        exact absurd hdp.symm he

/-- What many calls may do. -/
structure GrownAll (c : Config) (s s' : State) (named : Nat → Bool) (index : Nat) : Prop where
  kept : ∀ n, Live s n → Kept s s' n
  new : ∀ n, Live s' n → ¬ Live s n → IsArena s' index n ∧ s'.alloc n = brkId ∧ Live s (s'.par n) ∧ s.par (s'.par n) = 0 ∧ Place s named (s'.par n) (s'.beg n) (s'.fin n)
  arenas : ∀ a x, deepest c s a = some x → IsArena s index x → ∃ y, deepest c s' a = some y ∧ IsArena s' index y
  outside : ∀ a, (∀ n, Live s' n → ¬ Live s n → ¬ Has s' n a) → deepest c s' a = deepest c s a

theorem Kept.refl {s : State} {n : Nat} (h : Live s n) : Kept s s n := ⟨h, rfl, rfl, rfl, rfl, rfl, rfl, rfl, rfl, rfl⟩

theorem GrownAll.refl {c : Config} {s : State} {named : Nat → Bool} {index : Nat} : GrownAll c s s named index where
  kept n hn := Kept.refl hn
  new n h1 h2 := absurd h1 h2
  arenas a x h1 h2 := ⟨x, h1, h2⟩
  outside a _ := rfl

theorem Grown.then {c : Config} {s s1 s' : State} {named : Nat → Bool} {index m lo hi b : Nat} (hg : Grown c s s1 named index m lo hi b) (hm : Live s m)
    (hm0 : m ≠ 0) (ht : s.par m = 0) (h : GrownAll c s1 s' named index) : GrownAll c s s' named index where
  kept n hn := (hg.kept n hn).trans (h.kept n (hg.kept n hn).live)
  new n h1 h2 := by
    by_cases h3 : Live s1 n
    · have hn : n = b := by
        rcases (hg.live n).mp h3 with h4 | h4
        · exact absurd h4 h2
        · exact h4
      subst hn
      have hk := h.kept n h3
      refine ⟨⟨hk.live, by rw [hk.sub, hg.arena.sub], by rw [hk.subPriv, hg.arena.priv]⟩, by rw [hk.alloc, hg.alloc], by rw [hk.par, hg.par]; exact hm,
        by rw [hk.par, hg.par]; exact ht, ?_⟩
      rw [hk.par, hk.beg, hk.fin, hg.par, hg.beg, hg.fin]
      exact hg.place
    · obtain ⟨h4, h5, h6, h6', h7, h8⟩ := h.new n h1 h3
      have hpar : Live s (s'.par n) := by
        rcases (hg.live _).mp h6 with h9 | h9
        · exact h9
        · rw [h9, hg.par] at h6'
          exact absurd h6' hm0
      have hk := hg.kept _ hpar
      refine ⟨h4, h5, hpar, by rw [← hk.par]; exact h6', ?_⟩
      refine ⟨by rw [h7, hk.fin], ?_⟩
      rcases h8 with ⟨h8, h9⟩ | ⟨h8, f, h9, h10, h11, h12⟩
      · exact Or.inl ⟨by rw [← hk.priv]; exact h8, by rw [h9, hk.beg]⟩
      · refine Or.inr ⟨by rw [← hk.priv]; exact h8, f, ?_⟩
        have hfl : Live s f := by
          rcases (hg.live f).mp h9 with h13 | h13
          · exact h13
          · subst h13; rw [hg.alloc] at h11; exact absurd h11 (by decide)
        have hkf := hg.kept f hfl
        exact ⟨hfl, by rw [← hkf.par]; exact h10, by rw [← hkf.alloc]; exact h11, by rw [← hkf.fin]; exact h12⟩
  arenas a x h1 h2 := by
    by_cases hin : lo ≤ a ∧ a < hi
    · exact h.arenas a b (hg.inside a hin.1 hin.2) hg.arena
    · have hk := hg.kept x h2.live
      exact h.arenas a x (by rw [hg.outside a hin, h1]) ⟨hk.live, by rw [hk.sub, h2.sub], by rw [hk.subPriv, h2.priv]⟩
  outside a ha := by
    have hk := h.kept b hg.arena.live
    have hin : ¬ (lo ≤ a ∧ a < hi) := by
      intro hin
      refine ha b hk.live hg.fresh ⟨?_, ?_⟩
      · rw [hk.beg, hg.beg]; exact hin.1
      · rw [hk.fin, hg.fin]; exact hin.2
    rw [h.outside a ?_, hg.outside a hin]
    intro n h1 h2
    exact ha n h1 (fun h3 => h2 (hg.kept n h3).live)

/-- **C102.** After calls for any number of chunks, each is in an arena, and the leaf allocator of its address is the linker's malloc. What was there is
kept; each new big allocation is an arena of one mapping; other addresses have the lookups they had. Missing: addresses elsewhere, see below. -/
theorem arenas_partial {c : Config} {align : Nat → Nat} {named : Nat → Bool} {index : Nat} : ∀ (l : List Nat) {s : State}, Reach c align s →
    (∀ a ∈ l, Fit c s named index a) → Room c s l.length →
    ∃ s', ensureAll c named index s l = some s' ∧ Reach c align s' ∧ GrownAll c s s' named index ∧
      (∀ a ∈ l, leafAllocator c s' a = some ldsoId ∧ ∃ x, deepest c s' a = some x ∧ IsArena s' index x)
  | [], s, hr, _, _ => ⟨s, rfl, hr, GrownAll.refl, by simp⟩
  | a :: l, s, hr, hf, hroom => by
    have hroom1 : Room c s 1 := by
      obtain ⟨l', h1, h2, h3⟩ := hroom
      exact ⟨l', h1, by simp at h2; omega, h3⟩
    obtain ⟨s1, b, e1, hr1, _, _, h1⟩ := ensure_partial hr (hf a List.mem_cons_self) hroom1
    have key : ∃ s', ensureAll c named index s1 l = some s' ∧ Reach c align s' ∧ GrownAll c s s' named index ∧
        (∀ a ∈ l, leafAllocator c s' a = some ldsoId ∧ ∃ x, deepest c s' a = some x ∧ IsArena s' index x) ∧
        ∃ x, deepest c s' a = some x ∧ IsArena s' index x := by
      rcases h1 with ⟨rfl, x, hx1, hx2⟩ | ⟨m, lo, hi, hm, h2, h3, hg⟩
      · obtain ⟨s', e', hr', hg', hl'⟩ := arenas_partial l hr (fun y hy => hf y (List.mem_cons_of_mem _ hy)) (by
          obtain ⟨l', h1, h2, h3⟩ := hroom
          exact ⟨l', h1, by simp at h2; omega, h3⟩)
        exact ⟨s', e', hr', hg', hl', hg'.arenas a x hx1 hx2⟩
      · obtain ⟨s', e', hr', hg', hl'⟩ := arenas_partial l hr1 (fun y hy => fit_kept hg (hf y (List.mem_cons_of_mem _ hy)))
          (Room.less (by simpa using hroom) hg.live)
        exact ⟨s', e', hr', hg.then hm.live (live_ne_zero hr hm.live) hm.top hg', hl', hg'.arenas a b (hg.inside a h2 h3) hg.arena⟩
    obtain ⟨s', e', hr', hg', hl', x, hx1, hx2⟩ := key
    refine ⟨s', by rw [ensureAll, e1]; exact e', hr', hg', ?_⟩
    intro y hy
    rcases List.mem_cons.mp hy with rfl | hy
    · refine ⟨?_, x, hx1, hx2⟩
      obtain ⟨_, kids, rank, hi⟩ := reach_good hr'
      unfold leafAllocator
      rw [hi.leafBig_eq, hx1, Option.map_some, if_neg (live_ne_zero hr' hx2.live), hx2.sub]
      rfl
    · exact hl' y hy

/-- A mapping has at most one new arena. -/
theorem one_each {c : Config} {align : Nat → Nat} {s s' : State} {named : Nat → Bool} {index : Nat} (hr : Reach c align s')
    (h : GrownAll c s s' named index) {n k : Nat} (hn : Live s' n) (hn' : ¬ Live s n) (hk : Live s' k) (hk' : ¬ Live s k) (he : s'.par n = s'.par k) : n = k := by
  obtain ⟨_, kids, rank, hi⟩ := reach_good hr
  by_cases hnk : n = k
  · exact hnk
  · have h1 := hi.disj n k hn hk he hnk
    have h2 := hi.pos n hn
    have h3 := hi.pos k hk
    have h4 : s'.fin n = s.fin (s'.par n) := (h.new n hn hn').2.2.2.2.1
    have h5 : s'.fin k = s.fin (s'.par k) := (h.new k hk hk').2.2.2.2.1
    rw [he] at h4
    omega

/-- **C102.** An address of no mapping, such as NULL, which may be freed: the program ends. -/
theorem free_null_fails {c : Config} {align : Nat → Nat} {s : State} (hr : Reach c align s) {named : Nat → Bool} {index a : Nat}
    (h : ∀ n, Live s n → ¬ Has s n a) : freeHook c named index s a = none := by
  have := fromRoot_none (a := mmapId) hr (by decide) (fun x hx hxa => absurd hxa (h x hx))
  rw [freeHook, ensure, this]
  rfl

/-! ## Concrete cases -/

def cfg (debug : Bool) : Config := ⟨debug, 0x1000, 16⟩

/-- A mapping of a file, slot 2, with the file in it, slot 3; an anonymous mapping, slot 4. -/
def maps : List Op := [.new 0x400000 0x10000 0 ⟨mmapId, 0, 7, 0, 0, 0⟩, .new 0x400000 0x42f0 2 ⟨fileId, 0, 5, 0, 0, 0⟩,
  .new 0x500000 0x4000 0 ⟨mmapId, 0, 6, 0, 0, 0⟩]

def isNamed (p : Nat) : Bool := p == 7

example : after (cfg true) maps (fun s => (ensureAll (cfg true) isNamed 99 s [0x404300, 0x500010, 0x40ffff]).bind (fun s =>
    [0x4042ef, 0x4042f0, 0x404300, 0x40ffff, 0x410000, 0x500000, 0x503fff].mapM (fun a => (deepest (cfg true) s a).bind (fun d =>
      (leafAllocator (cfg true) s a).map (fun l => (d, l)))))) =
    some [(3, fileId), (5, ldsoId), (5, ldsoId), (5, ldsoId), (0, 0), (6, ldsoId), (6, ldsoId)] := by decide +kernel

/-! ## What goes wrong -/

/-- Has something after a history and a call. -/
def ask (debug : Bool) (ops : List Op) (addr : Nat) (P : State → Nat → Bool) : Bool :=
  match run (cfg debug) ops with
  | none => false
  | some s =>
    match ensure (cfg debug) isNamed 99 s addr with
    | none => false
    | some r => P r.1 r.2

/-- Does the program end in a call after a history? -/
def ends (debug : Bool) (ops : List Op) (addr : Nat) : Bool :=
  match run (cfg debug) ops with
  | none => false
  | some s => (ensure (cfg debug) isNamed 99 s addr).isNone

/-- The arena made for the mapping of a file, and the mapping grown after that, as happens when the linker maps more memory next to it. -/
def grown : List Op := maps ++ [.new 0x4042f0 0xbd10 2 ⟨brkId, 0, 0, 0, 0, 0⟩, .setSub 5 ldsoId 99 0, .extend 2 0x418000]

/-- **C102 fails** when a mapping grows: a chunk in the new part ends the program, or without assertions makes a second arena overlapping the first. -/
theorem grown_fails : ends true grown 0x412000 = true ∧
    ask false grown 0x412000 (fun s b => b == 6 && s.par 6 == s.par 5 && s.beg 6 == s.beg 5 && decide (s.fin 5 < s.fin 6)) = true := by decide +kernel

/-- **C102 fails** with two files in a mapping and a chunk between them: the program ends, or without assertions the arena made does not have the chunk. -/
theorem between_fails : let ops := maps ++ [.new 0x406000 0x2000 2 ⟨fileId, 0, 5, 0, 0, 0⟩]
    ends true ops 0x404300 = true ∧ ask false ops 0x404300 (fun s b => !spans s b 0x404300) = true := by decide +kernel

/-- If the lower file was the later one, the arena has all addresses of the upper one. -/
theorem swallow_fails : let ops := [.new 0x400000 0x10000 0 ⟨mmapId, 0, 7, 0, 0, 0⟩, .new 0x406010 0x800 2 ⟨fileId, 0, 5, 0, 0, 0⟩,
      .new 0x400000 0x42f0 2 ⟨fileId, 0, 5, 0, 0, 0⟩]
    ask true ops 0x404300 (fun s b => spans s 3 0x406100 && s.par b == s.par 3 && deepest (cfg true) s 0x406100 == some b) = true := by decide +kernel

/-- **C102 fails** in an anonymous mapping with something else in it: the program ends, or the arena has its addresses. -/
theorem anon_fails : ends true (maps ++ [.new 0x501000 0x1010 4 ⟨1, 0, 5, 0, 0, 0⟩]) 0x503000 = true ∧
    ask true (maps ++ [.new 0x501010 0x800 4 ⟨1, 0, 5, 0, 0, 0⟩]) 0x503000 (fun s b => deepest (cfg true) s 0x501020 == some b) = true := by decide +kernel

end Liballocs.LdSoArena
