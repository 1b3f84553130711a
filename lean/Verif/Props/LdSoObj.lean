import Verif.Model.LdSoObj
import Verif.Props.LinearMalloc
import Verif.Props.LdSoArena
/-!
# What is told about the dynamic linker's own objects

Properties of `Verif/Model/LdSoObj.lean`, with the index (C46) and the arenas (C102).
-/
namespace Liballocs.LdSoObj

open LinearMalloc

/-! ## Specification -/

/-- An object in use: where it is, its size, and the call that made it. -/
structure Obj where
  start : Nat
  size : Nat
  site : Nat
  deriving DecidableEq, Repr

/-- The size to the next multiple of eight. -/
def up8 (n : Nat) : Nat := (n + 7) / 8 * 8

/-- Its room ends with a word of our own. -/
def Obj.word (o : Obj) : Nat := o.start + up8 o.size

def Obj.chunk (o : Obj) : Chunk := ⟨o.start, o.size⟩

/-- Objects that the linker's malloc may hand out. -/
structure Ready (lo : Nat) (L : List Obj) (o : Obj) : Prop where
  may : MayAlloc lo (L.map Obj.chunk) o.chunk
  aligned : o.start % 8 = 0
  apart : ∀ d ∈ L, o.word + 8 ≤ d.start ∨ d.word + 8 ≤ o.start
  site : o.site < 2 ^ 47

/-- What the linker may do: new memory is clear, chunks do not shrink, and the words behind objects are not written. -/
inductive Legal (lo : Nat) (st : State) : List Obj → Ev → List Obj → Prop where
  | alloc {L o} : Ready lo L o → (∀ a, o.start ≤ a → a < o.word + 8 → st.mem a = 0) → Legal lo st L (.alloc o.start o.size o.site) (o :: L)
  | free {A B o} : Legal lo st (A ++ o :: B) (.free o.start) (A ++ B)
  | realloc {A B o d req} : Ready lo (A ++ B) d → d.size = up8 req → up8 o.size ≤ d.size →
      (∀ a, d.start ≤ a → a < d.word + 8 → (d.start = o.start → o.word + 8 ≤ a) → st.mem a = 0) →
      Legal lo st (A ++ o :: B) (.realloc o.start d.start (up8 o.size + 8) req d.site) (d :: (A ++ B))
  | write {L a v} : a % 8 = 0 → v < 2 ^ 64 → (∀ o ∈ L, a ≠ o.word) → Legal lo st L (.write a v) L

inductive History (lo : Nat) : State → List Obj → List Ev → List Obj → Prop where
  | nil {st L} : History lo st L [] L
  | cons {st L M N e es} : Legal lo st L e M → (∀ st', exec false st e = some st' → History lo st' M es N) → History lo st L (e :: es) N

/-! ## The words behind objects -/

theorem usable_up8 (n : Nat) : usable n = up8 n := by unfold usable modified up8; omega

theorem modified_up8 (n : Nat) : modified n = up8 n + 8 := by unfold modified up8; omega

theorem up8_up8 (n : Nat) : up8 (up8 n) = up8 n := by unfold up8; omega

theorem putSite_site (w site : Nat) (h : site < 2 ^ 47) : siteOf (putSite w site) = site := by
  unfold siteOf putSite; omega

theorem putSite_typed (w site : Nat) (h : typed w = false) : typed (putSite w site) = false := by
  simp only [typed, decide_eq_false_iff_not, Decidable.not_not] at h ⊢
  unfold putSite
  omega

/-- The word behind an object says where it was made. -/
def Tells (m : Nat → Nat) (o : Obj) : Prop := typed (m o.word) = false ∧ siteOf (m o.word) = o.site

structure Inv (lo : Nat) (st : State) (L : List Obj) : Prop where
  lin : LinearMalloc.Inv lo st.recs (L.map Obj.chunk)
  tells : ∀ o ∈ L, Tells st.mem o
  apart : L.Pairwise fun o d => o.word + 8 ≤ d.start ∨ d.word + 8 ≤ o.start

theorem Inv.at {lo : Nat} {st : State} {L : List Obj} (h : Inv lo st L) {o : Obj} (ho : o ∈ L) : 0 < o.size := by
  exact (h.lin.win o.chunk (List.mem_map.mpr ⟨o, ho, rfl⟩)).2.2.2.1

theorem set_ne {m : Nat → Nat} {a v x : Nat} (h : x ≠ a) : set m a v x = m x := by unfold set; rw [if_neg h]

theorem inv_insert {lo : Nat} (hw : lo + 2 ^ 31 ≤ 2 ^ 64) {st : State} {L : List Obj} (hi : Inv lo st L) {o : Obj} (hr : Ready lo L o)
    (ht : typed (st.mem o.word) = false) : ∃ st', insert st o.start o.size o.site = some st' ∧ Inv lo st' (o :: L) := by
  obtain ⟨r, h1, h2⟩ := LinearMalloc.inv_insert hw hi.lin hr.may
  have h1 : LinearMalloc.insert st.recs o.start o.size = some r := h1
  refine ⟨⟨r, _⟩, by unfold insert; rw [h1]; rfl, ⟨h2, ?_, ?_⟩⟩
  · have hword : o.start + usable o.size = o.word := by rw [usable_up8]; rfl
    intro d hd
    dsimp only
    rw [hword]
    rcases List.mem_cons.mp hd with rfl | hd
    · refine ⟨?_, ?_⟩
      · show typed (set st.mem d.word _ d.word) = false
        unfold set; rw [if_pos rfl]; exact putSite_typed _ _ ht
      · show siteOf (set st.mem d.word _ d.word) = _
        unfold set; rw [if_pos rfl]; exact putSite_site _ _ hr.site
    · have hne : d.word ≠ o.word := by
        have := hr.apart d hd
        unfold Obj.word at *
        omega
      have := hi.tells d hd
      unfold Tells
      rw [set_ne hne]
      exact this
  · exact List.pairwise_cons.mpr ⟨fun d hd => hr.apart d hd, hi.apart⟩

theorem inv_unindex {lo : Nat} (hw : lo + 2 ^ 31 ≤ 2 ^ 64) {st : State} {A B : List Obj} {o : Obj} (hi : Inv lo st (A ++ o :: B)) :
    ∃ r, unindex st o.start = some ⟨r, st.mem⟩ ∧ Inv lo ⟨r, st.mem⟩ (A ++ B) := by
  have hmem : o ∈ A ++ o :: B := by simp
  obtain ⟨r, h1, h2⟩ := LinearMalloc.inv_delete hw hi.lin (c := o.chunk) (List.mem_map.mpr ⟨o, hmem, rfl⟩)
  have h1 : LinearMalloc.delete st.recs o.start = some r := h1
  refine ⟨r, by unfold unindex; rw [h1]; rfl, ⟨?_, fun d hd => hi.tells d ?_, ?_⟩⟩
  · have hn : o.chunk ∉ A.map Obj.chunk := by
      intro h
      obtain ⟨d, hd, e⟩ := List.mem_map.mp h
      have ha := (List.pairwise_append.mp hi.apart).2.2 d hd o (List.mem_cons_self ..)
      have : d.start = o.start := by have := congrArg Chunk.start e; exact this
      have p1 := hi.at hmem
      have p2 := hi.at (o := d) (by simp [hd])
      unfold Obj.word up8 at ha
      omega
    have he : ((A ++ o :: B).map Obj.chunk).erase o.chunk = (A ++ B).map Obj.chunk := by
      rw [List.map_append, List.map_cons, List.erase_append_right _ hn, List.erase_cons_head, List.map_append]
    rw [he] at h2
    exact h2
  · rcases List.mem_append.mp hd with h | h <;> simp [h]
  · exact hi.apart.sublist (List.Sublist.append_left (List.sublist_cons_self ..) A)

theorem inv_step {lo : Nat} (hw : lo + 2 ^ 31 ≤ 2 ^ 64) {st : State} {L M : List Obj} {e : Ev} (hi : Inv lo st L) (h : Legal lo st L e M) :
    ∃ st', exec false st e = some st' ∧ Inv lo st' M := by
  cases h with
  | @alloc _ o hr hz =>
    have h0 : st.mem o.word = 0 := hz _ (by unfold Obj.word; omega) (by omega)
    obtain ⟨st', h1, h2⟩ := inv_insert hw hi hr (by rw [h0]; decide)
    exact ⟨st', by simp only [exec, alloc, h1]; rfl, h2⟩
  | @free A B o =>
    obtain ⟨r, h1, h2⟩ := inv_unindex hw hi
    exact ⟨_, by simp only [exec, free, h1]; rfl, h2⟩
  | @realloc A B o d req hr hs hle hz =>
    obtain ⟨r, h1, h2⟩ := inv_unindex hw hi
    have hd8 : up8 d.size = d.size := by rw [hs, up8_up8]
    have hto := hi.tells o (by simp)
    have hmod : modified req - 8 = d.size := by rw [modified_up8, hs]; omega
    have key : ∀ m, (∀ x, ¬ (d.start ≤ x ∧ x < d.word + 8) → m x = st.mem x) → typed (m d.word) = false →
        ∃ st', insert ⟨r, m⟩ d.start d.size d.site = some st' ∧ Inv lo st' (d :: (A ++ B)) := by
      intro m hm ht
      refine inv_insert (st := ⟨r, m⟩) hw ⟨h2.lin, fun x hx => ?_, h2.apart⟩ hr ht
      have := h2.tells x hx
      unfold Tells at this ⊢
      dsimp only at this ⊢
      rw [hm]
      · exact this
      · have := hr.apart x hx
        unfold Obj.word at *
        omega
    by_cases he : o.start = d.start
    · obtain ⟨st', h3, h4⟩ := key st.mem (fun _ _ => rfl) (by
        by_cases hu : up8 o.size = d.size
        · have : d.word = o.word := by unfold Obj.word; rw [hd8, he, hu]
          rw [this]; exact hto.1
        · have h0 : st.mem d.word = 0 := hz _ (by unfold Obj.word; omega) (by omega) (fun _ => by
            have : up8 o.size % 8 = 0 := by unfold up8; omega
            have : d.size % 8 = 0 := by rw [← hd8]; unfold up8; omega
            unfold Obj.word
            omega)
          rw [h0]; decide)
      refine ⟨st', ?_, h4⟩
      simp only [exec, realloc, h1, Option.bind_some, if_pos he, hmod]
      exact h3
    · obtain ⟨st', h3, h4⟩ := key (copy st.mem o.start d.start (up8 o.size + 8)) (fun x hx => by
          unfold copy
          rw [if_neg]
          unfold Obj.word at hx
          omega) (by
        unfold copy
        by_cases hu : up8 o.size = d.size
        · rw [if_pos (by unfold Obj.word; omega)]
          have : o.start + (d.word - d.start) = o.word := by unfold Obj.word; omega
          rw [this]; exact hto.1
        · have h0 : st.mem d.word = 0 := hz _ (by unfold Obj.word; omega) (by omega) (fun h => absurd h.symm he)
          have : up8 o.size % 8 = 0 := by unfold up8; omega
          have : d.size % 8 = 0 := by rw [← hd8]; unfold up8; omega
          rw [if_neg (by unfold Obj.word; omega), h0]
          decide)
      refine ⟨st', ?_, h4⟩
      simp only [exec, realloc, h1, Option.bind_some, if_neg he, hmod]
      exact h3
  | @write _ a v h1 h2 h3 =>
    refine ⟨_, rfl, hi.lin, fun o ho => ?_, hi.apart⟩
    have := hi.tells o ho
    unfold Tells at this ⊢
    dsimp only
    rw [set_ne (fun e => h3 o ho e.symm)]
    exact this

theorem inv_run {lo : Nat} (hw : lo + 2 ^ 31 ≤ 2 ^ 64) {st : State} {L N : List Obj} {es : List Ev} (h : History lo st L es N) (hi : Inv lo st L) :
    ∃ st', run false st es = some st' ∧ Inv lo st' N := by
  induction h with
  | nil => exact ⟨_, rfl, hi⟩
  | cons h1 _ ih =>
    obtain ⟨st1, e1, i1⟩ := inv_step hw hi h1
    obtain ⟨st2, e2, i2⟩ := ih st1 e1 i1
    exact ⟨st2, by simp only [run, e1, Option.bind_some]; exact e2, i2⟩

theorem info_inv {lo : Nat} {st : State} {L : List Obj} (hi : Inv lo st L) :
    (∀ o ∈ L, ∀ a, o.start ≤ a → a < o.start + o.size → info st a = some ⟨o.start, o.size, none, some o.site⟩) ∧
    (∀ a, (∀ o ∈ L, ¬ (o.start ≤ a ∧ a < o.start + o.size)) → info st a = none) := by
  constructor
  · intro o ho a h1 h2
    obtain ⟨A, D, h4, h5⟩ := LinearMalloc.find_inside hi.lin (c := o.chunk) (List.mem_map.mpr ⟨o, ho, rfl⟩) h1 h2
    have hf : find st.recs a = some (recOf o.chunk) := by
      rw [find, h5]
      rw [h4]; simp
    have hat : (recOf o.chunk).addr + ((recOf o.chunk).req + (recOf o.chunk).pad) = o.word := by
      show o.start + (o.size + ((o.size + 15) / 8 * 8 - 8 - o.size)) = o.word
      unfold Obj.word up8
      omega
    obtain ⟨t1, t2⟩ := hi.tells o ho
    unfold info
    rw [hf, Option.map_some]
    dsimp only
    rw [hat, t1, t2]
    rfl
  · intro a ha
    have : find st.recs a = none := by
      rw [find, LinearMalloc.find_outside hi.lin (a := a) (by
        intro c hc
        obtain ⟨o, ho, rfl⟩ := List.mem_map.mp hc
        exact ha o ho)]
      rfl
    unfold info
    rw [this]
    rfl

/-- **C167** After any history the index tells, for an address in an object of the linker's, where the object begins, its size and the call that made it, and no type; and that any
other address is not of an object. Missing: chunks that shrink, builds with lifetime policies, empty chunks and those of C46; sizes after `realloc` are multiples of eight. -/
theorem told_partial {lo : Nat} (hw : lo + 2 ^ 31 ≤ 2 ^ 64) {m : Nat → Nat} {es : List Ev} {L : List Obj} (h : History lo ⟨[], m⟩ [] es L) :
    ∃ st, run false ⟨[], m⟩ es = some st ∧
      (∀ o ∈ L, ∀ a, o.start ≤ a → a < o.start + o.size → info st a = some ⟨o.start, o.size, none, some o.site⟩) ∧
      (∀ a, (∀ o ∈ L, ¬ (o.start ≤ a ∧ a < o.start + o.size)) → info st a = none) := by
  obtain ⟨st, h1, h2⟩ := inv_run hw h ⟨LinearMalloc.inv_nil lo, by simp, .nil⟩
  exact ⟨st, h1, info_inv h2⟩

/-! ## From the page index on -/

open PageIndex FileLoad LdSoArena in
/-- An address that the linker's malloc may return, in a mapping in which it has returned one, is in the arena made for that. -/
theorem arena_there {c : Config} {align : Nat → Nat} {s s' : PageIndex.State} {named : Nat → Bool} {index m a b x : Nat} (hr : Reach c align s) (hr' : Reach c align s')
    (hg : GrownAll c s s' named index) (hno : ∀ n, Live s n → s.sub n ≠ ldsoId) (hma : InMapping s m a) (hmb : InMapping s m b) (hfb : Fit c s named index b)
    (hx : deepest c s' a = some x) (hxa : IsArena s' index x) : deepest c s' b = some x ∧ s'.alloc x = brkId := by
  obtain ⟨_, kids, rank, hi⟩ := reach_good hr
  obtain ⟨_, kids', rank', hi'⟩ := reach_good hr'
  have hnew : ¬ Live s x := fun h => hno x h (by rw [← (hg.kept x h).sub]; exact hxa.sub)
  obtain ⟨_, hal, hpl, hpt, hp1, hp2⟩ := hg.new x hxa.live hnew
  obtain ⟨r, er, hd, _, _⟩ := lookup_deepest_partial hr' a
  rw [hx] at er
  cases er
  have hxhas : Has s' x a := by
    rcases hd with ⟨h0, _⟩ | ⟨_, h, _⟩
    · exact absurd h0 (live_ne_zero hr' hxa.live)
    · exact h
  have hpne : s'.par x ≠ 0 := live_ne_zero hr hpl
  have hnest := hi'.nest x hxa.live hpne
  have hkp := hg.kept _ hpl
  have hpm : s'.par x = m := by
    by_cases h : s'.par x = m
    · exact h
    · have := hi.disj (s'.par x) m hpl hma.live (by rw [hpt, hma.top]) h
      have h1 := hma.has
      unfold Has at hxhas h1
      rw [hkp.beg, hkp.fin] at hnest
      omega
  rw [hpm] at hp1 hp2
  have hbx : Has s' x b := by
    have h1 := hmb.has
    unfold Has at h1 ⊢
    have huniq : ∀ {m'}, InMapping s m' b → m' = m := by
      intro m' h'
      by_cases h : m' = m
      · exact h
      · have h3 := hi.disj m' m h'.live hmb.live (by rw [h'.top, hmb.top]) h
        have h4 := h'.has
        unfold Has at h4
        omega
    cases hfb with
    | old m' y _ hy hya => exact absurd hya.sub (hno y hya.live)
    | anon m' hm' hn hk hs =>
      rcases hp2 with ⟨_, h2⟩ | ⟨h2, f, h5, h6, h7, h8⟩
      · omega
      · rw [huniq hm', h2] at hn; cases hn
    | file m' f' hm' hn hfl hfp hfa hle hk hs =>
      have e := huniq hm'
      subst e
      rcases hp2 with ⟨h2, _⟩ | ⟨h2, f, h5, h6, h7, h8⟩
      · rw [hn] at h2; cases h2
      · by_cases hff : f = f'
        · subst hff; omega
        · exact absurd h7 (hk f h5 h6 hff).1
  have hnokid : ∀ d, Live s' d → s'.par d ≠ x := by
    intro d hd he
    by_cases h : Live s d
    · have hk := hg.kept d h
      have h0 : s.par d ≠ 0 := by rw [← hk.par, he]; exact live_ne_zero hr' hxa.live
      have := hi.parLive d h h0
      rw [← hk.par, he] at this
      exact hnew this
    · have := (hg.new d hd h).2.2.1
      rw [he] at this
      exact hnew this
  obtain ⟨r, er, hd, _, _⟩ := lookup_deepest_partial hr' b
  rcases hd with ⟨_, h⟩ | ⟨h1, h2, h3⟩
  · exact absurd hbx (h x hxa.live)
  · have hanc := h3 x hxa.live hbx
    have : r = x := by
      have key : ∀ {k}, Anc s' x k → Live s' k → k = x := by
        intro k hk
        induction hk with
        | refl => intro _; rfl
        | @step k h4 _ ih =>
          intro hl
          exact absurd (ih (hi'.parLive k hl h4)) (hnokid k hl)
      exact key hanc h1
    rw [er, this]
    exact ⟨rfl, hal⟩

open PageIndex FileLoad LdSoArena in
/-- **C167** Once the library has started, and gone over the objects there were, as well as those made since, a query for an address in an object of the linker's answers with its start,
its size and the call that made it. -/
theorem query_partial {lo : Nat} (hw : lo + 2 ^ 31 ≤ 2 ^ 64) {mem : Nat → Nat} {es : List Ev} {L : List Obj} (h : History lo ⟨[], mem⟩ [] es L)
    {c : Config} {align : Nat → Nat} {s : PageIndex.State} (hr : Reach c align s) {named : Nat → Bool} {index : Nat} (hno : ∀ n, Live s n → s.sub n ≠ ldsoId)
    {l : List Nat} (hl : ∀ o ∈ L, o.start ∈ l) (hf : ∀ a ∈ l, Fit c s named index a) (hroom : Room c s l.length)
    (hin : ∀ o ∈ L, ∃ m, ∀ a, o.start ≤ a → a < o.start + o.size → InMapping s m a ∧ Fit c s named index a) :
    ∃ st s', run false ⟨[], mem⟩ es = some st ∧ ensureAll c named index s l = some s' ∧
      ∀ o ∈ L, ∀ a, o.start ≤ a → a < o.start + o.size → query c s' index st a = some (some ⟨o.start, o.size, none, some o.site⟩) := by
  obtain ⟨st, h1, h2⟩ := inv_run hw h ⟨LinearMalloc.inv_nil lo, by simp, .nil⟩
  obtain ⟨s', e', hr', hg, hall⟩ := arenas_partial l hr hf hroom
  refine ⟨st, s', h1, e', ?_⟩
  intro o ho a ha1 ha2
  obtain ⟨_, x, hx, hxa⟩ := hall o.start (hl o ho)
  obtain ⟨m, hm⟩ := hin o ho
  have hpos := h2.at ho
  obtain ⟨hd, hal⟩ := arena_there hr hr' hg hno (hm o.start (Nat.le_refl _) (by omega)).1 (hm a ha1 ha2).1 (hm a ha1 ha2).2 hx hxa
  have hleaf : leafAllocator c s' a = some ldsoId := by
    obtain ⟨_, kids, rank, hi⟩ := reach_good hr'
    unfold leafAllocator
    rw [hi.leafBig_eq, hd, Option.map_some, if_neg (live_ne_zero hr' hxa.live), hxa.sub]
    rfl
  have hx0 := live_ne_zero hr' hxa.live
  have har : arenaOf s' x = x := by unfold arenaOf; rw [hal, if_neg (by decide)]
  unfold query
  rw [hleaf, Option.bind_some, if_pos rfl, hd, Option.bind_some, har, if_pos ⟨hx0, hxa.sub, hxa.priv⟩, (info_inv h2).1 o ho a ha1 ha2]

/-- **C167** A word is taken for one with a type if one of the twelve bits from the 49th on is set. -/
theorem typed_iff (w : Nat) : typed w = true ↔ ∃ i, 48 ≤ i ∧ i < 60 ∧ w.testBit i = true := by
  unfold typed
  rw [decide_eq_true_eq, ← Nat.shiftRight_eq_div_pow]
  constructor
  · intro h
    obtain ⟨i, hi⟩ := Nat.exists_testBit_of_ne_zero h
    rw [Nat.testBit_mod_two_pow, Nat.testBit_shiftRight, Bool.and_eq_true, decide_eq_true_eq] at hi
    exact ⟨48 + i, by omega, by omega, hi.2⟩
  · rintro ⟨i, h1, h2, h3⟩ h0
    have : ((w >>> 48) % 2 ^ 12).testBit (i - 48) = true := by
      rw [Nat.testBit_mod_two_pow, Nat.testBit_shiftRight, show 48 + (i - 48) = i by omega, h3, decide_eq_true (by omega)]
      rfl
    rw [h0, Nat.zero_testBit] at this
    cases this

/-- **C167** Clearing a policy's flag clears the 61st bit and no other. -/
theorem cleared_bit (w i : Nat) : (cleared w).testBit i = (w.testBit i && decide (i ≠ 60)) := by
  have hb : w.testBit 60 = decide (w / 2 ^ 60 % 2 = 1) := Nat.testBit_eq_decide_div_mod_eq
  unfold cleared
  by_cases h0 : w / 2 ^ 60 % 2 = 0
  · rw [if_pos h0]
    by_cases hi : i = 60
    · subst hi
      rw [hb, h0]
      rfl
    · simp [hi]
  · rw [if_neg h0]
    by_cases hi : i = 60
    · subst hi
      rw [Nat.testBit_eq_decide_div_mod_eq, decide_eq_false (by omega)]
      simp
    · rw [decide_eq_true hi, Bool.and_true, Nat.testBit_eq_decide_div_mod_eq, Nat.testBit_eq_decide_div_mod_eq]
      by_cases hlt : i < 60
      · have hk : (2 : Nat) ^ 60 = 2 ^ i * (2 * 2 ^ (59 - i)) := by
          rw [← Nat.pow_succ', ← Nat.pow_add]
          congr 1
          omega
        rw [hk, Nat.sub_mul_div]
        have hge : 2 * 2 ^ (59 - i) ≤ w / 2 ^ i := by
          rw [Nat.le_div_iff_mul_le (Nat.pow_pos (by decide)), Nat.mul_comm, ← hk]
          omega
        generalize w / 2 ^ i = x at *
        generalize 2 ^ (59 - i) = y at *
        rw [show (x - 2 * y) % 2 = x % 2 by omega]
      · have hk : (2 : Nat) ^ i = 2 ^ 61 * 2 ^ (i - 61) := by
          rw [← Nat.pow_add]
          congr 1
          omega
        rw [hk, ← Nat.div_div_eq_div_mul, ← Nat.div_div_eq_div_mul, show (w - 2 ^ 60) / 2 ^ 61 = w / 2 ^ 61 by omega]

/-- **C167** A chunk that is freed is released if no policy but the first has its flag in the word
that is taken for the policies', and then it is not in the index any more; otherwise the index stays.
Without policies it is always released. -/
theorem free_decides {pol : Bool} {st st' : State} {p : Nat} {freed : Bool} (h : free pol st p = some (st', freed)) :
    (freed = true → some st'.recs = delete st.recs p) ∧ (freed = false → st'.recs = st.recs) ∧
    (pol = false → freed = true ∧ st'.mem = st.mem) ∧
    (pol = true → ∃ u, usableSize st.recs p = some u ∧ 8 ≤ u ∧ (freed = true ↔ ∀ i, 61 ≤ i → (st.mem (p + u - 8)).testBit i = false) ∧
      (∀ x, x ≠ p + u - 8 → st'.mem x = st.mem x) ∧ ∀ i, (st'.mem (p + u - 8)).testBit i = ((st.mem (p + u - 8)).testBit i && decide (i ≠ 60))) := by
  have hun : ∀ {s s' : State}, unindex s p = some s' → some s'.recs = delete s.recs p ∧ s'.mem = s.mem := by
    intro s s' hs
    unfold unindex at hs
    obtain ⟨r, hr, rfl⟩ := Option.map_eq_some_iff.mp hs
    exact ⟨hr.symm, rfl⟩
  unfold free at h
  cases pol with
  | false =>
    rw [if_neg (by decide)] at h
    obtain ⟨s1, h1, h2⟩ := Option.map_eq_some_iff.mp h
    cases h2
    obtain ⟨h3, h4⟩ := hun h1
    exact ⟨fun _ => h3, (by intro h; cases h), fun _ => ⟨rfl, h4⟩, (by intro h; cases h)⟩
  | true =>
    rw [if_pos rfl] at h
    obtain ⟨a, ha, h⟩ := Option.bind_eq_some_iff.mp h
    unfold policyWord at ha
    cases hu : usableSize st.recs p with
    | none => rw [hu] at ha; cases ha
    | some u =>
      rw [hu] at ha
      dsimp only at ha
      split at ha
      · cases ha
      · rename_i hge
        cases ha
        have hz : cleared (st.mem (p + u - 8)) / 2 ^ 60 = 0 ↔ ∀ i, 61 ≤ i → (st.mem (p + u - 8)).testBit i = false := by
          rw [← Nat.shiftRight_eq_div_pow]
          constructor
          · intro h0 i hi
            have : (cleared (st.mem (p + u - 8)) >>> 60).testBit (i - 60) = false := by rw [h0, Nat.zero_testBit]
            rw [Nat.testBit_shiftRight, show 60 + (i - 60) = i by omega, cleared_bit, decide_eq_true (by omega), Bool.and_true] at this
            exact this
          · intro hall
            apply Nat.eq_of_testBit_eq
            intro j
            rw [Nat.testBit_shiftRight, cleared_bit, Nat.zero_testBit]
            by_cases hj : j = 0
            · subst hj
              simp
            · rw [hall (60 + j) (by omega)]
              rfl
        have hmem : ∀ x, x ≠ p + u - 8 → set st.mem (p + u - 8) (cleared (st.mem (p + u - 8))) x = st.mem x := fun x hx => set_ne hx
        have hat : set st.mem (p + u - 8) (cleared (st.mem (p + u - 8))) (p + u - 8) = cleared (st.mem (p + u - 8)) := by
          unfold set
          rw [if_pos rfl]
        split at h
        · rename_i hc
          cases h
          refine ⟨(by intro h; cases h), fun _ => rfl, (by intro h; cases h), fun _ => ⟨u, rfl, by omega, ?_, hmem, fun i => ?_⟩⟩
          · constructor
            · intro h; cases h
            · intro hall; exact absurd (hz.mpr hall) hc
          · dsimp only
            rw [hat, cleared_bit]
        · rename_i hc
          obtain ⟨s1, h1, h2⟩ := Option.map_eq_some_iff.mp h
          cases h2
          obtain ⟨h3, h4⟩ := hun h1
          refine ⟨fun _ => h3, (by intro h; cases h), (by intro h; cases h), fun _ => ⟨u, rfl, by omega, ?_, ?_, fun i => ?_⟩⟩
          · exact ⟨fun _ => hz.mp (Decidable.not_not.mp hc), fun _ => rfl⟩
          · intro x hx
            rw [h4]
            exact hmem x hx
          · rw [h4]
            dsimp only
            rw [hat, cleared_bit]

/-! ## Cases -/

/-- A history: two objects, one that grows in place and then moves, one that is freed. -/
def ex : List Ev := [.alloc 0x7000_1000 20 0x401000, .write 0x7000_1008 0xffff_ffff_ffff_ffff, .alloc 0x7000_1020 8 0x402000, .realloc 0x7000_1020 0x7000_1020 16 30 0x403000,
  .write 0x7000_1030 0xffff_ffff_ffff_ffff, .realloc 0x7000_1020 0x7000_3000 40 33 0x404000, .free 0x7000_1000]

theorem case_info : (run false ⟨[], fun _ => 0⟩ ex).bind (fun st => info st 0x7000_3007) = some ⟨0x7000_3000, 40, none, some 0x404000⟩ ∧
    (run false ⟨[], fun _ => 0⟩ (ex.take 5)).bind (fun st => info st 0x7000_1013) = some ⟨0x7000_1000, 20, none, some 0x401000⟩ ∧
    (run false ⟨[], fun _ => 0⟩ ex).bind (fun st => info st 0x7000_1013) = none := by decide +kernel

/-- Its first part is legal. -/
theorem case_legal : History 0x7000_0000 ⟨[], fun _ => 0⟩ [] (ex.take 4) [⟨0x7000_1020, 32, 0x403000⟩, ⟨0x7000_1000, 20, 0x401000⟩] := by
  refine .cons (.alloc (o := ⟨0x7000_1000, 20, 0x401000⟩) ⟨by constructor <;> simp [Obj.chunk, MAX], by decide, by simp, by decide⟩ (fun _ _ _ => rfl)) ?_
  intro st1 e1
  refine .cons (.write (by decide) (by decide) (by decide)) ?_
  intro st2 e2
  refine .cons (.alloc (o := ⟨0x7000_1020, 8, 0x402000⟩) ⟨by constructor <;> simp [Obj.chunk, MAX], by decide, by decide, by decide⟩ ?_) ?_
  · intro a h1 h2
    simp only [exec, alloc, insert, LinearMalloc.insert] at e1
    cases e1
    cases e2
    have h1 : 0x7000_1020 ≤ a := h1
    have hu : usable 20 = 24 := rfl
    show set (set (fun _ => 0) (0x7000_1000 + usable 20) _) 0x7000_1008 _ a = 0
    rw [set_ne (by omega), set_ne (by omega)]
  · intro st3 e3
    refine .cons (.realloc (A := []) (B := [⟨0x7000_1000, 20, 0x401000⟩]) (o := ⟨0x7000_1020, 8, 0x402000⟩) (d := ⟨0x7000_1020, 32, 0x403000⟩) (req := 30)
      ⟨by constructor <;> simp [Obj.chunk, MAX], by decide, by decide, by decide⟩ (by decide) (by decide) ?_) (fun _ _ => .nil)
    intro a _ _ h3
    have h3 : 0x7000_1030 ≤ a := h3 rfl
    simp only [exec, alloc, insert, LinearMalloc.insert] at e1
    cases e1
    cases e2
    simp only [exec, alloc, insert, LinearMalloc.insert] at e3
    cases e3
    have hu : usable 20 = 24 := rfl
    have hv : usable 8 = 8 := rfl
    show set (set (set (fun _ => 0) (0x7000_1000 + usable 20) _) 0x7000_1008 _) (0x7000_1020 + usable 8) _ a = 0
    rw [set_ne (by omega), set_ne (by omega), set_ne (by omega)]

/-- **C167** A chunk that shrinks may have the program's old data where the word behind it goes, and only the site's bits are stored: then the object is said to have a type, at an
address that is eight times that of the word, and no site. -/
theorem shrink_fails : (run false ⟨[], fun _ => 0⟩ [.alloc 0x7000_1000 64 0x401000, .write 0x7000_1008 0xffff_ffff_ffff_ffff, .realloc 0x7000_1000 0x7000_1000 72 8 0x402000]).bind
    (fun st => info st 0x7000_1000) = some ⟨0x7000_1000, 8, some 0x3_8000_8040, none⟩ := by decide +kernel

/-- **C167** The size after `realloc` is not the size asked for. -/
theorem size_fails : (run false ⟨[], fun _ => 0⟩ [.alloc 0x7000_1000 10 0x401000, .realloc 0x7000_1000 0x7000_1000 24 20 0x402000]).bind
    (fun st => info st 0x7000_1014) = some ⟨0x7000_1000, 24, none, some 0x402000⟩ := by decide +kernel

/-- **C167** In a build with lifetime policies the flag goes into the last word of the object, not behind it: memory from `calloc` is not clear. -/
theorem policy_never {st st' : State} {p req site : Nat} (h : alloc true st p req site = some st') :
    ∃ u, usableSize st'.recs p = some u ∧ 8 ≤ u ∧ st'.mem (p + u - 8) / 2 ^ 60 % 2 = 1 := by
  unfold alloc at h
  obtain ⟨st1, h1, h⟩ := Option.bind_eq_some_iff.mp h
  rw [if_pos rfl] at h
  obtain ⟨a, h2, h3⟩ := Option.map_eq_some_iff.mp h
  unfold policyWord at h2
  cases hu : usableSize st1.recs p with
  | none => rw [hu] at h2; cases h2
  | some u =>
    rw [hu] at h2
    dsimp only at h2
    split at h2
    · cases h2
    · cases h2
      subst h3
      refine ⟨u, hu, by omega, ?_⟩
      simp only [set, if_pos, flagged]
      split <;> omega

/-- **C167** There, an object whose last word has been written is not freed: it stays in the index. -/
theorem policy_fails : (run true ⟨[], fun _ => 0⟩ [.alloc 0x7000_1000 16 0x401000, .write 0x7000_1008 0x4000_0000_0000_0000, .free 0x7000_1000]).bind
    (fun st => info st 0x7000_1000) = some ⟨0x7000_1000, 16, none, some 0x401000⟩ ∧
    (run true ⟨[], fun _ => 0⟩ [.alloc 0x7000_1000 16 0x401000]).map (fun st => st.mem 0x7000_1008) = some 0x1000_0000_0000_0000 := by decide +kernel

end Liballocs.LdSoObj
