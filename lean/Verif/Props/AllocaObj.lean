import Verif.Model.AllocaObj
import Verif.Props.HeapObj
import Verif.Props.Alloca
/-!
# C166: what a query says of a stack allocation, over whole histories
-/
namespace Liballocs.AllocaObj
open Detour (Mem rd wr)
open HeapObj (Build GoodBuild Inside word setWord store)
open MallocIndex (Chunk MayAlloc St COVER)
open Alloca (SANE)

/-! ### Specification -/

/-- An object made by `alloca` in a function that is running: its chunk, and the site of the call. -/
structure Obj where
  c : Chunk
  site : BitVec 64

/-- The type that a query is to report. -/
def Obj.type (find : BitVec 64 → BitVec 64) (o : Obj) : Option (BitVec 64) :=
  if find o.site = 0#64 then none else some (find o.site)

/-- A function that is running: its frame pointer, where its counter is, where the space that `alloca` takes begins, the stack
pointer, and the objects it has made, last first. -/
structure Fr where
  bp : Nat
  ctr : Nat
  top : Nat
  sp : Nat
  objs : List Obj

def allObjs (L : List Fr) : List Obj := L.flatMap Fr.objs

/-- The lowest address in use by the functions running. -/
def low (hi : Nat) : List Fr → Nat
  | [] => hi
  | f :: _ => f.sp

/-- A byte that the program may write to: not in the word below an object, nor in the eight bytes after those it may use. -/
def MayWrite (c : Chunk) (a : Nat) : Prop :=
  (a + 8 < c.start ∨ c.start ≤ a) ∧ (a + 8 < c.start + c.usable ∨ c.start + c.usable ≤ a)

/-- What may happen, and the functions running after it. Blocks have less than 128 KiB and more than no bytes; no function is
left by `longjmp`; in a build with assertions queries are of the starts of objects. -/
inductive Legal (B : Build) (lo hi : Nat) : List Fr → Ev → List Fr → Prop
  | enter {L bp ctr sp} : lo ≤ sp → sp ≤ ctr → ctr < bp → bp ≤ low hi L →
      Legal B lo hi L (.enter bp ctr) (⟨bp, ctr, sp, sp, []⟩ :: L)
  | alloca {f L p n c} {site : BitVec 64} : p % 8 = 0 → lo ≤ p → p + Alloca.allocaSize 8 n ≤ f.sp → 0 < n →
      -- the first 16-aligned address with room for a word below it, and all the rest of the block
      c.start % 16 = 0 → p + 8 ≤ c.start → c.start < p + 24 → c.start + c.usable = p + Alloca.allocaSize 8 n → c.requested = n →
      c.usable ≤ 131072 → site.toNat < 2 ^ 47 →
      Legal B lo hi (f :: L) (.alloca p n site) ({ f with sp := p, objs := ⟨c, site⟩ :: f.objs } :: L)
  | store {L a b} : (∀ o ∈ allObjs L, MayWrite o.c a) → b < 256 → Legal B lo hi L (.store a b) L
  | ask {L a} : lo ≤ a → a < hi → (B.ndebug = true ∨ ∃ o ∈ allObjs L, o.c.start = a) → Legal B lo hi L (.ask a) L
  | leave {f L sp} : lo ≤ sp → sp ≤ f.sp → Legal B lo hi (f :: L) (.leave sp) L

inductive History (B : Build) (lo hi : Nat) : List Fr → List Ev → List Fr → Prop
  | nil {L} : History B lo hi L [] L
  | cons {L M N e es} : Legal B lo hi L e M → History B lo hi M es N → History B lo hi L (e :: es) N

/-! ### The bitmap -/

theorem ru (n : Nat) : roundUp n COVER % 1024 = 0 ∧ n ≤ roundUp n COVER ∧ roundUp n COVER < n + 1024 := by
  unfold roundUp COVER; omega

theorem rdn (n : Nat) : roundDown n COVER % 1024 = 0 ∧ roundDown n COVER ≤ n ∧ n < roundDown n COVER + 1024 := by
  unfold roundDown COVER; omega

structure BigOk (b : Big) (cs : List Chunk) : Prop where
  ix : MallocIndex.Inv b.begin_ b.end_ b.ix cs
  top : b.ix.base + 1024 * b.ix.nwords = roundUp b.end_ COVER
  lt : b.begin_ < b.end_

theorem newBig_ok {user bp : Nat} (h : user < bp) : BigOk (newBig user bp) [] := by
  have h1 := ru bp
  have h2 := rdn user
  refine ⟨?_, ?_, h⟩
  · constructor <;> simp [newBig]
  · simp only [newBig]; omega

theorem cover_ok {b : Big} {cs : List Chunk} (hb : BigOk b cs) (addr : Nat) :
    ∃ b', cover b addr = some b' ∧ BigOk b' cs ∧ b'.begin_ = min addr b.begin_ ∧ b'.end_ = b.end_ := by
  unfold cover
  have h1 := ru b.end_
  have h2 := rdn addr
  have h3 := rdn b.begin_
  have hB := hb.ix.base
  have ht := hb.top
  have hlt := hb.lt
  by_cases hc : b.begin_ ≤ addr
  · rw [if_pos hc]
    exact ⟨b, rfl, hb, by omega, rfl⟩
  · rw [if_neg hc]
    have hn : ((roundUp b.end_ COVER - roundDown addr COVER) / 16 + 63) / 64 * 1024 = roundUp b.end_ COVER - roundDown addr COVER := by omega
    have hle : roundDown addr COVER ≤ roundDown b.begin_ COVER := by unfold roundDown COVER at *; omega
    by_cases hw : b.ix.nwords < ((roundUp b.end_ COVER - roundDown addr COVER) / 16 + 63) / 64
    · rw [if_pos hw]
      generalize hk : ((roundUp b.end_ COVER - roundDown addr COVER) / 16 + 63) / 64 = n at *
      have hs : (shift b.ix (n - b.ix.nwords)).base = roundDown addr COVER := by simp only [shift]; omega
      dsimp only
      rw [if_pos hs]
      refine ⟨_, rfl, ⟨⟨hs, ?_, hb.ix.disj, hb.ix.disj', ?_, hb.ix.small, hb.ix.cap, hb.ix.promoted⟩, ?_, ?_⟩, by simp only; omega, rfl⟩
      · intro c hc'
        have := hb.ix.chunk c hc'
        simp only [hs]
        simp only [shift]
        refine ⟨this.1, by omega, this.2.2.1, this.2.2.2.1, this.2.2.2.2.1, ?_⟩
        omega
      · intro i hi
        simp only [shift] at hi ⊢
        have hbase : b.ix.base - (n - b.ix.nwords) * 64 * 16 + 16 * (64 * (n - b.ix.nwords)) = b.ix.base := by omega
        split
        · rename_i hlt'
          refine ⟨fun h => (by cases h), fun ⟨c, hcm, hcs⟩ => ?_⟩
          have := hb.ix.chunk c hcm
          omega
        · rename_i hge
          rw [hb.ix.bits _ (by omega)]
          constructor
          · rintro ⟨c, hcm, hcs⟩; exact ⟨c, hcm, by omega⟩
          · rintro ⟨c, hcm, hcs⟩; exact ⟨c, hcm, by omega⟩
      · simp only [hs]; simp only [shift]; omega
      · simp only; omega
    · rw [if_neg hw]
      have he : b.ix.base = roundDown addr COVER := by omega
      rw [if_pos he]
      refine ⟨_, rfl, ⟨⟨he, ?_, hb.ix.disj, hb.ix.disj', hb.ix.bits, hb.ix.small, hb.ix.cap, hb.ix.promoted⟩, ht, by simp only; omega⟩, by simp only; omega, rfl⟩
      intro c hc'
      have := hb.ix.chunk c hc'
      exact ⟨this.1, by simp only; omega, this.2.2⟩

/-! ### The invariant -/

def StackOk (lo hi : Nat) : List Fr → Prop
  | [] => True
  | f :: L => lo ≤ f.sp ∧ f.sp ≤ f.top ∧ f.top ≤ f.ctr ∧ f.ctr < f.bp ∧ f.bp ≤ low hi L ∧
      (∀ o ∈ f.objs, f.sp + 8 ≤ o.c.start ∧ o.c.start + o.c.usable ≤ f.top ∧ o.c.usable ≤ 131072 ∧ o.c.requested + 8 ≤ o.c.usable ∧
        0 < o.c.requested) ∧ StackOk lo hi L

structure BigFor (b : Big) (f : Fr) : Prop where
  ok : BigOk b (f.objs.map Obj.c)
  end_ : b.end_ = f.bp
  first : ∃ o ∈ f.objs, o.c.start = b.begin_

def Rel : List Big → List Fr → Prop
  | bs, [] => bs = []
  | bs, f :: L =>
    match f.objs with
    | [] => Rel bs L
    | _ :: _ =>
      match bs with
      | [] => False
      | b :: bs => BigFor b f ∧ Rel bs L

theorem Rel.nil {bs : List Big} {f : Fr} {L : List Fr} (h : Rel bs (f :: L)) (hf : f.objs = []) : Rel bs L := by
  simpa only [Rel, hf] using h

theorem Rel.cons {bs : List Big} {f : Fr} {L : List Fr} (h : Rel bs (f :: L)) (hf : f.objs ≠ []) :
    ∃ b bs', bs = b :: bs' ∧ BigFor b f ∧ Rel bs' L := by
  cases ho : f.objs with
  | nil => exact absurd ho hf
  | cons o os =>
    simp only [Rel, ho] at h
    cases bs with
    | nil => exact h.elim
    | cons b bs => exact ⟨b, bs, rfl, h⟩

theorem Rel.mkNil {bs : List Big} {f : Fr} {L : List Fr} (h : Rel bs L) (hf : f.objs = []) : Rel bs (f :: L) := by
  simpa only [Rel, hf] using h

theorem Rel.mkCons {b : Big} {bs : List Big} {f : Fr} {L : List Fr} (h : Rel bs L) (hf : f.objs ≠ []) (hb : BigFor b f) :
    Rel (b :: bs) (f :: L) := by
  cases ho : f.objs with
  | nil => exact absurd ho hf
  | cons o os => simp only [Rel, ho]; exact ⟨hb, h⟩

/-- What the words of an object may hold. -/
def Says (B : Build) (o : Obj) (w : Insert.W) : Prop := HeapObj.Says B ⟨o.c, o.site, none, B.ndebug⟩ w

def Fr.frame (f : Fr) : Frame := ⟨f.bp, f.ctr, (f.objs.map (fun o => o.c.usable)).sum⟩

structure Inv (B : Build) (lo hi : Nat) (s : State) (L : List Fr) : Prop where
  frames : s.frames = L.map Fr.frame
  stack : StackOk lo hi L
  rel : Rel s.bigs L
  sorted : (allObjs L).Pairwise (fun o x => o.c.start + o.c.usable + 8 ≤ x.c.start)
  size : ∀ o ∈ allObjs L, usableOf s.mem o.c.start = o.c.usable
  says : ∀ o ∈ allObjs L, Says B o (word s.mem (o.c.start + (o.c.usable - 8)))
  quiet : s.warned = 0

theorem inv_init (B : Build) (lo hi : Nat) (m : Mem) : Inv B lo hi (init m) [] :=
  ⟨rfl, trivial, rfl, List.Pairwise.nil, fun _ h => (by cases h), fun _ h => (by cases h), rfl⟩

theorem pairwise_cases {α : Type} {R : α → α → Prop} {l : List α} (h : l.Pairwise R) {x y : α} (hx : x ∈ l) (hy : y ∈ l) :
    x = y ∨ R x y ∨ R y x := by
  induction h with
  | nil => cases hx
  | cons h1 _ ih =>
    rcases List.mem_cons.1 hx with hx1 | hx1 <;> rcases List.mem_cons.1 hy with hy1 | hy1
    · exact Or.inl (hx1.trans hy1.symm)
    · exact Or.inr (Or.inl (hx1 ▸ h1 _ hy1))
    · exact Or.inr (Or.inr (hy1 ▸ h1 _ hx1))
    · exact ih hx1 hy1

theorem mem_allObjs {L : List Fr} {o : Obj} : o ∈ allObjs L ↔ ∃ f ∈ L, o ∈ f.objs := by
  simp [allObjs, List.mem_flatMap]

theorem stack_low {lo hi : Nat} (hlh : lo ≤ hi) : ∀ {L : List Fr}, StackOk lo hi L → lo ≤ low hi L ∧ low hi L ≤ hi ∧
    ∀ f ∈ L, low hi L ≤ f.sp ∧ f.sp ≤ f.top ∧ f.top ≤ f.ctr ∧ f.ctr < f.bp ∧ f.bp ≤ hi ∧
      ∀ o ∈ f.objs, f.sp + 8 ≤ o.c.start ∧ o.c.start + o.c.usable ≤ f.top ∧ o.c.usable ≤ 131072 ∧ o.c.requested + 8 ≤ o.c.usable ∧
        0 < o.c.requested
  | [], _ => ⟨hlh, Nat.le_refl _, fun _ h => (by cases h)⟩
  | g :: L, h => by
    obtain ⟨h1, h2, h3, h4, h5, h6, h7⟩ := h
    obtain ⟨i1, i2, i3⟩ := stack_low hlh h7
    refine ⟨h1, by simp only [low]; omega, fun f hf => ?_⟩
    rcases List.mem_cons.1 hf with rfl | hf
    · exact ⟨Nat.le_refl _, h2, h3, h4, by omega, h6⟩
    · obtain ⟨j1, j2, j3, j4, j5, j6⟩ := i3 f hf
      exact ⟨by simp only [low]; omega, j2, j3, j4, j5, j6⟩

theorem rel_mem {b : Big} : ∀ {L : List Fr} {bs : List Big}, Rel bs L → b ∈ bs → ∃ f ∈ L, f.objs ≠ [] ∧ BigFor b f
  | [], bs, h, hb => by simp only [Rel] at h; rw [h] at hb; cases hb
  | f :: L, bs, h, hb => by
    by_cases ho : f.objs = []
    · obtain ⟨g, hg, h'⟩ := rel_mem (h.nil ho) hb
      exact ⟨g, List.mem_cons_of_mem _ hg, h'⟩
    · obtain ⟨b', bs', rfl, h1, h2⟩ := h.cons ho
      rcases List.mem_cons.1 hb with rfl | hb
      · exact ⟨f, List.mem_cons_self, ho, h1⟩
      · obtain ⟨g, hg, h'⟩ := rel_mem h2 hb
        exact ⟨g, List.mem_cons_of_mem _ hg, h'⟩

theorem bigFor_bounds {lo hi : Nat} (hlh : lo ≤ hi) {L : List Fr} (hs : StackOk lo hi L) {b : Big} {f : Fr} (hf : f ∈ L)
    (hb : BigFor b f) : low hi L + 8 ≤ b.begin_ ∧ f.sp + 8 ≤ b.begin_ ∧ b.begin_ < f.ctr ∧ b.end_ ≤ hi ∧ b.end_ = f.bp := by
  obtain ⟨o, ho, hb1⟩ := hb.first
  obtain ⟨h1, h2, h3, h4, h5, h6⟩ := (stack_low hlh hs).2.2 f hf
  have := h6 o ho
  have := hb.end_
  omega

theorem holds_iff {a : Nat} {b : Big} : holds a b = true ↔ b.begin_ ≤ a ∧ a < b.end_ := by simp [holds]

/-- Nothing below the innermost frame, and nothing beyond it in it. -/
theorem bigAt_below {lo hi : Nat} (hlh : lo ≤ hi) {L : List Fr} (hs : StackOk lo hi L) {bs : List Big} (hr : Rel bs L) {a : Nat}
    (ha : a < low hi L) : bigAt bs a = none := by
  unfold bigAt
  rw [List.find?_eq_none]
  intro b hb
  obtain ⟨f, hf, _, hbf⟩ := rel_mem hr hb
  have := bigFor_bounds hlh hs hf hbf
  rw [holds_iff]
  omega

theorem filter_below {lo hi : Nat} (hlh : lo ≤ hi) {L : List Fr} (hs : StackOk lo hi L) {bs : List Big} (hr : Rel bs L) {a : Nat}
    (ha : a < low hi L) : bs.filter (fun x => !holds a x) = bs := by
  rw [List.filter_eq_self]
  intro b hb
  obtain ⟨f, hf, _, hbf⟩ := rel_mem hr hb
  have := bigFor_bounds hlh hs hf hbf
  rw [Bool.not_eq_true', ← Bool.not_eq_true, holds_iff]
  omega

theorem bigAt_obj {lo hi : Nat} (hlh : lo ≤ hi) {o : Obj} {a : Nat} (ha : o.c.start ≤ a) (ha' : a < o.c.start + o.c.usable) :
    ∀ {L : List Fr}, StackOk lo hi L → ∀ {bs : List Big}, Rel bs L → ∀ {f : Fr}, f ∈ L → o ∈ f.objs →
    ∃ b, bigAt bs a = some b ∧ BigFor b f
  | [], _, _, _, _, hf, _ => by cases hf
  | g :: L, hs, bs, hr, f, hf, ho => by
    obtain ⟨h1, h2, h3, h4, h5, h6, h7⟩ := hs
    by_cases hg : g.objs = []
    · rcases List.mem_cons.1 hf with rfl | hf
      · rw [hg] at ho; cases ho
      · exact bigAt_obj hlh ha ha' h7 (hr.nil hg) hf ho
    · obtain ⟨b, bs', rfl, hb, hr'⟩ := hr.cons hg
      rcases List.mem_cons.1 hf with rfl | hf
      · refine ⟨b, ?_, hb⟩
        have hc := hb.ok.ix.chunk o.c (List.mem_map_of_mem ho)
        have := h6 o ho
        have := hb.end_
        unfold bigAt
        rw [List.find?_cons_of_pos (holds_iff.2 ⟨by omega, by omega⟩)]
      · obtain ⟨b', hb', hbf⟩ := bigAt_obj hlh ha ha' h7 hr' hf ho
        refine ⟨b', ?_, hbf⟩
        obtain ⟨k1, k2, k3, k4, k5, k6⟩ := (stack_low hlh h7).2.2 f hf
        have := k6 o ho
        have := hb.end_
        unfold bigAt at hb' ⊢
        rw [List.find?_cons_of_neg (fun h => (by have := holds_iff.1 h; omega)), hb']

/-! ### Finding -/

theorem no_promoted {b : Big} {f : Fr} (hb : BigFor b f) (hs : ∀ o ∈ f.objs, o.c.usable ≤ 131072) (a : Nat) :
    MallocIndex.findPromoted b.ix a = none := by
  cases h : MallocIndex.findPromoted b.ix a with
  | none => rfl
  | some x =>
    obtain ⟨c, hc, hu, _⟩ := MallocIndex.findPromoted_some hb.ok.ix h
    obtain ⟨o, ho, rfl⟩ := List.mem_map.1 hc
    have := hs o ho
    omega

theorem usableOf_store (m : Mem) {p a b : Nat} (hp : 8 ≤ p) (h : a + 8 < p ∨ p ≤ a) : usableOf (store m a b) p = usableOf m p := by
  unfold usableOf
  exact Detour.rd_congr 8 _ _ (fun i hi => by unfold store; rw [if_neg (by omega)])

theorem usableOf_setWord (m : Mem) {p a : Nat} (w : Insert.W) (hp : 8 ≤ p) (h : p ≤ a ∨ a + 8 + 8 ≤ p) :
    usableOf (setWord m a w) p = usableOf m p := by
  unfold usableOf setWord
  exact Detour.rd_wr_out m (by omega)

/-- The walk at the end of a function: all chunks, and so all that the counter counts. -/
theorem walk_all (B : Build) (m : Mem) (total : Nat) : ∀ (k cur done : Nat) (s : St) (cs : List Chunk),
    (∀ i, cur ≤ i → i < cur + k → (s.bits i = true ↔ ∃ c ∈ cs, c.start = s.base + 16 * i)) →
    cs.Pairwise (fun c d => c.start < d.start) →
    (∀ c ∈ cs, s.base + 16 * cur ≤ c.start ∧ c.start < s.base + 16 * (cur + k) ∧ c.start % 16 = 0 ∧ usableOf m c.start = c.usable ∧
      c.usable ≤ 131072 ∧ 0 < c.usable) →
    cur + k ≤ 64 * s.nwords → s.promoted = [] → s.base % 16 = 0 → cs ≠ [] → total = done + (cs.map Chunk.usable).sum →
    walk B m total k cur done s = some total
  | 0, cur, done, s, cs, _, _, h3, _, _, _, h7, _ => by
    cases cs with
    | nil => exact absurd rfl h7
    | cons c cs => have := h3 c List.mem_cons_self; omega
  | k + 1, cur, done, s, cs, h1, h2, h3, h4, h5, h6, h7, h8 => by
    unfold walk
    by_cases hb : s.bits cur = true
    · rw [if_pos hb]
      obtain ⟨c, hc, hcs⟩ := (h1 cur (Nat.le_refl _) (by omega)).1 hb
      cases cs with
      | nil => cases hc
      | cons d ds =>
        rw [List.pairwise_cons] at h2
        have hd := h3 d List.mem_cons_self
        have hcd : c = d := by
          rcases List.mem_cons.1 hc with h | h
          · exact h
          · have := h2.1 c h
            omega
        subst hcd
        have hdel : MallocIndex.indexDelete s (s.base + 16 * cur) =
            some { s with bits := fun i => if i = cur then false else s.bits i } := by
          have hf : MallocIndex.findPromoted s (s.base + 16 * cur) = none := by
            unfold MallocIndex.findPromoted; rw [h5]; rfl
          unfold MallocIndex.indexDelete
          rw [hf]
          dsimp only
          have e : (s.base + 16 * cur - s.base) / 16 = cur := by omega
          rw [if_neg (by omega), e, if_pos (by omega)]
        rw [hdel]
        dsimp only
        rw [← hcs, hd.2.2.2.1, if_neg (by unfold SANE; omega)]
        simp only [List.map_cons, List.sum_cons] at h8
        by_cases ht : total ≤ done + c.usable
        · rw [if_pos ht]
          congr 1
          omega
        · rw [if_neg ht]
          refine walk_all B m total k (cur + 1) (done + c.usable) _ ds ?_ h2.2 ?_ (by simp only; omega) h5 h6 ?_ (by omega)
          · intro i hi hi'
            dsimp only
            rw [if_neg (by omega), h1 i (by omega) (by omega)]
            constructor
            · rintro ⟨x, hx, hxs⟩
              rcases List.mem_cons.1 hx with rfl | hx
              · omega
              · exact ⟨x, hx, hxs⟩
            · rintro ⟨x, hx, hxs⟩
              exact ⟨x, List.mem_cons_of_mem _ hx, hxs⟩
          · intro x hx
            have := h3 x (List.mem_cons_of_mem _ hx)
            have := h2.1 x hx
            dsimp only
            omega
          · rintro rfl
            simp at h8
            omega
    · rw [if_neg hb]
      refine walk_all B m total k (cur + 1) done s cs (fun i hi hi' => h1 i (by omega) (by omega)) h2 ?_ (by omega) h5 h6 h7 h8
      intro c hc
      have := h3 c hc
      have : c.start ≠ s.base + 16 * cur := fun h => hb ((h1 cur (Nat.le_refl _) (by omega)).2 ⟨c, hc, h⟩)
      omega

theorem insert_nwords {s s' : St} {p r u e : Nat} (h : MallocIndex.indexInsert s p r u = some s') (hb : s.base % 1024 = 0)
    (ht : s.base + 1024 * s.nwords = roundUp e COVER) (he : p + r ≤ e) : s'.nwords = s.nwords ∧ s'.base = s.base := by
  have hens : MallocIndex.ensureTo s (p + r) = s := by
    unfold MallocIndex.ensureTo
    have := ru (p + r)
    have : roundUp (p + r) COVER ≤ roundUp e COVER := by unfold roundUp COVER; omega
    rw [if_neg (show ¬ s.nwords < (roundUp (p + r) COVER - s.base) / 1024 by omega)]
  unfold MallocIndex.indexInsert at h
  rw [hens] at h
  dsimp only at h
  split at h
  · cases h
  · cases hp : MallocIndex.shouldPromote u <;> rw [hp] at h <;> simp only [if_true, if_false, Bool.false_eq_true] at h <;> split at h
    · simp only [Option.some.injEq] at h
      rw [← h]
      exact ⟨rfl, rfl⟩
    · cases h
    · simp only [Option.some.injEq] at h
      rw [← h]
      exact ⟨rfl, rfl⟩
    · cases h

theorem size_bounds (n : Nat) : n + 24 ≤ Alloca.allocaSize 8 n ∧ Alloca.allocaSize 8 n ≤ n + 39 ∧ Alloca.allocaSize 8 n % 16 = 0 := by
  have h1 := Alloca.padTo_spec (n + 8) 16 (by decide)
  have h2 : Alloca.padTo 8 16 = 16 := by decide
  simp only [Alloca.allocaSize, h2]
  omega

theorem adjust_eq {p n k : Nat} {c : Chunk} (h5 : c.start % 16 = 0) (h6 : p + 8 ≤ c.start) (h7 : c.start < p + 24)
    (h8 : c.start + c.usable = p + Alloca.allocaSize 8 n) :
    Alloca.adjust p (Alloca.allocaSize 8 n) k = ⟨c.start, c.usable, k + c.usable⟩ := by
  have h1 := Alloca.padTo_spec (p + 8) 16 (by decide)
  have hu : Alloca.padTo (p + 8) 16 = c.start := by omega
  have hs := size_bounds n
  have hn : Alloca.allocaSize 8 n - (c.start - p) = c.usable := by omega
  simp only [Alloca.adjust, hu, hn]

/-- What the words of a new object hold, and those of others. -/
theorem mem_new (m : Mem) {p n : Nat} {c : Chunk} (h6 : p + 8 ≤ c.start) (h8 : c.start + c.usable = p + Alloca.allocaSize 8 n)
    (hu : 8 ≤ c.usable) (hu' : c.usable ≤ 131072) :
    usableOf (wr (zero m p (Alloca.allocaSize 8 n)) (c.start - 8) c.usable 8) c.start = c.usable ∧
    ∀ a, p + Alloca.allocaSize 8 n ≤ a →
      rd (wr (zero m p (Alloca.allocaSize 8 n)) (c.start - 8) c.usable 8) a 8 = rd m a 8 := by
  refine ⟨?_, fun a ha => ?_⟩
  · unfold usableOf
    rw [Detour.rd_wr_self]
    have : (256 : Nat) ^ 8 = 2 ^ 64 := by decide
    omega
  · rw [Detour.rd_wr_out _ (by omega)]
    exact Detour.rd_congr 8 _ _ (fun i hi => by unfold zero; rw [if_neg (by omega)])

/-- An object made by `alloca` is all zeros, and nothing outside the block is changed. -/
theorem clear_exact {B : Build} {s s' : State} {p n : Nat} {site : BitVec 64} (h : exec B s (.alloca p n site) = some s') (hp : p % 16 = 0) (hn : n + 40 < 2 ^ 64) :
    (∀ x, Alloca.padTo (p + 8) 16 ≤ x → x < Alloca.padTo (p + 8) 16 + n → s'.mem x = 0) ∧
    ∀ x, x < p ∨ p + Alloca.allocaSize 8 n ≤ x → s'.mem x = s.mem x := by
  have hsb := size_bounds n
  have hpad := Alloca.padTo_spec (p + 8) 16 (by decide)
  have hex : exec B s (.alloca p n site) = match s.frames with
    | [] => none
    | f :: fs => adjusted B s f fs p n site := rfl
  rw [hex] at h
  split at h
  · cases h
  · rename_i f fs _
    unfold adjusted at h
    simp only [Alloca.adjust] at h
    generalize hU : Alloca.padTo (p + 8) 16 = user at *
    generalize hA : Alloca.allocaSize 8 n = size at *
    have hus : usableOf (wr (zero s.mem p size) (user - 8) (size - (user - p)) 8) user = size - (user - p) := by
      unfold usableOf
      rw [Detour.rd_wr_self]
      have : (256 : Nat) ^ 8 = 2 ^ 64 := by decide
      omega
    split at h
    · cases h
    · rename_i bs m hno
      simp only [Option.some.injEq] at h
      subst h
      have hm : m = setWord (wr (zero s.mem p size) (user - 8) (size - (user - p)) 8) (user + (size - (user - p) - 8))
          (Insert.indexInsert (word (wr (zero s.mem p size) (user - 8) (size - (user - p)) 8) (user + (size - (user - p) - 8))) site) := by
        unfold notify at hno
        split at hno
        · cases hno
        · split at hno
          · cases hno
          · split at hno
            · cases hno
            · split at hno
              · cases hno
              · rename_i r hins
                unfold checked at hno
                split at hno
                · cases hno
                · simp only [Option.some.injEq] at hno
                  subst hno
                  unfold insert at hins
                  split at hins
                  · cases hins
                  · split at hins
                    · cases hins
                    · simp only [Option.some.injEq, Prod.mk.injEq] at hins
                      rw [← hins.2, hus]
      have hout : ∀ x, (x + 8 < user ∨ user ≤ x) → (x < user + (size - (user - p) - 8) ∨ user + (size - (user - p) - 8) + 8 ≤ x) →
          m x = zero s.mem p size x := by
        intro x h1 h2
        rw [hm]
        unfold setWord
        rw [Detour.wr_out _ (by omega), Detour.wr_out _ (by omega)]
      refine ⟨fun x h1 h2 => ?_, fun x hx => ?_⟩
      · show m x = 0
        rw [hout x (by omega) (by omega)]
        unfold zero
        rw [if_pos (by omega)]
      · show m x = s.mem x
        rw [hout x (by omega) (by omega)]
        unfold zero
        rw [if_neg (by omega)]

section
variable {B : Build} {lo hi : Nat} {s : State} {L : List Fr}
  (hlo : 2 ^ 18 ≤ lo) (hsz : hi ≤ lo + 2 ^ 36 - 1024) (hhi : hi < 2 ^ 64) (hlh : lo ≤ hi)

include hlo hsz hhi hlh

/-- The word below the address does not stop a build with assertions. -/
def Calm (B : Build) (m : Mem) (a : Nat) : Prop := B.ndebug = true ∨ usableOf m a ≤ SANE

theorem locate_inside {bs : List Big} {m : Mem} (hs : StackOk lo hi L) (hr : Rel bs L) {o : Obj} (ho : o ∈ allObjs L) {a : Nat}
    (ha : Inside o.c a) (hc : Calm B m a) : locate B bs m a = .chunk o.c.start := by
  obtain ⟨f, hf, hof⟩ := mem_allObjs.1 ho
  obtain ⟨k1, k2, k3, k4, k5, k6⟩ := (stack_low hlh hs).2.2 f hf
  have ko := k6 o hof
  obtain ⟨b, hb, hbf⟩ := bigAt_obj hlh ha.1 (by have := ha.2; omega) hs hr hf hof
  have hbb := bigFor_bounds hlh hs hf hbf
  have hl := (stack_low hlh hs).1
  have hq := MallocIndex.query_interior hbf.ok.ix (by omega) (by omega) (by omega) B.ndebug (List.mem_map_of_mem hof) ha.1 ha.2
  have hp := no_promoted hbf (fun o ho => (k6 o ho).2.2.1) a
  rw [MallocIndex.query, hp] at hq
  dsimp only at hq
  unfold locate
  rw [hb]
  dsimp only
  rw [hp]
  dsimp only
  rw [if_neg, hq]
  · rfl
  · rintro ⟨h1, h2⟩
    rcases hc with hc | hc
    · rw [hc] at h1; cases h1
    · omega

theorem calm_start (hI : Inv B lo hi s L) {o : Obj} (ho : o ∈ allObjs L) : Calm B s.mem o.c.start := by
  refine Or.inr ?_
  obtain ⟨f, hf, hof⟩ := mem_allObjs.1 ho
  have := ((stack_low hlh hI.stack).2.2 f hf).2.2.2.2.2 o hof
  rw [hI.size o ho]
  unfold SANE
  omega

/-- Wherever one asks. -/
theorem locate_any {bs : List Big} {m : Mem} (hs : StackOk lo hi L) (hr : Rel bs L) {a : Nat} (hc : Calm B m a) :
    locate B bs m a = .elsewhere ∨ locate B bs m a = .unindexed ∨
      ∃ o ∈ allObjs L, o.c.start ≤ a ∧ locate B bs m a = .chunk o.c.start := by
  unfold locate
  cases hb : bigAt bs a with
  | none => exact Or.inl rfl
  | some b =>
    obtain ⟨f, hf, _, hbf⟩ := rel_mem hr (List.mem_of_find?_eq_some hb)
    have hh := holds_iff.1 (List.find?_some hb)
    have hbb := bigFor_bounds hlh hs hf hbf
    have hl := (stack_low hlh hs).1
    have hp := no_promoted hbf (fun o ho => (((stack_low hlh hs).2.2 f hf).2.2.2.2.2 o ho).2.2.1) a
    have hB := hbf.ok.ix.base
    have hrb := rdn b.begin_
    have hru := ru b.end_
    have htop := hbf.ok.top
    dsimp only
    rw [hp]
    dsimp only
    rw [if_neg]
    · cases hq : MallocIndex.lookupBitmap b.ix B.ndebug a with
      | notFound => exact Or.inr (Or.inl rfl)
      | found q =>
        have hq' : MallocIndex.query b.ix B.ndebug a = .found q := by rw [MallocIndex.query, hp]; exact hq
        obtain ⟨c, hc, hcs, hle, _⟩ := MallocIndex.query_found hbf.ok.ix (by omega) (by omega) (by omega) (by omega) hh.2 hq'
        obtain ⟨o, ho, rfl⟩ := List.mem_map.1 hc
        exact Or.inr (Or.inr ⟨o, mem_allObjs.2 ⟨f, hf, ho⟩, by omega, by rw [hcs]; rfl⟩)
      | outOfBounds =>
        exfalso
        simp only [MallocIndex.lookupBitmap] at hq
        have hst : (MallocIndex.wsub a b.ix.base / 16) % 2 ^ 32 = (a - b.ix.base) / 16 := by
          unfold MallocIndex.wsub; omega
        rw [hst] at hq
        split at hq
        · have hcap := hbf.ok.ix.cap
          have hhid := @MallocIndex.hidden_spec b.ix B.ndebug a (by omega) (by omega) (by omega)
          omega
        · split at hq <;> simp at hq
    · rintro ⟨h1, h2⟩
      rcases hc with hc | hc
      · rw [hc] at h1; cases h1
      · omega

/-! ### Steps -/

theorem apart (hI : Inv B lo hi s L) {o x : Obj} (ho : o ∈ allObjs L) (hx : x ∈ allObjs L) :
    o = x ∨ o.c.start + o.c.usable + 8 ≤ x.c.start ∨ x.c.start + x.c.usable + 8 ≤ o.c.start := pairwise_cases hI.sorted ho hx

theorem room (hI : Inv B lo hi s L) {o : Obj} (ho : o ∈ allObjs L) :
    lo + 8 ≤ o.c.start ∧ o.c.start + o.c.usable ≤ hi ∧ o.c.usable ≤ 131072 ∧ o.c.requested + 8 ≤ o.c.usable ∧ 0 < o.c.requested ∧
    low hi L + 8 ≤ o.c.start := by
  obtain ⟨f, hf, hof⟩ := mem_allObjs.1 ho
  obtain ⟨k1, k2, k3, k4, k5, k6⟩ := (stack_low hlh hI.stack).2.2 f hf
  have := k6 o hof
  have := (stack_low hlh hI.stack).1
  omega

theorem inv_store (hI : Inv B lo hi s L) {a b : Nat} (h : ∀ o ∈ allObjs L, MayWrite o.c a) :
    Inv B lo hi { s with mem := store s.mem a b } L := by
  refine ⟨hI.frames, hI.stack, hI.rel, hI.sorted, fun o ho => ?_, fun o ho => ?_, hI.quiet⟩
  · have := room hlo hsz hhi hlh hI ho
    have := h o ho
    rw [← hI.size o ho]
    exact usableOf_store _ (by omega) this.1
  · have := room hlo hsz hhi hlh hI ho
    have := (h o ho).2
    show Says B o (word (store s.mem a b) _)
    rw [HeapObj.word_store _ (by omega)]
    exact hI.says o ho

/-- A query that finds an object. -/
theorem inv_found (hB : GoodBuild B) (hI : Inv B lo hi s L) {o : Obj} (ho : o ∈ allObjs L) {a : Nat}
    (hl : locate B s.bigs s.mem a = .chunk o.c.start) :
    ∃ i s', getInfo B s a = .ok (i, s') ∧ i.base = o.c.start ∧ (16 ≤ o.c.usable → i.size + 16 = o.c.usable) ∧
      i.type = o.type B.find ∧ (B.ndebug = false → i.site = o.site) ∧ Inv B lo hi s' L := by
  have hro := room hlo hsz hhi hlh hI ho
  obtain ⟨t1, t2, t3⟩ := HeapObj.says_extract hB (hI.says o ho)
  unfold getInfo
  rw [hl]
  dsimp only
  rw [hI.size o ho]
  refine ⟨_, _, rfl, rfl, ?_, t1, t2, ?_⟩
  · intro h
    dsimp only
    unfold MallocIndex.wsub
    omega
  · refine ⟨hI.frames, hI.stack, hI.rel, hI.sorted, fun x hx => ?_, fun x hx => ?_, hI.quiet⟩
    · rw [← hI.size x hx]
      have hrx := room hlo hsz hhi hlh hI hx
      refine usableOf_setWord _ _ (by omega) ?_
      rcases apart hlo hsz hhi hlh hI ho hx with rfl | h | h <;> omega
    · have hrx := room hlo hsz hhi hlh hI hx
      rcases apart hlo hsz hhi hlh hI ho hx with rfl | h
      · show Says B o (word (setWord s.mem _ _) _)
        rw [HeapObj.word_setWord]
        have : (B.ndebug || B.ndebug) = B.ndebug := by cases B.ndebug <;> rfl
        dsimp only at t3
        rw [this] at t3
        exact t3
      · show Says B x (word (setWord s.mem _ _) _)
        rw [HeapObj.word_setWord_out _ _ (by omega)]
        exact hI.says x hx

theorem inv_ask (hB : GoodBuild B) (hI : Inv B lo hi s L) {a : Nat} (hc : Calm B s.mem a) :
    ∃ s', exec B s (.ask a) = some s' ∧ Inv B lo hi s' L := by
  rcases locate_any hlo hsz hhi hlh hI.stack hI.rel hc with h | h | ⟨o, ho, _, h⟩
  · exact ⟨s, by simp only [exec, getInfo, h, asked], hI⟩
  · exact ⟨s, by simp only [exec, getInfo, h, asked], hI⟩
  · obtain ⟨i, s', h1, _, _, _, _, h2⟩ := inv_found hlo hsz hhi hlh hB hI ho h
    exact ⟨s', by simp only [exec, h1, asked], h2⟩

theorem low_le (hI : Inv B lo hi s L) : lo ≤ low hi L ∧ low hi L ≤ hi :=
  ⟨(stack_low hlh hI.stack).1, (stack_low hlh hI.stack).2.1⟩

theorem inv_leave {f : Fr} (hI : Inv B lo hi s (f :: L)) {sp : Nat} (h1 : lo ≤ sp) (h2 : sp ≤ f.sp) :
    ∃ s', exec B s (.leave sp) = some s' ∧ Inv B lo hi s' L := by
  obtain ⟨k1, k2, k3, k4, k5, k6, k7⟩ := hI.stack
  have hsub : (allObjs L).Sublist (allObjs (f :: L)) := by
    simp only [allObjs, List.flatMap_cons]; exact List.sublist_append_right _ _
  have key : ∀ bs, Rel bs L → Inv B lo hi { s with frames := L.map Fr.frame, bigs := bs, warned := s.warned + 0 } L := fun bs hr =>
    ⟨rfl, k7, hr, hI.sorted.sublist hsub, fun o ho => hI.size o (hsub.subset ho), fun o ho => hI.says o (hsub.subset ho), hI.quiet⟩
  simp only [exec, hI.frames, List.map_cons, leave]
  by_cases ho : f.objs = []
  · have hr := hI.rel.nil ho
    have hn := bigAt_below hlh k7 hr (a := f.ctr) (by omega)
    have hcount : f.frame.count = 0 := by simp [Fr.frame, ho]
    have : unindex B s.bigs s.mem f.frame.ctr f.frame.count sp = some (s.bigs, 0) := by
      unfold unindex
      rw [show f.frame.ctr = f.ctr from rfl, hn]
      dsimp only
      rw [if_pos hcount]
    rw [this]
    exact ⟨_, rfl, key _ hr⟩
  · obtain ⟨b, bs, hbs, hb, hr⟩ := hI.rel.cons ho
    have hbb := bigFor_bounds hlh hI.stack List.mem_cons_self hb
    have hh : holds f.ctr b = true := holds_iff.2 ⟨by omega, by omega⟩
    have hat : bigAt s.bigs f.ctr = some b := by unfold bigAt; rw [hbs, List.find?_cons_of_pos hh]
    have hfil : s.bigs.filter (fun x => !holds f.ctr x) = bs := by
      rw [hbs, List.filter_cons_of_neg (by simp [hh])]
      exact filter_below hlh k7 hr (by omega)
    obtain ⟨b', hc1, hc2, hc3, hc4⟩ := cover_ok hb.ok sp
    have hpos : ∀ o ∈ f.objs, 0 < o.c.usable := fun o ho => by have := k6 o ho; omega
    have hcount : f.frame.count ≠ 0 := by
      cases hobj : f.objs with
      | nil => exact absurd hobj ho
      | cons o os =>
        have := hpos o (by rw [hobj]; exact List.mem_cons_self)
        simp only [Fr.frame, hobj, List.map_cons, List.sum_cons]
        omega
    have hbase := hc2.ix.base
    have hrd := rdn b'.begin_
    have hw : walk B s.mem f.frame.count (64 * b'.ix.nwords - (sp - b'.ix.base) / 16) ((sp - b'.ix.base) / 16) 0 b'.ix =
        some f.frame.count := by
      have hne : f.objs.map Obj.c ≠ [] := by simpa using ho
      obtain ⟨o0, ho0⟩ := List.exists_mem_of_ne_nil _ ho
      have hch : ∀ o ∈ f.objs, b'.ix.base + 16 * ((sp - b'.ix.base) / 16) ≤ o.c.start ∧
          o.c.start < b'.ix.base + 16 * (64 * b'.ix.nwords) ∧ o.c.start % 16 = 0 := fun o ho => by
        have := hc2.ix.chunk o.c (List.mem_map_of_mem ho)
        have := k6 o ho
        omega
      have hle : (sp - b'.ix.base) / 16 ≤ 64 * b'.ix.nwords := by
        have := hch o0 ho0
        omega
      have hadd : (sp - b'.ix.base) / 16 + (64 * b'.ix.nwords - (sp - b'.ix.base) / 16) = 64 * b'.ix.nwords := by omega
      refine walk_all B s.mem _ _ _ 0 b'.ix (f.objs.map Obj.c) ?_ ?_ ?_ (by omega) ?_ (by omega) hne ?_
      · intro i _ hi
        exact hc2.ix.bits i (by omega)
      · rw [List.pairwise_map]
        have hs' : f.objs.Pairwise (fun o x => o.c.start + o.c.usable + 8 ≤ x.c.start) :=
          hI.sorted.sublist (by simp only [allObjs, List.flatMap_cons]; exact List.sublist_append_left _ _)
        exact hs'.imp (fun h => by omega)
      · intro c hc
        obtain ⟨o, ho', rfl⟩ := List.mem_map.1 hc
        have := hch o ho'
        rw [hadd]
        exact ⟨this.1, this.2.1, this.2.2, hI.size o (mem_allObjs.2 ⟨f, List.mem_cons_self, ho'⟩), (k6 o ho').2.2.1, hpos o ho'⟩
      · rw [List.eq_nil_iff_forall_not_mem]
        intro x hx
        obtain ⟨c, hc, hu, _⟩ := (hc2.ix.promoted x).1 hx
        obtain ⟨o, ho', rfl⟩ := List.mem_map.1 hc
        have := k6 o ho'
        omega
      · simp only [Fr.frame, List.map_map, Nat.zero_add]
        rfl
    have : unindex B s.bigs s.mem f.frame.ctr f.frame.count sp = some (bs, 0) := by
      unfold unindex
      rw [show f.frame.ctr = f.ctr from rfl, hat]
      dsimp only
      rw [if_neg hcount, hc1]
      dsimp only
      rw [hw]
      dsimp only
      rw [hfil, if_neg (Nat.lt_irrefl _)]
    rw [this]
    exact ⟨_, rfl, key _ hr⟩

/-- The frame's big allocation once it reaches down to a new chunk. -/
theorem cover_frame {f : Fr} {bs : List Big} (hs : StackOk lo hi (f :: L)) (hr : Rel bs (f :: L)) {user : Nat} (hu : user < f.sp) :
    ∃ b b' rest, findOrCreate bs f.ctr user f.bp = some (b, rest) ∧ cover b user = some b' ∧ BigOk b' (f.objs.map Obj.c) ∧
      b'.begin_ = user ∧ b'.end_ = f.bp ∧ Rel rest L := by
  have hs0 := hs
  obtain ⟨k1, k2, k3, k4, k5, k6, k7⟩ := hs
  unfold findOrCreate
  by_cases ho : f.objs = []
  · have hr' := hr.nil ho
    rw [bigAt_below hlh k7 hr' (a := f.ctr) (by omega), bigAt_below hlh k7 hr' (a := user) (by omega),
      bigAt_below hlh k7 hr' (a := f.bp - 1) (by omega)]
    refine ⟨_, newBig user f.bp, _, rfl, ?_, ?_, rfl, rfl, hr'⟩
    · unfold cover
      rw [if_pos (show (newBig user f.bp).begin_ ≤ user from Nat.le_refl _)]
    · rw [ho]
      exact newBig_ok (by omega)
  · obtain ⟨b, bs', hbs, hb, hr'⟩ := hr.cons ho
    have hbb := bigFor_bounds hlh hs0 List.mem_cons_self hb
    have hh : holds f.ctr b = true := holds_iff.2 ⟨by omega, by omega⟩
    have hat : bigAt bs f.ctr = some b := by unfold bigAt; rw [hbs, List.find?_cons_of_pos hh]
    have hfil : bs.filter (fun x => !holds f.ctr x) = bs' := by
      rw [hbs, List.filter_cons_of_neg (by simp [hh])]
      exact filter_below hlh k7 hr' (by omega)
    obtain ⟨b', hc1, hc2, hc3, hc4⟩ := cover_ok hb.ok user
    rw [hat]
    dsimp only
    rw [hfil]
    exact ⟨b, b', bs', rfl, hc1, hc2, by omega, by omega, hr'⟩

theorem inv_alloca {f : Fr} {p n : Nat} {c : Chunk} {site : BitVec 64} (hI : Inv B lo hi s (f :: L)) (h1 : p % 8 = 0) (h2 : lo ≤ p)
    (h3 : p + Alloca.allocaSize 8 n ≤ f.sp) (h4 : 0 < n) (h5 : c.start % 16 = 0) (h6 : p + 8 ≤ c.start) (h7 : c.start < p + 24)
    (h8 : c.start + c.usable = p + Alloca.allocaSize 8 n) (h9 : c.requested = n) (h10 : c.usable ≤ 131072) (h11 : site.toNat < 2 ^ 47) :
    ∃ s', exec B s (.alloca p n site) = some s' ∧ Inv B lo hi s' ({ f with sp := p, objs := ⟨c, site⟩ :: f.objs } :: L) := by
  have hsb := size_bounds n
  obtain ⟨k1, k2, k3, k4, k5, k6, k7⟩ := hI.stack
  have hL := hI.stack
  obtain ⟨b, b', rest, e1, e2, e3, e4, e5, e6⟩ := cover_frame hlo hsz hhi hlh hI.stack hI.rel (user := c.start) (by omega)
  obtain ⟨m1, m2⟩ := mem_new s.mem h6 h8 (by omega) h10
  generalize hm : wr (zero s.mem p (Alloca.allocaSize 8 n)) (c.start - 8) c.usable 8 = m at m1 m2
  have hmay : MayAlloc b'.begin_ b'.end_ (f.objs.map Obj.c) c := by
    refine ⟨h5, by omega, by omega, by omega, by omega, ?_⟩
    intro d hd
    obtain ⟨o, ho, rfl⟩ := List.mem_map.1 hd
    have := k6 o ho
    exact Or.inl (by omega)
  obtain ⟨ix, i1, i2, _⟩ := MallocIndex.inv_insert c.requested e3.ix hmay (Or.inl rfl)
  have hbase := e3.ix.base
  have hrb := rdn b'.begin_
  have hnw := insert_nwords i1 (by omega) e3.top (by omega)
  have hbig : BigFor { b' with ix := ix } { f with sp := p, objs := ⟨c, site⟩ :: f.objs } :=
    ⟨⟨by simpa using i2, by rw [hnw.1, hnw.2]; exact e3.top, e3.lt⟩, e5, ⟨⟨c, site⟩, List.mem_cons_self, e4.symm⟩⟩
  have hst : StackOk lo hi ({ f with sp := p, objs := ⟨c, site⟩ :: f.objs } :: L) := by
    refine ⟨h2, by simp only; omega, k3, k4, k5, fun o ho => ?_, k7⟩
    rcases List.mem_cons.1 ho with rfl | ho
    · simp only; omega
    · have := k6 o ho
      simp only; omega
  have hrel : Rel ({ b' with ix := ix } :: rest) ({ f with sp := p, objs := ⟨c, site⟩ :: f.objs } :: L) :=
    e6.mkCons (by simp) hbig
  have hins : insert B b' rest m c.start n site = some ({ b' with ix := ix } :: rest,
      setWord m (c.start + (c.usable - 8)) (Insert.indexInsert (word m (c.start + (c.usable - 8))) site)) := by
    have hsame : sameBase (b' :: rest) (c.start + n - 1) b'.ix.base = true := by
      unfold sameBase bigAt
      rw [List.find?_cons_of_pos (holds_iff.2 ⟨by omega, by omega⟩)]
      dsimp only
      rw [hbase]
      exact beq_self_eq_true _
    unfold insert
    rw [hsame, if_neg (by simp), m1, ← h9, i1]
  generalize hm' : setWord m (c.start + (c.usable - 8)) (Insert.indexInsert (word m (c.start + (c.usable - 8))) site) = m' at hins
  have hall : allObjs ({ f with sp := p, objs := ⟨c, site⟩ :: f.objs } :: L) = ⟨c, site⟩ :: allObjs (f :: L) := by
    simp [allObjs]
  have hlow : ∀ o ∈ allObjs (f :: L), f.sp + 8 ≤ o.c.start := fun o ho => (room hlo hsz hhi hlh hI ho).2.2.2.2.2
  have husable : usableOf m' c.start = c.usable := by
    rw [← hm', usableOf_setWord _ _ (by omega) (by omega), m1]
  have hloc : locate B ({ b' with ix := ix } :: rest) m' c.start = .chunk c.start :=
    locate_inside (o := ⟨c, site⟩) hlo hsz hhi hlh hst hrel (by rw [hall]; exact List.mem_cons_self) ⟨Nat.le_refl _, by simp only; omega⟩
      (Or.inr (by rw [husable]; unfold SANE; omega))
  have hnot : notify B s.bigs m c.start n f.ctr f.bp site = some ({ b' with ix := ix } :: rest, m') := by
    unfold notify
    rw [m1, if_neg (by unfold SANE; omega), e1]
    dsimp only
    rw [e2]
    dsimp only
    rw [hins]
    dsimp only
    unfold checked
    rw [hloc, if_neg (by simp)]
  simp only [exec, hI.frames, List.map_cons, adjusted]
  rw [adjust_eq h5 h6 h7 h8]
  dsimp only
  rw [hm, show (Fr.frame f).ctr = f.ctr from rfl, show (Fr.frame f).bp = f.bp from rfl, hnot]
  refine ⟨_, rfl, ?_, hst, hrel, ?_, ?_, ?_, hI.quiet⟩
  · simp only [List.map_cons, Fr.frame, List.sum_cons, Nat.add_comm]
  · rw [hall, List.pairwise_cons]
    refine ⟨fun o ho => ?_, hI.sorted⟩
    have := hlow o ho
    simp only; omega
  · intro o ho
    rw [hall] at ho
    rcases List.mem_cons.1 ho with rfl | ho
    · exact husable
    · have := hlow o ho
      show usableOf m' o.c.start = _
      rw [← hm', usableOf_setWord _ _ (by omega) (by omega), ← hI.size o ho]
      exact m2 _ (by omega)
  · intro o ho
    rw [hall] at ho
    rcases List.mem_cons.1 ho with rfl | ho
    · show Says B _ (word m' (c.start + (c.usable - 8)))
      rw [← hm', HeapObj.word_setWord]
      exact Or.inl ⟨(Insert.site_roundtrip _ site h11).2.1, (Insert.site_roundtrip _ site h11).1⟩
    · have := hlow o ho
      have hro := room hlo hsz hhi hlh hI ho
      show Says B o (word m' _)
      rw [← hm', HeapObj.word_setWord_out _ _ (by omega)]
      have := hI.says o ho
      unfold word at this ⊢
      rw [m2 _ (by omega)]
      exact this

theorem inv_step (hB : GoodBuild B) {e : Ev} {M : List Fr} (hI : Inv B lo hi s L) (h : Legal B lo hi L e M) :
    ∃ s', exec B s e = some s' ∧ Inv B lo hi s' M := by
  cases h with
  | enter h1 h2 h3 h4 =>
    refine ⟨_, rfl, by simp [hI.frames, Fr.frame], ⟨h1, Nat.le_refl _, h2, h3, h4, fun _ h => (by cases h), hI.stack⟩, hI.rel.mkNil rfl, ?_, ?_, ?_, hI.quiet⟩
    · simpa [allObjs] using hI.sorted
    · intro o ho; exact hI.size o (by simpa [allObjs] using ho)
    · intro o ho; exact hI.says o (by simpa [allObjs] using ho)
  | alloca h1 h2 h3 h4 h5 h6 h7 h8 h9 h10 h11 => exact inv_alloca hlo hsz hhi hlh hI h1 h2 h3 h4 h5 h6 h7 h8 h9 h10 h11
  | store h _ => exact ⟨_, rfl, inv_store hlo hsz hhi hlh hI h⟩
  | ask _ _ h =>
    refine inv_ask hlo hsz hhi hlh hB hI ?_
    rcases h with h | ⟨o, ho, rfl⟩
    · exact Or.inl h
    · exact calm_start hlo hsz hhi hlh hI ho
  | leave h1 h2 => exact inv_leave hlo hsz hhi hlh hI h1 h2

theorem inv_run (hB : GoodBuild B) {es : List Ev} {M : List Fr} (hI : Inv B lo hi s L) (h : History B lo hi L es M) :
    ∃ s', run B s es = some s' ∧ Inv B lo hi s' M := by
  induction h generalizing s with
  | nil => exact ⟨s, rfl, hI⟩
  | cons h1 _ ih =>
    obtain ⟨s1, e1, i1⟩ := inv_step hlo hsz hhi hlh hB hI h1
    obtain ⟨s2, e2, i2⟩ := ih i1
    exact ⟨s2, by simp only [run, e1, e2], i2⟩

/-! ### C166 -/

/-- **C166** (partial: small chunks, no `longjmp`; see `Legal`). After any history of instrumented functions being called, calling
`alloca`, being queried and returning, the program goes on, no warning has been printed, and a query of an address in an object of
a function that is still running reports the object's start and the type of its site; in a build with assertions, of such an
address as the word below is at most 2^25 - 1, which holds for the objects' starts. The size reported is that of the chunk less 16. -/
theorem query_partial (hB : GoodBuild B) (m : Mem) {es : List Ev} (h : History B lo hi [] es L) :
    ∃ s, run B (init m) es = some s ∧ s.warned = 0 ∧
      (∀ o ∈ allObjs L, ∀ a, Inside o.c a → Calm B s.mem a →
        ∃ i s', getInfo B s a = .ok (i, s') ∧ i.base = o.c.start ∧ (16 ≤ o.c.usable → i.size + 16 = o.c.usable) ∧
          i.type = o.type B.find ∧ (B.ndebug = false → i.site = o.site)) ∧
      (∀ o ∈ allObjs L, Calm B s.mem o.c.start) := by
  obtain ⟨s, hs, hI⟩ := inv_run hlo hsz hhi hlh hB (inv_init B lo hi m) h
  refine ⟨s, hs, hI.quiet, fun o ho a ha hc => ?_, fun o ho => calm_start hlo hsz hhi hlh hI ho⟩
  obtain ⟨i, s', h1, h2, h3, h4, h5, _⟩ := inv_found hlo hsz hhi hlh hB hI ho (locate_inside hlo hsz hhi hlh hI.stack hI.rel ho ha hc)
  exact ⟨i, s', h1, h2, h3, h4, h5⟩

/-- **C166, after returning.** An address that is in no frame's extent from its lowest object up, of the functions still running, is
not taken for one of an object: so those of functions that have returned are not. -/
theorem gone_partial (hB : GoodBuild B) (m : Mem) {es : List Ev} (h : History B lo hi [] es L) :
    ∃ s, run B (init m) es = some s ∧
      ∀ a, (∀ f ∈ L, (∀ o ∈ f.objs, a < o.c.start) ∨ f.bp ≤ a) → getInfo B s a = .elsewhere := by
  obtain ⟨s, hs, hI⟩ := inv_run hlo hsz hhi hlh hB (inv_init B lo hi m) h
  refine ⟨s, hs, fun a ha => ?_⟩
  have : bigAt s.bigs a = none := by
    unfold bigAt
    rw [List.find?_eq_none]
    intro b hb
    obtain ⟨f, hf, _, hbf⟩ := rel_mem hI.rel hb
    obtain ⟨o, ho, hob⟩ := hbf.first
    have he := hbf.end_
    rw [holds_iff]
    rcases ha f hf with h | h
    · have := h o ho
      omega
    · omega
  simp only [getInfo, locate, this]

/-- Objects of functions still running do not overlap, nor do their words, and they have the room asked for. -/
theorem objects_apart (hB : GoodBuild B) {es : List Ev} (h : History B lo hi [] es L) :
    (allObjs L).Pairwise (fun o x => o.c.start + o.c.usable + 8 ≤ x.c.start) ∧
    ∀ o ∈ allObjs L, o.c.requested + 8 ≤ o.c.usable := by
  obtain ⟨s, hs, hI⟩ := inv_run hlo hsz hhi hlh hB (inv_init B lo hi (fun _ => 0)) h
  exact ⟨hI.sorted, fun o ho => (room hlo hsz hhi hlh hI ho).2.2.2.1⟩

end

/-! ### The bitmap in words -/

/-- A frame's index as words (`Verif.Model.Alloca`). -/
def Same (b : Big) (ar : Alloca.Arena) : Prop :=
  ar.begin_ = b.begin_ ∧ ar.end_ = b.end_ ∧ ar.base = b.ix.base ∧
  ∃ bm, ar.bitmap = some bm ∧ bm.length = b.ix.nwords ∧ ∀ i, i < 64 * b.ix.nwords → Alloca.bit bm i = b.ix.bits i

/-- Growing the bitmap comes to the same as moving its words. -/
theorem cover_agrees {b : Big} {ar : Alloca.Arena} {cs : List Chunk} (hb : BigOk b cs) (h : Same b ar) {addr : Nat} (ha : 1024 ≤ addr)
    (junk : Nat → Alloca.W) :
    ∃ b' ar', cover b addr = some b' ∧ Alloca.ensureCovers ar addr junk = some ar' ∧ Same b' ar' := by
  obtain ⟨abeg, aend, abase, abm⟩ := ar
  obtain ⟨h1, h2, h3, bm, h4, h5, h6⟩ := h
  simp only at h1 h2 h3 h4
  subst h1 h2 h3 h4
  have r1 := ru b.end_
  have r2 := rdn addr
  have r3 := rdn b.begin_
  have hB := hb.ix.base
  have ht := hb.top
  have hlt := hb.lt
  unfold cover Alloca.ensureCovers
  by_cases hc : b.begin_ ≤ addr
  · rw [if_pos hc, if_pos ⟨rfl, hc⟩]
    exact ⟨_, _, rfl, rfl, rfl, rfl, rfl, bm, rfl, h5, h6⟩
  · have hc' : addr < b.begin_ := by omega
    rw [if_neg hc, if_neg (show ¬ ((some bm).isSome = true ∧ b.begin_ ≤ addr) from fun h => hc h.2)]
    dsimp only
    rw [if_pos hc']
    dsimp only
    have hn : ((roundUp b.end_ COVER - roundDown addr COVER) / 16 + 63) / 64 * 1024 = roundUp b.end_ COVER - roundDown addr COVER := by omega
    have hle : roundDown addr COVER ≤ roundDown b.begin_ COVER := by unfold roundDown COVER at *; omega
    generalize hk : ((roundUp b.end_ COVER - roundDown addr COVER) / 16 + 63) / 64 = n at *
    unfold Alloca.reallocPrepend
    dsimp only [Option.getD]
    rw [h5]
    by_cases hw : b.ix.nwords < n
    · have hs : b.ix.base - (n - b.ix.nwords) * 64 * 16 = roundDown addr COVER := by omega
      rw [if_pos hw, if_pos hw]
      rw [if_pos (show (shift b.ix (n - b.ix.nwords)).base = roundDown addr COVER from hs), if_neg (show ¬ b.ix.base = 0 by omega)]
      rw [if_neg (show ¬ (b.ix.base ≠ 0 ∧ b.ix.base - (n - b.ix.nwords) * 64 * 16 ≠ roundDown addr Alloca.COVER) from fun h => h.2 hs)]
      dsimp only
      rw [if_pos (show b.ix.base - (n - b.ix.nwords) * 64 * 16 = roundDown addr Alloca.COVER from hs)]
      refine ⟨_, _, rfl, rfl, rfl, rfl, rfl, _, rfl, ?_, ?_⟩
      · rw [← h5, Alloca.prepend_bitmap bm _ (n - bm.length) (by simp)]
        simp only [List.length_append, List.length_replicate, shift]
        omega
      · intro i hi
        rw [← h5, Alloca.prepend_bitmap bm _ (n - bm.length) (by simp), Alloca.bit_replicate_append]
        rw [← h5] at hi
        simp only [shift, ← h5] at hi ⊢
        by_cases hi' : i < 64 * (n - bm.length)
        · rw [if_pos hi', decide_eq_false (by omega), Bool.false_and]
        · rw [if_neg hi', decide_eq_true (by omega), Bool.true_and]
          exact h6 _ (by omega)
    · have he : b.ix.base = roundDown addr COVER := by omega
      rw [if_neg hw, if_neg hw, if_pos he]
      dsimp only
      rw [if_pos (show b.ix.base = roundDown addr Alloca.COVER from he)]
      exact ⟨_, _, rfl, rfl, rfl, rfl, rfl, bm, rfl, h5, h6⟩

/-- So does making the first one. -/
theorem newBig_agrees {user bp : Nat} (h : user < bp) (junk : Nat → Alloca.W) :
    ∃ ar, Alloca.ensureCovers ⟨user, bp, 0, none⟩ user junk = some ar ∧ Same (newBig user bp) ar := by
  have r1 := ru bp
  have r2 := rdn user
  have hn : 0 < ((roundUp bp COVER - roundDown user COVER) / 16 + 63) / 64 := by omega
  unfold Alloca.ensureCovers
  rw [if_neg (by simp), if_neg (Nat.lt_irrefl _)]
  dsimp only
  unfold Alloca.reallocPrepend
  dsimp only [Option.getD]
  rw [List.length_nil, if_pos hn, if_pos rfl, if_neg (by simp)]
  dsimp only
  rw [if_pos rfl]
  refine ⟨_, rfl, rfl, rfl, rfl, _, rfl, ?_, ?_⟩
  · simp [Alloca.bzero, newBig, Alloca.COVER, COVER]
  · intro i _
    rw [show Alloca.bzero _ _ = List.replicate _ 0#64 ++ ([] : List Alloca.W) by
      unfold Alloca.bzero
      rw [List.drop_eq_nil_of_le (by simp)]]
    rw [Alloca.bit_replicate_append]
    simp [Alloca.bit, newBig]

/-! ## Cases -/

/-- A build in which two sites are known. -/
def exB (nd : Bool) : Build :=
  ⟨nd, fun s => if s = 0x400100#64 then 0x600000000#64 else if s = 0x400200#64 then 0x700000000#64 else 0#64, fun _ => 5#15⟩

/-- A function with a frame below 0x7ff000 calls `alloca(40)`. -/
def ex1 : List Ev := [.enter 0x7ff000 0x7feff0, .alloca 0x7fef00 40 0x400100#64]

/-- What a query says: base, size and type. -/
def answer (B : Build) (a : Nat) (o : Option State) : Option (Res (Nat × Nat × Option (BitVec 64))) :=
  o.map (fun s =>
    match getInfo B s a with
    | .elsewhere => .elsewhere
    | .ended => .ended
    | .unindexed => .unindexed
    | .ok r => .ok (r.1.base, r.1.size, r.1.type))

/-- The function calls another, which allocates twice and returns, and then allocates again. -/
def ex2 : List Ev := ex1 ++ [.enter 0x7fee00 0x7fedf0, .alloca 0x7fe800 8 0x400200#64, .alloca 0x7fe400 8 0x400200#64,
  .leave 0x7fe000, .alloca 0x7fe200 100 0x400200#64]

/-- It is a legal history. -/
theorem case_legal : ∃ L, History (exB false) 0x400000 0x7ff000 [] ex2 L ∧
    (allObjs L).map (fun o => (o.c.start, o.c.requested)) = [(0x7fe210, 100), (0x7fef10, 40)] := by
  refine ⟨_, .cons (.enter (sp := 0x7fefe0) (by decide) (by decide) (by decide) (by decide))
    (.cons (.alloca (c := ⟨0x7fef10, 40, 48⟩) (by decide) (by decide) (by decide) (by decide) (by decide) (by decide) (by decide)
      (by decide) rfl (by decide) (by decide))
    (.cons (.enter (sp := 0x7fede0) (by decide) (by decide) (by decide) (by decide))
    (.cons (.alloca (c := ⟨0x7fe810, 8, 16⟩) (by decide) (by decide) (by decide) (by decide) (by decide) (by decide) (by decide)
      (by decide) rfl (by decide) (by decide))
    (.cons (.alloca (c := ⟨0x7fe410, 8, 16⟩) (by decide) (by decide) (by decide) (by decide) (by decide) (by decide) (by decide)
      (by decide) rfl (by decide) (by decide))
    (.cons (.leave (by decide) (by decide))
    (.cons (.alloca (c := ⟨0x7fe210, 100, 112⟩) (by decide) (by decide) (by decide) (by decide) (by decide) (by decide) (by decide)
      (by decide) rfl (by decide) (by decide)) .nil)))))), ?_⟩
  decide

theorem case_nested : answer (exB false) 0x7fef10 (run (exB false) (init fun _ => 0) ex2) =
      some (.ok (0x7fef10, 32, some 0x600000000#64)) ∧
    answer (exB true) 0x7fe272 (run (exB true) (init fun _ => 0) ex2) = some (.ok (0x7fe210, 96, some 0x700000000#64)) ∧
    answer (exB true) 0x7fe200 (run (exB true) (init fun _ => 0) ex2) = some .elsewhere := by
  refine ⟨?_, ?_, ?_⟩ <;> decide +kernel

/-- **C166, the word below.** In a build with assertions, a query of an address inside an object ends the program if what the
program has written to the eight bytes below it is large. -/
theorem interior_aborts : answer (exB false) 0x7fef18 (run (exB false) (init fun _ => 0) (ex1 ++ [.store 0x7fef13 255])) = some .ended ∧
    answer (exB true) 0x7fef18 (run (exB true) (init fun _ => 0) (ex1 ++ [.store 0x7fef13 255])) =
      some (.ok (0x7fef10, 32, some 0x600000000#64)) := by
  refine ⟨?_, ?_⟩ <;> decide +kernel

/-- **C166, large objects.** `alloca(140000)` ends the program in a build with assertions. In one without them the object is not
found. -/
theorem large_fails :
    (run (exB false) (init fun _ => 0) [.enter 0x7ff000 0x7feff0, .alloca 0x7d0000 140000 0x400100#64]).isNone = true ∧
    answer (exB true) 0x7d0010 (run (exB true) (init fun _ => 0) [.enter 0x7ff000 0x7feff0, .alloca 0x7d0000 140000 0x400100#64]) =
      some .unindexed := by
  refine ⟨?_, ?_⟩ <;> decide +kernel

/-- **C166, nothing asked for.** `alloca(0)` ends the program in a build with assertions. -/
theorem zero_aborts :
    (run (exB false) (init fun _ => 0) [.enter 0x7ff000 0x7feff0, .alloca 0x7fef00 0 0x400100#64]).isNone = true ∧
    (run (exB true) (init fun _ => 0) [.enter 0x7ff000 0x7feff0, .alloca 0x7fef00 0 0x400100#64]).isNone = false := by
  refine ⟨?_, ?_⟩ <;> decide +kernel

/-- **C166, local variables.** Once a function has called `alloca`, its local variables, which are above the object, are taken for
the object. -/
theorem locals_fails : answer (exB false) 0x7feff8 (run (exB false) (init fun _ => 0) ex1) =
      some (.ok (0x7fef10, 32, some 0x600000000#64)) ∧ 0x7fef10 + 40 ≤ 0x7feff8 := by
  refine ⟨?_, ?_⟩ <;> decide +kernel

/-- **C166, `longjmp`.** An object of a function that was left by `longjmp` is still found; and a later function whose frame lies
where that one did is ended by its call of `alloca`. -/
theorem jump_fails : answer (exB true) 0x7fef10 (run (exB true) (init fun _ => 0) (ex1 ++ [.jump 1])) =
      some (.ok (0x7fef10, 32, some 0x600000000#64)) ∧
    (run (exB true) (init fun _ => 0) (ex1 ++ [.jump 1, .enter 0x7fef40 0x7fef04, .alloca 0x7fee00 8 0x400200#64])).isNone = true := by
  refine ⟨?_, ?_⟩ <;> decide +kernel

/-- **C166, sizes.** The size reported of an object of 8 bytes is 0. -/
theorem size_fails : answer (exB true) 0x7fef10 (run (exB true) (init fun _ => 0)
    [.enter 0x7ff000 0x7feff0, .alloca 0x7fef00 8 0x400100#64]) = some (.ok (0x7fef10, 0, some 0x600000000#64)) := by
  decide +kernel

end Liballocs.AllocaObj
