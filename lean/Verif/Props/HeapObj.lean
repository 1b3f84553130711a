import Verif.Model.HeapObj
import Verif.Props.MallocIndex
import Verif.Props.Insert
import Verif.Props.Detour
/-!
# C148: what a query says of a heap object, over whole histories
-/
namespace Liballocs.HeapObj
open Detour (Mem rd wr)
open MallocIndex (Chunk MayAlloc)

/-! ### Specification -/

/-- A live heap object: its chunk, the site of the last allocation call made for it, the type that it was given since by
hand, if any, and whether the library may have dropped its site since. -/
structure Obj where
  c : Chunk
  site : BitVec 64
  set : Option (BitVec 64)
  asked : Bool
  deriving DecidableEq

/-- Types are 8-aligned user-space addresses, not below 2^35 (C12). -/
def GoodType (u : BitVec 64) : Prop := u.toNat % 8 = 0 ∧ 2 ^ 35 ≤ u.toNat ∧ u.toNat < 2 ^ 47

structure GoodBuild (B : Build) : Prop where
  types : ∀ s, B.find s = 0#64 ∨ GoodType (B.find s)
  /-- `0x7fff` is no allocation site: it is what the word of an object without a type reads as once asked about -/
  low : B.find 0x7fff#64 = 0#64

/-- The type that a query is to report. -/
def Obj.type (find : BitVec 64 → BitVec 64) (o : Obj) : Option (BitVec 64) :=
  match o.set with
  | some u => some u
  | none => if find o.site = 0#64 then none else some (find o.site)

/-- A byte that the program or the malloc may write to: outside the chunk, or one that the caller may use, which are all but
the last eight. -/
def MayWrite (c : Chunk) (a : Nat) : Prop := a < c.start ∨ a + 8 < c.start + c.usable ∨ c.start + c.usable ≤ a

/-- Chunks whose word is read where it was written (C52): small ones, and large ones delivered with sixteen spare bytes. -/
def Readable (c : Chunk) : Prop := c.usable ≤ 131072 ∨ c.usable = c.requested + 16

def Inside (c : Chunk) (a : Nat) : Prop := c.start ≤ a ∧ a < c.start + c.requested

/-- The objects after something happened to the one at `p`. -/
def update (p : Nat) (f : Obj → Obj) (L : List Obj) : List Obj := L.map (fun x => if x.c.start = p then f x else x)

/-- The objects other than the one at `p`. -/
def without (p : Nat) (L : List Obj) : List Obj := L.filter (fun x => x.c.start ≠ p)

/-- What may happen, and the live objects after it. -/
inductive Legal (B : Build) (lo hi : Nat) : List Obj → Ev → List Obj → Prop
  | store {L a b} : (∀ o ∈ L, MayWrite o.c a) → Legal B lo hi L (.store a b) L
  | alloc {L c} {site : BitVec 64} : MayAlloc lo hi (L.map Obj.c) c → site.toNat < 2 ^ 47 →
      Legal B lo hi L (.alloc c.start c.requested c.usable site) (⟨c, site, none, false⟩ :: L)
  | free {L o} : o ∈ L → o.c.usable ≤ 131072 → Legal B lo hi L (.free o.c.start) (without o.c.start L)
  | realloc {L o c ws} {site : BitVec 64} : o ∈ L → o.c.usable ≤ 131072 →
      MayAlloc lo hi ((without o.c.start L).map Obj.c) c → site.toNat < 2 ^ 47 →
      (∀ w ∈ ws, ∀ x ∈ without o.c.start L, MayWrite x.c w.1) →
      Legal B lo hi L (.realloc o.c.start c.start c.requested c.usable site ws)
        (⟨c, site, none, false⟩ :: without o.c.start L)
  | reallocFail {L o r} {site : BitVec 64} : o ∈ L → o.c.usable ≤ 131072 → site.toNat < 2 ^ 47 →
      Legal B lo hi L (.reallocFail o.c.start r site)
        (update o.c.start (fun x => ⟨x.c, site, none, false⟩) L)
  | ask {L o a} : o ∈ L → Readable o.c → Inside o.c a →
      Legal B lo hi L (.ask a) (update o.c.start (fun x => { x with asked := x.asked || B.ndebug }) L)
  | setType {L o a u} : o ∈ L → o.c.usable ≤ 131072 → Inside o.c a → GoodType u →
      Legal B lo hi L (.setType a u) (update o.c.start (fun x => { x with set := some u, asked := true }) L)

inductive History (B : Build) (lo hi : Nat) : List Obj → List Ev → List Obj → Prop
  | nil {L} : History B lo hi L [] L
  | cons {L M N e es} : Legal B lo hi L e M → History B lo hi M es N → History B lo hi L (e :: es) N

/-! ### The word -/

/-- What an object's word may hold. -/
def Says (B : Build) (o : Obj) (w : Insert.W) : Prop :=
  match o.set with
  | some u => o.asked = true ∧ GoodType u ∧ ∃ id, w = Insert.mkWithType u id
  | none => (Insert.isWithType w = false ∧ Insert.allocSite w = o.site) ∨
      (o.asked = true ∧ ∃ id, w = Insert.mkWithType (B.find o.site) id ∧ (B.find o.site = 0#64 → id = -1#15))

theorem extract_typed (B : Build) {u : BitVec 64} (hu : GoodType u) (id : BitVec 15) :
    Insert.extract B.ndebug B.find B.idOf (Insert.mkWithType u id) =
      (Insert.mkWithType u id, { site := 0#64, type := some u }) := by
  have h0 : u ≠ 0#64 := by
    intro h; have := hu.2.1; rw [h] at this; simp at this
  simp only [Insert.extract, (Insert.isWithType_mkWithType u id hu.2.2).2 hu.2.1, if_true,
    Insert.typeOf_mkWithType u id hu.1 hu.2.2, h0, if_false]

theorem extract_none (B : Build) (hB : GoodBuild B) :
    Insert.extract B.ndebug B.find B.idOf (Insert.mkWithType 0#64 (-1#15)) =
      (Insert.mkWithType 0#64 (-1#15), { site := 0x7fff#64, type := none }) := by
  have h1 : Insert.isWithType (Insert.mkWithType 0#64 (-1#15)) = false := by decide
  have h2 : Insert.allocSite (Insert.mkWithType 0#64 (-1#15)) = 0x7fff#64 := by decide
  simp only [Insert.extract, h1, h2, hB.low, Bool.false_eq_true, if_false, if_true]
  cases B.ndebug <;> rfl

/-- A query of an object whose word is in order. -/
theorem says_extract {B : Build} (hB : GoodBuild B) {o : Obj} {w : Insert.W} (h : Says B o w) :
    (Insert.extract B.ndebug B.find B.idOf w).2.type = o.type B.find ∧
    (o.asked = false → (Insert.extract B.ndebug B.find B.idOf w).2.site = o.site) ∧
    Says B { o with asked := o.asked || B.ndebug } (Insert.extract B.ndebug B.find B.idOf w).1 := by
  obtain ⟨c, site, set, asked⟩ := o
  cases set with
  | some u =>
    obtain ⟨h1, h2, id, rfl⟩ := h
    rw [extract_typed B h2]
    simp only at h1
    subst h1
    exact ⟨rfl, by simp, rfl, h2, id, rfl⟩
  | none =>
    simp only [Says] at h
    rcases h with ⟨h1, h2⟩ | ⟨h1, id, rfl, hid⟩
    · by_cases h0 : B.find site = 0#64
      · have e : Insert.extract B.ndebug B.find B.idOf w =
            (if B.ndebug then Insert.mkWithType 0#64 (-1#15) else w, { site := site, type := none }) := by
          simp only [Insert.extract, h1, h2, h0, Bool.false_eq_true, if_false, if_true]
          cases B.ndebug <;> rfl
        rw [e]
        refine ⟨by simp [Obj.type, h0], fun _ => rfl, ?_⟩
        cases hn : B.ndebug
        · left; simp only [Bool.false_eq_true, if_false]; exact ⟨h1, h2⟩
        · right; exact ⟨by simp, -1#15, by simp [h0], fun _ => rfl⟩
      · have e : Insert.extract B.ndebug B.find B.idOf w =
            (if B.ndebug then Insert.mkWithType (B.find site) (B.idOf site) else w,
              { site := site, type := some (B.find site) }) := by
          simp only [Insert.extract, h1, h2, h0, Bool.false_eq_true, if_false]
        rw [e]
        refine ⟨by simp [Obj.type, h0], fun _ => rfl, ?_⟩
        cases hn : B.ndebug
        · left; simp only [Bool.false_eq_true, if_false]; exact ⟨h1, h2⟩
        · right; exact ⟨by simp, B.idOf site, by simp, fun h => absurd h h0⟩
    · subst h1
      by_cases h0 : B.find site = 0#64
      · rw [hid h0, h0, extract_none B hB]
        refine ⟨by simp [Obj.type, h0], by simp, ?_⟩
        right; exact ⟨by simp, -1#15, by simp [h0], fun _ => rfl⟩
      · have hg : GoodType (B.find site) := (hB.types site).resolve_left h0
        rw [extract_typed B hg]
        refine ⟨by simp [Obj.type, h0], by simp, ?_⟩
        right; exact ⟨by simp, id, rfl, fun h => absurd h h0⟩

theorem says_new (B : Build) (c : Chunk) (w : Insert.W) {site : BitVec 64} (hs : site.toNat < 2 ^ 47) :
    Says B ⟨c, site, none, false⟩ (Insert.indexInsert w site) :=
  Or.inl ⟨(Insert.site_roundtrip w site hs).2.1, (Insert.site_roundtrip w site hs).1⟩

/-! ### Memory -/

theorem word_setWord (m : Mem) (a : Nat) (w : Insert.W) : word (setWord m a w) a = w := by
  unfold word setWord
  rw [Detour.rd_wr_self]
  apply BitVec.eq_of_toNat_eq
  rw [BitVec.toNat_ofNat]
  have := w.isLt
  have : (256 : Nat) ^ 8 = 2 ^ 64 := by decide
  omega

theorem word_setWord_out (m : Mem) {a b : Nat} (w : Insert.W) (h : b + 8 ≤ a ∨ a + 8 ≤ b) :
    word (setWord m a w) b = word m b := by
  unfold word setWord
  rw [Detour.rd_wr_out m h]

theorem word_store (m : Mem) {a b x : Nat} (h : x < a ∨ a + 8 ≤ x) : word (store m x b) a = word m a := by
  unfold word
  rw [Detour.rd_congr (m := store m x b) (m' := m) 8 a a (fun i hi => by
    unfold store; rw [if_neg (by omega)])]

/-! ### The invariant -/

structure Inv (B : Build) (lo hi : Nat) (s : State) (L : List Obj) : Prop where
  ix : MallocIndex.Inv lo hi s.ix (L.map Obj.c)
  size : ∀ o ∈ L, s.usable o.c.start = o.c.usable
  says : ∀ o ∈ L, Says B o (word s.mem (o.c.start + (o.c.usable - 8)))

section
variable {B : Build} {lo hi : Nat} {s : State} {L : List Obj}

theorem Inv.room (hI : Inv B lo hi s L) {o : Obj} (ho : o ∈ L) : o.c.requested + 8 ≤ o.c.usable ∧ 0 < o.c.requested :=
  ⟨(hI.ix.chunk o.c (List.mem_map_of_mem ho)).2.2.2.1, (hI.ix.chunk o.c (List.mem_map_of_mem ho)).2.2.2.2.1⟩

theorem Inv.apart (hI : Inv B lo hi s L) {o x : Obj} (ho : o ∈ L) (hx : x ∈ L) (h : o.c.start ≠ x.c.start) :
    o.c.disjoint x.c :=
  hI.ix.disj' _ (List.mem_map_of_mem ho) _ (List.mem_map_of_mem hx) h

theorem Inv.same (hI : Inv B lo hi s L) {o x : Obj} (ho : o ∈ L) (hx : x ∈ L) (h : o.c.start = x.c.start) :
    o.c = x.c :=
  hI.ix.disj _ (List.mem_map_of_mem ho) _ (List.mem_map_of_mem hx) h

theorem map_update (p : Nat) (f : Obj → Obj) (hf : ∀ x, (f x).c = x.c) (L : List Obj) :
    (update p f L).map Obj.c = L.map Obj.c := by
  unfold update
  rw [List.map_map]
  apply List.map_congr_left
  intro x _
  simp only [Function.comp]
  split
  · exact hf x
  · rfl

theorem map_without (p : Nat) (L : List Obj) :
    (without p L).map Obj.c = (L.map Obj.c).filter (fun d => d.start ≠ p) := by
  unfold without
  rw [List.filter_map]
  rfl

theorem update_mem {p : Nat} {f : Obj → Obj} (hf : ∀ x, (f x).c = x.c) {x : Obj} (hx : x ∈ update p f L) :
    ∃ y ∈ L, y.c = x.c := by
  obtain ⟨y, hy, rfl⟩ := List.mem_map.1 hx
  refine ⟨y, hy, ?_⟩
  split
  · rw [hf]
  · rfl

/-- Writing the word of one object, and of no other. -/
theorem inv_write (hI : Inv B lo hi s L) {o : Obj} (ho : o ∈ L) (f : Obj → Obj) (hf : ∀ x, (f x).c = x.c)
    (w : Insert.W) (hw : ∀ x ∈ L, x.c.start = o.c.start → Says B (f x) w) :
    Inv B lo hi { s with mem := setWord s.mem (o.c.start + (o.c.usable - 8)) w } (update o.c.start f L) := by
  refine ⟨?_, ?_, ?_⟩
  · rw [map_update _ _ hf]; exact hI.ix
  · intro x hx
    obtain ⟨y, hy, rfl⟩ := List.mem_map.1 hx
    split
    · rw [hf]; exact hI.size y hy
    · exact hI.size y hy
  · intro x hx
    obtain ⟨y, hy, rfl⟩ := List.mem_map.1 hx
    split
    · rename_i h
      rw [hf, hI.same hy ho h, word_setWord]
      exact hw y hy h
    · rename_i h
      have h1 := hI.apart hy ho h
      have h2 := hI.room hy
      have h3 := hI.room ho
      rw [word_setWord_out]
      · exact hI.says y hy
      · unfold Chunk.disjoint at h1; omega

theorem inv_store (hI : Inv B lo hi s L) {a b : Nat} (h : ∀ o ∈ L, MayWrite o.c a) :
    Inv B lo hi { s with mem := store s.mem a b } L := by
  refine ⟨hI.ix, hI.size, ?_⟩
  intro o ho
  have h1 := hI.room ho
  have h2 := h o ho
  rw [word_store]
  · exact hI.says o ho
  · unfold MayWrite at h2; omega

theorem inv_stores (ws : List (Nat × Nat)) : ∀ {s : State}, Inv B lo hi s L → (∀ w ∈ ws, ∀ o ∈ L, MayWrite o.c w.1) →
    Inv B lo hi { s with mem := ws.foldl (fun m w => store m w.1 w.2) s.mem } L := by
  induction ws with
  | nil => intro s hI _; exact hI
  | cons w ws ih =>
    intro s hI h
    exact ih (inv_store (b := w.2) hI (h w (by simp))) (fun x hx => h x (List.mem_cons_of_mem _ hx))

theorem inv_delete (hI : Inv B lo hi s L) {o : Obj} (ho : o ∈ L) (hu : o.c.usable ≤ 131072) :
    ∃ s', delete s o.c.start = some s' ∧ Inv B lo hi s' (without o.c.start L) ∧ s'.usable = s.usable ∧ s'.mem = s.mem := by
  obtain ⟨ix, h1, h2, _⟩ := MallocIndex.inv_delete hI.ix (List.mem_map_of_mem ho) hu
  refine ⟨{ s with ix := ix }, by simp only [delete, h1], ⟨?_, ?_, ?_⟩, rfl, rfl⟩
  · rw [map_without]; exact h2
  · intro x hx; exact hI.size x (List.mem_filter.1 hx).1
  · intro x hx; exact hI.says x (List.mem_filter.1 hx).1

theorem inv_insert (hI : Inv B lo hi s L) {c : Chunk} {site : BitVec 64} (hc : MayAlloc lo hi (L.map Obj.c) c)
    (hs : site.toNat < 2 ^ 47) :
    ∃ s', insert s c.start c.requested c.usable site = some s' ∧ Inv B lo hi s' (⟨c, site, none, false⟩ :: L) := by
  obtain ⟨ix, h1, h2, _⟩ := MallocIndex.inv_insert _ hI.ix hc (Or.inl rfl)
  refine ⟨⟨ix, fun x => if x = c.start then c.usable else s.usable x, setWord s.mem (c.start + (c.usable - 8))
    (Insert.indexInsert (word s.mem (c.start + (c.usable - 8))) site)⟩, by simp only [insert, h1], ⟨?_, ?_, ?_⟩⟩
  · exact h2
  · intro x hx
    rcases List.mem_cons.1 hx with rfl | hx
    · simp
    · simp only
      rw [if_neg]
      · exact hI.size x hx
      · have h3 := hc.disj x.c (List.mem_map_of_mem hx)
        have h4 := hI.room hx
        have h5 := hc.room
        have h6 := hc.nonzero
        unfold Chunk.disjoint at h3; omega
  · intro x hx
    rcases List.mem_cons.1 hx with rfl | hx
    · simp only
      rw [word_setWord]
      exact says_new B c _ hs
    · simp only
      rw [word_setWord_out]
      · exact hI.says x hx
      · have h3 := hc.disj x.c (List.mem_map_of_mem hx)
        have h4 := hI.room hx
        have h5 := hc.room
        unfold Chunk.disjoint at h3; omega

/-- A failed `realloc` takes the chunk out of the index and puts it back. -/
theorem inv_fail (hI : Inv B lo hi s L) {o : Obj} (ho : o ∈ L) (hu : o.c.usable ≤ 131072) (r : Nat) {site : BitVec 64}
    (hs : site.toNat < 2 ^ 47) :
    ∃ s', exec B s (.reallocFail o.c.start r site) = some s' ∧
      Inv B lo hi s' (update o.c.start (fun x => ⟨x.c, site, none, false⟩) L) := by
  obtain ⟨ix, h1, h2⟩ := MallocIndex.inv_step hI.ix (MallocIndex.Legal.reallocFail (big := false) (r := r)
    (List.mem_map_of_mem ho) (Or.inr hu))
  simp only [MallocIndex.exec] at h1
  cases hd : MallocIndex.indexDelete s.ix o.c.start with
  | none => rw [hd] at h1; simp at h1
  | some ix1 =>
    rw [hd, Option.bind_some] at h1
    have hu' := hI.size o ho
    have hI' : Inv B lo hi { s with ix := ix } L := ⟨h2, hI.size, hI.says⟩
    have := inv_write hI' ho (fun x => ⟨x.c, site, none, false⟩) (fun _ => rfl)
      (Insert.indexInsert (word s.mem (o.c.start + (o.c.usable - 8))) site)
      (fun x _ _ => says_new B x.c _ hs)
    refine ⟨⟨ix, fun x => if x = o.c.start then o.c.usable else s.usable x,
      setWord s.mem (o.c.start + (o.c.usable - 8))
        (Insert.indexInsert (word s.mem (o.c.start + (o.c.usable - 8))) site)⟩, ?_, ⟨this.ix, ?_, this.says⟩⟩
    · simp only [exec, execFail, delete, hd]
      rw [insert]
      simp only [hu', h1]
    · intro x hx
      have h3 := this.size x hx
      obtain ⟨y, hy, e⟩ := update_mem (f := fun x => ⟨x.c, site, none, false⟩) (fun _ => rfl) hx
      by_cases h : x.c.start = o.c.start
      · simp only [h, if_true]
        rw [← e] at h ⊢
        rw [hI.same hy ho h]
      · simp only [h, if_false]
        exact h3

variable (hlo : 2 ^ 18 ≤ lo) (hsz : hi ≤ lo + 2 ^ 36 - 1024) (hhi : hi < 2 ^ 64)
include hlo hsz hhi

/-- Where a query of an address inside an object leads to. -/
theorem locate_inside (hI : Inv B lo hi s L) {o : Obj} (ho : o ∈ L) (hr : Readable o.c) {a : Nat} (ha : Inside o.c a) :
    ∃ size, locate B s a = .ok (o.c.start, size, o.c.start + (o.c.usable - 8)) ∧
      (131072 < o.c.usable → size = o.c.requested) ∧
      (o.c.usable ≤ 131072 → 16 ≤ o.c.usable → size + 16 = o.c.usable) := by
  have hm := List.mem_map_of_mem (f := Obj.c) ho
  have hq := MallocIndex.query_interior hI.ix hlo hsz hhi B.ndebug hm ha.1 ha.2
  have hroom := hI.room ho
  have hbelow := (hI.ix.chunk o.c hm).2.2.1
  unfold MallocIndex.query at hq
  unfold locate
  cases hf : MallocIndex.findPromoted s.ix a with
  | some b =>
    rw [hf] at hq
    simp only [MallocIndex.Res.found.injEq] at hq
    obtain ⟨d, hd, hdu, rfl, _⟩ := MallocIndex.findPromoted_some hI.ix hf
    have e : d = o.c := hI.ix.disj d hd o.c hm hq
    subst e
    refine ⟨o.c.requested, ?_, fun _ => rfl, fun h => by omega⟩
    have : o.c.usable - 8 = o.c.requested + 8 := by unfold Readable at hr; omega
    rw [this]
  | none =>
    rw [hf] at hq
    have hnp : ¬ 131072 < o.c.usable := by
      intro h; exact MallocIndex.findPromoted_none hI.ix hf hm h ha
    refine ⟨MallocIndex.wsub (MallocIndex.wsub o.c.usable 8) 8, ?_, fun h => absurd h hnp, ?_⟩
    · show ofBitmap s (MallocIndex.lookupBitmap s.ix B.ndebug a) = _
      rw [show MallocIndex.lookupBitmap s.ix B.ndebug a = .found o.c.start from hq, ofBitmap, wordAt, hI.size o ho]
    intro _ h
    unfold MallocIndex.wsub
    omega

/-- **C148** for one state. -/
theorem info_inside (hB : GoodBuild B) (hI : Inv B lo hi s L) {o : Obj} (ho : o ∈ L) (hr : Readable o.c) {a : Nat}
    (ha : Inside o.c a) :
    ∃ i s', getInfo B s a = .ok (i, s') ∧ i.base = o.c.start ∧
      (131072 < o.c.usable → i.size = o.c.requested) ∧
      (o.c.usable ≤ 131072 → 16 ≤ o.c.usable → i.size + 16 = o.c.usable) ∧
      i.type = o.type B.find ∧ (o.asked = false → i.site = o.site) ∧
      Inv B lo hi s' (update o.c.start (fun x => { x with asked := x.asked || B.ndebug }) L) := by
  obtain ⟨size, h1, h2, h3⟩ := locate_inside hlo hsz hhi hI ho hr ha
  obtain ⟨t1, t2, _⟩ := says_extract hB (hI.says o ho)
  refine ⟨_, _, by simp only [getInfo, h1]; rfl, rfl, h2, h3, t1, t2, ?_⟩
  refine inv_write hI ho (fun x => { x with asked := x.asked || B.ndebug }) (fun _ => rfl) _ ?_
  intro x hx hxs
  have hw := hI.says x hx
  rw [hI.same hx ho hxs] at hw
  exact (says_extract hB hw).2.2

theorem inv_setType (hI : Inv B lo hi s L) {o : Obj} (ho : o ∈ L) (hu : o.c.usable ≤ 131072) {a : Nat}
    (ha : Inside o.c a) {u : BitVec 64} (hg : GoodType u) :
    ∃ s', setType B s a u = .ok s' ∧
      Inv B lo hi s' (update o.c.start (fun x => { x with set := some u, asked := true }) L) := by
  have hm := List.mem_map_of_mem (f := Obj.c) ho
  have hq := MallocIndex.query_interior hI.ix hlo hsz hhi B.ndebug hm ha.1 ha.2
  have hroom := hI.room ho
  unfold MallocIndex.query at hq
  have hl : MallocIndex.lookupBitmap s.ix B.ndebug a = .found o.c.start := by
    cases hf : MallocIndex.findPromoted s.ix a with
    | some b =>
      rw [hf] at hq
      simp only [MallocIndex.Res.found.injEq] at hq
      obtain ⟨d, hd, hdu, rfl, _⟩ := MallocIndex.findPromoted_some hI.ix hf
      have e : d = o.c := hI.ix.disj d hd o.c hm hq
      subst e
      omega
    | none => rw [hf] at hq; exact hq
  refine ⟨_, by rw [setType, hl, setAt, wordAt, hI.size o ho], ?_⟩
  refine inv_write hI ho (fun x => { x with set := some u, asked := true }) (fun _ => rfl) _ ?_
  intro x _ _
  exact ⟨rfl, hg, _, rfl⟩

theorem inv_step (hB : GoodBuild B) (hI : Inv B lo hi s L) {e : Ev} {M : List Obj} (h : Legal B lo hi L e M) :
    ∃ s', exec B s e = some s' ∧ Inv B lo hi s' M := by
  cases h with
  | store h => exact ⟨_, rfl, inv_store hI h⟩
  | alloc hc hs => exact inv_insert hI hc hs
  | free ho hu =>
    obtain ⟨s', h1, h2, _⟩ := inv_delete hI ho hu
    exact ⟨s', h1, h2⟩
  | realloc ho hu hc hs hw =>
    obtain ⟨s', h1, h2, _⟩ := inv_delete hI ho hu
    obtain ⟨s'', h3, h4⟩ := inv_insert (inv_stores _ h2 hw) hc hs
    exact ⟨s'', by rw [exec, execRealloc, h1]; exact h3, h4⟩
  | reallocFail ho hu hs => exact inv_fail hI ho hu _ hs
  | ask ho hr ha =>
    obtain ⟨i, s', h1, _, _, _, _, _, h2⟩ := info_inside hlo hsz hhi hB hI ho hr ha
    exact ⟨s', by rw [exec, h1]; rfl, h2⟩
  | setType ho hu ha hg =>
    obtain ⟨s', h1, h2⟩ := inv_setType hlo hsz hhi hI ho hu ha hg
    exact ⟨s', by rw [exec, h1]; rfl, h2⟩

theorem inv_run (hB : GoodBuild B) {es : List Ev} {M : List Obj} (h : History B lo hi L es M) :
    ∀ {s : State}, Inv B lo hi s L → ∃ s', run B s es = some s' ∧ Inv B lo hi s' M := by
  induction h with
  | nil => intro s hI; exact ⟨s, rfl, hI⟩
  | cons h1 _ ih =>
    intro s hI
    obtain ⟨s1, e1, hI1⟩ := inv_step hlo hsz hhi hB hI h1
    obtain ⟨s2, e2, hI2⟩ := ih hI1
    exact ⟨s2, by rw [run, e1]; exact e2, hI2⟩

end

theorem inv_fresh (B : Build) (lo hi : Nat) (m : Mem) : Inv B lo hi (fresh lo m) [] :=
  ⟨MallocIndex.inv_fresh lo hi, by simp, by simp⟩

/-- **C148** (partial: an object's type after a failed `realloc` is that of the failed call's site; the size reported is
short, C13; sites are dropped by type changes and, in a build with NDEBUG, by queries; large chunks are never freed, C10).
Whatever was allocated, resized, freed, written to, asked about and given types before, a query of any address inside a live
object reports the object's start and its type: the type that it was given last, else that of the site of its allocation. -/
theorem heap_object_partial {B : Build} {lo hi : Nat} (hlo : 2 ^ 18 ≤ lo) (hsz : hi ≤ lo + 2 ^ 36 - 1024)
    (hhi : hi < 2 ^ 64) (hB : GoodBuild B) (m : Mem) {es : List Ev} {L : List Obj} (h : History B lo hi [] es L) :
    ∃ s, run B (fresh lo m) es = some s ∧
      ∀ o ∈ L, Readable o.c → ∀ a, Inside o.c a →
        ∃ i s', getInfo B s a = .ok (i, s') ∧ i.base = o.c.start ∧
          (131072 < o.c.usable → i.size = o.c.requested) ∧
          (o.c.usable ≤ 131072 → 16 ≤ o.c.usable → i.size + 16 = o.c.usable) ∧
          i.type = o.type B.find ∧ (o.asked = false → i.site = o.site) := by
  obtain ⟨s, hs, hI⟩ := inv_run hlo hsz hhi hB h (inv_fresh B lo hi m)
  refine ⟨s, hs, ?_⟩
  intro o ho hr a ha
  obtain ⟨i, s', h1, h2, h3, h4, h5, h6, _⟩ := info_inside hlo hsz hhi hB hI ho hr ha
  exact ⟨i, s', h1, h2, h3, h4, h5, h6⟩

/-! ### A history -/

/-- Two sites with types, at a program's usual addresses. -/
def exB (ndebug : Bool) : Build :=
  ⟨ndebug, fun s => if s = 0x555555554100#64 then 0x7ffff7dd1238#64 else if s = 0x555555554200#64 then 0x7ffff7dd2340#64 else 0#64,
    fun s => s.setWidth 15⟩

theorem exB_good (ndebug : Bool) : GoodBuild (exB ndebug) := by
  refine ⟨?_, by cases ndebug <;> decide⟩
  intro s
  simp only [exB]
  split
  · right; simp [GoodType]
  · split
    · right; simp [GoodType]
    · left; rfl

/-- Two chunks; the program fills the first up to its end; the second is asked about, resized and given a type; a third is
large; the first is freed and its memory written to. -/
def exEvs : List Ev :=
  [.alloc 0x100010 100 120 0x555555554100#64, .store (0x100010 + 111) 0xff, .alloc 0x100090 24 40 0x555555554200#64,
    .ask 0x100097, .realloc 0x100090 0x100400 200 216 0x555555554100#64 [(0x100090 + 39, 0xee), (0x100400 + 215, 0xdd)],
    .setType 0x100408 0x7ffff7dd2340#64, .alloc 0x110000 140000 140016 0x555555554300#64, .ask 0x110005,
    .free 0x100010, .store (0x100010 + 119) 0xaa]

def exL (ndebug : Bool) : List Obj :=
  [⟨⟨0x110000, 140000, 140016⟩, 0x555555554300#64, none, ndebug⟩,
    ⟨⟨0x100400, 200, 216⟩, 0x555555554100#64, some 0x7ffff7dd2340#64, true⟩]

theorem exHistory (ndebug : Bool) : History (exB ndebug) 0x100000 0x200000 [] exEvs (exL ndebug) := by
  refine .cons (.alloc (c := ⟨0x100010, 100, 120⟩) ?_ (by decide)) <|
    .cons (.store ?_) <|
    .cons (.alloc (c := ⟨0x100090, 24, 40⟩) ?_ (by decide)) <|
    .cons (.ask (o := ⟨⟨0x100090, 24, 40⟩, 0x555555554200#64, none, false⟩) (by simp) (by simp [Readable]) (by simp [Inside])) <|
    .cons (.realloc (o := ⟨⟨0x100090, 24, 40⟩, 0x555555554200#64, none, ndebug⟩) (c := ⟨0x100400, 200, 216⟩)
      (by cases ndebug <;> decide) (by simp) ?_ (by decide) ?_) <|
    .cons (.setType (o := ⟨⟨0x100400, 200, 216⟩, 0x555555554100#64, none, false⟩) (by cases ndebug <;> decide) (by decide)
      (by simp [Inside]) (by simp [GoodType])) <|
    .cons (.alloc (c := ⟨0x110000, 140000, 140016⟩) ?_ (by decide)) <|
    .cons (.ask (o := ⟨⟨0x110000, 140000, 140016⟩, 0x555555554300#64, none, false⟩) (by cases ndebug <;> decide)
      (by simp [Readable]) (by simp [Inside])) <|
    .cons (.free (o := ⟨⟨0x100010, 100, 120⟩, 0x555555554100#64, none, false⟩) (by cases ndebug <;> decide) (by decide)) <|
    .cons (.store ?_) ?_
  · constructor <;> simp
  · simp [MayWrite]
  · constructor <;> simp [Chunk.disjoint]
  · cases ndebug <;> (constructor <;> simp [without, update, exB, Chunk.disjoint])
  · cases ndebug <;> simp [without, update, exB, MayWrite]
  · cases ndebug <;> (constructor <;> simp [without, update, exB, Chunk.disjoint])
  · cases ndebug <;> simp [without, update, exB, MayWrite]
  · cases ndebug <;> exact .nil

/-- What is asked after a history, and answered. -/
def answer (B : Build) (lo : Nat) (es : List Ev) (a : Nat) : Option Info :=
  match run B (fresh lo (fun _ => 0)) es with
  | none => none
  | some s =>
    match getInfo B s a with
    | .ok r => some r.1
    | _ => none

theorem exAnswers :
    answer (exB true) 0x100000 exEvs 0x100411 = some ⟨0x100400, 200, 0#64, some 0x7ffff7dd2340#64⟩ ∧
    answer (exB false) 0x100000 exEvs 0x110007 = some ⟨0x110000, 140000, 0x555555554300#64, none⟩ := by decide +kernel

/-- **C148 fails** for failed calls of `realloc`: the object, which was not touched, is then said to have been allocated
there, and its type changes. -/
theorem failed_realloc_fails (ndebug : Bool) :
    answer (exB ndebug) 0x100000 [.alloc 0x100010 100 120 0x555555554100#64] 0x100010 =
      some ⟨0x100010, 104, 0x555555554100#64, some 0x7ffff7dd1238#64⟩ ∧
    answer (exB ndebug) 0x100000 [.alloc 0x100010 100 120 0x555555554100#64, .reallocFail 0x100010 100000 0x555555554200#64]
      0x100010 = some ⟨0x100010, 104, 0x555555554200#64, some 0x7ffff7dd2340#64⟩ := by
  cases ndebug <;> decide +kernel

/-- **C148 fails** for types given to large objects not delivered with sixteen spare bytes: the type is written where no
query reads it. -/
theorem large_setType_fails (ndebug : Bool) :
    answer (exB ndebug) 0x100000 [.alloc 0x110000 140000 140024 0x555555554100#64, .setType 0x110000 0x7ffff7dd2340#64]
      0x110000 = some ⟨0x110000, 140000, 0#64, none⟩ := by
  cases ndebug <;> decide +kernel

/-- **C148 fails** for sites in a build with NDEBUG: the second query no longer says where the object was allocated. -/
theorem site_twice_fails :
    answer (exB true) 0x100000 [.alloc 0x100010 100 120 0x555555554100#64, .ask 0x100010] 0x100010 =
      some ⟨0x100010, 104, 0#64, some 0x7ffff7dd1238#64⟩ := by decide +kernel

end Liballocs.HeapObj
