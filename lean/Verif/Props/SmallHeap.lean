import Verif.Model.SmallHeap
import Verif.Proofs.FileLoad
import Verif.Props.SmallIndex
import Verif.Props.SmallTable
import Verif.Props.PageIndexFails
/-! Properties of the small-object allocator's calls. -/
namespace Liballocs.SmallHeap

open PageIndex hiding Op
open FileLoad (setSub setSub_spec fromRoot_none fromRoot_unique)
open SmallIndex (Obj Op History Proper Reps liveAfter)

/-! ## Specification -/

/-- What a client does, in addresses: announce an object or the end of one. -/
def call (e : Env) (base : Nat) (w : World) : Op → Option World
  | .alloc o => index e w (base + o.start) o.size o.site
  | .free ptr => unindex e w (base + ptr)

def calls (e : Env) (base : Nat) : World → List Op → Option World
  | w, [] => some w
  | w, op :: ops => (call e base w op).bind (fun w' => calls e base w' ops)

/-- In the `size` bytes from `base` on, in big allocation `m`, queries show exactly the objects of the list (whose starts are
counted from `base`): every address is the small-object allocator's; the start and site of the object there are given, or
nothing if there is none. -/
def Shows (e : Env) (w : World) (m base size : Nat) (live : List Obj) : Prop :=
  ∀ i, i < size → deepest e.c w.pi (base + i) = some m ∧ leafAllocator e.c w.pi (base + i) = some e.small ∧
    ∃ r, getInfo e w m (base + i) = some r ∧ (∀ o ∈ live, o.contains i → r = some (base + o.start, o.site)) ∧
      ((∀ o ∈ live, ¬ o.contains i) → r = none)

/-! ## The invariant of a chunk -/

/-- `n` is a chunk of `size` bytes whose table has the geometry `cfg` and holds these objects. -/
structure Chunk (e : Env) (w : World) (n size : Nat) (cfg : SmallIndex.Cfg) (live : List Obj) : Prop where
  alive : Live w.pi n
  ne0 : n ≠ 0
  sub : w.pi.sub n = e.small
  other : w.pi.alloc n ≠ e.small
  whole : w.pi.fin n = w.pi.beg n + size
  leaf : ∀ a, w.pi.beg n ≤ a → a < w.pi.beg n + size → deepest e.c w.pi a = some n
  table : ∃ st, w.tab n = some ⟨cfg, st⟩ ∧ Reps cfg st live

private theorem leaf_is {e : Env} {align : Nat → Nat} {s : State} (hr : Reach e.c align s) {a n : Nat} (h0 : n ≠ 0) (h : deepest e.c s a = some n) :
    leafBig e.c s a = some n ∧ leafAllocator e.c s a = some (if s.sub n ≠ 0 then s.sub n else s.alloc n) := by
  obtain ⟨r, hd, h1, h2⟩ := leaf_allocator hr a
  obtain ⟨_, kids, rank, hi⟩ := reach_good hr
  have := (hi.deepest_iff a r).2 hd
  rw [h] at this
  cases this
  rw [h1, h2, if_neg h0]
  exact ⟨rfl, rfl⟩

theorem Chunk.shows {e : Env} {align : Nat → Nat} {w : World} {n size : Nat} {cfg : SmallIndex.Cfg} {live : List Obj}
    (hs0 : e.small ≠ 0) (hr : Reach e.c align w.pi) (hc : cfg.ok) (h : Chunk e w n size cfg live) : Shows e w n (w.pi.beg n) size live := by
  intro i hi
  have hd := h.leaf (w.pi.beg n + i) (by omega) (by omega)
  obtain ⟨h1, h2⟩ := leaf_is hr h.ne0 hd
  refine ⟨hd, ?_, ?_⟩
  · rw [h2, h.sub, if_pos hs0]
  obtain ⟨st, ht, hreps⟩ := h.table
  have hg : getInfo e w n (w.pi.beg n + i) = (match SmallIndex.lookup cfg st i with
      | none => none
      | some none => some none
      | some (some h) =>
        match (st.cols h.k)[h.layer]? with
        | none => none
        | some ent =>
          if ent.discr < SmallIndex.MINU then none
          else if ent.discr < 2 ^ 47 then some (some (w.pi.beg n + h.start, ent.discr)) else none) := by
    unfold getInfo
    rw [if_neg h.other, hd]
    simp only
    rw [if_neg h.ne0, ht]
    simp only [Nat.add_sub_cancel_left]
    rfl
  rw [hg]
  by_cases hex : ∃ o ∈ live, o.contains i
  · obtain ⟨o, ho, hcon⟩ := hex
    obtain ⟨x, q1, q2, q3, q4⟩ := SmallIndex.lookup_live hc hreps ho hcon
    have hok := hreps.good.ok o ho
    have hdis : (SmallIndex.startEnt cfg o.start o.size o.site).discr = o.site := by
      have : o.site < 2 ^ 47 := hok.2.2.2.1
      simp only [SmallIndex.startEnt]
      exact Nat.mod_eq_of_lt this
    rw [q1]
    simp only
    rw [q4]
    simp only
    rw [hdis, if_neg (by have := hok.2.2.1; omega), if_pos hok.2.2.2.1]
    refine ⟨_, rfl, ?_, fun hno => absurd hcon (hno o ho)⟩
    intro o' ho' hcon'
    have : o' = o := SmallIndex.same_of_common hreps.good ho' ho hcon' hcon
    rw [this, q2]
  · obtain ⟨r, q1, q2, q3⟩ := SmallIndex.lookup_ok hc hreps i
    cases r with
    | none =>
      rw [q1]
      exact ⟨none, rfl, fun o ho hcon => absurd ⟨o, ho, hcon⟩ hex, fun _ => rfl⟩
    | some x =>
      obtain ⟨o, ho, hcon, _⟩ := q2 x rfl
      exact absurd ⟨o, ho, hcon⟩ hex

private theorem setTab_same (w : World) (n : Nat) (r : Rec) : (setTab w n r).tab n = some r := by simp [setTab]
private theorem setTab_pi (w : World) (n : Nat) (r : Rec) : (setTab w n r).pi = w.pi := rfl
private theorem setTab_other (w : World) {n m : Nat} (r : Rec) (h : m ≠ n) : (setTab w n r).tab m = w.tab m := by simp [setTab, h]

/-- Only the record of `n` may differ. -/
def SameBut (w w' : World) (n : Nat) : Prop := w'.pi = w.pi ∧ ∀ m, m ≠ n → w'.tab m = w.tab m

private theorem Chunk.update {e : Env} {w : World} {n size : Nat} {cfg : SmallIndex.Cfg} {live live' : List Obj} {st : SmallIndex.St}
    (h : Chunk e w n size cfg live) (hr : Reps cfg st live') : Chunk e (setTab w n ⟨cfg, st⟩) n size cfg live' :=
  ⟨h.alive, h.ne0, h.sub, h.other, h.whole, h.leaf, st, setTab_same _ _ _, hr⟩

/-- Announcing an object in a chunk: what it overlaps is forgotten, nothing else changes. -/
theorem Chunk.index {e : Env} {align : Nat → Nat} {w : World} {n size : Nat} {cfg : SmallIndex.Cfg} {live : List Obj}
    (hs0 : e.small ≠ 0) (hr : Reach e.c align w.pi) (hc : cfg.ok) (h : Chunk e w n size cfg live) {o : Obj}
    (hp : Proper cfg live (.alloc o)) (hin : o.start + o.size ≤ size) :
    ∃ w', index e w (w.pi.beg n + o.start) o.size o.site = some w' ∧ SameBut w w' n ∧ Chunk e w' n size cfg (liveAfter live (.alloc o)) := by
  obtain ⟨st, ht, hreps⟩ := h.table
  obtain ⟨st', hst, hreps'⟩ := SmallIndex.step_ok hc hreps hp
  have hpos : 0 < o.size := hp.1.1
  obtain ⟨h1, h2⟩ := leaf_is hr h.ne0 (h.leaf (w.pi.beg n + o.start) (by omega) (by omega))
  rw [h.sub, if_pos hs0] at h2
  simp only [SmallIndex.step, Option.bind_eq_some_iff] at hst
  obtain ⟨st1, hst1, hst2⟩ := hst
  refine ⟨setTab (setTab w n ⟨cfg, st1⟩) n ⟨cfg, st'⟩, ?_, ⟨rfl, ?_⟩, ?_⟩
  · unfold SmallHeap.index
    rw [h1, h2]
    simp only
    rw [if_neg (by omega), if_neg h.other, if_neg h.ne0]
    rw [if_pos trivial]
    have hcl : clear w n (w.pi.beg n + o.start) o.size = some (setTab w n ⟨cfg, st1⟩) := by
      unfold clear
      rw [ht]
      simp only [Nat.add_sub_cancel_left, hst1, Option.map_some]
    rw [hcl]
    simp only [Option.bind_some]
    unfold place
    rw [setTab_pi, h.sub, if_neg hs0, if_neg (by simp)]
    unfold indexIn
    rw [setTab_same, setTab_pi]
    simp only [Nat.add_sub_cancel_left, hst2, Option.map_some]
  · intro m hm
    rw [setTab_other _ _ hm, setTab_other _ _ hm]
  · exact (h.update (live' := live) (st := st) hreps |> fun h => by
      refine ⟨h.alive, h.ne0, h.sub, h.other, h.whole, h.leaf, st', setTab_same _ _ _, hreps'⟩)

/-- Announcing the end of an object in a chunk: it is forgotten, nothing else changes. -/
theorem Chunk.unindex {e : Env} {w : World} {n size : Nat} {cfg : SmallIndex.Cfg} {live : List Obj}
    (hc : cfg.ok) (h : Chunk e w n size cfg live) {ptr : Nat}
    (hp : Proper cfg live (.free ptr)) (hin : ptr < size) :
    ∃ w', unindex e w (w.pi.beg n + ptr) = some w' ∧ SameBut w w' n ∧ Chunk e w' n size cfg (liveAfter live (.free ptr)) := by
  obtain ⟨st, ht, hreps⟩ := h.table
  obtain ⟨st', hst, hreps'⟩ := SmallIndex.step_ok hc hreps hp
  refine ⟨setTab w n ⟨cfg, st'⟩, ?_, ⟨rfl, fun m hm => setTab_other _ _ hm⟩, h.update hreps'⟩
  unfold SmallHeap.unindex
  rw [h.leaf _ (by omega) (by omega)]
  simp only [Option.bind_some]
  unfold nearest
  rw [if_neg h.ne0, if_pos h.sub]
  simp only [ht, Nat.add_sub_cancel_left]
  rw [show SmallIndex.unindex cfg st ptr = some st' from hst]
  rfl

/-! ## The first object in a heap chunk -/

/-- A heap chunk of `size` bytes at `base`, in the arena `n` of allocator `a`, not yet a big allocation: it is what `a` says of
any address in it, it lies within the arena and clear of the big allocations there, and one more can be made. -/
structure HeapChunk (e : Env) (s : State) (n a base size : Nat) : Prop where
  arena : Live s n
  by' : s.sub n = a
  a0 : a ≠ 0
  foreign : a ≠ e.small ∧ s.alloc n ≠ e.small
  says : ∀ i, i < size → e.info a (base + i) = some (base, size)
  inside : s.beg n ≤ base ∧ base + size ≤ s.fin n
  leaf : ∀ i, i < size → deepest e.c s (base + i) = some n
  clear : ∀ d, Live s d → s.par d = n → s.fin d ≤ base ∨ base + size ≤ s.beg d
  unpromoted : ∀ x, Live s x → Has s x base → s.alloc x ≠ a
  base0 : base ≠ 0
  limit : size ≤ e.c.maxPages * PAGE
  room : ∃ b, b ≠ 0 ∧ b < e.c.nb ∧ ¬ Live s b

/-- The geometry of the table made for a chunk of `size` bytes when the first object has `avg` bytes. -/
def Geometry (e : Env) (size avg : Nat) (cfg : SmallIndex.Cfg) : Prop := ∃ r, freshRec e size avg = some r ∧ r.cfg = cfg

theorem Geometry.ok {e : Env} {size avg : Nat} {cfg : SmallIndex.Cfg} (h : Geometry e size avg cfg) (hsz : size ≤ 2 ^ 31) :
    cfg.ok ∧ freshRec e size avg = some ⟨cfg, SmallIndex.empty⟩ := by
  obtain ⟨r, h1, h2⟩ := h
  unfold freshRec at h1
  obtain ⟨g, hg, rfl⟩ := Option.map_eq_some_iff.1 h1
  have G := SmallTable.make_good hg hsz
  subst h2
  refine ⟨⟨G.deep, ?_, ?_⟩, ?_⟩
  · exact G.pitch
  · have := G.few
    show SmallTable.perLayer g ≤ 2 ^ 22
    omega
  · unfold freshRec
    rw [hg]
    rfl

/-- The first object announced in a heap chunk makes the chunk a big allocation in our charge. -/
theorem index_first {e : Env} {align : Nat → Nat} {w : World} {n a base size : Nat} {cfg : SmallIndex.Cfg} {o : Obj}
    (hs0 : e.small ≠ 0) (hr : Reach e.c align w.pi) (hh : HeapChunk e w.pi n a base size) (hsz : size ≤ 2 ^ 31)
    (hg : Geometry e size o.size cfg) (hp : Proper cfg [] (.alloc o)) (hin : o.start + o.size ≤ size) :
    ∃ w' m, index e w (base + o.start) o.size o.site = some w' ∧ ¬ Live w.pi m ∧ Reach e.c align w'.pi ∧ Chunk e w' m size cfg [o]
      ∧ w'.pi.beg m = base ∧ w'.pi.par m = n ∧ w'.pi.alloc m = a
      ∧ (∀ x, Live w'.pi x ↔ Live w.pi x ∨ x = m)
      ∧ (∀ x, Live w.pi x → w'.pi.beg x = w.pi.beg x ∧ w'.pi.fin x = w.pi.fin x ∧ w'.pi.par x = w.pi.par x
          ∧ w'.pi.alloc x = w.pi.alloc x ∧ w'.pi.sub x = w.pi.sub x)
      ∧ (∀ x, ¬ (base ≤ x ∧ x < base + size) → deepest e.c w'.pi x = deepest e.c w.pi x)
      ∧ (∀ x, x ≠ m → w'.tab x = w.tab x) := by
  obtain ⟨hc, hfresh⟩ := hg.ok hsz
  have hpos : 0 < o.size := hp.1.1
  obtain ⟨_, kids, rank, hi⟩ := reach_good hr
  have hn0 : n ≠ 0 := hi.ne0 hh.arena
  obtain ⟨h1, h2⟩ := leaf_is hr hn0 (hh.leaf o.start (by omega))
  rw [hh.by', if_pos hh.a0] at h2
  have ho : NewOk e.c w.pi base size n := by
    refine ⟨hh.base0, by omega, hh.limit, hh.room, fun _ => ⟨hh.arena, hh.inside.1, hh.inside.2, hh.clear⟩, fun h => absurd h hn0⟩
  obtain ⟨s1, m, p, e1, hr1, hnm, hpp, _, ha, hl, hin1, hout⟩ := create_correct hr (m := ⟨a, 0, 0, 0, 0, 0⟩) ho
  cases hpp hn0
  have hm1 : Live s1 m := (hl m).2 (Or.inr rfl)
  obtain ⟨_, kids1, rank1, hi1⟩ := reach_good hr1
  have hm0 : m ≠ 0 := hi1.ne0 hm1
  have hens : ensureBig e w.pi a base size = some (s1, m) := by
    unfold ensureBig
    rw [fromRoot_none hr hh.a0 hh.unpromoted]
    simp only [ne_eq, not_true, if_false]
    have := hh.leaf 0 (by omega)
    rw [Nat.add_zero] at this
    rw [this]
    exact e1
  obtain ⟨hr2, hd2⟩ := setSub_spec hr1 (v := e.small) hm1
  obtain ⟨st, hst, hreps⟩ := SmallIndex.step_ok hc (SmallIndex.empty_reps hc) hp
  have hbeg : s1.beg m = base := by rw [ha.beg, upd_same]
  have hfin : s1.fin m = base + size := by rw [ha.fin, upd_same]
  have hsub : s1.sub m = 0 := by rw [ha.sub, upd_same]
  -- the table after `index` alone
  have hidx : ∃ st', SmallIndex.index cfg SmallIndex.empty o.start o.size o.site = some st' ∧ Reps cfg st' [o] := by
    have hf : SmallIndex.Fits cfg o := hp.1
    refine SmallIndex.index_ok hc (SmallIndex.empty_reps hc) ⟨?_, ?_, fun k => by rw [SmallIndex.crowd_eq]; exact hp.2 k⟩
    · exact .cons (by simp) .nil
    · intro p hp'
      cases List.mem_singleton.1 hp'
      exact SmallIndex.fits_ok hc hf
  obtain ⟨st', hst', hreps'⟩ := hidx
  refine ⟨setTab (setTab { w with pi := setSub s1 m e.small } m ⟨cfg, SmallIndex.empty⟩) m ⟨cfg, st'⟩, m, ?_, hnm, hr2, ?_, hbeg, ?_, ?_, ?_, ?_, ?_, ?_⟩
  · unfold SmallHeap.index
    rw [h1, h2]
    simp only
    rw [if_neg (by have := hh.a0; omega), if_neg hh.foreign.2, if_neg hn0]
    rw [if_neg hh.foreign.1, if_pos (by rw [hh.by']; exact hh.foreign.1), hh.says _ (by omega)]
    simp only [hens]
    unfold place
    simp only
    rw [if_pos hsub, hfin, hbeg, show base + size - base = size by omega, hfresh]
    simp only
    unfold indexIn
    rw [setTab_same, setTab_pi]
    simp only
    have : (setSub s1 m e.small).beg m = base := hbeg
    rw [this, Nat.add_sub_cancel_left, hst']
    rfl
  · refine ⟨hm1, hm0, ?_, ?_, ?_, ?_, st', setTab_same _ _ _, hreps'⟩
    · show upd s1.sub m e.small m = e.small
      rw [upd_same]
    · show s1.alloc m ≠ e.small
      rw [ha.alloc, upd_same]
      exact hh.foreign.1
    · show s1.fin m = s1.beg m + size
      rw [hbeg, hfin]
    · intro x hx1 hx2
      show deepest e.c (setSub s1 m e.small) x = some m
      have hx1 : s1.beg m ≤ x := hx1
      have hx2 : x < s1.beg m + size := hx2
      rw [hd2]
      exact hin1 x (by omega) (by omega)
  · show s1.par m = n
    rw [ha.par, upd_same]
  · show s1.alloc m = a
    rw [ha.alloc, upd_same]
  · intro x
    exact hl x
  · intro x hx
    have hne : x ≠ m := fun e => hnm (e ▸ hx)
    refine ⟨?_, ?_, ?_, ?_, ?_⟩
    · show s1.beg x = _
      rw [ha.beg, upd_ne hne]
    · show s1.fin x = _
      rw [ha.fin, upd_ne hne]
    · show s1.par x = _
      rw [ha.par, upd_ne hne]
    · show s1.alloc x = _
      rw [ha.alloc, upd_ne hne]
    · show upd s1.sub m e.small x = _
      rw [upd_ne hne, ha.sub, upd_ne hne]
  · intro x hx
    show deepest e.c (setSub s1 m e.small) x = _
    rw [hd2]
    exact hout x hx
  · intro x hx
    rw [setTab_other _ _ hx, setTab_other _ _ hx]

/-! ## Histories -/

private theorem calls_append (e : Env) (base : Nat) : ∀ (a b : List Op) (w : World),
    calls e base w (a ++ b) = (calls e base w a).bind (fun w' => calls e base w' b)
  | [], _, _ => rfl
  | x :: a, b, w => by
    simp only [List.cons_append, calls]
    cases call e base w x with
    | none => rfl
    | some w' => simp only [Option.bind_some]; exact calls_append e base a b w'

/-- Histories, whatever the first announcement did to the rest of the world. -/
private theorem hist_ind {e : Env} {align : Nat → Nat} {w : World} {base size : Nat} {cfg : SmallIndex.Cfg} (hs0 : e.small ≠ 0)
    (hsz : size ≤ 2 ^ 31) (Frame : World → Nat → Prop) (hF : ∀ w' w'' m, SameBut w' w'' m → Frame w' m → Frame w'' m)
    (hfirst : ∀ o, Geometry e size o.size cfg → Proper cfg [] (.alloc o) → o.start + o.size ≤ size →
      ∃ w' m, index e w (base + o.start) o.size o.site = some w' ∧ Reach e.c align w'.pi ∧ Chunk e w' m size cfg [o] ∧ w'.pi.beg m = base ∧ Frame w' m)
    {ops : List Op} {live : List Obj} (hist : History cfg ops live)
    (hg : ∀ o t, ops = .alloc o :: t → Geometry e size o.size cfg) (hin : ∀ o, Op.alloc o ∈ ops → o.start + o.size ≤ size) :
    (ops = [] ∧ live = []) ∨ ∃ w' m, cfg.ok ∧ calls e base w ops = some w' ∧ Reach e.c align w'.pi ∧ Chunk e w' m size cfg live
      ∧ (∀ o ∈ live, o.start + o.size ≤ size) ∧ w'.pi.beg m = base ∧ Frame w' m := by
  induction hist with
  | nil => exact Or.inl ⟨rfl, rfl⟩
  | @snoc ops live op hist hp ih =>
    right
    rcases ih (fun o t ht => hg o (t ++ [op]) (by rw [ht]; rfl)) (fun o ho => hin o (by simp [ho])) with ⟨rfl, rfl⟩ | ⟨w', m, hc, h1, h3, h4, h5, h8, h9⟩
    · cases op with
      | free ptr =>
        obtain ⟨⟨o, ho, _⟩, _⟩ := hp
        cases ho
      | alloc o =>
        have hgo := hg o [] rfl
        obtain ⟨w', m, g1, g3, g4, g5, g6⟩ := hfirst o hgo hp (hin o (by simp))
        refine ⟨w', m, (hgo.ok hsz).1, ?_, g3, g4, ?_, g5, g6⟩
        · simp only [List.nil_append, calls, call, g1, Option.bind_some]
        · intro o' ho'
          have : o' = o := by simpa [liveAfter] using ho'
          rw [this]
          exact hin o (by simp)
    · have fin : ∀ w'', call e base w' op = some w'' → SameBut w' w'' m → Chunk e w'' m size cfg (liveAfter live op) →
          (∀ o ∈ liveAfter live op, o.start + o.size ≤ size) →
          ∃ w' m, cfg.ok ∧ calls e base w (ops ++ [op]) = some w' ∧ Reach e.c align w'.pi ∧ Chunk e w' m size cfg (liveAfter live op)
            ∧ (∀ o ∈ liveAfter live op, o.start + o.size ≤ size) ∧ w'.pi.beg m = base ∧ Frame w' m := by
        intro w'' k1 k2 k3 k4
        refine ⟨w'', m, hc, ?_, ?_, k3, k4, ?_, hF _ _ _ k2 h9⟩
        · rw [calls_append, h1]
          simp only [Option.bind_some, calls, k1]
        · rw [k2.1]; exact h3
        · rw [k2.1]; exact h8
      cases op with
      | alloc o =>
        obtain ⟨w'', k1, k2, k3⟩ := h4.index hs0 h3 hc hp (hin o (by simp))
        rw [h8] at k1
        refine fin w'' k1 k2 k3 ?_
        intro o' ho'
        simp only [liveAfter, List.mem_cons, List.mem_filter] at ho'
        rcases ho' with rfl | ho'
        · exact hin _ (by simp)
        · exact h5 o' ho'.1
      | free ptr =>
        obtain ⟨o, ho, hcon⟩ := hp.1
        have := h5 o ho
        obtain ⟨w'', k1, k2, k3⟩ := h4.unindex hc hp (by have := hcon.2; omega)
        rw [h8] at k1
        refine fin w'' k1 k2 k3 ?_
        intro o' ho'
        simp only [liveAfter, List.mem_filter] at ho'
        exact h5 o' ho'.1

/-- **C134 (partial).** Whatever objects a client announces in a heap chunk, and whichever it ends: no call fails, the chunk has
become one big allocation within its arena, queries in it show exactly the objects that are live, and every lookup elsewhere, every other
big allocation and every other chunk's record is as before. Partial: the table can be made and holds the objects (`Geometry`, `History`). -/
theorem calls_agree_partial {e : Env} {align : Nat → Nat} {w : World} {n a base size : Nat} {cfg : SmallIndex.Cfg}
    (hs0 : e.small ≠ 0) (hr : Reach e.c align w.pi) (hh : HeapChunk e w.pi n a base size) (hsz : size ≤ 2 ^ 31)
    {ops : List Op} {live : List Obj} (hist : History cfg ops live) (hne : ops ≠ [])
    (hg : ∀ o t, ops = .alloc o :: t → Geometry e size o.size cfg) (hin : ∀ o, Op.alloc o ∈ ops → o.start + o.size ≤ size) :
    ∃ w' m, calls e base w ops = some w' ∧ ¬ Live w.pi m ∧ Shows e w' m base size live
      ∧ w'.pi.par m = n ∧ w'.pi.alloc m = a ∧ w'.pi.beg m = base ∧ w'.pi.fin m = base + size
      ∧ (∀ x, Live w'.pi x ↔ Live w.pi x ∨ x = m)
      ∧ (∀ x, Live w.pi x → w'.pi.beg x = w.pi.beg x ∧ w'.pi.fin x = w.pi.fin x ∧ w'.pi.par x = w.pi.par x
          ∧ w'.pi.alloc x = w.pi.alloc x ∧ w'.pi.sub x = w.pi.sub x)
      ∧ (∀ x, ¬ (base ≤ x ∧ x < base + size) → deepest e.c w'.pi x = deepest e.c w.pi x)
      ∧ (∀ x, x ≠ m → w'.tab x = w.tab x) := by
  have key := hist_ind (align := align) (w := w) (base := base) hs0 hsz (fun w' m => ¬ Live w.pi m ∧ w'.pi.par m = n ∧ w'.pi.alloc m = a
      ∧ (∀ x, Live w'.pi x ↔ Live w.pi x ∨ x = m)
      ∧ (∀ x, Live w.pi x → w'.pi.beg x = w.pi.beg x ∧ w'.pi.fin x = w.pi.fin x ∧ w'.pi.par x = w.pi.par x
          ∧ w'.pi.alloc x = w.pi.alloc x ∧ w'.pi.sub x = w.pi.sub x)
      ∧ (∀ x, ¬ (base ≤ x ∧ x < base + size) → deepest e.c w'.pi x = deepest e.c w.pi x)
      ∧ (∀ x, x ≠ m → w'.tab x = w.tab x)) ?_ ?_ hist hg hin
  · rcases key with ⟨h, _⟩ | ⟨w', m, hc, h1, h3, h4, h5, h8, g1, g2, g3, g4, g5, g6, g7⟩
    · exact absurd h hne
    · have hsh := h4.shows hs0 h3 hc
      rw [h8] at hsh
      exact ⟨w', m, h1, g1, hsh, g2, g3, h8, by rw [h4.whole, h8], g4, g5, g6, g7⟩
  · rintro w' w'' m hs ⟨g1, g2, g3, g4, g5, g6, g7⟩
    refine ⟨g1, ?_, ?_, ?_, ?_, ?_, fun x hx => by rw [hs.2 x hx]; exact g7 x hx⟩ <;> rw [hs.1] <;> assumption
  · intro o hgo hp hino
    obtain ⟨w', m, g1, g2, g3, g4, g5, g6, g7, g8, g9, g10, g11⟩ := index_first hs0 hr hh hsz hgo hp hino
    exact ⟨w', m, g1, g3, g4, g5, g2, g6, g7, g8, g9, g10, g11⟩

/-- A heap chunk of `size` bytes that is a big allocation `m` already, of allocator `a`, nothing being made in it. -/
structure BigChunk (e : Env) (s : State) (m a size : Nat) : Prop where
  alive : Live s m
  by' : s.alloc m = a
  fresh : s.sub m = 0
  a0 : a ≠ 0
  foreign : a ≠ e.small
  whole : s.fin m = s.beg m + size
  says : ∀ i, i < size → e.info a (s.beg m + i) = some (s.beg m, size)
  leaf : ∀ i, i < size → deepest e.c s (s.beg m + i) = some m
  only : ∀ x, Live s x → Has s x (s.beg m) → s.alloc x = a → x = m

/-- **C134 (partial).** The same in a heap chunk that is a big allocation already: it stays the one it was, now in our charge, and all
that changes in the page index is its suballocator. -/
theorem calls_agree_big_partial {e : Env} {align : Nat → Nat} {w : World} {m a size : Nat} {cfg : SmallIndex.Cfg}
    (hs0 : e.small ≠ 0) (hr : Reach e.c align w.pi) (hh : BigChunk e w.pi m a size) (hsz : size ≤ 2 ^ 31)
    {ops : List Op} {live : List Obj} (hist : History cfg ops live) (hne : ops ≠ [])
    (hg : ∀ o t, ops = .alloc o :: t → Geometry e size o.size cfg) (hin : ∀ o, Op.alloc o ∈ ops → o.start + o.size ≤ size) :
    ∃ w', calls e (w.pi.beg m) w ops = some w' ∧ Shows e w' m (w.pi.beg m) size live ∧ w'.pi = setSub w.pi m e.small
      ∧ (∀ x, x ≠ m → w'.tab x = w.tab x) := by
  obtain ⟨_, kids, rank, hi⟩ := reach_good hr
  have hm0 : m ≠ 0 := hi.ne0 hh.alive
  have key := hist_ind (align := align) (w := w) (base := w.pi.beg m) hs0 hsz (fun w' m' => m' = m ∧ w'.pi = setSub w.pi m e.small
      ∧ (∀ x, x ≠ m → w'.tab x = w.tab x)) ?_ ?_ hist hg hin
  · rcases key with ⟨h, _⟩ | ⟨w', m', hc, h1, h3, h4, h5, h8, rfl, g2, g3⟩
    · exact absurd h hne
    · have hsh := h4.shows hs0 h3 hc
      rw [h8] at hsh
      exact ⟨w', h1, hsh, g2, g3⟩
  · rintro w' w'' m' hs ⟨rfl, g2, g3⟩
    exact ⟨rfl, by rw [hs.1]; exact g2, fun x hx => by rw [hs.2 x hx]; exact g3 x hx⟩
  · intro o hgo hp hino
    obtain ⟨hc, hfresh⟩ := hgo.ok hsz
    have hpos : 0 < o.size := hp.1.1
    obtain ⟨h1, h2⟩ := leaf_is hr hm0 (hh.leaf o.start (by omega))
    rw [hh.fresh, hh.by', if_neg (by simp)] at h2
    obtain ⟨hr2, hd2⟩ := setSub_spec hr (v := e.small) hh.alive
    have hens : ensureBig e w.pi a (w.pi.beg m) size = some (w.pi, m) := by
      unfold ensureBig
      have : Has w.pi m (w.pi.beg m) := ⟨Nat.le_refl _, by have := hh.whole; omega⟩
      rw [fromRoot_unique hr hh.a0 hh.alive this hh.by' hh.only]
      simp only
      rw [if_pos hm0]
    have hidx : ∃ st', SmallIndex.index cfg SmallIndex.empty o.start o.size o.site = some st' ∧ Reps cfg st' [o] := by
      have hf : SmallIndex.Fits cfg o := hp.1
      refine SmallIndex.index_ok hc (SmallIndex.empty_reps hc) ⟨?_, ?_, fun k => by rw [SmallIndex.crowd_eq]; exact hp.2 k⟩
      · exact .cons (by simp) .nil
      · intro p hp'
        cases List.mem_singleton.1 hp'
        exact SmallIndex.fits_ok hc hf
    obtain ⟨st', hst', hreps'⟩ := hidx
    refine ⟨setTab (setTab { w with pi := setSub w.pi m e.small } m ⟨cfg, SmallIndex.empty⟩) m ⟨cfg, st'⟩, m, ?_, hr2, ?_, rfl, rfl, rfl, ?_⟩
    · unfold SmallHeap.index
      rw [h1, h2]
      simp only
      rw [if_neg (by have := hh.a0; omega), if_neg (show ¬ w.pi.alloc m = e.small by rw [hh.by']; exact hh.foreign), if_neg hm0]
      rw [if_neg hh.foreign, if_pos (by rw [hh.fresh]; exact fun h => hs0 h.symm), hh.says _ (by omega)]
      simp only [hens]
      unfold place
      simp only
      rw [if_pos hh.fresh, hh.whole, Nat.add_sub_cancel_left, hfresh]
      simp only
      unfold indexIn
      rw [setTab_same, setTab_pi]
      simp only
      have : (setSub w.pi m e.small).beg m = w.pi.beg m := rfl
      rw [this, Nat.add_sub_cancel_left, hst']
      rfl
    · refine ⟨hh.alive, hm0, ?_, ?_, hh.whole, ?_, st', setTab_same _ _ _, hreps'⟩
      · show upd w.pi.sub m e.small m = e.small
        rw [upd_same]
      · show w.pi.alloc m ≠ e.small
        rw [hh.by']
        exact hh.foreign
      · intro x hx1 hx2
        show deepest e.c (setSub w.pi m e.small) x = some m
        have hx1 : w.pi.beg m ≤ x := hx1
        have hx2 : x < w.pi.beg m + size := hx2
        rw [hd2]
        have := hh.leaf (x - w.pi.beg m) (by omega)
        rw [show w.pi.beg m + (x - w.pi.beg m) = x by omega] at this
        exact this
    · intro x hx
      rw [setTab_other _ _ hx, setTab_other _ _ hx]

/-! ## Which chunk an ended object is sought in -/

private theorem nearest_climb {e : Env} {s : State} {b d : Nat} (hz : s.par 0 = 0) (hd : Depth s b d) : ∀ f, d < f →
    (∃ n, nearest e s f b = some n ∧ n ≠ 0 ∧ s.sub n = e.small ∧ Anc s n b ∧ ∀ x, Anc s x b → s.sub x = e.small → Anc s x n) ∨
    (nearest e s f b = none ∧ ∀ x, x ≠ 0 → Anc s x b → s.sub x ≠ e.small) := by
  induction hd with
  | null =>
    intro f hf
    right
    obtain ⟨g, rfl⟩ : ∃ g, f = g + 1 := ⟨f - 1, by omega⟩
    refine ⟨by simp [nearest], ?_⟩
    intro x hx ha
    cases ha with
    | refl => exact absurd rfl hx
    | step hp _ => exact absurd hz hp
  | @node b d hb hd ih =>
    intro f hf
    obtain ⟨g, rfl⟩ : ∃ g, f = g + 1 := ⟨f - 1, by omega⟩
    rw [nearest, if_neg hb]
    by_cases hs : s.sub b = e.small
    · rw [if_pos hs]
      exact Or.inl ⟨b, rfl, hb, hs, Anc.refl, fun x hx _ => hx⟩
    · rw [if_neg hs]
      rcases ih g (by omega) with ⟨n, h1, h2, h3, h4, h5⟩ | ⟨h1, h2⟩
      · have hp : s.par b ≠ 0 := by
          intro hp
          rw [hp] at h4
          cases h4 with
          | refl => exact h2 rfl
          | step hp _ => exact hp hz
        refine Or.inl ⟨n, h1, h2, h3, Anc.step hp h4, ?_⟩
        intro x hx hxs
        cases hx with
        | refl => exact absurd hxs hs
        | step _ hx => exact h5 x hx hxs
      · refine Or.inr ⟨h1, ?_⟩
        intro x hx hxa
        cases hxa with
        | refl => exact hs
        | step _ ha => exact h2 x hx ha

/-- An ended object is sought in the table of the innermost chunk in our charge around the address, and the call aborts if there is
none; no other table and nothing in the page index changes. -/
theorem unindex_where {e : Env} {align : Nat → Nat} {w : World} (hr : Reach e.c align w.pi) (ptr : Nat) :
    (∃ n, Live w.pi n ∧ Has w.pi n ptr ∧ w.pi.sub n = e.small ∧
        (∀ x, Live w.pi x → Has w.pi x ptr → w.pi.sub x = e.small → Anc w.pi x n) ∧
        unindex e w ptr = (w.tab n).bind (fun r => (SmallIndex.unindex r.cfg r.st (ptr - w.pi.beg n)).map (fun st => setTab w n ⟨r.cfg, st⟩))) ∨
    ((∀ x, Live w.pi x → Has w.pi x ptr → w.pi.sub x ≠ e.small) ∧ unindex e w ptr = none) := by
  obtain ⟨_, kids, rank, h⟩ := reach_good hr
  obtain ⟨b, hb, hd⟩ := h.deepestAt ptr
  unfold unindex
  rw [hb]
  simp only [Option.bind_some]
  rcases hd with ⟨rfl, hno⟩ | ⟨hl, hhas, hanc⟩
  · refine Or.inr ⟨fun x hx hxa => absurd hxa (hno x hx), ?_⟩
    simp [nearest]
  · obtain ⟨d, l, hdep, _, _, hlt⟩ := h.exists_depth hl
    rcases nearest_climb (e := e) h.zero.2.2.1 hdep (e.c.nb + 1) (by omega) with ⟨n, h1, h2, h3, h4, h5⟩ | ⟨h1, h2⟩
    · left
      refine ⟨n, ?_, ?_, h3, ?_, ?_⟩
      · exact h.anc_live h4 hl
      · exact h.anc_has h4 hl hhas
      · intro x hx hxa hxs
        exact h5 x (hanc x hx hxa) hxs
      · rw [h1]
        cases hw : w.tab n <;> simp only [hw, Option.bind_none, Option.bind_some]
    · refine Or.inr ⟨fun x hx hxa => h2 x (h.ne0 hx) (hanc x hx hxa), ?_⟩
      rw [h1]

/-! ## Where the calls fail -/

/-- An object announced where no allocator can say what the containing allocation is aborts the program: so in a raw mapping,
whose allocator needs the big allocation to answer. -/
theorem unknown_aborts {e : Env} {align : Nat → Nat} {w : World} {n ptr size site : Nat} (hr : Reach e.c align w.pi)
    (hd : DeepestAt w.pi ptr n) (hsub : w.pi.sub n ≠ e.small) (hal : w.pi.alloc n ≠ e.small) 
    (hi : ∀ a, e.info a ptr = none) : index e w ptr size site = none := by
  obtain ⟨r, hd', h1, h2⟩ := leaf_allocator hr ptr
  obtain ⟨_, kids, rank, hinv⟩ := reach_good hr
  have : r = n := by
    have q1 := (hinv.deepest_iff ptr r).2 hd'
    rw [(hinv.deepest_iff ptr n).2 hd] at q1
    exact (Option.some.inj q1).symm
  subst this
  have hne : ¬ (if r = 0 then 0 else if w.pi.sub r ≠ 0 then w.pi.sub r else w.pi.alloc r) = e.small ∨ r = 0 := by
    by_cases h0 : r = 0
    · exact Or.inr h0
    · left
      rw [if_neg h0]
      split <;> assumption
  unfold index
  rw [h1, h2]
  simp only
  rw [if_neg hal]
  rcases hne with h | h
  · rw [if_neg h, if_pos hsub, hi]
    simp
  · rw [if_pos h]
    simp

/-- An object announced in a chunk that another allocator manages aborts the program, so that its record is not taken for ours. -/
theorem foreign_aborts {e : Env} {align : Nat → Nat} {w : World} {n a m base sz ptr size site : Nat} (hr : Reach e.c align w.pi) (hn : Live w.pi n)
    (hd : deepest e.c w.pi ptr = some n) (ha : a ≠ 0) (hsub : w.pi.sub n = a) (hfor : a ≠ e.small ∧ w.pi.alloc n ≠ e.small)
    (hi : e.info a ptr = some (base, sz)) (hm : Live w.pi m ∧ Has w.pi m base ∧ w.pi.alloc m = a)
    (honly : ∀ x, Live w.pi x → Has w.pi x base → w.pi.alloc x = a → x = m) (hms : w.pi.sub m ≠ 0 ∧ w.pi.sub m ≠ e.small) :
    index e w ptr size site = none := by
  obtain ⟨_, kids, rank, hinv⟩ := reach_good hr
  have hn0 := hinv.ne0 hn
  have hm0 := hinv.ne0 hm.1
  obtain ⟨h1, h2⟩ := leaf_is hr hn0 hd
  rw [hsub, if_pos ha] at h2
  unfold index
  rw [h1, h2]
  simp only
  split
  · rfl
  rw [if_neg hfor.2, if_neg hn0, if_neg hfor.1, if_pos (by rw [hsub]; exact hfor.1), hi]
  simp only [ensureBig]
  rw [fromRoot_unique hr ha hm.1 hm.2.1 hm.2.2 honly]
  simp only [hm0, ne_eq, not_false_eq_true, if_true]
  unfold place
  simp only
  rw [if_neg hms.1, if_pos hms.2]

/-- **C134 fails** in heap chunks of 256 bytes or less: the first object announced there stops the program. -/
theorem small_chunk_fails {e : Env} {w : World} {n a base size ptr osize site : Nat} {align : Nat → Nat} (hr : Reach e.c align w.pi)
    (hh : HeapChunk e w.pi n a base size) (hsz : size ≤ 256) (hin : base ≤ ptr ∧ ptr < base + size) : index e w ptr osize site = none := by
  obtain ⟨_, kids, rank, hi⟩ := reach_good hr
  have hn0 : n ≠ 0 := hi.ne0 hh.arena
  have hl := hh.leaf (ptr - base) (by omega)
  rw [show base + (ptr - base) = ptr by omega] at hl
  obtain ⟨h1, h2⟩ := leaf_is hr hn0 hl
  rw [hh.by', if_pos hh.a0] at h2
  have ho : NewOk e.c w.pi base size n := by
    refine ⟨hh.base0, by omega, hh.limit, hh.room, fun _ => ⟨hh.arena, hh.inside.1, hh.inside.2, hh.clear⟩, fun h => absurd h hn0⟩
  obtain ⟨s1, m, p, e1, hr1, hnm, hpp, _, ha, hl, hin1, hout⟩ := create_correct hr (m := ⟨a, 0, 0, 0, 0, 0⟩) ho
  have hens : ensureBig e w.pi a base size = some (s1, m) := by
    unfold ensureBig
    rw [fromRoot_none hr hh.a0 hh.unpromoted]
    simp only [ne_eq, not_true, if_false]
    have := hh.leaf 0 (by omega)
    rw [Nat.add_zero] at this
    rw [this]
    exact e1
  have hs := hh.says (ptr - base) (by omega)
  rw [show base + (ptr - base) = ptr by omega] at hs
  have hfr : freshRec e size osize = none := by
    unfold freshRec
    obtain ⟨s, hs⟩ := SmallTable.np2_pow size
    obtain ⟨t, ht⟩ := SmallTable.np2_pow (min osize 256)
    have h8 : s ≤ 8 := by
      have := SmallTable.np2_least size 8 hsz
      rw [hs] at this
      exact (Nat.pow_le_pow_iff_right (by omega)).1 this
    rw [SmallTable.make_exact (by omega) hs ht (by omega), if_neg (by omega)]
    rfl
  unfold index
  rw [h1, h2]
  simp only
  split
  · rfl
  rw [if_neg hh.foreign.2, if_neg hn0, if_neg hh.foreign.1, if_pos (by rw [hh.by']; exact hh.foreign.1), hs]
  simp only [hens]
  unfold place
  simp only
  rw [if_pos (by rw [ha.sub, upd_same]), ha.fin, ha.beg, upd_same, upd_same, show base + size - base = size by omega, hfr]

/-! ## A case -/

/-- An arena [0x40000, 0x50000) of allocator 7, in which a chunk of 1024 bytes at 0x40400 is known. -/
private def env : Env := ⟨rel, true, 9, fun a p => if a = 7 ∧ 0x40400 ≤ p ∧ p < 0x40800 then some (0x40400, 1024) else none⟩

private def world : Option World := (run rel [mk 0x40000 0x50000]).map (fun s => ⟨setSub s 2 7, fun _ => none⟩)

private def ops : List Op := [.alloc ⟨16, 40, 2 ^ 23⟩, .alloc ⟨100, 30, 2 ^ 23 + 1⟩, .alloc ⟨60, 20, 2 ^ 23 + 2⟩, .free 110, .alloc ⟨50, 8, 2 ^ 23 + 3⟩]

example : (world.bind (fun w => (calls env 0x40400 w ops).bind (fun w' =>
    some ((List.map (fun i => getInfo env w' 3 (0x40400 + i)) [16, 50, 57, 59, 60, 79, 80, 100]), leafAllocator rel w'.pi 0x40400,
      leafAllocator rel w'.pi 0x403ff, leafAllocator rel w'.pi 0x40800)))) =
    some ([some none, some (some (0x40432, 2 ^ 23 + 3)), some (some (0x40432, 2 ^ 23 + 3)), some none, some (some (0x4043c, 2 ^ 23 + 2)),
      some (some (0x4043c, 2 ^ 23 + 2)), some none, some none], some 9, some 7, some 7) := by decide +kernel

end Liballocs.SmallHeap
