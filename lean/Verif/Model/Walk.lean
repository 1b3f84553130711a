/-!
# Walking allocations (src/walk.c)

Simplifications: a suballocator's `walk_allocations` is given by its contract: it calls the callback, in order, for each of
its chunks that start in the range and stops at the first non-zero answer, which it returns; a type is
a number with a list of its subobjects (offset and type); the callback's state is threaded
explicitly; allocation sites are left out.  A null suballocator or a failed assertion is the outcome
`crash`; running out of the recursion bound is `deep`.
-/
namespace Liballocs.Walk

/-- A position in the allocation tree (`alloc_tree_pos`, include/allocmeta.h:158-169): a big allocation or
an object described by a type, with its base. -/
inductive Pos where
  | big (base id : Nat)
  | typed (base t : Nat)
  deriving DecidableEq

def Pos.base : Pos → Nat
  | .big b _ => b
  | .typed b _ => b

/-- The arguments of a callback: big allocation if any, object, type if any, and the link from its
container with its coordinate. -/
structure Raw where
  big : Option Nat
  obj : Nat
  t : Option Nat
  container : Pos
  coord : Nat
  deriving DecidableEq

/-- A chunk as a suballocator reports it. -/
structure Chunk where
  obj : Nat
  big : Option Nat
  t : Option Nat
  coord : Nat
  deriving DecidableEq

/-- A big allocation: bounds, children in list order, allocating allocator, suballocator (a number) if any and
what that suballocator reports in it. -/
structure Big where
  begin : Nat
  «end» : Nat
  kids : List Nat
  allocatedBy : Nat
  sub : Option Nat
  chunks : List Chunk

structure World where
  bigs : Nat → Big
  subobjs : Nat → List (Nat × Nat)

/-- Outcomes. -/
inductive Out (α : Type) where
  | ok (a : α)
  | crash
  | deep
  deriving DecidableEq

variable {σ : Type}

/-- Call back for each, stopping at a non-zero answer. -/
def each (cb : σ → Raw → Out (σ × Int)) : List Raw → σ → Out (σ × Int)
  | [], s => .ok (s, 0)
  | r :: rs, s =>
    match cb s r with
    | .ok (s, ret) => if ret ≠ 0 then .ok (s, ret) else each cb rs s
    | o => o

/-- What a callback sees for a chunk of big allocation `b`. -/
def chunkRaw (w : World) (b : Nat) (c : Chunk) : Raw := ⟨c.big, c.obj, c.t, .big (w.bigs b).begin b, c.coord⟩

/-- The suballocator's `walk_allocations` over a range (called at src/walk.c:162-163, 174-175). -/
def subWalk (w : World) (b : Nat) (cb : σ → Raw → Out (σ × Int)) (lo hi : Nat) (s : σ) : Out (σ × Int) :=
  match (w.bigs b).sub with
  | none => .crash
  | some _ => each cb (((w.bigs b).chunks.filter fun c => decide (lo ≤ c.obj) && decide (c.obj < hi)).map (chunkRaw w b)) s

/-- Whether a child is skipped for being out of range (src/walk.c:153-154). -/
def skipKid (c : Big) (upTo : Nat) (re : Option Nat) : Bool :=
  match re with
  | none => decide (c.end ≤ upTo)
  | some e => decide (c.end ≤ upTo) || decide (e < c.begin)

/-- Whether a child is imposed (src/walk.c:155). -/
def imposed (b c : Big) : Bool :=
  match b.sub with
  | none => true
  | some a => c.allocatedBy != a

/-- The loop over children (src/walk.c:147-170), then the rest of the range (174-176). -/
def kidLoop (w : World) (b : Nat) (cb : σ → Raw → Out (σ × Int)) (re : Option Nat) (hi : Nat) :
    List Nat → Nat → Nat → σ → Out (σ × Int)
  | [], upTo, _, s => subWalk w b cb upTo hi s
  | k :: ks, upTo, coord, s =>
    let c := w.bigs k
    if skipKid c upTo re then kidLoop w b cb re hi ks c.end (coord + 1) s
    else if imposed (w.bigs b) c then
      match subWalk w b cb upTo c.begin s with
      | .ok (s, ret) =>
        if ret ≠ 0 then .ok (s, ret) else
        match cb s ⟨some b, (w.bigs b).begin, none, .big (w.bigs b).begin b, coord⟩ with
        | .ok (s, ret) => if ret ≠ 0 then .ok (s, ret) else kidLoop w b cb re hi ks c.end (coord + 1) s
        | o => o
      | o => o
    else kidLoop w b cb re hi ks c.end (coord + 1) s

/-- The subobjects of a typed object (src/walk.c:188-210), with one-based coordinates. -/
def subobjRaws (w : World) (base t : Nat) : List Raw :=
  ((w.subobjs t).zipIdx).map fun x => ⟨none, base + x.1.1, some x.1.2, .typed base t, x.2 + 1⟩

/-- C's `x ?: d` on an optional bound. -/
def orDefault (o : Option Nat) (d : Nat) : Nat :=
  match o with
  | none => d
  | some x => x

/-- `__liballocs_walk_allocations` (src/walk.c:40-213); `flag` is `ALLOC_WALK_BIGALLOC_IMPOSED_CHILDREN`. -/
def walkLevel (w : World) (flag : Bool) (pos : Pos) (cb : σ → Raw → Out (σ × Int)) (rb re : Option Nat) (s : σ) :
    Out (σ × Int) :=
  match pos with
  | .typed base t => each cb (subobjRaws w base t) s
  | .big base b =>
    let lo := orDefault rb base
    let hi := orDefault re (w.bigs b).end
    if (w.bigs b).begin ≠ base then .crash
    else kidLoop w b cb re hi (if flag then (w.bigs b).kids else []) lo 1 s

/-- What the user's callback sees in a depth-first walk: the links from the object up to the top. -/
structure Rep where
  big : Option Nat
  obj : Nat
  t : Option Nat
  path : List (Pos × Nat)
  deriving DecidableEq

/-- First child in list order that begins at the object (src/walk.c:245-261). -/
def upgrade (w : World) (r : Raw) : Option Nat :=
  match r.t, r.container with
  | some _, .big _ b =>
    match (w.bigs b).kids.find? (fun k => (w.bigs k).begin == r.obj) with
    | some k => some k
    | none => r.big
  | _, _ => r.big

/-- The position below a reported object, if it may contain things (src/walk.c:284-290). -/
def posOf (r : Rep) : Option Pos :=
  match r.big, r.t with
  | some b, _ => some (.big r.obj b)
  | none, some t => some (.typed r.obj t)
  | none, none => none

/-- `walk_one_df_cb` (src/walk.c:228-298). -/
def dfCb (w : World) (cb : σ → Rep → σ × Int) : Nat → List (Pos × Nat) → σ → Raw → Out (σ × Int)
  | 0, _, _, _ => .deep
  | k + 1, path, s, r =>
    let rep : Rep := ⟨upgrade w r, r.obj, r.t, (r.container, r.coord) :: path⟩
    let x := cb s rep
    if x.2 = -1 then .ok (x.1, 0)
    else if x.2 ≠ 0 then .ok x
    else
      match posOf rep with
      | none => .ok (x.1, 0)
      | some pos => walkLevel w false pos (fun s r => dfCb w cb k rep.path s r) none none x.1

/-- `__liballocs_walk_allocations_df` (src/walk.c:300-326), with a bound on the depth. -/
def walkDf (w : World) (fuel : Nat) (flag : Bool) (pos : Pos) (cb : σ → Rep → σ × Int) (s : σ) : Out (σ × Int) :=
  walkLevel w flag pos (fun s r => dfCb w cb fuel [] s r) none none s

end Liballocs.Walk
