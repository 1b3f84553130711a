import Verif.Model.PageIndex
/-!
# The run-time checks of the table of big allocations (src/pageindex.c:44-50, 64-168)

A debug build walks the table whenever it changes it: `sanity_check_bigalloc` looks at one big allocation and what is below
it, `sanity_check_bigallocs_toplevel` at the list of those that have no parent. A check is modelled as a computation that gives
`none` when one of its assertions fails, or when a loop has not ended after as many steps as there are slots; otherwise it
changes nothing.

Simplification: the assertion about the alignment that the allocator of a big allocation asks for (src/pageindex.c:141-143) is
left out, as the model of the table does not have these.
-/
namespace Liballocs.PageIndex

/-- `bigalloc_compare_toplevel` is -1 (src/pageindex.c:65-71). -/
def isBefore (s : State) (x y : Nat) : Bool := decide (s.beg x < s.beg y)

/-- `bigalloc_compare_toplevel` is 1 (src/pageindex.c:65-71). -/
def isAfter (s : State) (x y : Nat) : Bool := decide (s.beg y < s.beg x)

/-- The four walks (src/pageindex.c:81-86, 89-94, 113-116, 120-123): along a list in one direction, with an assertion on each
two neighbours. The nodes passed. -/
def walk (dir : Nat → Nat) (ok : Nat → Nat → Bool) : Nat → Nat → Option (List Nat)
  | 0, _ => none
  | f + 1, cur =>
    if cur = 0 then some []
    else if dir cur ≠ 0 ∧ ok cur (dir cur) = false then none
    else (walk dir ok f (dir cur)).map (cur :: ·)

/-- `prev` after a walk (src/pageindex.c:87, 95). -/
def lastOf : List Nat → Nat
  | [] => 0
  | [x] => x
  | _ :: y :: l => lastOf (y :: l)

/-- The slots in use that have no parent (src/pageindex.c:100-103). -/
def topSlots (c : Config) (s : State) : List Nat :=
  (List.range' 1 (c.nb - 1)).filter (fun i => inUse s i && s.par i == 0)

/-- An assertion of the check. -/
def holds (ok : Bool) : Option Unit := if ok then some () else none

/-- `sanity_check_bigallocs_toplevel` (src/pageindex.c:72-126). The bitmap is the list of the nodes passed. -/
def topCheck (c : Config) (s : State) : Option Unit :=
  if s.start = 0 then some ()
  else
    (walk s.prev (isAfter s) (c.nb + 1) s.start).bind fun back =>
    (walk s.next (isBefore s) (c.nb + 1) s.start).bind fun fwd =>
    (holds ((topSlots c s).all fun i => (back ++ fwd).contains i)).bind fun _ =>
    (walk s.next (isBefore s) (c.nb + 1) (lastOf back)).bind fun up =>
    (holds (up.length == (topSlots c s).length)).bind fun _ =>
    (walk s.prev (isAfter s) (c.nb + 1) (lastOf fwd)).bind fun down =>
    holds (down.length == (topSlots c s).length)

/-- `bigalloc_depth(b) == 1 + bigalloc_depth(b->parent)`, if it has a parent (src/pageindex.c:146-148). -/
def depthCheck (c : Config) (s : State) (b : Nat) : Option Unit :=
  if s.par b = 0 then some ()
  else (depthOf s (c.nb + 1) b).bind fun d => (depthOf s (c.nb + 1) (s.par b)).bind fun e => holds (d == 1 + e)

/-- The loop over the children from the second on (src/pageindex.c:157-162); `chk` is the check itself. -/
def kidsCheck (c : Config) (s : State) (chk : Nat → Option Unit) (d : Nat) : Nat → Nat → Option Unit
  | 0, _ => none
  | f + 1, k =>
    if k = 0 then some ()
    else (depthOf s (c.nb + 1) k).bind fun e => (holds (e == d)).bind fun _ => (chk k).bind fun _ => kidsCheck c s chk d f (s.next k)

/-- The part about the children (src/pageindex.c:154-163). -/
def belowCheck (c : Config) (s : State) (chk : Nat → Option Unit) (b : Nat) : Option Unit :=
  if s.first b = 0 then some ()
  else (depthOf s (c.nb + 1) (s.first b)).bind fun d => kidsCheck c s chk d (c.nb + 1) (s.next (s.first b))

/-- `sanity_check_bigalloc` (src/pageindex.c:129-166), with a bound on the depth of the recursion. -/
def fullCheck (c : Config) (s : State) : Nat → Nat → Option Unit
  | 0, _ => none
  | f + 1, b =>
    if inUse s b = false then some ()
    else (holds (sanityOk s b)).bind fun _ => (depthCheck c s b).bind fun _ => belowCheck c s (fullCheck c s f) b

/-- `SANITY_CHECK_BIGALLOC` (src/pageindex.c:168); without assertions it does nothing. -/
def checkOne (c : Config) (s : State) (b : Nat) : Option Unit := if c.debug then fullCheck c s (c.nb + 1) b else some ()

/-- `if (parent) SANITY_CHECK_BIGALLOC(parent)` (src/pageindex.c:727). -/
def checkIf (c : Config) (s : State) (b : Nat) : Option Unit := if b = 0 then some () else checkOne c s b

/-- `sanity_check_bigallocs_toplevel` as called (src/pageindex.c:791). -/
def checkTops (c : Config) (s : State) (b : Nat) : Option Unit := if s.par b = 0 ∧ c.debug then topCheck c s else some ()

/-! ## Creation with its checks -/

/-- `find_free_bigalloc` (src/pageindex.c:450-462): each slot looked at is checked first. -/
def findFreeC (c : Config) (s : State) : List Nat → Option Nat
  | [] => none
  | p :: l => (checkOne c s p).bind fun _ => if inUse s p then findFreeC c s l else some p

/-- `add_child` (src/pageindex.c:500-515). -/
def addChildC (c : Config) (s : State) (child parent : Nat) : Option State :=
  (checkOne c s parent).bind fun _ => (addChild c s child parent).bind fun s' =>
  (checkOne c s' child).bind fun _ => (checkOne c s' parent).bind fun _ => some s'

/-- `bigalloc_init_nomemset` (src/pageindex.c:752-792). -/
def initNomemsetC (c : Config) (s : State) (b ptr size parent : Nat) (m : Meta) : Option State :=
  (if parent ≠ 0 then addChildC c (initFields s b ptr size m) b parent else addToplevel c (initFields s b ptr size m) b).bind fun s' =>
  (checkOne c s' b).bind fun _ => (checkTops c s' b).bind fun _ => some s'

/-- `bigalloc_init` (src/pageindex.c:794-810). -/
def bigallocInitC (c : Config) (s : State) (b ptr size parent : Nat) (m : Meta) : Option State :=
  (initNomemsetC c s b ptr size parent m).bind fun s1 =>
  (setPages c s1 (roundUp (s1.beg b) PAGE) (roundDown (s1.fin b) PAGE) b parent).bind fun s2 =>
  (checkOne c s2 b).bind fun _ => some s2

/-- `bigalloc_new` (src/pageindex.c:742-750). -/
def bigallocNewC (c : Config) (s : State) (ptr size parent : Nat) (m : Meta) : Option (State × Nat) :=
  (findFreeC c s (List.range' 1 (c.nb - 1))).bind fun b =>
  (bigallocInitC c s b ptr size parent { m with sub := 0, subPriv := 0, subPrivFree := 0 }).bind fun s1 => some (s1, b)

/-- `__liballocs_new_bigalloc` (src/pageindex.c:645-737). -/
def newBigallocC (c : Config) (s : State) (ptr size maybeParent : Nat) (m : Meta) : Option (State × Nat) :=
  (abortIf (decide (size > c.maxPages * PAGE))).bind fun _ =>
  (chooseParent c s ptr size maybeParent).bind fun p =>
  (checkIf c s p).bind fun _ => (bigallocNewC c s ptr size p m).bind fun r =>
  (checkOne c r.1 r.2).bind fun _ => some r

/-! ## Deletion with its checks -/

/-- `unlink_child` (src/pageindex.c:517-539). -/
def unlinkChildC (c : Config) (s : State) (child : Nat) : Option State :=
  (abortIf (s.par child == 0)).bind fun _ =>
  (checkOne c s child).bind fun _ => (checkOne c s (s.par child)).bind fun _ =>
  (unlinkChild c s child).bind fun s' => (checkOne c s' (s.par child)).bind fun _ => some s'

/-- Unlinking on deletion (src/pageindex.c:569-571). -/
def unlinkC (c : Config) (s : State) (b : Nat) : Option State :=
  if s.par b ≠ 0 then unlinkChildC c s b else some (unlinkToplevel s b)

/-- `bigalloc_del` after its children are gone (src/pageindex.c:563-590). -/
def delSelfC (c : Config) (s : State) (b : Nat) : Option State :=
  (unlinkC c { s with log := s.log ++ callsOf s b } b).bind fun s1 =>
  (checkOne c s1 b).bind fun _ =>
  (setPages c s1 (roundUp (s1.beg b) PAGE) (roundDown (s1.fin b) PAGE) (s.par b) b).bind fun s2 =>
  (assertIf c (!inUse (clear s2 b) b)).bind fun _ => some (clear s2 b)

/-- `bigalloc_del` (src/pageindex.c:550-591). -/
def delC (c : Config) : Nat → State → Nat → Option State
  | 0, _, _ => none
  | f + 1, s, b =>
    (checkOne c s b).bind fun _ => (delLoop (delC c f) (c.nb + 1) s (s.first b)).bind fun s' => delSelfC c s' b

/-- `bigalloc_del`, with the bound used throughout. -/
def bigallocDelC (c : Config) (s : State) (b : Nat) : Option State := delC c (c.nb + 1) s b

/-- `__liballocs_delete_bigalloc_at` (src/pageindex.c:1245-1257). -/
def deleteAtC (c : Config) (s : State) (addr a : Nat) : Option (State × Bool) :=
  match fromRoot c s addr a false with
  | none => none
  | some b => if b = 0 then some (s, false) else (bigallocDelC c s b).map (fun s' => (s', true))

/-- The body of the next (src/pageindex.c:1286-1302). -/
def delHitC (c : Config) (s : State) (upTo : Nat) : Option (State × Nat) :=
  if entry s (pagenum upTo) = 0 then none
  else match climb s (c.nb + 1) (entry s (pagenum upTo)) with
    | none => none
    | some b => if s.fin b ≤ upTo then none else (bigallocDelC c s b).map (fun s' => (s', s.fin b))

/-- `__liballocs_delete_all_bigallocs_overlapping_range` (src/pageindex.c:1260-1307), from `upTo`. -/
def delRangeC (c : Config) : Nat → State → Nat → Nat → Option State
  | 0, _, _, _ => none
  | f + 1, s, upTo, «end» =>
    if upTo < «end» then
      let upTo' := upTo + PAGE * skipZeros s (pagenum (roundUp «end» PAGE) - pagenum upTo) (pagenum upTo)
      if «end» ≤ upTo' then some s
      else (delHitC c s upTo').bind (fun r => delRangeC c f r.1 r.2 «end»)
    else some s

/-! ## Resizing and splitting with their checks -/

/-- A check of the big allocation after a change (src/pageindex.c:913, 981, 1018, 1030, 1051). -/
def thenCheck (c : Config) (b : Nat) (r : Option State) : Option State := r.bind fun s' => (checkOne c s' b).bind fun _ => some s'

/-- `__liballocs_extend_bigalloc` (src/pageindex.c:897-917). -/
def extendC (c : Config) (s : State) (b newEnd : Nat) : Option State := thenCheck c b (extend c s b newEnd)

/-- `__liballocs_pre_extend_bigalloc` (src/pageindex.c:951-984). -/
def preExtendC (c : Config) (s : State) (b newBegin : Nat) : Option State :=
  (checkOne c s b).bind fun _ => thenCheck c b (preExtend c s b newBegin)

/-- `__liballocs_pre_extend_bigalloc_recursive` (src/pageindex.c:938-948). -/
def preExtendRecC (c : Config) (align : Nat → Nat) : Nat → State → Nat → Nat → Option State
  | 0, _, _, _ => none
  | f + 1, s, b, newBegin =>
    if s.par b ≠ 0 then
      (preExtendRecC c align f s (s.par b) (preExtendAlign align s (s.par b) newBegin)).bind (fun s' => preExtendC c s' b newBegin)
    else preExtendC c s b newBegin

/-- `__liballocs_truncate_bigalloc_at_end` (src/pageindex.c:1005-1033), which checks twice. -/
def truncEndC (c : Config) (s : State) (b newEnd : Nat) : Option State := thenCheck c b (thenCheck c b (truncEnd c s b newEnd))

/-- `__liballocs_truncate_bigalloc_at_beginning` (src/pageindex.c:1036-1054). -/
def truncBeginC (c : Config) (s : State) (b newBegin : Nat) : Option State := thenCheck c b (truncBegin c s b newBegin)

/-- One iteration of the loop over the children (src/pageindex.c:1080-1096). -/
def moveKidC (c : Config) (s : State) (b nw at' child : Nat) : Option State :=
  if inFirst s b at' child && inSecond s b at' child then none
  else if inSecond s b at' child then (unlinkChildC c s child).bind (fun s' => addChildC c s' child nw)
  else some s

/-- The loop over the children (src/pageindex.c:1077-1099). -/
def moveKidsC (c : Config) (b nw at' : Nat) : Nat → State → Nat → Option State
  | 0, _, _ => none
  | f + 1, s, child =>
    if child = 0 then some s else (moveKidC c s b nw at' child).bind (fun s' => moveKidsC c b nw at' f s' (s.next child))

/-- `__liballocs_split_bigalloc_at_page_boundary` (src/pageindex.c:1057-1119). -/
def splitC (c : Config) (s : State) (b at' : Nat) : Option (State × Nat) :=
  (findFreeC c s (List.range' 1 (c.nb - 1))).bind fun nw =>
  (initNomemsetC c s nw at' (s.fin b - at') (s.par b)
    ⟨s.alloc b, s.sub b, s.priv b, s.privFree b, s.subPriv b, s.subPrivFree b⟩).bind fun s1 =>
  (moveKidsC c b nw at' (c.nb + 1) s1 (s1.first b)).bind fun s2 =>
  (thenCheck c nw (thenCheck c b (some { s2 with
    fin := upd s2.fin b at'
    pidx := renumber s2.pidx (pagenum (roundUp (s2.beg nw) PAGE)) (pagenum (roundUp (s2.fin nw) PAGE)) b nw }))).bind fun s3 =>
  some (s3, nw)

/-- The creation of the first one, with its checks (src/dlmalloc-ext.c:98-99). -/
def bootC (c : Config) (ptr size : Nat) (m : Meta) : Option State :=
  (newBigallocC c State.init ptr size 0 m).map (fun r => { r.1 with start := r.2 })

/-- One operation, with the checks it makes. -/
def applyC (c : Config) (align : Nat → Nat) (s : State) : Op → Option State
  | .new ptr size parent m => (newBigallocC c s ptr size parent m).map Prod.fst
  | .setSub b sub subPriv subPrivFree => apply c align s (.setSub b sub subPriv subPrivFree)
  | .del b => bigallocDelC c s b
  | .deleteAt addr a => (deleteAtC c s addr a).map Prod.fst
  | .deleteRange lo hi => delRangeC c (c.nb + 1) s lo hi
  | .extend b newEnd => extendC c s b newEnd
  | .preExtend b newBegin => preExtendC c s b newBegin
  | .preExtendUp b newBegin => preExtendRecC c align (c.nb + 1) s b newBegin
  | .truncEnd b newEnd => truncEndC c s b newEnd
  | .truncBegin b newBegin => truncBeginC c s b newBegin
  | .split b at' => (splitC c s b at').map Prod.fst

end Liballocs.PageIndex
