/-!
# Breadth-first walk of the object graph (src/uniqtype-bfs.c)

Simplifications: the `tsearch` maps are association lists searched with the same comparison (glibc's tree answers alike
whenever the comparison orders the keys); memory is a function giving the word at an address;
`follow_ptr` is a function of pointer and static type; member offsets are naturals; every type id has
a description (no null types, no imprecise types).  The distance and predecessor maps are never read
back and are left out.
-/
namespace Liballocs.Bfs

mutual
/-- Types, as far as the walk looks at them; a pointer carries the id of its pointee type. -/
inductive Ty where
  | leaf
  | ptr (pointee : Nat)
  | comp (ms : Membs)
  | arr (n elSize : Nat) (el : Ty)
/-- Members of a composite with their offsets. -/
inductive Membs where
  | nil
  | cons (off : Nat) (t : Ty) (rest : Membs)
end

/-- `__uniqtype_node_rec` (include/uniqtype-bfs.h:5-12): an object and the id of its type. -/
structure Node where
  obj : Nat
  t : Nat
  deriving DecidableEq

/-- What the walk works on: memory words, type descriptions, the `follow_ptr` callback. -/
structure World where
  mem : Nat → Nat
  types : Nat → Ty
  follow : Nat → Nat → Nat × Nat

/-- `IS_PLAUSIBLE_POINTER` (src/uniqtype-bfs.c:97). -/
def plausible (p : Nat) : Bool :=
  p == 0 || p == 2 ^ 64 - 1 || (decide (4194304 ≤ p) && decide (p < 0x800000000000))

/-- The pointer case of `visit_one_subobject` (src/uniqtype-bfs.c:121-163) for the slot at an address. -/
def followAt (w : World) (addr pointee : Nat) : List Node :=
  let p := w.mem addr
  if p ≠ 0 && plausible p then
    let r := w.follow p pointee
    if r.1 ≠ 0 then [⟨r.1, r.2⟩] else []
  else []

mutual
/-- `visit_one_subobject` (src/uniqtype-bfs.c:110-173) of a subobject at an address. -/
def visit (w : World) : Ty → Nat → List Node
  | .ptr p, a => followAt w a p
  | .comp ms, a => visitMembs w ms a
  | .leaf, _ => []
  | .arr _ _ _, _ => []
/-- The members of a composite (src/uniqtype-bfs.c:207-208). -/
def visitMembs (w : World) : Membs → Nat → List Node
  | .nil, _ => []
  | .cons off t rest, a => visit w t (a + off) ++ visitMembs w rest a
end

/-- `build_adjacency_list_recursive` on a whole object (src/uniqtype-bfs.c:177-209). -/
def adjacent (w : World) (u : Node) : List Node :=
  match w.types u.t with
  | .comp ms => visitMembs w ms u.obj
  | .arr n sz el => (List.range n).flatMap fun i => visit w el (u.obj + i * sz)
  | .leaf => []
  | .ptr _ => []

/-- `compar` (src/uniqtype-bfs.c:50-53) answers 0: the difference is truncated to 32 bits. -/
def compEq (k1 k2 : Nat) : Bool := k1 % 2 ^ 32 == k2 % 2 ^ 32

/-- Colours: 0 white, 1 grey, 2 black (src/uniqtype-bfs.c:32). -/
abbrev Colours := List (Nat × Nat)

/-- `treemap_get` (src/uniqtype-bfs.c:55-66). -/
def get (m : Colours) (k : Nat) : Nat :=
  match m with
  | [] => 0
  | (k', v) :: r => if compEq k k' then v else get r k

/-- `treemap_set` (src/uniqtype-bfs.c:68-88). -/
def set (m : Colours) (k v : Nat) : Colours :=
  match m with
  | [] => [(k, v)]
  | (k', v') :: r => if compEq k k' then (k', v) :: r else (k', v') :: set r k v

/-- Enqueue the white ones of the adjacent nodes (src/uniqtype-bfs.c:238-258). -/
def enqueue : List Node → Colours → List Node → Colours × List Node
  | [], m, q => (m, q)
  | v :: vs, m, q => if get m v.obj = 0 then enqueue vs (set m v.obj 1) (q ++ [v]) else enqueue vs m q

/-- `process_bfs_queue_and_maps` (src/uniqtype-bfs.c:211-270): the objects handed to `on_blacken`, in order. -/
def process (w : World) : Nat → List Node → Colours → List Node → Option (List Node)
  | 0, _, _, _ => none
  | _ + 1, [], _, out => some out
  | k + 1, u :: q, m, out =>
    let r := enqueue (adjacent w u) (set m u.obj 1) q
    process w k r.2 (set r.1 u.obj 2) (out ++ [u])

/-- `__uniqtype_walk_bfs_from_object` (src/uniqtype-bfs.c:289-321) for a non-null object. -/
def walkFrom (w : World) (fuel : Nat) (root : Node) : Option (List Node) :=
  if root.obj = 0 then some [] else process w fuel [root] [] []

end Liballocs.Bfs
