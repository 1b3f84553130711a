/-
Model of lifetime policies (src/lifetime_policies.c, tools/stubgen.h:373-389,
include/malloc-meta.h:103-117).
-/
namespace Liballocs.Lifetime

/-! ### Attaching and detaching -/

/-- An object's policy bits (`lifetime_policies:4`, include/malloc-meta.h:53-60), whether it is
still allocated, and how many times it has been released. -/
structure Obj where
  bits : BitVec 4
  live : Bool
  frees : Nat
deriving DecidableEq, Repr

/-- `LIFETIME_POLICY_FLAG` (include/malloc-meta.h:108) as stored in the 4-bit field. -/
def flag (id : Nat) : BitVec 4 := 1#4 <<< id

/-- A fresh object has the manual-deallocation policy only
(src/allocators/default-lib-malloc.c:45). -/
def fresh : Obj := ⟨flag 0, true, 0⟩

inductive Op where
  | attach (id : Nat)
  | detach (id : Nat)
  /-- the program calls `free` -/
  | free
deriving DecidableEq, Repr

/-- `pre_nonnull_free` (tools/stubgen.h:373-389) followed by the release unless cancelled. -/
def doFree (o : Obj) : Obj :=
  let bits' := o.bits &&& ~~~ (flag 0)
  if bits' ≠ 0#4 then { o with bits := bits' }
  else { bits := bits', live := false, frees := o.frees + 1 }

/-- `__liballocs_attach_lifetime_policy` (src/lifetime_policies.c:52-58),
`__liballocs_detach_lifetime_policy` (60-72) and `free`.  For an address that is no longer a live
object the lookup of its policy bits fails and attach/detach do nothing.  Freeing a dead object is
undefined behaviour: `none`.  Source wrinkle: `lti` is a pointer to the whole metadata word in the
checked-out header but used as an integer; it is modelled as the policy bit-field it was written
for. -/
def step (o : Obj) : Op → Option Obj
  | .attach id => if o.live then some { o with bits := o.bits ||| flag id } else some o
  | .detach id =>
    if o.live then
      let bits' := o.bits &&& ~~~ (flag id)
      if bits' = 0#4 then some (doFree { o with bits := bits' })
      else some { o with bits := bits' }
    else some o
  | .free => if o.live then some (doFree o) else none

def run : Obj → List Op → Option Obj
  | o, [] => some o
  | o, x :: xs => (step o x).bind (fun o' => run o' xs)

/-! ### Registration -/

/-- The registration state: `__last_free_lifetime_policy_id` (32-bit unsigned) and the policy table
(src/lifetime_policies.c:15-16), a callback pair abbreviated to a number. -/
structure Reg where
  next : BitVec 32
  table : List (Option Nat)

/-- Outcome of a registration. -/
inductive RegRes where
  | ok (id : Int) (r : Reg)
  | full (r : Reg)
  /-- write outside the table -/
  | overrun

def Reg.init (n : Nat) : Reg := ⟨1#32, List.replicate n none⟩

/-- `__liballocs_register_gc_policy` (src/lifetime_policies.c:18-30). `n` is `LIFETIME_POLICIES`. -/
def register (n : Nat) (r : Reg) (cb : Nat) : RegRes :=
  let id := r.next.toInt
  let next' := r.next + 1#32
  if (n : Int) < id then .full ⟨next', r.table⟩
  else if 0 ≤ id ∧ id < r.table.length then .ok id ⟨next', r.table.set id.toNat (some cb)⟩
  else .overrun

/-- A sequence of registrations: the ids returned (`none` = refused). Outer `none`: overrun. -/
def registerAll (n : Nat) : Reg → List Nat → Option (List (Option Int) × Reg)
  | r, [] => some ([], r)
  | r, c :: cs =>
    match register n r c with
    | .overrun => none
    | .full r' => (registerAll n r' cs).map (fun x => (none :: x.1, x.2))
    | .ok id r' => (registerAll n r' cs).map (fun x => (some id :: x.1, x.2))

/-! ### Copy notification -/

/-- Types as the notification walk sees them: pointers, pointer-free types, arrays, composites
(structs and unions) with member offsets. -/
inductive Ty where
  | addr
  | plain (size : Nat)
  | arr (elem : Ty) (n : Nat)
  | comp (size : Nat) (members : List (Nat × Ty))

/-- `UNIQTYPE_SIZE_IN_BYTES` (external macro). -/
def Ty.size : Ty → Nat
  | .addr => 8
  | .plain s => s
  | .arr e n => n * e.size
  | .comp s _ => s

mutual
/-- `need_copy_notification` (src/lifetime_policies.c:109-126). -/
def need : Ty → Bool
  | .addr => true
  | .plain _ => false
  | .arr e _ => need e
  | .comp _ ms => needAny ms
def needAny : List (Nat × Ty) → Bool
  | [] => false
  | (_, t) :: ms => need t || needAny ms
end

/-- `size - memboffset` in 64-bit unsigned arithmetic. -/
def usub (a b : Nat) : Nat := (a + 2 ^ 64 - b) % 2 ^ 64

/-- The array loop (src/lifetime_policies.c:145-153); `f d s` is the recursive call. -/
def arrLoop (f : Nat → Nat → List Nat) (elemsize : Nat) : (nelems dest remain : Nat) → List Nat
  | 0, _, _ => []
  | n + 1, dest, remain =>
    if remain = 0 then [] else
    let cur := if remain > elemsize then elemsize else remain
    f dest cur ++ arrLoop f elemsize n (dest + cur) (remain - cur)

mutual
/-- The pointer slots `notify_copy_for_type` (src/lifetime_policies.c:129-177) reports, in order. -/
def notify : Ty → (dest size : Nat) → List Nat
  | .addr, d, s => if s < 8 then [] else [d]
  | .plain _, _, _ => []
  | .arr e n, d, s => if need e then arrLoop (notify e) e.size n d s else []
  | .comp _ ms, d, s => if needAny ms then notifyMembers ms d s else []
/-- The member loop (src/lifetime_policies.c:159-170). -/
def notifyMembers : List (Nat × Ty) → (dest size : Nat) → List Nat
  | [], _, _ => []
  | (off, t) :: ms, d, s =>
    let maxmemb := usub s off
    let membsize := if maxmemb < t.size then maxmemb else t.size
    notify t (d + off) membsize ++ notifyMembers ms d s
end

/-- The bytes the array loop leaves unprocessed. -/
def arrRemain (elemsize : Nat) : (nelems remain : Nat) → Nat
  | 0, r => r
  | n + 1, r => if r = 0 then 0 else arrRemain elemsize n (r - (if r > elemsize then elemsize else r))

/-- The return value of `notify_copy_for_type`: bytes handled. -/
def handled (t : Ty) (s : Nat) : Nat :=
  if need t = false then t.size else
  match t with
  | .addr => if s < 8 then s else 8
  | .plain n => n
  | .arr e n => s - arrRemain e.size n s
  | .comp sz _ => if sz < s then sz else s

/-- `__notify_copy` (src/lifetime_policies.c:201-219): `ty a` is the type found at address `a`.
`none`: not finished after `fuel` rounds. The remaining length is 64-bit unsigned. -/
def notifyCopy (ty : Nat → Option Ty) : (fuel dest n : Nat) → Option (List Nat)
  | 0, _, n => if n < 8 then some [] else none
  | fuel + 1, dest, n =>
    if n < 8 then some [] else
    match ty dest with
    | none => some []
    | some t =>
      (notifyCopy ty fuel (dest + handled t n) (usub n (handled t n))).map (notify t dest n ++ ·)

/-! ### Pointer writes -/

/-- A callback invocation. -/
structure Cb where
  add : Bool
  policy : Nat
  obj : Nat
  slot : Nat
deriving DecidableEq, Repr

/-- What the library knows about objects: `objOf v` is the start of the live, policy-carrying object
a pointer value points into (`get_lifetime_insert_info`, src/lifetime_policies.c:32-50);
`attached o i` says whether bit `i` of its policies is set. -/
structure World where
  nPolicies : Nat
  objOf : Nat → Option Nat
  attached : Nat → Nat → Bool

/-- `HAS_LIFETIME_POLICIES_ATTACHED` (include/malloc-meta.h:115): some policy other than manual. -/
def World.hasPolicies (w : World) (o : Nat) : Bool :=
  (List.range' 1 3).any (w.attached o)

/-- The loop over attached policies (src/lifetime_policies.c:85-92 and 99-105). -/
def cbs (w : World) (add : Bool) (o slot : Nat) : List Cb :=
  ((List.range' 1 (w.nPolicies - 1)).filter (w.attached o)).map (fun i => ⟨add, i, o, slot⟩)

/-- `__notify_ptr_write` (src/lifetime_policies.c:74-107): callbacks for `*dest = val`.
Simplification: the callbacks do not themselves change which objects are live or attached. -/
def ptrWrite (w : World) (mem : Nat → Nat) (dest val : Nat) : List Cb :=
  (match w.objOf (mem dest) with
    | some o => if w.hasPolicies o then cbs w false o dest else []
    | none => []) ++
  (match w.objOf val with
    | some o => if w.hasPolicies o then cbs w true o dest else []
    | none => [])

/-- Memory after the write that the notification precedes. -/
def store (mem : Nat → Nat) (dest val : Nat) : Nat → Nat := fun a => if a = dest then val else mem a

/-- A history of writes: all callbacks in order and the final memory. -/
def writes (w : World) : (Nat → Nat) → List (Nat × Nat) → List Cb × (Nat → Nat)
  | mem, [] => ([], mem)
  | mem, (d, v) :: ws =>
    let r := writes w (store mem d v) ws
    (ptrWrite w mem d v ++ r.1, r.2)

end Liballocs.Lifetime
