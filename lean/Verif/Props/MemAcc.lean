import Verif.Model.MemAcc
/-!
# Listing the memory accesses of a C program: properties
-/
namespace Liballocs.MemAcc

/-! ## What a C program reads and writes -/

mutual
/-- What is loaded from memory when an expression is evaluated, in order: C's rules. Operands of `sizeof` and `_Alignof` are not evaluated, taking an address loads nothing but
what the address is made of. Of a conditional expression both sides are counted. -/
def loads : Exp → List (Host × Off)
  | .lval h o => loadsH h ++ loadsO o ++ [(h, o)]
  | .unOp _ e => loads e
  | .binOp _ e f => loads e ++ loads f
  | .cast _ e => loads e
  | .addrOf h o => loadsH h ++ loadsO o
  | .startOf h o => loadsH h ++ loadsO o
  | .question c e f => loads c ++ (loads e ++ loads f)
  | .const _ => []
  | .sizeOf _ => []
  | .sizeOfE _ => []
  | .sizeOfStr _ => []
  | .alignOf _ => []
  | .alignOfE _ => []
  | .addrOfLabel _ => []
def loadsH : Host → List (Host × Off)
  | .var _ => []
  | .mem e => loads e
def loadsO : Off → List (Host × Off)
  | .none => []
  | .field _ o => loadsO o
  | .index e o => loads e ++ loadsO o
end

/-- The function of a call: naming a function, directly or by a pointer to it, does not load it. -/
def callee : Exp → List (Host × Off)
  | .lval h o => loadsH h ++ loadsO o
  | e => loads e

def target (x : Host × Off) : List (Host × Off) := loadsH x.1 ++ loadsO x.2

/-- The loads of an instruction. -/
def loadsI : Instr → List (Host × Off)
  | .call none f args _ => callee f ++ args.flatMap loads
  | .call (some x) f args _ => target x ++ callee f ++ args.flatMap loads
  | .set h o e _ => target (h, o) ++ loads e
  | .asm outs ins _ => outs.flatMap target ++ ins.flatMap loads

/-- The stores of an instruction that are visible in the source. -/
def storesI : Instr → List (Host × Off)
  | .call none _ _ _ => []
  | .call (some x) _ _ _ => [x]
  | .set h o _ _ => [(h, o)]
  | .asm _ _ _ => []

def loadsOf : Item → List (Host × Off)
  | .inst i => loadsI i
  | .other e _ => loads e

/-- Stores of a program with their locations. -/
def storesOf : List Item → List (Nat × (Host × Off))
  | [] => []
  | .inst i :: is => (storesI i).map (fun x => (i.loc, x)) ++ storesOf is
  | .other _ _ :: is => storesOf is

mutual
/-- Nothing is asked for the size or alignment of an expression. -/
def plain : Exp → Bool
  | .lval h o => plainH h && plainO o
  | .unOp _ e => plain e
  | .binOp _ e f => plain e && plain f
  | .cast _ e => plain e
  | .addrOf h o => plainH h && plainO o
  | .startOf h o => plainH h && plainO o
  | .question c e f => plain c && (plain e && plain f)
  | .sizeOfE _ => false
  | .alignOfE _ => false
  | .const _ => true
  | .sizeOf _ => true
  | .sizeOfStr _ => true
  | .alignOf _ => true
  | .addrOfLabel _ => true
def plainH : Host → Bool
  | .var _ => true
  | .mem e => plain e
def plainO : Off → Bool
  | .none => true
  | .field _ o => plainO o
  | .index e o => plain e && plainO o
end

/-- An item without such expressions, and not a call. -/
def PlainItem : Item → Prop
  | .inst (.call _ _ _ _) => False
  | .inst (.set h o e _) => plainH h = true ∧ plainO o = true ∧ plain e = true
  | .inst (.asm outs ins _) => (∀ x ∈ outs, plainH x.1 = true ∧ plainO x.2 = true) ∧ ∀ e ∈ ins, plain e = true
  | .other e _ => plain e = true

/-- The lines about real reads. -/
def reads (rs : List Row) : List Row := rs.filter fun r => !r.write && r.real

/-- The lines about real writes. -/
def writes (rs : List Row) : List Row := rs.filter fun r => r.write && r.real

/-- A line without its place. -/
def access (r : Row) : Nat × Nat := (r.type, r.whole)

def typed (E : Env) (x : Host × Off) : Nat × Nat := (E.ty (.lval x.1 x.2), E.ty (.lval x.1 .none))

/-! ## Expressions -/

theorem reads_append (a b : List Row) : reads (a ++ b) = reads a ++ reads b := List.filter_append ..

theorem writes_append (a b : List Row) : writes (a ++ b) = writes a ++ writes b := List.filter_append ..

theorem reads_flatMap {α : Type} (f : α → List Row) (xs : List α) : reads (xs.flatMap f) = xs.flatMap (fun x => reads (f x)) := by
  induction xs with
  | nil => rfl
  | cons x xs ih => rw [List.flatMap_cons, List.flatMap_cons, reads_append, ih]

abbrev R (E : Env) (l : Option Nat) (x : Host × Off) : Row := reportRead E l x.1 x.2

mutual
theorem visit_exact (E : Env) (l : Option Nat) : ∀ e, plain e = true → reads (visit E l e) = (loads e).map (R E l)
  | .const _, _ => rfl
  | .lval h o, hp => by
    simp only [plain, Bool.and_eq_true] at hp
    rw [visit, reads_append, reads_append, visitH_exact E l h hp.1, visitO_exact E l o hp.2, loads]; simp [reads, reportRead]
  | .sizeOf _, _ => rfl
  | .sizeOfE _, hp => by cases hp
  | .sizeOfStr _, _ => rfl
  | .alignOf _, _ => rfl
  | .alignOfE _, hp => by cases hp
  | .unOp op e, hp => by rw [visit, reads_append, visit_exact E l e hp, loads]; simp [reads, reportVirtualWrite]
  | .binOp op e f, hp => by
    simp only [plain, Bool.and_eq_true] at hp
    rw [visit, reads_append, reads_append, visit_exact E l e hp.1, visit_exact E l f hp.2, loads]; simp [reads, reportVirtualWrite]
  | .cast t e, hp => by rw [visit, reads_append, visit_exact E l e hp, loads]; split <;> simp [reads, reportVirtualWrite]
  | .addrOf h o, hp => by
    simp only [plain, Bool.and_eq_true] at hp
    rw [visit, reads_append, visitH_exact E l h hp.1, visitO_exact E l o hp.2, loads]; simp
  | .startOf h o, hp => by
    simp only [plain, Bool.and_eq_true] at hp
    rw [visit, reads_append, visitH_exact E l h hp.1, visitO_exact E l o hp.2, loads]; simp
  | .question c e f, hp => by
    simp only [plain, Bool.and_eq_true] at hp
    rw [visit, reads_append, reads_append, reads_append, visit_exact E l c hp.1, visit_exact E l e hp.2.1, visit_exact E l f hp.2.2, loads]
    simp [reads, reportVirtualRead]
  | .addrOfLabel _, _ => rfl
theorem visitH_exact (E : Env) (l : Option Nat) : ∀ h, plainH h = true → reads (visitH E l h) = (loadsH h).map (R E l)
  | .var _, _ => rfl
  | .mem e, hp => by rw [visitH, visit_exact E l e hp, loadsH]
theorem visitO_exact (E : Env) (l : Option Nat) : ∀ o, plainO o = true → reads (visitO E l o) = (loadsO o).map (R E l)
  | .none, _ => rfl
  | .field _ o, hp => by rw [visitO, visitO_exact E l o hp, loadsO]
  | .index e o, hp => by
    simp only [plainO, Bool.and_eq_true] at hp
    rw [visitO, reads_append, visit_exact E l e hp.1, visitO_exact E l o hp.2, loadsO]; simp
end

theorem sub_left {α : Type} {a b : List α} (h : a.Sublist b) (c : List α) : a.Sublist (b ++ c) := h.trans (List.sublist_append_left b c)

mutual
theorem visit_sub (E : Env) (l : Option Nat) : ∀ e, ((loads e).map (R E l)).Sublist (reads (visit E l e))
  | .const _ => List.nil_sublist _
  | .lval h o => by
    rw [visit, reads_append, reads_append, loads, List.map_append, List.map_append]
    refine List.Sublist.append (List.Sublist.append (visitH_sub E l h) (visitO_sub E l o)) ?_
    simp [reads, reportRead]
  | .sizeOf _ => List.nil_sublist _
  | .sizeOfE _ => List.nil_sublist _
  | .sizeOfStr _ => List.nil_sublist _
  | .alignOf _ => List.nil_sublist _
  | .alignOfE _ => List.nil_sublist _
  | .unOp op e => by rw [visit, reads_append, loads]; exact sub_left (visit_sub E l e) _
  | .binOp op e f => by
    rw [visit, reads_append, reads_append, loads, List.map_append]
    exact sub_left (List.Sublist.append (visit_sub E l e) (visit_sub E l f)) _
  | .cast t e => by rw [visit, reads_append, loads]; exact sub_left (visit_sub E l e) _
  | .addrOf h o => by rw [visit, reads_append, loads, List.map_append]; exact List.Sublist.append (visitH_sub E l h) (visitO_sub E l o)
  | .startOf h o => by rw [visit, reads_append, loads, List.map_append]; exact List.Sublist.append (visitH_sub E l h) (visitO_sub E l o)
  | .question c e f => by
    rw [visit, reads_append, reads_append, reads_append, loads, List.map_append, List.map_append, ← List.append_assoc]
    exact sub_left (List.Sublist.append (List.Sublist.append (visit_sub E l c) (visit_sub E l e)) (visit_sub E l f)) _
  | .addrOfLabel _ => List.nil_sublist _
theorem visitH_sub (E : Env) (l : Option Nat) : ∀ h, ((loadsH h).map (R E l)).Sublist (reads (visitH E l h))
  | .var _ => List.nil_sublist _
  | .mem e => by rw [visitH, loadsH]; exact visit_sub E l e
theorem visitO_sub (E : Env) (l : Option Nat) : ∀ o, ((loadsO o).map (R E l)).Sublist (reads (visitO E l o))
  | .none => List.nil_sublist _
  | .field _ o => by rw [visitO, loadsO]; exact visitO_sub E l o
  | .index e o => by rw [visitO, reads_append, loadsO, List.map_append]; exact List.Sublist.append (visit_sub E l e) (visitO_sub E l o)
end

mutual
/-- What all lines made by visiting an expression have in common. -/
theorem visit_all (E : Env) (l : Option Nat) : ∀ e, ∀ r ∈ visit E l e, r.loc = l ∧ (r.write && r.real) = false
  | .const _, r, h => by rw [visit] at h; rw [List.mem_singleton.1 h]; exact ⟨rfl, rfl⟩
  | .lval h o, r, hr => by
    rw [visit] at hr
    rcases List.mem_append.1 hr with hr | hr
    · rcases List.mem_append.1 hr with hr | hr
      · exact visitH_all E l h r hr
      · exact visitO_all E l o r hr
    · rw [List.mem_singleton.1 hr]; exact ⟨rfl, rfl⟩
  | .sizeOf _, r, h => by cases h
  | .sizeOfE e, r, h => visit_all E l e r h
  | .sizeOfStr _, r, h => by cases h
  | .alignOf _, r, h => by cases h
  | .alignOfE e, r, h => visit_all E l e r h
  | .unOp op e, r, h => by
    rw [visit] at h
    rcases List.mem_append.1 h with h | h
    · exact visit_all E l e r h
    · rw [List.mem_singleton.1 h]; exact ⟨rfl, rfl⟩
  | .binOp op e f, r, h => by
    rw [visit] at h
    rcases List.mem_append.1 h with h | h
    · rcases List.mem_append.1 h with h | h
      · exact visit_all E l e r h
      · exact visit_all E l f r h
    · rw [List.mem_singleton.1 h]; exact ⟨rfl, rfl⟩
  | .cast t e, r, h => by
    rw [visit] at h
    rcases List.mem_append.1 h with h | h
    · exact visit_all E l e r h
    · split at h
      · rw [List.mem_singleton.1 h]; exact ⟨rfl, rfl⟩
      · cases h
  | .addrOf h o, r, hr => by
    rw [visit] at hr
    rcases List.mem_append.1 hr with hr | hr
    · exact visitH_all E l h r hr
    · exact visitO_all E l o r hr
  | .startOf h o, r, hr => by
    rw [visit] at hr
    rcases List.mem_append.1 hr with hr | hr
    · exact visitH_all E l h r hr
    · exact visitO_all E l o r hr
  | .question c e f, r, h => by
    rw [visit] at h
    rcases List.mem_append.1 h with h | h
    · rcases List.mem_append.1 h with h | h
      · rcases List.mem_append.1 h with h | h
        · exact visit_all E l c r h
        · exact visit_all E l e r h
      · exact visit_all E l f r h
    · rw [List.mem_singleton.1 h]; exact ⟨rfl, rfl⟩
  | .addrOfLabel _, r, h => by cases h
theorem visitH_all (E : Env) (l : Option Nat) : ∀ h, ∀ r ∈ visitH E l h, r.loc = l ∧ (r.write && r.real) = false
  | .var _, r, h => by cases h
  | .mem e, r, h => visit_all E l e r h
theorem visitO_all (E : Env) (l : Option Nat) : ∀ o, ∀ r ∈ visitO E l o, r.loc = l ∧ (r.write && r.real) = false
  | .none, r, h => by cases h
  | .field _ o, r, h => visitO_all E l o r h
  | .index e o, r, h => by
    rw [visitO] at h
    rcases List.mem_append.1 h with h | h
    · exact visit_all E l e r h
    · exact visitO_all E l o r h
end

/-! ## Instructions -/

theorem parts_all (E : Env) (l : Option Nat) (i : Instr) : ∀ r ∈ parts E l i, r.loc = l ∧ (r.write && r.real) = false := by
  have hL : ∀ x : Host × Off, ∀ r ∈ visitL E l x, r.loc = l ∧ (r.write && r.real) = false := by
    intro x r hr
    rcases List.mem_append.1 hr with hr | hr
    · exact visitH_all E l _ r hr
    · exact visitO_all E l _ r hr
  intro r hr
  cases i with
  | call out f args loc =>
    have hargs : r ∈ args.flatMap (visit E l) → r.loc = l ∧ (r.write && r.real) = false := by
      intro h
      obtain ⟨e, _, he⟩ := List.mem_flatMap.1 h
      exact visit_all E l e r he
    cases out with
    | none =>
      rcases List.mem_append.1 hr with hr | hr
      · exact visit_all E l f r hr
      · exact hargs hr
    | some x =>
      rcases List.mem_append.1 hr with hr | hr
      · rcases List.mem_append.1 hr with hr | hr
        · exact hL x r hr
        · exact visit_all E l f r hr
      · exact hargs hr
  | set h o e loc =>
    rcases List.mem_append.1 hr with hr | hr
    · exact hL _ r hr
    · exact visit_all E l e r hr
  | asm outs ins loc =>
    rcases List.mem_append.1 hr with hr | hr
    · obtain ⟨x, _, hx⟩ := List.mem_flatMap.1 hr
      exact hL x r hx
    · obtain ⟨e, _, he⟩ := List.mem_flatMap.1 hr
      exact visit_all E l e r he

theorem writes_none {rs : List Row} (h : ∀ r ∈ rs, (r.write && r.real) = false) : writes rs = [] := by
  apply List.filter_eq_nil_iff.2
  intro r hr
  rw [h r hr]; decide

theorem after_reads (E : Env) (i : Instr) : reads (after E i) = [] := by
  apply List.filter_eq_nil_iff.2
  intro r hr
  have : r.write = true := by
    cases i with
    | call out f args l =>
      cases out with
      | none => obtain ⟨e, _, rfl⟩ := List.mem_map.1 hr; rfl
      | some x =>
        rcases List.mem_cons.1 hr with rfl | hr
        · rfl
        · obtain ⟨e, _, rfl⟩ := List.mem_map.1 hr; rfl
    | set h o e l =>
      rcases List.mem_cons.1 hr with rfl | hr
      · rfl
      · rw [List.mem_singleton.1 hr]; rfl
    | asm _ _ _ => cases hr
  rw [this]; simp

theorem after_writes (E : Env) (i : Instr) : writes (after E i) = (storesI i).map (fun x => reportWrite E (some i.loc) x.1 x.2) := by
  have hv : ∀ (l : Option Nat) (args : List Exp), writes (args.map (reportVirtualWrite E l)) = [] := by
    intro l args
    apply writes_none
    intro r hr
    obtain ⟨e, _, rfl⟩ := List.mem_map.1 hr
    rfl
  cases i with
  | call out f args l =>
    cases out with
    | none => exact hv _ _
    | some x =>
      have : writes (reportWrite E (some l) x.1 x.2 :: args.map (reportVirtualWrite E (some l))) = reportWrite E (some l) x.1 x.2 :: writes (args.map (reportVirtualWrite E (some l))) := rfl
      rw [after, this, hv]; rfl
  | set h o e l => rfl
  | asm _ _ _ => rfl

theorem target_exact (E : Env) (l : Option Nat) (x : Host × Off) (h : plainH x.1 = true ∧ plainO x.2 = true) : reads (visitL E l x) = (target x).map (R E l) := by
  rw [visitL, reads_append, visitH_exact E l _ h.1, visitO_exact E l _ h.2, target, List.map_append]

theorem flat_exact {α : Type} {f : α → List Row} {g : α → List (Host × Off)} {k : Host × Off → Row} : ∀ {xs : List α}, (∀ x ∈ xs, reads (f x) = (g x).map k) →
    reads (xs.flatMap f) = (xs.flatMap g).map k
  | [], _ => rfl
  | x :: xs, h => by
    rw [List.flatMap_cons, List.flatMap_cons, reads_append, List.map_append, h x List.mem_cons_self, flat_exact (fun y hy => h y (List.mem_cons_of_mem _ hy))]

theorem parts_exact (E : Env) (l : Option Nat) (i : Instr) (h : PlainItem (.inst i)) : reads (parts E l i) = (loadsI i).map (R E l) := by
  cases i with
  | call _ _ _ _ => exact absurd h id
  | set h' o e loc => rw [parts, reads_append, target_exact E l _ ⟨h.1, h.2.1⟩, visit_exact E l e h.2.2, loadsI, List.map_append]
  | asm outs ins loc =>
    rw [parts, reads_append, flat_exact (fun x hx => target_exact E l x (h.1 x hx)), flat_exact (fun e he => visit_exact E l e (h.2 e he)), loadsI, List.map_append]

theorem callee_sub (E : Env) (l : Option Nat) (f : Exp) : ((callee f).map (R E l)).Sublist (reads (visit E l f)) := by
  unfold callee
  split
  · rename_i h o
    rw [visit, reads_append, reads_append, List.map_append]
    exact sub_left (List.Sublist.append (visitH_sub E l h) (visitO_sub E l o)) _
  · exact visit_sub E l f

theorem target_sub (E : Env) (l : Option Nat) (x : Host × Off) : ((target x).map (R E l)).Sublist (reads (visitL E l x)) := by
  rw [visitL, reads_append, target, List.map_append]
  exact List.Sublist.append (visitH_sub E l _) (visitO_sub E l _)

theorem flat_sub {α : Type} {f : α → List Row} {g : α → List (Host × Off)} {k : Host × Off → Row} (h : ∀ x, ((g x).map k).Sublist (reads (f x))) :
    ∀ xs : List α, ((xs.flatMap g).map k).Sublist (reads (xs.flatMap f))
  | [] => List.nil_sublist _
  | x :: xs => by
    rw [List.flatMap_cons, List.flatMap_cons, reads_append, List.map_append]
    exact List.Sublist.append (h x) (flat_sub h xs)

theorem parts_sub (E : Env) (l : Option Nat) (i : Instr) : ((loadsI i).map (R E l)).Sublist (reads (parts E l i)) := by
  cases i with
  | call out f args loc =>
    cases out with
    | none => rw [parts, reads_append, loadsI, List.map_append]; exact List.Sublist.append (callee_sub E l f) (flat_sub (visit_sub E l) args)
    | some x =>
      rw [parts, reads_append, reads_append, loadsI, List.map_append, List.map_append]
      exact List.Sublist.append (List.Sublist.append (target_sub E l x) (callee_sub E l f)) (flat_sub (visit_sub E l) args)
  | set h o e loc => rw [parts, reads_append, loadsI, List.map_append]; exact List.Sublist.append (target_sub E l _) (visit_sub E l e)
  | asm outs ins loc => rw [parts, reads_append, loadsI, List.map_append]; exact List.Sublist.append (flat_sub (target_sub E l) outs) (flat_sub (visit_sub E l) ins)

/-! ## Properties -/

theorem access_R (E : Env) (l : Option Nat) (xs : List (Host × Off)) : (xs.map (R E l)).map access = xs.map (typed E) := by
  rw [List.map_map]; rfl

/-- **C174.** The real writes that are listed are the stores that the program's instructions make, in order, each with its location and its types: none is left out, none is added. -/
theorem writes_exact (E : Env) (is : List Item) :
    writes (listing E is) = (storesOf is).map (fun x => ⟨some x.1, true, true, E.ty (.lval x.2.1 x.2.2), E.ty (.lval x.2.1 .none)⟩) := by
  have key : ∀ (is : List Item) (l : Option Nat), writes (run E l is) =
      (storesOf is).map (fun x => ⟨some x.1, true, true, E.ty (.lval x.2.1 x.2.2), E.ty (.lval x.2.1 .none)⟩) := by
    intro is
    induction is with
    | nil => intro l; rfl
    | cons it is ih =>
      intro l
      cases it with
      | inst i =>
        rw [run, writes_append, writes_append, writes_none (fun r hr => (parts_all E l i r hr).2), after_writes, ih, storesOf, List.map_append, List.map_map]
        rfl
      | other e loc => rw [run, writes_append, writes_none (fun r hr => (visit_all E l e r hr).2), ih, storesOf]; rfl
  exact key is none

/-- Every load that the program makes is listed, in order, with its types. -/
theorem reads_complete (E : Env) (is : List Item) : ((is.flatMap loadsOf).map (typed E)).Sublist ((reads (listing E is)).map access) := by
  have key : ∀ (is : List Item) (l : Option Nat), ((is.flatMap loadsOf).map (typed E)).Sublist ((reads (run E l is)).map access) := by
    intro is
    induction is with
    | nil => intro l; exact List.nil_sublist _
    | cons it is ih =>
      intro l
      cases it with
      | inst i =>
        rw [run, reads_append, reads_append, after_reads, List.append_nil, List.flatMap_cons, List.map_append, List.map_append, ← access_R E l]
        exact List.Sublist.append ((parts_sub E l i).map access) (ih _)
      | other e loc =>
        rw [run, reads_append, List.flatMap_cons, List.map_append, List.map_append, ← access_R E l]
        exact List.Sublist.append ((visit_sub E l e).map access) (ih _)
  exact key is none

/-- In a program without calls that does not ask for the size or alignment of an expression, nothing else is listed as a real read. -/
theorem reads_partial (E : Env) (is : List Item) (h : ∀ it ∈ is, PlainItem it) : (reads (listing E is)).map access = (is.flatMap loadsOf).map (typed E) := by
  have key : ∀ (is : List Item) (l : Option Nat), (∀ it ∈ is, PlainItem it) → (reads (run E l is)).map access = (is.flatMap loadsOf).map (typed E) := by
    intro is
    induction is with
    | nil => intro l _; rfl
    | cons it is ih =>
      intro l hp
      have h1 := hp it List.mem_cons_self
      have h2 := fun x hx => hp x (List.mem_cons_of_mem _ hx)
      cases it with
      | inst i =>
        rw [run, reads_append, reads_append, after_reads, List.append_nil, parts_exact E l i h1, List.flatMap_cons, List.map_append, List.map_append, access_R, ih _ h2]
        rfl
      | other e loc =>
        rw [run, reads_append, visit_exact E l e h1, List.flatMap_cons, List.map_append, List.map_append, access_R, ih _ h2]
        rfl
  exact key is none h

/-- The location of the last instruction. -/
def lastLoc : List Item → Option Nat
  | [] => none
  | .inst i :: is => match lastLoc is with | none => some i.loc | some l => some l
  | .other _ _ :: is => lastLoc is

theorem run_append (E : Env) : ∀ (pre post : List Item) (l : Option Nat),
    run E l (pre ++ post) = run E l pre ++ run E (match lastLoc pre with | none => l | some m => some m) post
  | [], _, _ => rfl
  | .inst i :: pre, post, l => by
    rw [List.cons_append, run, run_append E pre post (some i.loc), run, lastLoc]
    cases lastLoc pre <;> simp
  | .other e loc :: pre, post, l => by
    rw [List.cons_append, run, run_append E pre post l, run, lastLoc]; simp

/-- The reads of an instruction, or of another expression, are listed with the location of the instruction before it; at the start, with none. The lines
between those of what comes before and of what comes after are its own. -/
theorem read_location (E : Env) (pre post : List Item) (it : Item) : ∃ mid rest, listing E (pre ++ it :: post) = listing E pre ++ mid ++ rest ∧
    rest = run E (match lastLoc (pre ++ [it]) with | none => none | some m => some m) post ∧
    (∀ r ∈ reads mid, r.loc = lastLoc pre) ∧ ((loadsOf it).map (typed E)).Sublist ((reads mid).map access) := by
  have hl : (match lastLoc pre with | none => (none : Option Nat) | some m => some m) = lastLoc pre := by cases lastLoc pre <;> rfl
  have e := run_append E pre [it] none
  rw [hl] at e
  refine ⟨run E (lastLoc pre) [it], _, ?_, rfl, ?_, ?_⟩
  · have := run_append E (pre ++ [it]) post none
    rw [e] at this
    simpa [listing] using this
  · intro r hr
    cases it with
    | inst i =>
      rw [run, run, List.append_nil, reads_append, after_reads, List.append_nil] at hr
      exact (parts_all E _ i r (List.mem_filter.1 hr).1).1
    | other e' loc =>
      rw [run, run, List.append_nil] at hr
      exact (visit_all E _ e' r (List.mem_filter.1 hr).1).1
  · cases it with
    | inst i =>
      rw [run, run, List.append_nil, reads_append, after_reads, List.append_nil, ← access_R E (lastLoc pre)]
      exact (parts_sub E _ i).map access
    | other e' loc =>
      rw [run, run, List.append_nil, ← access_R E (lastLoc pre)]
      exact (visit_sub E _ e').map access

/-- So no read of a program's first instruction has a location, whatever the program. -/
theorem first_never (E : Env) (i : Instr) (post : List Item) : ∃ mid rest, listing E (.inst i :: post) = mid ++ rest ∧ (∀ r ∈ reads mid, r.loc = none) ∧
    ((loadsI i).map (typed E)).Sublist ((reads mid).map access) := by
  obtain ⟨mid, rest, h1, _, h3, h4⟩ := read_location E [] post (.inst i)
  exact ⟨mid, rest, h1, h3, h4⟩

/-- A call adds a read of the function itself, which is named but not loaded. -/
theorem call_fails (E : Env) (f loc : Nat) : (reads (listing E [.inst (.call none (.lval (.var f) .none) [] loc)])).map access = [typed E (.var f, .none)] ∧
    [Item.inst (.call none (.lval (.var f) .none) [] loc)].flatMap loadsOf = [] := ⟨rfl, rfl⟩

/-- The size of an expression adds the reads of the expression, which is not evaluated. -/
theorem sizeof_fails (E : Env) (x p loc : Nat) :
    (reads (listing E [.inst (.set (.var x) .none (.sizeOfE (.lval (.mem (.lval (.var p) .none)) .none)) loc)])).map access =
      [typed E (.var p, .none), typed E (.mem (.lval (.var p) .none), .none)] ∧
    [Item.inst (.set (.var x) .none (.sizeOfE (.lval (.mem (.lval (.var p) .none)) .none)) loc)].flatMap loadsOf = [] := ⟨rfl, rfl⟩

/-- There is to be one line for each subexpression (tools/lang/c/dumpmemacc/dumpmemacc.ml:72); a sum that is assigned has two, the same but for the location. -/
theorem twice_fails (E : Env) (x a b loc : Nat) : listing E [.inst (.set (.var x) .none (.binOp 0 (.const a) (.const b)) loc)] =
    [reportVirtualRead E none (.const a), reportVirtualRead E none (.const b), reportVirtualWrite E none (.binOp 0 (.const a) (.const b)),
      reportVirtualWrite E (some loc) (.binOp 0 (.const a) (.const b)), reportWrite E (some loc) (.var x) .none] := rfl

/-! ## Temporaries -/

mutual
/-- An expression and all that it is made of, the parts before the whole. -/
def subs : Exp → List Exp
  | .lval h o => subsH h ++ subsO o ++ [.lval h o]
  | .unOp op e => subs e ++ [.unOp op e]
  | .binOp op e f => subs e ++ subs f ++ [.binOp op e f]
  | .cast t e => subs e ++ [.cast t e]
  | .addrOf h o => subsH h ++ subsO o ++ [.addrOf h o]
  | .startOf h o => subsH h ++ subsO o ++ [.startOf h o]
  | .question c e f => subs c ++ subs e ++ subs f ++ [.question c e f]
  | .sizeOfE e => subs e ++ [.sizeOfE e]
  | .alignOfE e => subs e ++ [.alignOfE e]
  | .const k => [.const k]
  | .sizeOf t => [.sizeOf t]
  | .sizeOfStr k => [.sizeOfStr k]
  | .alignOf t => [.alignOf t]
  | .addrOfLabel k => [.addrOfLabel k]
def subsH : Host → List Exp
  | .var _ => []
  | .mem e => subs e
def subsO : Off → List Exp
  | .none => []
  | .field _ o => subsO o
  | .index e o => subs e ++ subsO o
end

/-- Whether an expression has its value in a temporary, and whether that is said to be written: constants and conditional expressions are read, results of operators are written,
and so are those of casts that change the representation, which between pointers none does. -/
inductive Temp (E : Env) : Exp → Bool → Prop
  | const (k : Nat) : Temp E (.const k) false
  | question (c e f : Exp) : Temp E (.question c e f) false
  | unOp (op : Nat) (e : Exp) : Temp E (.unOp op e) true
  | binOp (op : Nat) (e f : Exp) : Temp E (.binOp op e f) true
  | cast (t : Nat) (e : Exp) : t ≠ E.ty e → (E.ptr t = false ∨ E.ptr (E.ty e) = false) → Temp E (.cast t e) true

def Line (E : Env) (l : Option Nat) (s : List Exp) (r : Row) : Prop := ∃ e ∈ s, Temp E e r.write ∧ r = ⟨l, r.write, false, E.ty e, E.ty e⟩

theorem line_append (E : Env) (l : Option Nat) (a b : List Exp) (r : Row) : Line E l (a ++ b) r ↔ Line E l a r ∨ Line E l b r := by
  unfold Line
  constructor
  · rintro ⟨e, he, h⟩
    rcases List.mem_append.1 he with he | he
    · exact .inl ⟨e, he, h⟩
    · exact .inr ⟨e, he, h⟩
  · rintro (⟨e, he, h⟩ | ⟨e, he, h⟩)
    · exact ⟨e, List.mem_append_left _ he, h⟩
    · exact ⟨e, List.mem_append_right _ he, h⟩

theorem line_one (E : Env) (l : Option Nat) (e : Exp) (r : Row) : Line E l [e] r ↔ Temp E e r.write ∧ r = ⟨l, r.write, false, E.ty e, E.ty e⟩ := by
  unfold Line; simp

theorem line_no {E : Env} {l : Option Nat} {e : Exp} {r : Row} (h : ∀ b, ¬Temp E e b) : ¬Line E l [e] r := by
  rw [line_one]; exact fun x => h _ x.1

/-- Being one of the lines that are not real. -/
def Virt (rs : List Row) (r : Row) : Prop := r ∈ rs ∧ r.real = false

theorem virt_append (a b : List Row) (r : Row) : Virt (a ++ b) r ↔ Virt a r ∨ Virt b r := by
  unfold Virt
  rw [List.mem_append]
  constructor
  · rintro ⟨h | h, h2⟩
    · exact .inl ⟨h, h2⟩
    · exact .inr ⟨h, h2⟩
  · rintro (⟨h, h2⟩ | ⟨h, h2⟩)
    · exact ⟨.inl h, h2⟩
    · exact ⟨.inr h, h2⟩

theorem virt_nil (r : Row) : ¬Virt [] r := by rintro ⟨h, _⟩; cases h

theorem virt_read (E : Env) (l : Option Nat) (e : Exp) (h : ∀ b, Temp E e b ↔ b = false) (r : Row) : Virt [reportVirtualRead E l e] r ↔ Line E l [e] r := by
  rw [line_one, h]
  unfold Virt reportVirtualRead
  rw [List.mem_singleton]
  constructor
  · rintro ⟨rfl, _⟩; exact ⟨rfl, rfl⟩
  · rintro ⟨h1, h2⟩; rw [h1] at h2; rw [h2]; exact ⟨rfl, rfl⟩

theorem virt_write (E : Env) (l : Option Nat) (e : Exp) (h : ∀ b, Temp E e b ↔ b = true) (r : Row) : Virt [reportVirtualWrite E l e] r ↔ Line E l [e] r := by
  rw [line_one, h]
  unfold Virt reportVirtualWrite
  rw [List.mem_singleton]
  constructor
  · rintro ⟨rfl, _⟩; exact ⟨rfl, rfl⟩
  · rintro ⟨h1, h2⟩; rw [h1] at h2; rw [h2]; exact ⟨rfl, rfl⟩

theorem virt_none {E : Env} {l : Option Nat} {e : Exp} {r : Row} {rs : List Row} (h : ∀ r ∈ rs, r.real = true) (h' : ∀ b, ¬Temp E e b) : Virt rs r ↔ Line E l [e] r := by
  constructor
  · rintro ⟨hr, hf⟩; rw [h r hr] at hf; cases hf
  · intro x; exact absurd x (line_no h')

mutual
theorem visit_temps (E : Env) (l : Option Nat) (r : Row) : ∀ e, Virt (visit E l e) r ↔ Line E l (subs e) r
  | .const k => by rw [visit, subs]; exact virt_read E l _ (fun b => ⟨fun h => by cases h; rfl, fun h => by rw [h]; exact .const k⟩) r
  | .lval h o => by
    rw [visit, subs, virt_append, virt_append, line_append, line_append, visitH_temps E l r h, visitO_temps E l r o]
    rw [virt_none (l := l) (e := .lval h o) (fun r hr => by rw [List.mem_singleton.1 hr]; rfl) (fun b h => by cases h)]
  | .sizeOf t => by rw [visit, subs]; exact virt_none (fun r hr => by cases hr) (fun b h => by cases h)
  | .sizeOfE e => by
    rw [visit, subs, line_append, visit_temps E l r e]
    exact ⟨.inl, fun h => h.resolve_right (line_no (fun b h => by cases h))⟩
  | .sizeOfStr t => by rw [visit, subs]; exact virt_none (fun r hr => by cases hr) (fun b h => by cases h)
  | .alignOf t => by rw [visit, subs]; exact virt_none (fun r hr => by cases hr) (fun b h => by cases h)
  | .alignOfE e => by
    rw [visit, subs, line_append, visit_temps E l r e]
    exact ⟨.inl, fun h => h.resolve_right (line_no (fun b h => by cases h))⟩
  | .unOp op e => by
    rw [visit, subs, virt_append, line_append, visit_temps E l r e]
    rw [virt_write E l _ (fun b => ⟨fun h => by cases h; rfl, fun h => by rw [h]; exact .unOp op e⟩)]
  | .binOp op e f => by
    rw [visit, subs, virt_append, virt_append, line_append, line_append, visit_temps E l r e, visit_temps E l r f]
    rw [virt_write E l _ (fun b => ⟨fun h => by cases h; rfl, fun h => by rw [h]; exact .binOp op e f⟩)]
  | .cast t e => by
    rw [visit, subs, virt_append, line_append, visit_temps E l r e]
    by_cases hc : repChanging E t e = true
    · rw [if_pos hc]
      unfold repChanging at hc
      rw [virt_write E l _ (fun b => ⟨fun h => by cases h; rfl, fun h => by
        rw [h]
        refine .cast t e ?_ ?_
        · intro he; simp [he] at hc
        · cases h1 : E.ptr t
          · exact .inl rfl
          · cases h2 : E.ptr (E.ty e)
            · exact .inr rfl
            · simp [h1, h2] at hc⟩)]
    · rw [if_neg hc]
      unfold repChanging at hc
      rw [virt_none (E := E) (l := l) (e := .cast t e) (fun r hr => by cases hr) (fun b h => by
        cases h with
        | cast _ _ h1 h2 =>
          apply hc
          rcases h2 with h2 | h2 <;> simp [h1, h2])]
  | .addrOf h o => by
    rw [visit, subs, virt_append, line_append, line_append, visitH_temps E l r h, visitO_temps E l r o]
    exact ⟨.inl, fun h => h.resolve_right (line_no (fun b h => by cases h))⟩
  | .startOf h o => by
    rw [visit, subs, virt_append, line_append, line_append, visitH_temps E l r h, visitO_temps E l r o]
    exact ⟨.inl, fun h => h.resolve_right (line_no (fun b h => by cases h))⟩
  | .question c e f => by
    rw [visit, subs, virt_append, virt_append, virt_append, line_append, line_append, line_append, visit_temps E l r c, visit_temps E l r e, visit_temps E l r f]
    rw [virt_read E l _ (fun b => ⟨fun h => by cases h; rfl, fun h => by rw [h]; exact .question c e f⟩)]
  | .addrOfLabel t => by rw [visit, subs]; exact virt_none (fun r hr => by cases hr) (fun b h => by cases h)
theorem visitH_temps (E : Env) (l : Option Nat) (r : Row) : ∀ h, Virt (visitH E l h) r ↔ Line E l (subsH h) r
  | .var _ => by rw [visitH, subsH]; exact ⟨fun h => absurd h (virt_nil r), fun ⟨e, h, _⟩ => by cases h⟩
  | .mem e => by rw [visitH, subsH]; exact visit_temps E l r e
theorem visitO_temps (E : Env) (l : Option Nat) (r : Row) : ∀ o, Virt (visitO E l o) r ↔ Line E l (subsO o) r
  | .none => by rw [visitO, subsO]; exact ⟨fun h => absurd h (virt_nil r), fun ⟨e, h, _⟩ => by cases h⟩
  | .field _ o => by rw [visitO, subsO]; exact visitO_temps E l r o
  | .index e o => by rw [visitO, subsO, virt_append, line_append, visit_temps E l r e, visitO_temps E l r o]
end

/-- What is listed for the temporaries of an expression that stands by itself, such as a condition: a line for each part that has one, and no other. -/
theorem temps_exact (E : Env) (e : Exp) (loc : Nat) (r : Row) : (r ∈ listing E [.other e loc] ∧ r.real = false) ↔
    ∃ s ∈ subs e, Temp E s r.write ∧ r = ⟨none, r.write, false, E.ty s, E.ty s⟩ := by
  have := visit_temps E none r e
  rw [listing, run, run, List.append_nil]
  exact this

/-! ## Cases -/

/-- Variable `v` has type `v`, what a pointer points to has type 50 and a member of it type 60; everything else type 1. -/
def exEnv : Env where
  ty
    | .lval (.var v) .none => v
    | .lval (.mem _) .none => 50
    | .lval (.mem _) (.field _ _) => 60
    | _ => 1
  ptr t := t = 10

/-- `x = p->f + a` on line 7, then `return x` on line 8: the reads of line 7 have no line, that of line 8 has line 7. -/
theorem case_listing : listing exEnv [.inst (.set (.var 20) .none (.binOp 0 (.lval (.mem (.lval (.var 10) .none)) (.field 0 .none)) (.lval (.var 21) .none)) 7), .other (.lval (.var 20) .none) 8] =
    [⟨none, false, true, 10, 10⟩, ⟨none, false, true, 60, 50⟩, ⟨none, false, true, 21, 21⟩, ⟨none, true, false, 1, 1⟩, ⟨some 7, true, false, 1, 1⟩, ⟨some 7, true, true, 20, 20⟩,
      ⟨some 7, false, true, 20, 20⟩] := by decide +kernel

/-- The hypothesis of `reads_partial` holds for it. -/
theorem case_plain : ∀ it ∈ [Item.inst (.set (.var 20) .none (.binOp 0 (.lval (.mem (.lval (.var 10) .none)) (.field 0 .none)) (.lval (.var 21) .none)) 7), .other (.lval (.var 20) .none) 8],
    PlainItem it := by
  intro it h
  rcases List.mem_cons.1 h with rfl | h
  · exact ⟨rfl, rfl, rfl⟩
  · rw [List.mem_singleton.1 h]; exact rfl

/-- A call through a pointer on line 3, whose result is stored through another. -/
theorem case_call : writes (listing exEnv [.inst (.call (some (.mem (.lval (.var 11) .none), .field 0 .none)) (.lval (.mem (.lval (.var 10) .none)) .none) [.const 1] 3)]) = [⟨some 3, true, true, 60, 50⟩] ∧
    (reads (listing exEnv [.inst (.call (some (.mem (.lval (.var 11) .none), .field 0 .none)) (.lval (.mem (.lval (.var 10) .none)) .none) [.const 1] 3)])).map access = [(11, 11), (10, 10), (50, 50)] := by
  decide +kernel

end Liballocs.MemAcc
