import Verif.Model.ObjdumpMeta
import Verif.Props.MergeSites
namespace Liballocs.ObjdumpMeta

open MergeSites (Text)

/-! ## Specification: what objdump prints -/

/-- Part of a listing: maybe a function's name, maybe a file and line with source text, and instructions. -/
structure Group where
  func : Bool
  loc : Option (Text × Nat)
  src : List Line
  insns : List Insn

/-- A section of a listing. -/
structure Sect where
  groups : List Group

def fileLine : Option (Text × Nat) → List Line
  | none => []
  | some p => [.file p.1 p.2]

def Group.lines (g : Group) : List Line :=
  (if g.func then [.func] else []) ++ (fileLine g.loc ++ (g.src ++ g.insns.map .insn))

def Sect.lines (s : Sect) : List Line := .section :: s.groups.flatMap Group.lines

/-- A listing: some lines before the first section, then sections. -/
def listing (ss : List Sect) : List Line := .blank :: .header :: .blank :: ss.flatMap Sect.lines

/-- Source text that the script takes as such: it has no line that looks like a header, a section, an instruction, or dots. -/
def Inert : Line → Prop
  | .blank => True
  | .file _ _ => True
  | .func => True
  | .other => True
  | _ => False

/-- Parts as the script expects them.  Source text comes only after a file and line; its first line does not look like the name of a function, unless one
was just printed; and there are instructions. -/
def Group.Good (g : Group) : Prop :=
  (∀ l ∈ g.src, Inert l) ∧ (g.loc = none → g.src = []) ∧ (g.func = false → g.src.head? ≠ some .func) ∧ g.insns ≠ []

/-- Where an instruction comes from: the file and line last printed, if any since the section or function began, and how many lines of source text came
with it. -/
structure Place where
  loc : Option (Text × Nat)
  shown : Nat

/-- How a part changes the place. -/
def Group.place (g : Group) (p : Place) : Place :=
  match g.loc with
  | some l => ⟨some l, g.src.length⟩
  | none => if g.func then ⟨none, 0⟩ else p

def groupsInsns : Place → List Group → List (Insn × Place)
  | _, [] => []
  | p, g :: gs => g.insns.map (fun i => (i, g.place p)) ++ groupsInsns (g.place p) gs

/-- All instructions of a listing, with their places. -/
def insnsOf (ss : List Sect) : List (Insn × Place) := ss.flatMap fun s => groupsInsns ⟨none, 0⟩ s.groups

/-- What is to be printed for an instruction at a place, followed by another. -/
def report (i : Insn) (p : Place) (next : Insn) : Out :=
  { sym := next.sym, ret := next.addr, addr := i.addr,
    file := match p.loc with | some l => l.1 | none => ['?', '?'],
    first := match p.loc with | some l => l.2 | none => 0,
    last := (match p.loc with | some l => l.2 | none => 0) + max 1 p.shown }

/-- One report for each allocating instruction that another follows. -/
def reports : List (Insn × Place) → List Out
  | [] => []
  | [_] => []
  | x :: y :: l => (if x.1.alloc then [report x.1 x.2 y.1] else []) ++ reports (y :: l)

/-! ## Proof -/

theorem print_report (i j : Insn) (p : Place) : print ⟨i.addr, p.loc, p.shown⟩ j = report i p j := by
  unfold print report
  cases h : p.loc with
  | none =>
    simp only [fileOf, lineOf, Out.mk.injEq, true_and]
    split <;> omega
  | some l =>
    simp only [fileOf, lineOf, Out.mk.injEq, true_and]
    split <;> omega

/-- The state between parts. -/
def Between (p : Place) (s : State) : Prop := s.state = 4 ∧ s.fresh = false ∧ s.offset = p.shown ∧ s.loc = p.loc

theorem run_src : ∀ (src : List Line) (s : State) (ls : List Line), (∀ l ∈ src, Inert l) → s.state = 1 → s.fresh = false →
    run s (src ++ ls) = run { s with offset := s.offset + src.length } ls
  | [], s, ls, _, _, _ => rfl
  | l :: src, s, ls, h, h1, h2 => by
    have hl : step s l = (source s, none) := by
      have := h l (by simp)
      cases l <;> simp_all [Inert, step]
    rw [List.cons_append, run, hl]
    simp only [Option.toList, List.nil_append]
    rw [run_src src (source s) ls (fun x hx => h x (by simp [hx])) rfl rfl]
    congr 1
    unfold source
    cases s
    simp_all
    omega

/-- Source text straight after a file and line. -/
theorem run_src3 (src : List Line) (s : State) (ls : List Line) (h : ∀ l ∈ src, Inert l) (h1 : s.state = 3) (h2 : s.fresh = false)
    (h3 : src.head? ≠ some .func) : run s (src ++ ls) = run { s with offset := s.offset + src.length, state := if src = [] then 3 else 1 } ls := by
  cases src with
  | nil => cases s; simp_all
  | cons l src =>
    have hl : step s l = (source s, none) := by
      have := h l (by simp)
      cases l <;> simp_all [Inert, step]
    rw [List.cons_append, run, hl]
    simp only [Option.toList, List.nil_append]
    rw [run_src src (source s) ls (fun x hx => h x (by simp [hx])) rfl rfl]
    congr 1
    unfold source
    cases s
    simp_all
    omega

/-- The latch for the last instruction. -/
def latchOf : Option (Insn × Place) → Option Latch
  | none => none
  | some x => if x.1.alloc then some ⟨x.1.addr, x.2.loc, x.2.shown⟩ else none

theorem run_insns : ∀ (is : List Insn) (p : Place) (s : State) (ls : List Line) (prev : Option (Insn × Place)) (more : List (Insn × Place)),
    s.offset = p.shown → s.loc = p.loc → s.fresh = false → s.latch = latchOf prev → is ≠ [] →
    (∀ (s' : State) (x : Insn × Place), Between p s' → s'.latch = latchOf (some x) → run s' ls = reports (x :: more)) →
    run s (is.map .insn ++ ls) = reports (prev.toList ++ (is.map (fun i => (i, p)) ++ more))
  | [], _, _, _, _, _, _, _, _, _, h, _ => absurd rfl h
  | i :: is, p, s, ls, prev, more, h1, h2, h3, h4, _, hk => by
    rw [List.map_cons, List.cons_append, run]
    have hout : (step s (.insn i)).2 = s.latch.map fun l => print l i := rfl
    have hst : (step s (.insn i)).1 = { s with latch := if i.alloc then some ⟨i.addr, s.loc, s.offset⟩ else none, state := 4 } := rfl
    have hb : Between p (step s (.insn i)).1 := by rw [hst]; exact ⟨rfl, h3, h1, h2⟩
    have hl : (step s (.insn i)).1.latch = latchOf (some (i, p)) := by
      rw [hst]
      simp only [latchOf]
      rw [h1, h2]
    have hrest : run (step s (.insn i)).1 (is.map .insn ++ ls) = reports ((i, p) :: (is.map (fun i => (i, p)) ++ more)) := by
      by_cases he : is = []
      · subst he
        simp only [List.map_nil, List.nil_append]
        exact hk _ _ hb hl
      · have := run_insns is p (step s (.insn i)).1 ls (some (i, p)) more hb.2.2.1 hb.2.2.2 hb.2.1 hl he hk
        rw [this]
        rfl
    rw [hrest, hout, h4]
    cases prev with
    | none => rfl
    | some x =>
      simp only [Option.toList, List.map_cons, List.cons_append, List.nil_append]
      rw [reports]
      congr 1
      rw [latchOf]
      cases ha : x.1.alloc with
      | true =>
        simp only [if_true, Option.map_some, print_report]
      | false => rfl

theorem run_group {g : Group} (hg : g.Good) (p : Place) (s : State) (ls : List Line) (prev : Option (Insn × Place)) (more : List (Insn × Place))
    (hs : Between p s) (hl : s.latch = latchOf prev)
    (hk : ∀ (s' : State) (x : Insn × Place), Between (g.place p) s' → s'.latch = latchOf (some x) → run s' ls = reports (x :: more)) :
    run s (g.lines ++ ls) = reports (prev.toList ++ (g.insns.map (fun i => (i, g.place p)) ++ more)) := by
  obtain ⟨g1, g2, g3, g4⟩ := hg
  obtain ⟨s1, s2, s3, s4⟩ := hs
  unfold Group.lines
  cases hf : g.func with
  | true =>
    simp only [if_true, List.append_assoc, List.cons_append, List.nil_append]
    rw [run, show step s .func = ({ s with fresh := false, offset := 0, loc := none, state := 2 }, none) by simp [step, s1]]
    simp only [Option.toList, List.nil_append]
    cases hloc : g.loc with
    | none =>
      rw [g2 hloc]
      simp only [fileLine, List.nil_append]
      refine run_insns g.insns (g.place p) _ ls prev more ?_ ?_ rfl hl g4 hk
      · simp [Group.place, hloc, hf]
      · simp [Group.place, hloc, hf]
    | some l =>
      simp only [fileLine, List.cons_append, List.nil_append]
      rw [run]
      simp only [step, Nat.reduceEqDiff, if_false, if_true, Option.toList, List.nil_append]
      rw [run_src g.src _ _ g1 rfl rfl]
      refine run_insns g.insns (g.place p) _ ls prev more ?_ ?_ rfl hl g4 hk
      · simp [Group.place, hloc]
      · simp [Group.place, hloc]
  | false =>
    simp only [Bool.false_eq_true, if_false, List.nil_append, List.append_assoc]
    cases hloc : g.loc with
    | none =>
      rw [g2 hloc]
      simp only [fileLine, List.nil_append]
      refine run_insns g.insns (g.place p) _ ls prev more ?_ ?_ s2 hl g4 hk
      · simp [Group.place, hloc, hf, s3]
      · simp [Group.place, hloc, hf, s4]
    | some l =>
      simp only [fileLine, List.cons_append, List.nil_append]
      rw [run]
      simp only [step, s1, if_true, Option.toList, List.nil_append]
      rw [run_src3 g.src _ _ g1 rfl rfl (g3 hf)]
      refine run_insns g.insns (g.place p) _ ls prev more ?_ ?_ rfl hl g4 hk
      · simp [Group.place, hloc]
      · simp [Group.place, hloc]

/-- Parts, when at least one instruction came before or the latch is empty. -/
theorem run_groups : ∀ (gs : List Group), (∀ g ∈ gs, g.Good) → ∀ (p : Place) (s : State) (ls : List Line) (prev : Option (Insn × Place))
    (more : List (Insn × Place)), Between p s → s.latch = latchOf prev →
    (∀ (s' : State) (prev' : Option (Insn × Place)), s'.latch = latchOf prev' → s'.fresh = false → run s' ls = reports (prev'.toList ++ more)) →
    run s (gs.flatMap Group.lines ++ ls) = reports (prev.toList ++ (groupsInsns p gs ++ more))
  | [], _, _, s, ls, prev, more, hs, hl, hk => by
    simp only [List.flatMap_nil, List.nil_append, groupsInsns]
    exact hk s prev hl hs.2.1
  | g :: gs, hg, p, s, ls, prev, more, hs, hl, hk => by
    rw [List.flatMap_cons, List.append_assoc, groupsInsns, List.append_assoc]
    refine run_group (hg g (by simp)) p s _ prev _ hs hl ?_
    intro s' x hb hl'
    have := run_groups gs (fun g' h' => hg g' (by simp [h'])) (g.place p) s' ls (some x) more hb hl' hk
    rw [this]
    rfl

theorem run_sects : ∀ (ss : List Sect), (∀ x ∈ ss, ∀ g ∈ x.groups, g.Good) → ∀ (s : State) (prev : Option (Insn × Place)), s.latch = latchOf prev →
    run s (ss.flatMap Sect.lines) = reports (prev.toList ++ insnsOf ss)
  | [], _, s, prev, _ => by
    simp only [List.flatMap_nil, run, insnsOf, List.append_nil]
    cases prev <;> rfl
  | x :: ss, h, s, prev, hl => by
    rw [List.flatMap_cons, Sect.lines, List.cons_append, run]
    simp only [step, Option.toList, List.nil_append]
    have hi : insnsOf (x :: ss) = groupsInsns ⟨none, 0⟩ x.groups ++ insnsOf ss := by simp [insnsOf]
    rw [hi]
    refine run_groups x.groups (h x (by simp)) ⟨none, 0⟩ _ _ prev _ ?_ hl ?_
    · exact ⟨rfl, rfl, rfl, rfl⟩
    · intro s' prev' hl' _
      exact run_sects ss (fun y hy => h y (by simp [hy])) s' prev' hl'

/-- **C122** (partial: source text is inert).  For a listing, the script prints one line for each allocating instruction that another follows, in order: with the address
of the following one as return address, the file and line last printed, and as many lines from there as there was source text. -/
theorem script_partial (ss : List Sect) (h : ∀ x ∈ ss, ∀ g ∈ x.groups, g.Good) : script (listing ss) = reports (insnsOf ss) := by
  unfold script listing
  rw [run, run, run]
  simp only [step, start, if_true, Option.toList, List.nil_append]
  exact run_sects ss h _ none rfl

/-- What `reports` holds: every allocating instruction but the last one, with its successor. -/
theorem mem_reports : ∀ (l : List (Insn × Place)) (o : Out), o ∈ reports l ↔
    ∃ (pre : List (Insn × Place)) (x y : Insn × Place) (post : List (Insn × Place)), l = pre ++ x :: y :: post ∧ x.1.alloc = true ∧ o = report x.1 x.2 y.1
  | [], o => by simp [reports]
  | [a], o => by
    simp only [reports, List.not_mem_nil, false_iff]
    rintro ⟨pre, x, y, post, h, _⟩
    have := congrArg List.length h
    simp at this
    omega
  | a :: b :: l, o => by
    rw [reports, List.mem_append, mem_reports (b :: l)]
    constructor
    · rintro (h | ⟨pre, x, y, post, h1, h2⟩)
      · cases ha : a.1.alloc with
        | false => rw [ha] at h; simp at h
        | true => rw [ha] at h; simp at h; exact ⟨[], a, b, l, rfl, ha, h⟩
      · exact ⟨a :: pre, x, y, post, by rw [h1]; rfl, h2⟩
    · rintro ⟨pre, x, y, post, h1, h2, h3⟩
      cases pre with
      | nil =>
        simp only [List.nil_append, List.cons.injEq] at h1
        obtain ⟨e1, e2, _⟩ := h1
        left
        rw [e1, e2, h2, h3]
        simp
      | cons c pre =>
        simp only [List.cons_append, List.cons.injEq] at h1
        exact .inr ⟨pre, x, y, post, h1.2, h2, h3⟩

/-! ## Where it goes wrong -/

def t (s : String) : Text := s.toList

def call (a : Nat) : Insn := ⟨a, t "f", true⟩
def plain (a : Nat) : Insn := ⟨a, t "f", false⟩

/-- An allocating call that is the last instruction is not printed (a call that does not return, say). -/
theorem last_fails : script (listing [⟨[⟨true, some (t "m.c", 7), [], [plain 0, call 4]⟩]⟩]) = [] := by decide +kernel

/-- One that is the last of its section is printed with the next section's first address as return address. -/
theorem section_end_fails : script (listing [⟨[⟨true, some (t "m.c", 7), [], [plain 0, call 4]⟩]⟩, ⟨[⟨true, none, [], [plain 4096]⟩]⟩]) =
    [⟨t "f", 4096, 4, t "m.c", 7, 8⟩] := by decide +kernel

/-- Source text whose first line ends in `():`, as in a C++ constructor with initialisers, is taken for the name of a function: file and line are lost. -/
theorem constructor_fails : script (listing [⟨[⟨false, some (t "m.cc", 7), [.func, .other], [call 4, plain 9]⟩]⟩]) =
    [⟨t "f", 9, 4, t "??", 0, 1⟩] := by decide +kernel

/-- A line of source text with three dots and then one that looks like a file and line: the wrong file is printed. -/
theorem dots_fails : script (listing [⟨[⟨true, some (t "m.c", 7), [.dots, .file (t "case x") 3], [call 4, plain 9]⟩]⟩]) =
    [⟨t "f", 9, 4, t "case x", 3, 4⟩] := by decide +kernel

/-- Objdump prints source text up to and with the line that it names.  The script takes the text to begin there.  So a call through a pointer, on line 10 and without a
record, shown with the two lines before, is given the record for an allocation on line 12. -/
theorem window_fails : (script (listing [⟨[⟨true, some (t "m.c", 10), [.other, .other, .other], [call 4, plain 9]⟩]⟩])).map
      (fun o => (o.ret, o.first, o.last)) = [(9, 10, 13)] ∧
    MergeSites.merge [⟨t "a.out", t "f", t "0x9", t "m.c", MergeSites.pad6 10, MergeSites.pad6 13⟩] none
      [⟨t "m.c", MergeSites.pad6 12, MergeSites.pad6 12, t "malloc double"⟩] =
      [(⟨t "a.out", t "f", t "0x9", t "m.c", MergeSites.pad6 10, MergeSites.pad6 13⟩, some (t "malloc double"))] := by decide +kernel

/-! ## A concrete case -/

def demo : List Sect :=
  [⟨[⟨true, some (t "m.c", 7), [.other, .other], [plain 0, call 4, plain 9]⟩, ⟨false, some (t "m.c", 8), [], [call 12]⟩, ⟨false, none, [], [call 17, plain 22]⟩]⟩]

example : ∀ x ∈ demo, ∀ g ∈ x.groups, g.Good := by
  intro x hx g hg
  simp only [demo, List.mem_cons, List.not_mem_nil, or_false] at hx
  subst hx
  simp only [List.mem_cons, List.not_mem_nil, or_false] at hg
  rcases hg with rfl | rfl | rfl <;> simp [Group.Good, Inert]

example : script (listing demo) =
    [⟨t "f", 9, 4, t "m.c", 7, 9⟩, ⟨t "f", 17, 12, t "m.c", 8, 9⟩, ⟨t "f", 22, 17, t "m.c", 8, 9⟩] := by decide +kernel

end Liballocs.ObjdumpMeta
