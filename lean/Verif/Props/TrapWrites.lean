import Verif.Model.TrapWrites
/-!
# C146: pointers are notified before they are written

Spec: which pointers an object of a type holds (`PtrAt`), and what a notification tells about a pointer (`Tells`). A run of the
changed program must be a run of the original one, with notifications just before the writes (`Noted`).
-/
namespace Liballocs.TrapWrites

/-- A field at an offset. -/
def InF : Flds → Nat → Ty → Prop
  | .nil, _, _ => False
  | .cons o t fs, o', t' => (o' = o ∧ t' = t) ∨ InF fs o' t'

/-- An object of this type has a pointer at this offset. -/
inductive PtrAt : Ty → Nat → Prop
  | ptr : PtrAt .ptr 0
  | elem {t : Ty} {n i o : Nat} : i < n → PtrAt t o → PtrAt (.arr t (some n)) (i * t.size + o)
  | field {sz : Nat} {fs : Flds} {off o : Nat} {t : Ty} : InF fs off t → PtrAt t o → PtrAt (.comp sz fs) (off + o)
  | named {t : Ty} {o : Nat} : PtrAt t o → PtrAt (.named t) o

/-- Objects of this type may have pointers. -/
inductive Holds : Ty → Prop
  | ptr : Holds .ptr
  | elem {t : Ty} {n : Nat} : Holds t → Holds (.arr t (some n))
  | field {sz : Nat} {fs : Flds} {off : Nat} {t : Ty} : InF fs off t → Holds t → Holds (.comp sz fs)
  | named {t : Ty} : Holds t → Holds (.named t)

/-- Parts of an object that are reached through fields only. -/
inductive At : Ty → Nat → Ty → Prop
  | here {t : Ty} : At t 0 t
  | field {sz : Nat} {fs : Flds} {off o : Nat} {t u : Ty} : InF fs off t → At t o u → At (.comp sz fs) (off + o) u
  | named {t u : Ty} {o : Nat} : At t o u → At (.named t) o u

mutual
/-- Fields lie within their structures, and no object is a function. -/
def WF : Ty → Prop
  | .fn => False
  | .ptr => True
  | .other _ => True
  | .arr t _ => WF t
  | .comp sz fs => WFs sz fs
  | .named t => WF t
def WFs (sz : Nat) : Flds → Prop
  | .nil => True
  | .cons o t fs => o + t.size ≤ sz ∧ WF t ∧ WFs sz fs
end

/-- A field's place does not overlap those of the other fields. -/
def Apart (o n : Nat) : Flds → Prop
  | .nil => True
  | .cons o' t fs => (o + n ≤ o' ∨ o' + t.size ≤ o) ∧ Apart o n fs

mutual
/-- There are no unions. -/
def Plain : Ty → Prop
  | .comp _ fs => Plains fs
  | .arr t _ => Plain t
  | .named t => Plain t
  | _ => True
def Plains : Flds → Prop
  | .nil => True
  | .cons o t fs => Plain t ∧ Apart o t.size fs ∧ Plains fs
end

/-- The event says that the pointer at `d` becomes `v`. -/
def Tells (e : Ev) (d : Nat) (v : List Nat) : Prop :=
  match e with
  | .ptrWrite d' v' => d' = d ∧ v' = v
  | .copy d' bs => d' ≤ d ∧ d + 8 ≤ d' + bs.length ∧ (bs.drop (d - d')).take 8 = v

/-- The places that an event is about. -/
def place : Ev → Nat × Nat
  | .ptrWrite d _ => (d, 8)
  | .copy d bs => (d, bs.length)

/-- Places that do not overlap. -/
def Away (e f : Ev) : Prop :=
  (place e).1 + (place e).2 ≤ (place f).1 ∨ (place f).1 + (place f).2 ≤ (place e).1

/-- The right notifications for a write of `bs`, an object of type `ty`, to `a`. -/
structure Right (ty : Ty) (a : Nat) (bs : List Nat) (ns : List Ev) : Prop where
  /-- All pointers are told. -/
  all : ∀ o, PtrAt ty o → ∃ e ∈ ns, Tells e (a + o) ((bs.drop o).take 8)
  /-- Single notifications are about pointers and say what is written. -/
  single : ∀ d v, Ev.ptrWrite d v ∈ ns → ∃ o, PtrAt ty o ∧ d = a + o ∧ v = (bs.drop o).take 8
  /-- Copies are arrays of things with pointers, and say what is written. -/
  copies : ∀ d v, Ev.copy d v ∈ ns →
    ∃ o t n, At ty o (.arr t (some n)) ∧ Holds t ∧ d = a + o ∧ v = (bs.drop o).take (n * t.size) ∧ v.length = n * t.size
  /-- Nothing is told twice, if there are no unions. -/
  once : Plain ty → ns.Pairwise Away

/-- The second run is the first with the right notifications before each write that is not to a local variable. -/
inductive Noted : List Tr → List Tr → Prop
  | nil : Noted [] []
  | theirs {l l' : List Tr} (x : Nat) : Noted l l' → Noted (.theirs x :: l) (.theirs x :: l')
  | localWrite {l l' : List Tr} (ty : Ty) (a : Nat) (bs : List Nat) :
      Noted l l' → Noted (.write true ty a bs :: l) (.write true ty a bs :: l')
  | write {l l' : List Tr} (ty : Ty) (a : Nat) (bs : List Nat) (ns : List Ev) : Right ty a bs ns →
      Noted l l' → Noted (.write false ty a bs :: l) (ns.map .note ++ .write false ty a bs :: l')

/-- Values have the sizes of their types. -/
def InstOK : Inst → Prop
  | .set l (.lval _) => WF l.ty
  | .set l (.val v) => WF l.ty ∧ ∀ m, (v m).length = l.ty.size
  | .callTo l f => WF l.ty ∧ ∀ m, (f m).2.1.length = l.ty.size
  | .rest _ => True

def StmtOK : Stmt Inst → Prop
  | .block is => ∀ i ∈ is, InstOK i
  | .seq s t => StmtOK s ∧ StmtOK t
  | .ite _ s t => StmtOK s ∧ StmtOK t
  | .loop _ s => StmtOK s

/-! ## Types -/

mutual
theorem needs_iff : ∀ t : Ty, WF t → (needs t = true ↔ Holds t)
  | .ptr, _ => by simp [needs, Holds.ptr]
  | .fn, h => by simp [WF] at h
  | .other _, _ => by simp [needs]; intro h; cases h
  | .arr t (some n), h => by
    simp only [needs]
    rw [needs_iff t (by simpa [WF] using h)]
    exact ⟨.elem, fun h => by cases h; assumption⟩
  | .arr t none, _ => by simp [needs]; intro h; cases h
  | .named t, h => by
    simp only [needs]
    rw [needs_iff t (by simpa [WF] using h)]
    exact ⟨.named, fun h => by cases h; assumption⟩
  | .comp sz fs, h => by
    simp only [needs]
    rw [needsAny_iff sz fs (by simpa [WF] using h)]
    exact ⟨fun ⟨o, t, h1, h2⟩ => .field h1 h2, fun h => by cases h with | field h1 h2 => exact ⟨_, _, h1, h2⟩⟩
theorem needsAny_iff (sz : Nat) : ∀ fs : Flds, WFs sz fs → (needsAny fs = true ↔ ∃ o t, InF fs o t ∧ Holds t)
  | .nil, _ => by simp [needsAny, InF]
  | .cons o t fs, h => by
    simp only [WFs] at h
    simp only [needsAny, Bool.or_eq_true]
    rw [needs_iff t h.2.1, needsAny_iff sz fs h.2.2]
    constructor
    · rintro (h | ⟨o', t', h1, h2⟩)
      · exact ⟨o, t, Or.inl ⟨rfl, rfl⟩, h⟩
      · exact ⟨o', t', Or.inr h1, h2⟩
    · rintro ⟨o', t', h1, h2⟩
      rcases h1 with ⟨rfl, rfl⟩ | h1
      · exact Or.inl h2
      · exact Or.inr ⟨o', t', h1, h2⟩
end

theorem wfs_in {sz : Nat} : ∀ {fs : Flds} {o : Nat} {t : Ty}, WFs sz fs → InF fs o t → o + t.size ≤ sz ∧ WF t
  | .nil, _, _, _, h => by simp [InF] at h
  | .cons o t fs, o', t', hw, h => by
    simp only [WFs] at hw
    rcases h with ⟨rfl, rfl⟩ | h
    · exact ⟨hw.1, hw.2.1⟩
    · exact wfs_in hw.2.2 h

theorem at_wf {ty u : Ty} {o : Nat} (h : At ty o u) : WF ty → o + u.size ≤ ty.size ∧ WF u := by
  induction h with
  | here => intro h; exact ⟨by omega, h⟩
  | field hin _ ih =>
    intro h
    simp only [WF] at h
    have h1 := wfs_in h hin
    have h2 := ih h1.2
    simp only [Ty.size]
    exact ⟨by omega, h2.2⟩
  | named _ ih => intro h; simp only [WF] at h; simpa [Ty.size] using ih h

theorem ptrAt_le {ty : Ty} {o : Nat} (h : PtrAt ty o) : WF ty → o + 8 ≤ ty.size := by
  induction h with
  | ptr => intro _; simp [Ty.size]
  | @elem t n i o hi _ ih =>
    intro h
    have := ih (by simpa [WF] using h)
    simp only [Ty.size]
    have h2 : (i + 1) * t.size ≤ n * t.size := Nat.mul_le_mul_right _ hi
    rw [Nat.add_mul] at h2
    omega
  | field hin _ ih =>
    intro h
    simp only [WF] at h
    have h1 := wfs_in h hin
    have h2 := ih h1.2
    simp only [Ty.size]
    omega
  | named _ ih => intro h; simpa [Ty.size] using ih (by simpa [WF] using h)

theorem ptrAt_holds {ty : Ty} {o : Nat} (h : PtrAt ty o) : Holds ty := by
  induction h with
  | ptr => exact .ptr
  | elem _ _ ih => exact .elem ih
  | field h _ ih => exact .field h ih
  | named _ ih => exact .named ih

theorem at_ptr {ty u : Ty} {o : Nat} (h : At ty o u) : u = .ptr → PtrAt ty o := by
  induction h with
  | here => rintro rfl; exact .ptr
  | field h _ ih => intro hu; exact .field h (ih hu)
  | named _ ih => intro hu; exact .named (ih hu)

/-- Every pointer is reached through fields only, or is in an array that is. -/
theorem ptrAt_split {ty : Ty} {p : Nat} (h : PtrAt ty p) : WF ty →
    At ty p .ptr ∨ ∃ o t n x, At ty o (.arr t (some n)) ∧ Holds t ∧ p = o + x ∧ x + 8 ≤ n * t.size := by
  induction h with
  | ptr => intro _; exact Or.inl .here
  | @elem t n i o hi hp _ =>
    intro h
    refine Or.inr ⟨0, t, n, i * t.size + o, .here, ptrAt_holds hp, by omega, ?_⟩
    exact ptrAt_le (.elem hi hp) h
  | @field sz fs off o t hin _ ih =>
    intro h
    simp only [WF] at h
    rcases ih (wfs_in h hin).2 with h1 | ⟨o', t', n, x, h1, h2, h3, h4⟩
    · exact Or.inl (.field hin h1)
    · exact Or.inr ⟨off + o', t', n, x, .field hin h1, h2, by omega, h4⟩
  | named _ ih =>
    intro h
    rcases ih (by simpa [WF] using h) with h1 | ⟨o', t', n, x, h1, h2, h3, h4⟩
    · exact Or.inl (.named h1)
    · exact Or.inr ⟨o', t', n, x, .named h1, h2, h3, h4⟩

/-! ## Bytes -/

theorem get_length (m : Mem) : ∀ (n a : Nat), (get m a n).length = n
  | 0, _ => rfl
  | n + 1, a => by simp [get, get_length m n (a + 1)]

theorem get_part (m : Mem) : ∀ (N a o n : Nat), o + n ≤ N → ((get m a N).drop o).take n = get m (a + o) n
  | N, a, 0, 0, _ => by simp [get]
  | 0, a, o, n, h => by
    have h1 : o = 0 := by omega
    have h2 : n = 0 := by omega
    subst h1 h2
    simp [get]
  | N + 1, a, 0, n + 1, h => by
    have := get_part m N (a + 1) 0 n (by omega)
    simp only [List.drop_zero, Nat.add_zero] at this
    simp [get, this]
  | N + 1, a, o + 1, n, h => by
    have := get_part m N (a + 1) o n (by omega)
    simp only [get, List.drop_succ_cons]
    rw [this, show a + 1 + o = a + (o + 1) by omega]

theorem plus_plus (s : Src) (a b : Nat) : (s.plus a).plus b = s.plus (a + b) := by
  cases s <;> simp [Src.plus, Nat.add_assoc]

theorem plus_zero (s : Src) : s.plus 0 = s := by cases s <;> simp [Src.plus]

/-! ## Notifications -/

/-- What is told about the part at `off`. -/
def Said (a off : Nat) (val : Nat → Nat → List Nat) (ty : Ty) (e : Ev) : Prop :=
  (∃ o, At ty o .ptr ∧ e = .ptrWrite (a + off + o) (val o 8)) ∨
    ∃ o t n, At ty o (.arr t (some n)) ∧ Holds t ∧ e = .copy (a + off + o) (val o (n * t.size))

theorem said_place {a off : Nat} {val : Nat → Nat → List Nat} {ty : Ty} {e : Ev}
    (hv : ∀ o n, (val o n).length ≤ n) (hw : WF ty) (h : Said a off val ty e) :
    a + off ≤ (place e).1 ∧ (place e).1 + (place e).2 ≤ a + off + ty.size := by
  rcases h with ⟨o, h, rfl⟩ | ⟨o, t, n, h, _, rfl⟩
  · have := (at_wf h hw).1
    simp only [Ty.size] at this
    simp only [place]
    omega
  · have := (at_wf h hw).1
    simp only [Ty.size] at this
    have := hv o (n * t.size)
    simp only [place]
    omega

theorem bytes_le (m : Mem) (ts : Nat → List Nat) (n : Nat) (s : Src) : (s.bytes m ts n).length ≤ n := by
  cases s with
  | lv l o => simp [Src.bytes, get_length]
  | tmp k o => simp [Src.bytes]; omega

mutual
theorem traps_run (early : Lv → Bool) (l : Lv) (m : Mem) (ts : Nat → List Nat) : ∀ (ty : Ty), WF ty → ∀ (off : Nat) (s : Src)
    (tail : List TInst), ∃ ns : List Ev,
      runBlock (tstep early) (m, ts) (traps l ty off s tail) =
        ((runBlock (tstep early) (m, ts) tail).1, ns.map .note ++ (runBlock (tstep early) (m, ts) tail).2) ∧
      (∀ e, e ∈ ns ↔ Said (l.addr m) off (fun o n => (s.plus o).bytes m ts n) ty e) ∧
      (Plain ty → ns.Pairwise Away)
  | .ptr, _, off, s, tail => by
    refine ⟨[.ptrWrite (l.addr m + off) (s.bytes m ts 8)], by simp [traps, runBlock, tstep], ?_, by simp⟩
    intro e
    simp only [List.mem_singleton, Said]
    constructor
    · rintro rfl
      exact Or.inl ⟨0, .here, by simp [plus_zero]⟩
    · rintro (⟨o, h, rfl⟩ | ⟨o, t, n, h, _, _⟩)
      · cases h; simp [plus_zero]
      · cases h
  | .fn, h, _, _, _ => by simp [WF] at h
  | .other _, _, off, s, tail => by
    refine ⟨[], by simp [traps], ?_, by simp⟩
    intro e
    simp only [List.not_mem_nil, Said, false_iff]
    rintro (⟨o, h, rfl⟩ | ⟨o, t, n, h, _, _⟩) <;> cases h
  | .arr t none, _, off, s, tail => by
    refine ⟨[], by simp [traps], ?_, by simp⟩
    intro e
    simp only [List.not_mem_nil, Said, false_iff]
    rintro (⟨o, h, rfl⟩ | ⟨o, t, n, h, _, _⟩) <;> cases h
  | .arr t (some n), hw, off, s, tail => by
    have hn := needs_iff t (by simpa [WF] using hw)
    by_cases hb : needs t = true
    · refine ⟨[.copy (l.addr m + off) (s.bytes m ts (n * t.size))], by simp [traps, hb, runBlock, tstep], ?_, by simp⟩
      intro e
      simp only [List.mem_singleton, Said]
      constructor
      · rintro rfl
        exact Or.inr ⟨0, t, n, .here, hn.1 hb, by simp [plus_zero]⟩
      · rintro (⟨o, h, rfl⟩ | ⟨o, t', n', h, _, rfl⟩)
        · cases h
        · cases h; simp [plus_zero]
    · refine ⟨[], by simp [traps, hb], ?_, by simp⟩
      intro e
      simp only [List.not_mem_nil, Said, false_iff]
      rintro (⟨o, h, rfl⟩ | ⟨o, t', n', h, h2, rfl⟩)
      · cases h
      · cases h; exact hb (hn.2 h2)
  | .named t, hw, off, s, tail => by
    obtain ⟨ns, h1, h2, h3⟩ := traps_run early l m ts t (by simpa [WF] using hw) off s tail
    refine ⟨ns, by simpa [traps] using h1, ?_, by simpa [Plain] using h3⟩
    intro e
    rw [h2]
    constructor
    · rintro (⟨o, h, rfl⟩ | ⟨o, t', n', h, h2, rfl⟩)
      · exact Or.inl ⟨o, .named h, rfl⟩
      · exact Or.inr ⟨o, t', n', .named h, h2, rfl⟩
    · rintro (⟨o, h, rfl⟩ | ⟨o, t', n', h, h2, rfl⟩)
      · cases h; exact Or.inl ⟨o, by assumption, rfl⟩
      · cases h; exact Or.inr ⟨o, t', n', by assumption, h2, rfl⟩
  | .comp sz fs, hw, off, s, tail => by
    obtain ⟨ns, h1, h2, h3⟩ := trapsAll_run early l m ts sz fs (by simpa [WF] using hw) off s tail
    refine ⟨ns, by simpa [traps] using h1, ?_, by simpa [Plain] using h3⟩
    intro e
    rw [h2]
    constructor
    · rintro ⟨o, t, hin, (⟨o', h, rfl⟩ | ⟨o', t', n', h, h2, rfl⟩)⟩
      · exact Or.inl ⟨o + o', .field hin h, by simp [plus_plus, Nat.add_assoc]⟩
      · exact Or.inr ⟨o + o', t', n', .field hin h, h2, by simp [plus_plus, Nat.add_assoc]⟩
    · rintro (⟨o, h, rfl⟩ | ⟨o, t', n', h, h2, rfl⟩)
      · cases h with
        | @field _ _ off' o' t _ hin h => exact ⟨off', t, hin, Or.inl ⟨o', h, by simp [plus_plus, Nat.add_assoc]⟩⟩
      · cases h with
        | @field _ _ off' o' t _ hin h => exact ⟨off', t, hin, Or.inr ⟨o', t', n', h, h2, by simp [plus_plus, Nat.add_assoc]⟩⟩
theorem trapsAll_run (early : Lv → Bool) (l : Lv) (m : Mem) (ts : Nat → List Nat) (sz : Nat) : ∀ (fs : Flds), WFs sz fs →
    ∀ (off : Nat) (s : Src) (tail : List TInst), ∃ ns : List Ev,
      runBlock (tstep early) (m, ts) (trapsAll l fs off s tail) =
        ((runBlock (tstep early) (m, ts) tail).1, ns.map .note ++ (runBlock (tstep early) (m, ts) tail).2) ∧
      (∀ e, e ∈ ns ↔ ∃ o t, InF fs o t ∧ Said (l.addr m) (off + o) (fun p n => ((s.plus o).plus p).bytes m ts n) t e) ∧
      (Plains fs → ns.Pairwise Away)
  | .nil, _, off, s, tail => ⟨[], by simp [trapsAll], by simp [InF], by simp⟩
  | .cons o t fs, hw, off, s, tail => by
    simp only [WFs] at hw
    obtain ⟨ns, h1, h2, h3⟩ := traps_run early l m ts t hw.2.1 (off + o) (s.plus o) tail
    obtain ⟨ns', h1', h2', h3'⟩ := trapsAll_run early l m ts sz fs hw.2.2 off s (traps l t (off + o) (s.plus o) tail)
    refine ⟨ns' ++ ns, by simp [trapsAll, h1', h1], ?_, ?_⟩
    · intro e
      rw [List.mem_append, h2, h2']
      constructor
      · rintro (⟨o', t', h, h'⟩ | h)
        · exact ⟨o', t', Or.inr h, h'⟩
        · exact ⟨o, t, Or.inl ⟨rfl, rfl⟩, h⟩
      · rintro ⟨o', t', (⟨rfl, rfl⟩ | h), h'⟩
        · exact Or.inr h'
        · exact Or.inl ⟨o', t', h, h'⟩
    · intro hp
      simp only [Plains] at hp
      rw [List.pairwise_append]
      refine ⟨h3' hp.2.2, h3 hp.1, ?_⟩
      intro e he f hf
      rw [h2'] at he
      rw [h2] at hf
      obtain ⟨o', t', hin, he⟩ := he
      have hf := said_place (fun _ _ => bytes_le _ _ _ _) hw.2.1 hf
      have he := said_place (fun _ _ => bytes_le _ _ _ _) (wfs_in hw.2.2 hin).2 he
      have ha : o + t.size ≤ o' ∨ o' + t'.size ≤ o := apart_in hp.2.1 hin
      simp only [Away]
      omega
theorem apart_in {o n : Nat} : ∀ {fs : Flds} {o' : Nat} {t' : Ty}, Apart o n fs → InF fs o' t' → o + n ≤ o' ∨ o' + t'.size ≤ o
  | .nil, _, _, _, h => by simp [InF] at h
  | .cons p t fs, o', t', ha, h => by
    simp only [Apart] at ha
    rcases h with ⟨rfl, rfl⟩ | h
    · exact ha.1
    · exact apart_in ha.2 h
end

theorem right_of {l : Lv} {m : Mem} {ts : Nat → List Nat} {ty : Ty} {s : Src} {bs : List Nat} {ns : List Ev} (hw : WF ty)
    (hb : bs.length = ty.size)
    (hs : ∀ o n, o + n ≤ ty.size → (s.plus o).bytes m ts n = (bs.drop o).take n)
    (h2 : ∀ e, e ∈ ns ↔ Said (l.addr m) 0 (fun o n => (s.plus o).bytes m ts n) ty e) (h3 : Plain ty → ns.Pairwise Away) :
    Right ty (l.addr m) bs ns where
  all := by
    intro p hp
    rcases ptrAt_split hp hw with h | ⟨o, t, n, x, h, hh, rfl, hx⟩
    · have hle := ptrAt_le hp hw
      exact ⟨_, (h2 _).2 (Or.inl ⟨p, h, rfl⟩), by simp [Tells, hs p 8 hle]⟩
    · have hle := (at_wf h hw).1
      simp only [Ty.size] at hle
      refine ⟨_, (h2 _).2 (Or.inr ⟨o, t, n, h, hh, rfl⟩), ?_⟩
      have hl : ((bs.drop o).take (n * t.size)).length = n * t.size := by simp [hb]; omega
      simp only [Tells, hs o (n * t.size) hle, hl]
      refine ⟨by omega, by omega, ?_⟩
      rw [show l.addr m + (o + x) - (l.addr m + 0 + o) = x by omega, List.drop_take, List.drop_drop, List.take_take]
      rw [show min 8 (n * t.size - x) = 8 by omega]
  single := by
    intro d v h
    rw [h2] at h
    rcases h with ⟨o, h, he⟩ | ⟨o, t, n, h, _, he⟩
    · simp only [Ev.ptrWrite.injEq] at he
      have hp := at_ptr h rfl
      exact ⟨o, hp, by omega, by rw [he.2, hs o 8 (ptrAt_le hp hw)]⟩
    · simp at he
  copies := by
    intro d v h
    rw [h2] at h
    rcases h with ⟨o, h, he⟩ | ⟨o, t, n, h, hh, he⟩
    · simp at he
    · simp only [Ev.copy.injEq] at he
      have hle := (at_wf h hw).1
      simp only [Ty.size] at hle
      have hv : v = (bs.drop o).take (n * t.size) := by rw [he.2, hs o _ hle]
      exact ⟨o, t, n, h, hh, by omega, hv, by rw [hv]; simp [hb]; omega⟩
  once := h3

/-! ## Runs -/

theorem noted_append {a a' b b' : List Tr} (h : Noted a a') (h' : Noted b b') : Noted (a ++ b) (a' ++ b') := by
  induction h with
  | nil => simpa using h'
  | theirs x _ ih => exact .theirs x ih
  | localWrite ty a bs _ ih => exact .localWrite ty a bs ih
  | write ty a bs ns hr _ ih => rw [List.append_assoc]; exact .write ty a bs ns hr ih

theorem noted_theirs : ∀ xs : List Nat, Noted (xs.map .theirs) (xs.map .theirs)
  | [] => .nil
  | x :: xs => .theirs x (noted_theirs xs)

/-- Which addresses the original program is taken to find out early. -/
def when (early : Lv → Bool) (l : Lv) : Bool := early l && !lvNeeds l

theorem right_none {ty : Ty} {a : Nat} {bs : List Nat} (hw : WF ty) (h : needs ty = false) : Right ty a bs [] where
  all := by
    intro o hp
    have := (needs_iff ty hw).2 (ptrAt_holds hp)
    simp [h] at this
  single := by simp
  copies := by simp
  once := by simp

theorem noted_write {loc : Bool} {ty : Ty} {a : Nat} {bs : List Nat} (hw : WF ty) (h : loc = true ∨ needs ty = false) :
    Noted [.write loc ty a bs] [.write loc ty a bs] := by
  cases loc with
  | true => exact .localWrite ty a bs .nil
  | false =>
    have h : needs ty = false := by simpa using h
    exact Noted.write ty a bs [] (right_none hw h) .nil

theorem runBlock_append {I S : Type} (f : S → I → S × List Tr) : ∀ (is js : List I) (s : S),
    runBlock f s (is ++ js) = ((runBlock f (runBlock f s is).1 js).1, (runBlock f s is).2 ++ (runBlock f (runBlock f s is).1 js).2)
  | [], _, _ => by simp [runBlock]
  | i :: is, js, s => by simp [runBlock, runBlock_append f is js]

theorem lvNeeds_false {l : Lv} (h : lvNeeds l = false) : l.loc = true ∨ needs l.ty = false := by
  simp only [lvNeeds] at h
  by_cases h1 : l.loc = true
  · exact Or.inl h1
  · exact Or.inr (by simpa [h1] using h)

theorem inst_ok (early : Lv → Bool) (m : Mem) (ts : Nat → List Nat) (k : Nat) : ∀ (i : Inst), InstOK i →
    ∃ ts' tr, runBlock (tstep early) (m, ts) (trInst k i).1 = (((step (when early) m i).1, ts'), tr) ∧
      Noted (step (when early) m i).2 tr
  | .rest f, _ => ⟨ts, (f m).2.map .theirs, by simp [trInst, runBlock, tstep, step], noted_theirs _⟩
  | .set l e, hok => by
    have hw : WF l.ty := by cases e <;> simp only [InstOK] at hok <;> first | exact hok | exact hok.1
    by_cases hn : lvNeeds l = false
    · refine ⟨ts, _, by simp only [trInst, if_pos hn, runBlock, tstep]; rfl, ?_⟩
      simpa [step] using noted_write hw (lvNeeds_false hn)
    · have hl : l.loc = false := by
        cases h : l.loc with
        | false => rfl
        | true => simp [lvNeeds, h] at hn
      cases e with
      | lval r =>
        obtain ⟨ns, h1, h2, h3⟩ := traps_run early l m ts l.ty hw 0 (.lv r 0) [.keep (.set l (.lval r))]
        refine ⟨ts, _, by
          simp only [trInst, if_neg hn]; rw [h1]; simp only [runBlock, tstep, step]; rfl, ?_⟩
        simp only [step, hl, List.append_nil]
        refine .write _ _ _ ns (right_of hw (by simp [evalExp, get_length]) ?_ h2 h3) .nil
        intro o n ho
        simp only [evalExp, Src.plus, Src.bytes, Nat.zero_add]
        rw [get_part _ _ _ _ _ ho]
      | val v =>
        simp only [InstOK] at hok
        obtain ⟨ns, h1, h2, h3⟩ := traps_run early l m (fun j => if j = k then v m else ts j) l.ty hw 0 (.tmp k 0) [.setFrom l k]
        refine ⟨fun j => if j = k then v m else ts j, ns.map .note ++ [.write l.loc l.ty (l.addr m) (v m)], by
          simp only [trInst, if_neg hn, runBlock, tstep, evalExp]; rw [h1]; simp [runBlock, tstep, step, evalExp], ?_⟩
        simp only [step, hl, evalExp]
        refine .write _ _ _ ns (right_of hw (hok.2 m) ?_ h2 h3) .nil
        intro o n _
        simp [Src.plus, Src.bytes]
  | .callTo l f, hok => by
    simp only [InstOK] at hok
    have hw := hok.1
    by_cases hn : lvNeeds l = false
    · refine ⟨ts, (step early m (.callTo l f)).2, by
        simp only [trInst, if_pos hn, runBlock, tstep, step, when, hn, Bool.not_false, Bool.and_true, List.append_nil, if_true], ?_⟩
      simp only [step, when, hn, Bool.not_false, Bool.and_true]
      exact noted_append (noted_theirs _) (noted_write hw (lvNeeds_false hn))
    · have hl : l.loc = false := by
        cases h : l.loc with
        | false => rfl
        | true => simp [lvNeeds, h] at hn
      have hn' : lvNeeds l = true := by simpa using hn
      obtain ⟨ns, h1, h2, h3⟩ := traps_run early l (f m).1 (fun j => if j = k then (f m).2.1 else ts j) l.ty hw 0 (.tmp k 0)
        [.setFrom l k]
      refine ⟨fun j => if j = k then (f m).2.1 else ts j,
        (f m).2.2.map .theirs ++ (ns.map .note ++ [.write l.loc l.ty (l.addr (f m).1) (f m).2.1]), by
          simp only [trInst, if_neg hn, runBlock, tstep]; rw [h1]; simp [runBlock, tstep, step, when, hn'], ?_⟩
      simp only [step, when, hn', Bool.not_true, Bool.and_false, hl]
      refine noted_append (noted_theirs _) (.write _ _ _ ns (right_of hw (hok.2 m) ?_ h2 h3) .nil)
      intro o n _
      simp [Src.plus, Src.bytes]

theorem block_ok (early : Lv → Bool) : ∀ (is : List Inst), (∀ i ∈ is, InstOK i) → ∀ (m : Mem) (ts : Nat → List Nat) (k : Nat),
    ∃ ts' tr, runBlock (tstep early) (m, ts) (trBlock k is).1 = (((runBlock (step (when early)) m is).1, ts'), tr) ∧
      Noted (runBlock (step (when early)) m is).2 tr
  | [], _, _, ts, _ => ⟨ts, [], by simp [trBlock, runBlock], by simpa [runBlock] using Noted.nil⟩
  | i :: is, h, m, ts, k => by
    obtain ⟨ts1, tr1, h1, h1'⟩ := inst_ok early m ts k i (h i (by simp))
    obtain ⟨ts2, tr2, h2, h2'⟩ := block_ok early is (fun j hj => h j (by simp [hj])) (step (when early) m i).1 ts1 (trInst k i).2
    exact ⟨ts2, tr1 ++ tr2, by simp [trBlock, runBlock_append, h1, h2, runBlock], by
      simpa [runBlock] using noted_append h1' h2'⟩

/-- **C146.** The changed program ends when the original one does, with the same memory, and does the same things in the same
order, for an order of evaluation that C allows. Before every write of an object that is not part of a local variable, and after
whatever else is done before it, there are notifications of all of the pointers in the object, with the values that they get,
and of nothing else. -/
theorem notified (early : Lv → Bool) : ∀ (n : Nat) (p : Stmt Inst), StmtOK p → ∀ (m : Mem) (ts : Nat → List Nat) (k : Nat),
    match runOrig (when early) n m p with
    | none => runNew early n (m, ts) (trStmt k p).1 = none
    | some (m', l) => ∃ ts' l', runNew early n (m, ts) (trStmt k p).1 = some ((m', ts'), l') ∧ Noted l l'
  | 0, _, _, _, _, _ => by simp [runOrig, runNew, run]
  | n + 1, .block is, h, m, ts, k => by
    obtain ⟨ts1, tr1, h1, h1'⟩ := block_ok early is h m ts k
    simp only [runOrig, run]
    exact ⟨ts1, tr1, by simp [runNew, trStmt, run, h1], h1'⟩
  | n + 1, .seq a b, h, m, ts, k => by
    have iha := notified early n a h.1 m ts k
    simp only [runOrig, runNew] at iha
    simp only [runOrig, runNew, run, trStmt]
    cases ha : run (step (when early)) id n m a with
    | none => rw [ha] at iha; simp only [iha]
    | some r =>
      obtain ⟨m1, l1⟩ := r
      rw [ha] at iha
      obtain ⟨ts1, l1', h1, h1'⟩ := iha
      have ihb := notified early n b h.2 m1 ts1 (trStmt k a).2
      simp only [runOrig, runNew] at ihb
      rw [h1]
      cases hb : run (step (when early)) id n m1 b with
      | none => rw [hb] at ihb; simp only [ihb, hb]
      | some r =>
        obtain ⟨m2, l2⟩ := r
        rw [hb] at ihb
        obtain ⟨ts2, l2', h2, h2'⟩ := ihb
        simp only [hb, h2]
        exact ⟨ts2, l1' ++ l2', rfl, noted_append h1' h2'⟩
  | n + 1, .ite c a b, h, m, ts, k => by
    simp only [runOrig, runNew, run, trStmt, id]
    by_cases hc : c m = true
    · simp only [hc, if_true]
      exact notified early n a h.1 m ts k
    · simp only [hc, if_false]
      exact notified early n b h.2 m ts (trStmt k a).2
  | n + 1, .loop c a, h, m, ts, k => by
    simp only [runOrig, runNew, run, trStmt, id]
    by_cases hc : c m = true
    · simp only [hc, if_true]
      have iha := notified early n a h m ts k
      simp only [runOrig, runNew] at iha
      cases ha : run (step (when early)) id n m a with
      | none => rw [ha] at iha; simp only [iha]
      | some r =>
        obtain ⟨m1, l1⟩ := r
        rw [ha] at iha
        obtain ⟨ts1, l1', h1, h1'⟩ := iha
        have ihb := notified early n (.loop c a) h m1 ts1 k
        simp only [runOrig, runNew, trStmt] at ihb
        rw [h1]
        cases hb : run (step (when early)) id n m1 (.loop c a) with
        | none => rw [hb] at ihb; simp only [ihb, hb]
        | some r =>
          obtain ⟨m2, l2⟩ := r
          rw [hb] at ihb
          obtain ⟨ts2, l2', h2, h2'⟩ := ihb
          simp only [hb, h2]
          exact ⟨ts2, l1' ++ l2', rfl, noted_append h1' h2'⟩
    · simp only [hc]
      exact ⟨ts, [], rfl, .nil⟩

/-! ## What a store does -/

theorem put_below : ∀ (bs : List Nat) (m : Mem) (a x : Nat), x < a → put m a bs x = m x
  | [], _, _, _, _ => rfl
  | b :: bs, m, a, x, h => by
    rw [put, put_below bs _ (a + 1) x (by omega)]
    simp [show x ≠ a by omega]

theorem put_at : ∀ (bs : List Nat) (m : Mem) (a x : Nat), a ≤ x → put m a bs x = (bs[x - a]?).getD (m x)
  | [], _, _, _, _ => by simp [put]
  | b :: bs, m, a, x, h => by
    rw [put]
    by_cases e : x = a
    · subst e; rw [put_below _ _ _ _ (by omega)]; simp
    · rw [put_at bs _ (a + 1) x (by omega)]
      simp only [e, if_false]
      rw [show x - a = (x - (a + 1)) + 1 by omega, List.getElem?_cons_succ]

/-- Memory is changed to `bs` at `a`, and nowhere else. -/
structure Stored (m : Mem) (a : Nat) (bs : List Nat) (m' : Mem) : Prop where
  there : ∀ i b, bs[i]? = some b → m' (a + i) = b
  elsewhere : ∀ x, x < a ∨ a + bs.length ≤ x → m' x = m x

theorem put_stored (m : Mem) (a : Nat) (bs : List Nat) : Stored m a bs (put m a bs) := by
  constructor
  · intro i b h
    rw [put_at _ _ _ _ (by omega), show a + i - a = i by omega, h]
    rfl
  · rintro x (h | h)
    · exact put_below _ _ _ _ h
    · rw [put_at _ _ _ _ (by omega), List.getElem?_eq_none (by omega)]
      rfl

theorem get_getElem (m : Mem) : ∀ (n a i : Nat), i < n → (get m a n)[i]? = some (m (a + i))
  | 0, _, _, h => by omega
  | n + 1, a, 0, _ => by simp [get]
  | n + 1, a, i + 1, h => by
    rw [get, List.getElem?_cons_succ, get_getElem m n (a + 1) i (by omega)]
    congr 2
    omega

/-- The writes that `notified` is about are stores: an assignment changes memory to the bytes that are said to be written, at the
place that is said, and leaves the rest as it was; when one object is assigned to another then these are the bytes of the first.
What a function gives is stored likewise into the memory that it left, at the place that the lvalue denoted before or after the call. -/
theorem writes_stored (early : Lv → Bool) (m : Mem) (l : Lv) :
    (∀ e, ∃ bs, (step early m (.set l e)).2 = [.write l.loc l.ty (l.addr m) bs] ∧ Stored m (l.addr m) bs (step early m (.set l e)).1 ∧
      ∀ r, e = .lval r → bs.length = l.ty.size ∧ ∀ i, i < l.ty.size → bs[i]? = some (m (r.addr m + i))) ∧
    (∀ f, ∃ a bs, (step early m (.callTo l f)).2 = (f m).2.2.map .theirs ++ [.write l.loc l.ty a bs] ∧ bs = (f m).2.1 ∧
      Stored (f m).1 a bs (step early m (.callTo l f)).1 ∧ (early l = true → a = l.addr m) ∧ (early l = false → a = l.addr (f m).1)) := by
  refine ⟨fun e => ⟨_, rfl, put_stored _ _ _, ?_⟩, fun f => ⟨_, _, rfl, rfl, put_stored _ _ _, ?_, ?_⟩⟩
  · rintro r rfl
    exact ⟨get_length _ _ _, fun i hi => get_getElem _ _ _ _ hi⟩
  · intro h; simp [h]
  · intro h; simp [h]

/-! ## An example

`struct n { struct n *next; int k; void *a[2]; }` of 32 bytes. `*p = q;` in a loop that runs once, with `*p` at 1000 and `q`, a
local variable, at 2000; then `g = f();` with `g`, a global pointer, at 16. -/

def exNode : Ty := .comp 32 (.cons 0 .ptr (.cons 8 (.other 4) (.cons 16 (.arr .ptr (some 2)) .nil)))

def exProg : Stmt Inst :=
  .seq
    (.loop (fun m => m 500 = 0)
      (.block [.set ⟨false, .named exNode, fun _ => 1000⟩ (.lval ⟨true, .named exNode, fun _ => 2000⟩),
        .set ⟨true, .other 1, fun _ => 500⟩ (.val fun _ => [1])]))
    (.block [.callTo ⟨false, .ptr, fun _ => 16⟩ (fun m => (m, [9, 8, 7, 6, 5, 4, 3, 2], [77]))])

theorem exProg_ok : StmtOK exProg := by
  simp [exProg, StmtOK, InstOK, WF, exNode, WFs, Ty.size]

/-- The notifications of the example, in order, and how many other things there are. -/
def exSeen : Option (List Ev × Nat) :=
  match runNew (fun _ => true) 9 ((fun a => if a < 1000 then 0 else a % 256), fun _ => []) (trStmt 0 exProg).1 with
  | none => none
  | some (_, l) =>
    some (l.filterMap (fun t => match t with | .note e => some e | _ => none),
      (l.filter (fun t => match t with | .note _ => false | _ => true)).length)

theorem exSeen_ok : exSeen = some ([.copy 1016 [224, 225, 226, 227, 228, 229, 230, 231, 232, 233, 234, 235, 236, 237, 238, 239],
    .ptrWrite 1000 [208, 209, 210, 211, 212, 213, 214, 215], .ptrWrite 16 [9, 8, 7, 6, 5, 4, 3, 2]], 4) := by
  decide +kernel

/-- The pointers of the example are where they should be: two in the array. -/
theorem exNode_ptrs : PtrAt (.named exNode) 0 ∧ PtrAt (.named exNode) 24 := by
  refine ⟨.named ?_, .named ?_⟩
  · exact PtrAt.field (off := 0) (o := 0) (t := .ptr) (by simp [InF]) .ptr
  · exact PtrAt.field (off := 16) (o := 8) (t := .arr .ptr (some 2)) (by simp [InF])
      (PtrAt.elem (t := .ptr) (n := 2) (i := 1) (o := 0) (by omega) .ptr)

end Liballocs.TrapWrites
