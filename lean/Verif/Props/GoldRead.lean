import Verif.Model.GoldRead

/-!
# C178 The plugin adds to a link the types that its inputs use, and all that goes with them
-/

namespace Liballocs.GoldRead

/-! ## What is claimed -/

/-- The bytes are the header of a relocatable ELF file. -/
def RelHeader (b : List Nat) : Prop :=
  b.length = 64 ∧ b[0]? = some 0x7f ∧ b[1]? = some 'E'.toNat ∧ b[2]? = some 'L'.toNat ∧ b[3]? = some 'F'.toNat ∧ b[16]? = some 1 ∧ b[17]? = some 0

/-- What each kind of output needs before anything that is made: dummy definitions in what is not relocatable, and the padding in a program. -/
def needs (e : Env) : List Act :=
  match e.out with
  | .rel => []
  | .dyn => [.addLib (w! "allocs_dummyweaks")]
  | _ => [.addLib (w! "allocs_dummyweaks"), .addFile (join ((e.liballocs).elim [] id) (w! "lib/interp-pad.o"))]

/-- A compilation succeeds: the command does, and there is a file. -/
def Made (e : Env) (l : Label) : Prop := e.cc l = 0 ∧ ∃ n, e.size l = some n

/-- The object is not empty. -/
def objIf (e : Env) (l : Label) : List Text := if e.size l = some 0 then [] else [e.obj l]

/-! ## Names -/

theorem lt_irrefl : ∀ s : Text, lt s s = false
  | [] => rfl
  | a :: s => by simp [lt, lt_irrefl s]

theorem toNat_inj {a b : Char} (h : a.toNat = b.toNat) : a = b := by
  apply Char.ext
  exact UInt32.toNat.inj h

theorem lt_total : ∀ s t : Text, lt s t = false → lt t s = false → s = t
  | [], [], _, _ => rfl
  | [], _ :: _, h, _ => by simp [lt] at h
  | _ :: _, [], _, h => by simp [lt] at h
  | a :: s, b :: t, h1, h2 => by
    rw [lt] at h1 h2
    by_cases hab : a.toNat < b.toNat
    · simp [hab] at h1
    · by_cases hba : b.toNat < a.toNat
      · simp [hba] at h2
      · have e : a.toNat = b.toNat := by omega
        rw [if_neg hab, if_pos e] at h1
        rw [if_neg hba, if_pos e.symm] at h2
        rw [toNat_inj e, lt_total s t h1 h2]

theorem lt_trans : ∀ s t u : Text, lt s t = true → lt t u = true → lt s u = true
  | _, _, [], _, h => by simp [lt] at h
  | _, [], _ :: _, h, _ => by simp [lt] at h
  | [], _ :: _, _ :: _, _, _ => rfl
  | a :: s, b :: t, c :: u, h1, h2 => by
    rw [lt] at h1 h2 ⊢
    by_cases hab : a.toNat < b.toNat
    · have : ¬ c.toNat < b.toNat := by
        intro h
        rw [if_neg (by omega), if_neg (by omega)] at h2
        cases h2
      rw [if_pos (by omega)]
    · rw [if_neg hab] at h1
      by_cases e : a.toNat = b.toNat
      · rw [if_pos e] at h1
        by_cases hbc : b.toNat < c.toNat
        · rw [if_pos (by omega)]
        · rw [if_neg hbc] at h2
          by_cases e2 : b.toNat = c.toNat
          · rw [if_pos e2] at h2
            rw [if_neg (by omega), if_pos (by omega)]
            exact lt_trans s t u h1 h2
          · rw [if_neg e2] at h2
            cases h2
      · rw [if_neg e] at h1
        cases h1

theorem mem_ins (x y : Text) : ∀ l : List Text, y ∈ ins x l ↔ y = x ∨ y ∈ l
  | [] => by simp [ins]
  | z :: l => by
    rw [ins]
    by_cases h1 : lt x z = true
    · rw [if_pos h1]
      simp
    · rw [if_neg h1]
      by_cases h2 : lt z x = true
      · rw [if_pos h2, List.mem_cons, mem_ins x y l, List.mem_cons]
        constructor <;> (rintro (h | h | h) <;> simp [h])
      · rw [if_neg h2]
        have : x = z := lt_total x z (by simpa using h1) (by simpa using h2)
        subst this
        simp

theorem ins_sorted (x : Text) : ∀ l : List Text, l.Pairwise (fun a b => lt a b = true) → (ins x l).Pairwise (fun a b => lt a b = true)
  | [], _ => by simp [ins]
  | z :: l, h => by
    obtain ⟨h1, h2⟩ := List.pairwise_cons.mp h
    rw [ins]
    by_cases hx : lt x z = true
    · rw [if_pos hx]
      refine List.pairwise_cons.mpr ⟨?_, h⟩
      intro b hb
      rcases List.mem_cons.mp hb with rfl | hb
      · exact hx
      · exact lt_trans _ _ _ hx (h1 b hb)
    · rw [if_neg hx]
      by_cases hz : lt z x = true
      · rw [if_pos hz]
        refine List.pairwise_cons.mpr ⟨?_, ins_sorted x l h2⟩
        intro b hb
        rcases (mem_ins x b l).mp hb with rfl | hb
        · exact hz
        · exact h1 b hb
      · rw [if_neg hz]
        exact h

theorem isRel_iff {b : List Nat} (hb : ∀ x ∈ b, x < 256) : isRel b = true ↔ RelHeader b := by
  by_cases hl : b.length = 64
  · have h : ∃ a0 a1 a2 a3 a4 a5 a6 a7 a8 a9 a10 a11 a12 a13 a14 a15 a16 a17 r, b = a0 :: a1 :: a2 :: a3 :: a4 :: a5 :: a6 :: a7 :: a8 :: a9 :: a10 :: a11 :: a12 :: a13 ::
        a14 :: a15 :: a16 :: a17 :: r := by
      match b, hl with
      | a0 :: a1 :: a2 :: a3 :: a4 :: a5 :: a6 :: a7 :: a8 :: a9 :: a10 :: a11 :: a12 :: a13 :: a14 :: a15 :: a16 :: a17 :: r, _ =>
        exact ⟨a0, a1, a2, a3, a4, a5, a6, a7, a8, a9, a10, a11, a12, a13, a14, a15, a16, a17, r, rfl⟩
    obtain ⟨a0, a1, a2, a3, a4, a5, a6, a7, a8, a9, a10, a11, a12, a13, a14, a15, a16, a17, r, rfl⟩ := h
    have h16 := hb a16 (by simp)
    unfold isRel RelHeader
    rw [hl]
    have e : (a16 + 256 * a17 = 1) ↔ (a16 = 1 ∧ a17 = 0) := by omega
    simp [e, and_assoc]
  · unfold isRel RelHeader
    simp [hl]

theorem mem_names (n : Text) : ∀ (l : List In) (acc : List Text), n ∈ names l acc ↔ n ∈ acc ∨ ∃ i ∈ l, i.name = n ∧ isRel i.bytes = true
  | [], acc => by simp [names]
  | i :: l, acc => by
    rw [names, mem_names n l]
    by_cases h : isRel i.bytes = true
    · rw [if_pos h, mem_ins]
      constructor
      · rintro ((rfl | h1) | ⟨j, hj, h2⟩)
        · exact Or.inr ⟨i, by simp, rfl, h⟩
        · exact Or.inl h1
        · exact Or.inr ⟨j, List.mem_cons_of_mem _ hj, h2⟩
      · rintro (h1 | ⟨j, hj, h2, h3⟩)
        · exact Or.inl (Or.inr h1)
        · rcases List.mem_cons.mp hj with rfl | hj
          · exact Or.inl (Or.inl h2.symm)
          · exact Or.inr ⟨j, hj, h2, h3⟩
    · rw [if_neg h]
      constructor
      · rintro (h1 | ⟨j, hj, h2⟩)
        · exact Or.inl h1
        · exact Or.inr ⟨j, List.mem_cons_of_mem _ hj, h2⟩
      · rintro (h1 | ⟨j, hj, h2, h3⟩)
        · exact Or.inl h1
        · rcases List.mem_cons.mp hj with rfl | hj
          · exact absurd h3 h
          · exact Or.inr ⟨j, hj, h2, h3⟩

theorem names_sorted : ∀ (l : List In) (acc : List Text), acc.Pairwise (fun a b => lt a b = true) → (names l acc).Pairwise (fun a b => lt a b = true)
  | [], _, h => h
  | i :: l, acc, h => by
    rw [names]
    refine names_sorted l _ ?_
    split
    · exact ins_sorted _ _ h
    · exact h

/-- **C178.** The types used are sought in just those files of which some part that the linker has read is a relocatable file, each once. -/
theorem used_exact {e : Env} (hb : ∀ i ∈ e.inputs, ∀ x ∈ i.bytes, x < 256) :
    (∀ n, n ∈ names e.inputs [] ↔ ∃ i ∈ e.inputs, i.name = n ∧ RelHeader i.bytes) ∧ (names e.inputs []).Nodup := by
  refine ⟨fun n => ?_, ?_⟩
  · rw [mem_names]
    constructor
    · rintro (h | ⟨i, hi, h1, h2⟩)
      · simp at h
      · exact ⟨i, hi, h1, (isRel_iff (hb i hi)).mp h2⟩
    · rintro ⟨i, hi, h1, h2⟩
      exact Or.inr ⟨i, hi, h1, (isRel_iff (hb i hi)).mpr h2⟩
  · refine (names_sorted e.inputs [] List.Pairwise.nil).imp ?_
    rintro a b h rfl
    rw [lt_irrefl] at h
    cases h

/-! ## What is done -/

theorem compile_made {e : Env} {l : Label} (h : Made e l) : compile e l = (.compile l :: (objIf e l).map .addFile, true) := by
  obtain ⟨h1, n, h2⟩ := h
  unfold compile objIf
  rw [h2]
  by_cases hn : n = 0
  · subst hn
    simp [h1]
  · simp [h1, hn, Nat.pos_of_ne_zero hn]

theorem compile_not {e : Env} {l : Label} (h : ¬ Made e l) : compile e l = ([.compile l], false) := by
  unfold compile
  by_cases h1 : e.cc l = 0
  · cases h2 : e.size l with
    | none => simp [h1]
    | some n => exact absurd ⟨h1, n, h2⟩ h
  · simp [h1]

theorem needs_eq (e : Env) : before e = needs e := by
  unfold before needs
  cases e.out <;> cases e.liballocs <;> simp

/-- **C178.** If all commands succeed then all of it is added, in this order: what the kind of output needs, the types used and the stubs as far as they are not empty, and the
dynamic linker. -/
theorem read_made {e : Env} (hu : usedtypes e.dump (names e.inputs []) = 0) (h1 : Made e .usedtypes) (h2 : Made e .allocstubs) :
    read e = (needs e ++ [.run (names e.inputs [])] ++ .compile .usedtypes :: (objIf e .usedtypes).map .addFile ++ .compile .allocstubs :: (objIf e .allocstubs).map .addFile ++
      [.addFile (w! "/lib64/ld-linux-x86-64.so.2")], true) := by
  unfold read
  simp [compile_made h1, compile_made h2, hu, needs_eq]

/-- **C178.** It comes to its end exactly if all commands succeed. -/
theorem read_iff (e : Env) : (read e).2 = true ↔ usedtypes e.dump (names e.inputs []) = 0 ∧ Made e .usedtypes ∧ Made e .allocstubs := by
  constructor
  · intro h
    by_cases hu : usedtypes e.dump (names e.inputs []) = 0
    · by_cases h1 : Made e .usedtypes
      · by_cases h2 : Made e .allocstubs
        · exact ⟨hu, h1, h2⟩
        · unfold read at h
          simp [compile_made h1, compile_not h2, hu] at h
      · unfold read at h
        simp [compile_not h1, hu] at h
    · unfold read at h
      simp [hu] at h
  · rintro ⟨hu, h1, h2⟩
    rw [read_made hu h1 h2]

/-- **C178.** The first command that fails is the last that is run, and nothing is added after it. -/
theorem read_stops (e : Env) (h : (read e).2 = false) : ∃ l a, (read e).1 = l ++ [a] ∧
    ((a = .run (names e.inputs []) ∧ usedtypes e.dump (names e.inputs []) ≠ 0) ∨ ∃ k, a = .compile k ∧ ¬ Made e k) := by
  by_cases hu : usedtypes e.dump (names e.inputs []) = 0
  · by_cases h1 : Made e .usedtypes
    · by_cases h2 : Made e .allocstubs
      · rw [(read_iff e).mpr ⟨hu, h1, h2⟩] at h
        cases h
      · refine ⟨needs e ++ [.run (names e.inputs [])] ++ .compile .usedtypes :: (objIf e .usedtypes).map .addFile, .compile .allocstubs, ?_, Or.inr ⟨_, rfl, h2⟩⟩
        unfold read
        simp [compile_made h1, compile_not h2, hu, needs_eq]
    · refine ⟨needs e ++ [.run (names e.inputs [])], .compile .usedtypes, ?_, Or.inr ⟨_, rfl, h1⟩⟩
      unfold read
      simp [compile_not h1, hu, needs_eq]
  · refine ⟨needs e, _, ?_, Or.inl ⟨rfl, hu⟩⟩
    unfold read
    simp [hu, needs_eq]

/-- **C178 fails** for a link without a relocatable input, say of files for the linker's own optimiser or of shared libraries only: the program that seeks the types wants a
name, and the link is aborted. -/
theorem none_aborts {e : Env} (h : ∀ i ∈ e.inputs, isRel i.bytes = false) : (read e).2 = false := by
  have hn : names e.inputs [] = [] := by
    refine List.eq_nil_iff_forall_not_mem.mpr (fun n hn => ?_)
    rcases (mem_names n e.inputs []).mp hn with h1 | ⟨i, hi, _, h2⟩
    · simp at h1
    · rw [h i hi] at h2
      cases h2
  cases hr : (read e).2 with
  | false => rfl
  | true =>
    have := ((read_iff e).mp hr).1
    rw [hn] at this
    simp [usedtypes] at this

theorem mem_added (t : Text) : ∀ l : List Act, t ∈ added l ↔ Act.addFile t ∈ l
  | [] => by simp [added]
  | .addFile u :: l => by simp [added, mem_added t l]
  | .addLib u :: l => by simp [added, mem_added t l]
  | .run u :: l => by simp [added, mem_added t l]
  | .compile u :: l => by simp [added, mem_added t l]

/-- **C178 fails** for a relocatable output: the dynamic linker is added to that as well, and a shared library cannot be linked to it. -/
theorem rel_never {e : Env} (h : (read e).2 = true) (E : Text → TwoLinks.Input) {ds : List Nat} (hE : E (w! "/lib64/ld-linux-x86-64.so.2") = .shared ds) (objs : List TwoLinks.Input) :
    TwoLinks.relocatable (objs ++ (added (read e).1).map E) = none := by
  obtain ⟨hu, h1, h2⟩ := (read_iff e).mp h
  unfold TwoLinks.relocatable
  refine if_pos (List.any_eq_true.mpr ⟨E (w! "/lib64/ld-linux-x86-64.so.2"), List.mem_append_right _ (List.mem_map_of_mem ?_), ?_⟩)
  · rw [mem_added, read_made hu h1 h2]
    simp
  · rw [hE]

/-- The file `f` of directory `d`: one slash between them, whether or not the directory's name ends in one, and the file
alone if there is no directory. -/
inductive Under : Text → Text → Text → Prop
  | here (f : Text) : Under [] f f
  | slash (d f : Text) : Under (d ++ ['/']) f (d ++ ['/'] ++ f)
  | bare (d f : Text) (c : Char) : c ≠ '/' → Under (d ++ [c]) f (d ++ [c] ++ ['/'] ++ f)

/-- The padding that is added is the file of that name in the directory given. -/
theorem join_under (d f r : Text) : join d f = r ↔ Under d f r := by
  have hj : Under d f (join d f) := by
    rcases List.eq_nil_or_concat d with rfl | ⟨d0, c, rfl⟩
    · exact .here f
    · by_cases hc : c = '/'
      · subst hc
        have : join (d0.concat '/') f = d0 ++ ['/'] ++ f := by simp [join]
        rw [this, List.concat_eq_append]
        exact .slash d0 f
      · have : join (d0.concat c) f = d0 ++ [c] ++ ['/'] ++ f := by simp [join, hc]
        rw [this, List.concat_eq_append]
        exact .bare d0 f c hc
  constructor
  · rintro rfl; exact hj
  · intro h
    cases h with
    | here => simp [join]
    | slash d => simp [join]
    | bare d _ c hc => simp [join, hc]

/-! ## Cases -/

def hdr (t : Nat) : List Nat := [0x7f, 0x45, 0x4c, 0x46] ++ List.replicate 12 0 ++ [t, 0] ++ List.replicate 46 0

def env : Env where
  out := .pie
  liballocs := some (w! "/la")
  inputs := [⟨w! "m.o", 0, hdr 1⟩, ⟨w! "l.a", 68, hdr 1⟩, ⟨w! "l.a", 1000, hdr 1⟩, ⟨w! "libc.so", 0, hdr 3⟩, ⟨w! "a.o", 0, hdr 1⟩, ⟨w! "s.ld", 0, [0x2f, 0x2a]⟩]
  dump _ := 0
  cc _ := 0
  size l := match l with | .usedtypes => some 0 | .allocstubs => some 1000
  obj l := match l with | .usedtypes => w! "/tmp/u.o" | .allocstubs => w! "/tmp/s.o"

/-- Both members of `l.a` are read, and the archive is named once. -/
theorem case_read : read env = ([.addLib (w! "allocs_dummyweaks"), .addFile (w! "/la/lib/interp-pad.o"), .run [w! "a.o", w! "l.a", w! "m.o"], .compile .usedtypes,
    .compile .allocstubs, .addFile (w! "/tmp/s.o"), .addFile (w! "/lib64/ld-linux-x86-64.so.2")], true) := by decide +kernel

theorem case_fails : read { env with cc := fun l => if l = .usedtypes then 1 else 0 } = ([.addLib (w! "allocs_dummyweaks"), .addFile (w! "/la/lib/interp-pad.o"),
    .run [w! "a.o", w! "l.a", w! "m.o"], .compile .usedtypes], false) := by decide +kernel

/-- **C178 fails** without the variable: the padding is sought in the current directory. -/
theorem unset_fails : (read { env with liballocs := none }).1[1]? = some (.addFile (w! "lib/interp-pad.o")) := by decide +kernel

end Liballocs.GoldRead
