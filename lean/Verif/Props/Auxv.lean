import Verif.Model.Auxv
/- C47: start-up-area queries. -/
namespace Liballocs.Auxv

/-! ### Specification -/

/-- The layout the kernel makes (System V ABI): argc, argv, NULL, envp, NULL, auxv, AT_NULL, then
the strings. -/
structure Wf (l : Layout) : Prop where
  argv : l.argvStart = l.argcp + 8
  argvLen : l.argvTerm = l.argvStart + 8 * l.argc
  env : l.envStart = l.argvTerm + 8
  envLen : l.envStart ≤ l.envTerm ∧ (l.envTerm - l.envStart) % 8 = 0
  auxv : l.auxvStart = l.envTerm + 8
  auxvLen : l.auxvStart ≤ l.auxvTerm ∧ (l.auxvTerm - l.auxvStart) % 16 = 0
  asciiz : l.auxvTerm + 16 ≤ l.asciizStart
  asciizLen : l.asciizStart < l.asciizEnd

/-- One object of the start-up area: where it is, the size of its last element (the terminator, for
vectors; a single byte for the strings) and of each element. -/
structure Obj where
  base : Nat
  size : Nat
  elem : Elem
  elemSize : Nat
deriving DecidableEq, Repr

/-- The five objects. -/
def objects (l : Layout) : List Obj :=
  [⟨l.argcp, 8, .intptr, 8⟩,
   ⟨l.argvStart, l.argvTerm + 8 - l.argvStart, .charPtr, 8⟩,
   ⟨l.envStart, l.envTerm + 8 - l.envStart, .charPtr, 8⟩,
   ⟨l.auxvStart, l.auxvTerm + 16 - l.auxvStart, .auxv, 16⟩,
   ⟨l.asciizStart, l.asciizEnd - l.asciizStart, .char, 1⟩]

def Obj.contains (o : Obj) (a : Nat) : Prop := o.base ≤ a ∧ a < o.base + o.size

/-- Strictly inside the last element. -/
def Obj.inLast (o : Obj) (a : Nat) : Prop := o.base + o.size - o.elemSize < a

/-- C47 (partial): every byte of every object is reported with that object's base, size and element
type — except the bytes after the first of a vector's terminator — and addresses in no object are
not reported, except the byte just past the strings. -/
theorem auxv_query_partial (l : Layout) (hw : Wf l) (a : Nat) :
    (∀ o ∈ objects l, o.contains a → ¬ (o.elem ≠ .intptr ∧ o.inLast a) →
      ∃ i, getInfo l a = some i ∧ i.base = o.base ∧ i.size = o.size ∧ i.type.elem = o.elem) ∧
    ((∀ o ∈ objects l, ¬ o.contains a) → a ≠ l.asciizEnd → getInfo l a = none) := by
  obtain ⟨h1, h2, h3, ⟨h4, h4'⟩, h5, ⟨h6, h6'⟩, h7, h8⟩ := hw
  have ea : (l.auxvTerm + 16 - l.auxvStart) / 16 * 16 = l.auxvTerm + 16 - l.auxvStart := by omega
  have eb : (l.argvTerm + 8 - l.argvStart) / 8 * 8 = l.argvTerm + 8 - l.argvStart := by omega
  have ec : (l.envTerm + 8 - l.envStart) / 8 * 8 = l.envTerm + 8 - l.envStart := by omega
  constructor
  · intro o ho hc hl
    simp only [objects, List.mem_cons, List.not_mem_nil, or_false] at ho
    unfold getInfo
    rw [ea, eb, ec]
    rcases ho with h | h | h | h | h <;> subst h <;> simp only [Obj.contains, Obj.inLast, ne_eq,
      not_true_eq_false, false_and, not_false_eq_true, true_and, reduceCtorEq] at hc hl
    · rw [if_neg (by omega), if_neg (by omega), if_neg (by omega), if_neg (by omega), if_pos (by omega)]
      exact ⟨_, rfl, rfl, rfl, rfl⟩
    · rw [if_neg (by omega), if_pos (by omega)]
      exact ⟨_, rfl, rfl, rfl, rfl⟩
    · rw [if_neg (by omega), if_neg (by omega), if_pos (by omega)]
      exact ⟨_, rfl, rfl, rfl, rfl⟩
    · rw [if_pos (by omega)]
      exact ⟨_, rfl, rfl, rfl, rfl⟩
    · rw [if_neg (by omega), if_neg (by omega), if_neg (by omega), if_pos (by omega)]
      exact ⟨_, rfl, rfl, rfl, rfl⟩
  · intro hn hne
    simp only [objects, List.mem_cons, List.not_mem_nil, or_false, forall_eq_or_imp, forall_eq,
      Obj.contains] at hn
    unfold getInfo
    rw [if_neg (by omega), if_neg (by omega), if_neg (by omega), if_neg (by omega), if_neg (by omega)]

/-- C47 (types): the reported array type has as many elements as the object, for argv, auxv, the
strings and argc. -/
theorem auxv_type_count_partial (l : Layout) (hw : Wf l) (a : Nat) (o : Obj) (ho : o ∈ objects l)
    (hnenv : o.base ≠ l.envStart) (hc : o.contains a) (hl : ¬ (o.elem ≠ .intptr ∧ o.inLast a)) :
    ∃ i, getInfo l a = some i ∧ i.type.count * o.elemSize = i.size := by
  obtain ⟨i, h1, h2, h3, h4⟩ := (auxv_query_partial l hw a).1 o ho hc hl
  refine ⟨i, h1, ?_⟩
  obtain ⟨w1, w2, w3, ⟨w4, w4'⟩, w5, ⟨w6, w6'⟩, w7, w8⟩ := hw
  simp only [objects, List.mem_cons, List.not_mem_nil, or_false] at ho
  unfold getInfo at h1
  rcases ho with h | h | h | h | h <;> subst h <;> simp only [ne_eq, not_true_eq_false] at h2 h3 h4 hnenv ⊢ <;>
    (split at h1
     · cases h1; simp only [auxvTy] at h2 h3 h4 ⊢; first | done | omega | cases h4
     · split at h1
       · cases h1; simp only [argvTy] at h2 h3 h4 ⊢; first | done | omega | cases h4
       · split at h1
         · cases h1; simp only [envTy] at h2 h3 h4 ⊢; first | done | omega | cases h4
         · split at h1
           · cases h1; simp only [asciizTy] at h2 h3 h4 ⊢; first | done | omega | cases h4
           · split at h1
             · cases h1; simp only at h2 h3 h4 ⊢; first | done | omega | cases h4
             · cases h1)

/-- A process with two arguments, three environment strings, four auxiliary entries. -/
def sample : Layout :=
  { argcp := 0x1000, argc := 2, argvStart := 0x1008, argvTerm := 0x1018, envStart := 0x1020,
    envTerm := 0x1038, auxvStart := 0x1040, auxvTerm := 0x1080, asciizStart := 0x1100, asciizEnd := 0x1180 }

theorem sample_wf : Wf sample := by
  constructor <;> decide

/-- The last bytes of the environment's terminator belong to the environment vector but are not
reported; one byte past the strings is. -/
theorem auxv_query_fails :
    Wf sample ∧ (∃ o ∈ objects sample, o.contains 0x103c ∧ getInfo sample 0x103c = none) ∧
    (∀ o ∈ objects sample, ¬ o.contains 0x1180) ∧ (getInfo sample 0x1180).isSome := by
  refine ⟨sample_wf, ⟨⟨0x1020, 0x20, .charPtr, 8⟩, by decide, by simp [Obj.contains], by decide⟩, ?_, by decide⟩
  intro o ho
  simp only [objects, sample, List.mem_cons, List.not_mem_nil, or_false] at ho
  rcases ho with h | h | h | h | h <;> subst h <;> simp [Obj.contains]

/-- The environment vector's type always has one element, however many entries there are. -/
theorem env_type_fails (l : Layout) : (envTy l).count = 1 := by
  simp only [envTy]; omega

end Liballocs.Auxv
