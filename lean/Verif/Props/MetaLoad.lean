import Verif.Model.MetaLoad
import Verif.Props.TypeNames
/-! Properties of the loading of one object's metadata. -/
namespace Liballocs.MetaLoad

open TypeNames (Text cstr cstr_drop)

private theorem suffix_eq : suffix = "-meta.so".toList := by decide +kernel

/-- An object with an absolute name is passed over exactly if its name is the metadata directory's or ends `-meta.so`; what lies
in memory before a short name does not matter. -/
theorem skipped_exact (m : Text) (i : Nat) (metaBase : Text) (habs : (cstr m i).head? = some '/')
    (hb : 8 ≤ i + (cstr m i).length) :
    skipped m i metaBase = some (decide (cstr m i = metaBase ∨ "-meta.so".toList <:+ cstr m i)) := by
  unfold skipped
  simp only
  by_cases he : cstr m i = metaBase
  · rw [if_pos he]; simp [he]
  · rw [if_neg he, if_neg (by omega)]
    simp only [he, false_or]
    congr 1
    rw [decide_eq_decide, ← suffix_eq]
    by_cases hl : 8 ≤ (cstr m i).length
    · rw [show i + (cstr m i).length - 8 = i + ((cstr m i).length - 8) by omega, cstr_drop m i _ (by omega)]
      constructor
      · intro h
        exact ⟨(cstr m i).take ((cstr m i).length - 8), by rw [← h, List.take_append_drop]⟩
      · rintro ⟨t, ht⟩
        have htl : t.length = (cstr m i).length - 8 := by
          have := congrArg List.length ht
          rw [List.length_append] at this
          simp [suffix] at this
          omega
        rw [← ht] at htl ⊢
        rw [← htl]
        simp
    · constructor
      · intro h
        exfalso
        have hd := cstr_drop m (i + (cstr m i).length - 8) (8 - (cstr m i).length) (by
          rw [h]; simp [suffix])
        rw [show i + (cstr m i).length - 8 + (8 - (cstr m i).length) = i by omega, h] at hd
        rw [hd] at habs
        have : ∀ k, k < 9 → ¬ (suffix.drop k).head? = some '/' := by decide
        exact this (8 - (cstr m i).length) (by omega) habs
      · intro h
        exfalso
        have := h.length_le
        simp [suffix] at this
        omega

/-- An object below the metadata directory is not passed over for that: only the directory's own name is compared. -/
theorem below_base_fails :
    ∃ (m base : Text), base <+: cstr m 8 ∧ cstr m 8 ≠ base ∧ skipped m 8 base = some false :=
  ⟨"xxxxxxxx/usr/lib/meta/x.so".toList, "/usr/lib/meta".toList, by decide +kernel, by decide +kernel, by decide +kernel⟩

/-- How many more times the first event occurs than the second. -/
def balance (a b : Event) (l : List Event) : Int := (l.count a : Int) - (l.count b : Int)

/-- The first event never has fewer occurrences than the second, at any point. -/
def Ordered (a b : Event) (l : List Event) : Prop := ∀ k, 0 ≤ balance a b (l.take k)

instance (l : List Event) (a b : Event) : Decidable (∀ k, k < l.length + 1 → 0 ≤ balance a b (l.take k)) :=
  Nat.decidableBallLT _ _

private theorem ordered_of (a b : Event) (l : List Event) (h : ∀ k, k < l.length + 1 → 0 ≤ balance a b (l.take k)) :
    Ordered a b l := by
  intro k
  by_cases hk : k < l.length + 1
  · exact h k hk
  · rw [List.take_of_length_le (by omega)]
    have := h l.length (by omega)
    rwa [List.take_length] at this

/-- Whatever the environment answers, the descriptor, the path and the name taken are each given back once, and not before they
were taken. -/
theorem no_leak (e : Env) :
    (balance .openFd .closeFd (load e).2 = 0 ∧ Ordered .openFd .closeFd (load e).2)
    ∧ (balance .allocPath .freePath (load e).2 = 0 ∧ Ordered .allocPath .freePath (load e).2)
    ∧ (balance .allocName .freeName (load e).2 = 0 ∧ Ordered .allocName .freeName (load e).2) := by
  obtain ⟨f, p, r, c, a, l, s, k⟩ := e
  cases f <;> cases p <;> cases r <;> cases c <;> cases a <;> cases l <;> cases s <;> cases k <;>
    (simp only [load, reduceCtorEq, ↓reduceIte, Bool.false_eq_true, Bool.true_eq_false, List.append_nil, List.cons_append,
      List.nil_append]; exact ⟨⟨by decide, ordered_of _ _ _ (by decide)⟩, ⟨by decide, ordered_of _ _ _ (by decide)⟩,
      ⟨by decide, ordered_of _ _ _ (by decide)⟩⟩)

/-- The descriptor is open, and the name held, when the dynamic linker is asked for a loaded object; a handle is recorded exactly
if there is one to record; and the reference the linker counts is kept exactly if this call loaded the object. -/
theorem handle_exact (e : Env) :
    (load e).1 = (if e.found = true ∧ e.printed = true ∧ e.real = true ∧ e.copied = true
      then e.already.or e.loads else none)
    ∧ (balance .dlopen .dlclose (load e).2
      = if e.found = true ∧ e.printed = true ∧ e.real = true ∧ e.copied = true ∧ e.already = none ∧ e.loads.isSome = true
        then 1 else 0) := by
  obtain ⟨f, p, r, c, a, l, s, k⟩ := e
  cases f <;> cases p <;> cases r <;> cases c <;> cases a <;> cases l <;> cases s <;> cases k <;>
    exact ⟨by simp [load], by simp [load, balance]⟩

/-- The scan and the hook run once each, after loading, exactly if they exist and this call loaded the object. -/
theorem hooks_exact (e : Env) :
    (load e).2.count .scan = (if e.hasScan = true ∧ balance .dlopen .dlclose (load e).2 = 1 then 1 else 0)
    ∧ (load e).2.count .hook = (if e.hasHook = true ∧ balance .dlopen .dlclose (load e).2 = 1 then 1 else 0)
    ∧ Ordered .dlopen .scan (load e).2 ∧ Ordered .dlopen .hook (load e).2 := by
  obtain ⟨f, p, r, c, a, l, s, k⟩ := e
  cases f <;> cases p <;> cases r <;> cases c <;> cases a <;> cases l <;> cases s <;> cases k <;>
    (simp only [load, reduceCtorEq, ↓reduceIte, Bool.false_eq_true, Bool.true_eq_false, List.append_nil, List.cons_append,
      List.nil_append]; exact ⟨by decide, by decide, ordered_of _ _ _ (by decide), ordered_of _ _ _ (by decide)⟩)

/-- Metadata of metadata is never loaded: for an object whose name ends `-meta.so` nothing is done at all. -/
theorem meta_of_meta (m : Text) (i : Nat) (metaBase : Text) (e : Env) (habs : (cstr m i).head? = some '/')
    (h : "-meta.so".toList <:+ cstr m i) : loadOne m i metaBase e = some (none, []) := by
  have hl := h.length_le
  rw [← suffix_eq] at hl
  simp [suffix] at hl
  unfold loadOne
  rw [skipped_exact m i metaBase habs (by omega), decide_eq_true (Or.inr h)]

/-- Any other object's metadata is looked for. -/
theorem others_loaded_partial (m : Text) (i : Nat) (metaBase : Text) (e : Env) (habs : (cstr m i).head? = some '/')
    (hb : 8 ≤ i + (cstr m i).length) (h : ¬ "-meta.so".toList <:+ cstr m i) (hm : cstr m i ≠ metaBase) :
    loadOne m i metaBase e = some (load e) := by
  unfold loadOne
  rw [skipped_exact m i metaBase habs hb, decide_eq_false (by
    rintro (h1 | h1)
    · exact hm h1
    · exact h h1)]

/-- A short name at the beginning of readable memory makes the check read before it. -/
theorem short_fails : skipped "/a".toList 0 "/usr/lib/meta".toList = none := by decide +kernel

example : loadOne "/lib/libm.so".toList 0 "/usr/lib/meta".toList ⟨true, true, true, true, none, some 7, false, true⟩
    = some (some 7, [.openFd, .allocPath, .allocName, .closeFd, .dlopen, .freeName, .freePath, .hook]) := by decide +kernel

/-- The types are looked through before the hook is called. -/
example : loadOne "/lib/libm.so".toList 0 "/usr/lib/meta".toList ⟨true, true, true, true, none, some 7, true, true⟩
    = some (some 7, [.openFd, .allocPath, .allocName, .closeFd, .dlopen, .freeName, .freePath, .scan, .hook]) := by decide +kernel

end Liballocs.MetaLoad
