import Verif.Model.TypedAlloc
/-! # C187: The sizes that typed allocation functions allocate -/
namespace Liballocs.TypedAlloc

open CcArgs

/-! ## Types -/

/-- A type stands for another, by typedefs and qualifiers. -/
inductive Means : Ty → Ty → Prop
  | refl (t : Ty) : Means t t
  | step {t u : Ty} : Means t u → Means (.alias t) u

/-- How large the objects of a type are. -/
inductive Size : Ty → Nat → Prop
  | sized (n : Nat) : Size (.sized n) n
  | ptr (t : Ty) : Size (.ptr t) 8
  | alias {t : Ty} {n : Nat} : Size t n → Size (.alias t) n

/-- A function's return type is, by any typedefs, a pointer to a type of a size. -/
def Allocates (r : Ty) (n : Nat) : Prop := ∃ t, Means r (.ptr t) ∧ Size t n

theorem means_concrete : ∀ t, Means t (concrete t)
  | .alias t => .step (means_concrete t)
  | .void => .refl _
  | .ptr _ => .refl _
  | .sized _ => .refl _
  | .opaque => .refl _

theorem means_ptr {r t : Ty} (h : Means r (.ptr t)) : concrete r = .ptr t := by
  generalize e : Ty.ptr t = p at h
  induction h with
  | refl u => subst e; rfl
  | step _ ih => rw [concrete]; exact ih e

theorem size_iff : ∀ (t : Ty) (n : Nat), byteSize (concrete t) = some n ↔ Size t n
  | .alias t, n => by
    rw [concrete, size_iff t n]
    exact ⟨.alias, fun h => by cases h; assumption⟩
  | .void, n => ⟨fun h => (by cases h), fun h => (by cases h)⟩
  | .opaque, n => ⟨fun h => (by cases h), fun h => (by cases h)⟩
  | .sized m, n => ⟨fun h => by cases h; exact .sized _, fun h => by cases h; rfl⟩
  | .ptr t, n => ⟨fun h => by cases h; exact .ptr _, fun h => by cases h; rfl⟩

/-- A unit's line has the size of what the function returns a pointer to; there is none just when the unit has no such function, or there is no such size. -/
theorem printed_iff (e : Option Entry) (n : Nat) : printed e = some n ↔ ∃ r, e = some (.fn r) ∧ Allocates r n := by
  constructor
  · intro h
    unfold printed at h
    split at h
    · rename_i r
      split at h
      · rename_i t ht
        exact ⟨r, rfl, t, by rw [← ht]; exact means_concrete r, (size_iff t n).1 h⟩
      · cases h
    · cases h
  · rintro ⟨r, rfl, t, h1, h2⟩
    simp only [printed, means_ptr h1]
    exact (size_iff t n).2 h2

theorem mem_run {n : Nat} : ∀ {l : List (Option (List (Option Entry)))}, n ∈ run l ↔ ∃ cus, some cus ∈ l ∧ ∃ r, some (.fn r) ∈ cus ∧ Allocates r n
  | [] => by simp [run]
  | none :: l => by rw [run, mem_run (l := l)]; simp
  | some cus :: l => by
    rw [run, List.mem_append, List.mem_filterMap, mem_run (l := l)]
    constructor
    · rintro (⟨e, he, hp⟩ | ⟨c, hc, h⟩)
      · obtain ⟨r, rfl, ha⟩ := (printed_iff e n).1 hp
        exact ⟨cus, List.mem_cons_self, r, he, ha⟩
      · exact ⟨c, List.mem_cons_of_mem _ hc, h⟩
    · rintro ⟨c, hc, r, hr, ha⟩
      rcases List.mem_cons.1 hc with e | hc
      · cases e; exact Or.inl ⟨_, hr, (printed_iff _ n).2 ⟨r, rfl, ha⟩⟩
      · exact Or.inr ⟨c, hc, r, hr, ha⟩

/-! ## What the wrapper takes -/

/-- Some object that is linked has, in some unit, a function of the name that returns a pointer to objects of the size. -/
def Known (load : List Char → Option (List (Option Entry))) (args : List (List Char)) (n : Nat) : Prop :=
  ∃ base cus r, base ++ ['.', 'o'] ∈ args ∧ load (base ++ ['.', 'o']) = some cus ∧ some (.fn r) ∈ cus ∧ Allocates r n

theorem isObj_iff (a : List Char) : isObj a = true ↔ ∃ base, a = base ++ ['.', 'o'] := by
  unfold isObj
  rw [List.isPrefixOf_iff_prefix]
  constructor
  · rintro ⟨t, h⟩
    refine ⟨t.reverse, ?_⟩
    have := congrArg List.reverse h
    simpa using this.symm
  · rintro ⟨b, rfl⟩
    exact ⟨b.reverse, by simp⟩

theorem mem_sizes {load : List Char → Option (List (Option Entry))} {args : List (List Char)} {n : Nat} :
    n ∈ run ((args.filter isObj).map load) ↔ Known load args n := by
  rw [mem_run]
  constructor
  · rintro ⟨cus, hc, r, hr, ha⟩
    obtain ⟨a, hm, e⟩ := List.mem_map.1 hc
    obtain ⟨h1, h2⟩ := List.mem_filter.1 hm
    obtain ⟨b, rfl⟩ := (isObj_iff a).1 h2
    exact ⟨b, cus, r, h1, e, hr, ha⟩
  · rintro ⟨b, cus, r, h1, h2, h3, h4⟩
    exact ⟨cus, List.mem_map.2 ⟨_, List.mem_filter.2 ⟨h1, (isObj_iff _).2 ⟨b, rfl⟩⟩, h2⟩, r, h3, h4⟩

/-- The size that is taken is one that a function of the name allocates in an object that is linked. -/
theorem size_sound {load : List Char → Option (List (Option Entry))} {args : List (List Char)} {n : Nat} (h : sizeFor load args = some n) : Known load args n :=
  mem_sizes.1 (List.mem_of_head? h)

/-- It gives up just when no object that is linked says. -/
theorem gives_up_iff (load : List Char → Option (List (Option Entry))) (args : List (List Char)) : sizeFor load args = none ↔ ∀ n, ¬ Known load args n := by
  unfold sizeFor
  rw [List.head?_eq_none_iff, List.eq_nil_iff_forall_not_mem]
  exact ⟨fun h n k => h n (mem_sizes.2 k), fun h n k => h n (mem_sizes.1 k)⟩

/-- So it is right if the objects that say it agree, in whatever order they are linked. Missing: those that do not (`static_fails`), and functions in other files
(`archive_never`). -/
theorem size_partial {load : List Char → Option (List (Option Entry))} {args : List (List Char)} {n : Nat} (h : Known load args n) (hu : ∀ m, Known load args m → m = n) :
    sizeFor load args = some n := by
  cases e : sizeFor load args with
  | none => exact absurd h ((gives_up_iff load args).1 e n)
  | some m => rw [hu m (size_sound e)]

/-- **Fails** for functions in archives and shared objects: with no objects among the arguments it gives up, whatever the other files have. -/
theorem archive_never (load : List Char → Option (List (Option Entry))) (args : List (List Char)) (h : ∀ base, base ++ ['.', 'o'] ∉ args) : sizeFor load args = none := by
  rw [gives_up_iff]
  rintro n ⟨b, _, _, hb, _⟩
  exact h b hb

/-! ## Cases -/

/-- `a.o` has the function; `b.o` only declares what it returns a pointer to; `s.o` has a function of its own by the same name. -/
def exLoad (f : List Char) : Option (List (Option Entry)) :=
  if f = w! "a.o" then some [none, some (.fn (.alias (.ptr (.alias (.alias (.sized 24))))))]
  else if f = w! "b.o" then some [some (.fn (.ptr .opaque)), some .other]
  else if f = w! "s.o" then some [some (.fn (.ptr (.ptr .void)))]
  else if f = w! "lib.a" then some [some (.fn (.ptr (.sized 24)))]
  else none

example : sizeFor exLoad [w! "-o", w! "prog", w! "c.o", w! "b.o", w! "a.o"] = some 24 := by decide +kernel
example : sizeFor exLoad [w! "b.o", w! "lib.a"] = none := by decide +kernel

/-- **Fails** when another object has a function of its own by the name: the first one's size is taken, so that it depends on the order of the arguments. -/
theorem static_fails : sizeFor exLoad [w! "a.o", w! "s.o"] = some 24 ∧ sizeFor exLoad [w! "s.o", w! "a.o"] = some 8 := by decide +kernel

end Liballocs.TypedAlloc
