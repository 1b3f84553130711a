import Verif.Model.MetaDso
/-!
# Meta-objects: names, choice, lifetime, types by name (C79-C81)
-/
namespace Liballocs.MetaDso

/-! ## C79 Names -/

theorem wsub_le {x y : Nat} (hx : x < 2 ^ 32) (h : y ≤ x) : wsub x y = x - y := by
  unfold wsub
  omega

theorem less_eq {left len : Nat} (hl : left < 2 ^ 32) (hn : len < 2 ^ 32) : less left len = left - len := by
  unfold less
  rw [Nat.mod_eq_of_lt hn]
  split
  · rw [wsub_le hl (Nat.le_refl _)]; omega
  · rw [wsub_le hl (by omega)]

theorem left0 : wsub (wsub bufSize 1) 1 = 4094 := by decide

theorem strncat_some {cap : Nat} {out src : Name} {n : Nat} (h : out.length + min n src.length + 1 ≤ cap) :
    strncat cap out src n = some (out ++ src.take n) := by
  unfold strncat
  rw [if_pos (by simp only [List.length_append, List.length_take]; omega)]

/-- A step of appending what fits. -/
theorem take_step (a b : Name) (n : Nat) : a.take n ++ b.take (n - a.length) = (a ++ b).take n := by
  rw [List.take_append]

theorem base_step {base : Name} {N : Nat} (hN : N = 4094) : strncat bufSize [] base N = some (base.take N) := by
  rw [strncat_some (by simp only [bufSize, List.length_nil]; omega), List.nil_append]

/-- The name built from a path is always what fits of the metadata directory, the path and the suffix; the buffer is never
overrun. -/
theorem byPath_fits {base obj : Name} (hb : base.length < 2 ^ 32) (ho : obj.length < 2 ^ 32) (habs : obj.head? = some '/') :
    byPath base obj = some ((base ++ obj ++ suffix).take 4094) := by
  unfold byPath
  rw [if_pos habs]
  simp only [left0]
  generalize hN : 4094 = N
  rw [base_step hN.symm, Option.bind_some, less_eq (by omega) hb,
    strncat_some (by simp only [bufSize, List.length_take]; omega), Option.bind_some, less_eq (by omega) ho, take_step,
    strncat_some (by simp only [bufSize, List.length_take, List.length_append]; omega)]
  rw [show (N - base.length - obj.length) = N - (base ++ obj).length by simp only [List.length_append]; omega, take_step]

/-- The name by path, when it fits. -/
theorem byPath_exact {base obj : Name} (habs : obj.head? = some '/') (hfit : base.length + obj.length + 8 ≤ 4094) :
    byPath base obj = some (base ++ obj ++ suffix) := by
  have hs : suffix.length = 8 := by decide
  rw [byPath_fits (by omega) (by omega) habs]
  generalize 4094 = N at hfit
  rw [List.take_of_length_le]
  simp only [List.length_append]
  omega

/-- Different files have different names by path, when they fit. -/
theorem byPath_injective_partial {base o1 o2 : Name} (h1 : o1.head? = some '/') (h2 : o2.head? = some '/')
    (f1 : base.length + o1.length + 8 ≤ 4094) (f2 : base.length + o2.length + 8 ≤ 4094) (h : byPath base o1 = byPath base o2) : o1 = o2 := by
  rw [byPath_exact h1 f1, byPath_exact h2 f2] at h
  have h := Option.some.inj h
  rw [List.append_assoc, List.append_assoc] at h
  exact List.append_cancel_right (List.append_cancel_left h)

/-- Beyond the buffer, names are cut short: distinct long paths get the same name, which lacks the suffix. -/
theorem long_path_fails : ∃ base o1 o2 : Name, o1 ≠ o2 ∧ o1.head? = some '/' ∧ o2.head? = some '/' ∧ o1.length ≤ 4095 ∧ o2.length ≤ 4095 ∧
    base.length = 13 ∧ byPath base o1 = byPath base o2 ∧ ∃ n, byPath base o1 = some n ∧ ¬ suffix <:+ n := by
  refine ⟨"/usr/lib/meta".toList, '/' :: (List.replicate 4090 'a' ++ ['b']), '/' :: (List.replicate 4090 'a' ++ ['c']), ?_, rfl, rfl, ?_, ?_, by decide, ?_⟩
  · intro h
    have h := (List.cons.inj h).2
    have h := List.append_cancel_left h
    exact absurd h (by decide)
  · simp only [List.length_cons, List.length_append, List.length_replicate, List.length_nil]; omega
  · simp only [List.length_cons, List.length_append, List.length_replicate, List.length_nil]; omega
  · have e : ∀ c : Char, byPath "/usr/lib/meta".toList ('/' :: (List.replicate 4090 'a' ++ [c])) =
        some ("/usr/lib/meta".toList ++ '/' :: List.replicate 4080 'a') := by
      intro c
      have hl : "/usr/lib/meta".toList.length = 13 := by decide
      rw [byPath_fits (by omega) (by simp only [List.length_cons, List.length_append, List.length_replicate, List.length_nil]; omega) rfl]
      generalize hN : 4094 = N
      generalize hA : 4090 = A
      generalize hB : 4080 = B
      generalize "/usr/lib/meta".toList = base at hl
      rw [List.append_assoc, List.take_append, List.take_of_length_le (by omega), hl, show N - 13 = B + 1 by omega, List.cons_append,
        List.take_succ_cons, List.append_assoc, List.take_append, List.take_replicate, List.length_replicate,
        show min B A = B by omega, show B - A = 0 by omega, List.take_zero, List.append_nil]
    rw [e, e]
    refine ⟨rfl, _, rfl, ?_⟩
    rintro ⟨t, ht⟩
    generalize hB : 4080 = B at ht
    obtain ⟨k, rfl⟩ : ∃ k, B = k + 1 := ⟨4079, by omega⟩
    have h1 := congrArg List.getLast? ht
    rw [List.getLast?_append, List.replicate_succ', List.getLast?_append, List.getLast?_cons, List.getLast?_append] at h1
    revert h1
    rw [show suffix.getLast? = some 'o' by decide]
    simp

/-! ### Names by build ID -/

theorem hexByte_length (b : Fin 256) : (hexByte b).length = 2 := rfl

theorem flatMap_hex_length : ∀ l : List (Fin 256), (l.flatMap hexByte).length = 2 * l.length
  | [] => rfl
  | b :: l => by
    rw [List.flatMap_cons, List.length_append, flatMap_hex_length l, hexByte_length, List.length_cons]
    omega

theorem idText_length {id : List (Fin 256)} (h : id.length = 20) : (idText id).length = 41 := by
  match id, h with
  | b :: r, h =>
    simp only [idText, List.length_append, hexByte_length, List.length_cons, flatMap_hex_length]
    simp only [List.length_cons] at h
    omega

theorem infix_length : infix'.length = 11 := by decide
theorem suffix_length : suffix.length = 8 := by decide

/-- The name by build ID in all cases. -/
theorem byBuildId_cases {base : Name} {id : List (Fin 256)} (hb : base.length < 2 ^ 32) (hid : id.length = 20) :
    byBuildId base id =
      if base.length ≤ 4043 then
        some (base ++ infix' ++ (idText id).take (4082 - base.length) ++ suffix.take (4043 - base.length))
      else none := by
  have hi := infix_length
  have hs := suffix_length
  have ht := idText_length hid
  unfold byBuildId
  simp only [left0]
  generalize hN : 4094 = N
  rw [base_step hN.symm, Option.bind_some, less_eq (by omega) hb,
    strncat_some (by simp only [bufSize, List.length_take]; omega), Option.bind_some, less_eq (by omega) (by omega), take_step, hi]
  by_cases h1 : base.length ≤ 4043
  · rw [if_pos h1]
    have e1 : (base ++ infix').take N = base ++ infix' := by
      rw [List.take_of_length_le]
      simp only [List.length_append]; omega
    rw [e1]
    unfold snprintf
    rw [if_neg (by omega), strncat_some (by simp only [bufSize, List.length_append]; omega), Option.bind_some,
      wsub_le (by omega) (by omega), strncat_some (by simp only [bufSize, List.length_append, List.length_take]; omega)]
    rw [show N - base.length - 11 - 1 = 4082 - base.length by omega, show N - base.length - 11 - 40 = 4043 - base.length by omega]
  · rw [if_neg h1]
    have key : ∀ out : Name, 4093 ≤ out.length → strncat bufSize out suffix (wsub (N - base.length - 11) 40) = none := by
      intro out ho
      have : 8 ≤ wsub (N - base.length - 11) 40 := by unfold wsub; omega
      unfold strncat
      rw [if_neg]
      simp only [bufSize, List.length_append, List.length_take]
      omega
    unfold snprintf
    by_cases h2 : N - base.length - 11 = 0
    · rw [if_pos h2, Option.bind_some]
      apply key
      simp only [List.length_take, List.length_append]; omega
    · rw [if_neg h2, strncat_some (by simp only [bufSize, List.length_take, List.length_append]; omega), Option.bind_some]
      apply key
      simp only [List.length_take, List.length_append]; omega

/-- The name by build ID, when it fits. -/
theorem byBuildId_exact {base : Name} {id : List (Fin 256)} (hid : id.length = 20) (hfit : base.length + 60 ≤ 4095) :
    byBuildId base id = some (base ++ infix' ++ idText id ++ suffix) := by
  rw [byBuildId_cases (by omega) hid, if_pos (by omega), List.take_of_length_le (by rw [idText_length hid]; omega),
    List.take_of_length_le (by rw [suffix_length]; omega)]

/-- The buffer is overrun exactly if the metadata directory's name is longer than 4043 characters. -/
theorem byBuildId_overrun_iff {base : Name} {id : List (Fin 256)} (hb : base.length < 2 ^ 32) (hid : id.length = 20) :
    byBuildId base id = none ↔ 4044 ≤ base.length := by
  rw [byBuildId_cases hb hid]
  by_cases h : base.length ≤ 4043
  · rw [if_pos h]; simp; omega
  · rw [if_neg h]; simp; omega

/-- The digits written are the sixteen lower-case ones. -/
theorem hexDigit_spec : ∀ d : Fin 16, "0123456789abcdef".toList[d.val]? = some (hexDigit d.val) := by decide +kernel

theorem hexDigit_inj : ∀ a b : Fin 16, hexDigit a.val = hexDigit b.val → a = b := by decide +kernel

theorem hexByte_inj {a b : Fin 256} (h : hexByte a = hexByte b) : a = b := by
  simp only [hexByte, List.cons.injEq, and_true] at h
  have h1 := hexDigit_inj ⟨a.val / 16, by omega⟩ ⟨b.val / 16, by omega⟩ h.1
  have h2 := hexDigit_inj ⟨a.val % 16, by omega⟩ ⟨b.val % 16, by omega⟩ h.2
  simp only [Fin.mk.injEq] at h1 h2
  apply Fin.ext
  omega

theorem flatMap_hex_inj : ∀ {l m : List (Fin 256)}, l.flatMap hexByte = m.flatMap hexByte → l = m
  | [], [], _ => rfl
  | [], b :: m, h => by simp [hexByte] at h
  | a :: l, [], h => by simp [hexByte] at h
  | a :: l, b :: m, h => by
    rw [List.flatMap_cons, List.flatMap_cons] at h
    have := List.append_inj h rfl
    rw [hexByte_inj this.1, flatMap_hex_inj this.2]

theorem idText_inj {a b : List (Fin 256)} (ha : a.length = 20) (hb : b.length = 20) (h : idText a = idText b) : a = b := by
  match a, b, ha, hb with
  | x :: l, y :: m, _, _ =>
    simp only [idText] at h
    have := List.append_inj h rfl
    rw [hexByte_inj this.1, flatMap_hex_inj (List.cons.inj this.2).2]

/-- Different build IDs have different names, when they fit. -/
theorem byBuildId_injective_partial {base : Name} {a b : List (Fin 256)} (ha : a.length = 20) (hb : b.length = 20)
    (hfit : base.length + 60 ≤ 4095) (h : byBuildId base a = byBuildId base b) : a = b := by
  rw [byBuildId_exact ha hfit, byBuildId_exact hb hfit] at h
  have h := List.append_cancel_right (Option.some.inj h)
  exact idText_inj ha hb (List.append_cancel_left h)

/-- A name by path is no name by build ID unless the path begins with the infix. -/
theorem names_apart_partial {base obj : Name} {id : List (Fin 256)} (hid : id.length = 20) (habs : obj.head? = some '/')
    (f1 : base.length + obj.length + 8 ≤ 4094) (f2 : base.length + 60 ≤ 4095) (h : byPath base obj = byBuildId base id) : infix' <+: obj := by
  rw [byPath_exact habs f1, byBuildId_exact hid f2] at h
  have h := List.append_cancel_right (Option.some.inj h)
  rw [List.append_assoc] at h
  exact ⟨_, (List.append_cancel_left h).symm⟩

/-- With a metadata directory name of 4044 characters the search for a file with a build ID writes past its buffer. -/
theorem long_base_fails : ∃ (base obj : Name) (id : List (Fin 256)), base.length = 4044 ∧ obj = "/lib/x.so".toList ∧ id.length = 20 ∧
    ∀ w junk, find w junk base obj id = none := by
  refine ⟨List.replicate 4044 'a', _, List.replicate 20 1, List.length_replicate, rfl, List.length_replicate, ?_⟩
  intro w junk
  unfold find candidates
  rw [if_pos (by decide), (byBuildId_overrun_iff (by rw [List.length_replicate]; omega) List.length_replicate).mpr
    (by rw [List.length_replicate]; omega)]
  rfl

/-! ### The choice -/

/-- A usable meta-object: it can be opened and its time read, and the file it is for is not newer. -/
def Usable (w : World) (bt : Int) (n : Name) : Prop := ∃ t, w.stat n = some (some t) ∧ bt ≤ t

/-- The descriptors still open after some events. -/
def stillOpen : List Event → List Name → List Name
  | [], o => o
  | .opened n :: l, o => stillOpen l (n :: o)
  | .closed n :: l, o => stillOpen l (o.erase n)

theorem search_spec {w : World} {junk : Nat → Int} {bt : Int} (hb : w.base = some bt) : ∀ (i : Nat) (l : List Name),
    (∀ n, (search w junk i l).1 = some n ↔ ∃ k : Nat, l[k]? = some n ∧ Usable w bt n ∧ ∀ (j : Nat) m, j < k → l[j]? = some m → ¬ Usable w bt m) ∧
    (∀ o, stillOpen (search w junk i l).2 o = (match (search w junk i l).1 with | none => o | some n => n :: o))
  | _, [] => by simp [search, stillOpen]
  | i, n :: rest => by
    obtain ⟨h1, h2⟩ := search_spec (junk := junk) hb (i + 1) rest
    have skip : ¬ Usable w bt n → ∀ x, (search w junk (i + 1) rest).1 = some x ↔
        ∃ k : Nat, (n :: rest)[k]? = some x ∧ Usable w bt x ∧ ∀ (j : Nat) m, j < k → (n :: rest)[j]? = some m → ¬ Usable w bt m := by
      intro hn x
      rw [h1]
      constructor
      · rintro ⟨k, hk, hu, hm⟩
        refine ⟨k + 1, by simpa using hk, hu, ?_⟩
        intro j m hj hjm
        match j with
        | 0 => simp only [List.getElem?_cons_zero, Option.some.injEq] at hjm; rwa [← hjm]
        | j + 1 => exact hm j m (by omega) (by simpa using hjm)
      · rintro ⟨k, hk, hu, hm⟩
        match k with
        | 0 =>
          simp only [List.getElem?_cons_zero, Option.some.injEq] at hk
          exact absurd (hk ▸ hu) hn
        | k + 1 => exact ⟨k, by simpa using hk, hu, fun j m hj hjm => hm (j + 1) m (by omega) (by simpa using hjm)⟩
    unfold search
    cases hs : w.stat n with
    | none =>
      simp only
      exact ⟨skip (fun ⟨t, ht, _⟩ => by rw [hs] at ht; cases ht), h2⟩
    | some v =>
      cases v with
      | none =>
        simp only
        refine ⟨skip (fun ⟨t, ht, _⟩ => by rw [hs] at ht; cases ht), ?_⟩
        intro o
        rw [← h2 o]
        simp [stillOpen]
      | some t =>
        simp only
        have hbt : baseTime w (junk i) = bt := by unfold baseTime; rw [hb]
        rw [hbt]
        by_cases hgt : bt > t
        · simp only [hgt, if_true]
          refine ⟨skip (fun ⟨u, hu, hle⟩ => by rw [hs] at hu; cases hu; omega), ?_⟩
          intro o
          rw [← h2 o]
          simp [stillOpen]
        · simp only [hgt, if_false]
          refine ⟨?_, fun o => rfl⟩
          intro x
          constructor
          · intro hx
            simp only [Option.some.injEq] at hx
            subst hx
            exact ⟨0, rfl, ⟨t, hs, by omega⟩, fun j m hj => absurd hj (by omega)⟩
          · rintro ⟨k, hk, hu, hm⟩
            match k with
            | 0 => simpa using hk
            | k + 1 => exact absurd ⟨t, hs, by omega⟩ (hm 0 n (by omega) (by simp))

/-- For a file that is still there: the first usable one of the name by build ID (if there is a build ID) and the name by path
is opened; nothing is given only if neither is usable; every other descriptor opened is closed again. -/
theorem find_partial {w : World} {junk : Nat → Int} {base obj : Name} {id : List (Fin 256)} {bt : Int} (hb : w.base = some bt)
    (hid : id.length = 20) (habs : obj.head? = some '/') (f1 : base.length + obj.length + 8 ≤ 4094) (f2 : base.length + 60 ≤ 4095) :
    ∃ r ev, find w junk base obj id = some (r, ev) ∧
      (∀ n, r = some n ↔
        Usable w bt n ∧
          ((n = base ++ infix' ++ idText id ++ suffix ∧ ∃ b ∈ id, b ≠ 0) ∨
           (n = base ++ obj ++ suffix ∧ ((∃ b ∈ id, b ≠ 0) → ¬ Usable w bt (base ++ infix' ++ idText id ++ suffix))))) ∧
      stillOpen ev [] = (match r with | none => [] | some n => [n]) := by
  have hh : haveId id = true ↔ ∃ b ∈ id, b ≠ 0 := by simp [haveId]
  unfold find candidates
  rw [byPath_exact habs f1, byBuildId_exact hid f2]
  by_cases h : haveId id = true
  · rw [if_pos h]
    obtain ⟨h1, h2⟩ := search_spec (w := w) (junk := junk) hb 0 [base ++ infix' ++ idText id ++ suffix, base ++ obj ++ suffix]
    refine ⟨_, _, rfl, ?_, h2 []⟩
    intro n
    refine (h1 n).trans ?_
    have hz := hh.mp h
    constructor
    · rintro ⟨k, hk, hu, hm⟩
      refine ⟨hu, ?_⟩
      match k with
      | 0 =>
        simp only [List.getElem?_cons_zero, Option.some.injEq] at hk
        exact Or.inl ⟨hk.symm, hz⟩
      | 1 =>
        simp only [List.getElem?_cons_succ, List.getElem?_cons_zero, Option.some.injEq] at hk
        exact Or.inr ⟨hk.symm, fun _ => hm 0 _ (by omega) rfl⟩
      | k + 2 => simp at hk
    · rintro ⟨hu, ⟨rfl, _⟩ | ⟨rfl, hno⟩⟩
      · exact ⟨0, rfl, hu, fun j m hj => absurd hj (by omega)⟩
      · refine ⟨1, rfl, hu, ?_⟩
        intro j m hj hm
        obtain rfl : j = 0 := by omega
        simp only [List.getElem?_cons_zero, Option.some.injEq] at hm
        rw [← hm]
        exact hno hz
  · rw [if_neg h]
    obtain ⟨h1, h2⟩ := search_spec (w := w) (junk := junk) hb 0 [base ++ obj ++ suffix]
    refine ⟨_, _, rfl, ?_, h2 []⟩
    intro n
    refine (h1 n).trans ?_
    have hz : ¬ ∃ b ∈ id, b ≠ 0 := fun hz => h (hh.mpr hz)
    constructor
    · rintro ⟨k, hk, hu, hm⟩
      refine ⟨hu, ?_⟩
      match k with
      | 0 =>
        simp only [List.getElem?_cons_zero, Option.some.injEq] at hk
        exact Or.inr ⟨hk.symm, fun hh => absurd hh hz⟩
      | k + 1 => simp at hk
    · rintro ⟨hu, ⟨_, hz'⟩ | ⟨rfl, _⟩⟩
      · exact absurd hz' hz
      · exact ⟨0, rfl, hu, fun j m hj => absurd hj (by omega)⟩

/-- If the file has been deleted or replaced on disk so that it cannot be examined, whether its metadata is used depends on
uninitialised memory. -/
theorem base_gone_fails : ∃ (w : World) (base obj : Name) (id : List (Fin 256)) (n : Name), w.base = none ∧ id.length = 20 ∧
    w.stat n = some (some 100) ∧
    (∃ ev, find w (fun _ => 0) base obj id = some (some n, ev)) ∧ (∃ ev, find w (fun _ => 101) base obj id = some (none, ev)) := by
  let n : Name := "/m/x.so-meta.so".toList
  refine ⟨⟨fun m => if m = n then some (some 100) else none, none⟩, "/m".toList, "/x.so".toList, List.replicate 20 0, n, rfl, by simp,
    by simp, ⟨[.opened n], ?_⟩, ⟨[.opened n, .closed n], ?_⟩⟩ <;> decide +kernel

/-- A file whose metadata by build ID is older than it, but which has newer metadata by path. -/
example : find ⟨fun m => if m = "/m/.build-id/01/02020202020202020202020202020202020202-meta.so".toList then some (some 5)
      else if m = "/m/x.so-meta.so".toList then some (some 9) else none, some 7⟩ (fun _ => 0) "/m".toList "/x.so".toList (1 :: List.replicate 19 2)
    = some (some "/m/x.so-meta.so".toList, [.opened "/m/.build-id/01/02020202020202020202020202020202020202-meta.so".toList,
        .closed "/m/.build-id/01/02020202020202020202020202020202020202-meta.so".toList, .opened "/m/x.so-meta.so".toList]) := by decide +kernel

/-! ## C80 Lifetime -/

/-- The metadata in use are loaded. -/
def InUseLoaded (s : Refs) : Prop := ∀ f m, s.file f = some (some m) → 0 < s.count m

/-- How files are loaded and unloaded without sharing: a file is loaded once at a time and finds metadata that no other loaded
file uses. -/
def Unshared (s : Refs) : RefOp → Prop
  | .load f found => s.file f = none ∧ ∃ m, found = some m ∧ ∀ g, s.file g ≠ some (some m)
  | .unload _ => True

inductive RefReach : Refs → Prop
  | init : RefReach Refs.init
  | step {s s' : Refs} {op : RefOp} : RefReach s → Unshared s op → refStep s op = some s' → RefReach s'

structure RefInv (count : Nat → Nat) (file : Nat → Option (Option Nat)) : Prop where
  given : ∀ f, file f ≠ some none
  one : ∀ f m, file f = some (some m) → count m = 1
  uniq : ∀ f g m, file f = some (some m) → file g = some (some m) → f = g
  zero : ∀ m, (∀ f, file f ≠ some (some m)) → count m = 0

theorem upd_same {α : Type} (f : Nat → α) (i : Nat) (v : α) : upd f i v i = v := by simp [upd]
theorem upd_ne {α : Type} {f : Nat → α} {i j : Nat} {v : α} (h : j ≠ i) : upd f i v j = f j := by simp [upd, h]

theorem refInv_step {s : Refs} {op : RefOp} (h : RefInv s.count s.file) (hu : Unshared s op) : ∃ s', refStep s op = some s' ∧ RefInv s'.count s'.file := by
  cases op with
  | load f found =>
    obtain ⟨hf, m, rfl, hm⟩ := hu
    have h0 := h.zero m hm
    refine ⟨⟨upd s.count m 1, upd s.file f (some (some m))⟩, by simp [refStep, h0], ?_⟩
    show RefInv (upd s.count m 1) (upd s.file f (some (some m)))
    constructor
    · intro g
      by_cases e : g = f
      · subst e; simp [upd_same]
      · rw [upd_ne e]; exact h.given g
    · intro g k hg
      by_cases e : g = f
      · subst e
        simp only [upd_same, Option.some.injEq] at hg
        subst hg
        exact upd_same _ _ _
      · rw [upd_ne e] at hg
        have : k ≠ m := fun e => hm g (e ▸ hg)
        show upd s.count m 1 k = 1
        rw [upd_ne this]
        exact h.one g k hg
    · intro g g' k hg hg'
      by_cases e : g = f <;> by_cases e' : g' = f
      · rw [e, e']
      · subst e
        simp only [upd_same, Option.some.injEq] at hg
        rw [upd_ne e'] at hg'
        exact absurd (hg ▸ hg') (hm g')
      · subst e'
        simp only [upd_same, Option.some.injEq] at hg'
        rw [upd_ne e] at hg
        exact absurd (hg' ▸ hg) (hm g)
      · rw [upd_ne e] at hg
        rw [upd_ne e'] at hg'
        exact h.uniq g g' k hg hg'
    · intro k hk
      have hkm : k ≠ m := by
        intro e
        subst e
        exact hk f (upd_same _ _ _)
      show upd s.count m 1 k = 0
      rw [upd_ne hkm]
      apply h.zero
      intro g hg
      have hgf : g ≠ f := by intro e; rw [e, hf] at hg; cases hg
      exact hk g (by rw [upd_ne hgf]; exact hg)
  | unload f =>
    cases hf : s.file f with
    | none => exact ⟨s, by simp [refStep, hf], h⟩
    | some v =>
      cases v with
      | none => exact absurd hf (h.given f)
      | some m =>
        have h1 := h.one f m hf
        refine ⟨⟨upd s.count m 0, upd s.file f none⟩, by simp [refStep, hf, dlclose, h1], ?_⟩
        show RefInv (upd s.count m 0) (upd s.file f none)
        constructor
        · intro g
          by_cases e : g = f
          · subst e; simp [upd_same]
          · rw [upd_ne e]; exact h.given g
        · intro g k hg
          by_cases e : g = f
          · subst e; simp [upd_same] at hg
          · rw [upd_ne e] at hg
            have hkm : k ≠ m := fun e' => e (h.uniq g f k hg (e' ▸ hf))
            show upd s.count m _ k = 1
            rw [upd_ne hkm]
            exact h.one g k hg
        · intro g g' k hg hg'
          by_cases e : g = f
          · subst e; simp [upd_same] at hg
          · by_cases e' : g' = f
            · subst e'; simp [upd_same] at hg'
            · rw [upd_ne e] at hg
              rw [upd_ne e'] at hg'
              exact h.uniq g g' k hg hg'
        · intro k hk
          by_cases e : k = m
          · subst e
            exact upd_same _ _ _
          · show upd s.count m _ k = 0
            rw [upd_ne e]
            apply h.zero
            intro g hg
            have hgf : g ≠ f := by
              intro e'
              subst e'
              rw [hf] at hg
              simp only [Option.some.injEq] at hg
              exact e hg.symm
            exact hk g (by rw [upd_ne hgf]; exact hg)

theorem refInv_reach {s : Refs} (h : RefReach s) : RefInv s.count s.file := by
  induction h with
  | init => exact ⟨fun f => by simp [Refs.init], fun f m hf => by simp [Refs.init] at hf, fun f g m hf => by simp [Refs.init] at hf, fun m _ => rfl⟩
  | step _ hu e ih =>
    obtain ⟨s', e', h'⟩ := refInv_step ih hu
    rw [e] at e'
    obtain rfl := Option.some.inj e'
    exact h'

/-- Without sharing and with metadata for every file, loading and unloading never crashes, the metadata of every loaded file is
loaded, and metadata no loaded file uses has been released. -/
theorem lifetime_partial {s : Refs} (h : RefReach s) :
    InUseLoaded s ∧ (∀ m, (∀ f, s.file f ≠ some (some m)) → s.count m = 0) ∧
      (∀ op, Unshared s op → ∃ s', refStep s op = some s' ∧ RefReach s') ∧
      (∀ f m, s.file f = some (some m) → ∃ s', refStep s (.unload f) = some s' ∧ s'.count m = 0 ∧ s'.file f = none ∧
        (∀ g, g ≠ f → s'.file g = s.file g) ∧ ∀ k, k ≠ m → s'.count k = s.count k) := by
  have hi := refInv_reach h
  refine ⟨fun f m hf => by rw [hi.one f m hf]; omega, hi.zero, ?_, ?_⟩
  · intro op hu
    obtain ⟨s', e, _⟩ := refInv_step hi hu
    exact ⟨s', e, RefReach.step h hu e⟩
  · intro f m hf
    have h1 := hi.one f m hf
    refine ⟨_, by simp [refStep, hf, dlclose, h1]; rfl, upd_same _ _ _, upd_same _ _ _, fun g hg => upd_ne hg, fun k hk => upd_ne hk⟩

/-- Two files with the same metadata (copies of one binary have the same build ID): unloading the second releases the metadata
while the first still uses it, and unloading the first then releases it again. -/
theorem shared_fails : ∃ s, refRun Refs.init [.load 1 (some 7), .load 2 (some 7), .unload 2] = some s ∧ ¬ InUseLoaded s ∧
    refStep s (.unload 1) = none := by
  refine ⟨_, rfl, ?_, rfl⟩
  intro h
  exact absurd (h 1 7 rfl) (by decide)

/-- Unloading a file without metadata passes a null handle to `dlclose`. -/
theorem no_meta_fails : refRun Refs.init [.load 1 none, .unload 1] = none := rfl

example : ∃ s, refRun Refs.init [.load 1 (some 7), .load 2 (some 8), .unload 1, .load 3 (some 7)] = some s ∧
    s.count 7 = 1 ∧ s.count 8 = 1 ∧ s.file 1 = none ∧ s.file 3 = some (some 7) := ⟨_, rfl, rfl, rfl, rfl, rfl⟩

/-! ## C81 Types by name -/

/-- A number can be read here: the next character is a digit, white space or a sign. -/
def NumberLike (c : Char) : Prop := isDigit c = true ∨ isSpace c = true ∨ c = '-' ∨ c = '+'

theorem takeSign_other {c : Char} {r : Name} (h1 : c ≠ '-') (h2 : c ≠ '+') : takeSign (c :: r) = (false, c :: r) := by
  unfold takeSign
  split
  · rename_i e; exact absurd (List.cons.inj e).1 h1
  · rename_i e; exact absurd (List.cons.inj e).1 h2
  · rfl

theorem scanInt_none {s : Name} (h : ∀ c, s.head? = some c → ¬ NumberLike c) : scanInt s = none := by
  match s with
  | [] => rfl
  | c :: r =>
    have hc := h c rfl
    unfold NumberLike at hc
    simp only [not_or] at hc
    obtain ⟨h1, h2, h3, h4⟩ := hc
    unfold scanInt
    rw [List.dropWhile_cons_of_neg h2, takeSign_other h3 h4]
    simp only
    rw [List.takeWhile_cons_of_neg h1]
    rfl

/-- A type name that has no number after the prefix is looked up as it is. -/
theorem typeSym_partial {rest : Name} (h : ∀ c, rest.head? = some c → ¬ NumberLike c) : typeSym (prefix' ++ rest) = .sym (prefix' ++ rest) := by
  unfold typeSym
  rw [List.take_left', List.drop_left', scanInt_none h]
  · simp
  · rfl
  · rfl

/-- Type names carry an eight-digit hexadecimal code after the prefix. If that starts with a decimal digit, it is taken for a
length: another symbol is looked up, an assertion fails, or memory past the name is read. -/
theorem typeSym_fails :
    typeSym "__uniqtype_5bcdef01_point".toList = .sym "__uniqtype_f01_point".toList ∧
    typeSym "__uniqtype_0bcdef01_point".toList = .assertFails ∧
    typeSym "__uniqtype_12345678_point".toList = .assertFails ∧
    typeSym "__uniqtype_100bef01_point".toList = .outOfBounds := by decide +kernel

/-- Names of the kind the number is meant for (length, header name, type name) lose too little: as many characters of the header
name stay as the length has digits. -/
theorem header_fails : typeSym "__uniqtype_7point_hpoint".toList = .sym "__uniqtype_hpoint".toList ∧
    typeSym "__uniqtype_12stdio_file_hpoint".toList ≠ .sym "__uniqtype_point".toList := by decide +kernel

/-! ### Exactly which names are found, and what is looked up for the others -/

/-- The decimal digits of a number, as a person would write them. -/
def decimal (n : Nat) : Name :=
  if h : n < 10 then ["0123456789".toList[n]'(by have : "0123456789".toList.length = 10 := by decide
                                                 omega)]
  else decimal (n / 10) ++ ["0123456789".toList[n % 10]'(by have : "0123456789".toList.length = 10 := by decide
                                                            omega)]

theorem digit_char : ∀ d : Fin 10, isDigit ("0123456789".toList[d.val]'(by have : "0123456789".toList.length = 10 := by decide
                                                                           omega)) = true ∧
    ("0123456789".toList[d.val]'(by have : "0123456789".toList.length = 10 := by decide
                                    omega)).toNat - '0'.toNat = d.val := by decide +kernel

theorem isDigit_iff (c : Char) : isDigit c = true ↔ c ∈ "0123456789".toList := by
  constructor
  · intro h
    unfold isDigit at h
    have h := of_decide_eq_true h
    have e : c = Char.ofNat c.toNat := (Char.ofNat_toNat c).symm
    have k0 : '0'.toNat = 48 := by decide
    have k9 : '9'.toNat = 57 := by decide
    rw [k0, k9] at h
    have : c.toNat = 48 ∨ c.toNat = 49 ∨ c.toNat = 50 ∨ c.toNat = 51 ∨ c.toNat = 52 ∨ c.toNat = 53 ∨ c.toNat = 54 ∨ c.toNat = 55 ∨
        c.toNat = 56 ∨ c.toNat = 57 := by omega
    rcases this with h | h | h | h | h | h | h | h | h | h <;> (rw [h] at e; rw [e]; decide)
  · intro h
    have : ∀ c ∈ "0123456789".toList, isDigit c = true := by decide +kernel
    exact this c h

theorem decimal_digits (n : Nat) : ∀ c ∈ decimal n, isDigit c = true := by
  induction n using Nat.strongRecOn with
  | _ n ih =>
    intro c hc
    unfold decimal at hc
    split at hc
    · rw [List.mem_singleton] at hc
      rw [hc]
      exact (digit_char ⟨n, by omega⟩).1
    · rw [List.mem_append, List.mem_singleton] at hc
      rcases hc with hc | hc
      · exact ih (n / 10) (by omega) c hc
      · rw [hc]
        exact (digit_char ⟨n % 10, by omega⟩).1

theorem decimal_val (n : Nat) : digitsVal (decimal n) = n := by
  induction n using Nat.strongRecOn with
  | _ n ih =>
    unfold decimal
    split
    · have := (digit_char ⟨n, by omega⟩).2
      simp only at this
      simp only [digitsVal, List.foldl_cons, List.foldl_nil, this]
      omega
    · have h1 := ih (n / 10) (by omega)
      have h2 := (digit_char ⟨n % 10, by omega⟩).2
      simp only at h2
      unfold digitsVal at h1 ⊢
      rw [List.foldl_append, h1, List.foldl_cons, List.foldl_nil, h2]
      omega

theorem decimal_ne (n : Nat) : decimal n ≠ [] := by
  unfold decimal
  split <;> simp

theorem decimal_short (n : Nat) (h : 0 < n) : (decimal n).length ≤ n := by
  induction n using Nat.strongRecOn with
  | _ n ih =>
    unfold decimal
    split
    · simp only [List.length_singleton]; omega
    · rw [List.length_append, List.length_singleton]
      have := ih (n / 10) (by omega) (by omega)
      omega

theorem takeWhile_front {p : Char → Bool} : ∀ {l r : Name}, (∀ c ∈ l, p c = true) → (∀ c, r.head? = some c → p c = false) →
    (l ++ r).takeWhile p = l
  | [], [], _, _ => rfl
  | [], c :: r, _, h => by
    rw [List.nil_append, List.takeWhile_cons_of_neg]
    rw [h c rfl]; simp
  | c :: l, r, h1, h2 => by
    rw [List.cons_append, List.takeWhile_cons_of_pos (h1 c List.mem_cons_self),
      takeWhile_front (fun x hx => h1 x (List.mem_cons_of_mem _ hx)) h2]

theorem dropWhile_front {p : Char → Bool} : ∀ {l r : Name}, (∀ c ∈ l, p c = true) → (∀ c, r.head? = some c → p c = false) →
    (l ++ r).dropWhile p = r
  | [], [], _, _ => rfl
  | [], c :: r, _, h => by
    rw [List.nil_append, List.dropWhile_cons_of_neg]
    rw [h c rfl]; simp
  | c :: l, r, h1, h2 => by
    rw [List.cons_append, List.dropWhile_cons_of_pos (h1 c List.mem_cons_self),
      dropWhile_front (fun x hx => h1 x (List.mem_cons_of_mem _ hx)) h2]

/-- White space as C has it. -/
def whites : Name := [' ', '\t', '\n', Char.ofNat 11, Char.ofNat 12, '\r']

theorem isSpace_iff (c : Char) : isSpace c = true ↔ c ∈ whites := by
  have e : ∀ n, n < 128 → (c.toNat = n ↔ c = Char.ofNat n) := by
    intro n hn
    constructor
    · intro h; rw [← h, Char.ofNat_toNat]
    · intro h; rw [h]
      have : ∀ k : Fin 128, (Char.ofNat k.val).toNat = k.val := by decide +kernel
      exact this ⟨n, hn⟩
  simp only [isSpace, whites, Bool.or_eq_true, beq_iff_eq, List.mem_cons, List.not_mem_nil, or_false, e 11 (by omega), e 12 (by omega)]
  constructor
  · rintro (((((h | h) | h) | h) | h) | h) <;> simp [h]
  · rintro (h | h | h | h | h | h) <;> simp [h]

theorem digit_plain {c : Char} (h : isDigit c = true) : isSpace c = false ∧ c ≠ '-' ∧ c ≠ '+' := by
  have : ∀ c ∈ "0123456789".toList, isSpace c = false ∧ c ≠ '-' ∧ c ≠ '+' := by decide +kernel
  exact this c ((isDigit_iff c).mp h)

/-- The sign of a number as written: none, a plus or a minus. -/
def signText : Option Bool → Name
  | none => []
  | some false => ['+']
  | some true => ['-']

theorem head_append_ne {l r : Name} (h : l ≠ []) : (l ++ r).head? = l.head? := by
  match l, h with
  | c :: l, _ => rfl

/-- Reading a number is the inverse of writing it, whatever white space and sign go before and whatever else follows. -/
theorem scanInt_read (ws : Name) (sg : Option Bool) (n : Nat) (rest : Name) (hw : ∀ c ∈ ws, c ∈ whites)
    (hr : ∀ c, rest.head? = some c → c ∉ "0123456789".toList) :
    scanInt (ws ++ signText sg ++ decimal n ++ rest) = some (match sg with | some true => -(n : Int) | _ => n) := by
  have hd := decimal_digits n
  have hv := decimal_val n
  have hne := decimal_ne n
  generalize decimal n = ds at hd hv hne
  have hr' : ∀ c, rest.head? = some c → isDigit c = false := by
    intro c hc
    have := hr c hc
    rw [← isDigit_iff] at this
    simpa using this
  have htw : (ds ++ rest).takeWhile isDigit = ds := takeWhile_front hd hr'
  have hdw : (ws ++ signText sg ++ ds ++ rest).dropWhile isSpace = signText sg ++ ds ++ rest := by
    rw [List.append_assoc, List.append_assoc, List.append_assoc]
    apply dropWhile_front
    · intro c hc; exact (isSpace_iff c).mpr (hw c hc)
    · intro c hc
      match sg with
      | none =>
        match ds, hne with
        | d :: ds, _ =>
          simp only [signText, List.nil_append, List.cons_append, List.head?_cons, Option.some.injEq] at hc
          rw [← hc]
          exact (digit_plain (hd d List.mem_cons_self)).1
      | some false => simp only [signText, List.cons_append, List.head?_cons, Option.some.injEq] at hc; rw [← hc]; decide
      | some true => simp only [signText, List.cons_append, List.head?_cons, Option.some.injEq] at hc; rw [← hc]; decide
  unfold scanInt
  simp only [hdw]
  match sg with
  | none =>
    match ds, hne with
    | d :: ds, _ =>
      have hp := digit_plain (hd d List.mem_cons_self)
      rw [show signText none ++ (d :: ds) ++ rest = d :: (ds ++ rest) from rfl, takeSign_other hp.2.1 hp.2.2]
      simp only
      rw [← List.cons_append, htw, hv]
      simp
  | some false =>
    simp only [signText, List.cons_append, List.nil_append, takeSign, htw, hv]
    simp [hne]
  | some true =>
    simp only [signText, List.cons_append, List.nil_append, takeSign, htw, hv]
    simp [hne]

/-- A number stands at the front: after white space and perhaps a sign there is a digit. -/
def NumberAhead (s : Name) : Prop :=
  ∃ (ws : Name) (sg : Option Bool) (d : Char) (rest : Name), (∀ c ∈ ws, c ∈ whites) ∧ d ∈ "0123456789".toList ∧
    s = ws ++ signText sg ++ d :: rest

theorem takeWhile_empty {p : Char → Bool} {l : Name} (h : l.takeWhile p = []) : ∀ c, l.head? = some c → p c = false := by
  match l with
  | [] => intro c hc; cases hc
  | c :: r =>
    intro x hx
    simp only [List.head?_cons, Option.some.injEq] at hx
    subst hx
    cases hp : p c with
    | false => rfl
    | true => rw [List.takeWhile_cons_of_pos hp] at h; cases h

theorem dropWhile_head {p : Char → Bool} : ∀ (l : Name) c r, l.dropWhile p = c :: r →
    ∃ ws, (∀ x ∈ ws, p x = true) ∧ l = ws ++ c :: r
  | [], c, r, h => by cases h
  | a :: l, c, r, h => by
    cases hp : p a with
    | true =>
      rw [List.dropWhile_cons_of_pos hp] at h
      obtain ⟨ws, h1, h2⟩ := dropWhile_head l c r h
      refine ⟨a :: ws, ?_, by rw [h2]; rfl⟩
      intro x hx
      rcases List.mem_cons.mp hx with rfl | hx
      · exact hp
      · exact h1 x hx
    | false =>
      rw [List.dropWhile_cons_of_neg (by simp [hp])] at h
      refine ⟨[], ?_, h⟩
      intro x hx
      cases hx

theorem takeWhile_some {p : Char → Bool} {l : Name} (h : l.takeWhile p ≠ []) : ∃ d r, l = d :: r ∧ p d = true := by
  match l with
  | [] => exact absurd rfl h
  | c :: r =>
    cases hp : p c with
    | true => exact ⟨c, r, rfl, hp⟩
    | false => rw [List.takeWhile_cons_of_neg (by simp [hp])] at h; exact absurd rfl h

theorem scanInt_isSome_iff (s : Name) : (scanInt s).isSome = true ↔ NumberAhead s := by
  constructor
  · intro h
    unfold scanInt at h
    simp only at h
    generalize hx : s.dropWhile isSpace = x at h
    have hne : (takeSign x).2.takeWhile isDigit ≠ [] := by
      intro h0
      rw [if_pos h0] at h
      cases h
    obtain ⟨d, r, ht, hd⟩ := takeWhile_some hne
    have hd' := (isDigit_iff d).mp hd
    have wsp : ∀ {ws : Name}, (∀ x ∈ ws, isSpace x = true) → ∀ c ∈ ws, c ∈ whites := fun h c hc => (isSpace_iff c).mp (h c hc)
    match x, hx, ht with
    | [], hx, ht => cases ht
    | c :: y, hx, ht =>
      obtain ⟨ws, h1, h2⟩ := dropWhile_head s c y hx
      by_cases c1 : c = '-'
      · subst c1
        have ht : y = d :: r := ht
        exact ⟨ws, some true, d, r, wsp h1, hd', by rw [h2, ht]; simp [signText]⟩
      · by_cases c2 : c = '+'
        · subst c2
          have ht : y = d :: r := ht
          exact ⟨ws, some false, d, r, wsp h1, hd', by rw [h2, ht]; simp [signText]⟩
        · rw [takeSign_other c1 c2] at ht
          have ht : c :: y = d :: r := ht
          exact ⟨ws, none, d, r, wsp h1, hd', by rw [h2, ht]; simp [signText]⟩
  · rintro ⟨ws, sg, d, rest, hw, hd, rfl⟩
    have hd' := (isDigit_iff d).mpr hd
    have hp := digit_plain hd'
    have hdw : (ws ++ signText sg ++ d :: rest).dropWhile isSpace = signText sg ++ d :: rest := by
      rw [List.append_assoc]
      apply dropWhile_front
      · intro c hc; exact (isSpace_iff c).mpr (hw c hc)
      · intro c hc
        match sg with
        | none => simp only [signText, List.nil_append, List.head?_cons, Option.some.injEq] at hc; rw [← hc]; exact hp.1
        | some false => simp only [signText, List.cons_append, List.head?_cons, Option.some.injEq] at hc; rw [← hc]; decide
        | some true => simp only [signText, List.cons_append, List.head?_cons, Option.some.injEq] at hc; rw [← hc]; decide
    unfold scanInt
    simp only [hdw]
    match sg with
    | none =>
      rw [show signText none ++ d :: rest = d :: rest from rfl, takeSign_other hp.2.1 hp.2.2]
      simp only
      rw [List.takeWhile_cons_of_pos hd']
      simp
    | some false => simp only [signText, List.cons_append, List.nil_append, takeSign, List.takeWhile_cons_of_pos hd']; simp
    | some true => simp only [signText, List.cons_append, List.nil_append, takeSign, List.takeWhile_cons_of_pos hd']; simp

theorem prefix_length : prefix'.length = 11 := by decide

/-- The cases of the lookup for a name with the prefix. -/
theorem typeSym_cases (rest : Name) : typeSym (prefix' ++ rest) = (match scanInt rest with
    | none => .sym (prefix' ++ rest)
    | some k => if 0 < k ∧ k < 4096 then
        if k.toNat ≤ rest.length then
          if rest.length - k.toNat ≤ 4084 then .sym (prefix' ++ rest.drop k.toNat) else .outOfBounds
        else .outOfBounds
      else .assertFails) := by
  unfold typeSym
  rw [List.take_left' rfl, List.drop_left' rfl, if_neg (fun h => h rfl)]
  cases scanInt rest with
  | none => rfl
  | some k =>
    simp only
    by_cases h1 : 0 < k ∧ k < 4096
    · rw [if_pos h1, if_pos h1]
      by_cases h2 : k.toNat ≤ rest.length
      · rw [if_pos (by rw [List.length_append]; omega), if_pos h2]
        have hdr : (prefix' ++ rest).drop (prefix'.length + k.toNat) = rest.drop k.toNat := by
          rw [List.drop_append, List.drop_eq_nil_of_le (by omega), List.nil_append]
          congr 1
          omega
        rw [hdr]
        unfold strncat
        by_cases h3 : rest.length - k.toNat ≤ 4084
        · rw [if_pos (by simp only [List.length_append, List.length_take, List.length_drop, prefix_length]; omega), if_pos h3]
          simp only
          rw [List.take_of_length_le (by simp only [List.length_drop, prefix_length]; omega)]
        · rw [if_neg (by simp only [List.length_append, List.length_take, List.length_drop, prefix_length]; omega), if_neg h3]
      · rw [if_neg (by rw [List.length_append]; omega), if_neg h2]
    · rw [if_neg h1, if_neg h1]

/-- A name is looked up as it is exactly if no number stands after the prefix. -/
theorem typeSym_iff (rest : Name) : typeSym (prefix' ++ rest) = .sym (prefix' ++ rest) ↔ ¬ NumberAhead rest := by
  rw [← scanInt_isSome_iff, typeSym_cases]
  cases scanInt rest with
  | none => simp
  | some k =>
    simp only [Option.isSome_some, not_true, iff_false]
    intro h
    by_cases h1 : 0 < k ∧ k < 4096
    · rw [if_pos h1] at h
      by_cases h2 : k.toNat ≤ rest.length
      · rw [if_pos h2] at h
        by_cases h3 : rest.length - k.toNat ≤ 4084
        · rw [if_pos h3] at h
          have h := congrArg List.length (List.append_cancel_left (Looked.sym.inj h))
          rw [List.length_drop] at h
          omega
        · rw [if_neg h3] at h; cases h
      · rw [if_neg h2] at h; cases h
    · rw [if_neg h1] at h; cases h

/-- Every type whose code starts with a decimal digit is not found under its own name. -/
theorem typeSym_code_fails (d : Char) (hd : d ∈ "0123456789".toList) (rest : Name) :
    typeSym (prefix' ++ d :: rest) ≠ .sym (prefix' ++ d :: rest) := by
  intro h
  refine (typeSym_iff _).mp h ⟨[], none, d, rest, ?_, hd, rfl⟩
  intro c hc
  cases hc

/-- For every name made of the length of a header's name, that name and a type's name: what is looked up keeps as many
characters of the header's name as its length has digits, so it is never the type's name alone. -/
theorem header_all_fails (hdr ty : Name) (h0 : 0 < hdr.length) (h1 : hdr.length < 4096)
    (hd : ∀ c, hdr.head? = some c → c ∉ "0123456789".toList) (hl : ty.length + 4 ≤ 4084) :
    typeSym (prefix' ++ (decimal hdr.length ++ hdr ++ ty)) =
        .sym (prefix' ++ (hdr.drop (hdr.length - (decimal hdr.length).length) ++ ty)) ∧
      typeSym (prefix' ++ (decimal hdr.length ++ hdr ++ ty)) ≠ .sym (prefix' ++ ty) := by
  have hs := decimal_short hdr.length h0
  have hdl : (decimal hdr.length).length ≤ 4 := by
    have key : ∀ n, n < 10000 → (decimal n).length ≤ 4 := by
      intro n hn
      have e : ∀ m, (decimal m).length = if m < 10 then 1 else (decimal (m / 10)).length + 1 := by
        intro m
        conv => lhs; unfold decimal
        split <;> simp [*]
      rw [e, e, e, e, e]
      repeat' split
      all_goals omega
    exact key _ (by omega)
  have hpos : 0 < (decimal hdr.length).length := List.length_pos_iff.mpr (decimal_ne _)
  have hscan : scanInt (decimal hdr.length ++ hdr ++ ty) = some (hdr.length : Int) := by
    have := scanInt_read [] none hdr.length (hdr ++ ty) (fun c hc => by cases hc) (by
      intro c hc
      rw [head_append_ne (fun h => by rw [h] at h0; exact absurd h0 (by decide))] at hc
      exact hd c hc)
    simpa [signText] using this
  have e : typeSym (prefix' ++ (decimal hdr.length ++ hdr ++ ty)) =
      .sym (prefix' ++ (hdr.drop (hdr.length - (decimal hdr.length).length) ++ ty)) := by
    rw [typeSym_cases, hscan]
    simp only
    rw [if_pos (by omega), if_pos (by simp only [List.length_append]; omega), if_pos (by simp only [List.length_append]; omega)]
    congr 2
    rw [Int.toNat_natCast, List.append_assoc, List.drop_append, List.drop_eq_nil_of_le hs, List.nil_append, List.drop_append_of_le_length (by omega)]
  refine ⟨e, ?_⟩
  rw [e]
  intro h
  have h := congrArg List.length (List.append_cancel_left (Looked.sym.inj h))
  rw [List.length_append, List.length_drop] at h
  omega

example : typeSym (prefix' ++ (decimal 12 ++ "stdio_file_h".toList ++ "point".toList)) = .sym (prefix' ++ "_hpoint".toList) := by
  decide +kernel

example : typeSym "__uniqtype__point".toList = .sym "__uniqtype__point".toList := by decide +kernel

end Liballocs.MetaDso
