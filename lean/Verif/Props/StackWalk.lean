import Verif.Model.StackWalk
/-! Properties of the stack walk. -/
namespace Liballocs.StackWalk

/-! ## Specification -/

/-- A client that is shown frames one by one until it returns something other than 0. -/
def shown {σ : Type} (cb : Cb σ) (fin : End) : List (Nat × Nat × Nat) → σ → Int × σ
  | [], a => (if fin = .failed then -1 else 0, a)
  | (ip, sp, bp) :: fs, a => if (cb ip sp bp a).1 = 0 then shown cb fin fs (cb ip sp bp a).2 else cb ip sp bp a

/-- A frame with its own frame pointer. -/
def own (f : Frame) : Option (Nat × Nat × Nat) := f.bp.map (fun bp => (f.ip, f.sp, bp))

private theorem loop_shown {σ : Type} (top : Nat) (cb : Cb σ) (fin : End) : ∀ (rest : List Frame) (f : Frame) (bp : Nat) (a : σ) (fs : List (Nat × Nat × Nat)),
    (f :: rest).map own = fs.map some → (∀ g ∈ rest, g.sp ≠ top) → loop top cb fin f rest bp a = shown cb fin fs a
  | rest, f, bp, a, [], h, _ => by cases h
  | rest, f, bp, a, (ip, sp, b) :: fs, h, hs => by
    simp only [List.map_cons, List.cons.injEq] at h
    obtain ⟨h1, h2⟩ := h
    have hb : f.bp = some b ∧ f.ip = ip ∧ f.sp = sp := by
      unfold own at h1
      cases hf : f.bp with
      | none => simp [hf] at h1
      | some v =>
        simp only [hf, Option.map_some, Option.some.injEq, Prod.mk.injEq] at h1
        exact ⟨by rw [h1.2.2], h1.1, h1.2.1⟩
    obtain ⟨hb, rfl, rfl⟩ := hb
    rw [loop.eq_def]
    simp only [hb, readBp, shown]
    by_cases hr : (cb f.ip f.sp b a).1 = 0
    · rw [if_neg (by simpa using hr), if_pos hr]
      cases rest with
      | nil =>
        cases fs with
        | nil => cases fin <;> simp [shown, hr]
        | cons x xs => cases h2
      | cons g rest =>
        simp only
        rw [if_pos (hs g (by simp)), loop_shown top cb fin rest g b _ fs h2 (fun k hk => hs k (by simp [hk]))]
    · rw [if_pos hr, if_neg hr]

/-! ## C137 -/

/-- **C137 (partial).** The callback is shown each frame once, innermost first, with that frame's own registers, until it returns something
other than 0; that is then returned. After the outermost frame 0 is returned, and -1 if the unwinder fails. Partial: every frame's frame pointer
is known to the unwinder, and no stack pointer is the highest user address. -/
theorem walk_exact_partial {σ : Type} (top : Nat) (cb : Cb σ) (fin : End) (f : Frame) (rest : List Frame) (a : σ) (fs : List (Nat × Nat × Nat))
    (hown : (f :: rest).map own = fs.map some) (hs : ∀ g ∈ rest, g.sp ≠ top) : walk top cb fin f rest a = shown cb fin fs a :=
  loop_shown top cb fin rest f 0 a fs hown hs

/-- A callback that looks at instruction and stack pointers only. -/
def IgnoresBp {σ : Type} (cb : Cb σ) : Prop := ∀ ip sp b b' a, cb ip sp b a = cb ip sp b' a

/-- Whatever frame pointers are known: to a callback that does not use them, just the frames there are are shown. -/
theorem walk_ignoring {σ : Type} (top : Nat) (cb : Cb σ) (hcb : IgnoresBp cb) (fin : End) (f : Frame) (rest : List Frame) (a : σ)
    (hs : ∀ g ∈ rest, g.sp ≠ top) : walk top cb fin f rest a = shown cb fin ((f :: rest).map (fun g => (g.ip, g.sp, 0))) a := by
  suffices ∀ (rest : List Frame) (f : Frame) (bp : Nat) (a : σ), (∀ g ∈ rest, g.sp ≠ top) →
      loop top cb fin f rest bp a = shown cb fin ((f :: rest).map (fun g => (g.ip, g.sp, 0))) a from this rest f 0 a hs
  intro rest
  induction rest with
  | nil =>
    intro f bp a _
    rw [loop.eq_def]
    simp only [List.map_cons, List.map_nil, shown]
    rw [hcb f.ip f.sp (readBp f.bp bp) 0 a]
    by_cases hr : (cb f.ip f.sp 0 a).1 = 0
    · rw [if_neg (by simpa using hr), if_pos hr]
      cases fin <;> simp [hr]
    · rw [if_pos hr, if_neg hr]
  | cons g rest ih =>
    intro f bp a hs
    rw [loop.eq_def]
    simp only
    rw [List.map_cons, shown, hcb f.ip f.sp (readBp f.bp bp) 0 a]
    by_cases hr : (cb f.ip f.sp 0 a).1 = 0
    · rw [if_neg (by simpa using hr), if_pos hr, if_pos (hs g (by simp)), ih g _ _ (fun k hk => hs k (by simp [hk]))]
    · rw [if_pos hr, if_neg hr]

/-! ## Where it fails -/

/-- A callback that writes down what it is shown. -/
def record : Cb (List (Nat × Nat × Nat)) := fun ip sp bp a => (0, a ++ [(ip, sp, bp)])

/-- **C137 fails** for a frame whose frame pointer is not known: it is shown with the frame pointer of the frame below it. -/
theorem stale_bp_fails (top ip sp bp ip' sp' : Nat) (fin : End) (h : sp' ≠ top) :
    (walk top record fin ⟨ip, sp, some bp⟩ [⟨ip', sp', none⟩] []).2 = [(ip, sp, bp), (ip', sp', bp)] := by
  simp only [walk, loop, readBp, record]
  cases fin <;> simp [h]

/-- **C137 fails** in that a failed unwinding cannot be told from a callback that returned -1. -/
theorem failure_ambiguous_fails (top : Nat) (f : Frame) : ∃ cb : Cb Nat, walk top cb .top f [] 0 = (-1, 1) ∧ walk top (fun _ _ _ a => (0, a + 1)) .failed f [] 0 = (-1, 1) :=
  ⟨fun _ _ _ a => (-1, a + 1), by simp [walk, loop], by simp [walk, loop]⟩

/-- **C137 fails** for a frame whose stack pointer is the highest user address: it and all above it are left out, and 0 is returned. -/
theorem top_sp_fails (top : Nat) (f g : Frame) (rest : List Frame) (fin : End) (hg : g.sp = top) :
    (walk top record fin f (g :: rest) []).1 = 0 ∧ ((walk top record fin f (g :: rest) []).2.map (fun x => (x.1, x.2.1))) = [(f.ip, f.sp)] := by
  simp [walk, loop, record, hg]

/-! ## A case -/

/-- Three frames, and a callback that stops at the second. -/
example : walk 99 record .top ⟨1, 16, some 24⟩ [⟨2, 32, some 40⟩, ⟨3, 48, some 56⟩] [] = (0, [(1, 16, 24), (2, 32, 40), (3, 48, 56)]) ∧
    walk 99 (fun ip sp bp a => (if ip = 2 then 7 else 0, a ++ [(ip, sp, bp)])) .top ⟨1, 16, some 24⟩ [⟨2, 32, some 40⟩, ⟨3, 48, some 56⟩] [] =
      (7, [(1, 16, 24), (2, 32, 40)]) := by decide

end Liballocs.StackWalk
