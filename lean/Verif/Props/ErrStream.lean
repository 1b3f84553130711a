import Verif.Model.ErrStream
import Verif.Props.Stats
/-! C165: diagnostics reach the place chosen for them whole and in order. -/
namespace Liballocs.ErrStream

/-- The texts to be printed. -/
def texts (e : Env) (ms : List (Bool × Msg)) : List Text := ms.filterMap (fun m => text e m.2)

theorem texts_none {e m ms} (h : text e m.2 = none) : texts e (m :: ms) = texts e ms := by
  unfold texts; rw [List.filterMap_cons, h]

theorem texts_some {e m ms t} (h : text e m.2 = some t) : texts e (m :: ms) = t :: texts e ms := by
  unfold texts; rw [List.filterMap_cons, h]

theorem say_none {e depth o now m} (h : text e m = none) : say e depth o now m = some o := by unfold say; rw [h]

theorem say_some {e depth o now m t} (h : text e m = some t) :
    say e depth o now m = (match getStream e depth o with | none => none | some (o', d) => some (put o' d now t)) := by
  unfold say; rw [h]; rfl

/-- With `LIBALLOCS_ERR` not set, everything goes to `stderr`, whole and in order, and no file is touched. -/
theorem stderr_exact (e : Env) (he : e.errvar = none) (depth : Nat) (o : Out) (ms : List (Bool × Msg)) :
    sayAll e (depth + 1) o ms = some { o with stderr := o.stderr ++ (texts e ms).flatten } := by
  induction ms generalizing o with
  | nil => simp [sayAll, texts]
  | cons m ms ih =>
    unfold sayAll
    cases ht : text e m.2 with
    | none => rw [say_none ht, texts_none ht]; exact ih o
    | some t =>
      have hg : getStream e (depth + 1) o = some (o, .err) := by
        show (match e.errvar with | none => _ | some ok => _) = _
        rw [he]
      rw [say_some ht, hg, texts_some ht]
      dsimp only [put]
      rw [ih, List.flatten_cons, List.append_assoc]

/-! ## With a file -/

/-- Opening the file, when it can be opened. -/
theorem getStream_open {e : Env} {o : Out} (he : e.errvar = some true) (hl : o.opened < e.limit) (depth : Nat) :
    getStream e (depth + 1) o = some ({ o with file := [], opened := o.opened + 1 }, .fresh) := by
  show (match e.errvar with | none => _ | some ok => _) = _
  rw [he]
  exact if_pos ⟨rfl, hl⟩

/-- When it cannot be opened, for want of permission or of descriptors, no number of nested calls is enough. -/
theorem getStream_never {e : Env} {o : Out} {ok : Bool} (he : e.errvar = some ok) (hl : ¬ (ok = true ∧ o.opened < e.limit))
    (hv : 0 ≤ e.level) (depth : Nat) : getStream e depth o = none := by
  induction depth with
  | zero => rfl
  | succ n ih =>
    show (match e.errvar with | none => _ | some ok => _) = _
    rw [he]
    dsimp only
    rw [if_neg hl, if_pos hv, ih]

/-- All is well inside the limit of descriptors: what `sayAll` keeps. Every character in the file, or still to be written, is at its
own place in one of the messages; messages not written at once are pending. -/
theorem file_spec {e : Env} (he : e.errvar = some true) (depth : Nat) (ms : List (Bool × Msg)) :
    ∀ o : Out, o.opened + (texts e ms).length ≤ e.limit →
      ∃ o', sayAll e (depth + 1) o ms = some o' ∧ o'.stderr = o.stderr ∧ o'.opened = o.opened + (texts e ms).length
        ∧ (∀ (i : Nat) c, o'.file[i]? = some c → (texts e ms = [] ∧ o.file[i]? = some c) ∨ ∃ t ∈ texts e ms, t[i]? = some c)
        ∧ o'.pending = o.pending ++ texts e (ms.filter (fun m => !m.1)) := by
  induction ms with
  | nil => intro o _; exact ⟨o, rfl, rfl, rfl, fun i c h => .inl ⟨rfl, h⟩, by simp [texts]⟩
  | cons m ms ih =>
    intro o hl
    unfold sayAll
    cases ht : text e m.2 with
    | none =>
      rw [say_none ht, texts_none ht]
      rw [texts_none ht] at hl
      obtain ⟨o', h1, h2, h3, h4, h5⟩ := ih o hl
      refine ⟨o', h1, h2, h3, h4, ?_⟩
      rw [h5, List.filter_cons]
      split
      · rw [texts_none ht]
      · rfl
    | some t =>
      rw [texts_some ht] at hl ⊢
      rw [List.length_cons] at hl
      rw [say_some ht, getStream_open he (by omega)]
      dsimp only
      obtain ⟨o', h1, h2, h3, h4, h5⟩ := ih (put { o with file := [], opened := o.opened + 1 } .fresh m.1 t) (by
        cases m.1 <;> simp [put] <;> omega)
      refine ⟨o', h1, ?_, ?_, ?_, ?_⟩
      · rw [h2]; cases m.1 <;> rfl
      · rw [h3, List.length_cons]
        cases m.1 <;> simp [put] <;> omega
      · intro i c hi
        rcases h4 i c hi with ⟨_, hf⟩ | ⟨u, hu, hi⟩
        · right
          cases hm : m.1 with
          | true => rw [hm] at hf; simp [put, overlay] at hf; exact ⟨t, List.mem_cons_self, hf⟩
          | false => rw [hm] at hf; simp [put] at hf
        · exact .inr ⟨u, List.mem_cons_of_mem _ hu, hi⟩
      · rw [h5, List.filter_cons]
        cases hm : m.1 with
        | true => simp [put]
        | false =>
          rw [if_pos (by rfl), texts_some ht]
          simp [put]

theorem overlay_get (f t : Text) (i : Nat) : (overlay f t)[i]? = if i < t.length then t[i]? else f[i]? := by
  unfold overlay
  rw [List.getElem?_append]
  split
  · rfl
  · rw [List.getElem?_drop]; congr 1; omega

theorem overlay_length (f t : Text) : (overlay f t).length = max f.length t.length := by
  unfold overlay
  rw [List.length_append, List.length_drop]
  omega

theorem overlays_get (ord : List Text) : ∀ (f : Text) (i : Nat) (c : Char), (ord.foldl overlay f)[i]? = some c →
    f[i]? = some c ∨ ∃ t ∈ ord, t[i]? = some c := by
  induction ord with
  | nil => exact fun f i c h => .inl h
  | cons t ord ih =>
    intro f i c h
    rcases ih _ i c h with h | ⟨u, hu, hi⟩
    · rw [overlay_get] at h
      split at h
      · exact .inr ⟨t, List.mem_cons_self, h⟩
      · exact .inl h
    · exact .inr ⟨u, List.mem_cons_of_mem _ hu, hi⟩

theorem overlays_length (ord : List Text) : ∀ (f : Text), f.length ≤ (ord.foldl overlay f).length
    ∧ ∀ t ∈ ord, t.length ≤ (ord.foldl overlay f).length := by
  induction ord with
  | nil => exact fun f => ⟨Nat.le_refl _, by simp⟩
  | cons t ord ih =>
    intro f
    obtain ⟨h1, h2⟩ := ih (overlay f t)
    rw [overlay_length] at h1
    refine ⟨by show _ ≤ (ord.foldl overlay (overlay f t)).length; omega, fun u hu => ?_⟩
    rcases List.mem_cons.mp hu with rfl | hu
    · show _ ≤ (ord.foldl overlay (overlay f u)).length; omega
    · exact h2 u hu

theorem filter_texts_mem {e : Env} {ms : List (Bool × Msg)} {t} (h : t ∈ texts e (ms.filter (fun m => !m.1))) : t ∈ texts e ms := by
  unfold texts at h ⊢
  rw [List.mem_filterMap] at h ⊢
  obtain ⟨m, hm, ht⟩ := h
  exact ⟨m, (List.mem_filter.mp hm).1, ht⟩

/-- With a file: while descriptors last, the messages are printed, and at exit every character of the file is at its own place in
one of the messages. So nothing else is in the file, it is no longer than the longest message, and `stderr` is left alone. It is at
least as long as every message written at exit, and the last of these is whole. -/
theorem file_exact (e : Env) (he : e.errvar = some true) (depth : Nat) (old : Text) (ms : List (Bool × Msg))
    (hl : (texts e ms).length ≤ e.limit) (hne : texts e ms ≠ []) :
    ∃ o, sayAll e (depth + 1) (start old) ms = some o ∧ o.stderr = []
      ∧ o.pending = texts e (ms.filter (fun m => !m.1))
      ∧ ∀ ord, ord.Perm o.pending →
          (∀ (i : Nat) c, (exit o ord).file[i]? = some c → ∃ t ∈ texts e ms, t[i]? = some c)
          ∧ (∃ t ∈ texts e ms, (exit o ord).file.length ≤ t.length)
          ∧ (∀ t ∈ o.pending, t.length ≤ (exit o ord).file.length)
          ∧ (∀ t, ord.getLast? = some t → t <+: (exit o ord).file) := by
  obtain ⟨o, h1, h2, _, h4, h5⟩ := file_spec he depth ms (start old) (by simpa [start] using hl)
  have hp : o.pending = texts e (ms.filter (fun m => !m.1)) := by rw [h5]; rfl
  refine ⟨o, h1, h2, hp, fun ord ho => ?_⟩
  have chars : ∀ (i : Nat) c, (exit o ord).file[i]? = some c → ∃ t ∈ texts e ms, t[i]? = some c := by
    intro i c h
    rcases overlays_get ord _ i c h with h | ⟨t, ht, hi⟩
    · rcases h4 i c h with ⟨hn, _⟩ | hx
      · exact absurd hn hne
      · exact hx
    · refine ⟨t, filter_texts_mem (e := e) ?_, hi⟩
      rw [← hp]; exact ho.subset ht
  refine ⟨chars, ?_, fun t ht => (overlays_length ord o.file).2 t (ho.symm.subset ht), fun t ht => ?_⟩
  · cases hf : (exit o ord).file.length with
    | zero =>
      obtain ⟨t, ht⟩ := List.exists_mem_of_ne_nil _ hne
      exact ⟨t, ht, Nat.zero_le _⟩
    | succ n =>
      have hlt : n < (exit o ord).file.length := by omega
      obtain ⟨t, ht, hi⟩ := chars n _ (List.getElem?_eq_getElem hlt)
      obtain ⟨hh, _⟩ := List.getElem?_eq_some_iff.mp hi
      exact ⟨t, ht, by omega⟩
  · obtain ⟨ini, rfl⟩ := List.getLast?_eq_some_iff.mp ht
    show t <+: (ini ++ [t]).foldl overlay o.file
    rw [List.foldl_append]
    exact List.prefix_append _ _

/-- One message alone is in the file, whatever was in it before. -/
theorem file_partial (e : Env) (he : e.errvar = some true) (hl : 0 < e.limit) (depth : Nat) (old : Text) (now : Bool) (m : Msg)
    (t : Text) (ht : text e m = some t) :
    ∃ o, sayAll e (depth + 1) (start old) [(now, m)] = some o ∧ o.stderr = []
      ∧ ∀ ord, ord.Perm o.pending → (exit o ord).file = t := by
  unfold sayAll
  rw [say_some ht, getStream_open he (by exact hl)]
  cases now with
  | true =>
    refine ⟨_, rfl, rfl, fun ord ho => ?_⟩
    cases List.perm_nil.mp (show ord.Perm [] from ho)
    simp [exit, put, overlay]
  | false =>
    refine ⟨_, rfl, rfl, fun ord ho => ?_⟩
    cases List.perm_singleton.mp (show ord.Perm [t] from ho)
    simp [exit, put, overlay]

theorem flatten_longer (ts : List Text) (h2 : 2 ≤ ts.length) (hn : ∀ t ∈ ts, t ≠ []) (t : Text) (ht : t ∈ ts) :
    t.length < ts.flatten.length := by
  have pos : ∀ us : List Text, us ≠ [] → (∀ t ∈ us, t ≠ []) → 0 < us.flatten.length := by
    intro us hu hus
    cases us with
    | nil => exact absurd rfl hu
    | cons u us =>
      have := List.length_pos_iff.mpr (hus u List.mem_cons_self)
      rw [List.flatten_cons, List.length_append]; omega
  obtain ⟨a, b, rfl⟩ := List.append_of_mem ht
  simp only [List.flatten_append, List.flatten_cons, List.length_append]
  by_cases ha : a = []
  · subst ha
    have hb : b ≠ [] := by intro hb; subst hb; simp at h2
    have := pos b hb (fun t h => hn t (by simp [h]))
    omega
  · have := pos a ha (fun t h => hn t (by simp [h]))
    omega

/-- Two messages or more are never all in the file, in whatever order and at whatever time they are written. -/
theorem file_never (e : Env) (he : e.errvar = some true) (depth : Nat) (old : Text) (ms : List (Bool × Msg))
    (hl : (texts e ms).length ≤ e.limit) (h2 : 2 ≤ (texts e ms).length) (hn : ∀ t ∈ texts e ms, t ≠ []) :
    ∃ o, sayAll e (depth + 1) (start old) ms = some o
      ∧ ∀ ord, ord.Perm o.pending → (exit o ord).file.length < (texts e ms).flatten.length := by
  obtain ⟨o, h1, _, _, h4⟩ := file_exact e he depth old ms hl (by intro h; rw [h] at h2; simp at h2)
  refine ⟨o, h1, fun ord ho => ?_⟩
  obtain ⟨_, ⟨t, ht, hle⟩, _⟩ := h4 ord ho
  have := flatten_longer _ h2 hn t ht
  omega

/-- A message when the file cannot be opened exhausts the stack. -/
theorem unopenable_never (e : Env) (he : e.errvar = some false) (hv : 0 ≤ e.level) (depth : Nat) (o : Out) (now : Bool) (m : Msg)
    (ht : text e m ≠ none) : say e depth o now m = none := by
  cases h : text e m with
  | none => exact absurd h ht
  | some t => rw [say_some h, getStream_never he (by simp) hv]

/-- Each message takes a descriptor for good: one message more than there are descriptors exhausts the stack. -/
theorem descriptors_never (e : Env) (he : e.errvar = some true) (hv : 0 ≤ e.level) (depth : Nat) (ms : List (Bool × Msg)) :
    ∀ o : Out, e.limit < o.opened + (texts e ms).length → o.opened ≤ e.limit → sayAll e depth o ms = none := by
  cases depth with
  | zero =>
    induction ms with
    | nil => intro o h h'; simp [texts] at h; omega
    | cons m ms ih =>
      intro o h h'
      unfold sayAll
      cases ht : text e m.2 with
      | none => rw [say_none ht]; rw [texts_none ht] at h; exact ih o h h'
      | some t => rw [say_some ht]; rfl
  | succ depth =>
    induction ms with
    | nil => intro o h h'; simp [texts] at h; omega
    | cons m ms ih =>
      intro o h h'
      unfold sayAll
      cases ht : text e m.2 with
      | none => rw [say_none ht]; rw [texts_none ht] at h; exact ih o h h'
      | some t =>
        rw [texts_some ht, List.length_cons] at h
        rw [say_some ht]
        by_cases hl : o.opened < e.limit
        · rw [getStream_open he hl]
          dsimp only
          apply ih
          · cases m.1 <;> simp [put] <;> omega
          · cases m.1 <;> simp [put] <;> omega
        · rw [getStream_never he (fun hh => hl hh.2) hv]

/-! ## The summary at exit -/

theorem chunks_flatten (n : Nat) : ∀ (k : Nat) (t : Text), t.length ≤ k → (chunks n k t).flatten = t := by
  intro k
  induction k with
  | zero => intro t h; rw [List.eq_nil_of_length_eq_zero (Nat.le_zero.mp h)]; rfl
  | succ k ih =>
    intro t h
    cases t with
    | nil => rfl
    | cons c t =>
      show ((c :: t).take (n + 1) :: chunks n k ((c :: t).drop (n + 1))).flatten = _
      rw [List.flatten_cons, ih _ (by simp at h ⊢; omega), List.take_append_drop]

/-- With `LIBALLOCS_ERR` not set, `stderr` gets at exit the whole summary and, if asked for, exactly the memory map. -/
theorem exit_stderr (e : Env) (he : e.errvar = none) (depth : Nat) (o : Out) (fmt : Nat → Text) (s : Stats.State)
    (smaps : Option (Option Text)) (ls : List Text) (hs : Stats.summary fmt s = some ls) :
    ∃ msgs, exitMessages fmt s smaps = some msgs
      ∧ sayAll e (depth + 1) o (msgs.map fun t => (false, .plain t)) = some { o with stderr := o.stderr ++ ls.flatten
          ++ (match smaps with | none => [] | some none => "Couldn't read from smaps!\n".toList | some (some t) => t) } := by
  unfold exitMessages
  rw [hs]
  refine ⟨_, rfl, ?_⟩
  rw [stderr_exact e he]
  have : ∀ us : List Text, texts e (us.map fun t => (false, Msg.plain t)) = us := by
    intro us
    induction us with
    | nil => rfl
    | cons u us ih => rw [List.map_cons, texts_some (t := u) rfl, ih]
  rw [this, List.flatten_append, List.append_assoc]
  cases smaps with
  | none => simp
  | some t =>
    cases t with
    | none => simp
    | some t => dsimp only; rw [chunks_flatten 4095 _ t (Nat.le_refl _)]

/-- With it set to a file that can be opened, the summary of any program that made queries is never whole in that file. -/
theorem exit_file_never (e : Env) (he : e.errvar = some true) (depth : Nat) (old : Text) (fmt : Nat → Text) (hf : ∀ a, fmt a ≠ [])
    (s : Stats.State) (l : List Nat) (hi : Addrlist.Inv s.sites l) (ha : Stats.anyQuery s = true) (hl : l.length + 16 ≤ e.limit) :
    ∃ msgs o, exitMessages fmt s none = some msgs ∧ 15 ≤ msgs.length
      ∧ sayAll e (depth + 1) (start old) (msgs.map fun t => (false, .plain t)) = some o
      ∧ ∀ ord, ord.Perm o.pending → (exit o ord).file.length < msgs.flatten.length := by
  have tx : ∀ us : List Text, texts e (us.map fun t => (false, Msg.plain t)) = us := by
    intro us
    induction us with
    | nil => rfl
    | cons u us ih => rw [List.map_cons, texts_some (t := u) rfl, ih]
  have hsl : Stats.siteLines fmt s.sites = some (if s.sites.count = 0 then [] else
      "Saw the following unrecognised heap alloc sites: \n".toList :: (s.sites.store.take s.sites.count).map fmt) := by
    unfold Stats.siteLines
    rw [if_pos]
    rw [hi.alloc]; exact hi.fits
  have hten : Stats.numbered.length = 10 := rfl
  have hsum : ∃ ls, Stats.summary fmt s = some ls ∧ 15 ≤ ls.length ∧ ls.length ≤ l.length + 16 ∧ ∀ t ∈ ls, t ≠ [] := by
    unfold Stats.summary
    rw [if_pos ha, hsl]
    refine ⟨_, rfl, ?_, ?_, ?_⟩
    · simp only [List.length_append, List.length_cons, List.length_nil, List.length_map, List.length_take, List.length_drop,
        hten]
      omega
    · rw [hi.content]
      split <;> simp only [List.length_append, List.length_cons, List.length_nil, List.length_map, List.length_take,
        List.length_drop, hten] <;> omega
    · intro t ht
      simp only [List.mem_append, List.mem_cons, List.mem_map, List.not_mem_nil, or_false] at ht
      have bn : ∀ c, Stats.bar c ≠ [] := by intro c; simp [Stats.bar]
      have ln : ∀ a, Stats.numLine s a ≠ [] := by intro a; simp [Stats.numLine]
      rcases ht with (((((h | h | h) | ⟨a, _, h⟩) | h) | ⟨a, _, h⟩) | h) | h
      · exact h ▸ bn _
      · subst h; decide
      · exact h ▸ bn _
      · exact h ▸ ln a
      · exact h ▸ bn _
      · exact h ▸ ln a
      · exact h ▸ bn _
      · split at h
        · cases h
        · rcases List.mem_cons.mp h with h | h
          · subst h; decide
          · obtain ⟨a, _, h⟩ := List.mem_map.mp h
            exact h ▸ hf a
  obtain ⟨ls, h1, h2, h3, h4⟩ := hsum
  have hmsgs : exitMessages fmt s none = some ls := by unfold exitMessages; rw [h1]; simp
  obtain ⟨o, ho, hlt⟩ := file_never e he depth old (ls.map fun t => (false, .plain t)) (by rw [tx]; omega) (by rw [tx]; omega)
    (by rw [tx]; exact h4)
  rw [tx] at hlt
  exact ⟨ls, o, hmsgs, h2, ho, hlt⟩

/-! ## Cases -/

def demo (v : Option Bool) : Env := ⟨v, 0, 2, "prog".toList, "/log".toList⟩

/-- Two messages on `stderr`, one too detailed to be printed. -/
theorem stderr_case :
    (sayAll (demo none) 1 (start []) [(false, .plain "one\n".toList), (true, .debug 1 "x".toList), (false, .debug 0 "two\n".toList)]).map
      (fun o => o.stderr) = some "one\nprog: two\n".toList := by decide +kernel

/-- The same two in a file: at exit the second and then the first are written at the beginning. -/
theorem file_fails :
    (sayAll (demo (some true)) 1 (start "old".toList) [(false, .plain "one\n".toList), (false, .debug 0 "two\n".toList)]).map
      (fun o => (exit o o.pending.reverse).file) = some "one\n: two\n".toList := by decide +kernel

/-- A third message, with two descriptors left, or a first one when the file cannot be opened: the stack is exhausted. -/
theorem unopenable_fails :
    sayAll (demo (some true)) 100 (start []) [(false, .plain "1".toList), (false, .plain "2".toList), (false, .plain "3".toList)] = none
      ∧ sayAll (demo (some false)) 100 (start []) [(false, .plain "1".toList)] = none := by
  constructor
  · exact descriptors_never _ rfl (by decide) 100 _ _ (by decide) (by decide)
  · unfold sayAll
    rw [unopenable_never _ rfl (by decide) 100 _ _ _ (by decide)]

end Liballocs.ErrStream
