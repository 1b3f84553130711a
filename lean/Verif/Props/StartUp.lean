import Verif.Model.StartUp
namespace Liballocs.StartUp

/-! ## Specification -/

/-- Which initialiser does what. -/
def owner : Work → Fn
  | .mapIndex => .pageindex
  | .addMappings => .mmap
  | .makeBrk => .brk
  | .readFiles => .runt
  | .startTraps => .mmap
  | .loadMeta => .mmap
  | .makeDlbind => .mmap
  | .makeTypes => .mmap
  | .setUp => .global
  | .findAuxv => .auxv
  | .readLimit => .stack
  | .none => .frame

/-- What an initialiser does, in order. -/
def duties (traps : Bool) : Fn → List Work
  | .pageindex => [.mapIndex]
  | .mmap => [.addMappings, .startTraps, .loadMeta] ++ (if traps then [.makeDlbind, .makeTypes] else [])
  | .brk => [.makeBrk]
  | .runt => [.readFiles]
  | .global => [.setUp]
  | .file => []
  | .auxv => [.findAuxv]
  | .segment => []
  | .symbol => []
  | .stack => [.readLimit]
  | .frame => []

/-- What an initialiser needs. -/
def needs : Fn → List Fn
  | .mmap => [.pageindex, .brk, .runt, .global]
  | .global => [.mmap, .file]
  | .file => [.runt, .mmap, .auxv]
  | .segment => [.file]
  | .symbol => [.mmap, .segment]
  | _ => []

def whose : Event → Fn
  | .work w => owner w
  | .fin f => f

/-- What one initialiser did. -/
def part (l : List Event) (f : Fn) : List Event := l.filter fun e => decide (whose e = f)

/-- All that it has to do. -/
def whole (traps : Bool) (f : Fn) : List Event := (duties traps f).map .work ++ if f = .segment then [] else [.fin f]

/-! ## Proof -/

theorem part_append (a b : List Event) (f : Fn) : part (a ++ b) f = part a f ++ part b f := List.filter_append _ _

/-- How a call changes one initialiser: not at all, or it runs as a whole. -/
def Step (traps : Bool) (s s' : St) (g : Fn) : Prop :=
  (s'.status g = s.status g ∧ part s'.trace g = part s.trace g) ∨
  (s.status g = .fresh ∧ s'.status g = .done ∧ part s'.trace g = part s.trace g ++ whole traps g)

theorem Step.refl (traps : Bool) (s : St) (g : Fn) : Step traps s s g := .inl ⟨rfl, rfl⟩

theorem Step.trans {traps : Bool} {a b c : St} {g : Fn} (h : Step traps a b g) (h' : Step traps b c g) : Step traps a c g := by
  rcases h with ⟨h1, h2⟩ | ⟨h1, h2, h3⟩
  · rcases h' with ⟨k1, k2⟩ | ⟨k1, k2, k3⟩
    · exact .inl ⟨k1.trans h1, k2.trans h2⟩
    · exact .inr ⟨h1 ▸ k1, k2, by rw [k3, h2]⟩
  · rcases h' with ⟨k1, k2⟩ | ⟨k1, _, _⟩
    · exact .inr ⟨h1, k1.trans h2, k2.trans h3⟩
    · rw [h2] at k1; cases k1

/-- What is done stays done, and what is begun stays begun. -/
theorem Step.keep {traps : Bool} {a b : St} {g : Fn} (h : Step traps a b g) (hn : a.status g ≠ .fresh) : b.status g = a.status g := by
  rcases h with ⟨h1, _⟩ | ⟨h1, _⟩
  · exact h1
  · exact absurd h1 hn

theorem Step.notFresh {traps : Bool} {a b : St} {g : Fn} (h : Step traps a b g) (hn : a.status g ≠ .fresh) : b.status g ≠ .fresh := by
  rw [h.keep hn]; exact hn

/-- Whatever is done has all that it needs at least begun. -/
def Closed (s : St) : Prop := ∀ f, s.status f = .done → ∀ g ∈ needs f, s.status g ≠ .fresh

/-- What holds of a call. -/
structure Good (traps : Bool) (call : St → Fn → Res) : Prop where
  step : ∀ {s s' : St} {f : Fn}, call s f = .ok s' → ∀ g, Step traps s s' g
  begun : ∀ {s s' : St} {f : Fn}, call s f = .ok s' → s'.status f ≠ .fresh
  closed : ∀ {s s' : St} {f : Fn}, call s f = .ok s' → Closed s → Closed s'

theorem bind_ok {r : Res} {k : St → Res} {s : St} (h : r.bind k = .ok s) : ∃ s1, r = .ok s1 ∧ k s1 = .ok s := by
  cases r with
  | ok s1 => exact ⟨s1, rfl, h⟩
  | abort => cases h
  | fuel => cases h

theorem enter_good {traps : Bool} {call : St → Fn → Res} (hc : Good traps call) {s s' : St} {e : Entry} (h : enter call s e = .ok s') :
    (∀ g, Step traps s s' g) ∧ (Closed s → Closed s') ∧ (∀ f, e = .init f → s'.status f ≠ .fresh) ∧
    (e = .ensure → s'.status .global ≠ .fresh) := by
  cases e with
  | init f =>
    refine ⟨hc.step h, hc.closed h, fun f' e => ?_, fun e => by cases e⟩
    cases e; exact hc.begun h
  | ensure =>
    simp only [enter] at h
    split at h
    · cases h
    · exact ⟨hc.step h, hc.closed h, (fun _ e => by cases e), fun _ => hc.begun h⟩

theorem enterAll_good {traps : Bool} {call : St → Fn → Res} (hc : Good traps call) : ∀ {es : List Entry} {s s' : St}, enterAll call es s = .ok s' →
    (∀ g, Step traps s s' g) ∧ (Closed s → Closed s') ∧ (∀ f, .init f ∈ es → s'.status f ≠ .fresh) ∧ (.ensure ∈ es → s'.status .global ≠ .fresh)
  | [], s, s', h => by cases h; exact ⟨fun g => .refl _ _ g, id, (fun _ h => by cases h), (fun h => by cases h)⟩
  | e :: es, s, s', h => by
    rw [enterAll] at h
    obtain ⟨s1, h1, h2⟩ := bind_ok h
    obtain ⟨a1, a2, a3, a4⟩ := enter_good hc h1
    obtain ⟨b1, b2, b3, b4⟩ := enterAll_good hc h2
    refine ⟨fun g => (a1 g).trans (b1 g), fun h => b2 (a2 h), fun f hf => ?_, fun hf => ?_⟩
    · rcases List.mem_cons.mp hf with e1 | hf
      · exact (b1 f).notFresh (a3 f e1.symm)
      · exact b3 f hf
    · rcases List.mem_cons.mp hf with e1 | hf
      · exact (b1 .global).notFresh (a4 e1.symm)
      · exact b4 hf

/-- The works in a list of commands, and the calls. -/
def worksOf : List Cmd → List Work
  | [] => []
  | .work w :: cs => w :: worksOf cs
  | .call _ :: cs => worksOf cs

theorem log_part_ne {s : St} {e : Event} {g : Fn} (h : whose e ≠ g) : part (s.log e).trace g = part s.trace g := by
  simp [St.log, part, h]

theorem log_part_eq {s : St} {e : Event} {g : Fn} (h : whose e = g) : part (s.log e).trace g = part s.trace g ++ [e] := by
  simp [St.log, part, h]

/-- Closedness but for one initialiser, which is running. -/
theorem Closed.log {s : St} (h : Closed s) (e : Event) : Closed (s.log e) := h
theorem Closed.reent {s : St} (h : Closed s) (r : List (List Entry)) : Closed { s with reent := r } := h

theorem work_good {traps : Bool} {call : St → Fn → Res} (hc : Good traps call) {f : Fn} {w : Work} (hw : owner w = f) {s s' : St}
    (h : work call w s = .ok s') (ht : s.status f = .trying) :
    (∀ g, g ≠ f → Step traps s s' g) ∧ s'.status f = .trying ∧ part s'.trace f = part s.trace f ++ [.work w] ∧ (Closed s → Closed s') := by
  unfold work at h
  cases hr : s.reent with
  | nil =>
    rw [hr] at h
    cases h
    refine ⟨fun g hg => .inl ⟨rfl, log_part_ne ?_⟩, ht, log_part_eq hw, fun h => h.log _⟩
    simp only [whose, hw]; exact Ne.symm hg
  | cons es rest =>
    rw [hr] at h
    obtain ⟨a1, a2, _, _⟩ := enterAll_good hc h
    refine ⟨fun g hg => ?_, ?_, ?_, fun hcl => a2 ((hcl.log _).reent _)⟩
    · refine Step.trans (b := { s.log (.work w) with reent := rest }) (.inl ⟨rfl, ?_⟩) (a1 g)
      exact log_part_ne (s := s) (by simp only [whose, hw]; exact Ne.symm hg)
    · have := (a1 f).keep (by show s.status f ≠ _; rw [ht]; exact Status.noConfusion)
      rw [this]; exact ht
    · rcases a1 f with ⟨_, k⟩ | ⟨k, _⟩
      · rw [k]; exact log_part_eq (s := s) (e := .work w) hw
      · rw [show ({ s.log (.work w) with reent := rest } : St).status f = s.status f from rfl, ht] at k; cases k

theorem runCmds_good {traps : Bool} {call : St → Fn → Res} (hc : Good traps call) {f : Fn} : ∀ {cs : List Cmd} {s s' : St},
    (∀ w, .work w ∈ cs → owner w = f) → runCmds call cs s = .ok s' → s.status f = .trying →
    (∀ g, g ≠ f → Step traps s s' g) ∧ s'.status f = .trying ∧ part s'.trace f = part s.trace f ++ (worksOf cs).map .work ∧
    (Closed s → Closed s') ∧ (∀ g, .call g ∈ cs → s'.status g ≠ .fresh)
  | [], s, s', _, h, ht => by
    cases h
    exact ⟨fun g _ => .refl _ _ g, ht, by simp [worksOf], id, (fun _ h => by cases h)⟩
  | c :: cs, s, s', ho, h, ht => by
    rw [runCmds] at h
    obtain ⟨s1, h1, h2⟩ := bind_ok h
    cases c with
    | work w =>
      obtain ⟨a1, a2, a3, a4⟩ := work_good hc (ho w (by simp)) h1 ht
      obtain ⟨b1, b2, b3, b4, b5⟩ := runCmds_good hc (fun w' hw' => ho w' (by simp [hw'])) h2 a2
      refine ⟨fun g hg => (a1 g hg).trans (b1 g hg), b2, ?_, fun h => b4 (a4 h), fun g hg => b5 g (by simpa using hg)⟩
      rw [b3, a3, worksOf, List.map_cons, List.append_assoc]; rfl
    | call f' =>
      have a1 := hc.step h1
      have ht1 : s1.status f = .trying := by
        rw [(a1 f).keep (by rw [ht]; exact Status.noConfusion)]; exact ht
      obtain ⟨b1, b2, b3, b4, b5⟩ := runCmds_good hc (fun w' hw' => ho w' (by simp [hw'])) h2 ht1
      refine ⟨fun g hg => (a1 g).trans (b1 g hg), b2, ?_, fun h => b4 (hc.closed h1 h), fun g hg => ?_⟩
      · rw [b3, worksOf]
        rcases a1 f with ⟨_, k⟩ | ⟨k, _⟩
        · rw [k]
        · rw [ht] at k; cases k
      · rcases List.mem_cons.mp hg with e | hg
        · have e' : g = f' := by cases e; rfl
          rw [e']
          by_cases hgf : f' = f
          · rw [hgf, b2]; exact Status.noConfusion
          · exact (b1 f' hgf).notFresh (hc.begun h1)
        · exact b5 g hg

theorem body_owner (traps : Bool) (f : Fn) : ∀ w, .work w ∈ body traps f → owner w = f := by
  intro w h
  cases traps <;> cases f <;> cases w <;> first | rfl | (exfalso; revert h; decide)

theorem body_duties (traps : Bool) (f : Fn) : worksOf (body traps f) = duties traps f := by
  cases traps <;> cases f <;> rfl

theorem body_needs (traps : Bool) (f : Fn) (hf : f ≠ .segment) : ∀ g ∈ needs f, .call g ∈ body traps f := by
  cases traps <;> cases f <;> first | exact absurd rfl hf | decide

theorem exec_good (traps : Bool) : ∀ fuel : Nat, Good traps (exec traps fuel)
  | 0 => ⟨(fun h => by cases h), (fun h => by cases h), (fun h => by cases h)⟩
  | fuel + 1 => by
    have ih := exec_good traps fuel
    have key : ∀ {s s' : St} {f : Fn}, exec traps (fuel + 1) s f = .ok s' →
        (∀ g, Step traps s s' g) ∧ s'.status f ≠ .fresh ∧ (Closed s → Closed s') := by
      intro s s' f h
      rw [exec] at h
      by_cases hs : s.status f ≠ .fresh
      · rw [if_pos hs] at h
        cases h
        exact ⟨fun g => .refl _ _ g, hs, id⟩
      · rw [if_neg hs] at h
        have hfr : s.status f = .fresh := Decidable.not_not.mp hs
        by_cases hf : f = .segment
        · subst hf
          rw [if_pos rfl] at h
          obtain ⟨s1, h1, h2⟩ := bind_ok h
          cases h2
          have a1 := ih.step h1
          refine ⟨fun g => ?_, by simp [St.set], fun hcl => ?_⟩
          · by_cases hg : g = .segment
            · subst hg
              right
              refine ⟨hfr, by simp [St.set], ?_⟩
              show part s1.trace .segment = _
              rcases a1 .segment with ⟨_, k⟩ | ⟨_, _, k⟩
              · rw [k]; simp [whole, duties]
              · rw [k]
            · refine (a1 g).trans (.inl ⟨?_, rfl⟩)
              simp [St.set, hg]
          · have c1 := ih.closed h1 hcl
            intro f' hd g hg
            by_cases hf' : f' = .segment
            · subst hf'
              simp only [needs, List.mem_singleton] at hg
              subst hg
              simp only [St.set]
              exact ih.begun h1
            · have : s1.status f' = .done := by simpa [St.set, hf'] using hd
              have := c1 f' this g hg
              simp only [St.set]
              split
              · exact Status.noConfusion
              · exact this
        · rw [if_neg hf] at h
          obtain ⟨s1, h1, h2⟩ := bind_ok h
          cases h2
          obtain ⟨a1, a2, a3, a4, a5⟩ := runCmds_good ih (body_owner traps f) h1 (by simp [St.set])
          refine ⟨fun g => ?_, by simp [St.set, St.log], fun hcl => ?_⟩
          · by_cases hg : g = f
            · subst hg
              right
              refine ⟨hfr, by simp [St.set, St.log], ?_⟩
              rw [log_part_eq (by rfl)]
              show part s1.trace g ++ [.fin g] = _
              rw [a3, body_duties, whole, if_neg hf]
              simp [St.set]
            · have := a1 g hg
              have e1 : (s.set f .trying).status g = s.status g := by simp [St.set, hg]
              have e2 : ((s1.set f .done).log (.fin f)).status g = s1.status g := by simp [St.set, St.log, hg]
              have e3 : part ((s1.set f .done).log (.fin f)).trace g = part s1.trace g :=
                log_part_ne (by simp only [whose]; exact Ne.symm hg)
              unfold Step at this ⊢
              rw [e1] at this
              rw [e2, e3]
              exact this
          · have c0 : Closed (s.set f .trying) := by
              intro f' hd g hg
              have hf' : f' ≠ f := fun e => by subst e; simp [St.set] at hd
              have : s.status f' = .done := by simpa [St.set, hf'] using hd
              have := hcl f' this g hg
              simp only [St.set]
              split
              · exact Status.noConfusion
              · exact this
            have c1 := a4 c0
            intro f' hd g hg
            have hm : ∀ g, s1.status g ≠ .fresh → ((s1.set f .done).log (.fin f)).status g ≠ .fresh := by
              intro g hg
              simp only [St.set, St.log]
              split
              · exact Status.noConfusion
              · exact hg
            by_cases hf' : f' = f
            · subst hf'
              exact hm g (a5 g (body_needs traps f' hf g hg))
            · have : s1.status f' = .done := by simpa [St.set, St.log, hf'] using hd
              exact hm g (c1 f' this g hg)
    exact ⟨fun h => (key h).1, fun h => (key h).2.1, fun h => (key h).2.2⟩

/-! ## The theorems -/

/-- **C123**.  Whatever is called first, in whatever order and however often, and whatever is called meanwhile from hooks: each initialiser has either done
nothing, or all its work, once and in order. -/
theorem once {traps : Bool} {fuel : Nat} {es : List Entry} {reent : List (List Entry)} {s : St} (h : run traps fuel es (start reent) = .ok s) (f : Fn) :
    (s.status f = .fresh ∧ part s.trace f = []) ∨ (s.status f = .done ∧ part s.trace f = whole traps f) := by
  obtain ⟨a1, _⟩ := enterAll_good (exec_good traps fuel) h
  rcases a1 f with ⟨k1, k2⟩ | ⟨_, k2, k3⟩
  · exact .inl ⟨k1, k2⟩
  · exact .inr ⟨k2, k3⟩

/-- **C123**.  What was called is done when the calls are, and so is all that it needs. -/
theorem complete {traps : Bool} {fuel : Nat} {es : List Entry} {reent : List (List Entry)} {s : St} (h : run traps fuel es (start reent) = .ok s) :
    (∀ f, .init f ∈ es → s.status f = .done) ∧ (.ensure ∈ es → s.status .global = .done) ∧
    ∀ f, s.status f = .done → ∀ g ∈ needs f, s.status g = .done := by
  obtain ⟨_, a2, a3, a4⟩ := enterAll_good (exec_good traps fuel) h
  have hd : ∀ g, s.status g ≠ .fresh → s.status g = .done := by
    intro g hg
    rcases once h g with ⟨k, _⟩ | ⟨k, _⟩
    · exact absurd k hg
    · exact k
  refine ⟨fun f hf => hd f (a3 f hf), fun hf => hd _ (a4 hf), fun f hf g hg => hd g (a2 ?_ f hf g hg)⟩
  intro f' hf'
  cases hf'

/-- **C123**.  In particular, after a query or after the first constructor, whichever it is of those for mappings, for files, for segments, for
symbols or for all, everything but the stack's limit has been set up, once. -/
theorem all_set_up {traps : Bool} {fuel : Nat} {es : List Entry} {reent : List (List Entry)} {s : St} (h : run traps fuel es (start reent) = .ok s)
    (he : .ensure ∈ es ∨ ∃ f ∈ [Fn.mmap, .global, .file, .segment, .symbol], .init f ∈ es) :
    ∀ f ∈ [Fn.pageindex, .mmap, .brk, .runt, .global, .file, .auxv], part s.trace f = whole traps f := by
  obtain ⟨c1, c2, c3⟩ := complete h
  have hg : s.status .global = .done := by
    rcases he with he | ⟨f, hf, he⟩
    · exact c2 he
    · have hf' := c1 f he
      simp only [List.mem_cons, List.not_mem_nil, or_false] at hf
      rcases hf with rfl | rfl | rfl | rfl | rfl
      · exact c3 _ hf' _ (by decide)
      · exact hf'
      · exact c3 .mmap (c3 _ hf' _ (by decide)) _ (by decide)
      · exact c3 .mmap (c3 .file (c3 _ hf' _ (by decide)) _ (by decide)) _ (by decide)
      · exact c3 .mmap (c3 _ hf' _ (by decide)) _ (by decide)
  have hm := c3 .global hg .mmap (by decide)
  have hfl := c3 .global hg .file (by decide)
  intro f hf
  have : s.status f = .done := by
    simp only [List.mem_cons, List.not_mem_nil, or_false] at hf
    rcases hf with rfl | rfl | rfl | rfl | rfl | rfl | rfl
    · exact c3 .mmap hm _ (by decide)
    · exact hm
    · exact c3 .mmap hm _ (by decide)
    · exact c3 .mmap hm _ (by decide)
    · exact hg
    · exact hfl
    · exact c3 .file hfl _ (by decide)
  rcases once h f with ⟨k, _⟩ | ⟨_, k⟩
  · rw [this] at k; cases k
  · exact k

/-! ## Start-up ends -/

def guarded : List Fn := [.pageindex, .mmap, .brk, .runt, .global, .file, .auxv, .symbol, .stack, .frame]

/-- How many initialisers have not begun, that for segments left out. -/
def left (s : St) : Nat := guarded.countP fun g => decide (s.status g = .fresh)

theorem left_mono {traps : Bool} {s s' : St} (h : ∀ g, Step traps s s' g) : left s' ≤ left s := by
  unfold left
  apply List.countP_mono_left
  intro g _ hg
  rw [decide_eq_true_eq] at hg ⊢
  exact Decidable.byContradiction fun hn => (h g).notFresh hn hg

theorem countP_lt {α : Type} {p q : α → Bool} : ∀ {l : List α}, (∀ a ∈ l, p a = true → q a = true) → (∃ a ∈ l, q a = true ∧ p a = false) →
    l.countP p < l.countP q
  | [], _, ⟨_, h, _⟩ => by cases h
  | a :: l, h, ⟨b, hb, hb1, hb2⟩ => by
    rcases List.mem_cons.mp hb with e | hb
    · subst e
      rw [List.countP_cons_of_pos hb1, List.countP_cons_of_neg (by rw [hb2]; exact Bool.false_ne_true)]
      have := List.countP_mono_left (l := l) (p := p) (q := q) fun x hx => h x (by simp [hx])
      omega
    · have ih := countP_lt (l := l) (fun x hx => h x (by simp [hx])) ⟨b, hb, hb1, hb2⟩
      have := h a (by simp)
      cases hp : p a with
      | true => rw [List.countP_cons_of_pos hp, List.countP_cons_of_pos (this hp)]; omega
      | false =>
        rw [List.countP_cons_of_neg (by rw [hp]; exact Bool.false_ne_true)]
        cases hq : q a with
        | true => rw [List.countP_cons_of_pos hq]; omega
        | false => rw [List.countP_cons_of_neg (by rw [hq]; exact Bool.false_ne_true)]; exact ih

theorem left_trying {s : St} {f : Fn} (hf : f ≠ .segment) (h : s.status f = .fresh) : left (s.set f .trying) < left s := by
  unfold left
  apply countP_lt
  · intro g _ hg
    rw [decide_eq_true_eq] at hg ⊢
    simp only [St.set] at hg
    split at hg
    · cases hg
    · exact hg
  · refine ⟨f, by cases f <;> first | exact absurd rfl hf | decide, by rw [decide_eq_true_eq]; exact h, by simp [St.set]⟩

/-- Calls that end from states with at most `n` initialisers left. -/
def Ends (call : St → Fn → Res) (n : Nat) : Prop := ∀ s f, left s ≤ n → call s f ≠ .fuel

theorem enterAll_ends {traps : Bool} {call : St → Fn → Res} (hc : Good traps call) {n : Nat} (he : Ends call n) : ∀ (es : List Entry) (s : St), left s ≤ n →
    enterAll call es s ≠ .fuel
  | [], _, _ => Res.noConfusion
  | e :: es, s, hl => by
    rw [enterAll]
    have h0 : enter call s e ≠ .fuel := by
      cases e with
      | init f => exact he s f hl
      | ensure =>
        simp only [enter]
        split
        · exact Res.noConfusion
        · exact he s _ hl
    cases hr : enter call s e with
    | ok s1 => exact enterAll_ends hc he es s1 (Nat.le_trans (left_mono (enter_good hc hr).1) hl)
    | abort => exact Res.noConfusion
    | fuel => exact absurd hr h0

theorem runCmd_ends {traps : Bool} {call : St → Fn → Res} (hc : Good traps call) {n : Nat} (he : Ends call n) (c : Cmd) (s : St) (hl : left s ≤ n) :
    runCmd call s c ≠ .fuel ∧ ∀ s', runCmd call s c = .ok s' → left s' ≤ n := by
  cases c with
  | call f => exact ⟨he s f hl, fun s' h => Nat.le_trans (left_mono (hc.step h)) hl⟩
  | work w =>
    simp only [runCmd, work]
    cases hr : s.reent with
    | nil => exact ⟨Res.noConfusion, fun s' h => by cases h; exact hl⟩
    | cons es rest => exact ⟨enterAll_ends hc he es _ hl, fun s' h => Nat.le_trans (left_mono (enterAll_good hc h).1) hl⟩

theorem runCmds_ends {traps : Bool} {call : St → Fn → Res} (hc : Good traps call) {n : Nat} (he : Ends call n) : ∀ (cs : List Cmd) (s : St), left s ≤ n →
    runCmds call cs s ≠ .fuel
  | [], _, _ => Res.noConfusion
  | c :: cs, s, hl => by
    rw [runCmds]
    obtain ⟨h1, h2⟩ := runCmd_ends hc he c s hl
    cases hr : runCmd call s c with
    | ok s1 => exact runCmds_ends hc he cs s1 (h2 s1 hr)
    | abort => exact Res.noConfusion
    | fuel => exact absurd hr h1

theorem exec_ends (traps : Bool) : ∀ (fuel : Nat) (s : St) (f : Fn), 2 * left s + 1 + (if f = .segment then 1 else 0) ≤ fuel → exec traps fuel s f ≠ .fuel
  | 0, _, _, h => by omega
  | fuel + 1, s, f, h => by
    rw [exec]
    by_cases hs : s.status f ≠ .fresh
    · rw [if_pos hs]; exact Res.noConfusion
    · rw [if_neg hs]
      have hfr : s.status f = .fresh := Decidable.not_not.mp hs
      by_cases hf : f = .segment
      · rw [if_pos hf]
        rw [if_pos hf] at h
        have := exec_ends traps fuel s .file (by simp; omega)
        cases hr : exec traps fuel s .file with
        | ok s1 => exact Res.noConfusion
        | abort => exact Res.noConfusion
        | fuel => exact absurd hr this
      · rw [if_neg hf]
        rw [if_neg hf] at h
        have hlt := left_trying hf hfr
        have he : Ends (exec traps fuel) (left (s.set f .trying)) := by
          intro s' f' hl'
          refine exec_ends traps fuel s' f' ?_
          split <;> omega
        have := runCmds_ends (exec_good traps fuel) he (body traps f) (s.set f .trying) (Nat.le_refl _)
        cases hr : runCmds (exec traps fuel) (body traps f) (s.set f .trying) with
        | ok s1 => exact Res.noConfusion
        | abort => exact Res.noConfusion
        | fuel => exact absurd hr this

/-- **C123**.  Start-up ends, whatever is called and whatever hooks do: calls are never nested more than 22 deep. -/
theorem ends (traps : Bool) (es : List Entry) (reent : List (List Entry)) : run traps 22 es (start reent) ≠ .fuel := by
  refine enterAll_ends (exec_good traps 22) (n := 10) ?_ es _ ?_
  · intro s f hl
    refine exec_ends traps 22 s f ?_
    split <;> omega
  · exact List.countP_le_length

/-! ## Assertions -/

/-- Calls in which no hook makes a query. -/
def NoQuery (s : St) : Prop := ∀ es ∈ s.reent, .ensure ∉ es

/-- Calls that do not abort, and leave no query to be made. -/
def Safe (call : St → Fn → Res) : Prop := ∀ s f, NoQuery s → call s f ≠ .abort ∧ ∀ s', call s f = .ok s' → NoQuery s'

theorem enterAll_safe {call : St → Fn → Res} (hc : Safe call) : ∀ (es : List Entry) (s : St), .ensure ∉ es → NoQuery s →
    enterAll call es s ≠ .abort ∧ ∀ s', enterAll call es s = .ok s' → NoQuery s'
  | [], s, _, hq => ⟨Res.noConfusion, fun s' h => by cases h; exact hq⟩
  | e :: es, s, he, hq => by
    rw [enterAll]
    have hi : ∃ f, e = .init f := by
      cases e with
      | init f => exact ⟨f, rfl⟩
      | ensure => exact absurd (by simp) he
    obtain ⟨f, rfl⟩ := hi
    simp only [enter]
    obtain ⟨h1, h2⟩ := hc s f hq
    cases hr : call s f with
    | ok s1 => exact enterAll_safe hc es s1 (fun h => he (by simp [h])) (h2 s1 hr)
    | abort => exact absurd hr h1
    | fuel => exact ⟨Res.noConfusion, fun s' h => by cases h⟩

theorem runCmds_safe {call : St → Fn → Res} (hc : Safe call) : ∀ (cs : List Cmd) (s : St), NoQuery s →
    runCmds call cs s ≠ .abort ∧ ∀ s', runCmds call cs s = .ok s' → NoQuery s'
  | [], s, hq => ⟨Res.noConfusion, fun s' h => by cases h; exact hq⟩
  | c :: cs, s, hq => by
    rw [runCmds]
    have h0 : runCmd call s c ≠ .abort ∧ ∀ s', runCmd call s c = .ok s' → NoQuery s' := by
      cases c with
      | call f => exact hc s f hq
      | work w =>
        simp only [runCmd, work]
        cases hr : s.reent with
        | nil => exact ⟨Res.noConfusion, fun s' h => by cases h; exact hq⟩
        | cons es rest =>
          refine enterAll_safe hc es _ (hq es (by rw [hr]; simp)) ?_
          intro es' h'
          exact hq es' (by rw [hr]; exact List.mem_cons_of_mem _ h')
    obtain ⟨h1, h2⟩ := h0
    cases hr : runCmd call s c with
    | ok s1 => exact runCmds_safe hc cs s1 (h2 s1 hr)
    | abort => exact absurd hr h1
    | fuel => exact ⟨Res.noConfusion, fun s' h => by cases h⟩

theorem exec_safe (traps : Bool) : ∀ fuel, Safe (exec traps fuel)
  | 0 => fun _ _ _ => ⟨Res.noConfusion, fun _ h => by cases h⟩
  | fuel + 1 => by
    intro s f hq
    rw [exec]
    split
    · exact ⟨Res.noConfusion, fun s' h => by cases h; exact hq⟩
    · split
      · obtain ⟨h1, h2⟩ := exec_safe traps fuel s .file hq
        cases hr : exec traps fuel s .file with
        | ok s1 => exact ⟨Res.noConfusion, fun s' h => by cases h; exact h2 s1 hr⟩
        | abort => exact absurd hr h1
        | fuel => exact ⟨Res.noConfusion, fun s' h => by cases h⟩
      · obtain ⟨h1, h2⟩ := runCmds_safe (exec_safe traps fuel) (body traps f) (s.set f .trying) hq
        cases hr : runCmds (exec traps fuel) (body traps f) (s.set f .trying) with
        | ok s1 => exact ⟨Res.noConfusion, fun s' h => by cases h; exact h2 s1 hr⟩
        | abort => exact absurd hr h1
        | fuel => exact ⟨Res.noConfusion, fun s' h => by cases h⟩

theorem run_safe (traps : Bool) (fuel : Nat) : ∀ (es : List Entry) (s : St), NoQuery s → (∀ f, s.status f ≠ .trying) → run traps fuel es s ≠ .abort
  | [], _, _, _ => Res.noConfusion
  | e :: es, s, hq, ht => by
    unfold run
    rw [enterAll]
    have hcall : ∃ f, enter (exec traps fuel) s e = exec traps fuel s f := by
      cases e with
      | init f => exact ⟨f, rfl⟩
      | ensure => exact ⟨.global, by simp only [enter]; rw [if_neg (ht .global)]⟩
    obtain ⟨f, hf⟩ := hcall
    rw [hf]
    obtain ⟨h1, h2⟩ := exec_safe traps fuel s f hq
    cases hr : exec traps fuel s f with
    | ok s1 =>
      refine run_safe traps fuel es s1 (h2 s1 hr) fun g hg => ?_
      rcases (exec_good traps fuel).step hr g with ⟨k, _⟩ | ⟨_, k, _⟩
      · rw [k] at hg; exact ht g hg
      · rw [k] at hg; cases hg
    | abort => exact absurd hr h1
    | fuel => exact Res.noConfusion

/-- **C124** (partial: no hook makes a query meanwhile).  Start-up succeeds from any beginning, and queries by the program at any time. -/
theorem succeeds_partial (traps : Bool) (es : List Entry) (reent : List (List Entry)) (h : ∀ l ∈ reent, .ensure ∉ l) :
    ∃ s, run traps 22 es (start reent) = .ok s := by
  have h1 := ends traps es reent
  have h2 := run_safe traps 22 es (start reent) h (fun f => Status.noConfusion)
  cases hr : run traps 22 es (start reent) with
  | ok s => exact ⟨s, rfl⟩
  | abort => exact absurd hr h2
  | fuel => exact absurd hr h1

/-! ## Where it goes wrong -/

/-- A query from a hook while the program-wide initialiser runs fails an assertion. -/
theorem query_fails : run true 22 [.init .global] (start [[.ensure]]) = .abort := by rfl

/-- Events of a run. -/
def eventsOf : Res → List Event
  | .ok s => s.trace
  | _ => []

/-- A query from a hook while mappings are being added is let through: the library says that it is initialised before mappings have been added and traps started. -/
theorem too_early_fails : eventsOf (run true 22 [.init .mmap] (start [[], [.ensure]])) =
    [.work .mapIndex, .fin .pageindex, .work .addMappings, .work .setUp, .work .readFiles, .fin .runt, .work .findAuxv, .fin .auxv, .fin .file, .fin .global,
      .work .makeBrk, .fin .brk, .work .startTraps, .work .loadMeta, .work .makeDlbind, .work .makeTypes, .fin .mmap] := by decide +kernel

/-- Even without hooks the library says that it is initialised before mappings and, if files come first, before files are. -/
theorem order_fails : ((eventsOf (run true 22 [.init .file] (start []))).filter fun e => decide (e ∈ [Event.fin .global, .fin .file, .fin .mmap])) =
    [.fin .global, .fin .mmap, .fin .file] := by decide +kernel

/-! ## A concrete case -/

/-- The usual order of constructors: the index and mappings, then files, then all. -/
example : eventsOf (run true 22 [.init .pageindex, .init .mmap, .init .stack, .init .auxv, .init .file, .init .brk, .init .segment, .init .symbol, .init .global, .ensure] (start [])) =
    [.work .mapIndex, .fin .pageindex, .work .addMappings, .work .makeBrk, .fin .brk, .work .readFiles, .fin .runt, .work .startTraps, .work .loadMeta,
      .work .makeDlbind, .work .makeTypes, .work .setUp, .work .findAuxv, .fin .auxv, .fin .file, .fin .global, .fin .mmap,
      .work .readLimit, .fin .stack, .fin .symbol] := by decide +kernel

end Liballocs.StartUp
