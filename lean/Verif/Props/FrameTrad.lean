import Verif.Proofs.FrameTrad
/-!
# Properties of the traditional form of frame descriptions, as the newer tool writes it

What the library says is live at an address, and the type that the reader of the table finds for it, are related here. `Denotes` says what a name in the
output stands for.
-/
namespace Liballocs.FrameTrad

open FrameTypes (Seg join glue seg add At From)
open FrameCompact (Info Flags Range keep put ins elLt offsets pairLt Wanted Asc)

/-! ## Specification -/

/-- An expression whose place is simple: it neither reads nor names a register, describes the first piece of a variable, and up to the end of that piece
there is nothing that reads memory or is not supported. -/
structure Simple (L : Lib) (e : Nat) : Prop where
  registers : ∀ o ∈ L.ops e, o ≠ .reads ∧ o ≠ .names
  first : (L.info e).pieceOff = 0
  supported : ∀ pre o post, L.ops e = pre ++ o :: post → Op.piece ∉ pre → o ≠ .memory ∧ o ≠ .odd

/-- The elements that are to be described at an address. -/
def Live (f : Flags) (L : Lib) (locals cfi : List Range) (pc e : Nat) : Prop :=
  (∃ r ∈ locals, Wanted f (L.info e) ∧ (f.traditional = true → (L.info e).isVar = true → Simple L e) ∧ r.el = e ∧ r.lo ≤ pc ∧ pc < r.hi) ∨
    (f.cfi = true ∧ ∃ r ∈ cfi, r.el = e ∧ r.lo ≤ pc ∧ pc < r.hi)

/-- A variable that is at an offset from the frame's base at an address. -/
def OnStack (f : Flags) (L : Lib) (locals cfi : List Range) (pc e : Nat) (o : Int) : Prop :=
  Live f L locals cfi pc e ∧ (L.info e).isVar = true ∧ (L.info e).off = some o

/-- Each element belongs to one subprogram, and where it is live there is no code of another. -/
def Owned (f : Flags) (L : Lib) (locals cfi : List Range) (own : Nat → Nat) : Prop := ∀ pc e, Live f L locals cfi pc e → L.subAt pc = [own e]

/-! ## What is gathered -/

theorem wholeOk_iff (l : List Op) : wholeOk l = true ↔ ∀ o ∈ l, o ≠ .reads ∧ o ≠ .names := by
  simp [wholeOk, List.all_eq_true]

theorem firstOk_iff : ∀ l : List Op, firstOk l = true ↔ ∀ pre o post, l = pre ++ o :: post → Op.piece ∉ pre → o ≠ .memory ∧ o ≠ .odd
  | [] => by simp [firstOk]
  | a :: l => by
    have ih := firstOk_iff l
    constructor
    · intro h pre o post he hp
      cases pre with
      | nil =>
        simp at he
        obtain ⟨rfl, rfl⟩ := he
        cases a <;> simp [firstOk] at h ⊢
      | cons b pre =>
        simp only [List.cons_append, List.cons.injEq] at he
        obtain ⟨rfl, he⟩ := he
        simp only [List.mem_cons, not_or] at hp
        refine ih.mp ?_ pre o post he hp.2
        cases a <;> first | (exact h) | (exact absurd rfl hp.1) | (simp [firstOk] at h)
    · intro h
      have h0 := h [] a l rfl (by simp)
      cases a <;> simp [firstOk] at h0 ⊢
      all_goals
        refine ih.mpr (fun pre o post he hp => ?_)
        exact h (_ :: pre) o post (by rw [he]; rfl) (by simp [hp])

theorem kept_iff (f : Flags) (L : Lib) (e : Nat) :
    kept f L e = true ↔ Wanted f (L.info e) ∧ (f.traditional = true → (L.info e).isVar = true → Simple L e) := by
  unfold kept
  rw [Bool.and_eq_true, FrameCompact.keep_iff]
  refine and_congr Iff.rfl ?_
  simp only [Bool.or_eq_true, Bool.not_eq_true', Bool.and_eq_true, decide_eq_true_eq, wholeOk_iff, firstOk_iff]
  constructor
  · rintro ((h | h) | ⟨⟨h1, h2⟩, h3⟩) a b
    · rw [h] at a; cases a
    · rw [h] at b; cases b
    · exact ⟨h1, h2, h3⟩
  · intro h
    cases ht : f.traditional with
    | false => exact Or.inl (Or.inl rfl)
    | true =>
      cases hv : (L.info e).isVar with
      | false => exact Or.inl (Or.inr rfl)
      | true =>
        obtain ⟨h1, h2, h3⟩ := h ht hv
        exact Or.inr ⟨⟨h1, h2⟩, h3⟩

/-- What is in the map at an address is what is live there. -/
theorem gather_spec (f : Flags) (L : Lib) (locals cfi : List Range) :
    From 0 (gather f L locals cfi) ∧ ∀ pc e, At (gather f L locals cfi) pc e ↔ Live f L locals cfi pc e := by
  obtain ⟨h1, h2⟩ := FrameCompact.puts_spec (locals.filter fun r => kept f L r.el) (m := []) .nil
  have h2' : ∀ pc e, At ((locals.filter fun r => kept f L r.el).foldl put []) pc e ↔
      ∃ r ∈ locals, Wanted f (L.info e) ∧ (f.traditional = true → (L.info e).isVar = true → Simple L e) ∧ r.el = e ∧ r.lo ≤ pc ∧ pc < r.hi := by
    intro pc e
    rw [h2]
    constructor
    · rintro (h | ⟨r, hr, g1, g2, rfl⟩)
      · exact absurd h FrameTypes.At_nil
      · obtain ⟨hr1, hr2⟩ := List.mem_filter.mp hr
        obtain ⟨k1, k2⟩ := (kept_iff _ _ _).mp hr2
        exact ⟨r, hr1, k1, k2, rfl, g1, g2⟩
    · rintro ⟨r, hr, k1, k2, rfl, g1, g2⟩
      exact Or.inr ⟨r, List.mem_filter.mpr ⟨hr, (kept_iff _ _ _).mpr ⟨k1, k2⟩⟩, g1, g2, rfl⟩
  unfold gather Live
  cases hc : f.cfi with
  | false =>
    refine ⟨h1, fun pc e => ?_⟩
    rw [show At _ pc e ↔ _ from h2' pc e]
    simp
  | true =>
    obtain ⟨h3, h4⟩ := FrameCompact.puts_spec cfi h1
    refine ⟨h3, fun pc e => ?_⟩
    rw [show At _ pc e ↔ _ from h4 pc e, h2']
    constructor
    · rintro (h | ⟨r, hr, g1, g2, rfl⟩)
      · exact Or.inl h
      · exact Or.inr ⟨rfl, r, hr, rfl, g1, g2⟩
    · rintro (h | ⟨_, r, hr, rfl, g1, g2⟩)
      · exact Or.inl h
      · exact Or.inr ⟨r, hr, g1, g2, rfl⟩

/-- Ascending lists with the same members are the same. -/
theorem asc_ext {α : Type} {lt : α → α → Bool} (ho : FrameCompact.Order lt) : ∀ {l r : List α}, Asc lt l → Asc lt r → (∀ x, x ∈ l ↔ x ∈ r) → l = r
  | [], [], _, _, _ => rfl
  | [], b :: r, _, _, h => by have := (h b).mpr List.mem_cons_self; cases this
  | a :: l, [], _, _, h => by have := (h a).mp List.mem_cons_self; cases this
  | a :: l, b :: r, hl, hr, h => by
    have hl' := List.pairwise_cons.mp hl
    have hr' := List.pairwise_cons.mp hr
    have hab : a = b := by
      rcases List.mem_cons.mp ((h a).mp List.mem_cons_self) with h1 | h1
      · exact h1
      · rcases List.mem_cons.mp ((h b).mpr List.mem_cons_self) with h2 | h2
        · exact h2.symm
        · have := ho.trans _ _ _ (hl'.1 b h2) (hr'.1 a h1)
          rw [ho.irrefl] at this
          cases this
    subst hab
    rw [asc_ext ho hl'.2 hr'.2 fun x => ?_]
    have hx := h x
    rw [List.mem_cons, List.mem_cons] at hx
    constructor
    · intro g
      rcases hx.mp (Or.inr g) with rfl | g'
      · have := hl'.1 x g; rw [ho.irrefl] at this; cases this
      · exact g'
    · intro g
      rcases hx.mpr (Or.inr g) with rfl | g'
      · have := hr'.1 x g; rw [ho.irrefl] at this; cases this
      · exact g'

theorem byOff_spec (L : Lib) (els : List Nat) : Asc pairLt (byOff L els) ∧
    ∀ p, p ∈ byOff L els ↔ p.2 ∈ els ∧ (L.info p.2).isVar = true ∧ (L.info p.2).off = some p.1 := by
  obtain ⟨h1, h2⟩ := FrameCompact.offsets_spec L.info (els.filter fun e => (L.info e).isVar)
  refine ⟨h1, fun p => ?_⟩
  rw [show p ∈ byOff L els ↔ _ from h2 p, List.mem_filter, and_assoc]

/-! ## The table -/

/-- The record of an interval. -/
def recOf (L : Lib) (m : List (Seg Nat)) (x : Nat) (s : Seg Nat) : Rec := ⟨s.lo, s.hi, offOf L m x, nameOf x s⟩

theorem recLt_iff (a b : Rec) : recLt a b = true ↔ a.lo < b.lo ∨ (a.lo = b.lo ∧ (a.hi < b.hi ∨ (a.hi = b.hi ∧ a.name.subp < b.name.subp))) := by
  simp [recLt]

/-- All records are those of intervals. -/
def Good (L : Lib) (m : List (Seg Nat)) (t : List Rec) : Prop := ∀ r ∈ t, ∃ x, ∃ s ∈ mine L m x, r = recOf L m x s

theorem insRec_spec {L : Lib} {m : List (Seg Nat)} {a : Rec} (ha : ∃ x, ∃ s ∈ mine L m x, a = recOf L m x s) : ∀ t : List Rec, Good L m t →
    t.Pairwise (fun a b => recLt a b = true) →
    (∀ r, r ∈ insRec a t ↔ r = a ∨ r ∈ t) ∧ (insRec a t).Pairwise (fun a b => recLt a b = true)
  | [], _, _ => by simp [insRec]
  | b :: t, hg, hp => by
    have hp' := List.pairwise_cons.mp hp
    obtain ⟨h1, h2⟩ := insRec_spec ha t (fun r hr => hg r (List.mem_cons_of_mem _ hr)) hp'.2
    unfold insRec
    split
    · rename_i hl
      refine ⟨fun r => by simp, List.pairwise_cons.mpr ⟨fun r hr => ?_, hp⟩⟩
      rcases List.mem_cons.mp hr with rfl | hr
      · exact hl
      · have := hp'.1 r hr
        rw [recLt_iff] at *
        omega
    · split
      · rename_i hn hl
        refine ⟨fun r => ?_, List.pairwise_cons.mpr ⟨fun r hr => ?_, h2⟩⟩
        · rw [List.mem_cons, h1, List.mem_cons]
          constructor
          · rintro (h | h | h) <;> simp [h]
          · rintro (h | h | h) <;> simp [h]
        · rcases (h1 r).mp hr with rfl | hr
          · exact hl
          · exact hp'.1 r hr
      · rename_i hn hl
        have hab : a = b := by
          obtain ⟨x, s, _, rfl⟩ := ha
          obtain ⟨y, u, _, rfl⟩ := hg b List.mem_cons_self
          rw [recLt_iff] at hn hl
          simp only [recOf, nameOf] at hn hl ⊢
          have e1 : s.lo = u.lo := by omega
          have e2 : s.hi = u.hi := by omega
          have e3 : x = y := by omega
          rw [e1, e2, e3]
        subst hab
        exact ⟨fun r => by simp, hp⟩

theorem records_spec {L : Lib} {m : List (Seg Nat)} (hf : From 0 m) {k : List (Seg (Int × Nat))} {done : List (Seg Nat)} (hinv : Inv L done k)
    (hdone : ∀ t ∈ done, Mine L m t) {x : Nat} : ∀ (l : List (Seg Nat)) (t t' : List Rec), (∀ s ∈ l, s ∈ mine L m x) → Good L m t →
    t.Pairwise (fun a b => recLt a b = true) → records L m k x t l = .ok t' →
    Good L m t' ∧ t'.Pairwise (fun a b => recLt a b = true) ∧ (∀ s ∈ l, s ∈ done ∧ byOff L s.els ≠ []) ∧
      ∀ r, r ∈ t' ↔ r ∈ t ∨ ∃ s ∈ l, r = recOf L m x s
  | [], t, t', _, hg, hp, h => by
    unfold records at h
    injection h with h
    subst h
    exact ⟨hg, hp, by simp, by simp⟩
  | s :: l, t, t', hl, hg, hp, h => by
    have hs := hl s List.mem_cons_self
    have hlow := (mine_from (L := L) hf x).low s hs
    unfold records at h
    cases hk : lookup k s.lo s.hi with
    | none => rw [hk] at h; cases h
    | some v =>
      rw [hk] at h
      dsimp only at h
      obtain ⟨a1, a2, a3⟩ := hinv.lookup (mine_disj hf) hdone ⟨x, hs⟩ hlow.2.1 hk
      cases hv : v.els with
      | nil => rw [a2] at hv; exact absurd hv a3
      | cons p q =>
        rw [hv] at h
        dsimp only at h
        obtain ⟨b1, b2⟩ := insRec_spec (a := recOf L m x s) ⟨x, s, hs, rfl⟩ t hg hp
        obtain ⟨c1, c2, c3, c4⟩ := records_spec hf hinv hdone l _ t' (fun u hu => hl u (List.mem_cons_of_mem _ hu)) (by
          intro r hr
          rcases (b1 r).mp hr with rfl | hr
          · exact ⟨x, s, hs, rfl⟩
          · exact hg r hr) b2 h
        refine ⟨c1, c2, ?_, fun r => ?_⟩
        · intro u hu
          rcases List.mem_cons.mp hu with rfl | hu
          · exact ⟨a1, a3⟩
          · exact c3 u hu
        · rw [c4, show r ∈ insRec _ t ↔ _ from b1 r]
          constructor
          · rintro ((h | h) | ⟨u, h1, h2⟩)
            · exact Or.inr ⟨s, by simp, h⟩
            · exact Or.inl h
            · exact Or.inr ⟨u, by simp [h1], h2⟩
          · rintro (h | ⟨u, h1, h2⟩)
            · exact Or.inl (Or.inr h)
            · rcases List.mem_cons.mp h1 with rfl | h1
              · exact Or.inl (Or.inl h2)
              · exact Or.inr ⟨u, h1, h2⟩

theorem table_spec {L : Lib} {m : List (Seg Nat)} (hf : From 0 m) {k : List (Seg (Int × Nat))} {done : List (Seg Nat)} (hinv : Inv L done k)
    (hdone : ∀ t ∈ done, Mine L m t) : ∀ (xs : List Nat) (t t' : List Rec), Good L m t → t.Pairwise (fun a b => recLt a b = true) →
    table L m k t xs = .ok t' →
    Good L m t' ∧ t'.Pairwise (fun a b => recLt a b = true) ∧ (∀ x ∈ xs, ∀ s ∈ mine L m x, s ∈ done ∧ byOff L s.els ≠ []) ∧
      ∀ r, r ∈ t' ↔ r ∈ t ∨ ∃ x ∈ xs, ∃ s ∈ mine L m x, r = recOf L m x s
  | [], t, t', hg, hp, h => by
    unfold table at h
    injection h with h
    subst h
    exact ⟨hg, hp, by simp, by simp⟩
  | x :: xs, t, t', hg, hp, h => by
    unfold table at h
    cases hr : records L m k x t (mine L m x) with
    | error e => rw [hr] at h; cases h
    | ok u =>
      rw [hr] at h
      dsimp only at h
      obtain ⟨b1, b2, b3, b4⟩ := records_spec hf hinv hdone _ t u (fun s hs => hs) hg hp hr
      obtain ⟨c1, c2, c3, c4⟩ := table_spec hf hinv hdone xs u t' b1 b2 h
      refine ⟨c1, c2, ?_, fun r => ?_⟩
      · intro y hy s hs
        rcases List.mem_cons.mp hy with rfl | hy
        · exact b3 s hs
        · exact c3 y hy s hs
      · rw [c4, b4]
        simp only [List.mem_cons, exists_eq_or_imp, or_assoc]

theorem mem_owners {L : Lib} {m : List (Seg Nat)} {x : Nat} : x ∈ owners L m ↔ ∃ s ∈ m, owner L s = some x := by
  have aux : ∀ (m : List (Seg Nat)) (l : List Nat), x ∈ m.foldl (addOwner L) l ↔ x ∈ l ∨ ∃ s ∈ m, owner L s = some x := by
    intro m
    induction m with
    | nil => simp
    | cons s m ih =>
      intro l
      rw [List.foldl_cons, ih, addOwner]
      cases ho : owner L s with
      | none => simp [ho]
      | some y =>
        dsimp only
        rw [FrameCompact.mem_ins FrameCompact.elOrder]
        simp only [List.mem_cons, exists_eq_or_imp, ho, Option.some.injEq]
        constructor
        · rintro ((h | h) | h)
          · exact Or.inr (Or.inl h.symm)
          · exact Or.inl h
          · exact Or.inr (Or.inr h)
        · rintro (h | h | h)
          · exact Or.inl (Or.inr h)
          · exact Or.inl (Or.inl h.symm)
          · exact Or.inr h
  rw [owners, aux]
  simp

/-- What is known when the tool succeeds. -/
structure Done (L : Lib) (m : List (Seg Nat)) (is : List Item) (t : List Rec) : Prop where
  names : (is.map Item.name).Nodup
  told : ∀ x s, s ∈ mine L m x → x ∈ L.keys ∧ byOff L s.els ≠ [] ∧ Told L (frameOffset L (mine L m x)) x is s
  order : t.Pairwise (fun a b => recLt a b = true)
  recs : ∀ r, r ∈ t ↔ ∃ x, ∃ s ∈ mine L m x, r = recOf L m x s

theorem names_nodup {L : Lib} {m : List (Seg Nat)} (hf : From 0 m) : ∀ xs : List Nat, xs.Nodup →
    (xs.flatMap (fun x => ((mine L m x).filter (full L)).map (nameOf x))).Nodup
  | [], _ => by simp
  | x :: xs, hn => by
    rw [List.nodup_cons] at hn
    rw [List.flatMap_cons, List.nodup_append]
    refine ⟨?_, names_nodup hf xs hn.2, ?_⟩
    · rw [List.nodup_iff_pairwise_ne, List.pairwise_map]
      have hp := From.pairwise (mine_from (L := L) hf x)
      have hp' := List.Pairwise.filter (full L) hp
      refine List.Pairwise.imp_of_mem (fun {a b} ha _ hab he => ?_) hp'
      have := (mine_from (L := L) hf x).low a (List.mem_filter.mp ha).1
      simp only [nameOf, Name.mk.injEq] at he
      exact hab a.lo (Nat.le_refl _) this.2.1 (by omega) (by omega)
    · intro a ha b hb he
      obtain ⟨s, _, rfl⟩ := List.mem_map.mp ha
      obtain ⟨y, hy, hb⟩ := List.mem_flatMap.mp hb
      obtain ⟨u, _, rfl⟩ := List.mem_map.mp hb
      simp only [nameOf, Name.mk.injEq] at he
      rw [he.1] at hn
      exact hn.1 hy

theorem mine_owner {L : Lib} {m : List (Seg Nat)} (hf : From 0 m) {x : Nat} {s : Seg Nat} (hs : s ∈ mine L m x) : x ∈ owners L m := by
  have := (mine_from (L := L) hf x).low s hs
  obtain ⟨u, hu, ho, _⟩ := (mine_val hf x s.lo _).mp ⟨s, hs, Nat.le_refl _, this.2.1, rfl⟩
  exact mem_owners.mpr ⟨u, hu, ho⟩

theorem write_done {L : Lib} {m : List (Seg Nat)} (hf : From 0 m) (hk : L.keys.Nodup) {is : List Item} {t : List Rec} (h : write L m = .ok (is, t)) :
    Done L m is t := by
  unfold write at h
  cases h1 : subps L m L.keys [] with
  | error e => rw [h1] at h; cases h
  | ok p =>
    obtain ⟨is', k⟩ := p
    rw [h1] at h
    dsimp only at h
    cases h2 : table L m k [] (owners L m) with
    | error e => rw [h2] at h; cases h
    | ok t' =>
      rw [h2] at h
      dsimp only at h
      injection h with h
      injection h with e1 e2
      subst e1 e2
      obtain ⟨a1, a2, a3⟩ := subps_spec hf L.keys [] [] is' k h1 Inv.nil hk (by simp)
      rw [List.nil_append] at a1
      obtain ⟨_, b2, b3, b4⟩ := table_spec hf a1 (by
        intro s hs
        obtain ⟨y, _, hy⟩ := List.mem_flatMap.mp hs
        exact ⟨y, hy⟩) (owners L m) [] t' (by intro r hr; cases hr) .nil h2
      refine ⟨by rw [a2]; exact names_nodup hf _ hk, ?_, b2, ?_⟩
      · intro x s hs
        obtain ⟨c1, c2⟩ := b3 x (mine_owner hf hs) s hs
        obtain ⟨y, hy1, hy2⟩ := List.mem_flatMap.mp c1
        have hlow := (mine_from (L := L) hf x).low s hs
        have := (mine_eq hf hs hy2 (Nat.le_refl _) hlow.2.1 (Nat.le_refl _) hlow.2.1).1
        subst this
        exact ⟨hy1, c2, a3 x hy1 s hs⟩
      · intro r
        rw [b4]
        constructor
        · rintro (h | ⟨x, _, s, hs, rfl⟩)
          · cases h
          · exact ⟨x, s, hs, rfl⟩
        · rintro ⟨x, s, hs, rfl⟩
          exact Or.inr ⟨x, mine_owner hf hs, s, hs, rfl⟩

theorem found_of {t : List Rec} {pc : Nat} {r : Rec} (hp : t.Pairwise (fun a b => a.lo < b.lo)) (hr : r ∈ t) (h1 : r.lo ≤ pc)
    (h2 : ∀ q ∈ t, r.lo < q.lo → pc < q.lo) : found t pc = some r := by
  unfold found
  induction t with
  | nil => cases hr
  | cons a t ih =>
    have hp' := List.pairwise_cons.mp hp
    rw [List.filter_cons]
    rcases List.mem_cons.mp hr with rfl | hr'
    · have : t.filter (fun q => decide (q.lo ≤ pc)) = [] := by
        rw [List.filter_eq_nil_iff]
        intro q hq
        have := h2 q (List.mem_cons_of_mem _ hq) (hp'.1 q hq)
        simp; omega
      rw [if_pos (by simpa using h1), this]
      rfl
    · have ih' := ih hp'.2 hr' (fun q hq => h2 q (List.mem_cons_of_mem _ hq))
      split
      · rw [List.getLast?_cons, ih']
        rfl
      · exact ih'

theorem Done.found {L : Lib} {m : List (Seg Nat)} (hf : From 0 m) {is : List Item} {t : List Rec} (h : Done L m is t) {x : Nat} {s : Seg Nat}
    (hs : s ∈ mine L m x) {pc : Nat} (h1 : s.lo ≤ pc) (h2 : pc < s.hi) : FrameTrad.found t pc = some (recOf L m x s) := by
  refine found_of ?_ ((h.recs _).mpr ⟨x, s, hs, rfl⟩) h1 ?_
  · refine List.Pairwise.imp_of_mem (fun {a b} ha hb hab => ?_) h.order
    obtain ⟨y, u, hu, rfl⟩ := (h.recs a).mp ha
    obtain ⟨z, v, hv, rfl⟩ := (h.recs b).mp hb
    rw [recLt_iff] at hab
    rcases hab with hab | ⟨hab, hab'⟩
    · exact hab
    · exfalso
      simp only [recOf, nameOf] at hab hab'
      have l1 := (mine_from (L := L) hf y).low u hu
      have l2 := (mine_from (L := L) hf z).low v hv
      obtain ⟨e1, e2⟩ := mine_eq hf hu hv (Nat.le_refl _) l1.2.1 (by omega) (by omega)
      subst e1 e2
      omega
  · intro q hq hlt
    obtain ⟨z, v, hv, rfl⟩ := (h.recs q).mp hq
    rcases Nat.lt_or_ge pc v.lo with g | g
    · exact g
    · exfalso
      have l2 := (mine_from (L := L) hf z).low v hv
      simp only [recOf] at hlt
      obtain ⟨e1, e2⟩ := mine_eq hf hs hv (pc := v.lo) (by omega) (by omega) (Nat.le_refl _) l2.2.1
      subst e1 e2
      omega

/-- The interval around an address where something is live. -/
theorem around {f : Flags} {L : Lib} {locals cfi : List Range} {own : Nat → Nat} (ho : Owned f L locals cfi own) {pc e : Nat}
    (hl : Live f L locals cfi pc e) : ∃ s ∈ mine L (gather f L locals cfi) (own e), s.lo ≤ pc ∧ pc < s.hi ∧
      ∀ e', e' ∈ s.els ↔ Live f L locals cfi pc e' := by
  obtain ⟨hf, hat⟩ := gather_spec f L locals cfi
  obtain ⟨u, hu, h1, h2, he⟩ := (hat pc e).mpr hl
  have hlow := hf.low u hu
  have hown : owner L u = some (own e) := by
    unfold owner
    rw [ho u.lo e ((hat _ _).mp ⟨u, hu, Nat.le_refl _, hlow.2.1, he⟩)]
  obtain ⟨s, hs, k1, k2, k3⟩ := (mine_val hf (own e) pc u.els).mpr ⟨u, hu, hown, h1, h2, rfl⟩
  refine ⟨s, hs, k1, k2, fun e' => ?_⟩
  rw [k3, ← hat]
  constructor
  · intro h; exact ⟨u, hu, h1, h2, h⟩
  · rintro ⟨v, hv, g1, g2, g3⟩
    rwa [hf.unique hu hv h1 h2 g1 g2]

theorem at_record {f : Flags} {L : Lib} {locals cfi : List Range} {is : List Item} {t : List Rec} {own : Nat → Nat} (hk : L.keys.Nodup)
    (h : run f L locals cfi = .ok (is, t)) (ho : Owned f L locals cfi own) {pc e : Nat} (hl : Live f L locals cfi pc e) :
    ∃ (s : Seg Nat) (l : Lay), s.lo ≤ pc ∧ pc < s.hi ∧ (∀ e', e' ∈ s.els ↔ Live f L locals cfi pc e') ∧
      found t pc = some ⟨s.lo, s.hi, frameOffset L (mine L (gather f L locals cfi) (own e)), nameOf (own e) s⟩ ∧ byOff L s.els ≠ [] ∧
      layout L (frameOffset L (mine L (gather f L locals cfi) (own e))) (byOff L s.els) = some l ∧ Denotes is (nameOf (own e) s) l ∧
      (∀ l', Denotes is (nameOf (own e) s) l' → l' = l) := by
  obtain ⟨hf, hat⟩ := gather_spec f L locals cfi
  have hd := write_done hf hk h
  obtain ⟨s, hs, h1, h2, hels⟩ := around ho hl
  obtain ⟨c1, c2, c3⟩ := hd.told _ s hs
  obtain ⟨l, hlay, hden⟩ := c3 c2
  refine ⟨s, l, h1, h2, hels, ?_, c2, hlay, hden, fun l' h' => h'.unique hd.names hden⟩
  rw [hd.found hf hs h1 h2]
  simp [recOf, offOf, c1]

theorem layout_some {L : Lib} {off : Nat} {bo : List (Int × Nat)} {l : Lay} (h : layout L off bo = some l) (hb : bo ≠ []) :
    ∃ o e n, bo.getLast? = some (o, e) ∧ L.piece e = some n ∧ l.size = ((o + n).toNat + off) % 2 ^ 32 ∧
      l.members = bo.map fun p => (((p.1 + off) % 2 ^ 32).toNat, p.2) := by
  unfold layout at h
  cases hlast : bo.getLast? with
  | none => exact absurd (List.getLast?_eq_none_iff.mp hlast) hb
  | some q =>
    obtain ⟨o, e⟩ := q
    rw [hlast] at h
    dsimp only at h
    cases hp : L.piece e with
    | none => rw [hp] at h; cases h
    | some n =>
      rw [hp] at h
      dsimp only at h
      injection h with h
      subst h
      exact ⟨o, e, n, rfl, hp, rfl, rfl⟩

/-! ## The frame's base -/

theorem lower_spec (L : Lib) : ∀ (l : List Nat) (a : Int), l.foldl (lower L) a ≤ a ∧ (∀ e ∈ l, ∀ o, (L.info e).off = some o → l.foldl (lower L) a ≤ o) ∧
    (l.foldl (lower L) a = a ∨ ∃ e ∈ l, (L.info e).off = some (l.foldl (lower L) a))
  | [], a => by simp
  | e :: l, a => by
    obtain ⟨h1, h2, h3⟩ := lower_spec L l (lower L a e)
    rw [List.foldl_cons]
    have hle : lower L a e ≤ a := by unfold lower; split <;> (try split) <;> omega
    refine ⟨by omega, ?_, ?_⟩
    · intro x hx o hox
      rcases List.mem_cons.mp hx with rfl | hx
      · have : lower L a x ≤ o := by
          unfold lower
          rw [hox]
          dsimp only
          split <;> omega
        omega
      · exact h2 x hx o hox
    · rcases h3 with h3 | ⟨x, hx, h3⟩
      · rw [h3]
        unfold lower
        split
        · exact Or.inl rfl
        · rename_i o hox
          split
          · exact Or.inr ⟨e, List.mem_cons_self, hox⟩
          · exact Or.inl rfl
      · exact Or.inr ⟨x, List.mem_cons_of_mem _ hx, h3⟩

theorem roundUp_spec {m : Int} (h : -2 ^ 30 ≤ m) : roundUp m % 8 = 0 ∧ 0 ≤ m + roundUp m ∧ roundUp m ≤ 2 ^ 30 ∧ (roundUp m = 0 ∨ m + roundUp m < 8) := by
  unfold roundUp
  split
  · split
    · rw [show (-m).toNat / 8 % 2 ^ 32 * 8 % 2 ^ 32 = (-m).toNat / 8 * 8 by omega]
      omega
    · rw [show ((-m).toNat / 8 + 1) % 2 ^ 32 * 8 % 2 ^ 32 = ((-m).toNat / 8 + 1) * 8 by omega]
      omega
  · omega

theorem mine_live {f : Flags} {L : Lib} {locals cfi : List Range} {own : Nat → Nat} (ho : Owned f L locals cfi own) {x e : Nat} {s : Seg Nat}
    (hs : s ∈ mine L (gather f L locals cfi) x) (he : e ∈ s.els) : own e = x ∧ ∀ pc, s.lo ≤ pc → pc < s.hi → Live f L locals cfi pc e := by
  obtain ⟨hf, hat⟩ := gather_spec f L locals cfi
  have hl : ∀ pc, s.lo ≤ pc → pc < s.hi → own e = x ∧ Live f L locals cfi pc e := by
    intro pc h1 h2
    obtain ⟨u, hu, hown, k1, k2, k3⟩ := (mine_val hf x pc s.els).mp ⟨s, hs, h1, h2, rfl⟩
    rw [← k3] at he
    have hlow := hf.low u hu
    have h3 := ho u.lo e ((hat _ _).mp ⟨u, hu, Nat.le_refl _, hlow.2.1, he⟩)
    unfold owner at hown
    rw [h3] at hown
    injection hown with hown
    exact ⟨hown, (hat _ _).mp ⟨u, hu, k1, k2, he⟩⟩
  have hlow := (mine_from (L := L) hf x).low s hs
  exact ⟨(hl s.lo (Nat.le_refl _) hlow.2.1).1, fun pc h1 h2 => (hl pc h1 h2).2⟩

theorem frameOffset_spec {f : Flags} {L : Lib} {locals cfi : List Range} {own : Nat → Nat} (ho : Owned f L locals cfi own)
    (hsm : ∀ pc e o, Live f L locals cfi pc e → (L.info e).off = some o → -2 ^ 30 ≤ o) {x off : Nat}
    (hoff : off = frameOffset L (mine L (gather f L locals cfi) x)) : off % 8 = 0 ∧ off ≤ 2 ^ 30 ∧
      (∀ pc e o, Live f L locals cfi pc e → own e = x → (L.info e).off = some o → 0 ≤ o + off) ∧
      (off = 0 ∨ ∃ pc e o, Live f L locals cfi pc e ∧ own e = x ∧ (L.info e).off = some o ∧ o + off < 8) := by
  obtain ⟨hf, hat⟩ := gather_spec f L locals cfi
  obtain ⟨h1, h2, h3⟩ := lower_spec L ((mine L (gather f L locals cfi) x).flatMap Seg.els) (2 ^ 63 - 1)
  have hin : ∀ e ∈ (mine L (gather f L locals cfi) x).flatMap Seg.els, own e = x ∧ ∃ pc, Live f L locals cfi pc e := by
    intro e he
    obtain ⟨s, hs, hes⟩ := List.mem_flatMap.mp he
    obtain ⟨k1, k2⟩ := mine_live ho hs hes
    have hlow := (mine_from (L := L) hf x).low s hs
    exact ⟨k1, s.lo, k2 _ (Nat.le_refl _) hlow.2.1⟩
  have hleast : -2 ^ 30 ≤ least L (mine L (gather f L locals cfi) x) := by
    rcases h3 with h3 | ⟨e, he, h3⟩
    · unfold least
      rw [h3]
      omega
    · obtain ⟨_, pc, hl⟩ := hin e he
      exact hsm pc e _ hl h3
  obtain ⟨r1, r2, r3, r4⟩ := roundUp_spec hleast
  change off = roundUp (least L _) at hoff
  rw [← hoff] at r1 r2 r3 r4
  refine ⟨r1, r3, ?_, ?_⟩
  · intro pc e o hl hx hox
    obtain ⟨s, hs, k1, k2, k3⟩ := around ho hl
    rw [hx] at hs
    have : least L _ ≤ o := h2 e (List.mem_flatMap.mpr ⟨s, hs, (k3 e).mpr hl⟩) o hox
    omega
  · rcases r4 with r4 | r4
    · exact Or.inl r4
    · rcases h3 with h3 | ⟨e, he, h3⟩
      · exfalso
        unfold least at r4
        rw [h3] at r4
        omega
      · obtain ⟨hx, pc, hl⟩ := hin e he
        exact Or.inr ⟨pc, e, _, hl, hx, h3, r4⟩

/-! ## The properties -/

/-- **C168 (partial).** When the tool has done its work, at every address where something is live the table leads to a record for an interval around it and
for the subprogram, and its name stands for just one type, whose members are the variables that are on the stack there, each once, at their offsets from
the record's base. Partial: what is live belongs to just one subprogram, and the tool may stop. -/
theorem described_partial {f : Flags} {L : Lib} {locals cfi : List Range} {is : List Item} {t : List Rec} {own : Nat → Nat} (hk : L.keys.Nodup)
    (h : run f L locals cfi = .ok (is, t)) (ho : Owned f L locals cfi own) {pc e : Nat} (hl : Live f L locals cfi pc e) :
    ∃ (r : Rec) (l : Lay), found t pc = some r ∧ r.lo ≤ pc ∧ pc < r.hi ∧ r.name.subp = own e ∧ Denotes is r.name l ∧ (∀ l', Denotes is r.name l' → l' = l) ∧
      (l.members.map Prod.snd).Nodup ∧
      ∀ o e', (o, e') ∈ l.members ↔ ∃ d, OnStack f L locals cfi pc e' d ∧ o = ((d + r.off) % 2 ^ 32).toNat := by
  obtain ⟨s, l, h1, h2, hels, hfound, c2, hlay, hden, huniq⟩ := at_record hk h ho hl
  refine ⟨_, l, hfound, h1, h2, rfl, hden, huniq, ?_⟩
  obtain ⟨hasc, hmem⟩ := byOff_spec L s.els
  obtain ⟨o', e', n, _, _, _, hm⟩ := layout_some hlay c2
  rw [hm]
  constructor
  · rw [List.map_map, List.nodup_iff_pairwise_ne, List.pairwise_map]
    refine List.Pairwise.imp_of_mem (fun {a b} ha hb hab heq => ?_) hasc
    have ha' := ((hmem a).mp ha).2.2
    have hb' := ((hmem b).mp hb).2.2
    simp only [Function.comp] at heq
    rw [heq, hb'] at ha'
    have : a = b := Prod.ext (Option.some.inj ha').symm heq
    rw [this, FrameCompact.pairOrder.irrefl] at hab
    cases hab
  · intro o x
    dsimp only
    rw [List.mem_map]
    constructor
    · rintro ⟨p, hp, he⟩
      injection he with e1 e2
      subst e1 e2
      obtain ⟨g1, g2, g3⟩ := (hmem p).mp hp
      exact ⟨p.1, ⟨(hels _).mp g1, g2, g3⟩, rfl⟩
    · rintro ⟨d, ⟨g1, g2, g3⟩, rfl⟩
      exact ⟨(d, x), (hmem _).mpr ⟨(hels _).mpr g1, g2, g3⟩, rfl⟩

/-- **C168 (partial).** All records of a subprogram have the same base, which is the least multiple of eight that makes the offsets of all that is live in
it not negative. Partial: as above, and offsets within a gigabyte. -/
theorem base_partial {f : Flags} {L : Lib} {locals cfi : List Range} {is : List Item} {t : List Rec} {own : Nat → Nat} (hk : L.keys.Nodup)
    (h : run f L locals cfi = .ok (is, t)) (ho : Owned f L locals cfi own)
    (hsm : ∀ pc e o, Live f L locals cfi pc e → (L.info e).off = some o → -2 ^ 30 ≤ o) {r : Rec} (hr : r ∈ t) :
    r.off % 8 = 0 ∧ (∀ pc e o, Live f L locals cfi pc e → own e = r.name.subp → (L.info e).off = some o → 0 ≤ o + r.off) ∧
      (r.off = 0 ∨ ∃ pc e o, Live f L locals cfi pc e ∧ own e = r.name.subp ∧ (L.info e).off = some o ∧ o + r.off < 8) ∧
      ∀ r' ∈ t, r'.name.subp = r.name.subp → r'.off = r.off := by
  obtain ⟨hf, hat⟩ := gather_spec f L locals cfi
  have hd := write_done hf hk h
  have hoff : ∀ r ∈ t, r.off = frameOffset L (mine L (gather f L locals cfi) r.name.subp) := by
    intro r hr
    obtain ⟨x, s, hs, rfl⟩ := (hd.recs r).mp hr
    have := (hd.told x s hs).1
    simp [recOf, offOf, nameOf, this]
  obtain ⟨a1, _, a2, a3⟩ := frameOffset_spec ho hsm (hoff r hr)
  exact ⟨a1, a2, a3, fun r' hr' he => by rw [hoff r hr, hoff r' hr', he]⟩

theorem last_most {l : List (Int × Nat)} (h : Asc pairLt l) {q : Int × Nat} (hq : l.getLast? = some q) : ∀ p ∈ l, p.1 ≤ q.1 := by
  intro p hp
  obtain ⟨hne, hq'⟩ := List.getLast?_eq_some_iff.mp hq
  rw [hq'] at hp h
  rcases List.mem_append.mp hp with hp | hp
  · have := (List.pairwise_append.mp h).2.2 p hp q (by simp)
    simp only [pairLt, Bool.or_eq_true, Bool.and_eq_true, decide_eq_true_eq] at this
    omega
  · simp at hp; subst hp; exact Int.le_refl _

/-- **C168 (partial).** Each variable is inside of the type, which is as large as the place of the one that begins last. Partial: as above; and no variable
ends after one that begins where it does or later. -/
theorem size_partial {f : Flags} {L : Lib} {locals cfi : List Range} {is : List Item} {t : List Rec} {own : Nat → Nat} (hk : L.keys.Nodup)
    (h : run f L locals cfi = .ok (is, t)) (ho : Owned f L locals cfi own)
    (hsm : ∀ pc e o, Live f L locals cfi pc e → (L.info e).off = some o → -2 ^ 30 ≤ o) {pc : Nat}
    (hup : ∀ e o n, OnStack f L locals cfi pc e o → L.piece e = some n → o + n ≤ 2 ^ 30)
    (hover : ∀ e o n e' o' n', OnStack f L locals cfi pc e o → L.piece e = some n → OnStack f L locals cfi pc e' o' → L.piece e' = some n' →
      o ≤ o' → o + n ≤ o' + n') {e n : Nat} {o : Int} (hl : OnStack f L locals cfi pc e o) (hn : L.piece e = some n) :
    ∃ (r : Rec) (l : Lay) (a : Nat), found t pc = some r ∧ Denotes is r.name l ∧ (a, e) ∈ l.members ∧ (a : Int) = o + r.off ∧ a + n ≤ l.size := by
  obtain ⟨s, l, h1, h2, hels, hfound, c2, hlay, hden, huniq⟩ := at_record hk h ho hl.1
  obtain ⟨hasc, hmem⟩ := byOff_spec L s.els
  obtain ⟨o', e', n', hlast, hp, hsz, hm⟩ := layout_some hlay c2
  have hmem' : (o, e) ∈ byOff L s.els := (hmem _).mpr ⟨(hels e).mpr hl.1, hl.2.1, hl.2.2⟩
  have hlm : (o', e') ∈ byOff L s.els := List.mem_of_getLast? hlast
  obtain ⟨g1, g2, g3⟩ := (hmem _).mp hlm
  have hl' : OnStack f L locals cfi pc e' o' := ⟨(hels _).mp g1, g2, g3⟩
  have hle := last_most hasc hlast _ hmem'
  have hov := hover e o n e' o' n' hl hn hl' hp hle
  have hu := hup e' o' n' hl' hp
  have hu' := hup e o n hl hn
  have b2 := (frameOffset_spec ho hsm (x := own e) rfl).2.1
  have b4 := (frameOffset_spec ho hsm (x := own e) rfl).2.2.1 pc e o hl.1 rfl hl.2.2
  have hlow := hsm pc e o hl.1 hl.2.2
  refine ⟨_, l, _, hfound, hden, by rw [hm]; exact List.mem_map.mpr ⟨_, hmem', rfl⟩, ?_, ?_⟩
  · dsimp only; omega
  · rw [hsz]; dsimp only at hov hle ⊢; omega

/-! ## When the tool stops -/

/-- **C168 fails** where something is live but no variable is on the stack: the tool stops at an assertion instead of leaving the addresses out. -/
theorem no_place_aborts {f : Flags} {L : Lib} {locals cfi : List Range} {own : Nat → Nat} (hk : L.keys.Nodup) (ho : Owned f L locals cfi own)
    {pc e : Nat} (hl : Live f L locals cfi pc e) (hno : ∀ e' o, ¬ OnStack f L locals cfi pc e' o) (is : List Item) (t : List Rec) :
    run f L locals cfi ≠ .ok (is, t) := by
  intro h
  obtain ⟨s, l, h1, h2, hels, _, c2, _⟩ := at_record hk h ho hl
  cases hb : byOff L s.els with
  | nil => exact c2 hb
  | cons p q =>
    obtain ⟨g1, g2, g3⟩ := ((byOff_spec L s.els).2 p).mp (by rw [hb]; exact List.mem_cons_self)
    exact hno p.2 p.1 ⟨(hels _).mp g1, g2, g3⟩

/-- A subprogram that has code but is not listed under its key also stops the tool. -/
theorem unlisted_aborts {f : Flags} {L : Lib} {locals cfi : List Range} {own : Nat → Nat} (hk : L.keys.Nodup) (ho : Owned f L locals cfi own)
    {pc e : Nat} (hl : Live f L locals cfi pc e) (hno : own e ∉ L.keys) (is : List Item) (t : List Rec) : run f L locals cfi ≠ .ok (is, t) := by
  intro h
  obtain ⟨hf, hat⟩ := gather_spec f L locals cfi
  have hd := write_done hf hk h
  obtain ⟨s, hs, _⟩ := around ho hl
  exact hno (hd.told _ s hs).1

theorem mine_none {L : Lib} {m : List (Seg Nat)} (h : ∀ s ∈ m, owner L s = none) (x : Nat) : mine L m x = [] := by
  unfold mine
  rw [List.filter_eq_nil_iff.mpr]
  · rfl
  · intro s hs
    simp [h s hs]

/-- **C168 fails** for code that two subprograms share: nothing is described. -/
theorem shared_fails {f : Flags} {L : Lib} {locals cfi : List Range} (hs : ∀ pc e, Live f L locals cfi pc e → (L.subAt pc).length ≠ 1) :
    run f L locals cfi = .ok ([], []) := by
  obtain ⟨hf, hat⟩ := gather_spec f L locals cfi
  have hnone : ∀ s ∈ gather f L locals cfi, owner L s = none := by
    intro s hsm
    have hlow := hf.low s hsm
    cases he : s.els with
    | nil => exact absurd he hlow.2.2
    | cons e l =>
      have := hs s.lo e ((hat _ _).mp ⟨s, hsm, Nat.le_refl _, hlow.2.1, by simp [he]⟩)
      unfold owner
      split
      · rename_i x hx
        rw [hx] at this
        simp at this
      · rfl
  have hsub : ∀ xs : List Nat, subps L (gather f L locals cfi) xs [] = .ok ([], []) := by
    intro xs
    induction xs with
    | nil => rfl
    | cons x xs ih =>
      unfold subps subp
      rw [mine_none hnone x]
      simp [emit, ih]
  have hown : owners L (gather f L locals cfi) = [] := by
    rw [List.eq_nil_iff_forall_not_mem]
    intro x hx
    obtain ⟨s, h1, h2⟩ := mem_owners.mp hx
    rw [hnone s h1] at h2
    cases h2
  unfold run write
  rw [hsub, hown]
  rfl

/-! ## Counting the intervals -/

/-- The segment that an interval is remembered as. -/
def segOf (L : Lib) (s : Seg Nat) : Seg (Int × Nat) := ⟨s.lo, s.hi, byOff L s.els⟩

theorem remember_apart (L : Lib) {k : List (Seg (Int × Nat))} (h : Apart k) (s : Seg Nat) : Apart (remember L k s) := by
  unfold remember
  split
  · exact h
  · exact join_apart _

theorem remember_exact {L : Lib} {k : List (Seg (Int × Nat))} {s : Seg Nat} (h : (remember L k s).length = k.length + 1) :
    ∀ t, t ∈ remember L k s ↔ t = segOf L s ∨ t ∈ k := by
  intro t
  unfold remember segOf at *
  cases hb : byOff L s.els with
  | nil => rw [hb] at h; dsimp only at h; omega
  | cons p l =>
    rw [hb] at h
    dsimp only at h ⊢
    rw [show join _ (insSeg ⟨s.lo, s.hi, p :: l⟩ k) = _ from join_same _ (by rw [h, insSeg_length]), mem_insSeg]

theorem emit_length {L : Lib} {x off : Nat} : ∀ (r before : List (Seg Nat)) (k : List (Seg (Int × Nat))) (is : List Item) (k' : List (Seg (Int × Nat))),
    emit L x off before k r = .ok (is, k') → k'.length ≤ k.length + r.length ∧ (Apart k → Apart k') ∧
      (k'.length = k.length + r.length → ∀ t, t ∈ k' ↔ t ∈ k ∨ ∃ s ∈ r, t = segOf L s)
  | [], before, k, is, k', h => by
    unfold emit at h
    injection h with h
    injection h with h1 h2
    subst h1 h2
    simp
  | s :: r, before, k, is, k', h => by
    have hrem := remember_length L k s
    have key : ∀ js, emit L x off (before ++ [s]) (remember L k s) r = .ok (js, k') →
        k'.length ≤ k.length + (s :: r).length ∧ (Apart k → Apart k') ∧
          (k'.length = k.length + (s :: r).length → ∀ t, t ∈ k' ↔ t ∈ k ∨ ∃ u ∈ s :: r, t = segOf L u) := by
      intro js he
      obtain ⟨a1, a2, a3⟩ := emit_length r _ _ js k' he
      rw [List.length_cons]
      refine ⟨by omega, fun hk => a2 (remember_apart L hk s), fun hl t => ?_⟩
      rw [a3 (by omega), remember_exact (by omega)]
      simp only [List.mem_cons, exists_eq_or_imp]
      constructor
      · rintro ((h | h) | h)
        · exact Or.inr (Or.inl h)
        · exact Or.inl h
        · exact Or.inr (Or.inr h)
      · rintro (h | h | h)
        · exact Or.inl (Or.inr h)
        · exact Or.inl (Or.inl h)
        · exact Or.inr h
    unfold emit at h
    split at h
    · exact key is h
    · split at h
      · rename_i i js k'' _ hem
        injection h with h
        injection h with h1 h2
        subst h2
        exact key js hem
      · cases h
      · cases h

theorem subps_exact {L : Lib} {m : List (Seg Nat)} : ∀ (xs : List Nat) (k : List (Seg (Int × Nat))) (is : List Item) (k' : List (Seg (Int × Nat))),
    subps L m xs k = .ok (is, k') → (Apart k → Apart k') ∧ ∀ t, t ∈ k' ↔ t ∈ k ∨ ∃ x ∈ xs, ∃ s ∈ mine L m x, t = segOf L s
  | [], k, is, k', h => by
    unfold subps at h
    injection h with h
    injection h with h1 h2
    subst h1 h2
    simp
  | x :: xs, k, is, k', h => by
    unfold subps at h
    cases h1 : subp L m x k with
    | error e => rw [h1] at h; cases h
    | ok p =>
      obtain ⟨is1, k1⟩ := p
      rw [h1] at h
      dsimp only at h
      cases h2 : subps L m xs k1 with
      | error e => rw [h2] at h; cases h
      | ok q =>
        obtain ⟨js, k2⟩ := q
        rw [h2] at h
        dsimp only at h
        injection h with h
        injection h with e1 e2
        subst e1 e2
        unfold subp at h1
        cases h3 : emit L x (frameOffset L (mine L m x)) [] k (mine L m x) with
        | error e => rw [h3] at h1; cases h1
        | ok q =>
          obtain ⟨is2, k3⟩ := q
          rw [h3] at h1
          dsimp only at h1
          split at h1
          · rename_i hlen
            injection h1 with h1
            injection h1 with e1 e2
            subst e1 e2
            obtain ⟨_, a2, a3⟩ := emit_length _ _ _ _ _ h3
            obtain ⟨b1, b2⟩ := subps_exact xs k3 js k2 h2
            refine ⟨fun hk => b1 (a2 hk), fun t => ?_⟩
            rw [b2, a3 (by omega)]
            simp only [List.mem_cons, exists_eq_or_imp, or_assoc]
          · cases h1

/-- **C168 fails** where from one address to the next something changes, but not what is on the stack (saved registers, say): the tool stops. -/
theorem same_aborts {f : Flags} {L : Lib} {locals cfi : List Range} {own : Nat → Nat} (hk : L.keys.Nodup) (ho : Owned f L locals cfi own)
    {pc : Nat} {e : Nat} {o : Int} (hl : OnStack f L locals cfi pc e o)
    (hsame : ∀ e o, OnStack f L locals cfi pc e o ↔ OnStack f L locals cfi (pc + 1) e o)
    (hdiff : ¬ ∀ e, Live f L locals cfi pc e ↔ Live f L locals cfi (pc + 1) e) (is : List Item) (t : List Rec) :
    run f L locals cfi ≠ .ok (is, t) := by
  intro h
  obtain ⟨hf, hat⟩ := gather_spec f L locals cfi
  have hd := write_done hf hk h
  have hl' := (hsame e o).mp hl
  obtain ⟨s, hs, s1, s2, s3⟩ := around ho hl.1
  obtain ⟨u, hu, u1, u2, u3⟩ := around ho hl'.1
  have hmf := mine_from (L := L) hf (own e)
  have hne : ¬ s.hi > pc + 1 := by
    intro hgt
    have := hmf.unique hs hu (pc := pc + 1) (by omega) (by omega) u1 u2
    subst this
    exact hdiff fun x => by rw [← s3, u3]
  have hne' : ¬ u.lo ≤ pc := by
    intro hle
    have := hmf.unique hs hu (pc := pc) s1 s2 hle (by omega)
    subst this
    exact hdiff fun x => by rw [← s3, u3]
  have hbo : byOff L s.els = byOff L u.els := by
    obtain ⟨a1, a2⟩ := byOff_spec L s.els
    obtain ⟨b1, b2⟩ := byOff_spec L u.els
    refine asc_ext FrameCompact.pairOrder a1 b1 fun p => ?_
    rw [a2, b2, s3, u3]
    exact hsame p.2 p.1
  unfold run write at h
  cases h1 : subps L (gather f L locals cfi) L.keys [] with
  | error e => rw [h1] at h; cases h
  | ok p =>
    obtain ⟨is', k⟩ := p
    obtain ⟨a1, a2⟩ := subps_exact _ _ _ _ h1
    obtain ⟨b1, _⟩ := subps_spec hf L.keys [] [] is' k h1 Inv.nil hk (by simp)
    have hkey := (hd.told _ s hs).1
    have m1 := (a2 (segOf L s)).mpr (Or.inr ⟨_, hkey, s, hs, rfl⟩)
    have m2 := (a2 (segOf L u)).mpr (Or.inr ⟨_, hkey, u, hu, rfl⟩)
    exact Apart.touch b1.order (a1 trivial) _ m1 _ m2 (by simp only [segOf]; omega) hbo

/-! ## When it does not stop -/

theorem Apart_of {α : Type} : ∀ {m : List (Seg α)}, (∀ s ∈ m, ∀ t ∈ m, s.hi = t.lo → s.els ≠ t.els) → Apart m
  | [], _ => trivial
  | [_], _ => trivial
  | s :: t :: m, h => ⟨fun hc => h s (by simp) t (by simp) hc.1 hc.2, Apart_of fun a ha b hb => h a (List.mem_cons_of_mem _ ha) b (List.mem_cons_of_mem _ hb)⟩

/-- An interval that touches none of the same layout is one more in the map. -/
theorem remember_new {L : Lib} {k : List (Seg (Int × Nat))} {s : Seg Nat} (hb : byOff L s.els ≠ [])
    (hk : ∀ a b, (a = segOf L s ∨ a ∈ k) → (b = segOf L s ∨ b ∈ k) → a.hi = b.lo → a.els ≠ b.els) : (remember L k s).length = k.length + 1 := by
  unfold remember
  cases hb' : byOff L s.els with
  | nil => exact absurd hb' hb
  | cons p l =>
    dsimp only
    unfold segOf at hk
    rw [hb'] at hk
    rw [show join _ (insSeg ⟨s.lo, s.hi, p :: l⟩ k) = _ from join_fix _ (Apart_of fun a ha b hb => hk a b ((mem_insSeg _ _ _).mp ha) ((mem_insSeg _ _ _).mp hb)),
      insSeg_length]

theorem earlier_total {L : Lib} {done : List (Seg Nat)} {k : List (Seg (Int × Nat))} (h : Inv L done k) {x : Nat} {bo : List (Int × Nat)} :
    ∀ l : List (Seg Nat), (∀ t ∈ l, t ∈ done ∧ t.lo < t.hi ∧ byOff L t.els ≠ []) → ∃ o, earlier x k bo l = .ok o
  | [], _ => ⟨none, rfl⟩
  | e :: l, hl => by
    obtain ⟨h1, h2, h3⟩ := hl e List.mem_cons_self
    obtain ⟨t, ht⟩ := h.lookup_some h1 h2 h3
    unfold earlier
    rw [ht]
    dsimp only
    split
    · exact ⟨_, rfl⟩
    · exact earlier_total h l fun t ht => hl t (List.mem_cons_of_mem _ ht)

theorem layout_total {L : Lib} {off : Nat} {bo : List (Int × Nat)} (h : ∀ p ∈ bo, L.piece p.2 ≠ none) : ∃ l, layout L off bo = some l := by
  unfold layout
  cases hl : bo.getLast? with
  | none => exact ⟨_, rfl⟩
  | some q =>
    dsimp only
    cases hp : L.piece q.2 with
    | none => exact absurd hp (h q (List.mem_of_getLast? hl))
    | some n => exact ⟨_, rfl⟩

/-- What intervals of subprograms must be like for the tool not to stop. -/
structure Fine (L : Lib) (P : Seg Nat → Prop) : Prop where
  order : ∀ s, P s → s.lo < s.hi
  full : ∀ s, P s → byOff L s.els ≠ []
  touch : ∀ s t, P s → P t → s.hi = t.lo → byOff L s.els ≠ byOff L t.els
  piece : ∀ s, P s → ∀ p ∈ byOff L s.els, L.piece p.2 ≠ none

theorem emit_total {L : Lib} {P : Seg Nat → Prop} (hp : Fine L P) {x off : Nat} : ∀ (r before : List (Seg Nat)) (k : List (Seg (Int × Nat)))
    (done : List (Seg Nat)), Inv L done k → (∀ t, t ∈ k ↔ ∃ s ∈ done, t = segOf L s) → (∀ t ∈ done, P t) → (∀ t ∈ before, t ∈ done) → (∀ t ∈ r, P t) →
    (∀ t ∈ done, ∀ s ∈ r, Off t s) → r.Pairwise Off →
    ∃ is k', emit L x off before k r = .ok (is, k') ∧ k'.length = k.length + r.length ∧ Inv L (done ++ r) k' ∧ ∀ t, t ∈ k' ↔ ∃ s ∈ done ++ r, t = segOf L s
  | [], before, k, done, hinv, hk, _, _, _, _, _ => ⟨[], k, rfl, by simp, by simpa using hinv, by simpa using hk⟩
  | s :: r, before, k, done, hinv, hk, hdone, hbe, hr, hoff, hpw => by
    have hs := hr s List.mem_cons_self
    have hlt := hp.order s hs
    have hinv' := hinv.remember hlt (fun t ht pc k1 k2 k3 k4 => hoff t ht s List.mem_cons_self pc k1 k2 k3 k4)
    have hof : ∀ a, (a = segOf L s ∨ a ∈ k) → ∃ u, P u ∧ a = segOf L u := by
      rintro a (rfl | ha)
      · exact ⟨s, hs, rfl⟩
      · obtain ⟨u, hu, rfl⟩ := (hk a).mp ha
        exact ⟨u, hdone u hu, rfl⟩
    have hlen : (remember L k s).length = k.length + 1 := remember_new (hp.full s hs) fun a b ha hb hab => by
      obtain ⟨u, hu, rfl⟩ := hof a ha
      obtain ⟨v, hv, rfl⟩ := hof b hb
      exact hp.touch u v hu hv hab
    have hk' : ∀ t, t ∈ remember L k s ↔ ∃ u ∈ done ++ [s], t = segOf L u := by
      intro t
      rw [remember_exact hlen, hk]
      simp only [List.mem_append, List.mem_singleton]
      constructor
      · rintro (h | ⟨u, hu, h⟩)
        · exact ⟨s, Or.inr rfl, h⟩
        · exact ⟨u, Or.inl hu, h⟩
      · rintro ⟨u, hu | rfl, h⟩
        · exact Or.inr ⟨u, hu, h⟩
        · exact Or.inl h
    have hdone' : ∀ t ∈ done ++ [s], P t := by
      intro t ht
      rcases List.mem_append.mp ht with ht | ht
      · exact hdone t ht
      · simp at ht; subst ht; exact hs
    have hpw' := List.pairwise_cons.mp hpw
    obtain ⟨js, k', e1, e2, e3, e4⟩ := emit_total hp (x := x) (off := off) r (before ++ [s]) (remember L k s) (done ++ [s]) hinv' hk' hdone' (by
      intro t ht
      rcases List.mem_append.mp ht with ht | ht
      · exact List.mem_append.mpr (Or.inl (hbe t ht))
      · exact List.mem_append.mpr (Or.inr ht)) (fun t ht => hr t (List.mem_cons_of_mem _ ht)) (by
      intro t ht u hu
      rcases List.mem_append.mp ht with ht | ht
      · exact hoff t ht u (List.mem_cons_of_mem _ hu)
      · simp at ht; subst ht; exact hpw'.1 u hu) hpw'.2
    rw [hlen] at e2
    unfold emit
    cases hb : byOff L s.els with
    | nil => exact absurd hb (hp.full s hs)
    | cons p l =>
      dsimp only
      obtain ⟨o, hea⟩ := earlier_total hinv' (x := x) (bo := p :: l) before fun t ht =>
        ⟨List.mem_append.mpr (Or.inl (hbe t ht)), hp.order t (hdone t (hbe t ht)), hp.full t (hdone t (hbe t ht))⟩
      obtain ⟨la, hla⟩ := layout_total (L := L) (off := off) (bo := p :: l) (by rw [← hb]; exact hp.piece s hs)
      have hit : ∃ i, item L x off (remember L k s) before s (p :: l) = .ok i := by
        unfold item
        rw [hea]
        cases o with
        | some n => exact ⟨_, rfl⟩
        | none =>
          dsimp only
          rw [hla]
          exact ⟨_, rfl⟩
      obtain ⟨i, hi⟩ := hit
      rw [hi, e1]
      refine ⟨_, _, rfl, by rw [e2, List.length_cons]; omega, by simpa using e3, by simpa using e4⟩

theorem subps_total {L : Lib} {m : List (Seg Nat)} (hf : From 0 m) (hp : Fine L (Mine L m)) : ∀ (xs ys : List Nat) (k : List (Seg (Int × Nat))),
    Inv L (ys.flatMap (mine L m)) k → (∀ t, t ∈ k ↔ ∃ s ∈ ys.flatMap (mine L m), t = segOf L s) → xs.Nodup → (∀ x ∈ xs, x ∉ ys) →
    ∃ is k', subps L m xs k = .ok (is, k')
  | [], ys, k, _, _, _, _ => ⟨[], k, rfl⟩
  | x :: xs, ys, k, hinv, hk, hn, hy => by
    obtain ⟨is, k', e1, e2, e3, e4⟩ := emit_total hp (x := x) (off := frameOffset L (mine L m x)) (mine L m x) [] k _ hinv hk (by
      intro t ht
      obtain ⟨y, _, hy⟩ := List.mem_flatMap.mp ht
      exact ⟨y, hy⟩) (by simp) (fun t ht => ⟨x, ht⟩) (by
      intro t ht s hs pc k1 k2 k3 k4
      obtain ⟨y, hy1, hy2⟩ := List.mem_flatMap.mp ht
      have := (mine_eq hf hy2 hs k1 k2 k3 k4).1
      subst this
      exact hy y List.mem_cons_self hy1) (From.pairwise (mine_from hf x))
    rw [List.nodup_cons] at hn
    obtain ⟨js, k'', g⟩ := subps_total hf hp xs (ys ++ [x]) k' (by simpa using e3) (by simpa using e4) hn.2 (by
      intro z hz hz'
      rcases List.mem_append.mp hz' with h | h
      · exact hy z (List.mem_cons_of_mem _ hz) h
      · simp at h; subst h; exact hn.1 hz)
    unfold subps subp
    rw [e1]
    dsimp only
    rw [if_pos (by omega)]
    dsimp only
    rw [g]
    exact ⟨_, _, rfl⟩

theorem records_total {L : Lib} {m : List (Seg Nat)} {k : List (Seg (Int × Nat))} {done : List (Seg Nat)} (hinv : Inv L done k) {x : Nat} :
    ∀ (l : List (Seg Nat)) (t : List Rec), (∀ s ∈ l, s ∈ done ∧ s.lo < s.hi ∧ byOff L s.els ≠ []) → ∃ t', records L m k x t l = .ok t'
  | [], t, _ => ⟨t, rfl⟩
  | s :: l, t, h => by
    obtain ⟨h1, h2, h3⟩ := h s List.mem_cons_self
    obtain ⟨v, hv⟩ := hinv.lookup_some h1 h2 h3
    unfold records
    rw [hv]
    dsimp only
    split
    · exact records_total hinv l t fun s hs => h s (List.mem_cons_of_mem _ hs)
    · exact records_total hinv l _ fun s hs => h s (List.mem_cons_of_mem _ hs)

theorem table_total {L : Lib} {m : List (Seg Nat)} {k : List (Seg (Int × Nat))} {done : List (Seg Nat)} (hinv : Inv L done k) :
    ∀ (xs : List Nat) (t : List Rec), (∀ x ∈ xs, ∀ s ∈ mine L m x, s ∈ done ∧ s.lo < s.hi ∧ byOff L s.els ≠ []) → ∃ t', table L m k t xs = .ok t'
  | [], t, _ => ⟨t, rfl⟩
  | x :: xs, t, h => by
    obtain ⟨u, hu⟩ := records_total (m := m) hinv (x := x) (mine L m x) t (h x List.mem_cons_self)
    unfold table
    rw [hu]
    exact table_total hinv xs u fun y hy => h y (List.mem_cons_of_mem _ hy)

theorem put_asc {m : List (Seg Nat)} (h : ∀ s ∈ m, Asc elLt s.els) (r : Range) : ∀ s ∈ put m r, Asc elLt s.els := by
  intro s hs
  unfold put at hs
  split at hs
  · obtain ⟨u, hu, he⟩ := FrameTypes.join_els _ _ s hs
    rw [he]
    rcases FrameTypes.add_els _ _ _ _ _ u hu with he | ⟨v, hv, he | he⟩
    · rw [he]; exact FrameCompact.asc_ins FrameCompact.elOrder _ _ List.Pairwise.nil
    · rw [he]; exact h v hv
    · rw [he]; exact FrameCompact.asc_ins FrameCompact.elOrder _ _ (h v hv)
  · exact h s hs

theorem puts_asc : ∀ (rs : List Range) {m : List (Seg Nat)}, (∀ s ∈ m, Asc elLt s.els) → ∀ s ∈ rs.foldl put m, Asc elLt s.els
  | [], _, h => h
  | r :: rs, _, h => by rw [List.foldl_cons]; exact puts_asc rs (put_asc h r)

theorem gather_asc (f : Flags) (L : Lib) (locals cfi : List Range) : ∀ s ∈ gather f L locals cfi, Asc elLt s.els := by
  unfold gather
  have h0 : ∀ s ∈ ([] : List (Seg Nat)), Asc elLt s.els := by simp
  cases f.cfi with
  | true => exact puts_asc _ (puts_asc _ h0)
  | false => exact puts_asc _ h0

/-- **C168 (partial).** If all that is live are variables on the stack, of known size, of subprograms that are listed, the tool does its work. -/
theorem total_partial {f : Flags} {L : Lib} {locals cfi : List Range} {own : Nat → Nat} (hk : L.keys.Nodup) (ho : Owned f L locals cfi own)
    (hall : ∀ pc e, Live f L locals cfi pc e → own e ∈ L.keys ∧ L.piece e ≠ none ∧ ∃ o, OnStack f L locals cfi pc e o) :
    ∃ is t, run f L locals cfi = .ok (is, t) := by
  obtain ⟨hf, hat⟩ := gather_spec f L locals cfi
  have hlow : ∀ {x : Nat} {s : Seg Nat}, s ∈ mine L (gather f L locals cfi) x → s.lo < s.hi ∧ s.els ≠ [] := fun {x s} hs =>
    ((mine_from (L := L) hf x).low s hs).2
  have hin : ∀ {x : Nat} {s : Seg Nat}, s ∈ mine L (gather f L locals cfi) x → ∀ e ∈ s.els, own e = x ∧ Live f L locals cfi s.lo e := by
    intro x s hs e he
    obtain ⟨h1, h2⟩ := mine_live ho hs he
    exact ⟨h1, h2 _ (Nat.le_refl _) (hlow hs).1⟩
  have hmem : ∀ {x : Nat} {s : Seg Nat}, s ∈ mine L (gather f L locals cfi) x → ∀ e, e ∈ s.els ↔ ∃ o, (o, e) ∈ byOff L s.els := by
    intro x s hs e
    constructor
    · intro he
      obtain ⟨_, _, o, h1, h2, h3⟩ := hall _ _ (hin hs e he).2
      exact ⟨o, ((byOff_spec L s.els).2 _).mpr ⟨he, h2, h3⟩⟩
    · rintro ⟨o, h⟩
      exact (((byOff_spec L s.els).2 _).mp h).1
  have hfine : Fine L (Mine L (gather f L locals cfi)) := by
    refine ⟨?_, ?_, ?_, ?_⟩
    · rintro s ⟨x, hs⟩; exact (hlow hs).1
    · rintro s ⟨x, hs⟩ hb
      cases he : s.els with
      | nil => exact (hlow hs).2 he
      | cons e l =>
        obtain ⟨o, h⟩ := (hmem hs e).mp (by simp [he])
        rw [hb] at h
        cases h
    · rintro s t ⟨x, hs⟩ ⟨y, ht⟩ htouch hb
      have hasc : ∀ {z : Nat} {u : Seg Nat}, u ∈ mine L (gather f L locals cfi) z → Asc elLt u.els := by
        intro z u hu
        obtain ⟨v, hv, he⟩ := FrameTypes.join_els _ _ u hu
        rw [he]
        exact gather_asc f L locals cfi v (List.mem_filter.mp hv).1
      have hels : s.els = t.els := asc_ext FrameCompact.elOrder (hasc hs) (hasc ht) fun e => by rw [hmem hs, hmem ht, hb]
      have hxy : x = y := by
        cases he : s.els with
        | nil => exact absurd he (hlow hs).2
        | cons e l =>
          have h1 := (hin hs e (by simp [he])).1
          have h2 := (hin ht e (by rw [← hels]; simp [he])).1
          omega
      subst hxy
      exact Apart.touch (mine_from hf x) (join_apart _) s hs t ht htouch hels
    · rintro s ⟨x, hs⟩ p hp
      have := ((byOff_spec L s.els).2 p).mp hp
      exact (hall _ _ (hin hs p.2 this.1).2).2.1
  obtain ⟨is, k, h1⟩ := subps_total hf hfine L.keys [] [] Inv.nil (by simp) hk (by simp)
  obtain ⟨b1, _⟩ := subps_spec hf L.keys [] [] is k h1 Inv.nil hk (by simp)
  rw [List.nil_append] at b1
  obtain ⟨t, h2⟩ := table_total (m := gather f L locals cfi) b1 (owners L (gather f L locals cfi)) [] (by
    intro x _ s hs
    refine ⟨?_, (hlow hs).1, hfine.full s ⟨x, hs⟩⟩
    cases he : s.els with
    | nil => exact absurd he (hlow hs).2
    | cons e l =>
      obtain ⟨h3, h4⟩ := hin hs e (by simp [he])
      have h5 := (hall _ _ h4).1
      rw [h3] at h5
      exact List.mem_flatMap.mpr ⟨x, h5, hs⟩)
  refine ⟨is, t, ?_⟩
  unfold run write
  rw [h1]
  dsimp only
  rw [h2]

/-! ## Cases -/

/-- A variable of a four-byte type at an offset. -/
def v (o : Int) : Info := ⟨true, none, 0, some ([], []), true, false, 0, false, false, false, some o, 0, none, some 4⟩

/-- What `--output-traditional` asks for. -/
def trad : Flags := ⟨false, true, false, false, false, false, true⟩

/-- Three variables, at -20, -12 and 16, all of subprogram 7, whose code is at 100 to 200. -/
def ex : Lib where
  info := fun e => v (if e = 0 then -20 else if e = 1 then -12 else 16)
  ops := fun _ => [.plain]
  piece := fun _ => some 4
  subAt := fun pc => if 100 ≤ pc ∧ pc < 200 then [7] else []
  keys := [7]

/-- The first is live throughout, the second in the middle; what is on the stack before and after is the same type. -/
theorem case_alias : run trad ex [⟨100, 200, 0⟩, ⟨120, 140, 1⟩, ⟨100, 200, 2⟩] [] =
    .ok ([.define ⟨7, 100, 120⟩ ⟨44, [(4, 0), (40, 2)]⟩, .define ⟨7, 120, 140⟩ ⟨44, [(4, 0), (12, 1), (40, 2)]⟩, .alias ⟨7, 140, 200⟩ ⟨7, 100, 120⟩],
      [⟨100, 120, 24, ⟨7, 100, 120⟩⟩, ⟨120, 140, 24, ⟨7, 120, 140⟩⟩, ⟨140, 200, 24, ⟨7, 140, 200⟩⟩]) := by rfl

/-- The hypotheses of the properties hold there. -/
theorem case_owned : Owned trad ex [⟨100, 200, 0⟩, ⟨120, 140, 1⟩, ⟨100, 200, 2⟩] [] fun _ => 7 := by
  intro pc e h
  rcases h with ⟨r, hr, _, _, _, h1, h2⟩ | ⟨h, _⟩
  · simp at hr
    show (if 100 ≤ pc ∧ pc < 200 then [7] else []) = [7]
    rw [if_pos]
    rcases hr with rfl | rfl | rfl <;> dsimp only at h1 h2 <;> omega
  · cases h

/-- **C168 fails** between intervals: where nothing is live any more, the record before is found. -/
theorem gap_fails : (∀ e, ¬ Live trad ex [⟨100, 120, 0⟩] [] 150 e) ∧ ∃ is t, run trad ex [⟨100, 120, 0⟩] [] = .ok (is, t) ∧
    found t 150 = some ⟨100, 120, 24, ⟨7, 100, 120⟩⟩ ∧ Denotes is ⟨7, 100, 120⟩ ⟨24, [(4, 0)]⟩ := by
  refine ⟨?_, [.define ⟨7, 100, 120⟩ ⟨24, [(4, 0)]⟩], [⟨100, 120, 24, ⟨7, 100, 120⟩⟩], rfl, rfl, .define (by simp)⟩
  rintro e (⟨r, hr, _, _, _, h1, h2⟩ | ⟨h, _⟩)
  · simp at hr
    subst hr
    dsimp only at h2
    omega
  · cases h

/-- Two variables that overlap: 16 bytes at 0, and 4 bytes at 8. -/
def exOver : Lib := { ex with info := fun e => v (if e = 0 then 0 else 8), piece := fun e => if e = 0 then some 16 else some 4 }

/-- **C168 fails** for sizes: the type ends where the variable ends that begins last, so that another may stick out. -/
theorem size_fails : run trad exOver [⟨100, 200, 0⟩, ⟨100, 200, 1⟩] [] =
    .ok ([.define ⟨7, 100, 200⟩ ⟨12, [(0, 0), (8, 1)]⟩], [⟨100, 200, 0, ⟨7, 100, 200⟩⟩]) ∧ exOver.piece 0 = some 16 := ⟨rfl, rfl⟩

/-- A variable whose first piece has no place, next to one on the stack. -/
def exNone : Lib := { ex with info := fun e => if e = 0 then v (-20) else { v 0 with off := none } }

/-- **C168 fails** although each address has a variable on the stack: it is the same from 100 to 200, while the other comes and goes. -/
theorem comes_aborts : run trad exNone [⟨100, 200, 0⟩, ⟨120, 140, 1⟩] [] = .error .assertion := by rfl

/-- A variable whose size is not known. -/
def exSize : Lib := { ex with piece := fun _ => none }

/-- A size that is not there is used. -/
theorem size_undefined : run trad exSize [⟨100, 200, 0⟩] [] = .error .undefined := by rfl

/-- Variables that are partly in registers, or in memory that must be read, are left out; a later piece that is odd does not matter. -/
theorem case_kept : kept trad ex 0 = true ∧ kept trad { ex with ops := fun _ => [.plain, .piece, .names] } 0 = false ∧
    kept trad { ex with ops := fun _ => [.plain, .memory] } 0 = false ∧ kept trad { ex with ops := fun _ => [.plain, .piece, .odd] } 0 = true := by decide

end Liballocs.FrameTrad
