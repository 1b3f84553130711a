import Verif.Model.MetaBuild
import Verif.Props.MetaDso
/-!
# The metadata made for a file is that found for it

Properties of `Verif/Model/MetaBuild.lean`, with the search at run time (`Verif/Model/MetaDso.lean`).
-/
namespace Liballocs.MetaBuild

open CcArgs MetaDso

/-! ## Specification -/

/-- Where metadata is by path, and by build ID. -/
def pathName (base name : Name) : Name := base ++ name ++ w! "-meta.so"
def hex (b : Fin 256) : Name := [MetaDso.hexDigit (b.val / 16), MetaDso.hexDigit (b.val % 16)]
def idName (base : Name) (id : List (Fin 256)) : Name := base ++ w! "/.build-id/" ++ (id.take 1).flatMap hex ++ '/' :: (id.drop 1).flatMap hex ++ w! "-meta.so"

/-- A whole build ID, or none; not one of zeroes. -/
def Bin.Whole (b : Bin) : Prop := b.desc = none ∨ ∃ d, b.desc = some d ∧ 20 ≤ d.length ∧ ∃ x ∈ d.take 20, x ≠ 0
def Bin.HasId (b : Bin) : Prop := ∃ d, b.desc = some d

/-- Addresses are printed as digits. -/
def Addrs.Ok (ad : Addrs) : Prop := ∀ b, (∀ c ∈ ad.a b, c ≠ ' ' ∧ c ≠ '\n' ∧ c ≠ '\t') ∧ (∀ c ∈ ad.b b, c ≠ ' ' ∧ c ≠ '\n' ∧ c ≠ '\t') ∧ ad.a b ≠ []

/-- A name that the tools can deal with: absolute, no blanks, not too long, neither among the build IDs nor among the metadata. -/
structure Plain (base name : Name) : Prop where
  abs : name.head? = some '/'
  more : name ≠ ['/']
  blank : ' ' ∉ name
  fits : base.length + name.length + 8 ≤ 4094
  noIds : ¬ (w! "/.build-id/") <+: name
  noMeta : ¬ base <+: name

/-! ## The build ID -/

theorem hexDigit_ne : ∀ x : Fin 16, hexDigit x.val ≠ ' ' ∧ hexDigit x.val ≠ '\n' ∧ hexDigit x.val ≠ '\t' := by decide +kernel

theorem hexByte_ne (b : Fin 256) : ∀ c ∈ hexByte b, c ≠ ' ' ∧ c ≠ '\n' ∧ c ≠ '\t' := by
  intro c hc
  simp only [hexByte, List.mem_cons, List.not_mem_nil, or_false] at hc
  rcases hc with e | e
  · subst e; exact hexDigit_ne ⟨b.val / 16, by omega⟩
  · subst e; exact hexDigit_ne ⟨b.val % 16, by omega⟩

theorem trs_solid : ∀ {a : Name} (_ : ∀ c ∈ a, c ≠ ' ' ∧ c ≠ '\n' ∧ c ≠ '\t') (_ : a ≠ []) (tab : Bool) (s : Name), trs tab (a ++ s) = a ++ trs false s
  | [], _, h, _, _ => absurd rfl h
  | c :: a, h, _, tab, s => by
    have hc := h c (List.mem_cons_self ..)
    rw [List.cons_append, trs, if_neg (by rintro (e | e | e); exact hc.1 e; exact hc.2.1 e; exact hc.2.2 e)]
    by_cases ha : a = []
    · subst ha; rfl
    · rw [trs_solid (fun d hd => h d (List.mem_cons_of_mem _ hd)) ha]; rfl

theorem trs_bytes (s : Name) (hs : trs false s = '\t' :: trs true s.tail) : ∀ (l : List (Fin 256)),
    trs false (l.flatMap (fun x => ' ' :: hexByte x) ++ s) = l.flatMap (fun x => '\t' :: hexByte x) ++ '\t' :: trs true s.tail
  | [] => by simpa using hs
  | x :: l => by
    rw [List.flatMap_cons, List.append_assoc, List.cons_append, trs, if_pos (.inl rfl), if_neg (by decide), trs_solid (hexByte_ne x) (by simp [hexByte]), trs_bytes s hs l]
    simp

theorem fields_solid : ∀ {a : Name} (_ : '\t' ∉ a) (s : Name), fields (a ++ '\t' :: s) = a :: fields s
  | [], _, s => by rw [List.nil_append, fields, if_pos rfl]
  | c :: a, h, s => by
    have hc : c ≠ '\t' := fun e => h (e ▸ List.mem_cons_self ..)
    rw [List.cons_append, fields, if_neg hc, fields_solid fun hm => h (List.mem_cons_of_mem _ hm)]

theorem fields_bytes (s : Name) : ∀ (l : List (Fin 256)) (a : Name), '\t' ∉ a →
    fields (a ++ (l.flatMap (fun x => '\t' :: hexByte x) ++ '\t' :: s)) = a :: (l.map hexByte ++ fields s)
  | [], a, h => by rw [List.flatMap_nil, List.nil_append, fields_solid h]; rfl
  | x :: l, a, h => by
    rw [List.flatMap_cons, List.append_assoc, List.cons_append, fields_solid h, fields_bytes s l _ fun hm => (hexByte_ne x _ hm).2.2 rfl]
    rfl

/-- What the script reads is the ID's bytes in hexadecimal, if there are 20. -/
theorem readId_eq {a b : Name} (ha : ∀ c ∈ a, c ≠ ' ' ∧ c ≠ '\n' ∧ c ≠ '\t') (hn : a ≠ []) {d : List (Fin 256)} (hd : 20 ≤ d.length) :
    readId a b d = (d.take 20).flatMap hexByte := by
  have h20 : (d.take 20).length = 20 := by rw [List.length_take]; omega
  have hl : ((d.take 20).map hexByte).length = 20 := by rw [List.length_map, h20]
  have hf : fields (trs false (od a b d)) = a :: ((d.take 20).map hexByte ++ fields (trs true (b ++ ['\n']))) := by
    unfold od
    rw [List.append_assoc, trs_solid ha hn, trs_bytes ('\n' :: (b ++ ['\n'])) (by rw [trs, if_pos (.inr (.inl rfl)), if_neg (by decide)]; rfl)]
    exact fields_bytes _ _ _ fun hm => (ha _ hm).2.2 rfl
  unfold readId cut
  rw [hf, List.drop_one, List.tail_cons, List.take_left' hl, List.flatMap_def]

theorem infix_eq : infix' = w! "/.build-id/" := by decide
theorem suffix_eq : suffix = w! "-meta.so" := by decide

/-- **C162** The name under which metadata is linked is that which the search tries for the file's build ID. -/
theorem id_names {a b : Name} (ha : ∀ c ∈ a, c ≠ ' ' ∧ c ≠ '\n' ∧ c ≠ '\t') (hn : a ≠ []) {d : List (Fin 256)} (hd : 20 ≤ d.length) (base : Name) :
    linkName base (readId a b d) = idName base (d.take 20) ∧ (base.length + 60 ≤ 4095 → byBuildId base (d.take 20) = some (idName base (d.take 20))) := by
  have h20 : (d.take 20).length = 20 := by rw [List.length_take]; omega
  have hex_eq : hex = hexByte := rfl
  have hr := readId_eq (b := b) ha hn hd
  generalize d.take 20 = l at h20 hr
  cases l with
  | nil => cases h20
  | cons x l =>
    have e : idName base (x :: l) = base ++ infix' ++ idText (x :: l) ++ suffix := by
      rw [infix_eq, suffix_eq, idName, idText, hex_eq, List.take_one, List.drop_one]
      simp only [List.head?_cons, Option.toList, List.tail_cons, List.flatMap_cons, List.flatMap_nil, List.append_nil, List.append_assoc, List.cons_append]
    refine ⟨?_, fun hb => ?_⟩
    · rw [hr]
      simp [linkName, idName, hex_eq, hexByte]
    · rw [byBuildId_exact h20 hb, e]

/-! ## The name by path -/

theorem words_solid : ∀ (s acc : Name), ' ' ∉ s → acc ++ s ≠ [] → words acc s = [acc ++ s]
  | [], acc, _, hn => by rw [words, if_neg (by simpa using hn), List.append_nil]
  | c :: s, acc, h, _ => by
    have hc : c ≠ ' ' := fun e => h (e ▸ List.mem_cons_self ..)
    rw [words, if_neg hc, words_solid s _ (fun hm => h (List.mem_cons_of_mem _ hm)) (by simp)]
    simp

theorem targets_plain {cwd out : Name} (h : Plain metaBase (own cwd out)) : targets cwd out = [pathName metaBase (own cwd out)] := by
  generalize hn : own cwd out = name at h
  unfold targets
  rw [hn]
  cases name with
  | nil => cases h.abs
  | cons c r =>
    have hc : c = '/' := by have := h.abs; simpa using this
    have e : append metaBase (c :: r) = metaBase ++ (c :: r) := by rw [append, if_pos (.inl hc)]
    rw [e, words_solid _ _ ?_ (by simp [metaBase])]
    · rfl
    · intro hm
      rcases List.mem_append.1 hm with hm | hm
      · rcases List.mem_append.1 hm with hm | hm
        · revert hm; decide
        · exact h.blank hm
      · revert hm; decide

theorem stem_plain {base name : Name} (h : Plain base name) : stem base (pathName base name) = some name.tail ∧ '/' :: name.tail = name := by
  have h2 := h.more
  cases name with
  | nil => cases h.abs
  | cons c r =>
    have hc : c = '/' := by have := h.abs; simpa using this
    subst hc
    have hr : r ≠ [] := fun e => h2 (by rw [e])
    refine ⟨?_, rfl⟩
    have e : pathName base ('/' :: r) = (base ++ ['/']) ++ (r ++ w! "-meta.so") := by simp [pathName]
    have hl : 0 < r.length := List.length_pos_iff.2 hr
    have c1 : (base ++ ['/']).isPrefixOf (pathName base ('/' :: r)) = true := by rw [e]; exact List.isPrefixOf_iff_prefix.2 (List.prefix_append ..)
    have c2 : (w! "-meta.so").isSuffixOf (pathName base ('/' :: r)) = true := List.isSuffixOf_iff_suffix.2 (List.suffix_append ..)
    have c3 : base.length + 9 < (pathName base ('/' :: r)).length := by rw [e]; simp; omega
    unfold stem
    rw [if_pos ⟨c1, c2, c3⟩, e]
    have e1 : base.length + 1 = (base ++ ['/']).length := by simp
    have e2 : ((base ++ ['/']) ++ (r ++ w! "-meta.so")).length - base.length - 9 = r.length := by simp
    rw [e2, e1, List.drop_left, List.take_left]
    rfl

theorem refused_plain {base name : Name} (h : Plain base name) (st : Name) : refused base (pathName base name) st = false := by
  unfold refused
  have : (base ++ base ++ ['/']).isPrefixOf (pathName base name) = false := by
    rw [Bool.eq_false_iff]
    intro hp
    obtain ⟨r, hr⟩ := List.isPrefixOf_iff_prefix.1 hp
    unfold pathName at hr
    rw [List.append_assoc, List.append_assoc, List.append_assoc] at hr
    have hr := List.append_cancel_left hr
    have hpre : base ++ ['/'] <+: name ++ w! "-meta.so" := ⟨r, by rw [List.append_assoc]; exact hr⟩
    rcases Nat.lt_or_ge name.length (base.length + 1) with hlt | hge
    · have hg : (name ++ w! "-meta.so")[base.length]? = some '/' := by
        rw [← hr, List.getElem?_append_right (Nat.le_refl _)]; simp
      rw [List.getElem?_append_right (by omega)] at hg
      have := List.mem_of_getElem? hg
      revert this; decide
    · have := List.prefix_of_prefix_length_le hpre (List.prefix_append name _) (by simpa using hge)
      exact h.noMeta ((List.prefix_append base ['/']).trans this)
  rw [this]; rfl

theorem idName_length {base : Name} {id : List (Fin 256)} (h : id.length = 20) : (idName base id).length = base.length + 60 := by
  have := flatMap_hex_length
  have e : hex = hexByte := rfl
  unfold idName
  rw [e]
  simp only [List.length_append, List.length_cons, flatMap_hex_length, List.length_take, List.length_drop, h]
  simp

theorem path_ne_id {base name : Name} (h : Plain base name) {id : List (Fin 256)} (hid : id.length = 20) : pathName base name ≠ idName base id := by
  intro e
  have hl := congrArg List.length e
  rw [idName_length hid] at hl
  have hl' : name.length = 52 := by simp [pathName] at hl; omega
  have e2 : name ++ (w! "-meta.so") = (w! "/.build-id/") ++ ((id.take 1).flatMap hex ++ '/' :: (id.drop 1).flatMap hex ++ w! "-meta.so") := by
    apply List.append_cancel_left (as := base)
    have := e
    unfold pathName idName at this
    simpa using this
  have hp : (w! "/.build-id/") <+: name ++ (w! "-meta.so") := ⟨_, e2.symm⟩
  exact h.noIds (List.prefix_of_prefix_length_le hp (List.prefix_append name _) (by rw [hl']; decide))

/-! ## What one link makes -/

theorem Bin.id_length {b : Bin} (h : b.Whole) : b.id.length = 20 := by
  rcases h with h | ⟨d, h, hd, _⟩
  · rw [Bin.id, h]; simp
  · rw [Bin.id, h]; simp; omega

theorem Bin.haveId_iff {b : Bin} (h : b.Whole) : haveId b.id = true ↔ b.HasId := by
  rcases h with h | ⟨d, h, _, x, hx, hx0⟩
  · have e : b.id = List.replicate 20 0 := by rw [Bin.id, h]
    rw [e]
    refine ⟨fun hh => absurd hh (by decide), ?_⟩
    rintro ⟨d, hd⟩; rw [h] at hd; cases hd
  · refine ⟨fun _ => ⟨d, h⟩, fun _ => ?_⟩
    rw [Bin.id, h]
    exact List.any_eq_true.2 ⟨x, hx, by simpa using hx0⟩

theorem buildId_eq {ad : Addrs} (had : ad.Ok) {b : Bin} (h : b.Whole) (base : Name) :
    (b.HasId → buildId ad b ≠ [] ∧ linkName base (buildId ad b) = idName base b.id) ∧ (¬ b.HasId → buildId ad b = []) := by
  rcases h with h | ⟨d, h, hd, _⟩
  · refine ⟨?_, fun _ => by rw [buildId, h]⟩
    rintro ⟨d, hd⟩; rw [h] at hd; cases hd
  · refine ⟨fun _ => ?_, fun hn => absurd ⟨d, h⟩ hn⟩
    obtain ⟨h1, _, h3⟩ := had b
    have e : buildId ad b = readId (ad.a b) (ad.b b) d := by rw [buildId, h]
    refine ⟨?_, ?_⟩
    · rw [e, readId_eq h1 h3 hd]
      intro e2
      have := congrArg List.length e2
      rw [flatMap_hex_length, List.length_take] at this
      simp at this; omega
    · rw [e, (id_names h1 h3 hd base).1, Bin.id, h]

/-- The files of metadata after one is made. -/
theorem made_eq {ad : Addrs} (had : ad.Ok) {b : Bin} (h : b.Whole) (base target : Name) (now : Nat) (repo : Name → Option Meta) (n : Name) :
    made ad base target ⟨now, b⟩ repo n =
      open Classical in if (b.HasId ∧ n = idName base b.id) ∨ n = target then some ⟨now, b⟩ else repo n := by
  obtain ⟨h1, h2⟩ := buildId_eq had h base
  unfold made
  by_cases hb : b.HasId
  · obtain ⟨h3, h4⟩ := h1 hb
    rw [if_neg h3]
    dsimp only
    rw [h4]
    by_cases e1 : n = idName base b.id
    · rw [if_pos e1, if_pos (.inl ⟨hb, e1⟩)]
    · rw [if_neg e1]
      by_cases e2 : n = target
      · rw [if_pos e2, if_pos (.inr e2)]
      · rw [if_neg e2, if_neg (by rintro (⟨_, e⟩ | e); exact e1 e; exact e2 e)]
  · rw [if_pos (h2 hb)]
    by_cases e2 : n = target
    · rw [if_pos e2, if_pos (.inr e2)]
    · rw [if_neg e2, if_neg (by rintro (⟨e, _⟩ | e); exact hb e; exact e2 e)]

/-- A link either leaves the metadata as it is or makes that of the file. -/
theorem link_repo {ad : Addrs} {s : State} {cwd out : Name} {b : Bin} {written now : Nat} {ok : Bool} (hp : Plain metaBase (own cwd out)) :
    ((step ad none s (.link cwd out b written ok now)).repo = s.repo ∨
      (step ad none s (.link cwd out b written ok now)).repo = made ad metaBase (pathName metaBase (own cwd out)) ⟨now, b⟩ s.repo) ∧
    (ok = true → b.size ≠ 0 → (∀ m, s.repo (pathName metaBase (own cwd out)) = some m → m.time < written) →
      (step ad none s (.link cwd out b written ok now)).repo = made ad metaBase (pathName metaBase (own cwd out)) ⟨now, b⟩ s.repo) ∧
    (step ad none s (.link cwd out b written ok now)).disk = fun n => if n = own cwd out then some (b, written) else s.disk n := by
  obtain ⟨hs, hs2⟩ := stem_plain hp
  rw [step, plugin]
  dsimp only
  rw [if_pos rfl]
  dsimp only
  by_cases h0 : b.size = 0
  · rw [if_pos h0]
    exact ⟨.inl rfl, fun _ h => absurd h0 h, rfl⟩
  · rw [if_neg h0, targets_plain hp, makeAll, make, hs]
    dsimp only
    rw [refused_plain hp, if_neg (by decide), hs2, if_pos rfl]
    dsimp only
    cases hr : s.repo (pathName metaBase (own cwd out)) with
    | none =>
      cases ok with
      | true => exact ⟨.inr rfl, fun _ _ _ => rfl, rfl⟩
      | false => exact ⟨.inl rfl, fun h => (by cases h), rfl⟩
    | some m =>
      dsimp only
      by_cases ht : written ≤ m.time
      · rw [if_pos ht]
        exact ⟨.inl rfl, fun _ _ h => absurd (h m rfl) (by omega), rfl⟩
      · rw [if_neg ht]
        cases ok with
        | true => exact ⟨.inr rfl, fun _ _ _ => rfl, rfl⟩
        | false => exact ⟨.inl rfl, fun h => (by cases h), rfl⟩

/-! ## The search -/

/-- With a build ID, metadata linked under it is found, if it is not older than the file. -/
theorem found_by_id {s : State} {p : Name} {b : Bin} {t : Nat} {m : Meta} (hd : s.disk p = some (b, t)) (hw : b.Whole) (hi : b.HasId) (hp : p.head? = some '/')
    (hl : p.length < 2 ^ 32) (hm : s.repo (idName metaBase b.id) = some m) (ht : t / second ≤ m.time / second) (junk : Nat → Int) :
    found none junk s p b = some (some (idName metaBase b.id)) := by
  obtain ⟨d, hdd⟩ := hi
  have hb : byBuildId metaBase b.id = some (idName metaBase b.id) := by
    rcases hw with h | ⟨d', h, hd', _⟩
    · rw [h] at hdd; cases hdd
    · rw [Bin.id, h]
      exact (id_names (a := ['0']) (b := []) (by decide) (by decide) hd' metaBase).2 (by decide)
  unfold found find candidates
  dsimp only
  rw [if_pos ((Bin.haveId_iff hw).2 ⟨d, hdd⟩), hb, byPath_fits (by decide) hl hp]
  simp only [Option.bind_some, Option.map_some, search]
  have e : (world s p).stat (idName metaBase b.id) = some (some ((m.time / second : Nat) : Int)) := by simp [world, hm]
  have e2 : baseTime (world s p) (junk 0) = ((t / second : Nat) : Int) := by simp [world, baseTime, hd]
  rw [e]
  dsimp only
  rw [e2, if_neg (by omega)]

/-- Without, that made under the file's name. -/
theorem found_by_path {s : State} {p : Name} {b : Bin} {t : Nat} {m : Meta} (hd : s.disk p = some (b, t)) (hw : b.Whole) (hi : ¬ b.HasId) (hp : Plain metaBase p)
    (hm : s.repo (pathName metaBase p) = some m) (ht : t / second ≤ m.time / second) (junk : Nat → Int) :
    found none junk s p b = some (some (pathName metaBase p)) := by
  unfold found find candidates
  dsimp only
  rw [if_neg (fun h => hi ((Bin.haveId_iff hw).1 h)), byPath_exact hp.abs hp.fits]
  have e0 : metaBase ++ p ++ suffix = pathName metaBase p := by rw [suffix_eq]; rfl
  rw [e0]
  simp only [Option.map_some, search]
  have e : (world s p).stat (pathName metaBase p) = some (some ((m.time / second : Nat) : Int)) := by simp [world, hm]
  have e2 : baseTime (world s p) (junk 0) = ((t / second : Nat) : Int) := by simp [world, baseTime, hd]
  rw [e]
  dsimp only
  rw [e2, if_neg (by omega)]

/-- **C162** When a file has just been linked, the search for its metadata finds what was made from it. -/
theorem link_found_partial {ad : Addrs} (had : ad.Ok) {s : State} {cwd out : Name} {b : Bin} {written now : Nat} (hp : Plain metaBase (own cwd out)) (hw : b.Whole) (hs : b.size ≠ 0)
    (hold : ∀ m, s.repo (pathName metaBase (own cwd out)) = some m → m.time < written) (hnow : written ≤ now) (junk : Nat → Int) :
    ∃ n, found none junk (step ad none s (.link cwd out b written true now)) (own cwd out) b = some (some n) ∧
      (step ad none s (.link cwd out b written true now)).repo n = some ⟨now, b⟩ := by
  obtain ⟨_, h2, h3⟩ := link_repo (ad := ad) (s := s) (cwd := cwd) (out := out) (b := b) (written := written) (now := now) (ok := true) hp
  have h2 := h2 rfl hs hold
  generalize step ad none s (.link cwd out b written true now) = s' at h2 h3
  have hd : s'.disk (own cwd out) = some (b, written) := by rw [h3]; exact if_pos rfl
  have hle : written / second ≤ now / second := Nat.div_le_div_right hnow
  by_cases hi : b.HasId
  · have hm : s'.repo (idName metaBase b.id) = some ⟨now, b⟩ := by rw [h2, made_eq had hw, if_pos (.inl ⟨hi, rfl⟩)]
    have := hp.fits
    exact ⟨_, found_by_id hd hw hi hp.abs (by omega) hm hle junk, hm⟩
  · have hm : s'.repo (pathName metaBase (own cwd out)) = some ⟨now, b⟩ := by rw [h2, made_eq had hw, if_pos (.inr rfl)]
    exact ⟨_, found_by_path hd hw hi hp hm hle junk, hm⟩

/-! ## Histories -/

/-- Links are to plain names, and make files with whole build IDs or none. -/
def Ev.Ok : Ev → Prop
  | .link cwd out b _ _ _ => Plain metaBase (own cwd out) ∧ b.Whole
  | _ => True

/-- What is linked. -/
def Ev.makes : Ev → Option Bin
  | .link _ _ b _ _ _ => some b
  | _ => none

theorem idName_inj {a b : List (Fin 256)} (ha : a.length = 20) (hb : b.length = 20) (e : idName metaBase a = idName metaBase b) : a = b := by
  have h : ∀ l : List (Fin 256), l.length = 20 → byBuildId metaBase l = some (idName metaBase l) := by
    intro l hl
    have := (id_names (a := ['0']) (b := []) (by decide) (by decide) (d := l) (by omega) metaBase).2 (by decide)
    rwa [List.take_of_length_le (by omega)] at this
  exact byBuildId_injective_partial (base := metaBase) ha hb (by decide) (by rw [h a ha, h b hb, e])

/-- One event, and the metadata under a build ID. -/
theorem step_id {ad : Addrs} (had : ad.Ok) {s : State} {e : Ev} (he : e.Ok) {id : List (Fin 256)} (hid : id.length = 20) :
    (step ad none s e).repo (idName metaBase id) = s.repo (idName metaBase id) ∨
    ∃ b now, e.makes = some b ∧ b.HasId ∧ b.id = id ∧ (step ad none s e).repo (idName metaBase id) = some ⟨now, b⟩ := by
  cases e with
  | put name b time => exact .inl rfl
  | remove name => exact .inl rfl
  | link cwd out b written ok now =>
    obtain ⟨hp, hw⟩ := he
    obtain ⟨h1, _, _⟩ := link_repo (ad := ad) (s := s) (cwd := cwd) (out := out) (b := b) (written := written) (now := now) (ok := ok) hp
    rcases h1 with h1 | h1
    · rw [h1]; exact .inl rfl
    · rw [h1, made_eq had hw]
      by_cases hc : b.HasId ∧ idName metaBase id = idName metaBase b.id
      · right
        exact ⟨b, now, rfl, hc.1, (idName_inj hid (Bin.id_length hw) hc.2).symm, by rw [if_pos (.inl hc)]⟩
      · left
        rw [if_neg]
        rintro (h | h)
        · exact hc h
        · exact path_ne_id hp hid h.symm

/-- **C162** Whatever is linked, copied, moved and removed: metadata under a build ID was made from a file with that ID. -/
theorem id_sound {ad : Addrs} (had : ad.Ok) {s : State} (h0 : ∀ n, s.repo n = none) {es : List Ev} (he : ∀ e ∈ es, e.Ok) {id : List (Fin 256)} (hid : id.length = 20) {m : Meta}
    (hm : (run ad none s es).repo (idName metaBase id) = some m) : m.from'.HasId ∧ m.from'.id = id := by
  have key : ∀ (es : List Ev) (s : State), (∀ e ∈ es, e.Ok) → (∀ m, s.repo (idName metaBase id) = some m → m.from'.HasId ∧ m.from'.id = id) →
      ∀ m, (run ad none s es).repo (idName metaBase id) = some m → m.from'.HasId ∧ m.from'.id = id := by
    intro es
    induction es with
    | nil => intro s _ h m hm; exact h m hm
    | cons e es ih =>
      intro s he h m hm
      refine ih (step ad none s e) (fun e' h' => he e' (List.mem_cons_of_mem _ h')) ?_ m hm
      intro m' hm'
      rcases step_id had (he e (List.mem_cons_self ..)) hid (s := s) with h1 | ⟨b, now, _, h2, h3, h4⟩
      · rw [h1] at hm'; exact h m' hm'
      · rw [h4] at hm'; injection hm' with hm'; rw [← hm']; exact ⟨h2, h3⟩
  exact key es s he (fun m hm => by rw [h0] at hm; cases hm) m hm

/-- **C162** A linked file with a build ID may be copied or moved anywhere, and other files linked meanwhile, under any names: as long as no other file with its ID is linked, the
search finds what was made from it, if its time is no later than the metadata's. -/
theorem moved_found_partial {ad : Addrs} (had : ad.Ok) {s : State} {cwd out : Name} {b : Bin} {written now : Nat} (hp : Plain metaBase (own cwd out)) (hw : b.Whole) (hi : b.HasId)
    (hs : b.size ≠ 0) (hold : ∀ m, s.repo (pathName metaBase (own cwd out)) = some m → m.time < written) {es : List Ev} (he : ∀ e ∈ es, e.Ok)
    (hes : ∀ e ∈ es, ∀ b', e.makes = some b' → b'.HasId → b'.id ≠ b.id) {p : Name} (hp' : p.head? = some '/') (hl : p.length < 2 ^ 32) {t : Nat}
    (hd : (run ad none s (.link cwd out b written true now :: es)).disk p = some (b, t)) (ht : t / second ≤ now / second) (junk : Nat → Int) :
    ∃ n, found none junk (run ad none s (.link cwd out b written true now :: es)) p b = some (some n) ∧
      (run ad none s (.link cwd out b written true now :: es)).repo n = some ⟨now, b⟩ := by
  have key : ∀ (es : List Ev) (s : State), (∀ e ∈ es, e.Ok) → (∀ e ∈ es, ∀ b', e.makes = some b' → b'.HasId → b'.id ≠ b.id) → s.repo (idName metaBase b.id) = some ⟨now, b⟩ →
      (run ad none s es).repo (idName metaBase b.id) = some ⟨now, b⟩ := by
    intro es
    induction es with
    | nil => intro s _ _ h; exact h
    | cons e es ih =>
      intro s he hes h
      refine ih (step ad none s e) (fun e' h' => he e' (List.mem_cons_of_mem _ h')) (fun e' h' => hes e' (List.mem_cons_of_mem _ h')) ?_
      rcases step_id had (he e (List.mem_cons_self ..)) (Bin.id_length hw) (s := s) with h1 | ⟨b', now', h1, h2, h3, _⟩
      · rw [h1]; exact h
      · exact absurd h3 (hes e (List.mem_cons_self ..) b' h1 h2)
  obtain ⟨_, h2, _⟩ := link_repo (ad := ad) (s := s) (cwd := cwd) (out := out) (b := b) (written := written) (now := now) (ok := true) hp
  have hm := key es (step ad none s (.link cwd out b written true now)) he hes (by rw [h2 rfl hs hold, made_eq had hw, if_pos (.inl ⟨hi, rfl⟩)])
  exact ⟨_, found_by_id hd hw hi hp' hl hm ht junk, hm⟩

/-- A search that finds something finds one of the two names. -/
theorem search_mem {w : World} {junk : Nat → Int} : ∀ (l : List Name) (i : Nat) (n : Name), (search w junk i l).1 = some n → n ∈ l ∧ ∃ t, w.stat n = some (some t)
  | [], _, _, h => by rw [search] at h; cases h
  | x :: l, i, n, h => by
    rw [search] at h
    cases hx : w.stat x with
    | none =>
      rw [hx] at h
      obtain ⟨h1, h2⟩ := search_mem l _ n h
      exact ⟨List.mem_cons_of_mem _ h1, h2⟩
    | some o =>
      cases o with
      | none =>
        rw [hx] at h
        obtain ⟨h1, h2⟩ := search_mem l _ n h
        exact ⟨List.mem_cons_of_mem _ h1, h2⟩
      | some t =>
        rw [hx] at h
        dsimp only at h
        split at h
        · obtain ⟨h1, h2⟩ := search_mem l _ n h
          exact ⟨List.mem_cons_of_mem _ h1, h2⟩
        · injection h with h; subst h; exact ⟨List.mem_cons_self .., t, hx⟩

/-- **C162** Whatever has happened, what is found for a file with a build ID was made from a file with that ID, or it is what was made under the name that the file now has. -/
theorem found_sound {ad : Addrs} (had : ad.Ok) {s : State} (h0 : ∀ n, s.repo n = none) {es : List Ev} (he : ∀ e ∈ es, e.Ok) {p n : Name} {b : Bin} (hw : b.Whole) (hi : b.HasId)
    (hp : Plain metaBase p) {junk : Nat → Int} (hf : found none junk (run ad none s es) p b = some (some n)) :
    ∃ m, (run ad none s es).repo n = some m ∧ (m.from'.id = b.id ∨ n = pathName metaBase p) := by
  obtain ⟨d, hdd⟩ := hi
  have hb : byBuildId metaBase b.id = some (idName metaBase b.id) := by
    rcases hw with h | ⟨d', h, hd', _⟩
    · rw [h] at hdd; cases hdd
    · rw [Bin.id, h]
      exact (id_names (a := ['0']) (b := []) (by decide) (by decide) hd' metaBase).2 (by decide)
  have e0 : metaBase ++ p ++ suffix = pathName metaBase p := by rw [suffix_eq]; rfl
  unfold found find candidates at hf
  dsimp only at hf
  rw [if_pos ((Bin.haveId_iff hw).2 ⟨d, hdd⟩), hb, byPath_exact hp.abs hp.fits, e0] at hf
  simp only [Option.bind_some, Option.map_some, Option.some.injEq] at hf
  obtain ⟨h1, t, h2⟩ := search_mem _ _ _ hf
  simp only [world, Option.map_eq_some_iff] at h2
  obtain ⟨m, h2, _⟩ := h2
  refine ⟨m, h2, ?_⟩
  simp only [List.mem_cons, List.not_mem_nil, or_false] at h1
  rcases h1 with h1 | h1
  · left
    rw [h1] at h2
    exact (id_sound had h0 he (Bin.id_length hw) h2).2
  · exact .inr h1

/-! ## Files and their names -/

/-- The name of a linked file by the system's rule: a name with a slash in front is taken from the root, another from the working directory. -/
theorem own_absolute (cwd rest : Name) : own cwd ('/' :: rest) = '/' :: rest := rfl

theorem own_relative (cwd : Name) (out : Name) (h : out ≠ []) (ho : out.head? ≠ some '/') (hc : cwd ≠ []) (hl : cwd.getLast? ≠ some '/') : own cwd out = cwd ++ '/' :: out := by
  unfold own
  rw [if_neg ho]
  cases out with
  | nil => exact absurd rfl h
  | cons c q =>
    unfold append
    dsimp only
    rw [if_neg]
    rintro (h1 | h1 | h1)
    · exact ho (by rw [h1]; rfl)
    · exact hc h1
    · exact hl h1

theorem make_disk {ad : Addrs} {base : Name} {ok : Bool} {now : Nat} {s s' : State} {t : Name} (h : make ad base ok now s t = some s') : s'.disk = s.disk := by
  unfold make at h
  repeat' split at h
  all_goals first | (cases h; rfl) | cases h

theorem makeAll_disk {ad : Addrs} {base : Name} {ok : Bool} {now : Nat} : ∀ {ts : List Name} {s : State}, (makeAll ad base ok now s ts).disk = s.disk
  | [], s => rfl
  | t :: ts, s => by
    unfold makeAll
    split
    · rfl
    · rename_i s' h
      rw [makeAll_disk, make_disk h]

theorem plugin_disk {ad : Addrs} {env : Option Name} {ok : Bool} {now : Nat} {s : State} {cwd out : Name} : (plugin ad env ok now s cwd out).disk = s.disk := by
  unfold plugin
  split
  · rfl
  · split
    · rfl
    · exact makeAll_disk

/-- What an event leaves under a name, if it does anything to it. -/
def Ev.leaves (name : Name) : Ev → Option (Option (Bin × Nat))
  | .link cwd out b written _ _ => if name = own cwd out then some (some (b, written)) else none
  | .put n b time => if name = n then some (some (b, time)) else none
  | .remove n => if name = n then some none else none

/-- Under each name is what the last event that had to do with it left: making metadata does not touch the files. -/
theorem disk_last {ad : Addrs} {env : Option Name} (name : Name) : ∀ (es : List Ev) (s : State),
    (run ad env s es).disk name = match es.reverse.findSome? (Ev.leaves name) with | some x => x | none => s.disk name := by
  intro es
  induction es with
  | nil => intro s; rfl
  | cons e es ih =>
    intro s
    have h1 : (run ad env s (e :: es)) = run ad env (step ad env s e) es := rfl
    have h2 : (step ad env s e).disk name = match e.leaves name with | some x => x | none => s.disk name := by
      cases e with
      | link cwd out b written ok now =>
        simp only [step, plugin_disk, Ev.leaves]
        by_cases h : name = own cwd out <;> simp [h]
      | put n b time =>
        simp only [step, Ev.leaves]
        by_cases h : name = n <;> simp [h]
      | remove n =>
        simp only [step, Ev.leaves]
        by_cases h : name = n <;> simp [h]
    rw [h1, ih, List.reverse_cons, List.findSome?_append]
    cases es.reverse.findSome? (Ev.leaves name) with
    | some x => rfl
    | none =>
      simp only [List.findSome?_cons, List.findSome?_nil, Option.none_or]
      rw [h2]
      cases e.leaves name <;> rfl

/-! ## What goes wrong -/

def ad0 : Addrs := ⟨fun _ => w! "0001464", fun _ => w! "0001510"⟩
theorem ad0_ok : ad0.Ok := by
  intro b
  exact ⟨(by decide : ∀ c ∈ w! "0001464", c ≠ ' ' ∧ c ≠ '\n' ∧ c ≠ '\t'), (by decide : ∀ c ∈ w! "0001510", c ≠ ' ' ∧ c ≠ '\n' ∧ c ≠ '\t'), (by decide : (w! "0001464") ≠ [])⟩

def empty : State := ⟨fun _ => none, fun _ => none⟩
def idA : List (Fin 256) := [0xab, 0xcd, 3, 4, 5, 6, 7, 8, 9, 10, 11, 12, 13, 14, 15, 16, 17, 18, 19, 0xff]
def binA : Bin := ⟨1, some (idA ++ [1, 2, 3]), 100⟩
def binB : Bin := ⟨2, none, 100⟩
def binC : Bin := ⟨3, none, 100⟩

/-- **C162 fails** A linked file that is copied to its place with a new time, a second or more later, as when it is installed, has no metadata from then on, though its build ID is the
same: the metadata is taken to be out of date. -/
theorem install_fails :
    found none (fun _ => 0) (run ad0 none empty [.link (w! "/src") (w! "a.out") binA (5 * second) true (6 * second), .put (w! "/bin/a") binA (6 * second + 5)]) (w! "/bin/a") binA =
      some (some (w! "/usr/lib/meta/.build-id/ab/cd030405060708090a0b0c0d0e0f10111213ff-meta.so")) ∧
    found none (fun _ => 0) (run ad0 none empty [.link (w! "/src") (w! "a.out") binA (5 * second) true (6 * second), .put (w! "/bin/a") binA (7 * second)]) (w! "/bin/a") binA = some none := by
  decide +kernel

/-- **C162 fails** What is found by name is not compared with the file: an older file put in the place of a linked one gets its metadata, and a link that seems older leaves the
metadata as it is. -/
theorem stale_fails :
    (let s := run ad0 none empty [.link (w! "/src") (w! "a.out") binB (5 * second) true (6 * second), .put (w! "/src/a.out") binC (3 * second)]
     found none (fun _ => 0) s (w! "/src/a.out") binC = some (some (w! "/usr/lib/meta/src/a.out-meta.so")) ∧ s.repo (w! "/usr/lib/meta/src/a.out-meta.so") = some ⟨6 * second, binB⟩) ∧
    (let s := run ad0 none empty [.link (w! "/src") (w! "a.out") binB (5 * second) true (6 * second), .link (w! "/src") (w! "a.out") binC (5 * second) true (7 * second)]
     s.repo (w! "/usr/lib/meta/src/a.out-meta.so") = some ⟨6 * second, binB⟩) := by
  decide +kernel

/-- **C162 fails** The name goes to the shell without quotes. -/
theorem blank_fails : targets (w! "/my src") (w! "a.out") = [w! "/usr/lib/meta/my", w! "src/a.out-meta.so"] ∧
    found none (fun _ => 0) (run ad0 none empty [.link (w! "/my src") (w! "a.out") binA (5 * second) true (6 * second)]) (w! "/my src/a.out") binA = some none := by
  decide +kernel

/-- **C162 fails** Metadata directories other than the one compiled into the plugin do not work with it, though the search and the rules heed `META_BASE`: `make` has no rule. -/
theorem base_fails :
    found (some (w! "/meta")) (fun _ => 0) (run ad0 (some (w! "/meta")) empty [.link (w! "/src") (w! "a.out") binA (5 * second) true (6 * second)]) (w! "/src/a.out") binA = some none := by
  decide +kernel

/-- **C162 fails** The build ID is read as 20 bytes, whatever its size: of one of 16 that ends the file, the address that `od` prints last becomes part of the name. -/
theorem short_fails : readId (w! "0001464") (w! "0001504") (idA.take 16) = w! "abcd030405060708090a0b0c0d0e0f100001504" := by decide +kernel

/-- **C162 fails** The commands that would make links in the mirror are only printed, so that a name with a symbolic link leads nowhere there, unless it is used in the same form. -/
theorem mirror_fails (base : Name) (there : Name → Bool) : ∀ (ls : List (Name × Bool × Name × Name × Name)) (l : Name), Eff.ran l ∉ mirror base there ls
  | [], _ => by simp [mirror]
  | (link, absol, target, dir, last) :: ls, l => by
    rw [mirror, List.mem_append]
    rintro (h | h)
    · split at h
      · cases h
      · rcases List.mem_append.1 h with h | h
        · split at h
          · cases h
          · simp at h
        · simp at h
    · exact mirror_fails base there ls l h

/-- A link in the mirror's own directory is refused. -/
theorem meta_refused {ad : Addrs} {ok : Bool} {now : Nat} {s : State} : make ad metaBase ok now s (w! "/usr/lib/meta/usr/lib/meta/src/a.out-meta.so-meta.so") = none := by
  have h : stem metaBase (w! "/usr/lib/meta/usr/lib/meta/src/a.out-meta.so-meta.so") = some (w! "usr/lib/meta/src/a.out-meta.so") := by decide +kernel
  have h2 : refused metaBase (w! "/usr/lib/meta/usr/lib/meta/src/a.out-meta.so-meta.so") (w! "usr/lib/meta/src/a.out-meta.so") = true := by decide +kernel
  rw [make, h]
  dsimp only
  rw [h2]; rfl

/-! ## A concrete case -/

example : Plain metaBase (own (w! "/src") (w! "a.out")) := by constructor <;> decide +kernel
example : binA.Whole := .inr ⟨_, rfl, by decide, 0xab, by decide, by decide⟩
example :
    found none (fun _ => 0) (run ad0 none empty [.link (w! "/src") (w! "a.out") binA (5 * second) true (6 * second), .put (w! "/bin/a") binA (5 * second), .remove (w! "/src/a.out"),
      .link (w! "/src") (w! "a.out") binB (8 * second) true (9 * second)]) (w! "/bin/a") binA = some (some (w! "/usr/lib/meta/.build-id/ab/cd030405060708090a0b0c0d0e0f10111213ff-meta.so")) := by
  decide +kernel

end Liballocs.MetaBuild
