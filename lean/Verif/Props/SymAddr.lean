import Verif.Model.SymAddr
import Verif.Props.IfuncPos
import Verif.Props.SitePipe
/-! # C183: Messages say which place in the program they are about -/
namespace Liballocs.SymAddr

open CcArgs
open IfuncPos (Text basename FileNamed)

/-! ## Taking a text apart -/

/-- A text is divided at the first of some character in one way only. -/
theorem first_split {c : Char} : ∀ {a b x y : Text}, c ∉ a → c ∉ b → a ++ c :: x = b ++ c :: y → a = b ∧ x = y
  | [], [], _, _, _, _, h => by simpa using h
  | [], d :: b, _, _, _, hb, h => by
    simp only [List.nil_append, List.cons_append, List.cons.injEq] at h
    exact absurd (by rw [h.1]; exact List.mem_cons_self) hb
  | d :: a, [], _, _, ha, _, h => by
    simp only [List.nil_append, List.cons_append, List.cons.injEq] at h
    exact absurd (by rw [← h.1]; exact List.mem_cons_self) ha
  | d :: a, e :: b, x, y, ha, hb, h => by
    simp only [List.cons_append, List.cons.injEq] at h
    obtain ⟨h1, h2⟩ := first_split (fun m => ha (List.mem_cons_of_mem _ m)) (fun m => hb (List.mem_cons_of_mem _ m)) h.2
    exact ⟨by rw [h.1, h1], h2⟩

/-- And at the last. -/
theorem last_split {c : Char} {a b x y : Text} (hx : c ∉ x) (hy : c ∉ y) (h : a ++ c :: x = b ++ c :: y) : a = b ∧ x = y := by
  have := congrArg List.reverse h
  simp only [List.reverse_append, List.reverse_cons, List.append_assoc, List.singleton_append] at this
  obtain ⟨h1, h2⟩ := first_split (by simpa using hx) (by simpa using hy) this
  exact ⟨List.reverse_inj.1 h2, List.reverse_inj.1 h1⟩

theorem hex_plus : ∀ (k n : Nat), '+' ∉ SegMeta.hexN k n
  | 0, _ => by simp [SegMeta.hexN]
  | k + 1, n => by
    have hd : ∀ d : Fin 16, SegMeta.digit d.val ≠ '+' := by decide
    rw [SegMeta.hexN]
    split
    · next h => intro hc; exact hd ⟨n, h⟩ (List.mem_singleton.1 hc).symm
    · intro hc
      rcases List.mem_append.1 hc with hc | hc
      · exact hex_plus k _ hc
      · exact hd ⟨n % 16, Nat.mod_lt _ (by decide)⟩ (List.mem_singleton.1 hc).symm

theorem ptr_plus (n : Nat) : '+' ∉ ptr n := by
  unfold ptr
  split
  · decide
  · intro h
    rcases List.mem_cons.1 h with h | h
    · exact absurd h (by decide)
    · rcases List.mem_cons.1 h with h | h
      · exact absurd h (by decide)
      · exact hex_plus 16 n h

theorem ptr_inj {n m : Nat} (hn : n < 2 ^ 64) (hm : m < 2 ^ 64) (h : ptr n = ptr m) : n = m := by
  unfold ptr at h
  split at h <;> split at h
  · omega
  · exact absurd (List.cons.inj h).1 (by decide)
  · exact absurd (List.cons.inj h).1 (by decide)
  · have := congrArg SitePipe.unhex h
    rw [SitePipe.unhex_hex hn, SitePipe.unhex_hex hm] at this
    exact Option.some.inj this

/-- The text for an offset reads back as the offset, if it is not 0. -/
theorem ptr_reads {n : Nat} (h : 0 < n) (hn : n < 2 ^ 64) : SitePipe.unhex (ptr n) = some n := by
  unfold ptr
  rw [if_neg (by omega)]
  exact SitePipe.unhex_hex hn

/-! ## What a message tells -/

/-- What is known of an address: it is at some offset in a symbol of a file. -/
structure Found (i : Info) (addr : Nat) (path sym : Text) (off : Nat) : Prop where
  fname : i.fname = some path
  sname : i.sname = some sym
  there : i.saddr ≠ 0
  off : addr = i.saddr + off
  small : addr < 2 ^ 64

theorem offOf_found {i : Info} {addr off : Nat} {path sym : Text} (h : Found i addr path sym off) : offOf i addr = off := by
  have := h.off
  have := h.small
  unfold offOf
  rw [if_neg h.there]
  omega

/-- The message fits in the buffer. -/
def Fits (path sym : Text) (off : Nat) : Prop := (basename path).length + sym.length + (ptr off).length + 2 < BUF

theorem format_found {i : Info} {addr off : Nat} {path sym : Text} (h : Found i addr path sym off) (hf : Fits path sym off) :
    format i addr = basename path ++ '`' :: (sym ++ '+' :: ptr off) := by
  unfold format fileOf symOf
  rw [h.fname, h.sname, offOf_found h]
  refine List.take_of_length_le ?_
  unfold Fits at hf
  simp only [List.length_append, List.length_cons]
  omega

/-- Messages that are alike are about files of one name, a symbol of one name and one offset; so if the names are those of one symbol, about one address. Missing: file names
with a backquote (`quote_fails`), long names (`long_never`), and places without a symbol (`unknown_never`). -/
theorem alike_partial {i j : Info} {a b o p : Nat} {f g s t : Text} (hi : Found i a f s o) (hj : Found j b g t p) (fi : Fits f s o) (fj : Fits g t p)
    (qi : ∀ name, FileNamed f name → '`' ∉ name) (qj : ∀ name, FileNamed g name → '`' ∉ name) (h : format i a = format j b) :
    (∀ name, FileNamed f name ↔ FileNamed g name) ∧ s = t ∧ o = p ∧ (i.saddr = j.saddr → a = b) := by
  rw [format_found hi fi, format_found hj fj] at h
  obtain ⟨h1, h2⟩ := first_split (qi _ (IfuncPos.basename_spec f)) (qj _ (IfuncPos.basename_spec g)) h
  obtain ⟨h3, h4⟩ := last_split (ptr_plus o) (ptr_plus p) h2
  have ho : o = p := ptr_inj (by have := hi.off; have := hi.small; omega) (by have := hj.off; have := hj.small; omega) h4
  refine ⟨?_, h3, ho, ?_⟩
  · intro name
    rw [← IfuncPos.basename_iff, ← IfuncPos.basename_iff, h1]
  · intro hs
    rw [hi.off, hj.off, hs, ho]

/-- A message never overruns the buffer. -/
theorem format_short (i : Info) (addr : Nat) : (format i addr).length < BUF := by
  unfold format
  rw [List.length_take]
  have : BUF = 8192 := rfl
  omega

/-- If the names take up the buffer, the message does not tell where in the symbol the address is, whatever it is. -/
theorem long_never (i : Info) (a b : Nat) (h : BUF - 1 ≤ (fileOf i).length + (symOf i).length + 2) : format i a = format i b := by
  have key : ∀ x, format i x = (fileOf i ++ '`' :: (symOf i ++ ['+'])).take (BUF - 1) := by
    intro x
    unfold format
    have e : fileOf i ++ '`' :: (symOf i ++ '+' :: ptr (offOf i x)) = (fileOf i ++ '`' :: (symOf i ++ ['+'])) ++ ptr (offOf i x) := by simp
    rw [e, List.take_append_of_le_length]
    simp only [List.length_append, List.length_cons, List.length_nil]
    omega
  rw [key a, key b]

/-- Without a symbol, it does not tell where in the file the address is. -/
theorem unknown_never {i j : Info} (hf : i.fname = j.fname) (hi : i.sname = none ∧ i.saddr = 0) (hj : j.sname = none ∧ j.saddr = 0) (a b : Nat) :
    format i a = format j b := by
  have h1 : fileOf i = fileOf j := by simp only [fileOf, hf]
  have h2 : symOf i = symOf j := by simp only [symOf, hi.1, hj.1]
  have h3 : offOf i a = offOf j b := by simp only [offOf, hi.2, hj.2, if_true]
  unfold format
  rw [h1, h2, h3]

/-- Without a symbol the text is the file's name and fixed words, in which the offset is that of a null pointer. -/
theorem unknown_text {i : Info} {path : Text} (hf : i.fname = some path) (hs : i.sname = none) (h0 : i.saddr = 0) (a : Nat) (hl : (basename path).length + 14 < BUF) :
    format i a = basename path ++ w! "`unknown+(nil)" := by
  have h1 : fileOf i = basename path := by simp only [fileOf, hf]
  have h2 : symOf i = unknown := by simp only [symOf, hs]
  have h3 : offOf i a = 0 := by simp only [offOf, h0, if_true]
  have h4 : '`' :: (unknown ++ '+' :: ptr 0) = w! "`unknown+(nil)" := by decide
  unfold format
  rw [h1, h2, h3, h4]
  refine List.take_of_length_le ?_
  have : (w! "`unknown+(nil)").length = 14 := by decide
  rw [List.length_append, this]
  omega

/-! ## Callers -/

/-- The place that is named for a return address is in the calling function just if the call and what is before it in the function are at least as long as a direct call. -/
theorem site_iff {start call len : Nat} (hs : start ≤ call) (h0 : 0 < start) (hl : 0 < len) :
    (start ≤ callSite (call + len) ∧ callSite (call + len) < call + len) ↔ CALL ≤ len + (call - start) := by
  unfold callSite
  have : CALL = 5 := rfl
  omega

/-- For a direct call, the message of a caller is that for the call. -/
theorem direct_right (at' : Nat → Info) (call : Nat) : caller at' (call + CALL) = format (at' call) call := by
  unfold caller callSite
  rw [Nat.add_sub_cancel]

/-! ## Cases -/

/-- A file with two functions, of which the second starts with an indirect call of two bytes. -/
def exAt (a : Nat) : Info :=
  if 0x1000 ≤ a ∧ a < 0x1040 then ⟨some (w! "/lib/libx.so"), some (w! "first"), 0x1000⟩
  else if 0x1040 ≤ a ∧ a < 0x1080 then ⟨some (w! "/lib/libx.so"), some (w! "second"), 0x1040⟩
  else ⟨some (w! "/lib/libx.so"), none, 0⟩

example : format (exAt 0x1012) 0x1012 = w! "libx.so`first+0x12" := by decide +kernel
example : format (exAt 0x2000) 0x2000 = w! "libx.so`unknown+(nil)" := by decide +kernel
example : format ⟨none, none, 0⟩ 0x2000 = w! "unknown`unknown+(nil)" := by decide +kernel
example : caller exAt 0x1050 = w! "libx.so`second+0xb" := by decide +kernel
theorem case_found : Found (exAt 0x1012) 0x1012 (w! "/lib/libx.so") (w! "first") 0x12 :=
  ⟨by decide +kernel, by decide +kernel, by decide +kernel, by decide +kernel, by decide⟩
theorem case_fits : Fits (w! "/lib/libx.so") (w! "first") 0x12 := by
  unfold Fits
  decide +kernel

/-- **Fails**: the caller at the start of `second` is said to be in `first`. -/
theorem indirect_fails : caller exAt (0x1040 + 2) = w! "libx.so`first+0x3d" := by decide +kernel

/-- **Fails**: two places in two files are named alike, as file names may have a backquote. -/
theorem quote_fails : ∃ i j : Info, i.fname = some (w! "/a`b") ∧ j.fname = some (w! "/a") ∧ i.sname = some (w! "c") ∧ j.sname = some (w! "b`c") ∧
    format i 0x1010 = format j 0x1010 :=
  ⟨⟨some (w! "/a`b"), some (w! "c"), 0x1000⟩, ⟨some (w! "/a"), some (w! "b`c"), 0x1000⟩, rfl, rfl, rfl, rfl, by decide +kernel⟩

/-- **Fails**: so are two places in two files of one name in two directories. -/
theorem directory_fails : ∃ i j : Info, Found i 0x1010 (w! "/a/x.so") (w! "init") 0x10 ∧ Found j 0x5010 (w! "/b/x.so") (w! "init") 0x10 ∧
    format i 0x1010 = format j 0x5010 :=
  ⟨⟨some (w! "/a/x.so"), some (w! "init"), 0x1000⟩, ⟨some (w! "/b/x.so"), some (w! "init"), 0x5000⟩,
    ⟨rfl, rfl, by decide, rfl, by decide⟩, ⟨rfl, rfl, by decide, rfl, by decide⟩, by decide +kernel⟩

end Liballocs.SymAddr
