import Verif.Model.CcArgs
/-!
# Symbols for static objects that have none (tools/extrasyms.cpp, src/allocators/static-file.c, allocsld/allocinstr.c)

Simplifications.
* `get_extrasyms` (contrib/liballocstool) is an input: a first entry that stands for nothing, then the symbols.
* A character is a byte. Of the escapes of C and of the assembler, those for newline, tab, backslash and the quote are
  modelled; a text with others is taken not to compile, as is one in which the assembler's string is followed by something.
* The generated source is compiled in its order (as with the options of tools/Makefile.meta:178-180, without
  optimisation), and comments in it do nothing. The numerals written are read back as the numbers, cut off to the
  field's width.
* A dynamic look-up is by the whole name among the names that the meta object defines.
-/
namespace Liballocs.ExtraSyms
open CcArgs

/-- One of `get_extrasyms` (tools/extrasyms.cpp:124-127): the fields of the symbol and its name, if it has one. -/
structure Extra where
  name : Option (List Char)
  value : Nat
  size : Nat
  info : Nat
  other : Nat
  deriving DecidableEq

/-- The text of an info field (tools/extrasyms.cpp:188-196): both parts by name if they are known, else the number. -/
inductive InfoText where
  | names (bind type : Nat)
  | number (n : Nat)
  deriving DecidableEq

/-- `stb_map` and `stt_map` (tools/extrasyms.cpp:132-152), as far as four bits go: STB_LOCAL, STB_GLOBAL and STB_WEAK;
STT_NOTYPE to STT_TLS. -/
def infoText (info : Nat) : InfoText :=
  if info / 16 ≤ 2 ∧ info % 16 ≤ 6 then .names (info / 16) (info % 16) else .number info

/-- A statement of the generated source after the fixed part (tools/extrasyms.cpp:165-204). -/
inductive Line where
  | append (s : List Char)
  | sym (nameOff value size : Nat) (info : InfoText) (other shndx : Nat)
  deriving DecidableEq

/-- The loop over the symbols (tools/extrasyms.cpp:165-204): `stroff` is 32 bits wide. -/
def emit (stroff : Nat) : List Extra → List Line × Nat
  | [] => ([], stroff)
  | e :: l =>
    match e.name with
    | none =>
      (.sym 0 e.value e.size (infoText e.info) e.other 0 :: (emit stroff l).1, (emit stroff l).2)
    | some s =>
      (.append s :: .sym stroff e.value e.size (infoText e.info) e.other 0 ::
        (emit ((stroff + s.length + 1) % 2 ^ 32) l).1, (emit ((stroff + s.length + 1) % 2 ^ 32) l).2)

/-- The generated source: its statements and the two sizes (tools/extrasyms.cpp:105-121, 124-127, 165-207). `entries` is
what `get_extrasyms` gave; the first is skipped but counted. `none`: the assertion that there is one. -/
def source (entries : List Extra) : Option (List Line × Nat × Nat) :=
  match entries with
  | [] => none
  | _ :: es => some ((emit 1 es).1, entries.length * 24, (emit 1 es).2)

/-- An escape, in C or in the assembler. -/
def escape (c : Char) : Option Char :=
  if c = 'n' then some '\n' else if c = 't' then some '\t' else if c = '\\' then some '\\'
  else if c = '"' then some '"' else none

/-- Adjacent string literals of C, as the argument of `APPEND_STRING` (tools/extrasyms.cpp:107-109, 173) is read:
`inside` tells whether a literal is open; between literals there may be blanks. -/
def cLit : Bool → List Char → Option (List Char)
  | true, [] => none
  | false, [] => some []
  | true, '\\' :: c :: l =>
    match escape c with
    | none => none
    | some d => match cLit true l with | none => none | some r => some (d :: r)
  | true, c :: l =>
    if c = '"' then cLit false l
    else if c = '\n' ∨ c = '\\' then none
    else match cLit true l with | none => none | some r => some (c :: r)
  | false, c :: l => if c = '"' then cLit true l else if c = ' ' then cLit false l else none

/-- The rest of the assembler's string up to the closing quote that the macro supplies (tools/extrasyms.cpp:109). -/
def gasLit : List Char → Option (List Char)
  | [] => some []
  | '\\' :: c :: l =>
    match escape c with
    | none => none
    | some d => match gasLit l with | none => none | some r => some (d :: r)
  | c :: l =>
    if c = '"' ∨ c = '\\' then none
    else match gasLit l with | none => none | some r => some (c :: r)

/-- What `.asciz` puts in the section for a name, without the end mark. -/
def literal (s : List Char) : Option (List Char) :=
  match cLit false ('"' :: s ++ ['"']) with
  | none => none
  | some t => gasLit t

/-- `Elf64_Sym`. -/
structure Sym where
  nameOff : Nat
  info : Nat
  other : Nat
  shndx : Nat
  value : Nat
  size : Nat
  deriving DecidableEq

/-- The info byte that is assembled: `ELF64_ST_INFO` of the names, or the number. There are no names but those of
`stb_map` and `stt_map`. -/
def infoByte : InfoText → Option Nat
  | .names b t => if b ≤ 2 ∧ t ≤ 6 then some (b * 16 + t) else none
  | .number n => some (n % 256)

/-- Assembling the statements (tools/extrasyms.cpp:107-121): the string section and the symbol section grow. -/
def assemble (str : List Char) (tab : List Sym) : List Line → Option (List Char × List Sym)
  | [] => some (str, tab)
  | .append s :: l =>
    match literal s with
    | none => none
    | some t => assemble (str ++ t ++ ['\x00']) tab l
  | .sym n v z i o h :: l =>
    match infoByte i with
    | none => none
    | some b => assemble str (tab ++ [⟨n % 2 ^ 32, b, o % 256, h % 2 ^ 16, v % 2 ^ 64, z % 2 ^ 64⟩]) l

/-- What a name of a meta object stands for. -/
inductive Def where
  | syms (tab : List Sym) (size : Nat)
  | str (text : List Char) (size : Nat)
  | other

/-- The meta object (tools/Makefile.meta:126-129, 170-173): `others` are the names defined by the other generated sources.
The first entry of each section is that of tools/extrasyms.cpp:105-106. -/
def build (entries : List Extra) (others : List (List Char)) : Option (List (List Char × Def)) :=
  match source entries with
  | none => none
  | some (ls, symSize, strSize) =>
    match assemble ['\x00'] [⟨0, 0, 0, 0, 0, 0⟩] ls with
    | none => none
    | some (str, tab) =>
      some ((w! "extrasyms", .syms tab symSize) :: (w! "extrastr", .str str strSize) :: others.map (fun n => (n, .other)))

/-- A look-up by name. -/
def lookup (o : List (List Char × Def)) (n : List Char) : Option Def :=
  match o with
  | [] => none
  | (m, d) :: l => if m = n then some d else lookup l n

/-- `load_metadata` (src/allocators/static-file.c:222-238): what `meta->extrasym` and `meta->extrastr` are found to be;
`none` is a null pointer. -/
def load (o : List (List Char × Def)) : Option Def × Option Def :=
  (lookup o w! "extrasym", lookup o w! "extrastr")

/-- A table indexed through a pointer (include/allocmeta.h:508-522, src/allocators/static-symbol.c:330-333, 372, 416-419):
`none` when the pointer is null or the index is outside the table. -/
def entry (p : Option Def) (i : Nat) : Option Sym :=
  match p with
  | some (.syms tab _) => tab[i]?
  | _ => none

/-- A string read at an offset; `none` if it has no end. -/
def cstr (text : List Char) (off : Nat) : Option (List Char) :=
  if '\x00' ∈ text.drop off then some ((text.drop off).takeWhile (fun c => decide (c ≠ '\x00'))) else none

/-- What the walk over a symbol table shows of a symbol. -/
structure View where
  name : List Char
  value : Nat
  size : Nat
  info : Nat
  other : Nat
  deriving DecidableEq

/-- A symbol with its name (allocsld/allocinstr.c:529). -/
def view (text : List Char) (s : Sym) : Option View :=
  match cstr text s.nameOff with
  | none => none
  | some n => some ⟨n, s.value, s.size, s.info, s.other⟩

/-- `ITERATE_SYMTAB` (allocsld/allocinstr.c:203-208) with a callback that always goes on (568): the first `n` symbols. -/
def iterate (text : List Char) : Nat → List Sym → Option (List View)
  | 0, _ => some []
  | _ + 1, [] => none
  | n + 1, s :: l =>
    match view text s with
    | none => none
    | some v =>
      match iterate text n l with
      | none => none
      | some vs => some (v :: vs)

/-- The part of `walk_all_ld_so_symbols` (allocsld/allocinstr.c:225-240) that reads the extra symbols; `none`: abort, or a
read outside the tables. -/
def walk (o : List (List Char × Def)) : Option (List View) :=
  match lookup o w! "extrasyms", lookup o w! "extrastr" with
  | some (.syms tab size), some (.str text _) => iterate text (size / 24) tab
  | _, _ => none

/-- The name given by `get_name` (src/allocators/static-symbol.c:407-425) to a record for an extra symbol, once found. -/
def nameOf (p : Option Def × Option Def) (i : Nat) : Option (List Char) :=
  match entry p.1 i with
  | none => none
  | some s =>
    if s.nameOff = 0 then
      (match p.2 with | none => some w! "(no strtab)" | some _ => some w! "(no name)")
    else
      match p.2 with
      | some (.str text _) => cstr text s.nameOff
      | some _ => none
      | none => some w! "(no strtab)"

end Liballocs.ExtraSyms
