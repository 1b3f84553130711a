import Verif.Model.Stats
/-!
# Where diagnostics go (src/err.c:12-28, src/liballocs_private.h:153-159, src/counters.c:45-90)

Every message is printed by `fprintf(get_stream_err(), …)`, so there is one call of `get_stream_err` for each.

Simplifications: `stderr` is not buffered. A message is shorter than the buffer of a stream on a file: it reaches the file in one
piece, at once or when the program exits, and the order of the latter is not fixed (`exit` takes it as an argument). Other descriptors
of the program, and other writers of the file, are not modelled. The stack is a number of nested calls.
-/
namespace Liballocs.ErrStream

abbrev Text := List Char

/-- The environment: `LIBALLOCS_ERR` (`none`: not set; otherwise whether the file can be opened for writing), the debugging level, how
many more descriptors the process may open, the program's name, and the name in `LIBALLOCS_ERR`. -/
structure Env where
  errvar : Option Bool
  level : Int
  limit : Nat
  prog : Text
  path : Text

/-- What has been printed. `opened` streams are open on the file, those with unwritten text being `pending`. -/
structure Out where
  stderr : Text
  file : Text
  opened : Nat
  pending : List Text
deriving DecidableEq, Repr

/-- `stderr`, or a stream just opened on the file. -/
inductive Dest
  | err
  | fresh
deriving DecidableEq, Repr

/-- A write at the beginning of the file. -/
def overlay (file t : Text) : Text := t ++ file.drop t.length

/-- `fprintf`: to `stderr`, or to a stream on the file that is at its beginning; `now`: the text reaches the file at once. -/
def put (o : Out) (d : Dest) (now : Bool) (t : Text) : Out :=
  match d with
  | .err => { o with stderr := o.stderr ++ t }
  | .fresh => if now = true then { o with file := overlay o.file t } else { o with pending := o.pending ++ [t] }

/-- The message about a file that cannot be opened (src/err.c:23). -/
def cannot (e : Env) : Text := e.prog ++ ": could not open ".toList ++ e.path ++ " for writing\n".toList

/-- `get_stream_err` (src/err.c:12-28) with room for the given number of nested calls; `none`: the stack is exhausted. `fopen` with
`"w"` empties the file. On failure `debug_printf` is used, which calls `get_stream_err` (src/liballocs_private.h:155-159). -/
def getStream (e : Env) : Nat → Out → Option (Out × Dest)
  | 0, _ => none
  | n + 1, o =>
    match e.errvar with
    | none => some (o, .err)
    | some ok =>
      if ok = true ∧ o.opened < e.limit then some ({ o with file := [], opened := o.opened + 1 }, .fresh)
      else if 0 ≤ e.level then
        match getStream e n o with
        | none => none
        | some (o', d) => some (put o' d false (cannot e), d)
      else some (o, .err)

/-- A message: text for `fprintf(get_stream_err(), …)`, or for `debug_printf` with a level, which precedes it with the name of the
program. -/
inductive Msg
  | plain (t : Text)
  | debug (lvl : Int) (t : Text)
deriving DecidableEq, Repr

/-- The text printed, if any (src/liballocs_private.h:155-159). -/
def text (e : Env) : Msg → Option Text
  | .plain t => some t
  | .debug lvl t => if lvl ≤ e.level then some (e.prog ++ ": ".toList ++ t) else none

/-- Print one message. -/
def say (e : Env) (depth : Nat) (o : Out) (now : Bool) (m : Msg) : Option Out :=
  match text e m with
  | none => some o
  | some t =>
    match getStream e depth o with
    | none => none
    | some (o', d) => some (put o' d now t)

/-- Print messages, each with whether its text is to reach the file at once. -/
def sayAll (e : Env) (depth : Nat) : Out → List (Bool × Msg) → Option Out
  | o, [] => some o
  | o, m :: ms =>
    match say e depth o m.1 m.2 with
    | none => none
    | some o' => sayAll e depth o' ms

/-- The end of the program: the streams write what they hold, in the order `ord`. -/
def exit (o : Out) (ord : List Text) : Out := { o with file := ord.foldl overlay o.file, pending := [] }

def start (file : Text) : Out := ⟨[], file, 0, []⟩

/-- `fread` into a buffer of `n + 1` bytes until nothing is left (src/counters.c:81-86). -/
def chunks (n : Nat) : Nat → Text → List Text
  | 0, _ => []
  | _ + 1, [] => []
  | k + 1, t => t.take (n + 1) :: chunks n k (t.drop (n + 1))

/-- `print_exit_summary` (src/counters.c:45-90): the messages of the summary, then the memory map if it is asked for: `smaps` is
`none` if `LIBALLOCS_DUMP_SMAPS_AT_EXIT` is not set, `some none` if the map cannot be read. -/
def exitMessages (fmt : Nat → Text) (s : Stats.State) (smaps : Option (Option Text)) : Option (List Text) :=
  (Stats.summary fmt s).map fun ls => ls ++
    match smaps with
    | none => []
    | some none => ["Couldn't read from smaps!\n".toList]
    | some (some t) => chunks 4095 t.length t

end Liballocs.ErrStream
