import Verif.Model.Load
import Verif.Model.Routes
/-
Model of how `load_wordlist` reads its file, /repo/noodle/src/words.rs:206-233: from the bytes to the lines. What
`BufRead::lines` of the standard library does is modelled in full; buffering is not (it has no effect on what is read),
nor is decompression: for a `.zst` file the source is what the decoder gives.
-/
namespace Noodle
set_option autoImplicit false

/-- words.rs:213-222 `unzip`: what the reader gives: bytes, and reads that fail (`none`); after that, the end, or, if it
is stuck, only reads that fail: a directory that was opened as a file, a damaged archive. Reads that are interrupted
(`ErrorKind::Interrupted`) are repeated by the standard library and do not show. -/
structure Source where
  events : List (Option UInt8)
  stuck : Bool := false
deriving DecidableEq

/-- words.rs:216 `Path::extension`, of the name of the file: what follows the last dot; nothing if there is none, or only
one at the start. -/
def extension (name : List Char) : Option (List Char) :=
  if name = ['.', '.'] then none
  else match name.reverse.dropWhile (fun c => decide (c ≠ '.')) with
    | [] => none
    | _ :: before => if before.isEmpty then none else some (name.reverse.takeWhile fun c => decide (c ≠ '.')).reverse

/-- words.rs:213-222: the source that is read: for a `.zst` file what the decoder makes of it. -/
def openList (name : List Char) (plain decoded : Source) : Source :=
  if extension name = some ['z', 's', 't'] then decoded else plain

/-- words.rs:232: how the reading of a line ends. -/
inductive ReadEnd
  | newline
  | failed
  | ended
deriving DecidableEq

/-- words.rs:232 `BufRead::read_until(b'\n', …)`: the bytes up to the next `\n`, with it; `cur` are those read so far. -/
def readUntil (stuck : Bool) (cur : List UInt8) : List (Option UInt8) → List UInt8 × ReadEnd × List (Option UInt8)
  | [] => (cur, if stuck then .failed else .ended, [])
  | none :: es => (cur, .failed, es)
  | some b :: es => if b = 10 then (cur ++ [b], .newline, es) else readUntil stuck (cur ++ [b]) es

/-- words.rs:232 `io::Lines::next`: the line end is taken off: `\n`, and a `\r` before it. -/
def chopEnd (t : List Char) : List Char := if t.getLast? = some '\n' then stripCR t.dropLast else t

/-- words.rs:232 `io::Lines::next`: `none` at the end, `some none` for an error: a read that failed, or a line that is
not UTF-8. What has been read of the line is gone in both cases. -/
def nextLine (s : Source) : Option (Option (List Char)) × Source :=
  match readUntil s.stuck [] s.events with
  | (_, .failed, es) => (some none, { s with events := es })
  | (l, _, es) =>
    if l.isEmpty then (none, { s with events := es })
    else (some ((fromUtf8 l).map chopEnd), { s with events := es })

/-- words.rs:231-233 `unzip.lines().filter_map(|line| line.ok())`: all lines, without the errors. `none`: more than `n`
calls of `next` are needed. -/
def readAll : Nat → Source → Option (List (List Char))
  | 0, _ => none
  | n + 1, s =>
    match nextLine s with
    | (none, _) => some []
    | (some none, s') => readAll n s'
    | (some (some l), s') => (readAll n s').map (l :: ·)

/-- words.rs:206-281 `load_wordlist`, when at most `n` lines are asked for. -/
def loadFile (U : Unicode) (n : Nat) (s : Source) : Option (List Word) :=
  (readAll n s).map fun ls => sortWords (loadLines U {} ls)

end Noodle
