import Verif.Model.Parse
/-
Model of `load_wordlist`, /repo/noodle/src/words.rs:206-281: from the lines of the file to the word list.

From the bytes of the file to its lines: Model/File.lean. Not modelled: the messages printed. `Tranche` (`u8`) is unbounded here (a 256th
tranche would need a list of more than 10000 * 1.5^255 words).
-/
namespace Noodle
set_option autoImplicit false

/-- words.rs:232 `.lines()`: the line end is `\n` or `\r\n`. -/
def stripCR (l : List Char) : List Char := if l.getLast? = some '\r' then l.dropLast else l

/-- words.rs:232 `.lines()`: there is no line after the last `\n`. Lines that are not UTF-8 are dropped by the caller
(words.rs:233): Model/File.lean. The first argument is the line read so far. -/
def fileLines (cur : List Char) : List Char → List (List Char)
  | [] => if cur.isEmpty then [] else [cur]
  | c :: cs => if c = '\n' then stripCR cur :: fileLines [] cs else fileLines (cur ++ [c]) cs

/-- words.rs:237 `line.len()`: the number of bytes. -/
def byteLen (l : List Char) : Nat := (l.map Char.utf8Size).sum

/-- words.rs:239: `str::parse::<u32>`: an optional `+`, then decimal digits; fails when there is no digit or on
overflow. -/
def parseU32 (l : List Char) : Option Nat :=
  let d := match l with
    | '+' :: ds => ds
    | _ => l
  if !d.isEmpty && d.all Char.isDigit && decide (decimal d < 2 ^ 32) then some (decimal d) else none

/-- words.rs:238 `line.split_once('\t')`. -/
def splitTab : List Char → Option (List Char × List Char)
  | [] => none
  | c :: cs => if c = '\t' then some ([], cs) else (splitTab cs).map fun p => (c :: p.1, p.2)

/-- words.rs:236-243: the text of a line and its score. `line.len() as u32 * 200` wraps around (a debug build panics)
for lines of more than 21 million bytes. -/
def columns (line : List Char) : List Char × Nat :=
  let plain := (line, byteLen line % 2 ^ 32 * 200 % 2 ^ 32)
  match splitTab line with
  | some (count, word) => match parseU32 count with
    | some n => (word, n)
    | none => plain
  | none => plain

/-- words.rs:224-227: the counters of the loop. -/
structure LoadState where
  size : Nat := 10000
  count : Nat := 0
  tranche : Nat := 0

/-- words.rs:246: `(!word.chars().all(|c| c.is_ascii_lowercase())) as Tranche` -/
def bump (text : List Char) : Nat := if text.all fun c => decide ('a' ≤ c) && decide (c ≤ 'z') then 0 else 1

/-- words.rs:234-271: one line: the new counters, and the word, if it is kept. -/
def loadLine (U : Unicode) (st : LoadState) (line : List Char) : LoadState × Option Word :=
  let (text, score) := columns line
  let w := Word.new U (String.ofList text) (st.tranche + bump text) score
  if w.chars.length ≤ 2 ∧ text ≠ ['I'] ∧ text ≠ ['a'] then (st, none)
  else if text.any fun c => decide ('0' ≤ c) && decide (c ≤ '9') then (st, none)
  else
    let st' :=
      if st.size < st.count + 1 then { size := st.size + st.size / 2, count := 0, tranche := st.tranche + 1 }
      else { st with count := st.count + 1 }
    (st', some w)

/-- words.rs:231-272: the loop. -/
def loadLines (U : Unicode) : LoadState → List (List Char) → List Word
  | _, [] => []
  | st, l :: ls =>
    match loadLine U st l with
    | (st', some w) => w :: loadLines U st' ls
    | (st', none) => loadLines U st' ls

/-- words.rs:206-281 `load_wordlist`: the words of a file with this text. -/
def loadWordlist (U : Unicode) (text : List Char) : List Word := sortWords (loadLines U {} (fileLines [] text))

end Noodle
