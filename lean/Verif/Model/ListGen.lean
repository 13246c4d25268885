import Verif.Model.Load
/-
Model of the preparation of word lists, /repo/listgen/listgen.py: `canonicalize`, `alpha_ratio`, `create_wordlist` and
`Wordlist.dump_final`, from the texts of the three files it reads to those of the three files it writes. Not modelled: how the
files that it reads are made (`word_frequency` and before), the parts that `main` does not reach, the messages.

Exceptions of Python are `PyError`; a run that raises one has no result here, although files written before are left behind.
-/
namespace Noodle
set_option autoImplicit false

/-- An exception. -/
inductive PyError
  | value
  | assertion
  | zeroDivision
deriving DecidableEq

/-- What is taken from Python as it is: tables of Unicode, `int`, and arithmetic with floating point numbers. -/
structure Python where
  /-- `unicodedata.normalize("NFKD", s)` -/
  nfkd : List Char → List Char
  /-- `unicodedata.combining(c)` is not 0 -/
  combining : Char → Bool
  /-- `str.casefold`, of one character -/
  casefold : Char → List Char
  /-- characters that `str.strip` removes -/
  space : Char → Bool
  /-- `int(s)`; `none`: `ValueError` -/
  int : List Char → Option Int
  /-- listgen.py:260 `int(count * 1.5)` -/
  threeHalves : Int → Int
  /-- listgen.py:263 `int(count * 0.2 - 1)` -/
  fifth : Int → Int
  /-- listgen.py:266 `int(count * 0.5 - 1)` -/
  half : Int → Int
  /-- listgen.py:42-43, 49 `int(1e6 / math.log(min_score / total_scores) * math.log(score / total_scores))`, as a function of
  the total, the minimum and the score; `none`: an exception -/
  value : Int → Int → Int → Option Int

/-! ### Dictionaries -/

/-- A `dict` with strings as keys, in the order of insertion. -/
abbrev PyDict (α : Type) := List (List Char × α)

/-- `d.get(k)` -/
def PyDict.get {α : Type} : PyDict α → List Char → Option α
  | [], _ => none
  | (k', v) :: d, k => if k' = k then some v else PyDict.get d k

/-- `d[k] = v`: in place, or at the end. -/
def PyDict.set {α : Type} : PyDict α → List Char → α → PyDict α
  | [], k, v => [(k, v)]
  | (k', v') :: d, k, v => if k' = k then (k, v) :: d else (k', v') :: PyDict.set d k v

/-! ### Words -/

/-- `"a" <= c <= "z"` -/
def pyLetter (c : Char) : Bool := decide ('a' ≤ c) && decide (c ≤ 'z')

/-- listgen.py:134-139 `.replace("æ", "ae")…` -/
def ligature (c : Char) : List Char :=
  if c = 'æ' then ['a', 'e'] else if c = 'Æ' then ['A', 'E'] else if c = 'œ' then ['o', 'e'] else if c = 'Œ' then ['O', 'E'] else [c]

/-- listgen.py:130-154 `canonicalize`. -/
def canonicalize (P : Python) (word : List Char) : List Char :=
  if word.any fun c => decide ('0' ≤ c) && decide (c ≤ '9') then []
  else
    let canonical := ((P.nfkd (word.flatMap ligature)).filter fun c => !P.combining c).flatMap P.casefold
    if canonical.any fun c => decide (128 ≤ c.toNat) then []
    else ((canonical.dropWhile fun c => !pyLetter c).reverse.dropWhile fun c => !pyLetter c).reverse

/-- listgen.py:157-159 `alpha_ratio(word) <= 0.75`. The quotient of two lengths, rounded, is at most 3/4 exactly if the
quotient itself is. -/
def lowAlpha (P : Python) (word : List Char) : Bool :=
  decide (4 * ((word.flatMap P.casefold).filter pyLetter).length ≤ 3 * word.length)

/-! ### Points -/

/-- listgen.py:244-245 `word_points`, `original_words`. -/
structure Gather where
  points : PyDict Int := []
  originals : PyDict (List Char) := []
deriving DecidableEq

/-- listgen.py:255-266: the count with bonus or penalty. -/
def adjust (P : Python) (count : Int) (canonical word : List Char) : Int :=
  if canonical = word then count * 2 + 1
  else if canonical = word.flatMap P.casefold then P.threeHalves count + 1
  else if 2 * canonical.length ≤ word.length then P.fifth count
  else if lowAlpha P word then P.half count
  else count

/-- listgen.py:246 `blocklist` -/
def blocklist : List (List Char) := [['a', 'e', 'o']]

/-- listgen.py:248-272 `add_word`, in `create_wordlist`; the points, if there are any. -/
def gather (P : Python) (st : Gather) (count : Int) (word : List Char) : Except PyError (Gather × Option Int) :=
  if word = [] then .ok (st, none)
  else if '\t' ∈ word then .error .assertion
  else
    let canonical := canonicalize P word
    if canonical = [] ∨ canonical ∈ blocklist then .ok (st, none)
    else
      let points := (st.points.get canonical).getD 0 + adjust P count canonical word
      .ok (⟨st.points.set canonical points, st.originals.set canonical word⟩, some points)

/-- listgen.py:17 `Wordlist.word_data`: score, index, word. -/
abbrev WordData := PyDict (Int × Nat × List Char)

/-- listgen.py:53-56 `add_canonical`. -/
def addCanonical (d : WordData) (canonical word : List Char) (score : Int) : WordData :=
  d.set canonical (score, d.length, word)

/-- listgen.py:274-281, 284-291: the loop over the rows of `enwiktionary.txt`, and of `title.txt` (with its factor). -/
def gatherList (P : Python) (factor : Int) : Gather → WordData → List (Int × List Char) → Except PyError (Gather × WordData)
  | st, d, [] => .ok (st, d)
  | st, d, (count, word) :: rows =>
    match gather P st (count * factor) word with
    | .error e => .error e
    | .ok (st', score) =>
      gatherList P factor st' (match score with
        | some n => if n ≠ 0 then addCanonical d (canonicalize P word) word n else d
        | none => d) rows

/-- listgen.py:294-297: the loop over the rows of `body.txt`. -/
def gatherBody (P : Python) : Gather → List (Int × List Char) → Except PyError Gather
  | st, [] => .ok st
  | st, (count, word) :: rows =>
    match gather P st count word with
    | .error e => .error e
    | .ok (st', _) => gatherBody P st' rows

/-! ### Reading and writing -/

/-- Iteration over a text file: lines end with `\n`, `\r` or `\r\n`; without their ends here (`strip` removes them). -/
def pyLines (cur : List Char) : List Char → List (List Char)
  | [] => if cur.isEmpty then [] else [cur]
  | '\r' :: '\n' :: cs => cur :: pyLines [] cs
  | c :: cs => if c = '\n' ∨ c = '\r' then cur :: pyLines [] cs else pyLines (cur ++ [c]) cs

/-- `str.strip()` -/
def pyStrip (P : Python) (l : List Char) : List Char := ((l.dropWhile P.space).reverse.dropWhile P.space).reverse

/-- listgen.py:277, 279 `count_str, _, word = line.strip().split("\t")`, and `int(count_str)`. -/
def rowOfThree (P : Python) (line : List Char) : Except PyError (Int × List Char) :=
  match splitTab (pyStrip P line) with
  | none => .error .value
  | some (count, rest) => match splitTab rest with
    | none => .error .value
    | some (_, word) => if '\t' ∈ word then .error .value else match P.int count with
      | none => .error .value
      | some n => .ok (n, word)

/-- listgen.py:287, 289, 296-297 `count_str, _, word = line.strip().partition("\t")`, and `int(count_str)`. -/
def rowOfTwo (P : Python) (line : List Char) : Except PyError (Int × List Char) :=
  let (count, word) := (splitTab (pyStrip P line)).getD (pyStrip P line, [])
  match P.int count with
  | none => .error .value
  | some n => .ok (n, word)

/-- `f"{n}"` -/
def pyInt (n : Int) : List Char := (toString n).toList

/-- listgen.py:46-50 `for … in sorted(self.word_data.items(), key=lambda x: x[1][0], reverse=True)`: a line for each word. -/
def dumpLines (P : Python) (total least : Int) : WordData → Except PyError (List Char)
  | [] => .ok []
  | (_, score, _, word) :: d => match P.value total least score with
    | none => .error .value
    | some v => (dumpLines P total least d).map fun t => pyInt v ++ ['\t'] ++ word ++ ['\n'] ++ t

/-- listgen.py:38-51 `dump_final`. `min` of nothing is a `ValueError`. Sorting is stable, also with `reverse=True`. -/
def dumpFinal (P : Python) (d : WordData) : Except PyError (List Char) :=
  match (d.map fun x => x.2.1).min? with
  | none => .error .value
  | some least => dumpLines P (d.map fun x => x.2.1).sum least (d.mergeSort fun x y => decide (y.2.1 ≤ x.2.1))

/-- The files written: `wiktionary.tsv`, `wiki-titles.tsv`, `wordlist.<cutoff>.txt`. -/
structure ListFiles where
  wiktionary : List Char
  titles : List Char
  words : List Char

/-- listgen.py:303-304 `output_words`: pairs of points and canonical form, the largest first. -/
def outputWords (cutoff : Int) (points : PyDict Int) : List (Int × List Char) :=
  ((points.filter fun x => decide (cutoff ≤ x.2)).map fun x => (x.2, x.1)).mergeSort
    fun x y => decide (y.1 < x.1 ∨ (y.1 = x.1 ∧ y.2 ≤ x.2))

/-- listgen.py:307-309: the list that is written at the end. `original_words[word]` is there for all of `word_points`. -/
def finalList (originals : PyDict (List Char)) : WordData → List (Int × List Char) → WordData
  | d, [] => d
  | d, (count, word) :: ws => finalList originals (addCanonical d word ((originals.get word).getD []) count) ws

/-- listgen.py:243-314 `create_wordlist`, for the texts of `enwiktionary.txt`, `title.txt` and `body.txt`. Simplified: each
file is read as a whole before its loop starts. -/
def createWordlist (P : Python) (cutoff : Int) (wiktionary titles body : List Char) : Except PyError ListFiles := do
  let rows ← (pyLines [] wiktionary).mapM (rowOfThree P)
  let (st, d) ← gatherList P 1 {} [] rows
  let file ← dumpFinal P d
  let rows ← (pyLines [] titles).mapM (rowOfTwo P)
  let (st, d) ← gatherList P 3 st [] rows
  let file' ← dumpFinal P d
  let rows ← (pyLines [] body).mapM (rowOfTwo P)
  let st ← gatherBody P st rows
  let words ← dumpFinal P (finalList st.originals [] (outputWords cutoff st.points))
  return ⟨file, file', words⟩

end Noodle
