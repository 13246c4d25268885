import Verif.Model.Web
import Verif.Spec.Session
import Verif.Spec.Load
/-
What the programs around the library promise, written down independently of their code.
-/
namespace Noodle.Spec
set_option autoImplicit false

/-! ### Answers -/

/-- The responses end with the first `Timeout` or `Complete`. -/
def Ended (rs : List Resp) : Prop :=
  ∃ a r, rs = a ++ [r] ∧ (r = .timeout ∨ r = .complete) ∧ ∀ x ∈ a, x ≠ .timeout ∧ x ≠ .complete

/-- A match as a line of plain text: each word and a blank. -/
def plainLine (ws : List Word) : List Char := (ws.map fun w => w.text.toList ++ [' ']).flatten ++ ['\n']

/-- The characters of a JSON string (RFC 8259), and the text they stand for. -/
inductive JsonChars : List Char → List Char → Prop
  | nil : JsonChars [] []
  | raw {c : Char} {e d : List Char} : 32 ≤ c.toNat → c ≠ '"' → c ≠ '\\' → JsonChars e d → JsonChars (c :: e) (c :: d)
  | escape {x c : Char} {e d : List Char} :
      (x, c) ∈ [('"', '"'), ('\\', '\\'), ('/', '/'), ('b', Char.ofNat 8), ('t', '\t'), ('n', '\n'),
        ('f', Char.ofNat 12), ('r', '\r')] → JsonChars e d → JsonChars ('\\' :: x :: e) (c :: d)
  | unicode {h l c : Char} {x y : Nat} {e d : List Char} : (h, x) ∈ "0123456789abcdef".toList.zipIdx →
      (l, y) ∈ "0123456789abcdef".toList.zipIdx → c.toNat = 16 * x + y → JsonChars e d →
      JsonChars ('\\' :: 'u' :: '0' :: '0' :: h :: l :: e) (c :: d)

/-- A word in JSON: its text and its score. -/
inductive JsonWord : List Char → List Char × Nat → Prop
  | mk {e t ds : List Char} {n : Nat} : JsonChars e t → Decimal ds n →
      JsonWord ("{\"text\":\"".toList ++ e ++ "\",\"score\":".toList ++ ds ++ "}".toList) (t, n)

/-- Words separated by commas. -/
inductive JsonWords : List Char → List (List Char × Nat) → Prop
  | one {s : List Char} {w : List Char × Nat} : JsonWord s w → JsonWords s [w]
  | cons {s t : List Char} {w : List Char × Nat} {ws : List (List Char × Nat)} : JsonWord s w → JsonWords t ws →
      JsonWords (s ++ ',' :: t) (w :: ws)

/-- A match in JSON. -/
def JsonMatch (s : List Char) (ws : List (List Char × Nat)) : Prop :=
  ∃ t, s = "{\"match\":{\"phrase\":[".toList ++ t ++ "]}}".toList ∧ (JsonWords t ws ∨ t = [] ∧ ws = [])

/-- What a client needs to know of a word. -/
def entry (w : Word) : List Char × Nat := (w.text.toList, w.score)

/-! ### Dictionaries -/

/-- The dictionaries of a directory: the word list of a name is that of the first regular file whose name, up to its first
dot, is this name. -/
def HasDict (U : Unicode) (dir : List DirEntry) (name : List Char) (ws : List Word) : Prop :=
  ∃ a e b, dir = a ++ e :: b ∧ e.regular = true ∧ Stem e.file name ∧ ws = loadWordlist U e.text ∧
    ∀ x ∈ a, x.regular = true → ¬ Stem x.file name
where
  /-- `name` is the part of `file` before its first dot. -/
  Stem (file name : List Char) : Prop := '.' ∉ name ∧ (file = name ∨ ∃ rest, file = name ++ '.' :: rest)

/-- The word list of a query: the one given in the query; or that of the dictionary it names; or, if it names none or one
that does not exist, that of the dictionary `default`. -/
inductive ChosenWords (has : List Char → List Word → Prop) (o : QueryOptions) : List Word → Prop
  | given {wl : List Word} : o.wordlist = some wl → ChosenWords has o wl
  | named {name : List Char} {wl : List Word} : o.wordlist = none → o.dictionary = some name → has name wl →
      ChosenWords has o wl
  | unknown {name : List Char} {wl : List Word} : o.wordlist = none → o.dictionary = some name →
      (∀ ws, ¬ has name ws) → has "default".toList wl → ChosenWords has o wl
  | unnamed {wl : List Word} : o.wordlist = none → o.dictionary = none → has "default".toList wl → ChosenWords has o wl

/-! ### The gauge -/

/-- The value of the gauge after some updates. -/
def gauge : List Act → Int
  | [] => 0
  | .count :: l => gauge l
  | .start :: l => gauge l + 1
  | .stop :: l => gauge l - 1

/-- `l` is an interleaving of the lists `ls`: each keeps its order. -/
inductive Interleaved {α : Type} : List (List α) → List α → Prop
  | done {ls : List (List α)} : (∀ l ∈ ls, l = []) → Interleaved ls []
  | step {ls ms : List (List α)} {x : α} {l r : List α} : Interleaved (ls ++ l :: ms) r →
      Interleaved (ls ++ (x :: l) :: ms) (x :: r)

/-- What a request does: its updates of the counters and how it stands. -/
inductive Request (U : Unicode) (ds : Dicts) : List Act → HandlerEnd → Prop
  /-- a request over HTTP -/
  | sync (errorText : List Char → List Char) (query : List Char) (plaintext : Bool) (clks : List Clock) :
      Request U ds (syncRun (syncBody U errorText ds query plaintext clks)).1
        (syncRun (syncBody U errorText ds query plaintext clks)).2
  /-- a web socket -/
  | socket (F : Floats) (P : Prints) (msg : Option (Option (List Char))) (sends : Option Nat) (others : Nat) (ticks : List Tick) :
      Request U ds (wsRun F P U ds msg sends others ticks).1 (wsRun F P U ds msg sends others ticks).2.2

end Noodle.Spec
