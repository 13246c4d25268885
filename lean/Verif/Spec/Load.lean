import Verif.Model.Chars
/-
What a word list file means, written down independently of the code that reads it.
-/
namespace Noodle.Spec
set_option autoImplicit false

/-- The lines of a file: each ended by `\n` or `\r\n`; the last one may lack its end, unless it is empty. -/
inductive FileLines : List Char → List (List Char) → Prop
  | nil : FileLines [] []
  | last {l : List Char} : l ≠ [] → '\n' ∉ l → FileLines l [l]
  | unix {l t : List Char} {ls : List (List Char)} : '\n' ∉ l → l.getLast? ≠ some '\r' → FileLines t ls →
      FileLines (l ++ '\n' :: t) (l :: ls)
  | dos {l t : List Char} {ls : List (List Char)} : '\n' ∉ l → FileLines t ls →
      FileLines (l ++ '\r' :: '\n' :: t) (l :: ls)

/-- A string of decimal digits, and the number it stands for. -/
inductive Decimal : List Char → Nat → Prop
  | one {c : Char} {d : Nat} : d < 10 → c.toNat = '0'.toNat + d → Decimal [c] d
  | snoc {l : List Char} {n : Nat} {c : Char} {d : Nat} : Decimal l n → d < 10 → c.toNat = '0'.toNat + d →
      Decimal (l ++ [c]) (10 * n + d)

/-- A count below `2^32`, in decimal, possibly with a `+`. -/
def Counts (l : List Char) (n : Nat) : Prop := (Decimal l n ∨ ∃ m, l = '+' :: m ∧ Decimal m n) ∧ n < 2 ^ 32

/-- The text and the score of a line: `count TAB text`; or, when it is not of this form, the whole line, with a score of
200 for each byte (modulo `2^32`). -/
inductive LineIs : List Char → List Char → Nat → Prop
  | counted {col text : List Char} {n : Nat} : '\t' ∉ col → Counts col n → LineIs (col ++ '\t' :: text) text n
  | plain {l : List Char} : (¬ ∃ col text n, l = col ++ '\t' :: text ∧ '\t' ∉ col ∧ Counts col n) →
      LineIs l l (200 * (l.map Char.utf8Size).sum % 2 ^ 32)

/-- A word that is kept: two or more symbols (or `I`, or `a`), and no digit. -/
def Keeps (U : Unicode) (text : List Char) : Prop :=
  (3 ≤ (normalise U text).length ∨ text = ['I'] ∨ text = ['a']) ∧ ∀ c ∈ text, ¬ ('0' ≤ c ∧ c ≤ '9')

/-- The kept entries (text and score) of some lines, in order. -/
inductive Entries (U : Unicode) : List (List Char) → List (List Char × Nat) → Prop
  | nil : Entries U [] []
  | keep {l text : List Char} {n : Nat} {ls : List (List Char)} {es : List (List Char × Nat)} : LineIs l text n →
      Keeps U text → Entries U ls es → Entries U (l :: ls) ((text, n) :: es)
  | skip {l text : List Char} {n : Nat} {ls : List (List Char)} {es : List (List Char × Nat)} : LineIs l text n →
      ¬ Keeps U text → Entries U ls es → Entries U (l :: ls) es

/-- The nominal size of tranche `t`: 10000, and each half as large again as the one before. -/
def trancheSize : Nat → Nat
  | 0 => 10000
  | t + 1 => trancheSize t + trancheSize t / 2

/-- The number of kept words before tranche `t`: each tranche takes one word more than its nominal size. -/
def trancheStart : Nat → Nat
  | 0 => 0
  | t + 1 => trancheStart t + trancheSize t + 1

/-- Only small letters. -/
def Lowercase (text : List Char) : Prop := ∀ c ∈ text, 'a' ≤ c ∧ c ≤ 'z'

/-- The word that the `k`-th kept entry becomes: its tranche is the one whose range contains `k`, or the next one if
the text is not all small letters. -/
def EntryWord (U : Unicode) (k : Nat) (e : List Char × Nat) (w : Word) : Prop :=
  ∃ t, trancheStart t ≤ k ∧ k < trancheStart (t + 1) ∧ w.text = String.ofList e.1 ∧ w.score = e.2 ∧
    w.chars = normalise U e.1 ∧ (Lowercase e.1 → w.tranche = t) ∧ (¬ Lowercase e.1 → w.tranche = t + 1)

end Noodle.Spec
