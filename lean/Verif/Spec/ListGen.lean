import Verif.Model.ListGen
import Verif.Spec.Load
/-
What the preparation of word lists should give.
-/
namespace Noodle.Spec
set_option autoImplicit false

/-! ### Canonical forms -/

/-- A small letter of the English alphabet. -/
def Letter (c : Char) : Prop := 'a' ≤ c ∧ c ≤ 'z'

instance (c : Char) : Decidable (Letter c) := inferInstanceAs (Decidable (_ ∧ _))

/-- A digit. -/
def Digit (c : Char) : Prop := '0' ≤ c ∧ c ≤ '9'

/-- The word without ligatures, accents and capital letters. -/
def folded (P : Python) (word : List Char) : List Char :=
  ((P.nfkd (word.flatMap fun c => match c with
    | 'æ' => ['a', 'e'] | 'Æ' => ['A', 'E'] | 'œ' => ['o', 'e'] | 'Œ' => ['O', 'E'] | c => [c])).filter
    fun c => !P.combining c).flatMap P.casefold

/-- The canonical form of a word: what remains of the folded word without the signs around it, if it is plain ASCII with at
least one letter, and the word has no digit; otherwise there is none (`[]`). -/
inductive Canonical (P : Python) (word : List Char) : List Char → Prop
  | digit : (∃ c ∈ word, Digit c) → Canonical P word []
  | foreign : (∃ c ∈ folded P word, 128 ≤ c.toNat) → Canonical P word []
  | signs : (∀ c ∈ folded P word, ¬ Letter c) → Canonical P word []
  | form {a k b : List Char} {x y : Char} : (∀ c ∈ word, ¬ Digit c) → (∀ c ∈ folded P word, c.toNat < 128) →
      folded P word = a ++ k ++ b → (∀ c ∈ a ++ b, ¬ Letter c) → k.head? = some x → k.getLast? = some y → Letter x →
      Letter y → Canonical P word k

/-! ### Points -/

/-- What a count is worth: a bonus for a word that is its canonical form, or is it except for capital letters; a penalty if
it is at least twice as long as its canonical form, or at most three quarters of it are letters. -/
inductive Worth (P : Python) (count : Int) (k word : List Char) : Int → Prop
  | same : word = k → Worth P count k word (2 * count + 1)
  | capitals : word ≠ k → word.flatMap P.casefold = k → Worth P count k word (P.threeHalves count + 1)
  | shrunk : word ≠ k → word.flatMap P.casefold ≠ k → 2 * k.length ≤ word.length → Worth P count k word (P.fifth count)
  | signs : word ≠ k → word.flatMap P.casefold ≠ k → word.length < 2 * k.length →
      4 * ((word.flatMap P.casefold).countP fun c => decide (Letter c)) ≤ 3 * word.length → Worth P count k word (P.half count)
  | plain : word ≠ k → word.flatMap P.casefold ≠ k → word.length < 2 * k.length →
      3 * word.length < 4 * ((word.flatMap P.casefold).countP fun c => decide (Letter c)) → Worth P count k word count

/-- A row of a file: a count and a word. -/
abbrev CountRow := Int × List Char

/-- The points of a canonical form: what all rows with a word of this form are worth. -/
inductive Earned (P : Python) (k : List Char) : List CountRow → Int → Prop
  | nil : Earned P k [] 0
  | miss {r : CountRow} {rows : List CountRow} {n : Int} : ¬ Canonical P r.2 k → Earned P k rows n → Earned P k (r :: rows) n
  | hit {r : CountRow} {rows : List CountRow} {m n : Int} : Canonical P r.2 k → Worth P r.1 k r.2 m → Earned P k rows n →
      Earned P k (r :: rows) (m + n)

/-- The last word of this form. -/
def LastForm (P : Python) (k : List Char) (rows : List CountRow) (word : List Char) : Prop :=
  ∃ a c b, rows = a ++ (c, word) :: b ∧ Canonical P word k ∧ ∀ r ∈ b, ¬ Canonical P r.2 k

/-! ### Files -/

/-- The lines of a text file, as Python reads it. -/
inductive PyLines : List Char → List (List Char) → Prop
  | nil : PyLines [] []
  | last {l : List Char} : l ≠ [] → '\n' ∉ l → '\r' ∉ l → PyLines l [l]
  | lf {l t : List Char} {ls : List (List Char)} : '\n' ∉ l → '\r' ∉ l → PyLines t ls → PyLines (l ++ '\n' :: t) (l :: ls)
  | crlf {l t : List Char} {ls : List (List Char)} : '\n' ∉ l → '\r' ∉ l → PyLines t ls →
      PyLines (l ++ '\r' :: '\n' :: t) (l :: ls)
  | cr {l t : List Char} {ls : List (List Char)} : '\n' ∉ l → '\r' ∉ l → t.head? ≠ some '\n' → PyLines t ls →
      PyLines (l ++ '\r' :: t) (l :: ls)

/-- Without white space at the ends. -/
def Stripped (P : Python) (l s : List Char) : Prop :=
  ∃ a b, l = a ++ s ++ b ∧ (∀ c ∈ a ++ b, P.space c = true) ∧ (∀ c, s.head? = some c → P.space c = false) ∧
    ∀ c, s.getLast? = some c → P.space c = false

/-- A line `count TAB canonical TAB word`. -/
def RowOfThree (P : Python) (line : List Char) (r : CountRow) : Prop :=
  ∃ count form, Stripped P line (count ++ '\t' :: (form ++ '\t' :: r.2)) ∧ '\t' ∉ count ∧ '\t' ∉ form ∧ '\t' ∉ r.2 ∧
    P.int count = some r.1

/-- A line `count TAB word`, or only a count. -/
def RowOfTwo (P : Python) (line : List Char) (r : CountRow) : Prop :=
  ∃ count, '\t' ∉ count ∧ P.int count = some r.1 ∧
    (Stripped P line (count ++ '\t' :: r.2) ∨ (Stripped P line count ∧ r.2 = []))

/-- The rows of a file. -/
def RowsOf (row : List Char → CountRow → Prop) (text : List Char) (rows : List CountRow) : Prop :=
  ∃ ls : List (List Char), PyLines text ls ∧ ls.length = rows.length ∧
    ∀ (i : Nat) (l : List Char) (r : CountRow), ls[i]? = some l → rows[i]? = some r → row l r

/-- All rows: those of Wiktionary, those of the titles, counted three times, and those of the bodies. -/
def AllRows (P : Python) (wiktionary titles body : List Char) (rows : List CountRow) : Prop :=
  ∃ r1 r2 r3, RowsOf (RowOfThree P) wiktionary r1 ∧ RowsOf (RowOfTwo P) titles r2 ∧ RowsOf (RowOfTwo P) body r3 ∧
    rows = r1 ++ r2.map (fun r => (3 * r.1, r.2)) ++ r3

/-- An entry of a list: canonical form, points and word. -/
structure ListEntry where
  form : List Char
  points : Int
  word : List Char

/-- A file with a line `value TAB word` for each entry, where the value is computed from its points, the sum of all points and
the least of them. -/
def Written (P : Python) (es : List ListEntry) (values : ListEntry → Int) (text : List Char) : Prop :=
  (∃ least ∈ es, (∀ e ∈ es, least.points ≤ e.points) ∧
    ∀ e ∈ es, P.value (es.map ListEntry.points).sum least.points e.points = some (values e)) ∧
  text = es.flatMap fun e => (toString (values e)).toList ++ '\t' :: (e.word ++ ['\n'])

/-- The list that the counts give: all canonical forms (except `aeo`) with enough points, each once, with its last word; those
with most points first. -/
def ListOf (P : Python) (cutoff : Int) (rows : List CountRow) (es : List ListEntry) : Prop :=
  (∀ k n w, ⟨k, n, w⟩ ∈ es ↔ k ≠ [] ∧ k ≠ ['a', 'e', 'o'] ∧ Earned P k rows n ∧ cutoff ≤ n ∧ LastForm P k rows w) ∧
  es.Pairwise fun a b => b.points < a.points ∨ b.points = a.points ∧ b.form < a.form

/-- The list of one file: the canonical forms (except `aeo`) of its words, each once, with the points from this file and those
read before, if there are any, and its last word; those with most points first. -/
def ListAfter (P : Python) (earlier rows : List CountRow) (es : List ListEntry) : Prop :=
  (∀ k n w, ⟨k, n, w⟩ ∈ es ↔ k ≠ [] ∧ k ≠ ['a', 'e', 'o'] ∧ Earned P k (earlier ++ rows) n ∧ n ≠ 0 ∧ LastForm P k rows w) ∧
  (es.map ListEntry.form).Nodup ∧ es.Pairwise fun a b => b.points ≤ a.points

/-- What is needed of Python: the normal form of nothing is nothing; the logarithm of 1 is 0, by which one cannot divide; and
otherwise the quotient of two negative logarithms, the second one of the least number, times a million, cut off to an integer,
is a number from 0 to a million, and larger numbers have smaller values. -/
structure Sane (P : Python) : Prop where
  nothing : P.nfkd [] = []
  one : ∀ n s, P.value n n s = none
  range : ∀ total least s, 0 < least → least ≤ s → s ≤ total → least < total →
    ∃ v : Nat, P.value total least s = some (v : Int) ∧ v ≤ 1000000
  down : ∀ total least s s' v v', 0 < least → least ≤ s → s ≤ s' → s' ≤ total → P.value total least s = some v →
    P.value total least s' = some v' → v' ≤ v

end Noodle.Spec
