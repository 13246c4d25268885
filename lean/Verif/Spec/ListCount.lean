import Verif.Model.ListCount
import Verif.Spec.ListGen
/-
What the counting of words should give.
-/
namespace Noodle.Spec
set_option autoImplicit false

open Classical in
/-- How often words with a property were counted. -/
noncomputable def totalOf (p : List Char → Prop) (rows : List CountRow) : Int :=
  ((rows.filter fun r => decide (p r.2)).map fun r => r.1).sum

/-- A line `count TAB word`. -/
def RowOfShard (P : Python) (line : List Char) (r : CountRow) : Prop :=
  ∃ count, line = count ++ '\t' :: r.2 ∧ '\t' ∉ count ∧ '\t' ∉ r.2 ∧ P.int count = some r.1

/-- The rows of several files, one after the other. -/
inductive RowsOfAll (P : Python) : List (List Char) → List CountRow → Prop
  | nil : RowsOfAll P [] []
  | cons {t : List Char} {ts : List (List Char)} {rs rows : List CountRow} : RowsOf (RowOfShard P) t rs → RowsOfAll P ts rows →
      RowsOfAll P (t :: ts) (rs ++ rows)

/-- The first word of this form. -/
def FirstForm (P : Python) (k : List Char) (rows : List CountRow) (word : List Char) : Prop :=
  ∃ a c b, rows = a ++ (c, word) :: b ∧ Canonical P word k ∧ ∀ r ∈ a, ¬ Canonical P r.2 k

/-- How a form is written: as itself, if it was counted often enough as a word, compared to the first word of this form
(in titles, or else in bodies); otherwise as this word. -/
def Spelling (P : Python) (enough : Int → Int → Bool) (titles bodies : List CountRow) (k word : List Char) : Prop :=
  ∃ w n, ((FirstForm P k titles w ∧ n = totalOf (· = w) titles) ∨
      ((∀ r ∈ titles, ¬ Canonical P r.2 k) ∧ FirstForm P k bodies w ∧ n = totalOf (· = w) bodies)) ∧
    ((enough (totalOf (· = k) titles + totalOf (· = k) bodies) n = true ∧ word = k) ∨
      (enough (totalOf (· = k) titles + totalOf (· = k) bodies) n = false ∧ word = w))

/-- A file with one line for each form of a word in these rows: how often words of this form were counted, and how the form is
written. -/
def MergedFile (P : Python) (spelling : List Char → List Char → Prop) (rows : List CountRow) (text : List Char) : Prop :=
  ∃ es : List CountRow, text = es.flatMap (fun e => (toString e.1).toList ++ '\t' :: (e.2 ++ ['\n'])) ∧
    (es.map fun e => e.2).Nodup ∧ (es.map fun e => canonicalize P e.2).Nodup ∧
    ∀ n w, (n, w) ∈ es ↔ ∃ k, (∃ r ∈ rows, Canonical P r.2 k) ∧ spelling k w ∧ n = totalOf (fun v => Canonical P v k) rows

/-- What is needed of Unicode: plain ASCII is normal, without combining characters, and folding does not change what is
already folded (in ASCII). -/
structure PlainAscii (P : Python) : Prop where
  nfkd : ∀ s : List Char, (∀ c ∈ s, c.toNat < 128) → P.nfkd s = s
  combining : ∀ c : Char, c.toNat < 128 → P.combining c = false
  folds : ∀ c, ∀ d ∈ P.casefold c, d.toNat < 128 → P.casefold d = [d]

end Noodle.Spec
