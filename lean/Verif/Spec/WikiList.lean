import Verif.Model.WikiList
import Verif.Spec.Extract
/-
What the list of Wiktionary should be.
-/
namespace Noodle.Spec
set_option autoImplicit false

/-- Of the forms of a word, those that are their canonical form, and have no blank. -/
inductive PlainForms (P : Python) : List (List Char) → List (List Char) → Prop
  | nil : PlainForms P [] []
  | keep {f : List Char} {fs gs : List (List Char)} : ' ' ∉ f → Canonical P f f → PlainForms P fs gs → PlainForms P (f :: fs) (f :: gs)
  | skip {f : List Char} {fs gs : List (List Char)} : ' ' ∈ f ∨ ¬ Canonical P f f → PlainForms P fs gs → PlainForms P (f :: fs) gs

/-- The words of English entries, worth 1000, and their plain forms, worth 50. -/
inductive Offered (P : Python) : List WikiEntry → List CountRow → Prop
  | nil : Offered P [] []
  | skip {e : WikiEntry} {es : List WikiEntry} {rows : List CountRow} : e.lang ≠ some "en".toList ∨ e.word = none →
      Offered P es rows → Offered P (e :: es) rows
  | entry {e : WikiEntry} {w : List Char} {fs : List (List Char)} {es : List WikiEntry} {rows : List CountRow} :
      e.lang = some "en".toList → e.word = some w → PlainForms P e.forms fs → Offered P es rows →
      Offered P (e :: es) (((1000, w) :: fs.map fun f => (50, f)) ++ rows)

/-- These words cleaned, without those that are not like a word. -/
inductive CleanRows (W : Char → Bool) : List CountRow → List CountRow → Prop
  | nil : CleanRows W [] []
  | word {r : CountRow} {w : List Char} {rs rows : List CountRow} : Cleaned W r.2 w → w ≠ [] → CleanRows W rs rows →
      CleanRows W (r :: rs) ((r.1, w) :: rows)
  | skip {r : CountRow} {rs rows : List CountRow} : Cleaned W r.2 [] → CleanRows W rs rows → CleanRows W (r :: rs) rows

/-- The most that a word of this form is worth. -/
def BestOf (P : Python) (k : List Char) (rows : List CountRow) (n : Int) : Prop :=
  (∃ r ∈ rows, Canonical P r.2 k ∧ r.1 = n) ∧ ∀ r ∈ rows, Canonical P r.2 k → r.1 ≤ n

/-- The list of these rows: each form once, with its first word, and the most that a word of this form is worth; those that are
worth most first. -/
def BestList (P : Python) (rows : List CountRow) (es : List ListEntry) : Prop :=
  (∀ k n w, ⟨k, n, w⟩ ∈ es ↔ FirstForm P k rows w ∧ BestOf P k rows n) ∧
  (es.map ListEntry.form).Nodup ∧ es.Pairwise fun a b => b.points ≤ a.points

/-- A file with a line `points TAB form TAB word` for each entry. -/
def ThreeColumns (es : List ListEntry) (text : List Char) : Prop :=
  text = es.flatMap fun e => (toString e.points).toList ++ '\t' :: (e.form ++ '\t' :: (e.word ++ ['\n']))

/-- What is needed of normal forms and case folding: they make no tabs and no ends of lines. -/
structure NoBreaks (P : Python) : Prop where
  plain : ∀ w : List Char, (∀ c ∈ w, P.space c = false) → ∀ c ∈ folded P w, c ≠ '\t' ∧ c ≠ '\n' ∧ c ≠ '\r'

end Noodle.Spec
