import Verif.Spec.Script
/-
Copying results to the custom word list of the page.
-/
namespace Noodle.Spec
set_option autoImplicit false

/-- The texts of the words of a phrase, with a blank between them. -/
def joined : List Word → List Char
  | [] => []
  | [w] => w.text.toList
  | w :: v :: ws => w.text.toList ++ ' ' :: joined (v :: ws)

/-- A text that does not start or end with white space (or a byte order mark), is not empty, and contains no line end and no
semicolon. -/
structure Tidy (t : List Char) : Prop where
  nonempty : t ≠ []
  head : ∀ c, t.head? = some c → c.toNat ∉ whiteCodes ∧ c.toNat ≠ 0xFEFF
  last : ∀ c, t.getLast? = some c → c.toNat ∉ whiteCodes ∧ c.toNat ≠ 0xFEFF
  inside : ∀ c ∈ t, c ≠ '\n' ∧ c ≠ '\r' ∧ c ≠ ';'

/-- A phrase of words with such texts. -/
def Copyable (ws : List Word) : Prop := ws ≠ [] ∧ ∀ w ∈ ws, Tidy w.text.toList

/-- Words made from their text, with some tranche and score. (All words of word lists are.) -/
def FromText (U : Unicode) (w : Word) : Prop := ∃ tranche score, w = Word.new U w.text tranche score

/-- Facts about Unicode: a blank separates what is normalised, and is itself not changed. -/
structure BlankSplits (U : Unicode) : Prop where
  nfkd : ∀ a b, U.nfkd (a ++ ' ' :: b) = U.nfkd a ++ ' ' :: U.nfkd b
  isMark : U.isMark ' ' = false
  upper : U.upper ' ' = [' ']
  lower : U.lower ' ' = [' ']

end Noodle.Spec
