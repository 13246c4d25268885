import Verif.Model.Query
/-
Specification of the order in which matches are reported. A phrase is given by the positions of its words in the
word list.
-/
namespace Noodle.Spec
set_option autoImplicit false

/-- The words at the given positions of the word list. -/
def phraseAt (wl : List Word) (p : List Nat) : List Word := p.filterMap fun i => wl[i]?

/-- How rare the words of a phrase are: the highest tranche among them. -/
def rarity (wl : List Word) (p : List Nat) : Nat := ((phraseAt wl p).map Word.tranche).foldr max 0

/-- The phrase `p` has to be reported before the phrase `q`: single words come before phrases; otherwise `p` is no
longer and no rarer than `q` and, if they are equally long and equally rare, `p` comes first in the lexicographic
order of positions. -/
def Due (wl : List Word) (p q : List Nat) : Prop :=
  (p.length = 1 ∧ 2 ≤ q.length) ∨
  (p.length ≤ q.length ∧ rarity wl p ≤ rarity wl q ∧ (p.length < q.length ∨ rarity wl p < rarity wl q ∨ p < q))

end Noodle.Spec
