import Verif.Spec.Match
/-
Independent specification of the results of a query.
-/
namespace Noodle.Spec

/-- All phrases of exactly `d` words, words in word list order, the last word varying fastest. -/
def phrases (wl : List Word) : Nat → List (List Word)
  | 0 => [[]]
  | d + 1 => wl.flatMap fun w => (phrases wl d).map fun ws => w :: ws

/-- Every expression of the query matches the phrase. -/
def MatchesAll (es : List Expr) (ws : List Word) : Prop := ∀ e ∈ es, Matches e (charsOf ws)

open Classical in
/-- The matching phrases of exactly `d` words. -/
noncomputable def found (es : List Expr) (wl : List Word) (d : Nat) : List (List Word) :=
  (phrases wl d).filter fun ws => decide (MatchesAll es ws)

/-- The matching phrases of two words up to `depth` words. -/
noncomputable def longer (es : List Expr) (wl : List Word) (depth : Nat) : List (List Word) :=
  (List.range' 2 (depth - 1)).flatMap (found es wl)

end Noodle.Spec
