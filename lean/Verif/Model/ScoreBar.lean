import Verif.Model.Screen
import Mathlib.Algebra.Order.Field.Rat
import Mathlib.Tactic.Linarith
import Mathlib.Tactic.Positivity
import Mathlib.Tactic.Ring
/-
The bars below the results, /repo/noodle-webapp/static/index.html:482-507 (JavaScript, floating point numbers). Doubles are
rational numbers; a result of an operation is rounded. Phrases without words, whose score is not a number, are outside of this
model.
-/
namespace Noodle
set_option autoImplicit false

/-- Arithmetic of doubles: `rnd x` is the double for the number `x`, `root n` is `Math.pow(n, 0.5)`. -/
structure Doubles where
  rnd : ℚ → ℚ
  root : Nat → ℚ

/-- index.html:485-490 `netScore`, from the scores of the words. -/
def Doubles.netScore (D : Doubles) (scores : List Nat) : ℚ :=
  D.rnd (scores.foldl (fun (a : ℚ) (s : Nat) => D.rnd (a + s)) 0 / D.root scores.length)

/-- index.html:491-492 `fractionScore` -/
def Doubles.fraction (D : Doubles) (net : ℚ) : ℚ :=
  max (D.rnd (2 / 100)) (min 1 (D.rnd (D.rnd (3300000 - net) / 3200000)))

/-- index.html:504-507: the width of the bar, in percent of the width of the result. -/
def Doubles.barWidth (D : Doubles) (scores : List Nat) : ℚ := D.rnd (D.fraction (D.netScore scores) * 100)

end Noodle
