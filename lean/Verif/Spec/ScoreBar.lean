import Verif.Model.ScoreBar
import Verif.Spec.Screen
/-
What is assumed of floating point numbers, and what the bars should be.
-/
namespace Noodle.Spec
set_option autoImplicit false

/-- What IEEE 754 says of doubles, rounded to the nearest: a greater number is not rounded to a smaller one; whole numbers up to 2^53
stay as they are; otherwise the error is at most 2^-53 of the number (here: away from the smallest and the greatest doubles).
Of `Math.pow(n, 0.5)`, that it is a root of `n` up to a relative error, and exact for 1. -/
structure Rounds (D : Doubles) : Prop where
  mono : ∀ x y, x ≤ y → D.rnd x ≤ D.rnd y
  whole : ∀ z : ℤ, |z| ≤ 2 ^ 53 → D.rnd z = z
  near : ∀ x : ℚ, 1 / 2 ^ 100 ≤ |x| → |x| ≤ 2 ^ 100 → |D.rnd x - x| ≤ |x| / 2 ^ 53
  pos : ∀ n : Nat, n ≠ 0 → 0 < D.root n
  one : D.root 1 = 1
  root : ∀ n : Nat, n ≠ 0 → |D.root n * D.root n - n| ≤ n / 2 ^ 50

/-- `x`, but at least `a` and at most `b`. -/
def clamp (a b x : ℚ) : ℚ := if x < a then a else if b < x then b else x

/-- The order of the scores by which this browser sorts is that of the numbers it computes. -/
def Sorts (B : Browser) (D : Doubles) : Prop :=
  ∀ l m : List Nat, l ≠ [] → m ≠ [] → (B.net l ≤ B.net m ↔ D.netScore l ≤ D.netScore m)

end Noodle.Spec
