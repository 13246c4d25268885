import Verif.Model.Chars
/-
The textbook edit distance, independent of the matcher.
-/
namespace Noodle.Spec
set_option autoImplicit false

/-- Levenshtein distance. -/
def lev : List Ch → List Ch → Nat
  | [], v => v.length
  | u, [] => u.length
  | a :: u, b :: v =>
    min ((if a = b then 0 else 1) + lev u v) (min (1 + lev u (b :: v)) (1 + lev (a :: u) v))
termination_by u v => u.length + v.length

/-- Number of positions in which two strings of equal length differ, the second having a letter there; `none`
if they cannot be compared. -/
inductive Differ : Nat → List Ch → List Ch → Prop
  | nil : Differ 0 [] []
  | same {k u v} (c : Ch) : Differ k u v → Differ k (c :: u) (c :: v)
  | diff {k u v} (c x : Ch) : c ≠ x → x.val < 26 → Differ k u v → Differ (k + 1) (c :: u) (x :: v)

end Noodle.Spec
