/-
What it means for two texts to differ at most in the case of their letters (ASCII, as the grammar only has ASCII letters).
-/
namespace Noodle.Spec
set_option autoImplicit false

/-- The two texts are the same up to upper and lower case. -/
def SameUpToCase (l l' : List Char) : Prop := l.map Char.toLower = l'.map Char.toLower

/-- No range mixes the cases: in every `x-y` of the text where `x` and `y` are letters, both are capitals or none is. -/
def PlainRanges (l : List Char) : Prop :=
  ∀ x y, [x, '-', y] <:+: l → x.isAlpha = true → y.isAlpha = true → x.isUpper = y.isUpper

end Noodle.Spec
