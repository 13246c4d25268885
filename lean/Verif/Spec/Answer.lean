import Verif.Spec.Script
import Verif.Spec.Match
/-
What the words found for a query text should be, put together from the meaning of its lines.
-/
namespace Noodle.Spec
set_option autoImplicit false

/-- `u` is what is left of `w` when the symbols that do not matter are left out. -/
inductive Sifted (P : Ch → Prop) : List Ch → List Ch → Prop
  | nil : Sifted P [] []
  | keep {c : Ch} {w u : List Ch} : P c → Sifted P w u → Sifted P (c :: w) (c :: u)
  | drop {c : Ch} {w u : List Ch} : ¬ P c → Sifted P w u → Sifted P (c :: w) u

/-- The symbols that matter to an expression with these flags: letters; word ends and punctuation only if they are
mentioned in the expression, or asked for by a flag. -/
def Significant (a : Alts) (fs : List (Flag × Nat)) (c : Ch) : Prop :=
  c.val < 26 ∨ (c = Ch.wordEnd ∧ (a.Mentions Ch.wordEnd ∨ ∃ f ∈ fs, f.1 = .boundaries)) ∨
    (c = Ch.punct ∧ (a.Mentions Ch.punct ∨ ∃ f ∈ fs, f.1 = .punctuation))

/-- An expression (as written) describes a word or phrase: the symbols that matter are a string the expression means,
possibly with word ends after it. -/
def Describes (a : Alts) (fs : List (Flag × Nat)) (w : List Ch) : Prop :=
  ∃ u v n, Sifted (Significant a fs) w u ∧ a.Means v ∧ u = v ++ List.replicate n Ch.wordEnd

/-- An expression with a flag `!n` describes a word or phrase approximately: at most `n` edits (`Edit`, Spec/Match.lean: for
each symbol that matters, it is kept, dropped, replaced by a letter, or kept with a letter in front of it) turn the symbols
that matter into a string the expression means, possibly with word ends after it. Without such a flag no edits are
allowed. -/
def NearlyDescribes (a : Alts) (fs : List (Flag × Nat)) (w : List Ch) : Prop :=
  ∃ x u v n k, Sifted (Significant a fs) w x ∧ Edit k x u ∧ k ≤ (lastFuzz fs).getD 0 ∧ a.Means v ∧
    u = v ++ List.replicate n Ch.wordEnd

/-- The expressions among the lines. -/
def exprsOf (ls : List Line) : List (Alts × List (Flag × Nat)) := ls.filterMap Line.givesExpr

end Noodle.Spec
