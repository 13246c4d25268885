import Verif.Model.Bench
import Verif.Spec.Layout
import Verif.Spec.Session
/-
What the benchmark program should print.
-/
namespace Noodle.Spec
set_option autoImplicit false

/-- The number of matches of a query among these words, with the default limits: at most ten words, at most 300 matches. -/
def MatchCount (U : Unicode) (words : List Word) (text : String) (n : Nat) : Prop :=
  ∃ q es clks rs, QueryAst.ofText U text.toList = .ok q ∧ q.expressions.mapM fromAst = .ok es ∧
    Session es words 10 (some 300) clks rs ∧ Completed rs ∧ n = (reported rs).length

/-- The count is in the range. -/
def AsExpected (x : BenchQuery × Nat) : Prop := x.1.lo ≤ x.2 ∧ x.2 ≤ x.1.hi

/-- What is printed about one query. -/
def aboutQuery (x : BenchQuery × Nat) : List BenchLine :=
  [.blank, .blank, .query x.1.text, .parsed, .matches x.2, .evaluated]

/-- What is printed if these queries had these counts, in their ranges, and then possibly one had not. -/
def benchOutput (good : List (BenchQuery × Nat)) (bad : Option (BenchQuery × Nat)) : List BenchLine :=
  [.loaded] ++ good.flatMap aboutQuery ++
    bad.toList.flatMap (fun x => aboutQuery x ++ [.wrong x.1.text x.1.lo x.1.hi x.2]) ++
    good.map fun x => .row x.1.text x.1.ms

/-- The two queries of the benchmark that are not examples of the page, as documented lines. -/
def benchLines : List (String × List Line) :=
  [("8; [aehl]+([lo]*w[lo]*).*",
    [rowLine (.num 8, .none, 0) [],
     rowLine (.cls false [.one 'a', .one 'e', .one 'h', .one 'l'], .plus, 0)
       [(.group (.one (rowOf (.cls false [.one 'l', .one 'o'], .star, 0)
          [(.chr 'w', .none, 0), (.cls false [.one 'l', .one 'o'], .star, 0)])), .none, 0), (.dot, .star, 0)]]),
   ("(hello world hello world :^)",
    [rowLine (.part .substring (rowOf (.chr 'h', .none, 0) (spelled "ell" ++ [(.chr 'o', .none, 1)] ++ spelled "worl" ++
      [(.chr 'd', .none, 1)] ++ spelled "hell" ++ [(.chr 'o', .none, 1)] ++ spelled "worl" ++ [(.chr 'd', .none, 1)])), .none, 0) []])]

end Noodle.Spec
