import Verif.Model.Display
import Verif.Model.Report
import Verif.Model.Compile
/-
How a compiled expression is printed (`{:?}`), /repo/noodle/src/expression.rs:592-610 and /repo/noodle/src/bitset.rs:176-180.
The web server sends this text to the page for each expression of a query (noodle-webapp/src/main.rs:256-261).
-/
namespace Noodle
set_option autoImplicit false

/-- expression.rs:595-608: the line of the state number `i`. `remove(i)` (bitset.rs:341-345) clears one bit; a set of states is
printed as the vector of its elements (bitset.rs:176-180). -/
def State.line (st : State) (i : Nat) : List Char :=
  let others := st.eps ^^^ (st.eps &&& 2 ^ i)
  "    ".toList ++ shownNat i ++ ": ".toList ++
  (if st.cls = CharSet.empty then [] else st.cls.show ++ " -> [".toList ++ shownNat st.next ++ "]; ".toList) ++
  (if others = 0 then [] else "* -> ".toList ++ shownVec (ones others) ++ "; ".toList) ++ ['\n']

/-- expression.rs:592-610 `impl Debug for Expression`; `text` is the field of this name (expression.rs:68). -/
def Expr.debugText (text : List Char) (e : Expr) : List Char :=
  "Expression: \"".toList ++ text ++ "\"\n".toList ++ e.states.zipIdx.flatMap fun p => p.1.line p.2

/-- noodle-webapp/src/main.rs:256-261: what is logged of an expression; its text is that of expression.rs:68. -/
def ExprAst.logged (a : ExprAst) (e : Expr) : List Char := e.debugText a.show

end Noodle
