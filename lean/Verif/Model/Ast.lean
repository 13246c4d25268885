import Verif.Model.Expr
/-
Model of the syntax tree of /repo/noodle/src/parser.rs and of the tree rewriting done there.
-/
namespace Noodle

/-- parser.rs:69-76 `enum AnagramKind`. -/
inductive AnagramKind
  | standard
  | super
  | sub
  | transAdd (n : Nat)
  | transDelete (n : Nat)
  deriving DecidableEq, Repr

/-- parser.rs:48-67 `enum Ast`. -/
inductive Ast
  | cls (c : CharSet)
  | alts (l : List Ast)
  | seq (l : List Ast)
  | substr (l : List Ast)
  | rep (t : Ast) (min : Nat) (max : Option Nat)
  | anagram (kind : AnagramKind) (bank : List Ch)
  deriving Repr

/-- parser.rs:41-46 `struct ExpressionOptions`. -/
structure ExprOptions where
  explicitWB : Option Bool := none
  explicitPunct : Option Bool := none
  fuzz : Option Nat := none
  deriving DecidableEq, Repr

/-- parser.rs:35-39 `struct ExpressionAst`. -/
structure ExprAst where
  root : Ast
  options : ExprOptions

end Noodle
