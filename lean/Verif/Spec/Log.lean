import Verif.Spec.Match
import Verif.Spec.Report
/-
What the printed form of a compiled expression says: a line for each state, with the symbols it consumes, where they lead, and
the states that are reached without a symbol.
-/
namespace Noodle.Spec
set_option autoImplicit false

/-- The names of the 28 symbols. -/
def Named (x : Char) (c : Ch) : Prop := (x, c.val) ∈ "abcdefghijklmnopqrstuvwxyz'_".toList.zipIdx

/-- The symbols a printed class stands for. -/
inductive ClassSays : List Char → Ch → Prop
  | letter {c : Ch} : c.val < 26 → ClassSays ".".toList c
  | any (c : Ch) : ClassSays "[a-z_']".toList c
  | one {x : Char} {c : Ch} : Named x c → ClassSays [x] c
  | among {xs : List Char} {x : Char} {c : Ch} : x ∈ xs → Named x c → ClassSays ('[' :: xs ++ [']']) c

/-- The line of the state number `i`: perhaps a class and the state it leads to, perhaps other states. -/
def lineText (i : Nat) (edge : Option (List Char × Nat)) (others : List Nat) : List Char :=
  s!"    {i}: ".toList ++
  (match edge with
    | none => []
    | some (t, n) => t ++ s!" -> [{n}]; ".toList) ++
  (if others = [] then [] else s!"* -> {numbers others}; ".toList) ++ ['\n']

/-- The log quotes `text`; it has a line for each state of the automaton, and these lines say which steps there are and which
states are reached without a symbol. -/
def LogSays (text log : List Char) (e : Expr) : Prop :=
  ∃ ls : List (Option (List Char × Nat) × List Nat),
    log = "Expression: \"".toList ++ text ++ "\"\n".toList ++ ls.zipIdx.flatMap (fun p => lineText p.2 p.1.1 p.1.2) ∧
    ls.length = e.len ∧
    ∀ (i : Nat) (x : Option (List Char × Nat) × List Nat), ls[i]? = some x →
      (∀ d, (e.eps i).testBit d = true ↔ d = i ∨ d ∈ x.2) ∧ i ∉ x.2 ∧ x.2.Pairwise (· < ·) ∧
      ∀ c d, Step e c i d ↔ ∃ t n, x.1 = some (t, n) ∧ ClassSays t c ∧ (e.eps n).testBit d = true

end Noodle.Spec
