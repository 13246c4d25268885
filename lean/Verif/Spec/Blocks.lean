import Verif.Model.Blocks
import Verif.Spec.Session
import Mathlib.Data.List.Forall2
/-
Specification for the evaluator over 32-bit blocks: what it means that blocks hold a set, and sessions of that evaluator.
-/
namespace Noodle.Spec
set_option autoImplicit false

/-- The vector `b` of 32-bit blocks, allocated for `n` elements, holds exactly the elements of the set `m` (a bit mask). -/
def InBlocks (n : Nat) (b : List (BitVec 32)) (m : Nat) : Prop :=
  b.length = (n + 31) / 32 ∧ ∀ i, m.testBit i = true ↔ ∃ w, b[i / 32]? = some w ∧ w.getLsbD (i % 32) = true

/-- The expression `b` (in blocks) is the expression `e`: same flags, same states, and the set of each state in blocks
allocated for as many elements as there are states. -/
def SameExpr (b : Blk.Expr) (e : Expr) : Prop :=
  b.ignWB = e.ignWB ∧ b.ignPunct = e.ignPunct ∧ b.fuzz = e.fuzz ∧
  List.Forall₂ (fun (s : Blk.State) (t : State) => InBlocks e.states.length s.eps t.eps ∧ s.cls = t.cls ∧ s.next = t.next)
    b.states e.states

/-- What a caller of the evaluator over blocks sees: the responses to the calls `clks`, or the crash. -/
def blockRun (bs : List Blk.Expr) (wl : List Word) (depth : Nat) (limit : Option Nat) (clks : List Clock) :
    Except Crash (List Resp) :=
  match Blk.QState.new bs wl depth limit with
  | .error x => .error x
  | .ok q =>
    match q.run clks with
    | .error x => .error x
    | .ok (_, rs) => .ok rs

end Noodle.Spec
