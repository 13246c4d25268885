import Verif.Model.Query
import Verif.Spec.Query
/-
What a user of the evaluator sees: sessions.
-/
namespace Noodle.Spec
set_option autoImplicit false

/-- The inputs the evaluator is meant for: at least one expression, well-formed automata, and a word list
in non-decreasing tranche order (as `load_wordlist` and `#wordlist` produce it). -/
structure Ready (es : List Expr) (wl : List Word) : Prop where
  nonempty : es ≠ []
  wf : ∀ e ∈ es, WF e
  sorted : wl.Pairwise fun a b => a.tranche ≤ b.tranche

/-- An evaluator is created and then called once per element of `clks` (the deadline of that call), with
responses `rs`; nothing crashes. -/
def Session (es : List Expr) (wl : List Word) (depth : Nat) (limit : Option Nat) (clks : List Clock)
    (rs : List Resp) : Prop :=
  ∃ q q', QState.new es wl depth limit = .ok q ∧ q.run clks = .ok (q', rs)

/-- The matches among the responses, in order. -/
def reported (rs : List Resp) : List (List Word) :=
  rs.filterMap fun r => match r with | .matched ws => some ws | _ => none

/-- The session says it is finished. -/
def Completed (rs : List Resp) : Prop := .complete ∈ rs

/-- The session logged that it gave up optimising (after 100 passes). -/
def GaveUp (rs : List Resp) : Prop := .logs true ∈ rs

/-- The session gave up optimising a query of several expressions. -/
def Unsettled (es : List Expr) (rs : List Resp) : Prop := GaveUp rs ∧ 2 ≤ es.length

open Classical in
/-- The list entries that match every expression, in list order, as one-word phrases. -/
noncomputable def singles (es : List Expr) (wl : List Word) : List (List Word) :=
  (wl.filter fun w => decide (∀ e ∈ es, Matches e w.chars)).map fun w => [w]

/-- `ws` is a phrase of at most `depth` (or one) words of the list, matched by every expression. -/
def Answer (es : List Expr) (wl : List Word) (depth : Nat) (ws : List Word) : Prop :=
  ws ≠ [] ∧ ws.length ≤ max depth 1 ∧ (∀ w ∈ ws, w ∈ wl) ∧ ∀ e ∈ es, Matches e (charsOf ws)

end Noodle.Spec
