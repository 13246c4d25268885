import Verif.Spec.Session
/-
What can be done with an evaluator object besides calling it: changing its settings between calls.
-/
namespace Noodle.Spec
set_option autoImplicit false

/-- One use of the object: a call with a deadline, or one of the two setters. -/
inductive Op
  | call (clk : Clock)
  | limit (l : Option Nat)
  | depth (d : Nat)

/-- A history of uses: the final state and the responses of the calls. -/
def uses (q : QState) : List Op → Except Crash (QState × List Resp)
  | [] => .ok (q, [])
  | .call c :: ops =>
    match q.next c with
    | .error x => .error x
    | .ok (q', r) =>
      match uses q' ops with
      | .error x => .error x
      | .ok (q'', rs) => .ok (q'', r :: rs)
  | .limit l :: ops =>
    match q.setLimit l with
    | .error x => .error x
    | .ok q' => uses q' ops
  | .depth d :: ops =>
    match q.setDepth d with
    | .error x => .error x
    | .ok q' => uses q' ops

/-- An evaluator is created with depth `d` and limit `l` and then used; nothing crashes; the calls respond `rs`. -/
def Used (es : List Expr) (wl : List Word) (d : Nat) (l : Option Nat) (ops : List Op) (rs : List Resp) : Prop :=
  ∃ q q', QState.new es wl d l = .ok q ∧ uses q ops = .ok (q', rs)

/-- The calls of a history. -/
def callsOf : List Op → List Clock
  | [] => []
  | .call c :: ops => c :: callsOf ops
  | _ :: ops => callsOf ops

/-- The results limit in force after a history. -/
def lastLimit (l : Option Nat) : List Op → Option Nat
  | [] => l
  | .limit l' :: ops => lastLimit l' ops
  | _ :: ops => lastLimit l ops

/-- The phrase length in force after a history. -/
def lastDepth (d : Nat) : List Op → Nat
  | [] => d
  | .depth d' :: ops => lastDepth d' ops
  | _ :: ops => lastDepth d ops

/-- The phrase lengths in force at the calls of a history. -/
def depthsAtCalls (d : Nat) : List Op → List Nat
  | [] => []
  | .call _ :: ops => d :: depthsAtCalls d ops
  | .depth d' :: ops => depthsAtCalls d' ops
  | .limit _ :: ops => depthsAtCalls d ops

/-- Still looking at single words: no call has said `Complete` or `Logs`. -/
def Early (rs : List Resp) : Prop := .complete ∉ rs ∧ ∀ b, .logs b ∉ rs

/-- What iterating (`for r in evaluator`, without deadlines) yields, `n` times. -/
def iterates (q : QState) : Nat → Except Crash (List (Option Resp))
  | 0 => .ok []
  | n + 1 =>
    match q.iterNext with
    | .error x => .error x
    | .ok (q', r) =>
      match iterates q' n with
      | .error x => .error x
      | .ok rs => .ok (r :: rs)

end Noodle.Spec
