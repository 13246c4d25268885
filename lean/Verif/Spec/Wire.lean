import Verif.Model.Wire
import Verif.Spec.Web
import Verif.Spec.Screen
import Verif.Spec.Report
/-
What the messages of a web socket say.
-/
namespace Noodle.Spec
set_option autoImplicit false

/-- What the page should make of a message. -/
def shownAs : WsMsg → Msg
  | .begun n => .status s!"Running query ({n} other(s) active)...".toList
  | .status t => .status t
  | .progress secs t => .status s!"Processing, {String.ofList secs}s...: {String.ofList t}".toList
  | .ended t elapsed => .status s!"{String.ofList t} ({String.ofList elapsed})".toList
  | .log t => .log t
  | .matched ws => .found (ws.map entry)

/-- The texts logged, in order. -/
def sentLogs (ms : List WsMsg) : List (List Char) :=
  ms.filterMap fun m => match m with | .log t => some t | _ => none

/-- The messages sent for a response of the evaluator. `clks` and `rs` are the calls and responses so far, this one included, and
`t` is the round of the loop. -/
def Says (F : Floats) (P : Prints) (es : List Expr) (wl : List Word) (depth : Nat) (limit : Option Nat) (clks : List Clock)
    (rs : List Resp) (t : Tick) : Resp → List WsMsg → Prop
  | .matched ws, ms => ms = [.matched ws]
  | .timeout, ms => ∃ s txt, Watch F es wl depth limit clks rs s ∧ s.progress F = .ok txt ∧ ms = [.progress t.secs txt]
  | .logs _, ms => ∃ ls l, Noted es wl depth limit clks (String.ofList P.took) rs (ls ++ [l]) ∧ ms = l.map .log
  | .complete, ms => ∃ txt, Told es wl depth limit clks rs [txt] ∧ ms = [.ended txt t.elapsed]

end Noodle.Spec
