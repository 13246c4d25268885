import Verif.Model.Web
import Verif.Model.Screen
import Verif.Spec.Json
/-
The texts sent over a web socket, /repo/noodle-webapp/src/main.rs:66-72, 209-307, and how the page takes them,
/repo/noodle-webapp/static/index.html:469-492.

`JSON.parse` is not modelled as a program: the values of JSON texts are those of the standard (Spec/Json).
-/
namespace Noodle
open Spec (Json)
set_option autoImplicit false

/-- main.rs:66-72 `enum Response` -/
inductive Response
  | status (t : List Char)
  | log (message : List Char)
  | found (phrase : List Word)
  deriving DecidableEq, Repr

/-- main.rs:228-307: the texts of the messages. -/
def WsMsg.response : WsMsg → Response
  -- main.rs:231-235
  | .begun n => .status ("Running query (".toList ++ shownNat n ++ " other(s) active)...".toList)
  | .status t => .status t
  -- main.rs:294-299
  | .progress secs t => .status ("Processing, ".toList ++ secs ++ "s...: ".toList ++ t)
  -- main.rs:302
  | .ended t elapsed => .status (t ++ " (".toList ++ elapsed ++ ")".toList)
  | .log t => .log t
  | .matched ws => .found ws

/-- main.rs:66-72, 211-213: `#[derive(Serialize)]` with `rename_all = "snake_case"`, and `serde_json::to_string`. -/
def Response.json : Response → List Char
  | .status t => "{\"status\":".toList ++ jsonString t ++ "}".toList
  | .log t => "{\"log\":{\"message\":".toList ++ jsonString t ++ "}}".toList
  | .found ws => flattenPhrase ws

/-- The property of an object (ECMAScript: of several members with the same name the last one counts); `none` is
`undefined`. -/
def Spec.Json.field (k : List Char) : Json → Option Json
  | .obj l => (l.reverse.find? fun p => p.1 = k).map Prod.snd
  | _ => none

/-- A string. -/
def Spec.Json.text : Json → Option (List Char)
  | .str s => some s
  | _ => none

/-- A natural number. (Below 2^53 a JavaScript number has the value it is written with; scores are below 2^32.) -/
def Spec.Json.nat : Json → Option Nat
  | .num t => if t.all Char.isDigit then some (decimal t) else none
  | _ => none

/-- index.html:488-490: the text and the score of a word. -/
def readWord (v : Json) : Option (List Char × Nat) :=
  match (v.field "text".toList).bind Json.text, (v.field "score".toList).bind Json.nat with
  | some t, some n => some (t, n)
  | _, _ => none

/-- index.html:470-490: what a message is for the page, from the value of its text; `none` stands for all else. -/
def readMsg (v : Json) : Option Msg :=
  match (v.field "status".toList).bind Json.text with
  | some (c :: t) => some (.status (c :: t))
  | _ => match v.field "log".toList with
    | some w => ((w.field "message".toList).bind Json.text).map .log
    | none => match (v.field "match".toList).bind (Json.field "phrase".toList) with
      | some (.arr l) => (l.mapM readWord).map .found
      | _ => none

end Noodle
