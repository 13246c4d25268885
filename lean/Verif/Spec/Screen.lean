import Verif.Model.Screen
import Verif.Model.Wire
import Verif.Spec.Web
/-
What the page should show, in terms of what has happened since the last query was submitted.
-/
namespace Noodle.Spec
set_option autoImplicit false

def isSubmit : Happening → Bool
  | .submit _ => true
  | _ => false

/-- This ends the connection number `k`, if it is the last one made. -/
def endsTalk (k : Nat) : Happening → Bool
  | .stop => true
  | .failed j => j == k
  | .closedBy j => j == k
  | _ => false

/-- The messages that come in on the connection number `k`, of what happens after it has been made: those between its
opening and its end. -/
def heard (k : Nat) (hs : List Happening) : List Msg :=
  ((hs.takeWhile fun h => !endsTalk k h).dropWhile fun h => decide (h ≠ .opened k)).filterMap fun h => match h with
    | .message j m => if j = k then some m else none
    | _ => none

/-- The matches among some messages, in order. -/
def matchesIn (ms : List Msg) : List (List (List Char × Nat)) :=
  ms.filterMap fun m => match m with
    | .found p => some p
    | _ => none

/-- The logs among some messages, in order. -/
def logsIn (ms : List Msg) : List (List Char) :=
  ms.filterMap fun m => match m with
    | .log t => some t
    | _ => none

/-- The status texts among some messages, in order (the page ignores an empty one). -/
def statusesIn (ms : List Msg) : List (List Char) :=
  ms.filterMap fun m => match m with
    | .status t => if t = [] then none else some t
    | _ => none

/-- The connection number `k` is opened before anything ends it. -/
def GetsOpen (k : Nat) (hs : List Happening) : Prop := .opened k ∈ hs.takeWhile fun h => !endsTalk k h

/-- The texts of the queries submitted, in order. -/
def submitted (hs : List Happening) : List (List Char) :=
  hs.filterMap fun h => match h with
    | .submit t => some t
    | _ => none

/-- The matches, numbered from 0. -/
def inOrder (ps : List (List (List Char × Nat))) : List Hit := ps.zipIdx.map fun p => ⟨p.1, p.2⟩

/-- From the smallest score to the greatest; of two with the same score the one that came first. -/
def Ranked (B : Browser) (l : List Hit) : Prop :=
  l.Pairwise fun a b => a.net B < b.net B ∨ a.net B = b.net B ∧ a.order < b.order

/-- The filter is off, or it is a regular expression; and this is what it lets through. -/
def Lets (B : Browser) (s : Screen) (p : List Char → Bool) : Prop :=
  s.filtered = false ∧ (∀ t, p t = true) ∨ s.filtered = true ∧ B.regexp s.filter = some p

/-- A text sent by the server, and what it is for the page: the value of the text, taken apart. -/
def Carried (text : List Char) (m : Msg) : Prop := ∃ v, JsonText text v ∧ readMsg v = some m

/-- Messages are carried one by one, in order. -/
def CarriedAll (sent : List (List Char)) (got : List Msg) : Prop :=
  sent.length = got.length ∧ ∀ (i : Nat) (a : List Char) (b : Msg), sent[i]? = some a → got[i]? = some b → Carried a b

end Noodle.Spec
