import Verif.Model.Expr
/-
Independent specification of what an automaton accepts and what a fuzzy match is.
-/
namespace Noodle.Spec

/-- One symbol moves the automaton from `s` to `d`: the edge of `s` carries the symbol, and `d` is in the
epsilon closure of its target. -/
def Step (e : Expr) (c : Ch) (s d : Nat) : Prop :=
  ∃ st, e.states[s]? = some st ∧ st.cls.contains c = true ∧ (e.eps st.next).testBit d = true

/-- Reading the string `u` moves the automaton from `s` to `d`. -/
inductive Reads (e : Expr) : Nat → List Ch → Nat → Prop
  | nil (s : Nat) : Reads e s [] s
  | cons {s m d : Nat} {c : Ch} {u : List Ch} : Step e c s m → Reads e m u d → Reads e s (c :: u) d

/-- The exact language of the automaton: strings that lead from the start state's closure to the last
state. -/
def Accepts (e : Expr) (u : List Ch) : Prop :=
  ∃ s, (e.eps 0).testBit s = true ∧ Reads e s u (e.len - 1)

/-- The symbols of a phrase the expression looks at. -/
def visible (e : Expr) (w : List Ch) : List Ch :=
  w.filter fun c => !((e.ignWB && c == 27) || (e.ignPunct && c == 26))

/-- The edit relation noodle implements: `Edit k w u` turns the candidate `w` into `u` with exactly `k`
edits, where for each symbol of `w` at most one edit happens: the symbol is kept, deleted, replaced by a
letter, or kept with one letter inserted before it. -/
inductive Edit : Nat → List Ch → List Ch → Prop
  | nil : Edit 0 [] []
  | keep {k w u} (c : Ch) : Edit k w u → Edit k (c :: w) (c :: u)
  | delete {k w u} (c : Ch) : Edit k w u → Edit (k + 1) (c :: w) u
  | change {k w u} (c x : Ch) : x.val < 26 → Edit k w u → Edit (k + 1) (c :: w) (x :: u)
  | insert {k w u} (c x : Ch) : x.val < 26 → Edit k w u → Edit (k + 1) (c :: w) (x :: c :: u)

/-- A phrase (the symbols of its words, concatenated) matches an expression. -/
def Matches (e : Expr) (w : List Ch) : Prop :=
  ∃ u k, Accepts e u ∧ k ≤ e.fuzz ∧ Edit k (visible e w) u

/-- The symbols of a phrase: its words' symbols, concatenated. -/
def charsOf (ws : List Word) : List Ch := ws.flatMap Word.chars

/-- What the matcher needs of a compiled automaton: at least one state, targets and epsilon sets in range,
epsilon sets reflexive and transitive. -/
structure WF (e : Expr) : Prop where
  nonempty : 0 < e.len
  next_lt : ∀ (i : Nat) (st : State), e.states[i]? = some st → st.next < e.len
  eps_lt : ∀ (i j : Nat), (e.eps i).testBit j = true → j < e.len
  refl : ∀ i, i < e.len → (e.eps i).testBit i = true
  trans : ∀ i j k, (e.eps i).testBit j = true → (e.eps j).testBit k = true → (e.eps i).testBit k = true

end Noodle.Spec
