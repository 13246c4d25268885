import Verif.Model.Chars
/-
Model of /repo/noodle/src/expression.rs: automaton states, transition tables.

State sets (`BitSet1D`) are natural-number bitmasks; `Verif/Props/C04.lean` proves that the block-level
bitset operations are exactly the bitmask operations used here (`|||`, `&&&`, `a ^^^ (a &&& b)`, `testBit`).
-/
namespace Noodle

/-- Ways in which the Rust program stops abnormally, or leaves defined behaviour. -/
inductive Crash
  /-- a failed `assert!`/`assert_eq!` -/
  | assert
  /-- a checked index out of range, or `unwrap` of `None` -/
  | index
  /-- arithmetic overflow (panics in debug builds) -/
  | overflow
  /-- `unreachable!()` -/
  | unreachable
  /-- an out-of-range `get_unchecked` access (undefined behaviour) -/
  | ub
  /-- not a behaviour of the program: the model's loop fuel ran out (proved impossible) -/
  | fuel
  deriving DecidableEq, Repr

/-- expression.rs:11-17 `struct State`. -/
structure State where
  eps : Nat
  cls : CharSet
  next : Nat
  deriving DecidableEq, Repr

/-- expression.rs:40-48 `struct Expression` (the `text` field is only printed). -/
structure Expr where
  states : List State
  ignWB : Bool
  ignPunct : Bool
  fuzz : Nat
  deriving DecidableEq, Repr

/-- The empty state set. -/
def noStates : Nat := 0

/-- expression.rs:438-441 `epsilon_states`. (`self.states[i]` panics out of range; in range for
well-formed expressions, see `Expr.WF`.) -/
def Expr.eps (e : Expr) (i : Nat) : Nat := ((e.states[i]?).map State.eps).getD noStates

/-- expression.rs:80-82 `states_len`. -/
def Expr.len (e : Expr) : Nat := e.states.length

/-- expression.rs:566-589 `char_transitions`: the loop over all states (the emptiness test before the loop
does not change the result and is kept). -/
def charTransitions (e : Expr) (cb : CharSet) (start : Nat) : Nat :=
  if start = 0 then 0
  else e.states.zipIdx.foldl (fun acc p =>
    if start.testBit p.2 && cb.intersects p.1.cls then acc ||| e.eps p.1.next else acc) 0

/-- `[fuzz] → state set` and `[from_state][fuzz] → state set`: the 2-D and 3-D bitsets of the tables. -/
abbrev Rows := List Nat
abbrev Tbl := List Rows

/-- Reading row entry `f` (a slice of the bitset). -/
def Rows.at (r : Rows) (f : Nat) : Nat := r.getD f 0
/-- Reading row `s`. -/
def Tbl.row (t : Tbl) (s : Nat) : Rows := t.getD s []

/-- expression.rs:483-484: is the symbol skipped by this expression? -/
def Expr.ignores (e : Expr) (c : Ch) : Bool :=
  (e.ignWB && c == Ch.wordEnd) || (e.ignPunct && c == Ch.punct)

/-- expression.rs:525-552: one iteration of the fuzz loop on `(upper row, fuzz_superset)`. -/
def fuzzStep (e : Expr) (c : Ch) (lower : Rows) (acc : Rows × Nat) (f : Nat) : Rows × Nat :=
  let st := lower.at f
  if st = 0 then acc
  else
    let u0 := acc.1.at (f + 1)
    let u1 := u0 ||| st
    let change := charTransitions e CharSet.letters st
    let u2 := u1 ||| change
    let ins := charTransitions e (CharSet.ofCh c) change
    let u3 := u2 ||| ins
    let u4 := u3 ^^^ (u3 &&& acc.2)
    (acc.1.set (f + 1) u4, acc.2 ||| u4)

/-- expression.rs:496-553: the new row for one start state from its old row. -/
def fillRow (e : Expr) (c : Ch) (lower : Rows) : Rows :=
  let base := (List.range (e.fuzz + 1)).map fun f =>
    if lower.at f = 0 then 0 else charTransitions e (CharSet.ofCh c) (lower.at f)
  if (List.range (e.fuzz + 1)).all (fun f => lower.at f == 0) then base
  else ((List.range e.fuzz).foldl (fuzzStep e c lower) (base, 0)).1

/-- expression.rs:470-474 `n_start_states`. -/
def nStart (e : Expr) (single : Bool) : Nat := if single then 1 else e.len

/-- expression.rs:495-554: the new table after one symbol that is not skipped. Rows at or above
`n_start_states` keep whatever the `upper` table held. -/
def fillTbl (e : Expr) (single : Bool) (c : Ch) (lower upper : Tbl) : Tbl :=
  (List.range upper.length).map fun s =>
    if s < nStart e single then fillRow e c (lower.row s) else upper.row s

/-- expression.rs:496-519, 525-529: `all_states_are_empty`. -/
def allEmpty (e : Expr) (single : Bool) (lower : Tbl) : Bool :=
  (List.range (nStart e single)).all fun s =>
    (List.range (e.fuzz + 1)).all fun f => (lower.row s).at f == 0

/-- expression.rs:462-560 `fill_transition_table`, with `cur = transition_table[char_index]` and
`rest = transition_table[char_index+1..]`. Returns the number of symbols consumed and the new `rest`.
`upper_table[0]` panics when the table vector is too short. -/
def fillTable (e : Expr) (single : Bool) : List Ch → Tbl → List Tbl → Except Crash (Nat × List Tbl)
  | [], _, rest => .ok (0, rest)
  | _ :: _, _, [] => .error .index
  | c :: cs, cur, up :: rest =>
    if e.ignores c then
      match fillTable e single cs cur rest with
      | .error x => .error x
      | .ok (n, rest') => .ok (n + 1, cur :: rest')
    else
      let up' := fillTbl e single c cur up
      if allEmpty e single cur then .ok (0, up' :: rest)
      else
        match fillTable e single cs up' rest with
        | .error x => .error x
        | .ok (n, rest') => .ok (n + 1, up' :: rest')

end Noodle
