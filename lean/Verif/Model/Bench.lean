import Verif.Model.Web
/-
Model of the benchmark program, /repo/noodle/src/main.rs. The times that it prints are not modelled (they do not influence
what it does otherwise).
-/
namespace Noodle
set_option autoImplicit false

/-- main.rs:51 `evaluator.filter(|m| matches!(m, QueryResponse::Match(_)))`, main.rs:54 `results.next()`: the evaluator as an
iterator (query.rs:647-657) is asked until it gives a match, or has ended. Gives whether there was one, and the evaluator
afterwards. The number bounds the calls: `none` = still running after so many. -/
def nextMatch : Nat → QState → Except Crash (Option (Bool × QState))
  | 0, _ => .ok none
  | n + 1, q =>
    match q.iterNext with
    | .error c => .error c
    | .ok (q', none) => .ok (some (false, q'))
    | .ok (q', some (.matched _)) => .ok (some (true, q'))
    | .ok (q', some _) => nextMatch n q'

/-- main.rs:56 `results.count()`: the number of matches up to the end. -/
def countMatches : Nat → QState → Except Crash (Option Nat)
  | 0, _ => .ok none
  | n + 1, q =>
    match q.iterNext with
    | .error c => .error c
    | .ok (_, none) => .ok (some 0)
    | .ok (q', some (.matched _)) => (countMatches n q').map fun o => o.map (· + 1)
    | .ok (q', some _) => countMatches n q'

/-- main.rs:54-56 `(first_match.is_some() as usize) + results.count()`. -/
def benchCount (calls : Nat) (q : QState) : Except Crash (Option Nat) :=
  match nextMatch calls q with
  | .error c => .error c
  | .ok none => .ok none
  | .ok (some (first, q')) => (countMatches calls q').map fun o => o.map fun n => first.toNat + n

/-- main.rs:8: a query of the benchmark, with the range of the number of matches, and the time expected. -/
structure BenchQuery where
  text : String
  lo : Nat
  hi : Nat
  ms : Nat
deriving DecidableEq

/-- main.rs:8-33 `queries`. -/
def benchQueries : List BenchQuery :=
  [⟨"helloworld", 1, 1, 13⟩,
   ⟨"8; [aehl]+([lo]*w[lo]*).*", 37, 40, 230⟩,
   ⟨"h.... _ w....; <hello+>; <world+5>; [hale]+<owl>.*", 10, 10, 140⟩,
   ⟨"<smiles>", 300, 10000, 15⟩,
   ⟨"<smiles>; .*ss.*", 120, 140, 26⟩,
   ⟨"ahumongoussentencewithmultiplewords", 10, 10, 40⟩,
   ⟨"ahumongoussentincewithmultiplewords !' !1", 265, 275, 800⟩,
   ⟨"3 3 8 7; (LOOHNEWHOOPCRLOVAIDYTILEAUQWOSLLPEASSOEHNCS:-) !'", 24, 24, 690⟩,
   ⟨"hen !1; hay !1", 2, 2, 11⟩,
   ⟨"breadfast !2", 300, 10000, 70⟩,
   ⟨"(hello world hello world :^)", 63, 63, 28⟩]

/-- What is printed, one constructor for each `println!` (without the times): main.rs:7, 36-37, 38, 47, 57, 59-62, 65-68,
76-79. -/
inductive BenchLine
  | loaded
  | blank
  | query (text : String)
  | parsed
  | matches (n : Nat)
  | evaluated
  | wrong (text : String) (lo hi n : Nat)
  | row (text : String) (ms : Nat)
deriving DecidableEq

/-- How the program ends: it returns, is still in a loop, or panics. -/
inductive BenchEnd
  | finished
  | running
  | crashed (c : Crash)
deriving DecidableEq

/-- main.rs:35-72: one round of the loop: what it prints, and the count, or the end of the program. -/
def benchRound (U : Unicode) (words : List Word) (calls : Nat) (b : BenchQuery) : List BenchLine × Except BenchEnd Nat :=
  let start : List BenchLine := [.blank, .blank, .query b.text]
  match QueryAst.ofText U b.text.toList with
  | .error (.crash c) => (start, .error (.crashed c))
  | .error (.syntax _) => (start, .error (.crashed .index))
  | .ok q => match QState.ofAst q words with
    | .error c => (start, .error (.crashed c))
    | .ok e => match benchCount calls e with
      | .error c => (start ++ [.parsed], .error (.crashed c))
      | .ok none => (start ++ [.parsed], .error .running)
      | .ok (some n) => (start ++ [.parsed, .matches n, .evaluated], .ok n)

/-- main.rs:35-72: the loop; it stops at the first count that is not in its range. Gives also the number of `times`. -/
def benchLoop (U : Unicode) (words : List Word) (calls : Nat) : List BenchQuery → List BenchLine × Except BenchEnd Nat
  | [] => ([], .ok 0)
  | b :: bs => match benchRound U words calls b with
    | (out, .error e) => (out, .error e)
    | (out, .ok n) =>
      if b.lo ≤ n ∧ n ≤ b.hi then
        let rest := benchLoop U words calls bs
        (out ++ rest.1, rest.2.map (· + 1))
      else (out ++ [.wrong b.text b.lo b.hi n], .ok 0)

/-- main.rs:4-81 `main`; the file is `/usr/share/dict/words`; if it cannot be opened, this is an `unwrap` of an `Err`. -/
def benchRun (U : Unicode) (file : Option (List Char)) (calls : Nat) : List BenchLine × BenchEnd :=
  match file with
  | none => ([], .crashed .index)
  | some file =>
    match benchLoop U (loadWordlist U file) calls benchQueries with
    | (out, .error e) => (.loaded :: out, e)
    | (out, .ok k) => (.loaded :: out ++ (benchQueries.take k).map (fun b => .row b.text b.ms), .finished)

end Noodle
