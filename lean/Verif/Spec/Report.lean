import Mathlib.Data.List.Forall2
import Verif.Model.Report
import Verif.Spec.Session
/-
What the evaluator promises to say about itself.
-/
namespace Noodle.Spec
set_option autoImplicit false

/-- What is used of the floating point computations: the square of the binary logarithm of a positive `u64` is at most 64
squared, and, rounded down, it is zero only for a number up to one. (Of zero it is infinite, so that `as u32` makes it
`u32::MAX`.) -/
structure Usual (F : Floats) : Prop where
  bound : ∀ n, 0 < n → n < 2 ^ 64 → F.size n ≤ 4096
  zero : ∀ n, F.size n = 0 → n ≤ 1

/-- A session after which `progress()` can be asked for: the evaluator is then in the state `s`. -/
def Watch (F : Floats) (es : List Expr) (wl : List Word) (depth : Nat) (limit : Option Nat) (clks : List Clock)
    (rs : List Resp) (s : Shown) : Prop :=
  ∃ s0, Shown.new es wl depth limit = .ok s0 ∧ s0.run F clks = .ok (s, rs)

/-- `i` of `n` words done, `p` percent. -/
def WordsDone (t : List Char) (i n p : Nat) : Prop :=
  t = s!"Single-word matches: {i}/{n} ({p}%)".toList

/-- `e` of `n` units done, `p` percent, while looking for phrases of `d` words. -/
def PhrasesDone (t : List Char) (d e n p tranche : Nat) : Prop :=
  t = s!"{d}-word phrase matches: {e}/{n} ({p}%) - tranche={tranche}".toList

/-- A session, with the texts of its `Complete` responses. -/
def Told (es : List Expr) (wl : List Word) (depth : Nat) (limit : Option Nat) (clks : List Clock) (rs : List Resp)
    (ts : List (List Char)) : Prop :=
  ∃ q q', QState.new es wl depth limit = .ok q ∧ q.run clks = .ok (q', rs) ∧ q.texts clks = .ok ts

/-- The number of answers, counting each way to choose them from the word list. -/
noncomputable def answers (es : List Expr) (wl : List Word) (depth : Nat) : Nat :=
  (singles es wl).length + (longer es wl depth).length

/-- The text of the first `Complete`, and what it says about the session. -/
inductive Verdict (es : List Expr) (wl : List Word) (depth : Nat) (limit : Option Nat) (rs : List Resp) : List Char → Prop
  /-- The limit is reached. -/
  | limited (n : Nat) : limit = some n → (reported rs).length = n →
      Verdict es wl depth limit rs s!"Found {n} results, stopping".toList
  /-- Only single words were asked for, and all of them have been reported. -/
  | words : depth ≤ 1 → reported rs = singles es wl →
      Verdict es wl depth limit rs s!"Complete, found all {(reported rs).length} single-word matches".toList
  /-- All single words have been reported, and there are no other answers. -/
  | noPhrases : ¬ depth ≤ 1 → (∀ b, .logs b ∉ rs) → reported rs = singles es wl → longer es wl depth = [] →
      Verdict es wl depth limit rs "Complete, found all single-word matches (no phrases possible)".toList
  /-- `n` phrases: this is the number of answers, of which at most one has not been reported. -/
  | phrases (n : Nat) : (∃ b, .logs b ∈ rs) → (¬ Unsettled es rs → n = answers es wl depth) →
      (n = (reported rs).length ∨ n = (reported rs).length + 1) →
      Verdict es wl depth limit rs s!"Complete, found all {n} phrases up to {depth} words".toList

/-- A session, with the texts of its `Logs` responses; `took` is how the time spent optimising is printed. -/
def Noted (es : List Expr) (wl : List Word) (depth : Nat) (limit : Option Nat) (clks : List Clock) (took : String)
    (rs : List Resp) (ls : List (List (List Char))) : Prop :=
  ∃ q q', QState.new es wl depth limit = .ok q ∧ q.run clks = .ok (q', rs) ∧ q.logTexts took.toList clks = .ok ls

/-- Numbers separated by commas, in brackets. -/
def numbers (ns : List Nat) : String := "[" ++ ", ".intercalate (ns.map toString) ++ "]"

/-- What the log of a session that reaches the phrase phase says (`gave`: the optimiser gave up), and what is true then. -/
structure LogOf (es : List Expr) (wl : List Word) (depth : Nat) (took : String) (rs : List Resp) (gave : Bool)
    (ls : List (List Char)) (passes : Nat) (candidates kept : List Word) (sizes : List Nat) : Prop where
  /-- The texts. -/
  lines : ls =
    (if gave then [s!"gave up after performing {passes} optimization passes".toList] else []) ++
    [s!"optimizing took {took} in {passes} passes, wordlist shrunk {candidates.length} -> {kept.length}".toList,
     s!"optimized state sizes: {numbers (es.map Expr.len)} -> {numbers sizes}".toList]
  /-- The words counted are words of the list. -/
  sub : candidates.Sublist wl
  shrunk : kept.Sublist candidates
  some_left : kept ≠ []
  /-- The first number counts the words that no expression rules out, for phrases of any words. -/
  first : ∀ ws : List Word, ws ≠ [] → (∀ w ∈ ws, w ∈ wl) → (∀ e ∈ es, Matches e (charsOf ws)) → ∀ w ∈ ws, w ∈ candidates
  /-- The second number counts words that all answers of two or more words are made of, … -/
  enough : ∀ ws : List Word, 2 ≤ ws.length → Answer es wl depth ws → ∀ w ∈ ws, w ∈ kept
  /-- … as are all phrases of two or more words that are reported. -/
  used : ∀ ws ∈ reported rs, 2 ≤ ws.length → ∀ w ∈ ws, w ∈ kept
  /-- Unless the optimiser gave up, each of them occurs in a phrase of such words that the expression matches, for each
  expression without fuzz. -/
  useful : gave = false → ∀ e ∈ es, e.fuzz = 0 → ∀ w ∈ kept, ∃ ws : List Word, w ∈ ws ∧ (∀ v ∈ ws, v ∈ kept) ∧
    Matches e (charsOf ws)
  /-- The number of passes is between 1 and 101, which is reached if the optimiser gave up, … -/
  passes_pos : 1 ≤ passes
  passes_max : passes ≤ 101
  passes_gave : gave = true → passes = 101
  /-- … and it is at most the number of states and words in question, and three. -/
  passes_size : passes ≤ (es.map Expr.len).sum + depth + 3
  /-- No expression gets more states, and none loses them all. -/
  sizes : List.Forall₂ (fun e n => 1 ≤ n ∧ n ≤ e.len) es sizes

end Noodle.Spec
