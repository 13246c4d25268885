import Verif.Model.Query
/-
Model of what the evaluator says about itself: `progress()` (/repo/noodle/src/query.rs:90-100, 187-215,
/repo/noodle/src/matcher.rs:160-167) and the texts of `Complete` responses (query.rs:218-227, 261-267, 325-330, 380-385,
416-421, 595-602, 640-642), and the texts of `Logs` responses (query.rs:270, 311-313, 361-376, 429-439, 489).

The two floating point expressions are parameters (`Floats`); their properties are stated where they are used. The time the
optimisation took, as printed, is a parameter of the texts of `Logs`.
-/
namespace Noodle
set_option autoImplicit false

/-- The two floating point computations: query.rs:98 `(p.total_size as f64).log2().powf(2.0) as u32`, as a function of the
size, and query.rs:200-201 `((*step_index as f64).log2() * (phase.depth as f64)).powf(2.0) as u32`, as a function of the
index and the depth. -/
structure Floats where
  size : Nat → Nat
  step : Nat → Nat → Nat

/-- query.rs:90-100 `search_estimate`: a sum of `u32`. -/
def searchEstimate (F : Floats) (q : List SearchPhase) : Except Crash Nat :=
  let s := (q.map fun p => F.size p.totalSize).sum
  if s < 2 ^ 32 then .ok s else .error .overflow

/-- A number in decimal, as `format!` prints it. -/
def shownNat (n : Nat) : List Char := (toString n).toList

/-- query.rs:10-23, 29-62: the evaluator, with `initial_search_estimate` (zero before the phrase phase). -/
structure Shown where
  q : QState
  initial : Nat

/-- query.rs:103-132: a new evaluator. -/
def Shown.new (es : List Expr) (wl : List Word) (depth : Nat) (limit : Option Nat) : Except Crash Shown :=
  match QState.new es wl depth limit with
  | .error x => .error x
  | .ok q => .ok ⟨q, 0⟩

/-- query.rs:217-644 with the estimate, which is computed when the phrase phase begins (query.rs:477). -/
def Shown.next (F : Floats) (s : Shown) (clk : Clock) : Except Crash (Shown × Resp) :=
  match s.q.next clk with
  | .error x => .error x
  | .ok (q', r) =>
    match s.q.phase, q'.phase with
    | .word .., .phrase ps =>
      match searchEstimate F ps.queue with
      | .error x => .error x
      | .ok e => .ok (⟨q', e⟩, r)
    | _, _ => .ok (⟨q', s.initial⟩, r)

/-- A history of calls, each with its own deadline. -/
def Shown.run (F : Floats) (s : Shown) : List Clock → Except Crash (Shown × List Resp)
  | [] => .ok (s, [])
  | c :: cs =>
    match s.next F c with
    | .error x => .error x
    | .ok (s', r) =>
      match s'.run F cs with
      | .error x => .error x
      | .ok (s'', rs) => .ok (s'', r :: rs)

/-- matcher.rs:160-167 `WordMatcher::progress`: a division by zero panics. -/
def wordProgress (index size : Nat) : Except Crash (List Char) :=
  if size = 0 then .error .overflow
  else .ok ("Single-word matches: ".toList ++ shownNat index ++ "/".toList ++ shownNat size ++ " (".toList ++
    shownNat (100 * index / size) ++ "%)".toList)

/-- query.rs:190-212: the phrase phase, from the estimate of the queue now, that of the current phase, and the initial one.
`100 * estimate` is a product of `u32`. -/
def phraseProgress (depth tranche now step initial : Nat) : Except Crash (List Char) :=
  let rest := now - step
  if initial < rest then .error .overflow
  else
    let estimate := initial - rest
    if 2 ^ 32 ≤ 100 * estimate then .error .overflow
    else if initial = 0 then .error .overflow
    else .ok (shownNat depth ++ "-word phrase matches: ".toList ++ shownNat estimate ++ "/".toList ++ shownNat initial ++
      " (".toList ++ shownNat (100 * estimate / initial) ++ "%) - tranche=".toList ++ shownNat tranche)

/-- query.rs:187-215 `progress`. -/
def Shown.progress (F : Floats) (s : Shown) : Except Crash (List Char) :=
  match s.q.phase with
  | .word ms wl =>
    match ms with
    | [] => .error .index
    | m :: _ => wordProgress m.wordIndex wl.length
  | .phrase ps =>
    match ps.queue, ps.layers with
    | ph :: _, l :: _ =>
      match searchEstimate F ps.queue with
      | .error x => .error x
      | .ok now => phraseProgress ph.depth ph.tranche now (F.step l.wordIndex ph.depth) s.initial
    | _, _ => .error .index
  | .done => .ok "Done".toList

/-- The text of a `Complete` response of a call that takes the evaluator from `q` to `q'`. -/
def completeText (q q' : QState) : List Char :=
  match q.phase with
  | .done => "QueryEvaluator.next_within_deadline called repeatedly".toList
  | .word .. =>
    if q.resultsLimit.any (fun l => decide (l ≤ q.resultsCount)) then
      "Found ".toList ++ shownNat q.resultsCount ++ " results, stopping".toList
    else if q.depthLimit ≤ 1 then
      "Complete, found all ".toList ++ shownNat q.resultsCount ++ " single-word matches".toList
    else "Complete, found all single-word matches (no phrases possible)".toList
  | .phrase _ =>
    if q.resultsLimit.any (fun l => decide (l ≤ q.resultsCount)) then
      "Found ".toList ++ shownNat q.resultsCount ++ " results, stopping".toList
    else "Complete, found all ".toList ++ shownNat q'.resultsCount ++ " phrases up to ".toList ++ shownNat q'.depthLimit ++
      " words".toList

/-- query.rs:217-644: the texts of the `Complete` responses of a history of calls. -/
def QState.texts (q : QState) : List Clock → Except Crash (List (List Char))
  | [] => .ok []
  | c :: cs =>
    match q.next c with
    | .error x => .error x
    | .ok (q', r) =>
      match q'.texts cs with
      | .error x => .error x
      | .ok ts => .ok (if r = .complete then completeText q q' :: ts else ts)

/-- query.rs:313, 316: `optimization_passes` when the loop `optimizeLoop` (query.rs:315-368) is left. -/
def optimizePasses : Nat → List WM → List Word → List SearchPhase → Nat
  | 0, _, _, _ => 0
  | k + 1, ms, alive, queue =>
    match filterFix (ms.map WM.pm) (queue.length + 1) queue false with
    | .error _ => 1
    | .ok (q', ch) =>
      if q' = [] then 1
      else
        match optimizePass q' ms.reverse alive with
        | .error _ => 1
        | .ok (rms, alive', conv) =>
          if conv && !ch then 1
          else if k = 0 then 1
          else 1 + optimizePasses k rms.reverse alive' q'

/-- A vector of numbers, as `{:?}` prints it. -/
def shownVec : List Nat → List Char
  | [] => "[]".toList
  | n :: ns => "[".toList ++ shownNat n ++ more ns
where more : List Nat → List Char
  | [] => "]".toList
  | n :: ns => ", ".toList ++ shownNat n ++ more ns

/-- query.rs:270, 361-376, 429-439: the texts of the `Logs` response of a call that reaches the phrase phase, given the
matchers after the single-word phase; `took` is how `start.elapsed()` is printed. -/
def logLines (took : List Char) (ms : List WM) (depth : Nat) : List (List Char) :=
  match ms.getLast? with
  | none => []
  | some m =>
    let queue := initialQueue depth (dedup (m.alive.map Word.tranche))
    match optimizeLoop 101 ms m.alive queue with
    | .ok (some o) =>
      let passes := optimizePasses 101 ms m.alive queue
      (if o.gaveUp then ["gave up after performing ".toList ++ shownNat passes ++ " optimization passes".toList] else []) ++
      ["optimizing took ".toList ++ took ++ " in ".toList ++ shownNat passes ++ " passes, wordlist shrunk ".toList ++
        shownNat m.alive.length ++ " -> ".toList ++ shownNat o.alive.length,
       "optimized state sizes: ".toList ++ shownVec (o.ms.map fun m => m.pm.expr.len) ++ " -> ".toList ++
        shownVec (o.ms.map fun m => m.pm.statesLen)]
    | _ => []

/-- query.rs:229-283, 489: the texts of a `Logs` response: the single-word phase ends in this call, and the rest of the
words go to the other matchers. -/
def QState.logText (took : List Char) (q : QState) (clk : Clock) : List (List Char) :=
  match q.phase with
  | .word (m :: ms) wl =>
    match wordLoop wl (decide (q.depthLimit ≤ 1)) (wl.length - m.wordIndex + 1) m ms clk with
    | .ok (m', ms', none, _) =>
      match drainAll ms' m'.alive with
      | .ok ms'' => logLines took (m' :: ms'') q.depthLimit
      | _ => []
    | _ => []
  | _ => []

/-- query.rs:217-644: the texts of the `Logs` responses of a history of calls. -/
def QState.logTexts (took : List Char) (q : QState) : List Clock → Except Crash (List (List (List Char)))
  | [] => .ok []
  | c :: cs =>
    match q.next c with
    | .error x => .error x
    | .ok (q', r) =>
      match q'.logTexts took cs with
      | .error x => .error x
      | .ok ts => .ok (match r with | .logs _ => q.logText took c :: ts | _ => ts)

end Noodle
