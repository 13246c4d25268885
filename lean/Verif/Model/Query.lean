import Verif.Model.Matcher
/-
Model of /repo/noodle/src/query.rs: the query evaluator.

Not modelled here: the texts of messages, `progress()` (the texts are in Model/Report.lean), the floating point estimates
(`search_estimate`, query.rs:90-100) which are only printed.
-/
namespace Noodle

/-- query.rs:73-86 `struct SearchLayer`; `table` has one entry (rows by fuzz) per matcher. -/
structure Layer where
  wordIndex : Nat
  maxTranche : Nat
  table : List Rows
  deriving DecidableEq, Repr

/-- query.rs:37-59: the fields of `QueryPhase::Phrase`. -/
structure PS where
  ms : List PM
  wl : List Word
  queue : List SearchPhase
  layers : List Layer
  li : Nat
  part : Bool
  deriving DecidableEq, Repr

/-- query.rs:29-62 `enum QueryPhase`. -/
inductive Phase
  | word (ms : List WM) (wl : List Word)
  | phrase (ps : PS)
  | done
  deriving DecidableEq, Repr

/-- query.rs:10-23 `struct QueryEvaluator`. -/
structure QState where
  phase : Phase
  depthLimit : Nat
  resultsLimit : Option Nat
  resultsCount : Nat
  deriving DecidableEq, Repr

/-- query.rs:65-71 `enum QueryResponse` (without the texts; for `Logs` we keep whether the message
"gave up after performing {} optimization passes" is among them). -/
inductive Resp
  | timeout
  | logs (gaveUp : Bool)
  | matched (ws : List Word)
  | complete
  deriving DecidableEq, Repr

/-- query.rs:111-116: `1 + max` over the word lengths. -/
def maxWordLen (wl : List Word) : Nat := 1 + wl.foldl (fun m w => max m w.chars.length) 0

/-- query.rs:103-132 `QueryEvaluator::new`. -/
def QState.new (es : List Expr) (wl : List Word) (depth : Nat) (limit : Option Nat) : Except Crash QState :=
  if es = [] then .error .assert
  else .ok
    { phase := .word (es.map fun e => WM.new e (maxWordLen wl)) wl
      depthLimit := depth
      resultsLimit := limit
      resultsCount := 0 }

/-- query.rs:169-172 `set_search_depth_limit`. -/
def QState.setDepth (q : QState) (d : Nat) : Except Crash QState :=
  match q.phase with
  | .word .. => .ok { q with depthLimit := d }
  | _ => .error .assert

/-- query.rs:174-177 `set_results_limit`. -/
def QState.setLimit (q : QState) (l : Option Nat) : Except Crash QState :=
  match q.phase with
  | .word .. => .ok { q with resultsLimit := l }
  | _ => .error .assert

/-- query.rs:242-248: every further matcher consumes the alive list of its predecessor; `all` tells whether
the last word it returned was `w` each time. -/
def feed (single : Bool) (w : Word) : List WM → List Word → Except Crash (List WM × Bool)
  | [], _ => .ok ([], true)
  | m :: ms, wl =>
    match m.drain wl single with
    | .error x => .error x
    | .ok (m', last) =>
      match feed single w ms m'.alive with
      | .error x => .error x
      | .ok (ms', b) => .ok (m' :: ms', decide (last = some w) && b)

/-- query.rs:237-258: the loop over the matches of the first matcher. Fuel: one round per remaining word,
plus one. -/
def wordLoop (wl : List Word) (single : Bool) : Nat → WM → List WM → Clock →
    Except Crash (WM × List WM × Option Word × Clock)
  | 0, _, _, _ => .error .fuel
  | n + 1, m, ms, clk =>
    match m.next wl single clk with
    | .error x => .error x
    | .ok (m', none, clk') => .ok (m', ms, none, clk')
    | .ok (m', some w, clk') =>
      match feed single w ms m'.alive with
      | .error x => .error x
      | .ok (ms', true) => .ok (m', ms', some w, clk')
      | .ok (ms', false) => wordLoop wl single n m' ms' clk'

/-- query.rs:272-281: the remaining words are consumed by the other matchers. -/
def drainAll : List WM → List Word → Except Crash (List WM)
  | [], _ => .ok []
  | m :: ms, wl =>
    match m.drain wl false with
    | .error x => .error x
    | .ok (m', _) =>
      match drainAll ms m'.alive with
      | .error x => .error x
      | .ok ms' => .ok (m' :: ms')

/-- `Vec::dedup` on tranches. -/
def dedup : List Nat → List Nat
  | [] => []
  | x :: xs =>
    match dedup xs with
    | [] => [x]
    | y :: ys => if x = y then y :: ys else x :: y :: ys

/-- `sort_unstable` of numbers (any sort of numbers gives this result). -/
def sortNat (l : List Nat) : List Nat := l.foldr (fun t l => insSort t l) []
where insSort (t : Nat) : List Nat → List Nat
  | [] => [t]
  | x :: xs => if t ≤ x then t :: x :: xs else x :: insSort t xs

/-- query.rs:292-300: the initial queue `(2..=limit) × tranches`. -/
def initialQueue (depth : Nat) (tranches : List Nat) : List SearchPhase :=
  (List.range' 2 (depth - 1)).flatMap fun d => tranches.map fun t => { depth := d, tranche := t, totalSize := 0 }

/-- query.rs:322-324: one round of `filter_search_phases` over all matchers. -/
def filterAll (pms : List PM) (q : List SearchPhase) : Except Crash (List SearchPhase) :=
  pms.foldl (fun acc pm => match acc with | .error x => .error x | .ok q => pm.filterPhases q) (.ok q)

/-- query.rs:320-336: repeat until the queue is empty or unchanged. Returns the queue and whether it ever
changed. Fuel: the queue shrinks each round. -/
def filterFix (pms : List PM) : Nat → List SearchPhase → Bool → Except Crash (List SearchPhase × Bool)
  | 0, _, _ => .error .fuel
  | n + 1, q, ch =>
    match filterAll pms q with
    | .error x => .error x
    | .ok q' =>
      if q' = [] then .ok (q', ch)
      else if q.length ≠ q'.length then filterFix pms n q' true
      else .ok (q', ch)

/-- query.rs:338-357: optimise the matchers (given in processing order, i.e. reversed). Returns the matchers
(same order), the alive list and whether nothing changed. -/
def optimizePass (queue : List SearchPhase) : List WM → List Word → Except Crash (List WM × List Word × Bool)
  | [], alive => .ok ([], alive, true)
  | m :: ms, alive =>
    match m.optimize alive queue with
    | .error x => .error x
    | .ok (m', did) =>
      if m'.alive.length ≠ alive.length then
        if ¬ m'.alive.length < alive.length then .error .assert
        else if m'.alive = [] then .ok (m' :: ms, [], false)
        else
          match optimizePass queue ms m'.alive with
          | .error x => .error x
          | .ok (ms', alive', _) => .ok (m' :: ms', alive', false)
      else
        match optimizePass queue ms alive with
        | .error x => .error x
        | .ok (ms', alive', conv) => .ok (m' :: ms', alive', !did && conv)

/-- Outcome of the optimisation loop. -/
structure OptOut where
  ms : List WM
  alive : List Word
  queue : List SearchPhase
  gaveUp : Bool

/-- query.rs:315-368: the optimisation loop; `none` = the queue became empty (returned `Complete`). `k` is
the number of passes left before giving up (101 at the start: `optimization_passes > 100`). -/
def optimizeLoop : Nat → List WM → List Word → List SearchPhase → Except Crash (Option OptOut)
  | 0, _, _, _ => .error .fuel
  | k + 1, ms, alive, queue =>
    match filterFix (ms.map WM.pm) (queue.length + 1) queue false with
    | .error x => .error x
    | .ok (q', ch) =>
      if q' = [] then .ok none
      else
        match optimizePass q' ms.reverse alive with
        | .error x => .error x
        | .ok (rms, alive', conv) =>
          if conv && !ch then .ok (some ⟨rms.reverse, alive', q', false⟩)
          else if k = 0 then .ok (some ⟨rms.reverse, alive', q', true⟩)
          else optimizeLoop k rms.reverse alive' q'

/-- query.rs:387-391: number of words of a tranche. -/
def trancheCount (alive : List Word) (t : Nat) : Nat := alive.countP fun w => w.tranche == t
/-- query.rs:392-398: number of words up to a tranche. -/
def trancheCum (alive : List Word) (t : Nat) : Nat := alive.countP fun w => decide (w.tranche ≤ t)

/-- query.rs:400-411: `total_size`, `u64::saturating_pow` with `depth as u32`. -/
def totalSize (alive : List Word) (p : SearchPhase) : Nat :=
  if trancheCount alive p.tranche = 0 then 0
  else min ((trancheCum alive p.tranche) ^ (p.depth % 2 ^ 32)) (2 ^ 64 - 1)

/-- `sort_by_key(|p| p.total_size)` (stable): insertion. -/
def insertPhase (p : SearchPhase) : List SearchPhase → List SearchPhase
  | [] => [p]
  | x :: xs => if p.totalSize ≤ x.totalSize then p :: x :: xs else x :: insertPhase p xs
/-- `sort_by_key(|p| p.total_size)`. -/
def sortPhases (q : List SearchPhase) : List SearchPhase := q.foldr insertPhase []

/-- query.rs:660-671 `SearchLayer::new`. -/
def Layer.new (ms : List PM) (fuzzMax tranche : Nat) : Layer :=
  { wordIndex := 0, maxTranche := tranche, table := ms.map fun _ => List.replicate fuzzMax 0 }

/-- query.rs:380-489: from the optimised matchers to the phrase phase; `none` = `Complete`. -/
def mkPhrase (o : OptOut) : Except Crash (Option PS) :=
  match o.alive with
  | [] => .ok none
  | w0 :: _ =>
    if o.queue = [] then .ok none
    else
      let tmax := o.queue.foldr (fun p m => max p.tranche m) 0
      if o.alive.any (fun w => decide (tmax < w.tranche)) then .error .index
      else
        let q1 := o.queue.map fun p => { p with totalSize := totalSize o.alive p }
        if q1.any (fun p => p.totalSize == 0 && trancheCount o.alive p.tranche != 0) then .error .assert
        else
          let q3 := sortPhases (q1.filter fun p => p.totalSize != 0)
          if q3 = [] then .ok none
          else
            let pms := o.ms.map WM.pm
            let fuzzMax := pms.foldr (fun pm m => max pm.fuzzLimit m) 0
            let l0 := Layer.new pms fuzzMax w0.tranche
            .ok (some
              { ms := pms
                wl := o.alive
                queue := q3
                layers := { l0 with table := pms.map fun pm => rowsOf fuzzMax pm.start } ::
                  List.replicate (maxDepth q3) l0
                li := 0
                part := false })

/-- query.rs:272-489: after the single-word phase. -/
def plan (ms : List WM) (depth : Nat) : Except Crash (Option PS) :=
  match ms.getLast? with
  | none => .error .index
  | some m =>
    let alive := m.alive
    let tr := dedup (alive.map Word.tranche)
    if dedup (sortNat tr) ≠ tr then .error .assert
    else
      match optimizeLoop 101 ms alive (initialQueue depth tr) with
      | .error x => .error x
      | .ok none => .ok none
      | .ok (some o) => mkPhrase o

/-- query.rs:361-367: does the log contain the message "gave up after performing {} optimization passes"?
(The same loop as in `plan`; only the flag is read.) -/
def planGaveUp (ms : List WM) (depth : Nat) : Bool :=
  match ms.getLast? with
  | none => false
  | some m =>
    match optimizeLoop 101 ms m.alive (initialQueue depth (dedup (m.alive.map Word.tranche))) with
    | .ok (some o) => o.gaveUp
    | _ => false

/-! ### The phrase search -/

/-- `is_empty` of a 2-D slice. -/
def rowsEmpty (r : Rows) : Bool := r.all fun s => s == 0

/-- query.rs:513-539: advance every matcher's table by one word: new tables, `all_exact_match`,
`all_partial_match`. The tables after the first empty one are not touched (`break`). -/
def stepMatchers (wi : Nat) : List PM → List Rows → List Rows → Except Crash (List Rows × Bool × Bool)
  | pm :: ms, p :: prev, n :: next =>
    match pm.stepByWordIndex wi p (n.map fun _ => 0) with
    | .error x => .error x
    | .ok r =>
      if rowsEmpty r then .ok (r :: next, false, false)
      else
        match stepMatchers wi ms prev next with
        | .error x => .error x
        | .ok (next', ex, pa) => .ok (r :: next', pm.hasSuccess r && ex, pa)
  | [], _, next => .ok (next, true, true)
  | _, _, _ => .error .index

/-- Result of moving on in the search. -/
inductive Moved
  | next (ps : PS)
  | finished

/-- query.rs:586-611: the end of a search phase (`layer_index == 0`). -/
def endPhase (ps : PS) : Moved :=
  match ps.queue with
  | [] => .finished
  | ph :: q =>
    let q' := if ps.part then q
      else q.filter fun p => decide (ph.tranche < p.tranche) || decide (p.depth < ph.depth)
    if q' = [] then .finished
    else .next { ps with
      queue := q'
      part := false
      li := 0
      layers := ps.layers.modify 0 fun l => { l with
        wordIndex := 0, maxTranche := (ps.wl.head?.map Word.tranche).getD 0 } }

/-- query.rs:575-623: try the next word at this layer, ascending as long as layers are exhausted. -/
def advance (ps : PS) (tranche : Nat) : Nat → Moved
  | 0 =>
    let ls := ps.layers.modify 0 fun l => { l with wordIndex := l.wordIndex + 1 }
    let wi := (ls[0]?.map Layer.wordIndex).getD 0
    match ps.wl[wi]? with
    | some w =>
      if tranche < w.tranche then endPhase { ps with layers := ls, li := 0 }
      else .next { ps with
        li := 0
        layers := ls.modify 0 fun l => { l with maxTranche := max l.maxTranche w.tranche } }
    | none => endPhase { ps with layers := ls, li := 0 }
  | li + 1 =>
    let ls := ps.layers.modify (li + 1) fun l => { l with wordIndex := l.wordIndex + 1 }
    let wi := (ls[li + 1]?.map Layer.wordIndex).getD 0
    match ps.wl[wi]? with
    | some w =>
      if tranche < w.tranche then advance { ps with layers := ls } tranche li
      else .next { ps with
        li := li + 1
        layers := ls.modify (li + 1) fun l => { l with maxTranche := max l.maxTranche w.tranche } }
    | none => advance { ps with layers := ls } tranche li

/-- query.rs:505-628: one iteration of the search loop: where to go, and the phrase found, if any. -/
def PS.iter (ps : PS) : Except Crash (Moved × Option (List Word)) :=
  match ps.queue, ps.layers[ps.li]?, ps.layers[ps.li + 1]? with
  | ph :: _, some prev, some next =>
    match stepMatchers prev.wordIndex ps.ms prev.table next.table with
    | .error x => .error x
    | .ok (tb, exact, part) =>
      let ls := ps.layers.modify (ps.li + 1) fun l => { l with table := tb }
      let full := ps.li + 1 == ph.depth
      let ps1 := { ps with layers := ls, part := ps.part || ((part || exact) && full) }
      let res : Except Crash (Option (List Word)) :=
        if exact && full && prev.maxTranche == ph.tranche then
          match (ls.take (ps.li + 1)).mapM fun l => ps.wl[l.wordIndex]? with
          | some ws => .ok (some ws)
          | none => .error .index
        else .ok none
      match res with
      | .error x => .error x
      | .ok res =>
        if (part || exact) && decide (ps.li + 1 < ph.depth) then
          .ok (.next { ps1 with
            li := ps.li + 1
            layers := ls.modify (ps.li + 1) fun l => { l with
              wordIndex := 0, maxTranche := prev.maxTranche } }, res)
        else .ok (advance ps1 ph.tranche ps.li, res)
  | _, _, _ => .error .index

/-- Upper bound for the iterations spent in one phase: the nodes of the search tree. -/
def nodes (n : Nat) : Nat → Nat
  | 0 => 0
  | k + 1 => n * (1 + nodes n k)

/-- Fuel for the search loop: all nodes of all phases (proved sufficient). -/
def PS.fuel (ps : PS) : Nat := (ps.queue.map fun p => nodes ps.wl.length p.depth).sum + 1

/-- Outcome of the search loop: `none` = finished. -/
inductive Looped
  | found (ps : PS) (ws : List Word)
  | timeout (ps : PS)
  | finished (extra : Nat)

/-- query.rs:502-638: the search loop; `cnt` is `deadline_check_count`. `finished 1`: the phase changed to
`Done` while a result was pending (`results_count` was incremented, the result is not returned). -/
def PS.loop : Nat → PS → Clock → Nat → Except Crash (Looped × Clock)
  | 0, _, _, _ => .error .fuel
  | n + 1, ps, clk, cnt =>
    match ps.iter with
    | .error x => .error x
    | .ok (.finished, r) => .ok (.finished (if r.isSome then 1 else 0), clk)
    | .ok (.next ps', some ws) => .ok (.found ps' ws, clk)
    | .ok (.next ps', none) =>
      let rd := if (cnt + 1) % 256 = 0 then clk.read else (false, clk)
      if rd.1 then .ok (.timeout ps', rd.2) else PS.loop n ps' rd.2 (cnt + 1)

/-- query.rs:217-644 `next_within_deadline`. -/
def QState.next (q : QState) (clk : Clock) : Except Crash (QState × Resp) :=
  match q.phase with
  | .done => .ok (q, .complete)
  | .word ms wl =>
    if q.resultsLimit.any (fun l => decide (l ≤ q.resultsCount)) then
      .ok ({ q with phase := .done }, .complete)
    else match ms with
      | [] => .error .index
      | m :: ms =>
        let single := decide (q.depthLimit ≤ 1)
        match wordLoop wl single (wl.length - m.wordIndex + 1) m ms clk with
        | .error x => .error x
        | .ok (m', ms', some w, _) =>
          .ok ({ q with phase := .word (m' :: ms') wl, resultsCount := q.resultsCount + 1 }, .matched [w])
        | .ok (m', ms', none, clk') =>
          if clk'.read.1 then .ok ({ q with phase := .word (m' :: ms') wl }, .timeout)
          else if single then .ok ({ q with phase := .done }, .complete)
          else
            match drainAll ms' m'.alive with
            | .error x => .error x
            | .ok ms'' =>
              match plan (m' :: ms'') q.depthLimit with
              | .error x => .error x
              | .ok none => .ok ({ q with phase := .done }, .complete)
              | .ok (some ps) => .ok ({ q with phase := .phrase ps }, .logs (planGaveUp (m' :: ms'') q.depthLimit))
  | .phrase ps =>
    if q.resultsLimit.any (fun l => decide (l ≤ q.resultsCount)) then
      .ok ({ q with phase := .done }, .complete)
    else if ps.wl = [] then .error .assert
    else
      match ps.loop ps.fuel clk 0 with
      | .error x => .error x
      | .ok (.finished k, _) => .ok ({ q with phase := .done, resultsCount := q.resultsCount + k }, .complete)
      | .ok (.timeout ps', _) => .ok ({ q with phase := .phrase ps' }, .timeout)
      | .ok (.found ps' ws, _) =>
        .ok ({ q with phase := .phrase ps', resultsCount := q.resultsCount + 1 }, .matched ws)

/-- query.rs:647-657: `Iterator::next`: `None` exactly when done. -/
def QState.iterNext (q : QState) : Except Crash (QState × Option Resp) :=
  match q.phase with
  | .done => .ok (q, none)
  | _ =>
    match q.next none with
    | .error x => .error x
    | .ok (q', r) => .ok (q', some r)

/-- query.rs:179-185 `expressions` (`WordMatcher::expression`, matcher.rs:169-171). -/
def QState.expressions (q : QState) : List Expr :=
  match q.phase with
  | .word ms _ => ms.map fun m => m.pm.expr
  | .phrase ps => ps.ms.map fun m => m.expr
  | .done => []

/-- A history of calls, each with its own deadline. -/
def QState.run (q : QState) : List Clock → Except Crash (QState × List Resp)
  | [] => .ok (q, [])
  | c :: cs =>
    match q.next c with
    | .error x => .error x
    | .ok (q', r) =>
      match q'.run cs with
      | .error x => .error x
      | .ok (q'', rs) => .ok (q'', r :: rs)

end Noodle
