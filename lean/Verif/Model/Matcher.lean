import Verif.Model.Expr
/-
Model of /repo/noodle/src/matcher.rs.
-/
namespace Noodle

/-- The clock as seen by one call: `none` = no deadline; `some n` = the next `n` reads of the clock are not
past the deadline and every later one is (a monotone clock has exactly these behaviours). -/
abbrev Clock := Option Nat

/-- `deadline.is_some() && Some(Instant::now()) > deadline` (matcher.rs:201-203, query.rs:256, 631-633). -/
def Clock.read : Clock → Bool × Clock
  | none => (false, none)
  | some 0 => (true, some 0)
  | some (n + 1) => (false, some n)

/-- `ones()` of a state set, ascending (bitset.rs:287-293; C04). -/
def ones (s : Nat) : List Nat := (List.range (s.log2 + 1)).filter s.testBit

/-- matcher.rs:107-114 `struct WordClass`, `Default`. -/
structure WordClass where
  count : Nat := 0
  minTranche : Nat := 0
  deriving DecidableEq, Repr

/-- matcher.rs:772-775 `add_word`. -/
def WordClass.add (wc : WordClass) (w : Word) : WordClass :=
  { count := wc.count + 1, minTranche := min wc.minTranche w.tranche }

/-- matcher.rs:73-94 `struct PhraseMatcher`; the `IndexMap` is the list of its entries in index order. -/
structure PM where
  expr : Expr
  fuzzLimit : Nat
  statesLen : Nat
  start : Nat
  classes : List (Tbl × WordClass)
  wordClasses : List Nat
  deriving DecidableEq, Repr

/-- matcher.rs:18-58 `struct WordMatcher`. -/
structure WM where
  alive : List Word
  pm : PM
  tables : List Tbl
  tableChars : List Ch
  wordIndex : Nat
  deriving DecidableEq, Repr

/-- `BitSet3D::new((n, fl), n)`. -/
def emptyTbl (n fl : Nat) : Tbl := List.replicate n (List.replicate fl 0)

/-- matcher.rs:624-642 `PhraseMatcher::new`. -/
def PM.new (e : Expr) : PM :=
  { expr := e
    statesLen := e.len
    fuzzLimit := e.fuzz + 1
    start := e.eps 0
    classes := [(emptyTbl e.len (e.fuzz + 1), {})]
    wordClasses := [] }

/-- matcher.rs:128-144 `WordMatcher::new`. -/
def WM.new (e : Expr) (maxWordLen : Nat) : WM :=
  { pm := PM.new e
    wordIndex := 0
    alive := []
    tables := List.replicate maxWordLen (emptyTbl e.len (e.fuzz + 1))
    tableChars := [] }

/-- `IndexMap::entry(t)`: its index, and the map with the entry present. -/
def entryIdx (cl : List (Tbl × WordClass)) (t : Tbl) : Nat × List (Tbl × WordClass) :=
  match cl.findIdx? (fun p => decide (p.1 = t)) with
  | some i => (i, cl)
  | none => (cl.length, cl ++ [(t, {})])

/-- matcher.rs:753-768 `insert_word_table`. -/
def PM.insertWord (pm : PM) (w : Word) (t : Tbl) : PM :=
  let (i, cl) := entryIdx pm.classes t
  { pm with
    wordClasses := pm.wordClasses ++ [i]
    classes := cl.modify i fun p => (p.1, p.2.add w) }

/-- matcher.rs:212-220: length of the common prefix with the cached word. -/
def commonPrefix : List Ch → List Ch → Nat
  | a :: as, b :: bs => if a = b then commonPrefix as bs + 1 else 0
  | _, _ => 0

/-- matcher.rs:230-237: the initial table (`clear`, then the closure of each source at fuzz 0). -/
def initTbl (e : Expr) (statesLen fuzzLimit : Nat) : Tbl :=
  (List.range statesLen).map fun src => (List.replicate fuzzLimit 0).set 0 (e.eps src)

/-- matcher.rs:261-270: does the word's table reach the success state from state 0 within the fuzz limit? -/
def tblMatches (pm : PM) (t : Tbl) : Bool :=
  (List.range pm.fuzzLimit).any fun f => ((t.row 0).at f).testBit (pm.statesLen - 1)

/-- matcher.rs:209-270: process one word: new matcher, and whether the word matches on its own. -/
def WM.word (m : WM) (single : Bool) (w : Word) : Except Crash (WM × Bool) :=
  let e := m.pm.expr
  let wordLen := w.chars.length
  let prefixLen := commonPrefix w.chars m.tableChars
  let tables := if prefixLen = 0 then m.tables.set 0 (initTbl e m.pm.statesLen m.pm.fuzzLimit) else m.tables
  match tables[prefixLen]? with
  | none => .error .index
  | some cur =>
    match fillTable e single (w.chars.drop prefixLen) cur (tables.drop (prefixLen + 1)) with
    | .error x => .error x
    | .ok (n, rest) =>
      let partialLen := prefixLen + n
      let m' := { m with
        wordIndex := m.wordIndex + 1
        tables := tables.take (prefixLen + 1) ++ rest
        tableChars := w.chars.take partialLen }
      if partialLen < wordLen then .ok (m', false)
      else match m'.tables[wordLen]? with
        | none => .error .index
        | some t =>
          .ok ({ m' with alive := m'.alive ++ [w], pm := m'.pm.insertWord w t }, tblMatches m.pm t)

/-- matcher.rs:198-273: the `while` loop of `next_single_word` over the not yet processed words; `cnt` is
`deadline_check_count`. -/
def WM.loop (m : WM) (single : Bool) (clk : Clock) (cnt : Nat) :
    List Word → Except Crash (WM × Option Word × Clock)
  | [] => .ok (m, none, clk)
  | w :: ws =>
    let rd := if cnt % 256 = 0 then clk.read else (false, clk)
    if rd.1 then .ok (m, none, rd.2)
    else match m.word single w with
      | .error x => .error x
      | .ok (m', true) => .ok (m', some w, rd.2)
      | .ok (m', false) => WM.loop m' single rd.2 (cnt + 1) ws

/-- matcher.rs:187-274 `next_single_word`. -/
def WM.next (m : WM) (wordlist : List Word) (single : Bool) (clk : Clock) :
    Except Crash (WM × Option Word × Clock) :=
  m.loop single clk 0 (wordlist.drop m.wordIndex)

/-- matcher.rs:146-158, 620-627: driving `WordMatcher::iter(wordlist, single, None)` to its end, returning
the last item. Fuel: one call per remaining word, plus one. -/
def WM.iterLast (m : WM) (wordlist : List Word) (single : Bool) : Nat → Option Word → Except Crash (WM × Option Word)
  | 0, _ => .error .fuel
  | n + 1, last =>
    match m.next wordlist single none with
    | .error x => .error x
    | .ok (m', none, _) => .ok (m', last)
    | .ok (m', some w, _) => WM.iterLast m' wordlist single n (some w)

/-- `matcher.iter(wordlist, single, None).last()`. -/
def WM.drain (m : WM) (wordlist : List Word) (single : Bool) : Except Crash (WM × Option Word) :=
  m.iterLast wordlist single (wordlist.length - m.wordIndex + 1) none

/-! ### Phrase matching -/

/-- matcher.rs:118-123 `struct SearchPhase`. -/
structure SearchPhase where
  depth : Nat
  tranche : Nat
  totalSize : Nat
  deriving DecidableEq, Repr

/-- matcher.rs:664-671 `has_success_state`. -/
def PM.hasSuccess (pm : PM) (r : Rows) : Bool :=
  (List.range pm.fuzzLimit).any fun f => (r.at f).testBit (pm.statesLen - 1)

/-- matcher.rs:673-690 `step`: adds to `next` what the word table reaches from `prev`. -/
def stepInto (fl : Nat) (t : Tbl) (prev next : Rows) : Rows :=
  (List.range fl).foldl (fun next f =>
    (ones (prev.at f)).foldl (fun next dst =>
      (List.range (fl - f)).foldl (fun next df =>
        next.set (f + df) (next.at (f + df) ||| (t.row dst).at df)) next) next) next

/-- matcher.rs:644-662 `step_by_word_index`. -/
def PM.stepByWordIndex (pm : PM) (wi : Nat) (prev next : Rows) : Except Crash Rows :=
  match pm.wordClasses[wi]? with
  | none => .error .index
  | some ci =>
    if ci = 0 then .error .assert
    else match pm.classes[ci]? with
      | none => .error .index
      | some (t, _) => .ok (stepInto pm.fuzzLimit t prev next)

/-- `BitSet2D::new(fuzz_limit, n)` with `s` at fuzz 0. -/
def rowsOf (fl s : Nat) : Rows := (List.replicate fl 0).set 0 s

/-- matcher.rs:698-703: sorted, deduplicated tranches of the queue: insertion into an ascending list. -/
def insertTranche (t : Nat) : List Nat → List Nat
  | [] => [t]
  | x :: xs => if t < x then t :: x :: xs else if t = x then x :: xs else x :: insertTranche t xs

/-- matcher.rs:698-703. -/
def tranchesOf (q : List SearchPhase) : List Nat := q.foldr (fun p l => insertTranche p.tranche l) []

/-- The maximum depth of a queue (`.max()`), 0 for the empty queue. -/
def maxDepth (q : List SearchPhase) : Nat := q.foldr (fun p m => max p.depth m) 0

/-- matcher.rs:704-717 `tranche_map[x]`: since `tranches` ascends, the loop leaves in `map[x]` the first `i`
with `tranches[i] ≥ x`; out of range (panic) when there is none. -/
def trancheIdx (tranches : List Nat) (x : Nat) : Option Nat := tranches.findIdx? (fun t => decide (x ≤ t))

/-- matcher.rs:728-738: one word-class column step for every tranche index `≥ start`. -/
def filterStep (pm : PM) (tranches : List Nat) (cur : List Rows) : Except Crash (List Rows) :=
  pm.classes.foldl (fun acc tc =>
    match acc with
    | .error x => .error x
    | .ok next =>
      match trancheIdx tranches tc.2.minTranche with
      | none => .error .index
      | some st => .ok (next.zipIdx.map fun p =>
          if st ≤ p.2 then stepInto pm.fuzzLimit tc.1 (cur.getD p.2 []) p.1 else p.1))
    (.ok (cur.map fun _ => List.replicate pm.fuzzLimit 0))

/-- matcher.rs:727-750: the loop `for w in 1..=max_depth`; `k` iterations left, the current one is `w`. -/
def filterLoop (pm : PM) (tranches : List Nat) : Nat → Nat → List Rows → List SearchPhase →
    Except Crash (List SearchPhase)
  | 0, _, _, q => .ok q
  | k + 1, w, cur, q =>
    match filterStep pm tranches cur with
    | .error x => .error x
    | .ok next =>
      let q' := tranches.zipIdx.foldl (fun q p =>
        if pm.hasSuccess (next.getD p.2 []) then q
        else q.filter fun ph => ph.depth != w || ph.tranche != p.1) q
      filterLoop pm tranches k (w + 1) next q'

/-- matcher.rs:692-751 `filter_search_phases`. -/
def PM.filterPhases (pm : PM) (q : List SearchPhase) : Except Crash (List SearchPhase) :=
  if q = [] then .ok q
  else
    let tr := tranchesOf q
    filterLoop pm tr (maxDepth q) 1 (tr.map fun _ => rowsOf pm.fuzzLimit pm.start) q

/-! ### `optimize_for_wordlist` -/

/-- matcher.rs:300-323: keep the words also present in `new`, dropping the words of class 0. Returns the
kept (word, class) pairs and what is left of `new`. -/
def filterAlive : List (Word × Nat) → List Word → List (Word × Nat) × List Word
  | [], new => ([], new)
  | (w, ci) :: l, [] => filterAlive l [] |> fun r => let _ := (w, ci); r
  | (w, ci) :: l, n :: ns =>
    if w = n then
      let r := filterAlive l ns
      if ci ≠ 0 then ((w, ci) :: r.1, r.2) else r
    else filterAlive l (n :: ns)

/-- matcher.rs:294-321, 312-318: reset the per-class counters, then count the kept words. -/
def recount (cl : List (Tbl × WordClass)) (kept : List (Word × Nat)) : List (Tbl × WordClass) :=
  kept.foldl (fun cl p => cl.modify p.2 fun q => (q.1, q.2.add p.1)) (cl.map fun q => (q.1, {}))

/-- The tables of the classes with at least one word (`words_count == 0` is skipped everywhere). -/
def PM.live (pm : PM) : List Tbl := (pm.classes.filter fun p => p.2.count != 0).map Prod.fst

/-- matcher.rs:353-363, 396-409: one more word, from any live class. -/
def stepAll (fl : Nat) (live : List Tbl) (cur : Rows) : Rows :=
  live.foldl (fun next t => stepInto fl t cur next) cur

/-- matcher.rs:352-369: at most `k` rounds, stopping when saturated. -/
def saturate (fl : Nat) (live : List Tbl) : Nat → Rows → Rows
  | 0, cur => cur
  | k + 1, cur =>
    let next := stepAll fl live cur
    if next = cur then cur else saturate fl live k next

/-- matcher.rs:371-378: union over all values of fuzz. -/
def unionRows (fl : Nat) (r : Rows) : Nat := (List.range fl).foldl (fun a f => a ||| r.at f) 0

/-- matcher.rs:390-418: does `src` become a candidate? (The code does not stop after the success test
fires; it only ever inserts `src` again.) -/
def candidateLoop (fl n : Nat) (live : List Tbl) : Nat → Rows → Bool
  | 0, _ => false
  | k + 1, cur =>
    ((List.range fl).any fun f => (cur.at f).testBit (n - 1)) ||
      (let next := stepAll fl live cur
       if next = cur then false else candidateLoop fl n live k next)

/-- matcher.rs:383-421 `candidate_srcs`. -/
def candidates (fl n : Nat) (live : List Tbl) (depth : Nat) : Nat :=
  (List.range n).foldl (fun acc src =>
    if candidateLoop fl n live (depth + 1) (rowsOf fl (2 ^ src)) then acc ||| 2 ^ src else acc) 0

/-- matcher.rs:473-497: same outputs and inputs on the alive states, for every fuzz value and live class. -/
def sameState (fl : Nat) (live : List Tbl) (alive i j : Nat) : Bool :=
  (List.range fl).all fun f => live.all fun t =>
    ((ones alive).all fun dst => ((t.row i).at f).testBit dst == ((t.row j).at f).testBit dst) &&
    ((ones alive).all fun src => ((t.row src).at f).testBit i == ((t.row src).at f).testBit j)

/-- matcher.rs:447-509 `redundant_states`. -/
def redundantStates (fl n : Nat) (live : List Tbl) (alive : Nat) : List (Option Nat) :=
  (List.range n).foldl (fun red i =>
      if (red.getD i none).isSome then red
      else (List.range' (i + 1) (n - 1 - (i + 1))).foldl (fun red j =>
        if (red.getD j none).isSome then red
        else if sameState fl live alive i j then red.set j (some i) else red) red)
    ((List.range n).map fun src => if alive.testBit src then none else some src)

/-- matcher.rs:519-526 `new_state_index`. -/
def newIndex (red : List (Option Nat)) (i : Nat) : Option Nat :=
  match red[i]? with
  | some none => some ((red.take i).countP Option.isNone)
  | _ => none

/-- matcher.rs:552-558: where source `src` goes (`None` = deleted); the `unwrap`s are checked in
`optimizeStates`. -/
def newSource (red : List (Option Nat)) (src : Nat) : Option Nat :=
  match red.getD src none with
  | none => newIndex red src
  | some r => if r = src then none else newIndex red r

/-- matcher.rs:563-567: renumber the destinations of a set, dropping removed ones. -/
def remapSet (red : List (Option Nat)) (s : Nat) : Nat :=
  (ones s).foldl (fun acc d => match newIndex red d with | some d' => acc ||| 2 ^ d' | none => acc) 0

/-- matcher.rs:550-569: the renumbered table. -/
def remapTbl (red : List (Option Nat)) (fl n : Nat) (newLen : Nat) (t : Tbl) : Tbl :=
  (List.range n).foldl (fun acc src =>
      match newSource red src with
      | none => acc
      | some s' => acc.modify s' fun row =>
          (List.range fl).map fun f => row.at f ||| remapSet red ((t.row src).at f))
    (emptyTbl newLen fl)

/-- matcher.rs:540-573: renumber every live class; returns `class_map` and the new classes. -/
def remapClasses (red : List (Option Nat)) (fl n newLen : Nat) :
    List (Tbl × WordClass) → List (Tbl × WordClass) → List Nat × List (Tbl × WordClass)
  | [], nc => ([], nc)
  | (t, wc) :: cl, nc =>
    if wc.count = 0 then
      let r := remapClasses red fl n newLen cl nc
      (0 :: r.1, r.2)
    else
      let e := entryIdx nc (remapTbl red fl n newLen t)
      let r := remapClasses red fl n newLen cl e.2
      (e.1 :: r.1, r.2)

/-- matcher.rs:579-596: redistribute the words over the new classes, dropping class 0. -/
def reassign (cmap : List Nat) : List (Word × Nat) → List (Tbl × WordClass) →
    List (Word × Nat) × List (Tbl × WordClass)
  | [], nc => ([], nc)
  | (w, ci) :: l, nc =>
    let ci' := cmap.getD ci 0
    if ci' ≠ 0 then
      let r := reassign cmap l (nc.modify ci' fun q => (q.1, q.2.add w))
      ((w, ci') :: r.1, r.2)
    else reassign cmap l nc

/-- matcher.rs:343-432 `alive_states`: both reachable and able to reach the success state. -/
def aliveStates (fl n start : Nat) (live : List Tbl) (depth : Nat) : Nat :=
  unionRows fl (saturate fl live depth (rowsOf fl start)) &&& candidates fl n live depth

/-- matcher.rs:557-558: the `unwrap`s on `new_state_index` of a representative succeed. -/
def repsOk (red : List (Option Nat)) (n : Nat) : Bool :=
  (List.range n).all fun s => match red.getD s none with
    | none => true
    | some r => r == s || (newIndex red r).isSome

/-- matcher.rs:511-604: remove the redundant states. -/
def WM.shrink (m : WM) (red : List (Option Nat)) : Except Crash (WM × Bool) :=
  let pm := m.pm
  let n := pm.statesLen
  let fl := pm.fuzzLimit
  if red[n - 1]? ≠ some none then .error .assert
  else if !repsOk red n then .error .index
  else
    let newLen := red.countP Option.isNone
    if newLen = n then .ok (m, false)
    else if pm.wordClasses.length ≠ m.alive.length then .error .assert
    else
      let rc := remapClasses red fl n newLen pm.classes [(emptyTbl newLen fl, {})]
      let ra := reassign rc.1 (m.alive.zip pm.wordClasses) rc.2
      .ok ({ m with
        alive := ra.1.map Prod.fst
        pm := { pm with
          classes := ra.2
          wordClasses := ra.1.map Prod.snd
          statesLen := newLen
          start := remapSet red pm.start } }, true)

/-- matcher.rs:329-604: the state reduction, after the word filtering. -/
def WM.reduce (m : WM) (queue : List SearchPhase) : Except Crash (WM × Bool) :=
  if queue = [] then .error .assert
  else
    let alive := aliveStates m.pm.fuzzLimit m.pm.statesLen m.pm.start m.pm.live (maxDepth queue)
    if !alive.testBit (m.pm.statesLen - 1) then .ok ({ m with alive := [] }, true)
    else m.shrink (redundantStates m.pm.fuzzLimit m.pm.statesLen m.pm.live alive)

/-- matcher.rs:276-605 `optimize_for_wordlist`. -/
def WM.optimize (m : WM) (newList : List Word) (queue : List SearchPhase) : Except Crash (WM × Bool) :=
  if m.alive.length < newList.length then .error .assert
  else if m.alive = [] then
    if newList = [] then .ok (m, false) else .error .assert
  else
    let r := filterAlive (m.alive.zip m.pm.wordClasses) newList
    if r.2 ≠ [] then .error .assert
    else if (r.1.all fun p => decide (p.2 < m.pm.classes.length)) = false then .error .index
    else
      WM.reduce { m with
        alive := r.1.map Prod.fst
        pm := { m.pm with
          classes := recount m.pm.classes r.1
          wordClasses := r.1.map Prod.snd } } queue

end Noodle
