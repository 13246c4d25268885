import Verif.Model.Query
import Verif.Model.Bitset
/-
Model of the evaluator (/repo/noodle/src/expression.rs:438-589, matcher.rs, query.rs) over the memory it really uses:
bitsets are vectors of 32-bit blocks (Model/Bitset.lean), the tables are 3-D bitsets in one allocation, updated in place
row by row, and every unchecked access (`get_unchecked`, bitset.rs) outside of an allocation is the error `Crash.ub`.

The functions that do not touch bitsets (`filterAlive`, `trancheIdx`, `newIndex`, `sortPhases`, ...) are those of
Model/Matcher.lean and Model/Query.lean.
-/
namespace Noodle.Blk
set_option autoImplicit false
open Noodle.Bits (Bits Bits3 Block blockSize)

/-- An unchecked access: undefined behaviour when it is out of range. -/
def ub {α : Type} : Option α → Except Crash α
  | some a => .ok a
  | none => .error .ub

/-- bitset.rs:287-293 `ones()`, collected; `self.blocks[0]` panics on an empty slice. -/
def ones (s : Bits) : Except Crash (List Nat) :=
  match Bits.ones s with
  | some l => .ok l
  | none => .error .index

/-- expression.rs:11-17 `struct State`. -/
structure State where
  eps : Bits
  cls : CharSet
  next : Nat
  deriving DecidableEq

/-- expression.rs:40-48 `struct Expression`. -/
structure Expr where
  states : List State
  ignWB : Bool
  ignPunct : Bool
  fuzz : Nat
  deriving DecidableEq

/-- expression.rs:438-441 `epsilon_states`. -/
def Expr.eps (e : Expr) (i : Nat) : Except Crash Bits :=
  match e.states[i]? with
  | some s => .ok s.eps
  | none => .error .index

/-- expression.rs:566-589 `char_transitions`. -/
def charTransitions (e : Expr) (cb : CharSet) (start : Bits) : Except Crash Bits :=
  if Bits.isEmpty start then .ok (Bits.new e.states.length)
  else e.states.zipIdx.foldlM (fun acc p => do
    let inside ← ub (Bits.contains start p.2)
    if inside && cb.intersects p.1.cls then
      let to ← e.eps p.1.next
      ub (Bits.union acc to)
    else .ok acc) (Bits.new e.states.length)

/-- expression.rs:483-484. -/
def Expr.ignores (e : Expr) (c : Ch) : Bool :=
  (e.ignWB && c == Ch.wordEnd) || (e.ignPunct && c == Ch.punct)

/-- expression.rs:499-513: one round of the first loop over `fuzz_index`; the flag is `all_fuzz_are_empty`. -/
def baseStep (e : Expr) (c : Ch) (lower : Bits3) (s : Nat) (st : Bits3 × Bool) (f : Nat) :
    Except Crash (Bits3 × Bool) := do
  let cur ← ub (lower.row s f)
  if Bits.isEmpty cur then
    let up ← ub (st.1.modifyRow s f fun r => some (Bits.clear r))
    .ok (up, st.2)
  else
    let to ← charTransitions e (CharSet.ofCh c) cur
    let up ← ub (st.1.modifyRow s f fun r => Bits.copyFrom r to)
    .ok (up, false)

/-- expression.rs:525-552: one round of the second loop over `fuzz_index`; with `fuzz_superset`. -/
def fuzzStep (e : Expr) (c : Ch) (lower : Bits3) (s : Nat) (st : Bits3 × Bits) (f : Nat) :
    Except Crash (Bits3 × Bits) := do
  let cur ← ub (lower.row s f)
  if Bits.isEmpty cur then .ok st
  else
    let u1 ← ub (st.1.modifyRow s (f + 1) fun r => Bits.union r cur)
    let change ← charTransitions e CharSet.letters cur
    let u2 ← ub (u1.modifyRow s (f + 1) fun r => Bits.union r change)
    let ins ← charTransitions e (CharSet.ofCh c) change
    let u3 ← ub (u2.modifyRow s (f + 1) fun r => Bits.union r ins)
    let u4 ← ub (u3.modifyRow s (f + 1) fun r => Bits.difference r st.2)
    let row ← ub (u4.row s (f + 1))
    let sup ← ub (Bits.union st.2 row)
    .ok (u4, sup)

/-- expression.rs:495-554: the body of the loop over `state_index`; the flag is `all_states_are_empty`. -/
def stateStep (e : Expr) (c : Ch) (lower : Bits3) (st : Bits3 × Bool) (s : Nat) : Except Crash (Bits3 × Bool) := do
  let b ← (List.range (e.fuzz + 1)).foldlM (baseStep e c lower s) (st.1, true)
  if b.2 then .ok (b.1, st.2)
  else
    let u ← (List.range e.fuzz).foldlM (fuzzStep e c lower s) (b.1, Bits.new e.states.length)
    .ok (u.1, false)

/-- expression.rs:462-560 `fill_transition_table`, with `cur = transition_table[char_index]` and
`rest = transition_table[char_index+1..]`: the number of symbols consumed and the new `rest`. -/
def fillTable (e : Expr) (single : Bool) : List Ch → Bits3 → List Bits3 → Except Crash (Nat × List Bits3)
  | [], _, rest => .ok (0, rest)
  | _ :: _, _, [] => .error .index
  | c :: cs, cur, up :: rest =>
    if e.ignores c then do
      let bl ← ub (Bits.copyFrom up.blocks cur.blocks)
      let r ← fillTable e single cs { up with blocks := bl } rest
      .ok (r.1 + 1, { up with blocks := bl } :: r.2)
    else do
      let u ← (List.range (if single then 1 else e.states.length)).foldlM (stateStep e c cur) (up, true)
      if u.2 then .ok (0, u.1 :: rest)
      else
        let r ← fillTable e single cs u.1 rest
        .ok (r.1 + 1, u.1 :: r.2)

/-- matcher.rs:73-94 `struct PhraseMatcher`. -/
structure PM where
  expr : Expr
  fuzzLimit : Nat
  statesLen : Nat
  start : Bits
  classes : List (Bits3 × WordClass)
  wordClasses : List Nat
  deriving DecidableEq

/-- matcher.rs:18-58 `struct WordMatcher`. -/
structure WM where
  alive : List Word
  pm : PM
  tables : List Bits3
  tableChars : List Ch
  wordIndex : Nat
  deriving DecidableEq

/-- matcher.rs:624-642 `PhraseMatcher::new`. -/
def PM.new (e : Expr) : Except Crash PM := do
  let start ← e.eps 0
  .ok { expr := e
        statesLen := e.states.length
        fuzzLimit := e.fuzz + 1
        start := start
        classes := [(Bits.new3 e.states.length (e.fuzz + 1) e.states.length, {})]
        wordClasses := [] }

/-- matcher.rs:128-144 `WordMatcher::new`. -/
def WM.new (e : Expr) (maxWordLen : Nat) : Except Crash WM := do
  let pm ← PM.new e
  .ok { pm := pm
        wordIndex := 0
        alive := []
        tables := List.replicate maxWordLen (Bits.new3 pm.statesLen pm.fuzzLimit pm.statesLen)
        tableChars := [] }

/-- `IndexMap::entry(t)`: its index, and the map with the entry present. Keys are compared block by block. -/
def entryIdx (cl : List (Bits3 × WordClass)) (t : Bits3) : Nat × List (Bits3 × WordClass) :=
  match cl.findIdx? (fun p => decide (p.1 = t)) with
  | some i => (i, cl)
  | none => (cl.length, cl ++ [(t, {})])

/-- matcher.rs:753-768 `insert_word_table`. -/
def PM.insertWord (pm : PM) (w : Word) (t : Bits3) : PM :=
  let (i, cl) := entryIdx pm.classes t
  { pm with
    wordClasses := pm.wordClasses ++ [i]
    classes := cl.modify i fun p => (p.1, p.2.add w) }

/-- matcher.rs:230-237: clear the first table and write the closure of each source into it. -/
def initTbl (e : Expr) (statesLen : Nat) (t : Bits3) : Except Crash Bits3 :=
  (List.range statesLen).foldlM (fun t src => do
    let s ← e.eps src
    ub (t.modifyRow src 0 fun r => Bits.union r s)) { t with blocks := Bits.clear t.blocks }

/-- matcher.rs:261-270: does the word's table reach the success state from state 0? -/
def tblMatches (pm : PM) (t : Bits3) : Except Crash Bool :=
  (List.range pm.fuzzLimit).anyM fun f => do
    let r ← ub (t.row 0 f)
    ub (Bits.contains r (pm.statesLen - 1))

/-- matcher.rs:226-238: the tables, with the first one initialised when there is no common prefix. -/
def initTables (e : Expr) (statesLen prefixLen : Nat) (ts : List Bits3) : Except Crash (List Bits3) :=
  if prefixLen = 0 then
    match ts with
    | [] => .ok []
    | t :: ts => do
      let t' ← initTbl e statesLen t
      .ok (t' :: ts)
  else .ok ts

/-- matcher.rs:209-270: process one word: new matcher, and whether the word matches on its own. -/
def WM.word (m : WM) (single : Bool) (w : Word) : Except Crash (WM × Bool) := do
  let e := m.pm.expr
  let wordLen := w.chars.length
  let prefixLen := commonPrefix w.chars m.tableChars
  let tables ← initTables e m.pm.statesLen prefixLen m.tables
  match tables[prefixLen]? with
  | none => .error .index
  | some cur =>
    let r ← fillTable e single (w.chars.drop prefixLen) cur (tables.drop (prefixLen + 1))
    let partialLen := prefixLen + r.1
    let m' := { m with
      wordIndex := m.wordIndex + 1
      tables := tables.take (prefixLen + 1) ++ r.2
      tableChars := w.chars.take partialLen }
    if partialLen < wordLen then .ok (m', false)
    else match m'.tables[wordLen]? with
      | none => .error .index
      | some t =>
        let b ← tblMatches m.pm t
        .ok ({ m' with alive := m'.alive ++ [w], pm := m'.pm.insertWord w t }, b)

/-- matcher.rs:198-273: the `while` loop of `next_single_word`. -/
def WM.loop (m : WM) (single : Bool) (clk : Clock) (cnt : Nat) :
    List Word → Except Crash (WM × Option Word × Clock)
  | [] => .ok (m, none, clk)
  | w :: ws =>
    let rd := if cnt % 256 = 0 then clk.read else (false, clk)
    if rd.1 then .ok (m, none, rd.2)
    else match m.word single w with
      | .error x => .error x
      | .ok (m', true) => .ok (m', some w, rd.2)
      | .ok (m', false) => WM.loop m' single rd.2 (cnt + 1) ws

/-- matcher.rs:187-274 `next_single_word`. -/
def WM.next (m : WM) (wordlist : List Word) (single : Bool) (clk : Clock) :
    Except Crash (WM × Option Word × Clock) :=
  m.loop single clk 0 (wordlist.drop m.wordIndex)

/-- matcher.rs:146-158, 620-627: `WordMatcher::iter(wordlist, single, None).last()`. -/
def WM.iterLast (m : WM) (wordlist : List Word) (single : Bool) : Nat → Option Word → Except Crash (WM × Option Word)
  | 0, _ => .error .fuel
  | n + 1, last =>
    match m.next wordlist single none with
    | .error x => .error x
    | .ok (m', none, _) => .ok (m', last)
    | .ok (m', some w, _) => WM.iterLast m' wordlist single n (some w)

/-- `matcher.iter(wordlist, single, None).last()`. -/
def WM.drain (m : WM) (wordlist : List Word) (single : Bool) : Except Crash (WM × Option Word) :=
  m.iterLast wordlist single (wordlist.length - m.wordIndex + 1) none

/-! ### Phrase matching -/

/-- A 2-D bitset, or a 2-D slice of a 3-D one: `size` is the number of blocks of a row. -/
structure Bits2 where
  blocks : List Block
  bs : Nat
  deriving DecidableEq

/-- bitset.rs:125-134 with `Idx = usize`: `BitSet2D::new(d, inner)`. -/
def new2 (d inner : Nat) : Bits2 := { blocks := List.replicate (d * blockSize inner) 0#32, bs := blockSize inner }

/-- bitset.rs:64-66, 132-136: `slice(j)`. -/
def Bits2.row (t : Bits2) (j : Nat) : Option Bits := Bits.row2 t.blocks t.bs j

/-- bitset.rs:142-146: `slice_mut(j)` followed by an in-place update of the slice. -/
def Bits2.modifyRow (t : Bits2) (j : Nat) (f : Bits → Option Bits) : Option Bits2 :=
  (t.row j).bind fun r => (f r).map fun r' => { t with blocks := Bits.put t.blocks (t.bs * j) r' }

/-- bitset.rs:208-215 `slice2d(i)`. -/
def slab (t : Bits3) (i : Nat) : Option Bits2 := (t.slice2d i).map fun b => ⟨b, t.bs⟩

/-- bitset.rs:216-223 `slice2d_mut(i)`, followed by an in-place update of the slice. -/
def modifySlab (t : Bits3) (i : Nat) (f : Bits2 → Except Crash Bits2) : Except Crash Bits3 := do
  let s ← ub (slab t i)
  let s' ← f s
  .ok { t with blocks := Bits.put t.blocks (t.d2 * t.bs * i) s'.blocks }

/-- matcher.rs:664-671 `has_success_state`. -/
def PM.hasSuccess (pm : PM) (t : Bits2) : Except Crash Bool :=
  (List.range pm.fuzzLimit).anyM fun f => do
    let r ← ub (t.row f)
    ub (Bits.contains r (pm.statesLen - 1))

/-- matcher.rs:673-690 `step`. -/
def stepInto (fl : Nat) (t : Bits3) (prev next : Bits2) : Except Crash Bits2 :=
  (List.range fl).foldlM (fun next f => do
    let r ← ub (prev.row f)
    let l ← ones r
    l.foldlM (fun next dst =>
      (List.range (fl - f)).foldlM (fun next df => do
        let s ← ub (t.row dst df)
        ub (next.modifyRow (f + df) fun r => Bits.union r s)) next) next) next

/-- matcher.rs:644-662 `step_by_word_index`. -/
def PM.stepByWordIndex (pm : PM) (wi : Nat) (prev next : Bits2) : Except Crash Bits2 :=
  match pm.wordClasses[wi]? with
  | none => .error .index
  | some ci =>
    if ci = 0 then .error .assert
    else match pm.classes[ci]? with
      | none => .error .index
      | some (t, _) => stepInto pm.fuzzLimit t prev next

/-- matcher.rs:728-738: one word more, for every tranche. -/
def filterStep (pm : PM) (tranches : List Nat) (cur : Bits3) : Except Crash Bits3 :=
  pm.classes.foldlM (fun next tc =>
    match trancheIdx tranches tc.2.minTranche with
    | none => .error .index
    | some st => (List.range' st (tranches.length - st)).foldlM (fun next t => do
        let prev ← ub (slab cur t)
        modifySlab next t (stepInto pm.fuzzLimit tc.1 prev)) next)
    (Bits.new3 tranches.length pm.fuzzLimit pm.statesLen)

/-- matcher.rs:727-750: the loop `for w in 1..=max_depth`; `k` rounds left, the current one is `w`. -/
def filterLoop (pm : PM) (tranches : List Nat) : Nat → Nat → Bits3 → List SearchPhase →
    Except Crash (List SearchPhase)
  | 0, _, _, q => .ok q
  | k + 1, w, cur, q => do
    let next ← filterStep pm tranches cur
    let q' ← tranches.zipIdx.foldlM (fun q p => do
      let s ← ub (slab next p.2)
      let b ← pm.hasSuccess s
      .ok (if b then q else q.filter fun ph => ph.depth != w || ph.tranche != p.1)) q
    filterLoop pm tranches k (w + 1) next q'

/-- matcher.rs:692-751 `filter_search_phases`. -/
def PM.filterPhases (pm : PM) (q : List SearchPhase) : Except Crash (List SearchPhase) :=
  if q = [] then .ok q
  else do
    let tr := tranchesOf q
    let init ← (List.range tr.length).foldlM (fun t i =>
      ub (Bits3.modifyRow t i 0 fun r => Bits.union r pm.start)) (Bits.new3 tr.length pm.fuzzLimit pm.statesLen)
    filterLoop pm tr (maxDepth q) 1 init q

/-! ### `optimize_for_wordlist` -/

/-- matcher.rs:294-321, 312-318: reset the per-class counters, then count the kept words. -/
def recount (cl : List (Bits3 × WordClass)) (kept : List (Word × Nat)) : List (Bits3 × WordClass) :=
  kept.foldl (fun cl p => cl.modify p.2 fun q => (q.1, q.2.add p.1)) (cl.map fun q => (q.1, {}))

/-- The tables of the classes with at least one word. -/
def PM.live (pm : PM) : List Bits3 := (pm.classes.filter fun p => p.2.count != 0).map Prod.fst

/-- matcher.rs:353-363, 397-408: one more word, from any live class. -/
def stepAll (fl : Nat) (live : List Bits3) (cur : Bits2) : Except Crash Bits2 :=
  live.foldlM (fun next t => stepInto fl t cur next) cur

/-- matcher.rs:352-369: at most `k` rounds, stopping when saturated. -/
def saturate (fl : Nat) (live : List Bits3) : Nat → Bits2 → Except Crash Bits2
  | 0, cur => .ok cur
  | k + 1, cur => do
    let next ← stepAll fl live cur
    if next = cur then .ok cur else saturate fl live k next

/-- matcher.rs:343-379 `reachable_srcs`. -/
def reachable (fl n : Nat) (start : Bits) (live : List Bits3) (depth : Nat) : Except Crash Bits := do
  let init ← ub ((new2 fl n).modifyRow 0 fun r => Bits.union r start)
  let r ← saturate fl live depth init
  (List.range fl).foldlM (fun a f => do
    let row ← ub (r.row f)
    ub (Bits.union a row)) (Bits.new n)

/-- matcher.rs:390-418: the loop for one `src`; `cand` is `candidate_srcs`. -/
def candidateLoop (fl n : Nat) (live : List Bits3) (src : Nat) : Nat → Bits2 → Bits → Except Crash Bits
  | 0, _, cand => .ok cand
  | k + 1, cur, cand => do
    let hit ← (List.range fl).anyM fun f => do
      let r ← ub (cur.row f)
      ub (Bits.contains r (n - 1))
    let cand' ← if hit then ub (Bits.insert cand src) else .ok cand
    let next ← stepAll fl live cur
    if next = cur then .ok cand' else candidateLoop fl n live src k next cand'

/-- matcher.rs:383-421 `candidate_srcs`. -/
def candidates (fl n : Nat) (live : List Bits3) (depth : Nat) : Except Crash Bits :=
  (List.range n).foldlM (fun cand src => do
    let init ← ub ((new2 fl n).modifyRow 0 fun r => Bits.insert r src)
    candidateLoop fl n live src (depth + 1) init cand) (Bits.new n)

/-- matcher.rs:427-432 `alive_states`. -/
def aliveStates (fl n : Nat) (start : Bits) (live : List Bits3) (depth : Nat) : Except Crash Bits := do
  let r ← reachable fl n start live depth
  let c ← candidates fl n live depth
  ub (Bits.intersect r c)

/-- matcher.rs:473-497: the comparison of two states; `ones` is recomputed as in the code. -/
def sameState (fl : Nat) (live : List Bits3) (alive : Bits) (i j : Nat) : Except Crash Bool :=
  (List.range fl).allM fun f => live.allM fun t => do
    let dsts ← ones alive
    let outs ← dsts.allM fun dst => do
      let a ← ub (t.row i f)
      let b ← ub (t.row j f)
      let x ← ub (Bits.contains a dst)
      let y ← ub (Bits.contains b dst)
      .ok (x == y)
    if outs then
      let srcs ← ones alive
      srcs.allM fun src => do
        let a ← ub (t.row src f)
        let x ← ub (Bits.contains a i)
        let y ← ub (Bits.contains a j)
        .ok (x == y)
    else .ok false

/-- matcher.rs:447-509 `redundant_states`. -/
def redundantStates (fl n : Nat) (live : List Bits3) (alive : Bits) : Except Crash (List (Option Nat)) := do
  let init ← (List.range n).mapM fun src => do
    let b ← ub (Bits.contains alive src)
    .ok (if b then none else some src)
  (List.range n).foldlM (fun red i =>
      if (red.getD i none).isSome then .ok red
      else (List.range' (i + 1) (n - 1 - (i + 1))).foldlM (fun red j =>
        if (red.getD j none).isSome then .ok red
        else do
          let same ← sameState fl live alive i j
          .ok (if same then red.set j (some i) else red)) red) init

/-- matcher.rs:563-567, 546-560: insert the new numbers of the states of `s` by `put`. -/
def remapInto {α : Type} (red : List (Option Nat)) (s : Bits) (put : α → Nat → Except Crash α) (a : α) :
    Except Crash α := do
  let l ← ones s
  l.foldlM (fun a d =>
    match newIndex red d with
    | some d' => put a d'
    | none => .ok a) a

/-- matcher.rs:550-569: the renumbered table. -/
def remapTbl (red : List (Option Nat)) (fl n newLen : Nat) (t : Bits3) : Except Crash Bits3 :=
  (List.range n).foldlM (fun acc src =>
    match newSource red src with
    | none => .ok acc
    | some s' => (List.range fl).foldlM (fun acc f => do
        let old ← ub (t.row src f)
        remapInto red old (fun acc d' => ub (Bits3.modifyRow acc s' f fun r => Bits.insert r d')) acc) acc)
    (Bits.new3 newLen fl newLen)

/-- matcher.rs:540-573: renumber every live class; returns `class_map` and the new classes. -/
def remapClasses (red : List (Option Nat)) (fl n newLen : Nat) :
    List (Bits3 × WordClass) → List (Bits3 × WordClass) → Except Crash (List Nat × List (Bits3 × WordClass))
  | [], nc => .ok ([], nc)
  | (t, wc) :: cl, nc =>
    if wc.count = 0 then do
      let r ← remapClasses red fl n newLen cl nc
      .ok (0 :: r.1, r.2)
    else do
      let t' ← remapTbl red fl n newLen t
      let e := entryIdx nc t'
      let r ← remapClasses red fl n newLen cl e.2
      .ok (e.1 :: r.1, r.2)

/-- matcher.rs:579-596: redistribute the words over the new classes, dropping class 0. -/
def reassign (cmap : List Nat) : List (Word × Nat) → List (Bits3 × WordClass) →
    List (Word × Nat) × List (Bits3 × WordClass)
  | [], nc => ([], nc)
  | (w, ci) :: l, nc =>
    let ci' := cmap.getD ci 0
    if ci' ≠ 0 then
      let r := reassign cmap l (nc.modify ci' fun q => (q.1, q.2.add w))
      ((w, ci') :: r.1, r.2)
    else reassign cmap l nc

/-- matcher.rs:511-604: remove the redundant states. -/
def WM.shrink (m : WM) (red : List (Option Nat)) : Except Crash (WM × Bool) :=
  let pm := m.pm
  let n := pm.statesLen
  let fl := pm.fuzzLimit
  if red[n - 1]? ≠ some none then .error .assert
  else if !repsOk red n then .error .index
  else
    let newLen := red.countP Option.isNone
    if newLen = n then .ok (m, false)
    else if pm.wordClasses.length ≠ m.alive.length then .error .assert
    else do
      let start ← remapInto red pm.start (fun s d => ub (Bits.insert s d)) (Bits.new newLen)
      let rc ← remapClasses red fl n newLen pm.classes [(Bits.new3 newLen fl newLen, {})]
      let ra := reassign rc.1 (m.alive.zip pm.wordClasses) rc.2
      .ok ({ m with
        alive := ra.1.map Prod.fst
        pm := { pm with
          classes := ra.2
          wordClasses := ra.1.map Prod.snd
          statesLen := newLen
          start := start } }, true)

/-- matcher.rs:329-604: the state reduction, after the word filtering. -/
def WM.reduce (m : WM) (queue : List SearchPhase) : Except Crash (WM × Bool) :=
  if queue = [] then .error .assert
  else do
    let alive ← aliveStates m.pm.fuzzLimit m.pm.statesLen m.pm.start m.pm.live (maxDepth queue)
    let b ← ub (Bits.contains alive (m.pm.statesLen - 1))
    if !b then .ok ({ m with alive := [] }, true)
    else
      let red ← redundantStates m.pm.fuzzLimit m.pm.statesLen m.pm.live alive
      m.shrink red

/-- matcher.rs:276-605 `optimize_for_wordlist`. -/
def WM.optimize (m : WM) (newList : List Word) (queue : List SearchPhase) : Except Crash (WM × Bool) :=
  if m.alive.length < newList.length then .error .assert
  else if m.alive = [] then
    if newList = [] then .ok (m, false) else .error .assert
  else
    let r := filterAlive (m.alive.zip m.pm.wordClasses) newList
    if r.2 ≠ [] then .error .assert
    else if (r.1.all fun p => decide (p.2 < m.pm.classes.length)) = false then .error .index
    else
      WM.reduce { m with
        alive := r.1.map Prod.fst
        pm := { m.pm with
          classes := recount m.pm.classes r.1
          wordClasses := r.1.map Prod.snd } } queue

/-! ### The evaluator -/

/-- query.rs:73-86 `struct SearchLayer`. -/
structure Layer where
  wordIndex : Nat
  maxTranche : Nat
  table : Bits3
  deriving DecidableEq

/-- query.rs:37-59: the fields of `QueryPhase::Phrase`. -/
structure PS where
  ms : List PM
  wl : List Word
  queue : List SearchPhase
  layers : List Layer
  li : Nat
  part : Bool
  deriving DecidableEq

/-- query.rs:29-62 `enum QueryPhase`. -/
inductive Phase
  | word (ms : List WM) (wl : List Word)
  | phrase (ps : PS)
  | done
  deriving DecidableEq

/-- query.rs:10-23 `struct QueryEvaluator`. -/
structure QState where
  phase : Phase
  depthLimit : Nat
  resultsLimit : Option Nat
  resultsCount : Nat
  deriving DecidableEq

/-- query.rs:103-132 `QueryEvaluator::new`. -/
def QState.new (es : List Expr) (wl : List Word) (depth : Nat) (limit : Option Nat) : Except Crash QState :=
  if es = [] then .error .assert
  else do
    let ms ← es.mapM fun e => WM.new e (maxWordLen wl)
    .ok { phase := .word ms wl
          depthLimit := depth
          resultsLimit := limit
          resultsCount := 0 }

/-- query.rs:242-248. -/
def feed (single : Bool) (w : Word) : List WM → List Word → Except Crash (List WM × Bool)
  | [], _ => .ok ([], true)
  | m :: ms, wl =>
    match m.drain wl single with
    | .error x => .error x
    | .ok (m', last) =>
      match feed single w ms m'.alive with
      | .error x => .error x
      | .ok (ms', b) => .ok (m' :: ms', decide (last = some w) && b)

/-- query.rs:237-258: the loop over the matches of the first matcher. -/
def wordLoop (wl : List Word) (single : Bool) : Nat → WM → List WM → Clock →
    Except Crash (WM × List WM × Option Word × Clock)
  | 0, _, _, _ => .error .fuel
  | n + 1, m, ms, clk =>
    match m.next wl single clk with
    | .error x => .error x
    | .ok (m', none, clk') => .ok (m', ms, none, clk')
    | .ok (m', some w, clk') =>
      match feed single w ms m'.alive with
      | .error x => .error x
      | .ok (ms', true) => .ok (m', ms', some w, clk')
      | .ok (ms', false) => wordLoop wl single n m' ms' clk'

/-- query.rs:272-281. -/
def drainAll : List WM → List Word → Except Crash (List WM)
  | [], _ => .ok []
  | m :: ms, wl =>
    match m.drain wl false with
    | .error x => .error x
    | .ok (m', _) =>
      match drainAll ms m'.alive with
      | .error x => .error x
      | .ok ms' => .ok (m' :: ms')

/-- query.rs:322-324. -/
def filterAll (pms : List PM) (q : List SearchPhase) : Except Crash (List SearchPhase) :=
  pms.foldl (fun acc pm => match acc with | .error x => .error x | .ok q => pm.filterPhases q) (.ok q)

/-- query.rs:320-336. -/
def filterFix (pms : List PM) : Nat → List SearchPhase → Bool → Except Crash (List SearchPhase × Bool)
  | 0, _, _ => .error .fuel
  | n + 1, q, ch =>
    match filterAll pms q with
    | .error x => .error x
    | .ok q' =>
      if q' = [] then .ok (q', ch)
      else if q.length ≠ q'.length then filterFix pms n q' true
      else .ok (q', ch)

/-- query.rs:338-357. -/
def optimizePass (queue : List SearchPhase) : List WM → List Word → Except Crash (List WM × List Word × Bool)
  | [], alive => .ok ([], alive, true)
  | m :: ms, alive =>
    match m.optimize alive queue with
    | .error x => .error x
    | .ok (m', did) =>
      if m'.alive.length ≠ alive.length then
        if ¬ m'.alive.length < alive.length then .error .assert
        else if m'.alive = [] then .ok (m' :: ms, [], false)
        else
          match optimizePass queue ms m'.alive with
          | .error x => .error x
          | .ok (ms', alive', _) => .ok (m' :: ms', alive', false)
      else
        match optimizePass queue ms alive with
        | .error x => .error x
        | .ok (ms', alive', conv) => .ok (m' :: ms', alive', !did && conv)

/-- Outcome of the optimisation loop. -/
structure OptOut where
  ms : List WM
  alive : List Word
  queue : List SearchPhase
  gaveUp : Bool

/-- query.rs:315-368: the optimisation loop. -/
def optimizeLoop : Nat → List WM → List Word → List SearchPhase → Except Crash (Option OptOut)
  | 0, _, _, _ => .error .fuel
  | k + 1, ms, alive, queue =>
    match filterFix (ms.map WM.pm) (queue.length + 1) queue false with
    | .error x => .error x
    | .ok (q', ch) =>
      if q' = [] then .ok none
      else
        match optimizePass q' ms.reverse alive with
        | .error x => .error x
        | .ok (rms, alive', conv) =>
          if conv && !ch then .ok (some ⟨rms.reverse, alive', q', false⟩)
          else if k = 0 then .ok (some ⟨rms.reverse, alive', q', true⟩)
          else optimizeLoop k rms.reverse alive' q'

/-- query.rs:466-475: the table of the first layer. -/
def startTable (pms : List PM) (t : Bits3) : Except Crash Bits3 :=
  pms.zipIdx.foldlM (fun t p => do
    let t1 ← modifySlab t p.2 fun s => .ok { s with blocks := Bits.clear s.blocks }
    ub (t1.modifyRow p.2 0 fun r => Bits.union r p.1.start)) t

/-- query.rs:380-489: from the optimised matchers to the phrase phase. -/
def mkPhrase (o : OptOut) : Except Crash (Option PS) :=
  match o.alive with
  | [] => .ok none
  | w0 :: _ =>
    if o.queue = [] then .ok none
    else
      let tmax := o.queue.foldr (fun p m => max p.tranche m) 0
      if o.alive.any (fun w => decide (tmax < w.tranche)) then .error .index
      else
        let q1 := o.queue.map fun p => { p with totalSize := totalSize o.alive p }
        if q1.any (fun p => p.totalSize == 0 && trancheCount o.alive p.tranche != 0) then .error .assert
        else
          let q3 := sortPhases (q1.filter fun p => p.totalSize != 0)
          if q3 = [] then .ok none
          else
            let pms := o.ms.map WM.pm
            let fuzzMax := pms.foldr (fun pm m => max pm.fuzzLimit m) 0
            let statesMax := pms.foldr (fun pm m => max pm.statesLen m) 0
            let l0 : Layer := { wordIndex := 0, maxTranche := w0.tranche,
                                table := Bits.new3 pms.length fuzzMax statesMax }
            match startTable pms l0.table with
            | .error x => .error x
            | .ok t =>
              .ok (some
                { ms := pms
                  wl := o.alive
                  queue := q3
                  layers := { l0 with table := t } :: List.replicate (maxDepth q3) l0
                  li := 0
                  part := false })

/-- query.rs:272-489: after the single-word phase; with the flag of the message "gave up ...". -/
def plan (ms : List WM) (depth : Nat) : Except Crash (Option PS × Bool) :=
  match ms.getLast? with
  | none => .error .index
  | some m =>
    let alive := m.alive
    let tr := dedup (alive.map Word.tranche)
    if dedup (sortNat tr) ≠ tr then .error .assert
    else
      match optimizeLoop 101 ms alive (initialQueue depth tr) with
      | .error x => .error x
      | .ok none => .ok (none, false)
      | .ok (some o) =>
        match mkPhrase o with
        | .error x => .error x
        | .ok p => .ok (p, o.gaveUp)

/-- query.rs:513-539: advance the table of every matcher, from matcher `m` on, by one word. -/
def stepMatchers (wi : Nat) : List PM → Nat → Bits3 → Bits3 → Except Crash (Bits3 × Bool × Bool)
  | [], _, _, next => .ok (next, true, true)
  | pm :: ms, m, prev, next => do
    let p ← ub (slab prev m)
    let next' ← modifySlab next m fun s => pm.stepByWordIndex wi p { s with blocks := Bits.clear s.blocks }
    let r ← ub (slab next' m)
    if r.blocks.all (· == 0#32) then .ok (next', false, false)
    else
      let hit ← pm.hasSuccess r
      let q ← stepMatchers wi ms (m + 1) prev next'
      .ok (q.1, hit && q.2.1, q.2.2)

/-- Result of moving on in the search. -/
inductive Moved
  | next (ps : PS)
  | finished

/-- query.rs:586-611: the end of a search phase. -/
def endPhase (ps : PS) : Moved :=
  match ps.queue with
  | [] => .finished
  | ph :: q =>
    let q' := if ps.part then q
      else q.filter fun p => decide (ph.tranche < p.tranche) || decide (p.depth < ph.depth)
    if q' = [] then .finished
    else .next { ps with
      queue := q'
      part := false
      li := 0
      layers := ps.layers.modify 0 fun l => { l with
        wordIndex := 0, maxTranche := (ps.wl.head?.map Word.tranche).getD 0 } }

/-- query.rs:575-623: try the next word at this layer, ascending as long as layers are exhausted. -/
def advance (ps : PS) (tranche : Nat) : Nat → Moved
  | 0 =>
    let ls := ps.layers.modify 0 fun l => { l with wordIndex := l.wordIndex + 1 }
    let wi := (ls[0]?.map Layer.wordIndex).getD 0
    match ps.wl[wi]? with
    | some w =>
      if tranche < w.tranche then endPhase { ps with layers := ls, li := 0 }
      else .next { ps with
        li := 0
        layers := ls.modify 0 fun l => { l with maxTranche := max l.maxTranche w.tranche } }
    | none => endPhase { ps with layers := ls, li := 0 }
  | li + 1 =>
    let ls := ps.layers.modify (li + 1) fun l => { l with wordIndex := l.wordIndex + 1 }
    let wi := (ls[li + 1]?.map Layer.wordIndex).getD 0
    match ps.wl[wi]? with
    | some w =>
      if tranche < w.tranche then advance { ps with layers := ls } tranche li
      else .next { ps with
        li := li + 1
        layers := ls.modify (li + 1) fun l => { l with maxTranche := max l.maxTranche w.tranche } }
    | none => advance { ps with layers := ls } tranche li

/-- query.rs:505-628: one iteration of the search loop. -/
def PS.iter (ps : PS) : Except Crash (Moved × Option (List Word)) :=
  match ps.queue, ps.layers[ps.li]?, ps.layers[ps.li + 1]? with
  | ph :: _, some prev, some next =>
    match stepMatchers prev.wordIndex ps.ms 0 prev.table next.table with
    | .error x => .error x
    | .ok (tb, exact, part) =>
      let ls := ps.layers.modify (ps.li + 1) fun l => { l with table := tb }
      let full := ps.li + 1 == ph.depth
      let ps1 := { ps with layers := ls, part := ps.part || ((part || exact) && full) }
      let res : Except Crash (Option (List Word)) :=
        if exact && full && prev.maxTranche == ph.tranche then
          match (ls.take (ps.li + 1)).mapM fun l => ps.wl[l.wordIndex]? with
          | some ws => .ok (some ws)
          | none => .error .index
        else .ok none
      match res with
      | .error x => .error x
      | .ok res =>
        if (part || exact) && decide (ps.li + 1 < ph.depth) then
          .ok (.next { ps1 with
            li := ps.li + 1
            layers := ls.modify (ps.li + 1) fun l => { l with
              wordIndex := 0, maxTranche := prev.maxTranche } }, res)
        else .ok (advance ps1 ph.tranche ps.li, res)
  | _, _, _ => .error .index

/-- Fuel for the search loop: all nodes of all phases. -/
def PS.fuel (ps : PS) : Nat := (ps.queue.map fun p => nodes ps.wl.length p.depth).sum + 1

/-- Outcome of the search loop. -/
inductive Looped
  | found (ps : PS) (ws : List Word)
  | timeout (ps : PS)
  | finished (extra : Nat)

/-- query.rs:502-638: the search loop. -/
def PS.loop : Nat → PS → Clock → Nat → Except Crash (Looped × Clock)
  | 0, _, _, _ => .error .fuel
  | n + 1, ps, clk, cnt =>
    match ps.iter with
    | .error x => .error x
    | .ok (.finished, r) => .ok (.finished (if r.isSome then 1 else 0), clk)
    | .ok (.next ps', some ws) => .ok (.found ps' ws, clk)
    | .ok (.next ps', none) =>
      let rd := if (cnt + 1) % 256 = 0 then clk.read else (false, clk)
      if rd.1 then .ok (.timeout ps', rd.2) else PS.loop n ps' rd.2 (cnt + 1)

/-- query.rs:217-644 `next_within_deadline`. -/
def QState.next (q : QState) (clk : Clock) : Except Crash (QState × Resp) :=
  match q.phase with
  | .done => .ok (q, .complete)
  | .word ms wl =>
    if q.resultsLimit.any (fun l => decide (l ≤ q.resultsCount)) then
      .ok ({ q with phase := .done }, .complete)
    else match ms with
      | [] => .error .index
      | m :: ms =>
        let single := decide (q.depthLimit ≤ 1)
        match wordLoop wl single (wl.length - m.wordIndex + 1) m ms clk with
        | .error x => .error x
        | .ok (m', ms', some w, _) =>
          .ok ({ q with phase := .word (m' :: ms') wl, resultsCount := q.resultsCount + 1 }, .matched [w])
        | .ok (m', ms', none, clk') =>
          if clk'.read.1 then .ok ({ q with phase := .word (m' :: ms') wl }, .timeout)
          else if single then .ok ({ q with phase := .done }, .complete)
          else
            match drainAll ms' m'.alive with
            | .error x => .error x
            | .ok ms'' =>
              match plan (m' :: ms'') q.depthLimit with
              | .error x => .error x
              | .ok (none, _) => .ok ({ q with phase := .done }, .complete)
              | .ok (some ps, g) => .ok ({ q with phase := .phrase ps }, .logs g)
  | .phrase ps =>
    if q.resultsLimit.any (fun l => decide (l ≤ q.resultsCount)) then
      .ok ({ q with phase := .done }, .complete)
    else if ps.wl = [] then .error .assert
    else
      match ps.loop ps.fuel clk 0 with
      | .error x => .error x
      | .ok (.finished k, _) => .ok ({ q with phase := .done, resultsCount := q.resultsCount + k }, .complete)
      | .ok (.timeout ps', _) => .ok ({ q with phase := .phrase ps' }, .timeout)
      | .ok (.found ps' ws, _) =>
        .ok ({ q with phase := .phrase ps', resultsCount := q.resultsCount + 1 }, .matched ws)

/-- A history of calls, each with its own deadline. -/
def QState.run (q : QState) : List Clock → Except Crash (QState × List Resp)
  | [] => .ok (q, [])
  | c :: cs =>
    match q.next c with
    | .error x => .error x
    | .ok (q', r) =>
      match q'.run cs with
      | .error x => .error x
      | .ok (q'', rs) => .ok (q'', r :: rs)

end Noodle.Blk
