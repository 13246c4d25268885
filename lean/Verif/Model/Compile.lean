import Verif.Model.Ast
import Verif.Model.Bitset
/-
Model of the compiler in /repo/noodle/src/expression.rs (lines 8-436): syntax tree to automaton, and the
optimisation passes on the automaton.

State sets are natural-number bitmasks (see `Verif/Model/Expr.lean`); their allocated capacity matters
only where an unchecked access could leave it, and is checked there (`Crash.ub`).
-/
namespace Noodle

/-- expression.rs:8 `MAX_SET_SIZE`. -/
def maxSetSize : Nat := 16 * 1024

/-- expression.rs:19-21 `State::new`. -/
def State.fresh : State := { eps := 0, cls := CharSet.empty, next := 0 }

/-- `states[i].epsilon_states_bitset_mut().insert(b)` (expression.rs:97-99 and others): a checked index into
the vector, an unchecked access to the 16384-bit set. -/
def insertEps (ss : List State) (i b : Nat) : Except Crash (List State) :=
  match ss[i]? with
  | none => .error .index
  | some st =>
    if maxSetSize ≤ b then .error .ub
    else .ok (ss.set i { st with eps := st.eps ||| 1 <<< b })

/-- `bitset.remove(b)` on a mask. -/
def maskRemove (e b : Nat) : Nat := e ^^^ (e &&& 1 <<< b)

/-- expression.rs:104-112: repointing one end state of an alternative. -/
def repointAlt (next : Nat) (ss : List State) (e : Nat) : Except Crash (List State) :=
  match ss[e]? with
  | none => .error .index
  | some st =>
    if maxSetSize ≤ e + 1 then .error .ub
    else if st.eps.testBit (e + 1) then
      if maxSetSize ≤ next then .error .ub
      else .ok (ss.set e { st with eps := maskRemove st.eps (e + 1) ||| 1 <<< next, next := next })
    else .ok (ss.set e { st with next := next })

/-- expression.rs:131-147: the exits of one term of a substring. -/
def exitSub (next : Nat) (ss : List State) (e : Nat) : Except Crash (List State) :=
  match ss[e]? with
  | none => .error .index
  | some st =>
    if maxSetSize ≤ e + 1 then .error .ub
    else
      match (if st.eps.testBit (e + 1) then insertEps ss e next else .ok ss) with
      | .error x => .error x
      | .ok ss1 =>
        if st.cls = CharSet.empty then .ok ss1
        else if st.next = next then .ok ss1
        else insertEps ss1 st.next next

/-- A loop over the end indexes (expression.rs:104, 131). -/
def overEnds (f : List State → Nat → Except Crash (List State)) :
    List State → List Nat → Except Crash (List State)
  | ss, [] => .ok ss
  | ss, e :: es =>
    match f ss e with
    | .error x => .error x
    | .ok ss' => overEnds f ss' es

/-- expression.rs:165-174: the loop `for i in 0..repeats`, `b` being `build_states(term, _)`, `k` the number of
remaining rounds, `i` the round. The result includes `final_term_index`. -/
def repLoop (b : List State → Except Crash (List State)) (start slack : Nat) :
    Nat → Nat → Nat → List State → Except Crash (List State × Nat)
  | 0, _, fin, ss => .ok (ss, fin)
  | k + 1, i, _, ss =>
    match (if i ≤ slack then insertEps ss start ss.length else .ok ss) with
    | .error x => .error x
    | .ok ss1 =>
      match b ss1 with
      | .error x => .error x
      | .ok ss2 => repLoop b start slack k (i + 1) ss1.length ss2

/-- expression.rs:161-190: the general repetition. `max.unwrap_or(min) - min` panics when it is negative
(debug builds; a release build wraps around). -/
def buildRep (b : List State → Except Crash (List State)) (min : Nat) (max : Option Nat) (ss : List State) :
    Except Crash (List State) :=
  let start := ss.length
  if max.getD min < min then .error .overflow
  else
    match repLoop b start (max.getD min - min) (Nat.max 1 (Nat.max min (max.getD min))) 0 0
        (ss ++ [State.fresh]) with
    | .error x => .error x
    | .ok (ss1, fin) =>
      let final := ss1.length
      match insertEps (ss1 ++ [State.fresh]) final (final + 1) with
      | .error x => .error x
      | .ok ss2 =>
        match (if min = 0 then insertEps ss2 start final else .ok ss2) with
        | .error x => .error x
        | .ok ss3 => if max = none then insertEps ss3 final fin else .ok ss3

mutual
/-- expression.rs:86-193 `build_states`: the states vector after appending the automaton of a tree. -/
def build : Ast → List State → Except Crash (List State)
  | .cls c, ss => .ok (ss ++ [{ eps := 0, cls := c, next := ss.length + 1 }])
  | .alts l, ss =>
    match buildTerms l ss.length (ss ++ [State.fresh]) [] with
    | .error x => .error x
    | .ok (ss1, ends) => overEnds (repointAlt ss1.length) ss1 ends
  | .seq l, ss => buildSeq l ss
  | .substr l, ss =>
    match buildTerms l ss.length (ss ++ [State.fresh]) [] with
    | .error x => .error x
    | .ok (ss1, ends) => overEnds (exitSub ss1.length) ss1 ends
  | .rep t min max, ss =>
    if min = 0 ∧ max = some 0 then .ok ss
    else if min = 1 ∧ max = some 1 then build t ss
    else buildRep (fun s => build t s) min max ss
  | .anagram _ _, _ => .error .unreachable
/-- expression.rs:115-117: the terms of a sequence. -/
def buildSeq : List Ast → List State → Except Crash (List State)
  | [], ss => .ok ss
  | a :: l, ss =>
    match build a ss with
    | .error x => .error x
    | .ok ss' => buildSeq l ss'
/-- expression.rs:95-102, 122-129: the alternatives (or substring terms), each entered from `start`; collects
the end indexes. -/
def buildTerms : List Ast → Nat → List State → List Nat → Except Crash (List State × List Nat)
  | [], _, ss, ends => .ok (ss, ends)
  | a :: l, start, ss, ends =>
    match insertEps ss start ss.length with
    | .error x => .error x
    | .ok ss1 =>
      match build a ss1 with
      | .error x => .error x
      | .ok ss2 => buildTerms l start ss2 (ends ++ [ss2.length - 1])
end

/-- expression.rs:61-64: the unoptimised automaton, with the success state that absorbs word ends. -/
def rawStates (a : Ast) : Except Crash (List State) :=
  match build a [] with
  | .error x => .error x
  | .ok ss => .ok (ss ++ [{ eps := 0, cls := CharSet.ofCh Ch.wordEnd, next := ss.length }])

/-! ### `epsilon_transitive_closure` (expression.rs:212-236) -/

/-- expression.rs:225-229: one sweep over all states. -/
def closeSweep (ss : List State) (b : Nat) : Nat :=
  ss.zipIdx.foldl (fun b p => if b.testBit p.2 then b ||| p.1.eps else b) b

/-- expression.rs:220-234: the loop for state `i`, whose current set is in `ss`. -/
def closeLoop (i : Nat) : Nat → List State → Except Crash (List State)
  | 0, _ => .error .fuel
  | n + 1, ss =>
    match ss[i]? with
    | none => .error .index
    | some st =>
      let b := closeSweep ss st.eps
      if st.eps = b then .ok ss else closeLoop i n (ss.set i { st with eps := b })

/-- expression.rs:214-235: states `i, i+1, ...` (`k` of them). -/
def closeFrom : Nat → Nat → List State → Except Crash (List State)
  | 0, _, ss => .ok ss
  | k + 1, i, ss =>
    match ss[i]? with
    | none => .error .index
    | some st =>
      match closeLoop i (ss.length + 2) (ss.set i { st with eps := st.eps ||| 1 <<< i }) with
      | .error x => .error x
      | .ok ss' => closeFrom k (i + 1) ss'

/-- expression.rs:212-236 `epsilon_transitive_closure`; `cap` is the allocated capacity of the state sets:
testing or inserting a state number at or above it is an unchecked access. -/
def closure (cap : Nat) (ss : List State) : Except Crash (List State) :=
  if cap < ss.length then .error .ub else closeFrom ss.length 0 ss

/-! ### `prune_epsilon_pairs` (expression.rs:338-406) -/

/-- expression.rs:340-342: `state_map`, `state_map_from`, `deleted`. -/
structure Prune where
  map : List Nat
  src : List (Option Nat)
  del : List Nat
  deriving DecidableEq, Repr

/-- expression.rs:361-368: the first later state whose set is that of state `i` without `i`. -/
def partner (ss : List State) (i : Nat) (st : State) : Option Nat :=
  (ss.zipIdx.find? fun p => decide (i < p.2) && (maskRemove st.eps i == p.1.eps)).map Prod.snd

/-- expression.rs:343-380: one round of the loop. -/
def pruneStep (ss : List State) (acc : Prune) (p : State × Nat) : Except Crash Prune :=
  let i := p.2
  let st := p.1
  let cnt := (acc.del.filter (· < i)).length
  match acc.map[i]? with
  | none => .error .index
  | some m =>
    if m < cnt then .error .overflow
    else
      let acc1 := { acc with map := acc.map.set i (m - cnt) }
      if i = 0 then .ok acc1
      else if st.cls ≠ CharSet.empty then .ok acc1
      else
        match partner ss i st with
        | none => .ok acc1
        | some i2 =>
          .ok { map := acc1.map.set i2 i
                src := (acc1.src.set i2 none).map fun s => if s = some i then some i2 else s
                del := acc1.del ++ [i2] }

/-- expression.rs:343-380: the loop. -/
def pruneLoop (ss : List State) : Prune → List (State × Nat) → Except Crash Prune
  | acc, [] => .ok acc
  | acc, p :: ps =>
    match pruneStep ss acc p with
    | .error x => .error x
    | .ok acc' => pruneLoop ss acc' ps

/-- expression.rs:395-397: the image of a state set under `state_map`. -/
def mapMask (m : List Nat) (e : Nat) : Nat :=
  m.zipIdx.foldl (fun acc p => if e.testBit p.2 then acc ||| 1 <<< p.1 else acc) 0

/-- expression.rs:392-403: one rebuilt state. `state_map[s]` panics for a state number out of range. -/
def renumber (m : List Nat) (st : State) : Except Crash State :=
  if 2 ^ m.length ≤ st.eps then .error .index
  else
    match m[st.next]? with
    | none => .error .index
    | some nx => .ok { eps := mapMask m st.eps, cls := st.cls, next := nx }

/-- expression.rs:389-405: the rebuilt states. -/
def rebuild (ss : List State) (m : List Nat) : List (Option Nat) → Except Crash (List State)
  | [] => .ok []
  | none :: l => rebuild ss m l
  | some f :: l =>
    match ss[f]? with
    | none => .error .index
    | some st =>
      match renumber m st with
      | .error x => .error x
      | .ok st' =>
        match rebuild ss m l with
        | .error x => .error x
        | .ok r => .ok (st' :: r)

/-- expression.rs:338-406 `prune_epsilon_pairs`: the new states and the capacity `new_states_len` of their
sets. -/
def prune (ss : List State) : Except Crash (List State × Nat) :=
  match pruneLoop ss { map := List.range ss.length, src := (List.range ss.length).map some, del := [] }
      ss.zipIdx with
  | .error x => .error x
  | .ok acc =>
    if ss.length < acc.del.length then .error .overflow
    else if acc.map.any fun s => decide (ss.length - acc.del.length ≤ s) then .error .assert
    else
      match rebuild ss acc.map acc.src with
      | .error x => .error x
      | .ok r => .ok (r, ss.length - acc.del.length)

/-! ### `collapse_epsilon_char_pairs` (expression.rs:249-334) -/

/-- expression.rs:251-253 `bitset_only_contains`. -/
def onlyContains (e i : Nat) : Bool := e == 0 || e == 1 <<< i

/-- `BitSetRef::is_subset` on masks. -/
def maskSubset (a b : Nat) : Bool := (a ||| b) == b

/-- expression.rs:257-285 `is_a_pair`; `none` is an index panic. -/
def isPair (ei ci : Nat) (ss : List State) : Option Bool :=
  match ss[ei]?, ss[ci]? with
  | some es, some cs =>
    match ss[cs.next]? with
    | none => none
    | some ns =>
      let allowed := (cs.eps ||| 1 <<< ei) ||| ns.eps
      some (decide (ci ≠ 0) && decide (es.cls = CharSet.empty) && decide (cs.next ≠ ei)
        && decide (cs.next ≠ ci) && onlyContains cs.eps ci && es.eps.testBit ci && es.eps.testBit cs.next
        && maskSubset es.eps allowed)
  | _, _ => none

/-- expression.rs:294-300 `remap`. -/
def remap (ei ci i : Nat) : Nat :=
  if i < ci then i else if i = ci then (if ei < ci then ei else ei - 1) else i - 1

/-- expression.rs:302-314: renumbering one state. -/
def remapState (n ei ci : Nat) (st : State) : State :=
  { st with next := remap ei ci st.next, eps := mapMask ((List.range n).map (remap ei ci)) st.eps }

/-- expression.rs:288-317 `collapse`. -/
def collapse (ei ci : Nat) (ss : List State) : Except Crash (List State) :=
  if ei = ci then .error .assert
  else
    match ss[ei]?, ss[ci]? with
    | some es, some cs =>
      .ok (((ss.set ei { es with cls := cs.cls, next := cs.next }).map (remapState ss.length ei ci)).eraseIdx ci)
    | _, _ => .error .index

/-- expression.rs:323-331: the inner loop `for j in 0..states.len()`, from `j` on (`k` rounds): the first pair
`(eps_index, char_index)`. -/
def findPair (ss : List State) (i : Nat) : Nat → Nat → Except Crash (Option (Nat × Nat))
  | 0, _ => .ok none
  | k + 1, j =>
    match isPair i j ss with
    | none => .error .index
    | some true => .ok (some (i, j))
    | some false =>
      match isPair j i ss with
      | none => .error .index
      | some true => .ok (some (j, i))
      | some false => findPair ss i k (j + 1)

/-- expression.rs:321-333: the outer loop, with fuel. -/
def collapseLoop : Nat → Nat → List State → Except Crash (List State)
  | 0, _, _ => .error .fuel
  | n + 1, i, ss =>
    if i < ss.length then
      match findPair ss i ss.length 0 with
      | .error x => .error x
      | .ok none => collapseLoop n (i + 1) ss
      | .ok (some (e, c)) =>
        match collapse e c ss with
        | .error x => .error x
        | .ok ss' => collapseLoop n i ss'
    else .ok ss

/-- expression.rs:249-334 `collapse_epsilon_char_pairs`; `cap` is the capacity of the state sets, which are
accessed unchecked at every state number. -/
def collapseAll (cap : Nat) (ss : List State) : Except Crash (List State) :=
  if 32 * Bits.blockSize cap < ss.length then .error .ub
  else collapseLoop (2 * ss.length + 1) 0 ss

/-! ### `optimize_states` (expression.rs:199-436) -/

/-- expression.rs:411-416 `shrink_bitsets`: `resize` asserts that every element fits. -/
def shrink (ss : List State) : Except Crash (List State) :=
  if ss.all fun st => decide (st.eps < 2 ^ ss.length) then .ok ss else .error .assert

/-- expression.rs:418-432: the loop, with fuel; `cap` is the capacity of the state sets. -/
def optLoop : Nat → Nat → List State → Except Crash (List State)
  | 0, _, _ => .error .fuel
  | n + 1, cap, ss =>
    match closure cap ss with
    | .error x => .error x
    | .ok ss1 =>
      match prune ss1 with
      | .error x => .error x
      | .ok (ss2, cap2) =>
        match collapseAll cap2 ss2 with
        | .error x => .error x
        | .ok ss3 =>
          if ss3.length = ss.length then .ok ss3
          else
            match shrink ss3 with
            | .error x => .error x
            | .ok ss4 => optLoop n ss4.length ss4

/-- expression.rs:199-436 `optimize_states`. -/
def optimize (ss : List State) : Except Crash (List State) :=
  optLoop (ss.length + 1) maxSetSize ss

/-- expression.rs:57-77 `Expression::from_ast`. -/
def fromAst (a : ExprAst) : Except Crash Expr :=
  match rawStates a.root with
  | .error x => .error x
  | .ok ss =>
    match optimize ss with
    | .error x => .error x
    | .ok ss' =>
      .ok { states := ss'
            ignWB := !(a.options.explicitWB.getD false)
            ignPunct := !(a.options.explicitPunct.getD false)
            fuzz := a.options.fuzz.getD 0 }

end Noodle
