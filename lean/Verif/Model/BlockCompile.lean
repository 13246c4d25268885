import Verif.Model.Blocks
import Verif.Model.Compile
/-
Model of the compiler in /repo/noodle/src/expression.rs (lines 8-436) over the memory it really uses: the state sets are
vectors of 32-bit blocks, allocated for 16384 elements while the automaton is built and shrunk later, and accessed without
bounds checks. An access out of range is the error `Crash.ub`.

The definitions follow those of Model/Compile.lean; only the sets differ.
-/
namespace Noodle.Blk
set_option autoImplicit false
open Noodle.Bits (Bits blockSize)

/-- expression.rs:23-29 `State::new_transition`. -/
def State.transition (c : CharSet) (next : Nat) : State := { eps := Bits.new maxSetSize, cls := c, next := next }

/-- expression.rs:19-21 `State::new`. -/
def State.fresh : State := State.transition CharSet.empty 0

/-- `states[i].epsilon_states_bitset_mut().insert(b)` (expression.rs:97-99 and others). -/
def insertEps (ss : List State) (i b : Nat) : Except Crash (List State) :=
  match ss[i]? with
  | none => .error .index
  | some st => do
    let s ← ub (Bits.insert st.eps b)
    .ok (ss.set i { st with eps := s })

/-- expression.rs:104-112: repointing one end state of an alternative. -/
def repointAlt (next : Nat) (ss : List State) (e : Nat) : Except Crash (List State) :=
  match ss[e]? with
  | none => .error .index
  | some st => do
    let inside ← ub (Bits.contains st.eps (e + 1))
    if inside then
      let s ← ub (Bits.remove st.eps (e + 1))
      let s ← ub (Bits.insert s next)
      .ok (ss.set e { st with eps := s, next := next })
    else .ok (ss.set e { st with next := next })

/-- expression.rs:131-147: the exits of one term of a substring. -/
def exitSub (next : Nat) (ss : List State) (e : Nat) : Except Crash (List State) :=
  match ss[e]? with
  | none => .error .index
  | some st => do
    let inside ← ub (Bits.contains st.eps (e + 1))
    let ss1 ← (if inside then insertEps ss e next else .ok ss)
    if st.cls = CharSet.empty then .ok ss1
    else if st.next = next then .ok ss1
    else insertEps ss1 st.next next

/-- A loop over the end indexes (expression.rs:104, 131). -/
def overEnds (f : List State → Nat → Except Crash (List State)) :
    List State → List Nat → Except Crash (List State)
  | ss, [] => .ok ss
  | ss, e :: es =>
    match f ss e with
    | .error x => .error x
    | .ok ss' => overEnds f ss' es

/-- expression.rs:165-174: the loop `for i in 0..repeats`, as in Model/Compile.lean. -/
def repLoop (b : List State → Except Crash (List State)) (start slack : Nat) :
    Nat → Nat → Nat → List State → Except Crash (List State × Nat)
  | 0, _, fin, ss => .ok (ss, fin)
  | k + 1, i, _, ss =>
    match (if i ≤ slack then insertEps ss start ss.length else .ok ss) with
    | .error x => .error x
    | .ok ss1 =>
      match b ss1 with
      | .error x => .error x
      | .ok ss2 => repLoop b start slack k (i + 1) ss1.length ss2

/-- expression.rs:161-190: the general repetition. -/
def buildRep (b : List State → Except Crash (List State)) (min : Nat) (max : Option Nat) (ss : List State) :
    Except Crash (List State) :=
  let start := ss.length
  if max.getD min < min then .error .overflow
  else
    match repLoop b start (max.getD min - min) (Nat.max 1 (Nat.max min (max.getD min))) 0 0
        (ss ++ [State.fresh]) with
    | .error x => .error x
    | .ok (ss1, fin) =>
      let final := ss1.length
      match insertEps (ss1 ++ [State.fresh]) final (final + 1) with
      | .error x => .error x
      | .ok ss2 =>
        match (if min = 0 then insertEps ss2 start final else .ok ss2) with
        | .error x => .error x
        | .ok ss3 => if max = none then insertEps ss3 final fin else .ok ss3

mutual
/-- expression.rs:86-193 `build_states`: the states vector after appending the automaton of a tree. -/
def build : Ast → List State → Except Crash (List State)
  | .cls c, ss => .ok (ss ++ [State.transition c (ss.length + 1)])
  | .alts l, ss =>
    match buildTerms l ss.length (ss ++ [State.fresh]) [] with
    | .error x => .error x
    | .ok (ss1, ends) => overEnds (repointAlt ss1.length) ss1 ends
  | .seq l, ss => buildSeq l ss
  | .substr l, ss =>
    match buildTerms l ss.length (ss ++ [State.fresh]) [] with
    | .error x => .error x
    | .ok (ss1, ends) => overEnds (exitSub ss1.length) ss1 ends
  | .rep t min max, ss =>
    if min = 0 ∧ max = some 0 then .ok ss
    else if min = 1 ∧ max = some 1 then build t ss
    else buildRep (fun s => build t s) min max ss
  | .anagram _ _, _ => .error .unreachable
/-- expression.rs:115-117: the terms of a sequence. -/
def buildSeq : List Ast → List State → Except Crash (List State)
  | [], ss => .ok ss
  | a :: l, ss =>
    match build a ss with
    | .error x => .error x
    | .ok ss' => buildSeq l ss'
/-- expression.rs:95-102, 122-129: the alternatives (or substring terms), each entered from `start`; collects
the end indexes. -/
def buildTerms : List Ast → Nat → List State → List Nat → Except Crash (List State × List Nat)
  | [], _, ss, ends => .ok (ss, ends)
  | a :: l, start, ss, ends =>
    match insertEps ss start ss.length with
    | .error x => .error x
    | .ok ss1 =>
      match build a ss1 with
      | .error x => .error x
      | .ok ss2 => buildTerms l start ss2 (ends ++ [ss2.length - 1])
end

/-- expression.rs:61-64: the unoptimised automaton. -/
def rawStates (a : Ast) : Except Crash (List State) :=
  match build a [] with
  | .error x => .error x
  | .ok ss => .ok (ss ++ [State.transition (CharSet.ofCh Ch.wordEnd) ss.length])

/-! ### `epsilon_transitive_closure` (expression.rs:212-236) -/

/-- expression.rs:225-229: one sweep over all states. -/
def closeSweep (ss : List State) (b : Bits) : Except Crash Bits :=
  ss.zipIdx.foldlM (fun b p => do
    let inside ← ub (Bits.contains b p.2)
    if inside then ub (Bits.union b p.1.eps) else .ok b) b

/-- expression.rs:220-234: the loop for state `i`. -/
def closeLoop (i : Nat) : Nat → List State → Except Crash (List State)
  | 0, _ => .error .fuel
  | n + 1, ss =>
    match ss[i]? with
    | none => .error .index
    | some st =>
      match closeSweep ss st.eps with
      | .error x => .error x
      | .ok b => if st.eps = b then .ok ss else closeLoop i n (ss.set i { st with eps := b })

/-- expression.rs:214-235: states `i, i+1, ...` (`k` of them). -/
def closeFrom : Nat → Nat → List State → Except Crash (List State)
  | 0, _, ss => .ok ss
  | k + 1, i, ss =>
    match insertEps ss i i with
    | .error x => .error x
    | .ok ss1 =>
      match closeLoop i (ss.length + 2) ss1 with
      | .error x => .error x
      | .ok ss' => closeFrom k (i + 1) ss'

/-- expression.rs:212-236 `epsilon_transitive_closure`. -/
def closure (ss : List State) : Except Crash (List State) := closeFrom ss.length 0 ss

/-! ### `prune_epsilon_pairs` (expression.rs:338-406) -/

/-- expression.rs:359-371: the first later state whose set is that of state `i` without `i`. -/
def partner (ss : List State) (i : Nat) (st : State) : Except Crash (Option Nat) := do
  let s ← ub (Bits.remove st.eps i)
  .ok ((ss.zipIdx.find? fun p => decide (i < p.2) && decide (s = p.1.eps)).map Prod.snd)

/-- expression.rs:343-380: one round of the loop. -/
def pruneStep (ss : List State) (acc : Prune) (p : State × Nat) : Except Crash Prune :=
  let i := p.2
  let st := p.1
  let cnt := (acc.del.filter (· < i)).length
  match acc.map[i]? with
  | none => .error .index
  | some m =>
    if m < cnt then .error .overflow
    else
      let acc1 := { acc with map := acc.map.set i (m - cnt) }
      if i = 0 then .ok acc1
      else if st.cls ≠ CharSet.empty then .ok acc1
      else
        match partner ss i st with
        | .error x => .error x
        | .ok none => .ok acc1
        | .ok (some i2) =>
          .ok { map := acc1.map.set i2 i
                src := (acc1.src.set i2 none).map fun s => if s = some i then some i2 else s
                del := acc1.del ++ [i2] }

/-- expression.rs:343-380: the loop. -/
def pruneLoop (ss : List State) : Prune → List (State × Nat) → Except Crash Prune
  | acc, [] => .ok acc
  | acc, p :: ps =>
    match pruneStep ss acc p with
    | .error x => .error x
    | .ok acc' => pruneLoop ss acc' ps

/-- expression.rs:393-397: the image of a state set under `state_map`, in a new bitset for `n` elements. -/
def mapSet (m : List Nat) (n : Nat) (s : Bits) : Except Crash Bits := do
  let l ← ones s
  l.foldlM (fun b x =>
    match m[x]? with
    | none => .error .index
    | some y => ub (Bits.insert b y)) (Bits.new n)

/-- expression.rs:392-403: one rebuilt state. -/
def renumber (m : List Nat) (n : Nat) (st : State) : Except Crash State :=
  match mapSet m n st.eps with
  | .error x => .error x
  | .ok s =>
    match m[st.next]? with
    | none => .error .index
    | some nx => .ok { eps := s, cls := st.cls, next := nx }

/-- expression.rs:389-405: the rebuilt states. -/
def rebuild (ss : List State) (m : List Nat) (n : Nat) : List (Option Nat) → Except Crash (List State)
  | [] => .ok []
  | none :: l => rebuild ss m n l
  | some f :: l =>
    match ss[f]? with
    | none => .error .index
    | some st =>
      match renumber m n st with
      | .error x => .error x
      | .ok st' =>
        match rebuild ss m n l with
        | .error x => .error x
        | .ok r => .ok (st' :: r)

/-- expression.rs:338-406 `prune_epsilon_pairs`. -/
def prune (ss : List State) : Except Crash (List State) :=
  match pruneLoop ss { map := List.range ss.length, src := (List.range ss.length).map some, del := [] }
      ss.zipIdx with
  | .error x => .error x
  | .ok acc =>
    if ss.length < acc.del.length then .error .overflow
    else if acc.map.any fun s => decide (ss.length - acc.del.length ≤ s) then .error .assert
    else rebuild ss acc.map (ss.length - acc.del.length) acc.src

/-! ### `collapse_epsilon_char_pairs` (expression.rs:249-334) -/

/-- expression.rs:251-253 `bitset_only_contains`. -/
def onlyContains (s : Bits) (i : Nat) : Except Crash Bool :=
  if Bits.isEmpty s then .ok true
  else do
    let inside ← ub (Bits.contains s i)
    if inside then
      let l ← ones s
      .ok (l.length == 1)
    else .ok false

/-- expression.rs:257-285 `is_a_pair`, with the conjunction evaluated from left to right. -/
def isPair (ei ci : Nat) (ss : List State) : Except Crash Bool :=
  match ss[ei]?, ss[ci]? with
  | some es, some cs => do
    let a1 ← ub (Bits.insert cs.eps ei)
    match ss[cs.next]? with
    | none => .error .index
    | some ns => do
      let allowed ← ub (Bits.union a1 ns.eps)
      if ci ≠ 0 ∧ es.cls = CharSet.empty ∧ cs.next ≠ ei ∧ cs.next ≠ ci then
        let only ← onlyContains cs.eps ci
        if only then
          let in1 ← ub (Bits.contains es.eps ci)
          if in1 then
            let in2 ← ub (Bits.contains es.eps cs.next)
            if in2 then .ok (Bits.isSubset es.eps allowed)
            else .ok false
          else .ok false
        else .ok false
      else .ok false
  | _, _ => .error .index

/-- expression.rs:302-314: renumbering one state: a clone is cleared and filled. -/
def remapState (ei ci : Nat) (st : State) : Except Crash State := do
  let l ← ones st.eps
  let s ← l.foldlM (fun b x => ub (Bits.insert b (remap ei ci x))) (Bits.clear st.eps)
  .ok { st with next := remap ei ci st.next, eps := s }

/-- expression.rs:288-317 `collapse`. -/
def collapse (ei ci : Nat) (ss : List State) : Except Crash (List State) :=
  if ei = ci then .error .assert
  else
    match ss[ei]?, ss[ci]? with
    | some es, some cs => do
      let r ← (ss.set ei { es with cls := cs.cls, next := cs.next }).mapM (remapState ei ci)
      .ok (r.eraseIdx ci)
    | _, _ => .error .index

/-- expression.rs:323-331: the inner loop, from `j` on (`k` rounds). -/
def findPair (ss : List State) (i : Nat) : Nat → Nat → Except Crash (Option (Nat × Nat))
  | 0, _ => .ok none
  | k + 1, j =>
    match isPair i j ss with
    | .error x => .error x
    | .ok true => .ok (some (i, j))
    | .ok false =>
      match isPair j i ss with
      | .error x => .error x
      | .ok true => .ok (some (j, i))
      | .ok false => findPair ss i k (j + 1)

/-- expression.rs:321-333: the outer loop, with fuel. -/
def collapseLoop : Nat → Nat → List State → Except Crash (List State)
  | 0, _, _ => .error .fuel
  | n + 1, i, ss =>
    if i < ss.length then
      match findPair ss i ss.length 0 with
      | .error x => .error x
      | .ok none => collapseLoop n (i + 1) ss
      | .ok (some (e, c)) =>
        match collapse e c ss with
        | .error x => .error x
        | .ok ss' => collapseLoop n i ss'
    else .ok ss

/-- expression.rs:249-334 `collapse_epsilon_char_pairs`. -/
def collapseAll (ss : List State) : Except Crash (List State) := collapseLoop (2 * ss.length + 1) 0 ss

/-! ### `optimize_states` (expression.rs:199-436) -/

/-- bitset.rs:159-168 `resize`: `ones()` panics on an empty bitset, then the assertion. -/
def resize (s : Bits) (n : Nat) : Except Crash Bits := do
  let _ ← ones s
  match Bits.resize s n with
  | some r => .ok r
  | none => .error .assert

/-- expression.rs:411-416 `shrink_bitsets`. -/
def shrink (ss : List State) : Except Crash (List State) :=
  ss.mapM fun st => do
    let s ← resize st.eps ss.length
    .ok { st with eps := s }

/-- expression.rs:418-432: the loop, with fuel. -/
def optLoop : Nat → List State → Except Crash (List State)
  | 0, _ => .error .fuel
  | n + 1, ss =>
    match closure ss with
    | .error x => .error x
    | .ok ss1 =>
      match prune ss1 with
      | .error x => .error x
      | .ok ss2 =>
        match collapseAll ss2 with
        | .error x => .error x
        | .ok ss3 =>
          if ss3.length = ss.length then .ok ss3
          else
            match shrink ss3 with
            | .error x => .error x
            | .ok ss4 => optLoop n ss4

/-- expression.rs:199-436 `optimize_states`. -/
def optimize (ss : List State) : Except Crash (List State) := optLoop (ss.length + 1) ss

/-- expression.rs:57-77 `Expression::from_ast`. -/
def fromAst (a : ExprAst) : Except Crash Expr :=
  match rawStates a.root with
  | .error x => .error x
  | .ok ss =>
    match optimize ss with
    | .error x => .error x
    | .ok ss' =>
      .ok { states := ss'
            ignWB := !(a.options.explicitWB.getD false)
            ignPunct := !(a.options.explicitPunct.getD false)
            fuzz := a.options.fuzz.getD 0 }

end Noodle.Blk
