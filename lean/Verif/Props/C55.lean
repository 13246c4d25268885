import Verif.Proofs.BlockQuery
import Verif.Proofs.NoUb
import Verif.Spec.Blocks
import Verif.Props.C18
/-
C55: the evaluator's unchecked memory accesses stay inside their allocations, and working on 32-bit blocks changes nothing
that a caller sees.
-/
namespace Noodle
set_option autoImplicit false
open Spec

theorem mem_iff (b : List (BitVec 32)) (i : Nat) :
    Bits.Mem b i = true ↔ ∃ w, b[i / 32]? = some w ∧ w.getLsbD (i % 32) = true := by
  unfold Bits.Mem
  rw [List.getD_eq_getElem?_getD]
  cases b[i / 32]? with
  | none => simp
  | some w => simp

theorem blockSize_eq (n : Nat) : Bits.blockSize n = (n + 31) / 32 := by
  unfold Bits.blockSize
  split <;> omega

theorem rep_of_blocks {n m : Nat} {b : List (BitVec 32)} (h : InBlocks n b m) (hlt : ∀ i, m.testBit i = true → i < n) :
    Blk.Rep1 n n b m := by
  refine ⟨by rw [blockSize_eq]; exact h.1, fun i => ?_, Blk.lt_of_bits hlt, le_refl n⟩
  rw [Bool.eq_iff_iff, mem_iff, h.2 i]

theorem rexpr_of_same {b : Blk.Expr} {e : Expr} (h : SameExpr b e) (hw : WF e) : Blk.RExpr b e := by
  obtain ⟨h1, h2, h3, h4⟩ := h
  refine ⟨?_, h1, h2, h3, hw.nonempty, hw.next_lt⟩
  rw [List.forall₂_iff_get] at h4 ⊢
  refine ⟨h4.1, fun i p q => ?_⟩
  obtain ⟨a1, a2, a3⟩ := h4.2 i p q
  refine ⟨rep_of_blocks a1 (fun j hj => ?_), a2, a3⟩
  refine hw.eps_lt i j ?_
  have hq : i < e.states.length := q
  simp only [List.get_eq_getElem] at hj
  simpa [Expr.eps, hq] using hj

theorem all_rexpr {bs : List Blk.Expr} {es : List Expr} (h : List.Forall₂ SameExpr bs es) (hw : ∀ e ∈ es, WF e) :
    List.Forall₂ Blk.RExpr bs es := by
  induction h with
  | nil => exact .nil
  | cons h1 _ ih => exact .cons (rexpr_of_same h1 (hw _ (by simp))) (ih fun e he => hw e (by simp [he]))

/-- C55: the evaluator over blocks and the evaluator over sets do exactly the same, including how they stop when they
crash: for every word list (sorted or not), every depth, every limit and every history of calls and deadlines. -/
theorem C55_same {bs : List Blk.Expr} {es : List Expr} (h : List.Forall₂ SameExpr bs es) (hw : ∀ e ∈ es, WF e)
    (wl : List Word) (depth : Nat) (limit : Option Nat) (clks : List Clock) :
    blockRun bs wl depth limit clks = (do
      let q ← QState.new es wl depth limit
      let r ← q.run clks
      .ok r.2) := by
  unfold blockRun
  have hn := Blk.newQ_rel (all_rexpr h hw) wl depth limit
  revert hn
  generalize Blk.QState.new bs wl depth limit = x
  generalize QState.new es wl depth limit = y
  intro hn
  cases hn with
  | error c => rfl
  | ok hq =>
    rename_i q u
    have hr := Blk.run_rel hq clks
    show _ = (u.run clks >>= fun r => .ok r.2)
    revert hr
    show Blk.RelE _ (q.run clks) (u.run clks) → (match q.run clks with | .error x => (Except.error x : Except Crash (List Resp)) | .ok (_, rs) => .ok rs) = _
    generalize q.run clks = x
    generalize u.run clks = y
    intro hr
    cases hr with
    | error c => rfl
    | ok hp => exact congrArg Except.ok hp.2

/-- C55: what the evaluator over blocks answers is what the model of Model/Query.lean answers; so every theorem about
sessions (C14-C26, C42, C45, C51, C52) is about the program on its real data. -/
theorem C55_refines {bs : List Blk.Expr} {es : List Expr} (h : List.Forall₂ SameExpr bs es) (hw : ∀ e ∈ es, WF e)
    (wl : List Word) (depth : Nat) (limit : Option Nat) (clks : List Clock) (rs : List Resp) :
    blockRun bs wl depth limit clks = .ok rs ↔ Session es wl depth limit clks rs := by
  rw [C55_same h hw]
  unfold Session
  generalize QState.new es wl depth limit = y
  cases y with
  | error c => exact ⟨fun h => (by cases h), fun ⟨q, _, h, _⟩ => (by cases h)⟩
  | ok u =>
    show (u.run clks >>= fun r => .ok r.2) = .ok rs ↔ _
    constructor
    · intro hr
      cases hx : u.run clks with
      | error c => rw [hx] at hr; cases hr
      | ok p => rw [hx] at hr; cases hr; exact ⟨u, p.1, rfl, hx⟩
    · rintro ⟨q, q', h1, h2⟩
      cases h1
      rw [h2]; rfl

/-- C55: no unchecked access of the evaluator leaves its allocation, whatever the word list, the limits, the calls and
their deadlines, and even in runs that go on to panic. -/
theorem C55_safe {bs : List Blk.Expr} {es : List Expr} (h : List.Forall₂ SameExpr bs es) (hw : ∀ e ∈ es, WF e)
    (wl : List Word) (depth : Nat) (limit : Option Nat) (clks : List Clock) :
    blockRun bs wl depth limit clks ≠ .error .ub := by
  rw [C55_same h hw]
  intro hc
  cases hx : QState.new es wl depth limit with
  | error c => rw [hx] at hc; cases hc; exact noUb_new _ _ _ _ _ hx rfl
  | ok u =>
    rw [hx] at hc
    replace hc : (u.run clks >>= fun r => (.ok r.2 : Except Crash (List Resp))) = .error .ub := hc
    cases hy : u.run clks with
    | error c => rw [hy] at hc; cases hc; exact noUb_run _ _ _ hy rfl
    | ok p => rw [hy] at hc; cases hc

/-- C55: on the inputs the evaluator is meant for, every call on the evaluator over blocks returns. -/
theorem C55_total {bs : List Blk.Expr} {es : List Expr} {wl : List Word} (h : List.Forall₂ SameExpr bs es)
    (hr : Ready es wl) (depth : Nat) (limit : Option Nat) (clks : List Clock) :
    ∃ rs, blockRun bs wl depth limit clks = .ok rs ∧ rs.length = clks.length := by
  obtain ⟨rs, h1, h2⟩ := C42_no_crash hr depth limit clks
  exact ⟨rs, (C55_refines h hr.wf wl depth limit clks rs).2 h1, h2⟩

/-! ### Every expression has its blocks -/

/-- The blocks of a set: an empty bitset, then `insert` for each element. -/
def blocksOf (n m : Nat) : List (BitVec 32) :=
  (List.range n).foldl (fun b i => if m.testBit i then (Bits.insert b i).getD b else b) (Bits.new n)

theorem blocksOf_spec (n m : Nat) (h : ∀ i, m.testBit i = true → i < n) : InBlocks n (blocksOf n m) m := by
  have hl : (Bits.new n).length = (n + 31) / 32 := by simp [Bits.new, blockSize_eq]
  have hk : ∀ k, k ≤ n → ((List.range k).foldl (fun b i => if m.testBit i then (Bits.insert b i).getD b else b)
      (Bits.new n)).length = (n + 31) / 32 ∧ ∀ i, Bits.Mem ((List.range k).foldl
        (fun b i => if m.testBit i then (Bits.insert b i).getD b else b) (Bits.new n)) i = (decide (i < k) && m.testBit i) := by
    intro k
    induction k with
    | zero => intro _; exact ⟨hl, fun i => by simp [Bits.mem_new]⟩
    | succ k ih =>
      intro hk
      obtain ⟨h1, h2⟩ := ih (by omega)
      rw [List.range_succ, List.foldl_append]
      simp only [List.foldl_cons, List.foldl_nil]
      revert h1 h2
      generalize List.foldl _ _ (List.range k) = b
      intro h1 h2
      by_cases hb : m.testBit k = true
      · obtain ⟨b', e1, e2, e3⟩ := Bits.insert_spec b k (by rw [h1]; omega)
        rw [if_pos hb, e1]
        refine ⟨by rw [Option.getD_some, e2, h1], fun i => ?_⟩
        rw [Option.getD_some, e3, h2]
        by_cases hi : i = k
        · subst hi; simp [hb]
        · have : decide (i < k + 1) = decide (i < k) := by simp; omega
          rw [this]; simp [hi]
      · rw [if_neg hb]
        refine ⟨h1, fun i => ?_⟩
        rw [h2]
        by_cases hi : i = k
        · subst hi; simp [hb]
        · have : decide (i < k + 1) = decide (i < k) := by simp; omega
          rw [this]
  obtain ⟨h1, h2⟩ := hk n (le_refl n)
  refine ⟨h1, fun i => ?_⟩
  rw [← mem_iff]
  unfold blocksOf
  rw [h2]
  have := h i
  cases hb : m.testBit i <;> simp_all

/-- The expression over blocks. -/
def inBlocks (e : Expr) : Blk.Expr :=
  { states := e.states.map fun s => ⟨blocksOf e.states.length s.eps, s.cls, s.next⟩
    ignWB := e.ignWB, ignPunct := e.ignPunct, fuzz := e.fuzz }

theorem sameExpr_inBlocks {e : Expr} (h : WF e) : SameExpr (inBlocks e) e := by
  refine ⟨rfl, rfl, rfl, ?_⟩
  unfold inBlocks
  rw [List.forall₂_iff_get]
  refine ⟨by simp, fun i p q => ?_⟩
  have hq : i < e.states.length := q
  simp only [List.get_eq_getElem, List.getElem_map]
  refine ⟨blocksOf_spec _ _ fun j hj => h.eps_lt i j ?_, trivial, trivial⟩
  simpa [Expr.eps, hq] using hj

/-- C55: every list of expressions can be stored in blocks (the hypothesis of the theorems above is never empty). -/
theorem C55_stored {es : List Expr} (hw : ∀ e ∈ es, WF e) : List.Forall₂ SameExpr (es.map inBlocks) es := by
  induction es with
  | nil => exact .nil
  | cons e es ih => exact .cons (sameExpr_inBlocks (hw e (by simp))) (ih fun e' he => hw e' (by simp [he]))

/-! ### Concrete cases -/

theorem stored_AB : List.Forall₂ SameExpr [inBlocks exAB] [exAB] := C55_stored (es := [exAB]) (by simpa using exAB_wf)

/-- The query `ab` over the list a, b, run over blocks by the kernel. -/
example : blockRun [inBlocks exAB] [exA, exB] 10 none [none, none, none, none] =
    .ok [.logs false, .matched [exA, exB], .complete, .complete] := by decide +kernel
example : blockRun [inBlocks exAB] [exA, exB] 10 none [none, none] = .ok [.logs false, .matched [exA, exB]] :=
  (C55_refines stored_AB ready_AB.wf [exA, exB] 10 none [none, none] _).2 (session_of_run (by decide +kernel))
/-- A bitset one block too long, joined to one of the right size, is undefined behaviour: the model does see accesses out of range. -/
example : blockRun [⟨[⟨[1#32, 1#32], CharSet.ofCh 0, 0⟩], true, true, 0⟩] [exA] 1 none [none] = .error .ub := by decide +kernel
/-- No expressions: the run panics on an assertion, and even then without undefined behaviour. -/
example : blockRun [] [exA] 1 none [none] = .error .assert := by decide +kernel

end Noodle
