import Verif.Proofs.BlockNfa
import Verif.Props.C55
import Verif.Props.C06
import Verif.Model.Parse
import Verif.Props.C07
/-
C09 and C55 for the compiler: over 32-bit blocks it gives the same expressions, and where it leaves its allocations.
-/
namespace Noodle
set_option autoImplicit false
open Spec

theorem same_of_rs {b : Blk.Expr} {e : Expr} (h : Blk.RS e.states.length b.states e.states) (h1 : b.ignWB = e.ignWB)
    (h2 : b.ignPunct = e.ignPunct) (h3 : b.fuzz = e.fuzz) : SameExpr b e := by
  refine ⟨h1, h2, h3, ?_⟩
  unfold Blk.RS at h
  refine List.Forall₂.imp (fun s t hst => ⟨⟨?_, fun i => ?_⟩, hst.2⟩) h
  · rw [hst.1.len, blockSize_eq]
  · rw [← mem_iff, hst.1.mem]

/-- C55, compilation: whenever the compiler over masks returns an expression, the compiler over blocks returns that
expression in blocks, without a single access outside an allocation. -/
theorem C55_compiles {a : ExprAst} {e : Expr} (h : fromAst a = .ok e) : ∃ b, Blk.fromAst a = .ok b ∧ SameExpr b e := by
  rcases Blk.fromAst_rel a with hu | hr
  · rw [h] at hu; cases hu
  · rw [h] at hr
    rcases hr.cases with ⟨x, _, f2⟩ | ⟨b, e', f1, f2, f3⟩
    · cases f2
    · cases f2
      exact ⟨b, f1, same_of_rs f3.1 f3.2.1 f3.2.2.1 f3.2.2.2⟩

/-- C55, compilation: it panics in the same way too. (`Crash.ub` of the mask model is an over-approximation: it is raised at
the start of the collapsing pass, while the code may collapse some pairs before it leaves an allocation.) -/
theorem C55_compiler_panics {a : ExprAst} {x : Crash} (h : fromAst a = .error x) (hx : x ≠ .ub) : Blk.fromAst a = .error x := by
  rcases Blk.fromAst_rel a with hu | hr
  · rw [h] at hu; cases hu; exact absurd rfl hx
  · rw [h] at hr
    rcases hr.cases with ⟨y, f1, f2⟩ | ⟨_, _, _, f2, _⟩
    · cases f2; exact f1
    · cases f2

theorem compile_blocks {as : List ExprAst} {es : List Expr} (h : as.mapM fromAst = .ok es) :
    ∃ bs, as.mapM Blk.fromAst = .ok bs ∧ List.Forall₂ SameExpr bs es := by
  induction as generalizing es with
  | nil => cases h; exact ⟨[], rfl, .nil⟩
  | cons a as ih =>
    rw [List.mapM_cons] at h
    cases h1 : fromAst a with
    | error x => rw [h1] at h; cases h
    | ok e =>
      rw [h1] at h
      cases h2 : as.mapM fromAst with
      | error x => rw [h2] at h; cases h
      | ok es' =>
        rw [h2] at h
        cases h
        obtain ⟨b, g1, g2⟩ := C55_compiles h1
        obtain ⟨bs, g3, g4⟩ := ih h2
        refine ⟨b :: bs, ?_, .cons g2 g4⟩
        rw [List.mapM_cons, g1, Blk.bind_ok, g3]; rfl

/-- C55, the whole program on its real data: compile the expressions of a query and evaluate them, all over blocks. When the
compiler of Model/Compile.lean accepts the query, nothing ever leaves an allocation, whatever the word list, the limits and
the calls, and the responses are those of the model. -/
theorem C55_program {as : List ExprAst} {es : List Expr} (h : as.mapM fromAst = .ok es) :
    ∃ bs, as.mapM Blk.fromAst = .ok bs ∧ ∀ (wl : List Word) (depth : Nat) (limit : Option Nat) (clks : List Clock),
      blockRun bs wl depth limit clks ≠ .error .ub ∧
      ∀ rs, blockRun bs wl depth limit clks = .ok rs ↔ Session es wl depth limit clks rs := by
  obtain ⟨bs, h1, h2⟩ := compile_blocks h
  have hw : ∀ e ∈ es, WF e := by
    cases as with
    | nil => cases h; simp
    | cons a as => exact (C06_ready (wl := []) (by simp) h .nil).wf
  exact ⟨bs, h1, fun wl depth limit clks =>
    ⟨C55_safe h2 hw wl depth limit clks, fun rs => C55_refines h2 hw wl depth limit clks rs⟩⟩

/-- C09, the whole compiler: the expressions of the fragment of Spec/Fragment.lean with fewer than 16384 states are compiled
without leaving an allocation. Missing: the other expressions, for which it is false (`C09_counterexample`,
`C09_small_counterexample`). -/
theorem C09_whole_partial {a : ExprAst} (ht : tame a.root = true) (hs : states a.root < 16384) :
    ∃ b, Blk.fromAst a = .ok b := by
  obtain ⟨e, h, _⟩ := fromAst_tame ht hs
  obtain ⟨b, hb, _⟩ := C55_compiles h
  exact ⟨b, hb⟩

/-! ### C09 is false of small expressions -/

/-- One block. -/
def oneBlock (st : State) : Blk.State := ⟨[BitVec.ofNat 32 st.eps], st.cls, st.next⟩

theorem rep_one {r : List (BitVec 32)} {m : Nat} (h : Blk.Rep1 32 32 r m) : r = [BitVec.ofNat 32 m] := by
  apply Blk.mem_ext
  · rw [h.len]; rfl
  · intro i
    rw [h.mem]
    by_cases hi : i < 32
    · have h1 : i / 32 = 0 := by omega
      have h2 : i % 32 = i := by omega
      show m.testBit i = Bits.Mem [BitVec.ofNat 32 m] i
      unfold Bits.Mem
      rw [h1, h2]
      show m.testBit i = (BitVec.ofNat 32 m).getLsbD i
      rw [BitVec.getLsbD_ofNat]
      simp [hi]
    · have h3 : ¬ m.testBit i = true := fun hb => hi (h.bit_lt hb)
      have h4 : ([BitVec.ofNat 32 m] : List (BitVec 32)).length ≤ i / 32 := by simp; omega
      rw [Bits.Mem, List.getD_eq_getElem?_getD, List.getElem?_eq_none h4]
      simpa using h3

/-- The first pass of the optimisation ends with sets of one block, and the collapsing pass then leaves them. -/
def leaves (a : Ast) : Bool :=
  match rawStates a with
  | .error _ => false
  | .ok ss =>
    match closure maxSetSize ss with
    | .error _ => false
    | .ok ss1 =>
      match prune ss1 with
      | .error _ => false
      | .ok (ss2, cap) => decide (cap = 32) && decide (Blk.collapseAll (ss2.map oneBlock) = .error .ub)

theorem leaves_spec {a : ExprAst} (h : leaves a.root = true) : Blk.fromAst a = .error .ub := by
  unfold leaves at h
  unfold Blk.fromAst
  have hsp := rawStates_spec a.root
  rcases (Blk.rawStates_rel a.root).cases with ⟨x, e1, e2⟩ | ⟨bs, ss, e1, e2, e3⟩
  · rw [e2] at h; cases h
  · rw [e2] at hsp h
    simp only at hsp h
    rw [e1]
    simp only []
    by_cases hcap : maxSetSize < ss.length
    · unfold closure at h; rw [if_pos hcap] at h; cases h
    · obtain ⟨ss1, c1, hcl⟩ := closure_spec maxSetSize ss hsp.1 (by omega)
      rw [c1] at h
      simp only at h
      have hc0 := Blk.closeFrom_rel ss.length 0 e3 (by omega) (by omega)
      have c1' : closeFrom ss.length 0 ss = .ok ss1 := by
        unfold closure at c1
        rw [if_neg hcap] at c1
        exact c1
      rw [c1'] at hc0
      have hl1 := hcl.len
      rcases hc0.cases with ⟨x, _, f2⟩ | ⟨bs1, b, f1, f2, f3⟩
      · cases f2
      · cases f2
        have hz : 0 < maxSetSize := by decide
        rcases (Blk.prune_rel f3 hz (by omega) (hcl.inRange hsp.1)).cases with ⟨x, g1, g2⟩ | ⟨bs2, p, g1, g2, g3⟩
        · rw [g2] at h; cases h
        · obtain ⟨ss2, cap⟩ := p
          rw [g2] at h
          simp only [Bool.and_eq_true, decide_eq_true_eq] at h g3
          obtain ⟨rfl, h⟩ := h
          have hbs : bs2 = ss2.map oneBlock := by
            have g3' : List.Forall₂ (Blk.RState 32) bs2 ss2 := g3
            clear h g1 g2 g3
            induction g3' with
            | nil => rfl
            | @cons s t l l' h1 _ ih =>
              rw [List.map_cons, ← ih]
              congr 1
              obtain ⟨s1, s2, s3⟩ := s
              obtain ⟨h1, h2, h3⟩ := h1
              simp only at h1 h2 h3
              rw [oneBlock, ← rep_one h1, h2, h3]
          unfold Blk.optimize
          have hl : bs.length + 1 = bs.length.succ := rfl
          rw [hl, Blk.optLoop]
          have f1' : Blk.closure bs = .ok bs1 := by unfold Blk.closure; rw [e3.len]; exact f1
          rw [f1']
          simp only [g1, hbs, h]

namespace Witness

/-- `(a?|b?)abcdefghijklmnopqrstuvwxyz`: 33 states are left after the first pruning pass, in sets allocated for 32. -/
def tail26 : Ast := .seq [.alts [.rep a 0 (some 1), .rep b 0 (some 1)], .seq ((List.range 26).map ch)]
/-- `abcdefghijklmnopqrstuvw(a{2}|b{2})xyz`. -/
def mid23 : Ast := .seq [.seq ((List.range 23).map ch), .alts [.rep a 2 (some 2), .rep b 2 (some 2)],
  .seq [ch 23, ch 24, ch 25]]

end Witness
open Witness

/-- C09 is false of small expressions too: `(a?|b?)abcdefghijklmnopqrstuvwxyz` and
`abcdefghijklmnopqrstuvw(a{2}|b{2})xyz`, of fewer than 64 states, are compiled with an access outside of the allocation of a
state set: the pruning pass counts a state that it deletes twice as two, allocates the new sets for one state too few, and
the collapsing pass then inserts the number of the last state. -/
theorem C09_small_counterexample (o : ExprOptions) :
    Blk.fromAst ⟨tail26, o⟩ = .error .ub ∧ Blk.fromAst ⟨mid23, o⟩ = .error .ub ∧ states tail26 < 64 ∧ states mid23 < 64 :=
  ⟨leaves_spec (a := ⟨tail26, o⟩) (show leaves tail26 = true by decide +kernel),
    leaves_spec (a := ⟨mid23, o⟩) (show leaves mid23 = true by decide +kernel), by decide +kernel,
    by decide +kernel⟩

/-- The same from the text of the expression, as a user may type it. -/
def leavesText (l : List Char) : Bool :=
  match ExprAst.ofText l with
  | .ok (some t) => leaves t.root
  | _ => false

theorem leavesText_spec {l : List Char} (h : leavesText l = true) :
    ∃ t, ExprAst.ofText l = .ok (some t) ∧ Blk.fromAst t = .error .ub := by
  unfold leavesText at h
  revert h
  generalize ExprAst.ofText l = r
  intro h
  match r, h with
  | .ok (some t), h => exact ⟨t, rfl, leaves_spec h⟩

/-- C09: reading and compiling the text `(a?|b?)abcdefghijklmnopqrstuvwxyz` leaves an allocation. -/
theorem C09_text_counterexample : ∃ t, ExprAst.ofText "(a?|b?)abcdefghijklmnopqrstuvwxyz".toList = .ok (some t) ∧
    Blk.fromAst t = .error .ub := leavesText_spec (by decide +kernel)

/-- One letter less, and the sets are large enough. -/
example : ∃ r, Blk.fromAst ⟨.seq [.alts [.rep a 0 (some 1), .rep b 0 (some 1)], .seq ((List.range 25).map ch)], {}⟩ = .ok r := by
  have h : (fromAst ⟨.seq [.alts [.rep a 0 (some 1), .rep b 0 (some 1)], .seq ((List.range 25).map ch)], {}⟩).toBool = true := by
    decide +kernel
  cases hf : fromAst ⟨.seq [.alts [.rep a 0 (some 1), .rep b 0 (some 1)], .seq ((List.range 25).map ch)], {}⟩ with
  | error x => rw [hf] at h; cases h
  | ok e => obtain ⟨r, h1, _⟩ := C55_compiles hf; exact ⟨r, h1⟩
/-- The fragment of `C09_whole_partial`: `(ab|c)+x*`. -/
example : ∃ r, Blk.fromAst ⟨.seq [.rep (.alts [.seq [a, Witness.b], c]) 1 none, .rep x 0 none], {}⟩ = .ok r :=
  C09_whole_partial (by decide) (by decide)

end Noodle
