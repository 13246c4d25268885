import Verif.Proofs.OptimizeNfa
import Verif.Props.C18
import Verif.Spec.Lang
/-
C06 and C41: what holds of every compiled expression. Witnesses of the ways in which the compiler fails
(C07, C08).
-/
namespace Noodle
open Spec
set_option autoImplicit false

/-- C06: every compiled expression has at least one state, all its state references are in range, and its
epsilon sets are reflexive and transitive. -/
theorem C06_closed {a : ExprAst} {e : Expr} (h : fromAst a = .ok e) : WF e := by
  have hs := fromAst_spec a
  rw [h] at hs
  exact wf_of hs.2.2 hs.1 hs.2.1

/-- C06: so compiled expressions are inputs the evaluator is meant for. -/
theorem C06_ready {as : List ExprAst} {es : List Expr} {wl : List Word} (hne : as ≠ [])
    (h : as.mapM fromAst = .ok es) (hs : wl.Pairwise fun a b => a.tranche ≤ b.tranche) : Ready es wl := by
  have key : ∀ (as : List ExprAst) (es : List Expr), as.mapM fromAst = .ok es →
      es.length = as.length ∧ ∀ e ∈ es, WF e := by
    intro as
    induction as with
    | nil => intro es h; cases h; exact ⟨rfl, by simp⟩
    | cons a as ih =>
      intro es h
      rw [List.mapM_cons] at h
      cases ha : fromAst a with
      | error x => rw [ha] at h; cases h
      | ok e =>
        cases hr : as.mapM fromAst with
        | error x => rw [ha, hr] at h; cases h
        | ok r =>
          rw [ha, hr] at h
          cases h
          have := ih r hr
          refine ⟨by simp [this.1], ?_⟩
          intro e' he'
          rcases List.mem_cons.1 he' with rfl | he'
          · exact C06_closed ha
          · exact this.2 e' he'
  have := key as es h
  refine ⟨?_, this.2, hs⟩
  rintro rfl
  apply hne
  exact List.length_eq_zero_iff.1 this.1.symm

/-- C06, C42: evaluating compiled expressions never crashes. -/
theorem C06_evaluates {as : List ExprAst} {es : List Expr} {wl : List Word} (hne : as ≠ [])
    (h : as.mapM fromAst = .ok es) (hs : wl.Pairwise fun a b => a.tranche ≤ b.tranche)
    (depth : Nat) (limit : Option Nat) (clks : List Clock) :
    ∃ rs, Session es wl depth limit clks rs ∧ rs.length = clks.length :=
  C42_no_crash (C06_ready hne h hs) depth limit clks

/-- C41: the fixpoint loops of the compiler stop on every expression: one closure loop after at most as many
rounds as there are states (plus two), the pair-collapsing loop after at most twice as many, the outer loop after
at most as many (plus one). (`Crash.fuel` is the model running out of exactly these bounds.) -/
theorem C41_compiler (a : ExprAst) : fromAst a ≠ .error .fuel := by
  have hs := fromAst_spec a
  intro h
  rw [h] at hs
  exact hs rfl

/-- C41: the loops of the planner and of the evaluator stop: creating the evaluator and every later call return. -/
theorem C41_planner {es : List Expr} {wl : List Word} (h : Ready es wl) (depth : Nat) (limit : Option Nat)
    (clks : List Clock) : ∃ rs, Session es wl depth limit clks rs ∧ rs.length = clks.length :=
  C42_no_crash h depth limit clks

/-! ### Witnesses -/

namespace Witness

/-- A letter, by its number. -/
def ch (n : Nat) : Ast := .cls (CharSet.ofCh (Fin.ofNat _ n))
def a : Ast := ch 0
def b : Ast := ch 1
def c : Ast := ch 2
def x : Ast := ch 23
def y : Ast := ch 24
def z : Ast := ch 25

def opt (t : Ast) : Ast := .rep t 0 (some 1)
def star (t : Ast) : Ast := .rep t 0 none
def plus (t : Ast) : Ast := .rep t 1 none
def twice (t : Ast) : Ast := .rep t 2 (some 2)

/-- An expression without options. -/
def expr (t : Ast) : ExprAst := { root := t, options := {} }

end Witness

open Witness

/-- C06 is not vacuous: `a(b|cc)*` compiles. -/
example : (fromAst (expr (.seq [a, star (.alts [b, .seq [c, c]])]))).map Expr.len = .ok 7 := by decide +kernel

end Noodle
