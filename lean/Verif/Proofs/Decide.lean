import Verif.Proofs.Table
import Verif.Proofs.Auto
/-
A decision procedure for acceptance, for the witnesses.
-/
namespace Noodle
set_option autoImplicit false
open Spec

/-- Running the automaton on a string, from a set of states. -/
def runSet (e : Expr) (S : Nat) (w : List Ch) : Nat := w.foldl (fun S c => charTransitions e (CharSet.ofCh c) S) S

/-- Whether the automaton accepts the string. -/
def acceptsB (e : Expr) (w : List Ch) : Bool := (runSet e (e.eps 0) w).testBit (e.len - 1)

theorem runSet_spec (e : Expr) (S : Nat) (w : List Ch) (d : Nat) :
    (runSet e S w).testBit d = true ↔ ∃ s, S.testBit s = true ∧ Reads e s w d := by
  induction w generalizing S with
  | nil =>
    constructor
    · intro h; exact ⟨d, h, .nil _⟩
    · rintro ⟨s, h1, h2⟩; cases h2; exact h1
  | cons c w ih =>
    show (runSet e (charTransitions e (CharSet.ofCh c) S) w).testBit d = true ↔ _
    rw [ih]
    constructor
    · rintro ⟨m, h1, h2⟩
      obtain ⟨s, h3, h4⟩ := (charTransitions_ofCh _ _ _ _).1 h1
      exact ⟨s, h3, .cons h4 h2⟩
    · rintro ⟨s, h1, h2⟩
      cases h2 with
      | cons h3 h4 => exact ⟨_, (charTransitions_ofCh _ _ _ _).2 ⟨s, h1, h3⟩, h4⟩

theorem acceptsB_iff (e : Expr) (w : List Ch) : acceptsB e w = true ↔ Accepts e w := by
  unfold acceptsB Accepts
  rw [runSet_spec]

/-- What compiling an expression and running it on a string gives. -/
def compiled (a : ExprAst) (w : List Ch) : Except Crash Bool := (fromAst a).map fun e => acceptsB e w

theorem compiled_true {a : ExprAst} {w : List Ch} (h : compiled a w = .ok true) : ∃ e, fromAst a = .ok e ∧ Accepts e w := by
  unfold compiled at h
  cases hf : fromAst a with
  | error x => rw [hf] at h; cases h
  | ok e =>
    rw [hf] at h
    simp only [Except.map, Except.ok.injEq] at h
    exact ⟨e, rfl, (acceptsB_iff _ _).1 h⟩

theorem compiled_false {a : ExprAst} {w : List Ch} (h : compiled a w = .ok false) :
    ∃ e, fromAst a = .ok e ∧ ¬ Accepts e w := by
  unfold compiled at h
  cases hf : fromAst a with
  | error x => rw [hf] at h; cases h
  | ok e =>
    rw [hf] at h
    simp only [Except.map, Except.ok.injEq] at h
    exact ⟨e, rfl, fun hc => by rw [(acceptsB_iff _ _).2 hc] at h; cases h⟩

end Noodle
