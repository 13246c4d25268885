import Verif.Proofs.RawTrim
import Verif.Proofs.OptimizeSound
/-
The compiler is correct on the fragment.
-/
namespace Noodle
set_option autoImplicit false
open Spec G

theorem lays_view {ss : List State} {o : Nat} {b : List State} (hh : Has (auto ss) o b) : Lays (view ss) o b := fun i st hi => by
  have h := hh i st hi
  exact ⟨view_Z h, fun _ => view_E h, fun _ => view_nx h⟩

/-- The closure of the unoptimised automaton is trim. -/
theorem raw_trim {a : Ast} (h : tame a = true) (hr : InRange (rawOf a)) : (view (rawOf a)).cl.Trim := by
  have hp := tame_plain a h
  have hlen : (rawOf a).length = states a + 1 := by
    unfold rawOf; rw [List.length_append, blk_length a hp]; rfl
  have hH : Has (auto (rawOf a)) 0 (rawOf a) := fun i st hi => by simpa [auto] using hi
  have hL : Has (auto (rawOf a)) 0 (blk a 0) := by
    have := hH
    unfold rawOf at this ⊢
    exact this.left
  have hlast : (rawOf a)[states a]? = some ⟨0, CharSet.ofCh Ch.wordEnd, states a⟩ := by
    have := hH
    unfold rawOf at this ⊢
    have := this.right.head
    rw [blk_length a hp, Nat.zero_add] at this
    exact this
  have s := (tamed a h).shape 2 (.wild a) _ 0 (lays_view hL)
  rw [Nat.zero_add] at s
  have E : (view (rawOf a)).Env (states a) := by
    refine ⟨hlen, ?_, s.blk, ?_, view_nx hlast, ?_⟩
    · intro x y e
      have hlt := Ed.lt e
      rw [hlen] at hlt
      by_cases hx : x = states a
      · subst hx
        rw [view_E hlast] at e
        simp at e
      · omega
    · intro hz
      exact CharSet.contains_ne_empty (contains_ofCh.2 rfl) ((view_Z hlast).1 hz)
    · intro x hx
      have hx : x < (rawOf a).length := hx
      obtain ⟨st, hst⟩ : ∃ st, (rawOf a)[x]? = some st := ⟨_, List.getElem?_eq_getElem hx⟩
      rw [view_nx hst]
      exact (hr x st hst).1
  exact s.trim E

/-- The compiler is correct on the fragment. -/
theorem fromAst_tame {a : ExprAst} (h : tame a.root = true) (hs : states a.root < maxSetSize) :
    ∃ e, fromAst a = .ok e ∧ ∀ w, Accepts e w ↔ Denotes a.root w := by
  have hp := tame_plain _ h
  have hraw : rawStates a.root = .ok (rawOf a.root) := rawStates_eq hp hs
  have hrs := rawStates_spec a.root
  rw [hraw] at hrs
  have hlen : (rawOf a.root).length ≤ maxSetSize := by
    unfold rawOf; rw [List.length_append, blk_length _ hp]; exact hs
  obtain ⟨ss1, _, hcl⟩ := closure_spec _ (rawOf a.root) hrs.1 (Nat.le_refl _)
  have hT : (view ss1).Trim := by rw [view_closure hcl]; exact raw_trim h hrs.1
  obtain ⟨ss', ho, hf, hacc⟩ := optimize_sound hrs.1 hlen hcl hT.sound
  have hfrom : ∃ e, fromAst a = .ok e ∧ e.states = ss' := by
    unfold fromAst
    rw [hraw]
    simp only [ho]
    exact ⟨_, rfl, rfl⟩
  obtain ⟨e, he, hes⟩ := hfrom
  have hsp := fromAst_spec a
  rw [he] at hsp
  refine ⟨e, he, fun w => ?_⟩
  rw [accepts_iff hsp.2.2 hsp.1 hsp.2.1, hes, hacc, raw_accept hp]

end Noodle
