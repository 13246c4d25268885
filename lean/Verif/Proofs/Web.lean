import Verif.Spec.Web
import Verif.Props.C18
import Verif.Props.C06
import Verif.Props.C03
import Verif.Proofs.Sort
import Mathlib.Tactic.ByContra
/-
The loops of the programs around the library, in terms of sessions.
-/
namespace Noodle
open Spec
set_option autoImplicit false

theorem reported_append (a b : List Resp) : reported (a ++ b) = reported a ++ reported b := by
  simp [reported]

theorem run_cons {q q' : QState} {c : Clock} {cs : List Clock} {rs : List Resp} (h : q.run (c :: cs) = .ok (q', rs)) :
    ∃ q1 r rs', q.next c = .ok (q1, r) ∧ q1.run cs = .ok (q', rs') ∧ rs = r :: rs' := by
  unfold QState.run at h
  split at h
  · cases h
  · rename_i q1 r h1
    split at h
    · cases h
    · rename_i q2 rs' h2
      injection h with h
      injection h with h3 h4
      subst h3 h4
      exact ⟨q1, r, rs', h1, h2, rfl⟩

theorem run_take : ∀ {clks : List Clock} {q q' : QState} {rs : List Resp} (k : Nat), q.run clks = .ok (q', rs) →
    ∃ q'', q.run (clks.take k) = .ok (q'', rs.take k)
  | [], q, q', rs, k, h => by
    unfold QState.run at h
    injection h with h
    injection h with h1 h2
    subst h2
    exact ⟨q, by rw [List.take_nil, List.take_nil]; rfl⟩
  | c :: cs, q, q', rs, 0, h => ⟨q, rfl⟩
  | c :: cs, q, q', rs, k + 1, h => by
    obtain ⟨q1, r, rs', h1, h2, rfl⟩ := run_cons h
    obtain ⟨q'', h3⟩ := run_take k h2
    refine ⟨q'', ?_⟩
    rw [List.take_succ_cons, QState.run, h1]
    simp only [h3, List.take_succ_cons]

theorem session_take {es : List Expr} {wl : List Word} {depth : Nat} {limit : Option Nat} {clks : List Clock}
    {rs : List Resp} (h : Session es wl depth limit clks rs) (k : Nat) :
    Session es wl depth limit (clks.take k) (rs.take k) := by
  obtain ⟨q, q', h1, h2⟩ := h
  obtain ⟨q'', h3⟩ := run_take k h2
  exact ⟨q, q'', h1, h3⟩

/-- Where the answer of a loop that stops at the first `Timeout` or `Complete` ends. -/
theorem ended_of : ∀ (rs : List Resp), (∃ r ∈ rs, r = .timeout ∨ r = .complete) →
    ∃ k, k ≤ rs.length ∧ Ended (rs.take k)
  | [], h => by simp at h
  | r :: rs, h => by
    by_cases hr : r = .timeout ∨ r = .complete
    · exact ⟨1, by simp, [], r, by simp, hr, by simp⟩
    · obtain ⟨k, hk, a, x, h1, h2, h3⟩ := ended_of rs (by
        obtain ⟨x, hx, hxx⟩ := h
        rcases List.mem_cons.1 hx with rfl | hx
        · exact absurd hxx hr
        · exact ⟨x, hx, hxx⟩)
      refine ⟨k + 1, by simp; omega, r :: a, x, by rw [List.take_succ_cons, h1, List.cons_append], h2, ?_⟩
      intro y hy
      rcases List.mem_cons.1 hy with rfl | hy
      · exact ⟨fun h => hr (.inl h), fun h => hr (.inr h)⟩
      · exact h3 y hy

def isLog : Resp → Bool
  | .logs _ => true
  | _ => false

/-- Responses that are neither `Timeout` nor `Complete`: matches, and at most one announcement. -/
theorem count_responses : ∀ (rs : List Resp), (∀ r ∈ rs, r ≠ .timeout ∧ r ≠ .complete) →
    rs.length = (reported rs).length + rs.countP isLog
  | [], _ => rfl
  | r :: rs, h => by
    have ih := count_responses rs fun x hx => h x (by simp [hx])
    have hr := h r (by simp)
    rw [show r :: rs = [r] ++ rs from rfl, reported_append, List.length_append, List.length_append, List.countP_append, ih]
    cases r with
    | timeout => simp at hr
    | complete => simp at hr
    | logs b => simp [reported, isLog]; omega
    | matched ws => simp [reported, isLog]; omega

theorem countP_le_one {α : Type} (p : α → Bool) : ∀ (l : List α),
    (∀ a x b, l = a ++ x :: b → p x = true → ∀ y ∈ b, p y = false) → l.countP p ≤ 1
  | [], _ => by simp
  | x :: l, h => by
    rw [List.countP_cons]
    by_cases hx : p x = true
    · have : l.countP p = 0 := List.countP_eq_zero.2 fun y hy => by
        rw [h [] x l rfl hx y hy]; simp
      rw [this, if_pos hx]
    · have := countP_le_one p l fun a y b hab hy => h (x :: a) y b (by rw [hab]; rfl) hy
      rw [if_neg hx]
      exact this

theorem one_log {es : List Expr} {wl : List Word} (h : Ready es wl) {depth : Nat} {limit : Option Nat}
    {clks : List Clock} {rs : List Resp} (hs : Session es wl depth limit clks rs) : rs.countP isLog ≤ 1 := by
  refine countP_le_one _ _ fun a x b hab hx y hy => ?_
  subst hab
  cases x with
  | logs g =>
    have := (C18_at_logs h hs).2
    cases y with
    | logs g' => exact absurd hy (this g')
    | _ => rfl
  | _ => cases hx

/-- Enough calls reach a `Timeout` or `Complete`, whatever the deadlines. -/
theorem stops {es : List Expr} {wl : List Word} (h : Ready es wl) (depth : Nat) :
    ∃ N, ∀ limit clks rs, Session es wl depth limit clks rs → N ≤ rs.length →
      ∃ r ∈ rs, r = .timeout ∨ r = .complete := by
  obtain ⟨N, hN⟩ := C22_terminates h depth
  obtain ⟨rs', hs', _⟩ := C42_no_crash h depth none (List.replicate N none)
  have hc' : Completed rs' := hN _ _ _ hs' (by
    rw [List.countP_eq_length.2 (by intro c hc; rw [List.eq_of_mem_replicate hc]; rfl), List.length_replicate])
  refine ⟨(reported rs').length + 2, fun limit clks rs hs hlen => ?_⟩
  by_contra hc
  have h1 := count_responses rs fun r hr => by
    constructor
    · rintro rfl; exact hc ⟨_, hr, .inl rfl⟩
    · rintro rfl; exact hc ⟨_, hr, .inr rfl⟩
  have h2 := one_log h hs
  have h3 := (C21_prefix h hs hs' hc').length_le
  omega

/-- A session of enough calls has a beginning that ends with the first `Timeout` or `Complete`. -/
theorem ended_session {es : List Expr} {wl : List Word} (h : Ready es wl) (depth : Nat) :
    ∃ N, ∀ (limit : Option Nat) (clks : List Clock), N ≤ clks.length → ∃ rs, Ended rs ∧ rs.length ≤ clks.length ∧
      Session es wl depth limit (clks.take rs.length) rs := by
  obtain ⟨N, hN⟩ := stops h depth
  refine ⟨N, fun limit clks hl => ?_⟩
  obtain ⟨rs, hs, hlen⟩ := C42_no_crash h depth limit clks
  obtain ⟨k, hk, he⟩ := ended_of rs (hN _ _ _ hs (by omega))
  have hkl : (rs.take k).length = k := by rw [List.length_take]; omega
  refine ⟨rs.take k, he, by omega, ?_⟩
  rw [hkl]
  exact session_take hs k

/-! ### The HTTP loop -/

theorem syncLoop_run (p : Bool) : ∀ (a : List Resp) (r : Resp) {clks rest : List Clock} {q q' : QState} (body : List Char),
    q.run clks = .ok (q', a ++ [r]) → (∀ x ∈ a, x ≠ .timeout ∧ x ≠ .complete) → (r = .timeout ∨ r = .complete) →
    syncLoop p q (clks ++ rest) body =
      .ok (some (body ++ (reported a).flatMap (bodyLine p) ++ if r = .timeout then timeoutLine p else []))
  | a, r, [], rest, q, q', body, h, _, _ => by
    unfold QState.run at h
    injection h with h
    injection h with _ h
    exact absurd h (by simp)
  | [], r, c :: cs, rest, q, q', body, h, ha, hr => by
    obtain ⟨q1, r1, rs', h1, h2, h3⟩ := run_cons h
    rw [List.nil_append] at h3
    injection h3 with h3 h4
    subst h3
    rw [List.cons_append, syncLoop, h1]
    rcases hr with rfl | rfl <;> simp [reported]
  | x :: a, r, c :: cs, rest, q, q', body, h, ha, hr => by
    obtain ⟨q1, r1, rs', h1, h2, h3⟩ := run_cons h
    rw [List.cons_append] at h3
    injection h3 with h3 h4
    subst h3 h4
    have hx := ha x (by simp)
    have ih := fun b => syncLoop_run p a r (rest := rest) b h2 (fun y hy => ha y (by simp [hy])) hr
    rw [List.cons_append, syncLoop, h1]
    cases x with
    | timeout => simp at hx
    | complete => simp at hx
    | logs g =>
      show syncLoop p q1 (cs ++ rest) body = _
      rw [ih]
      rfl
    | matched ws =>
      show syncLoop p q1 (cs ++ rest) (body ++ bodyLine p ws) = _
      rw [ih]
      simp [reported]

end Noodle
