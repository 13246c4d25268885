import Verif.Proofs.BuildRange
/-
The optimisation loop on the automaton: it terminates, and what it returns is in range and closed.
-/
namespace Noodle
set_option autoImplicit false

theorem pruneStep_ne_fuel (ss : List State) (acc : Prune) (p : State × Nat) : pruneStep ss acc p ≠ .error .fuel := by
  unfold pruneStep
  simp only []
  split
  · simp
  · split
    · simp
    · split
      · simp
      · split
        · simp
        · split <;> simp

theorem pruneLoop_ne_fuel (ss : List State) (l : List (State × Nat)) (acc : Prune) :
    pruneLoop ss acc l ≠ .error .fuel := by
  induction l generalizing acc with
  | nil => simp [pruneLoop]
  | cons p l ih =>
    simp only [pruneLoop]
    have := pruneStep_ne_fuel ss acc p
    cases h : pruneStep ss acc p with
    | error x => rw [h] at this; exact this
    | ok a => exact ih a

theorem rebuild_ne_fuel (ss : List State) (m : List Nat) (l : List (Option Nat)) : rebuild ss m l ≠ .error .fuel := by
  induction l with
  | nil => simp [rebuild]
  | cons o l ih =>
    cases o with
    | none => simpa [rebuild] using ih
    | some f =>
      simp only [rebuild]
      cases h : ss[f]? with
      | none => simp
      | some st =>
        simp only []
        have hr : renumber m st ≠ .error .fuel := by
          unfold renumber
          split
          · simp
          · split <;> simp
        cases h2 : renumber m st with
        | error x => rw [h2] at hr; simpa using hr
        | ok st' =>
          simp only []
          cases h3 : rebuild ss m l with
          | error x => rw [h3] at ih; exact ih
          | ok r => simp

theorem prune_ne_fuel (ss : List State) : prune ss ≠ .error .fuel := by
  unfold prune
  have h := pruneLoop_ne_fuel ss ss.zipIdx { map := List.range ss.length, src := (List.range ss.length).map some, del := [] }
  revert h
  generalize pruneLoop ss _ _ = r
  intro h
  cases r with
  | error x => simpa using h
  | ok acc =>
    simp only []
    split
    · simp
    · split
      · simp
      · have := rebuild_ne_fuel ss acc.map acc.src
        cases h3 : rebuild ss acc.map acc.src with
        | error x => rw [h3] at this; simpa using this
        | ok r => simp

/-- What one collapse phase gives. -/
theorem collapseAll_spec {cap : Nat} {ss : List State} (hr : InRange ss) (P : List State → Prop)
    (step : ∀ ss ss' E C es cs, P ss → InRange ss → IsPair ss E C es cs → Collapsed ss ss' E C → P ss') (hP : P ss) :
    match collapseAll cap ss with
    | .error x => x = .ub ∧ 32 * Bits.blockSize cap < ss.length
    | .ok ss' => InRange ss' ∧ P ss' ∧ ss'.length ≤ ss.length ∧
      (0 < ss.length → 0 < ss'.length) ∧ (ss'.length = ss.length → ss' = ss) := by
  unfold collapseAll
  by_cases hcap : 32 * Bits.blockSize cap < ss.length
  · rw [if_pos hcap]; exact ⟨rfl, hcap⟩
  · rw [if_neg hcap]
    obtain ⟨ss', h1, h2⟩ := collapseLoop_spec P step (2 * ss.length + 1) 0 ss hr hP (by omega) (by omega)
    rw [h1]
    exact h2

theorem optLoop_spec (n cap : Nat) (ss : List State) (hr : InRange ss) (hpos : 0 < ss.length)
    (hn : ss.length < n) :
    match optLoop n cap ss with
    | .error x => x ≠ .fuel
    | .ok ss' => InRange ss' ∧ Closed ss' ∧ 0 < ss'.length := by
  induction n generalizing cap ss with
  | zero => omega
  | succ n ih =>
    simp only [optLoop]
    by_cases hcap : cap < ss.length
    · have : closure cap ss = .error .ub := by unfold closure; rw [if_pos hcap]
      rw [this]
      simp
    · obtain ⟨ss1, h1, hcl⟩ := closure_spec cap ss hr (by omega)
      rw [h1]
      simp only []
      have hp := prune_ne_fuel ss1
      cases h2 : prune ss1 with
      | error x => rw [h2] at hp; simpa using hp
      | ok p =>
        obtain ⟨ss2, cap2⟩ := p
        simp only []
        obtain ⟨f1, f2, f3, f4, f5⟩ := prune_facts h2
        have hc := collapseAll_spec (cap := cap2) f2 (fun _ => True) (fun _ _ _ _ _ _ _ _ _ _ => trivial) trivial
        cases h3 : collapseAll cap2 ss2 with
        | error x => rw [h3] at hc; simp only [] at hc ⊢; rw [hc.1]; simp
        | ok ss3 =>
          rw [h3] at hc
          simp only [] at hc ⊢
          obtain ⟨g1, -, g2, g3, g4⟩ := hc
          have hl1 := hcl.len
          by_cases heq : ss3.length = ss.length
          · rw [if_pos heq]
            have e2 : ss2.length = ss1.length := by omega
            obtain ⟨e2, _⟩ := f4 e2
            have e3 : ss3 = ss2 := g4 (by omega)
            rw [e3, e2]
            exact ⟨hcl.inRange hr, hcl.closed, by omega⟩
          · rw [if_neg heq]
            unfold shrink
            by_cases hs : (ss3.all fun st => decide (st.eps < 2 ^ ss3.length)) = true
            · rw [if_pos hs]
              exact ih _ _ g1 (g3 (f3 (by omega))) (by omega)
            · rw [if_neg hs]; simp

/-- What compilation returns, for every expression. -/
theorem fromAst_spec (a : ExprAst) :
    match fromAst a with
    | .error x => x ≠ .fuel
    | .ok e => InRange e.states ∧ Closed e.states ∧ 0 < e.states.length := by
  unfold fromAst
  have h := rawStates_spec a.root
  cases h1 : rawStates a.root with
  | error x => rw [h1] at h; exact h
  | ok ss =>
    rw [h1] at h
    simp only [] at h ⊢
    have h2 := optLoop_spec (ss.length + 1) maxSetSize ss h.1 h.2.1 (by omega)
    unfold optimize
    cases h3 : optLoop (ss.length + 1) maxSetSize ss with
    | error x => rw [h3] at h2; exact h2
    | ok ss' => rw [h3] at h2; exact h2

end Noodle
