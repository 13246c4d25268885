import Verif.Proofs.BuildRange
import Verif.Spec.Fragment
/-
The construction of the automaton, for every syntax tree: how many states it makes, and that it stays inside the
16384-bit state sets as long as there are fewer states than that.
-/
namespace Noodle
set_option autoImplicit false
open Spec

/-- The outcome has the given length, and is not an access outside the allocation. -/
def Fits (n : Nat) : Except Crash (List State) → Prop
  | .error x => x ≠ .ub
  | .ok ss' => ss'.length = n

theorem insertEps_fits {ss : List State} {i b : Nat} (hb : b < maxSetSize) : Fits ss.length (insertEps ss i b) := by
  unfold insertEps
  cases h1 : ss[i]? with
  | none => simp [Fits]
  | some st =>
    simp only []
    rw [if_neg (by omega)]
    simp [Fits]

theorem repointAlt_fits {ss : List State} {next e : Nat} (he : e + 1 < maxSetSize) (hn : next < maxSetSize) :
    Fits ss.length (repointAlt next ss e) := by
  unfold repointAlt
  cases h1 : ss[e]? with
  | none => simp [Fits]
  | some st =>
    simp only []
    rw [if_neg (by omega)]
    split
    · rw [if_neg (by omega)]; simp [Fits]
    · simp [Fits]

theorem exitSub_fits {ss : List State} {next e : Nat} (he : e + 1 < maxSetSize) (hn : next < maxSetSize) :
    Fits ss.length (exitSub next ss e) := by
  unfold exitSub
  cases h1 : ss[e]? with
  | none => simp [Fits]
  | some st =>
    simp only []
    rw [if_neg (by omega)]
    have h2 : Fits ss.length (if st.eps.testBit (e + 1) = true then insertEps ss e next else .ok ss) := by
      split
      · exact insertEps_fits hn
      · rfl
    revert h2
    generalize (if st.eps.testBit (e + 1) = true then insertEps ss e next else .ok ss) = r
    intro h2
    cases r with
    | error x => exact h2
    | ok ss1 =>
      simp only []
      have h2 : ss1.length = ss.length := h2
      split
      · exact h2
      · split
        · exact h2
        · rw [← h2]; exact insertEps_fits hn

theorem overEnds_fits {f : List State → Nat → Except Crash (List State)} {ends : List Nat}
    (h : ∀ ss, ∀ e ∈ ends, Fits ss.length (f ss e)) (ss : List State) : Fits ss.length (overEnds f ss ends) := by
  induction ends generalizing ss with
  | nil => simp [overEnds, Fits]
  | cons e es ih =>
    rw [overEnds]
    have h1 := h ss e (by simp)
    revert h1
    generalize f ss e = r
    intro h1
    cases r with
    | error x => exact h1
    | ok ss1 =>
      simp only []
      have h1 : ss1.length = ss.length := h1
      rw [← h1]
      exact ih (fun ss e he => h ss e (by simp [he])) ss1

theorem repLoop_fits {b : List State → Except Crash (List State)} {k M : Nat}
    (hb : ∀ ss, ss.length + k ≤ M → Fits (ss.length + k) (b ss)) (hM : M < maxSetSize) (start slack : Nat) :
    ∀ r i fin ss, ss.length + r * k ≤ M → (fin ≤ ss.length) →
      match repLoop b start slack r i fin ss with
      | .error x => x ≠ .ub
      | .ok (ss', fin') => ss'.length = ss.length + r * k ∧ fin' ≤ ss'.length := by
  intro r
  induction r with
  | zero => intro i fin ss _ hf; simp [repLoop]; exact hf
  | succ r ih =>
    intro i fin ss hl _
    rw [Nat.add_mul, Nat.one_mul] at hl
    rw [repLoop]
    have h1 : Fits ss.length (if i ≤ slack then insertEps ss start ss.length else .ok ss) := by
      split
      · exact insertEps_fits (by omega)
      · rfl
    revert h1
    generalize (if i ≤ slack then insertEps ss start ss.length else .ok ss) = q
    intro h1
    cases q with
    | error x => exact h1
    | ok ss1 =>
      simp only []
      have h1 : ss1.length = ss.length := h1
      have h2 := hb ss1 (by omega)
      revert h2
      generalize b ss1 = q
      intro h2
      cases q with
      | error x => exact h2
      | ok ss2 =>
        simp only []
        have h2 : ss2.length = ss1.length + k := h2
        have h3 := ih (i + 1) ss1.length ss2 (by omega) (by omega)
        revert h3
        generalize repLoop b start slack r (i + 1) ss1.length ss2 = q
        intro h3
        cases q with
        | error x => exact h3
        | ok p =>
          obtain ⟨ss3, fin3⟩ := p
          refine ⟨?_, h3.2⟩
          rw [h3.1, Nat.add_mul]; omega

theorem buildRep_fits {b : List State → Except Crash (List State)} {k M lo : Nat} {hi : Option Nat}
    (hb : ∀ ss, ss.length + k ≤ M → Fits (ss.length + k) (b ss)) (hM : M < maxSetSize) (ss : List State)
    (hl : ss.length + (2 + Nat.max 1 (Nat.max lo (hi.getD lo)) * k) ≤ M) :
    Fits (ss.length + (2 + Nat.max 1 (Nat.max lo (hi.getD lo)) * k)) (buildRep b lo hi ss) := by
  unfold buildRep
  simp only []
  split
  · simp [Fits]
  · have h1 := repLoop_fits hb hM ss.length (hi.getD lo - lo) (Nat.max 1 (Nat.max lo (hi.getD lo))) 0 0
      (ss ++ [State.fresh]) (by rw [List.length_append, List.length_singleton]; omega) (by omega)
    revert h1
    generalize repLoop b ss.length (hi.getD lo - lo) (Nat.max 1 (Nat.max lo (hi.getD lo))) 0 0 (ss ++ [State.fresh]) = q
    intro h1
    cases q with
    | error x => exact h1
    | ok p =>
      obtain ⟨ss1, fin⟩ := p
      obtain ⟨h1, hfin⟩ := h1
      rw [List.length_append, List.length_singleton] at h1
      simp only []
      have h2 : Fits (ss1 ++ [State.fresh]).length (insertEps (ss1 ++ [State.fresh]) ss1.length (ss1.length + 1)) :=
        insertEps_fits (by omega)
      rw [List.length_append, List.length_singleton] at h2
      revert h2
      generalize insertEps (ss1 ++ [State.fresh]) ss1.length (ss1.length + 1) = q
      intro h2
      cases q with
      | error x => exact h2
      | ok ss2 =>
        simp only []
        have h2 : ss2.length = ss1.length + 1 := h2
        have h3 : Fits ss2.length (if lo = 0 then insertEps ss2 ss.length ss1.length else .ok ss2) := by
          split
          · exact insertEps_fits (by omega)
          · rfl
        revert h3
        generalize (if lo = 0 then insertEps ss2 ss.length ss1.length else .ok ss2) = q
        intro h3
        cases q with
        | error x => exact h3
        | ok ss3 =>
          simp only []
          have h3 : ss3.length = ss2.length := h3
          have hlen : ss3.length = ss.length + (2 + Nat.max 1 (Nat.max lo (hi.getD lo)) * k) := by omega
          split
          · rw [← hlen]; exact insertEps_fits (by omega)
          · exact hlen

mutual
theorem build_fits : ∀ (a : Ast) (ss : List State), ss.length + states a < maxSetSize →
    Fits (ss.length + states a) (build a ss)
  | .cls c, ss, h => by simp [build, Fits, states]
  | .alts l, ss, h => by
    rw [states] at h ⊢
    simp only [build]
    have h1 := buildTerms_fits l ss.length (ss ++ [State.fresh]) [] (by simp; omega) (by simp)
    revert h1
    generalize buildTerms l ss.length (ss ++ [State.fresh]) [] = r
    intro h1
    cases r with
    | error x => exact h1
    | ok p =>
      obtain ⟨ss1, ends⟩ := p
      obtain ⟨h1, h2⟩ := h1
      rw [List.length_append, List.length_singleton] at h1
      simp only []
      have h3 := overEnds_fits (f := repointAlt ss1.length) (ends := ends)
        (fun ss e he => repointAlt_fits (by have := h2 e he; omega) (by omega)) ss1
      have e : ss1.length = ss.length + (1 + statesAll l) := by omega
      rw [← e]
      exact h3
  | .seq l, ss, h => by
    rw [states] at h ⊢
    simp only [build]
    exact buildSeq_fits l ss h
  | .substr l, ss, h => by
    rw [states] at h ⊢
    simp only [build]
    have h1 := buildTerms_fits l ss.length (ss ++ [State.fresh]) [] (by simp; omega) (by simp)
    revert h1
    generalize buildTerms l ss.length (ss ++ [State.fresh]) [] = r
    intro h1
    cases r with
    | error x => exact h1
    | ok p =>
      obtain ⟨ss1, ends⟩ := p
      obtain ⟨h1, h2⟩ := h1
      rw [List.length_append, List.length_singleton] at h1
      simp only []
      have h3 := overEnds_fits (f := exitSub ss1.length) (ends := ends)
        (fun ss e he => exitSub_fits (by have := h2 e he; omega) (by omega)) ss1
      have e : ss1.length = ss.length + (1 + statesAll l) := by omega
      rw [← e]
      exact h3
  | .rep t lo hi, ss, h => by
    rw [states] at h ⊢
    simp only [build]
    by_cases h0 : lo = 0 ∧ hi = some 0
    · rw [if_pos h0, if_pos h0]; simp [Fits]
    · rw [if_neg h0] at h ⊢
      rw [if_neg h0]
      by_cases h1 : lo = 1 ∧ hi = some 1
      · rw [if_pos h1] at h ⊢
        rw [if_pos h1]
        exact build_fits t ss h
      · rw [if_neg h1] at h ⊢
        rw [if_neg h1]
        exact buildRep_fits (M := ss.length + (2 + Nat.max 1 (Nat.max lo (hi.getD lo)) * states t))
          (fun s hs => build_fits t s (by omega)) h ss (Nat.le_refl _)
  | .anagram _ _, ss, h => by simp [build, Fits]
theorem buildSeq_fits : ∀ (l : List Ast) (ss : List State), ss.length + statesAll l < maxSetSize →
    Fits (ss.length + statesAll l) (buildSeq l ss)
  | [], ss, h => by simp [buildSeq, Fits, statesAll]
  | a :: l, ss, h => by
    rw [statesAll] at h ⊢
    simp only [buildSeq]
    have h1 := build_fits a ss (by omega)
    revert h1
    generalize build a ss = r
    intro h1
    cases r with
    | error x => exact h1
    | ok ss1 =>
      have h1 : ss1.length = ss.length + states a := h1
      simp only []
      rw [← Nat.add_assoc, ← h1]
      exact buildSeq_fits l ss1 (by omega)
theorem buildTerms_fits : ∀ (l : List Ast) (start : Nat) (ss : List State) (ends : List Nat),
    ss.length + statesAll l < maxSetSize → (0 < ss.length ∧ ∀ e ∈ ends, e + 1 ≤ ss.length) →
    match buildTerms l start ss ends with
    | .error x => x ≠ .ub
    | .ok (ss', ends') => ss'.length = ss.length + statesAll l ∧ ∀ e ∈ ends', e + 1 ≤ ss'.length
  | [], start, ss, ends, h, he => by simp [buildTerms, statesAll]; exact he.2
  | a :: l, start, ss, ends, h, he => by
    rw [statesAll] at h ⊢
    simp only [buildTerms]
    have h0 : Fits ss.length (insertEps ss start ss.length) := insertEps_fits (by omega)
    revert h0
    generalize insertEps ss start ss.length = r
    intro h0
    cases r with
    | error x => exact h0
    | ok ss0 =>
      have h0 : ss0.length = ss.length := h0
      simp only []
      have h1 := build_fits a ss0 (by omega)
      revert h1
      generalize build a ss0 = r
      intro h1
      cases r with
      | error x => exact h1
      | ok ss1 =>
        have h1 : ss1.length = ss0.length + states a := h1
        simp only []
        have h2 := buildTerms_fits l start ss1 (ends ++ [ss1.length - 1]) (by omega) ⟨by omega, by
          intro e hm
          rw [List.mem_append, List.mem_singleton] at hm
          rcases hm with hm | rfl
          · have := he.2 e hm; omega
          · omega⟩
        revert h2
        generalize buildTerms l start ss1 (ends ++ [ss1.length - 1]) = r
        intro h2
        cases r with
        | error x => exact h2
        | ok p => exact ⟨by rw [h2.1]; omega, h2.2⟩
end

/-- The unoptimised automaton has one more state than the expression. -/
theorem rawStates_fits (a : Ast) (h : states a < maxSetSize) : Fits (states a + 1) (rawStates a) := by
  unfold rawStates
  have h1 := build_fits a [] (by simpa using h)
  revert h1
  generalize build a [] = r
  intro h1
  cases r with
  | error x => exact h1
  | ok ss =>
    have h1 : ss.length = _ := h1
    simp only [Fits, List.length_append, List.length_singleton, h1, List.length_nil, Nat.zero_add]

/-- Many copies of a class do not fit. -/
theorem rep_overflows (c : CharSet) (n : Nat) (h : maxSetSize ≤ n) : rawStates (.rep (.cls c) n (some n)) = .error .ub := by
  have hms : maxSetSize = 16384 := rfl
  have hloop : ∀ r i fin (ss : List State) start, 0 < i → ∃ ss' fin', ss'.length = ss.length + r ∧
      repLoop (fun s => build (.cls c) s) start 0 r i fin ss = .ok (ss', fin') := by
    intro r
    induction r with
    | zero => intro i fin ss start _; exact ⟨ss, fin, rfl, rfl⟩
    | succ r ih =>
      intro i fin ss start hi
      rw [repLoop, if_neg (by omega)]
      simp only [build]
      obtain ⟨ss', fin', h1, h2⟩ := ih (i + 1) ss.length (ss ++ [⟨0, c, ss.length + 1⟩]) start (by omega)
      refine ⟨ss', fin', ?_, h2⟩
      rw [h1, List.length_append, List.length_singleton]; omega
  have hn : n = (n - 1) + 1 := by omega
  have hmx : Nat.max 1 (Nat.max n n) = n := by
    show max 1 (max n n) = n
    omega
  unfold rawStates
  rw [build, if_neg (by omega), if_neg (by omega), buildRep]
  simp only [Option.getD_some, List.nil_append, List.length_nil]
  rw [if_neg (by omega), hmx, Nat.sub_self]
  obtain ⟨ss1, fin1, h1, h2⟩ := hloop (n - 1) 1 1 ([⟨0 ||| 1 <<< 1, CharSet.empty, 0⟩] ++ [⟨0, c, 2⟩]) 0 (by omega)
  have h3 : repLoop (fun s => build (.cls c) s) 0 0 n 0 0 [State.fresh] = .ok (ss1, fin1) := by
    rw [hn, repLoop, if_pos (Nat.le_refl _)]
    exact h2
  rw [h3]
  simp only []
  have h4 : insertEps (ss1 ++ [State.fresh]) ss1.length (ss1.length + 1) = .error .ub := by
    unfold insertEps
    simp only [List.getElem?_concat_length]
    rw [if_pos]
    rw [h1]
    simp
    omega
  rw [h4]

end Noodle
