import Verif.Proofs.Collapse
/-
Facts about the construction of the automaton that hold for every syntax tree: state numbers stay in range and
no loop runs out of fuel.
-/
namespace Noodle
set_option autoImplicit false

/-- Every state number mentioned is at most the number of states. -/
def Bounded (n : Nat) (ss : List State) : Prop :=
  ∀ st ∈ ss, st.next ≤ n ∧ ∀ y : Nat, st.eps.testBit y = true → y ≤ n

theorem Bounded.mono {n m : Nat} {ss : List State} (h : Bounded n ss) (hm : n ≤ m) : Bounded m ss :=
  fun st hs => ⟨Nat.le_trans (h st hs).1 hm, fun y hy => Nat.le_trans ((h st hs).2 y hy) hm⟩

theorem Bounded.append {n : Nat} {a b : List State} (h : Bounded n a) (g : Bounded n b) : Bounded n (a ++ b) :=
  fun st hs => (List.mem_append.1 hs).elim (h st) (g st)

theorem Bounded.set {n i : Nat} {ss : List State} {st : State} (h : Bounded n ss)
    (hs : st.next ≤ n ∧ ∀ y : Nat, st.eps.testBit y = true → y ≤ n) : Bounded n (ss.set i st) := by
  intro x hx
  rcases List.mem_or_eq_of_mem_set hx with hx | rfl
  · exact h x hx
  · exact hs

theorem bounded_fresh (n : Nat) : Bounded n [State.fresh] := by
  intro st hs
  rw [List.mem_singleton] at hs
  subst hs
  simp [State.fresh]

/-- A construction step: the list grows and stays bounded. -/
def Grows (ss : List State) : Except Crash (List State) → Prop
  | .error x => x ≠ .fuel
  | .ok ss' => ss.length ≤ ss'.length ∧ Bounded ss'.length ss'

/-- A step that keeps the length and stays below a bound. -/
def Keeps (n : Nat) (ss : List State) : Except Crash (List State) → Prop
  | .error x => x ≠ .fuel
  | .ok ss' => ss'.length = ss.length ∧ Bounded n ss'

theorem insertEps_keeps {n i b : Nat} {ss : List State} (h : Bounded n ss) (hb : b ≤ n) :
    Keeps n ss (insertEps ss i b) := by
  unfold insertEps
  cases h1 : ss[i]? with
  | none => simp [Keeps]
  | some st =>
    simp only []
    split
    · simp [Keeps]
    · refine ⟨by simp, h.set ⟨(h st (List.mem_of_getElem? h1)).1, ?_⟩⟩
      intro y hy
      rw [testBit_or_shift, Bool.or_eq_true, decide_eq_true_eq] at hy
      rcases hy with hy | rfl
      · exact (h st (List.mem_of_getElem? h1)).2 y hy
      · exact hb

theorem repointAlt_keeps {n next e : Nat} {ss : List State} (h : Bounded n ss) (hb : next ≤ n) :
    Keeps n ss (repointAlt next ss e) := by
  unfold repointAlt
  cases h1 : ss[e]? with
  | none => simp [Keeps]
  | some st =>
    have hst := h st (List.mem_of_getElem? h1)
    simp only []
    split
    · simp [Keeps]
    · split
      · split
        · simp [Keeps]
        · refine ⟨by simp, h.set ⟨hb, ?_⟩⟩
          intro y hy
          rw [testBit_or_shift, Bool.or_eq_true, decide_eq_true_eq] at hy
          rcases hy with hy | rfl
          · rw [testBit_maskRemove, Bool.and_eq_true] at hy
            exact hst.2 y hy.1
          · exact hb
      · exact ⟨by simp, h.set ⟨hb, hst.2⟩⟩

theorem exitSub_keeps {n next e : Nat} {ss : List State} (h : Bounded n ss) (hb : next ≤ n) :
    Keeps n ss (exitSub next ss e) := by
  unfold exitSub
  cases h1 : ss[e]? with
  | none => simp [Keeps]
  | some st =>
    simp only []
    split
    · simp [Keeps]
    · have key : Keeps n ss (if st.eps.testBit (e + 1) then insertEps ss e next else .ok ss) := by
        split
        · exact insertEps_keeps h hb
        · exact ⟨rfl, h⟩
      revert key
      generalize (if st.eps.testBit (e + 1) then insertEps ss e next else Except.ok ss) = r
      intro key
      cases r with
      | error x => exact key
      | ok ss1 =>
        simp only []
        split
        · exact key
        · split
          · exact key
          · have := insertEps_keeps (i := st.next) key.2 hb
            revert this
            generalize insertEps ss1 st.next next = r
            intro this
            cases r with
            | error x => exact this
            | ok ss2 => exact ⟨this.1.trans key.1, this.2⟩

theorem overEnds_keeps {n : Nat} {f : List State → Nat → Except Crash (List State)}
    (hf : ∀ (ss : List State) (e : Nat), Bounded n ss → Keeps n ss (f ss e)) (es : List Nat) (ss : List State)
    (h : Bounded n ss) : Keeps n ss (overEnds f ss es) := by
  induction es generalizing ss with
  | nil => exact ⟨rfl, h⟩
  | cons e es ih =>
    simp only [overEnds]
    have := hf ss e h
    revert this
    generalize f ss e = r
    intro this
    cases r with
    | error x => exact this
    | ok ss1 =>
      simp only []
      have h2 := ih ss1 this.2
      revert h2
      generalize overEnds f ss1 es = r
      intro h2
      cases r with
      | error x => exact h2
      | ok ss2 => exact ⟨h2.1.trans this.1, h2.2⟩

theorem repLoop_grows {b : List State → Except Crash (List State)}
    (hb : ∀ ss, Bounded ss.length ss → Grows ss (b ss)) (start slack k i fin : Nat) (ss : List State)
    (h : Bounded ss.length ss) (hf : fin ≤ ss.length) :
    match repLoop b start slack k i fin ss with
    | .error x => x ≠ .fuel
    | .ok (ss', fin') => ss.length ≤ ss'.length ∧ Bounded ss'.length ss' ∧ fin' ≤ ss'.length := by
  induction k generalizing i fin ss with
  | zero => exact ⟨Nat.le_refl _, h, hf⟩
  | succ k ih =>
    simp only [repLoop]
    have key : Keeps ss.length ss (if i ≤ slack then insertEps ss start ss.length else .ok ss) := by
      split
      · exact insertEps_keeps h (Nat.le_refl _)
      · exact ⟨rfl, h⟩
    revert key
    generalize (if i ≤ slack then insertEps ss start ss.length else Except.ok ss) = r
    intro key
    cases r with
    | error x => exact key
    | ok ss1 =>
      simp only []
      have h1 : Bounded ss1.length ss1 := by rw [key.1]; exact key.2
      have h2 := hb ss1 h1
      revert h2
      generalize b ss1 = r
      intro h2
      cases r with
      | error x => exact h2
      | ok ss2 =>
        simp only []
        have h3 := ih (i + 1) ss1.length ss2 h2.2 h2.1
        revert h3
        generalize repLoop b start slack k (i + 1) ss1.length ss2 = r
        intro h3
        cases r with
        | error x => exact h3
        | ok p =>
          have := key.1
          exact ⟨Nat.le_trans (by rw [← key.1]; exact h2.1) h3.1, h3.2⟩

theorem bounded_fresh_append {ss : List State} (h : Bounded ss.length ss) :
    Bounded (ss ++ [State.fresh]).length (ss ++ [State.fresh]) := by
  rw [List.length_append]
  exact (h.mono (by simp)).append (bounded_fresh _)

theorem buildRep_grows {b : List State → Except Crash (List State)}
    (hb : ∀ ss, Bounded ss.length ss → Grows ss (b ss)) (min : Nat) (max : Option Nat) (ss : List State)
    (h : Bounded ss.length ss) : Grows ss (buildRep b min max ss) := by
  unfold buildRep
  simp only []
  split
  · simp [Grows]
  · have h1 := repLoop_grows hb ss.length (max.getD min - min) (Nat.max 1 (Nat.max min (max.getD min))) 0 0
      (ss ++ [State.fresh]) (bounded_fresh_append h) (Nat.zero_le _)
    revert h1
    generalize repLoop b ss.length (max.getD min - min) (Nat.max 1 (Nat.max min (max.getD min))) 0 0
      (ss ++ [State.fresh]) = r
    intro h1
    cases r with
    | error x => exact h1
    | ok p =>
      obtain ⟨ss1, fin⟩ := p
      obtain ⟨h1, h2, h3⟩ := h1
      simp only []
      simp only [List.length_append, List.length_singleton] at h1
      have k1 : Keeps (ss1.length + 1) (ss1 ++ [State.fresh])
          (insertEps (ss1 ++ [State.fresh]) ss1.length (ss1.length + 1)) :=
        insertEps_keeps (by have := bounded_fresh_append h2; simpa using this) (Nat.le_refl _)
      revert k1
      generalize insertEps (ss1 ++ [State.fresh]) ss1.length (ss1.length + 1) = r
      intro k1
      cases r with
      | error x => exact k1
      | ok ss2 =>
        simp only []
        obtain ⟨k1, k2⟩ := k1
        simp only [List.length_append, List.length_singleton] at k1
        have k3 : Keeps (ss1.length + 1) ss2 (if min = 0 then insertEps ss2 ss.length ss1.length else .ok ss2) := by
          split
          · exact insertEps_keeps k2 (by omega)
          · exact ⟨rfl, k2⟩
        revert k3
        generalize (if min = 0 then insertEps ss2 ss.length ss1.length else Except.ok ss2) = r
        intro k3
        cases r with
        | error x => exact k3
        | ok ss3 =>
          simp only []
          obtain ⟨k3, k4⟩ := k3
          have k5 : Keeps (ss1.length + 1) ss3 (if max = none then insertEps ss3 ss1.length fin else .ok ss3) := by
            split
            · exact insertEps_keeps k4 (by omega)
            · exact ⟨rfl, k4⟩
          revert k5
          generalize (if max = none then insertEps ss3 ss1.length fin else Except.ok ss3) = r
          intro k5
          cases r with
          | error x => exact k5
          | ok ss4 =>
            obtain ⟨k5, k6⟩ := k5
            refine ⟨by omega, ?_⟩
            rw [show ss4.length = ss1.length + 1 by omega]
            exact k6

mutual
theorem build_grows : ∀ (a : Ast) (ss : List State), Bounded ss.length ss → Grows ss (build a ss)
  | .cls c, ss, h => by
    simp only [build]
    refine ⟨by simp, ?_⟩
    rw [List.length_append]
    refine (h.mono (by simp)).append ?_
    intro st hs
    rw [List.mem_singleton] at hs
    subst hs
    simp
  | .alts l, ss, h => by
    simp only [build]
    have h1 := buildTerms_grows l ss.length (ss ++ [State.fresh]) [] (bounded_fresh_append h)
    revert h1
    generalize buildTerms l ss.length (ss ++ [State.fresh]) [] = r
    intro h1
    cases r with
    | error x => exact h1
    | ok p =>
      obtain ⟨ss1, ends⟩ := p
      obtain ⟨h1, h2⟩ := h1
      simp only [List.length_append, List.length_singleton] at h1
      simp only []
      have h3 := overEnds_keeps (f := repointAlt ss1.length) (fun ss e h => repointAlt_keeps h (Nat.le_refl _)) ends ss1 h2
      revert h3
      generalize overEnds (repointAlt ss1.length) ss1 ends = r
      intro h3
      cases r with
      | error x => exact h3
      | ok ss2 => exact ⟨by rw [h3.1]; omega, by rw [h3.1]; exact h3.2⟩
  | .seq l, ss, h => by
    simp only [build]
    exact buildSeq_grows l ss h
  | .substr l, ss, h => by
    simp only [build]
    have h1 := buildTerms_grows l ss.length (ss ++ [State.fresh]) [] (bounded_fresh_append h)
    revert h1
    generalize buildTerms l ss.length (ss ++ [State.fresh]) [] = r
    intro h1
    cases r with
    | error x => exact h1
    | ok p =>
      obtain ⟨ss1, ends⟩ := p
      obtain ⟨h1, h2⟩ := h1
      simp only [List.length_append, List.length_singleton] at h1
      simp only []
      have h3 := overEnds_keeps (f := exitSub ss1.length) (fun ss e h => exitSub_keeps h (Nat.le_refl _)) ends ss1 h2
      revert h3
      generalize overEnds (exitSub ss1.length) ss1 ends = r
      intro h3
      cases r with
      | error x => exact h3
      | ok ss2 => exact ⟨by rw [h3.1]; omega, by rw [h3.1]; exact h3.2⟩
  | .rep t min max, ss, h => by
    simp only [build]
    split
    · exact ⟨Nat.le_refl _, h⟩
    · split
      · exact build_grows t ss h
      · exact buildRep_grows (fun s hs => build_grows t s hs) min max ss h
  | .anagram _ _, ss, h => by simp [build, Grows]
theorem buildSeq_grows : ∀ (l : List Ast) (ss : List State), Bounded ss.length ss → Grows ss (buildSeq l ss)
  | [], ss, h => ⟨Nat.le_refl _, h⟩
  | a :: l, ss, h => by
    simp only [buildSeq]
    have h1 := build_grows a ss h
    revert h1
    generalize build a ss = r
    intro h1
    cases r with
    | error x => exact h1
    | ok ss1 =>
      simp only []
      have h2 := buildSeq_grows l ss1 h1.2
      revert h2
      generalize buildSeq l ss1 = r
      intro h2
      cases r with
      | error x => exact h2
      | ok ss2 => exact ⟨Nat.le_trans h1.1 h2.1, h2.2⟩
theorem buildTerms_grows : ∀ (l : List Ast) (start : Nat) (ss : List State) (ends : List Nat),
    Bounded ss.length ss →
    match buildTerms l start ss ends with
    | .error x => x ≠ .fuel
    | .ok (ss', _) => ss.length ≤ ss'.length ∧ Bounded ss'.length ss'
  | [], start, ss, ends, h => ⟨Nat.le_refl _, h⟩
  | a :: l, start, ss, ends, h => by
    simp only [buildTerms]
    have h0 := insertEps_keeps (i := start) h (Nat.le_refl _)
    revert h0
    generalize insertEps ss start ss.length = r
    intro h0
    cases r with
    | error x => exact h0
    | ok ss0 =>
      simp only []
      obtain ⟨h0, h0'⟩ := h0
      rw [← h0] at h0'
      have h1 := build_grows a ss0 h0'
      revert h1
      generalize build a ss0 = r
      intro h1
      cases r with
      | error x => exact h1
      | ok ss1 =>
        simp only []
        have h2 := buildTerms_grows l start ss1 (ends ++ [ss1.length - 1]) h1.2
        revert h2
        generalize buildTerms l start ss1 (ends ++ [ss1.length - 1]) = r
        intro h2
        cases r with
        | error x => exact h2
        | ok p => exact ⟨Nat.le_trans (by rw [← h0]; exact h1.1) h2.1, h2.2⟩
end

theorem rawStates_spec (a : Ast) :
    match rawStates a with
    | .error x => x ≠ .fuel
    | .ok ss => InRange ss ∧ 0 < ss.length ∧
        ss[ss.length - 1]? = some { eps := 0, cls := CharSet.ofCh Ch.wordEnd, next := ss.length - 1 } := by
  unfold rawStates
  have h := build_grows a [] (fun st hs => by cases hs)
  revert h
  generalize build a [] = r
  intro h
  cases r with
  | error x => exact h
  | ok ss =>
    simp only []
    refine ⟨?_, by simp, by simp⟩
    intro i st hi
    have hm := List.mem_of_getElem? hi
    rw [List.length_append, List.length_singleton]
    rw [List.mem_append, List.mem_singleton] at hm
    rcases hm with hm | rfl
    · exact ⟨Nat.lt_succ_of_le (h.2 st hm).1, fun y hy => Nat.lt_succ_of_le ((h.2 st hm).2 y hy)⟩
    · exact ⟨Nat.lt_succ_self _, fun y hy => by simp at hy⟩

end Noodle
