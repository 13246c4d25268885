import Verif.Proofs.PruneLoop
import Verif.Proofs.Trim
import Verif.Proofs.OptimizeNfa
/-
The optimisation passes on a sound automaton: no crash, the same language.
-/
namespace Noodle
set_option autoImplicit false
open G

theorem IsPair.pr {ss : List State} {E C : Nat} {es cs : State} (h : IsPair ss E C es cs) :
    (view ss).Pr E C where
  c0 := h.ne0
  z := (view_Z h.hes).2 h.pure
  ne := h.ne
  nxe := by rw [view_nx h.hcs]; exact h.nextE
  nxc := by rw [view_nx h.hcs]; exact h.nextC
  sing := h.only
  ec := h.toC
  en := by rw [view_nx h.hcs]; exact h.toN
  sub := by rw [view_nx h.hcs]; exact h.sub

theorem Collapsed.coll {ss ss' : List State} {E C : Nat} (h : Collapsed ss ss' E C) (hr : InRange ss) :
    Coll (view ss) (view ss') E C where
  n := h.len
  ed := h.ed hr
  z := by
    intro x hx hxn
    obtain ⟨st, cs, k1, k2, k3⟩ := h.get x hx hxn
    have k3' : ss'[rm E C x]? = _ := k3
    rw [view_Z k3']
    by_cases hxe : x = E
    · rw [if_pos hxe, if_pos hxe, view_Z k2]; rfl
    · rw [if_neg hxe, if_neg hxe, view_Z k1]; rfl
  nx := by
    intro x hx hxn
    obtain ⟨st, cs, k1, k2, k3⟩ := h.get x hx hxn
    have k3' : ss'[rm E C x]? = _ := k3
    rw [view_nx k3']
    by_cases hxe : x = E
    · rw [if_pos hxe, if_pos hxe, view_nx k2]; rfl
    · rw [if_neg hxe, if_neg hxe, view_nx k1]; rfl

/-- The closure as a list of states and on the bare relations. -/
theorem view_closure {ss ss1 : List State} (hcl : IsClosure ss ss1) : view ss1 = (view ss).cl := by
  have hz : (view ss1).Z = (view ss).Z := by
    funext x
    apply propext
    have hs := hcl.same x
    constructor
    · rintro ⟨st, k1, k2⟩
      rw [k1] at hs
      cases hx : ss[x]? with
      | none => rw [hx] at hs; cases hs
      | some st' =>
        rw [hx] at hs
        simp only [Option.map_some, Option.some.injEq, Prod.mk.injEq] at hs
        exact ⟨st', hx, by rw [← hs.1]; exact k2⟩
    · rintro ⟨st, k1, k2⟩
      rw [k1] at hs
      cases hx : ss1[x]? with
      | none => rw [hx] at hs; cases hs
      | some st' =>
        rw [hx] at hs
        simp only [Option.map_some, Option.some.injEq, Prod.mk.injEq] at hs
        exact ⟨st', hx, by rw [hs.1]; exact k2⟩
  have hn : (view ss1).nx = (view ss).nx := by
    funext x
    have hs := congrArg (Option.map Prod.snd) (hcl.same x)
    rw [Option.map_map, Option.map_map] at hs
    show ((ss1[x]?).map State.next).getD 0 = ((ss[x]?).map State.next).getD 0
    exact congrArg (·.getD 0) hs
  have he : (view ss1).E = (view ss).cl.E := by
    funext x y
    apply propext
    show Ed (auto ss1) x y ↔ _
    rw [hcl.ed]
    rfl
  have hl : (view ss1).n = (view ss).n := hcl.len
  show G.mk (view ss1).n (view ss1).E (view ss1).Z (view ss1).nx = _
  rw [hl, he, hz, hn]
  rfl

/-- Fit for the passes, and with a given language. -/
structure Kept (L : List Ch → Prop) (ss : List State) : Prop where
  fit : (view ss).Fit
  accept : ∀ w, Accept ss w ↔ L w

theorem Clos.closed {ss : List State} (h : (view ss).Clos) : Closed ss := ⟨h.refl, h.trans⟩

theorem last_state {ss : List State} (h : (view ss).cl.Clos) :
    ∃ st, ss[ss.length - 1]? = some st ∧ st.cls ≠ CharSet.empty := by
  have hp : 0 < ss.length := h.pos
  have hg : ss[ss.length - 1]? = some (ss[ss.length - 1]'(by omega)) := List.getElem?_eq_getElem _
  exact ⟨_, hg, fun hc => h.lastZ ((view_Z hg).2 hc)⟩

theorem view_lt {ss : List State} (hr : InRange ss) (x y : Nat) (h : (view ss).E x y) :
    x < (view ss).n ∧ y < (view ss).n := ⟨h.lt, h.lt_right hr⟩

theorem Kept.step (L : List Ch → Prop) (ss ss' : List State) (E C : Nat) (es cs : State) (h : Kept L ss)
    (hr : InRange ss) (hp : IsPair ss E C es cs) (hc : Collapsed ss ss' E C) : Kept L ss' := by
  have pr := hp.pr
  have co := hc.coll hr
  have hlt := view_lt hr
  have hcl := h.fit.clos
  refine ⟨co.fit pr hlt h.fit, ?_⟩
  intro w
  rw [← h.accept]
  have hnx := view_nx hp.hcs
  obtain ⟨k1, k2⟩ := h.fit.collapse pr hlt
  have hact : ∀ (x : Nat) (st : State), ss[x]? = some st → st.cls ≠ CharSet.empty → (view ss).cl.Acts x :=
    fun x st hx hcl => ⟨(List.getElem?_eq_some_iff.1 hx).1, .inl fun hz => hcl ((view_Z hx).1 hz)⟩
  have noEdge : ∀ (x : Nat) (st : State), ss[x]? = some st → st.cls ≠ CharSet.empty → st.next ≠ C := by
    intro x st hx hcl
    have := k1 x (hact x st hx hcl)
    rwa [view_nx hx] at this
  refine hc.accept hp hr ⟨noEdge, ?_⟩ (last_state hcl) ?_ w
  · intro d hd e
    have := k2 d ?_ ?_ ?_ e
    · rwa [hnx] at this
    · rcases hd with rfl | ⟨x, st, m1, m2, rfl⟩
      · exact hcl.pos
      · exact (hr x st m1).1
    · rcases hd with rfl | ⟨x, st, m1, m2, rfl⟩
      · exact Ne.symm hp.ne0
      · exact noEdge x st m1 m2
    · rcases hd with rfl | ⟨x, st, m1, m2, rfl⟩
      · exact .inl rfl
      · exact .inr ⟨x, hact x st m1 m2, view_nx m1⟩
  · have := (pr.cl hlt).notLast hcl
    have e : (view ss).cl.n = ss.length := rfl
    omega

theorem blockSize_le (n : Nat) : n ≤ 32 * Bits.blockSize n := by
  unfold Bits.blockSize
  split <;> omega

theorem optLoop_sound (n cap : Nat) (ss ss1 : List State) (hr : InRange ss) (hn : ss.length < n) (hcap : ss.length ≤ cap)
    (hcl : IsClosure ss ss1) (hf : (view ss1).Sound) :
    ∃ ss', optLoop n cap ss = .ok ss' ∧ (view ss').Clos ∧ ∀ w, Accept ss' w ↔ Accept ss w := by
  induction n generalizing cap ss ss1 with
  | zero => omega
  | succ n ih =>
    simp only [optLoop]
    obtain ⟨ss1', h1, hcl'⟩ := closure_spec cap ss hr hcap
    have hr1' := hcl'.inRange hr
    obtain rfl : ss1' = ss1 := by
      refine states_ext (hcl'.len.trans hcl.len.symm) (fun i => (hcl'.same i).trans (hcl.same i).symm) ?_
      intro x y
      rw [hcl'.ed, hcl.ed]
    obtain ⟨ss2, p1, p2, ⟨φ, f, p3⟩, p5⟩ := prune_quot hr1' hf.prunable
    rw [h1]
    simp only [p1]
    obtain ⟨f1, f2⟩ := hf.fit _ _ _ p3
    have hk : Kept (Accept ss) ss2 := ⟨f2, fun w => (p5 w).trans (hcl.accept_iff w)⟩
    have hc := collapseAll_spec (cap := ss2.length) p2 (Kept (Accept ss)) (Kept.step _) hk
    have hlen := (prune_facts p1).1
    have hl1 := hcl.len
    cases h3 : collapseAll ss2.length ss2 with
    | error x =>
      rw [h3] at hc
      have := blockSize_le ss2.length
      simp only [] at hc
      omega
    | ok ss3 =>
      rw [h3] at hc
      simp only [] at hc ⊢
      obtain ⟨g1, g2, g3, g4, g5⟩ := hc
      by_cases heq : ss3.length = ss.length
      · rw [if_pos heq]
        have := g5 (by omega)
        rw [this]
        exact ⟨ss2, rfl, f1, hk.accept⟩
      · rw [if_neg heq]
        have hs : (ss3.all fun st => decide (st.eps < 2 ^ ss3.length)) = true := by
          rw [List.all_eq_true]
          intro st hst
          rw [decide_eq_true_eq]
          obtain ⟨i, hi, he⟩ := List.mem_iff_getElem.1 hst
          exact lt_two_pow_of_bits (g1 i st (by rw [List.getElem?_eq_getElem hi, he])).2
        unfold shrink
        rw [if_pos hs]
        simp only []
        obtain ⟨ss4, q1, q2⟩ := closure_spec ss3.length ss3 g1 (Nat.le_refl _)
        obtain ⟨ss', r1, r2, r3⟩ := ih ss3.length ss3 ss4 g1 (by omega) (Nat.le_refl _) q2
          (by rw [view_closure q2]; exact g2.fit.sound)
        exact ⟨ss', r1, r2, fun w => (r3 w).trans (g2.accept w)⟩

/-- If the closure of the unoptimised automaton is sound, optimisation succeeds and keeps the language. -/
theorem optimize_sound {ss ss1 : List State} (hr : InRange ss) (hcap : ss.length ≤ maxSetSize)
    (hcl : IsClosure ss ss1) (hf : (view ss1).Sound) :
    ∃ ss', optimize ss = .ok ss' ∧ (view ss').Clos ∧ ∀ w, Accept ss' w ↔ Accept ss w :=
  optLoop_sound _ _ ss ss1 hr (Nat.lt_succ_self _) hcap hcl hf

end Noodle
