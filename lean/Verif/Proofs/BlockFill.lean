import Verif.Proofs.BlockRep
import Verif.Spec.Match
import Mathlib.Tactic.ByContra
/-
The transition tables over blocks (Model/Blocks.lean, `fillTable`) hold what the tables of Model/Expr.lean hold.
-/
namespace Noodle.Blk
set_option autoImplicit false
open Noodle.Bits (Bits Bits3 Block blockSize Mem)

/-- The blocks of the expression `e` hold the sets of `a`, each created for as many elements as there are states. -/
structure RExpr (e : Expr) (a : Noodle.Expr) : Prop where
  states : List.Forall₂ (fun s t => Rep1 a.len a.len s.eps t.eps ∧ s.cls = t.cls ∧ s.next = t.next) e.states a.states
  wb : e.ignWB = a.ignWB
  punct : e.ignPunct = a.ignPunct
  fuzz : e.fuzz = a.fuzz
  pos : 0 < a.len
  next_lt : ∀ (i : Nat) (st : Noodle.State), a.states[i]? = some st → st.next < a.len

theorem RExpr.len {e : Expr} {a : Noodle.Expr} (h : RExpr e a) : e.states.length = a.len := h.states.length_eq

theorem RExpr.eps {e : Expr} {a : Noodle.Expr} (h : RExpr e a) {i : Nat} (hi : i < a.len) :
    ∃ r, e.eps i = .ok r ∧ Rep1 a.len a.len r (a.eps i) := by
  have h1 : i < e.states.length := by rw [h.len]; exact hi
  have h2 : i < a.states.length := hi
  have := List.Forall₂.get h.states h1 h2
  refine ⟨e.states[i].eps, ?_, ?_⟩
  · simp [Expr.eps, h1]
  · have e2 : a.eps i = a.states[i].eps := by simp [Noodle.Expr.eps, h2]
    rw [e2]
    exact this.1

theorem forall₂_zipIdx {α β : Type} {R : α → β → Prop} {l : List α} {l' : List β} (h : List.Forall₂ R l l') (k : Nat) :
    List.Forall₂ (fun p q => R p.1 q.1 ∧ p.2 = q.2) (l.zipIdx k) (l'.zipIdx k) := by
  induction h generalizing k with
  | nil => exact .nil
  | cons h1 _ ih => exact .cons ⟨h1, rfl⟩ (ih (k + 1))

theorem charTransitions_rel {e : Expr} {a : Noodle.Expr} (h : RExpr e a) (cb : CharSet) {s : Bits} {m : Nat}
    (hs : Rep1 a.len a.len s m) :
    ∃ r, charTransitions e cb s = .ok r ∧ Rep1 a.len a.len r (Noodle.charTransitions a cb m) := by
  unfold charTransitions Noodle.charTransitions
  rw [hs.isEmpty, h.len]
  by_cases hm : m = 0
  · simp only [hm, decide_true, if_true]
    exact ⟨_, rfl, rep1_new _ _ (Nat.le_refl _)⟩
  · simp only [hm, decide_false, Bool.false_eq_true, if_false]
    refine foldM_rel (Rep1 a.len a.len) _ _ _ _ _ (forall₂_zipIdx h.states 0) ?_ _ _
      (rep1_new _ _ (Nat.le_refl _))
    rintro ⟨x, i⟩ ⟨y, j⟩ b c hx hy ⟨⟨_, hcls, hnext⟩, rfl⟩ hbc
    have hmem := List.mk_mem_zipIdx_iff_getElem?.1 hy
    have hj : i < a.len := by
      have := List.getElem?_eq_some_iff.1 hmem
      exact this.1
    have hn := h.next_lt _ _ hmem
    rw [← hnext] at hn
    obtain ⟨tt, h1, h2⟩ := h.eps hn
    obtain ⟨r', h3, h4⟩ := hbc.union h2 (Nat.le_refl _)
    simp only at hcls hnext
    simp only [hs.contains hj, ub_some, bind_ok, hcls]
    by_cases hc : (m.testBit i && cb.intersects y.cls) = true
    · rw [if_pos hc, if_pos hc, h1, bind_ok, h3, ← hnext]
      exact ⟨_, rfl, h4⟩
    · rw [if_neg hc, if_neg hc]
      exact ⟨_, rfl, hbc⟩

/-- A table of the word phase. -/
abbrev RT (a : Noodle.Expr) : Bits3 → Tbl → Prop := Rep3 a.len (a.fuzz + 1) a.len (fun _ => a.len)

theorem RT.rowlen {a : Noodle.Expr} {t : Bits3} {T : Tbl} (h : RT a t T) {s : Nat} (hs : s < a.len) :
    (T.row s).length = a.fuzz + 1 := h.rlen s hs

theorem set_row_self {T : Tbl} {s : Nat} (hs : s < T.length) : T.set s (T.row s) = T := by
  apply tbl_ext (by simp)
  intro i hi
  rw [row_set _ _ _ _ hs]
  split
  · rename_i h
    rw [h]
  · rfl

theorem baseLoop_rel {e : Expr} {a : Noodle.Expr} (h : RExpr e a) (c : Ch) {low up : Bits3} {L U : Tbl} (hl : RT a low L)
    (hu : RT a up U) {s : Nat} (hs : s < a.len) :
    ∃ up', (List.range (e.fuzz + 1)).foldlM (baseStep e c low s) (up, true) =
        .ok (up', (List.range (a.fuzz + 1)).all fun f => (L.row s).at f == 0) ∧
      RT a up' (U.set s ((List.range (a.fuzz + 1)).map fun f =>
        if (L.row s).at f = 0 then 0 else Noodle.charTransitions a (CharSet.ofCh c) ((L.row s).at f))) := by
  rw [h.fuzz]
  have hU : s < U.length := by rw [hu.tlen]; exact hs
  refine Exists.elim (foldM_range (baseStep e c low s)
    (fun k st => (∃ R : Rows, RT a st.1 (U.set s R) ∧ R.length = a.fuzz + 1 ∧
        ∀ j, j < a.fuzz + 1 → R.at j = if j < k then (if (L.row s).at j = 0 then 0 else
          Noodle.charTransitions a (CharSet.ofCh c) ((L.row s).at j)) else (U.row s).at j) ∧
      st.2 = (List.range k).all fun f => (L.row s).at f == 0) (a.fuzz + 1) ?_ (up, true)
    ⟨⟨U.row s, by rw [set_row_self hU]; exact hu, hu.rowlen hs, by simp⟩, by simp⟩) ?_
  · rintro k hk ⟨u, fl⟩ ⟨⟨R, h2, h3, h4⟩, h5⟩
    simp only at h2 h5
    obtain ⟨r, hr, hrep⟩ := hl.row s hs k hk
    have hRU : Tbl.row (U.set s R) s = R := by rw [row_set _ _ _ _ hU, if_pos rfl]
    unfold baseStep
    rw [hr, ub_some, bind_ok, hrep.isEmpty]
    by_cases hz : (L.row s).at k = 0
    · simp only [hz, decide_true, if_true]
      obtain ⟨u', h6, h7⟩ := h2.modifyRow hs hk (fun r => some (Bits.clear r)) 0
        (fun r hr => ⟨_, rfl, hr.clear⟩)
      rw [h6, ub_some, bind_ok]
      refine ⟨_, rfl, ⟨R.set k 0, ?_, by simp [h3], ?_⟩, ?_⟩
      · rw [hRU, List.set_set] at h7
        exact h7
      · intro j hj
        rw [at_set _ _ _ _ (by omega), h4 j hj]
        by_cases hjk : j = k
        · subst hjk
          simp [hz]
        · have : j < k + 1 ↔ j < k := by omega
          simp [hjk, this]
      · simp [h5, List.range_succ, hz]
    · simp only [hz, decide_false, Bool.false_eq_true, if_false]
      obtain ⟨tt, h8, h9⟩ := charTransitions_rel h (CharSet.ofCh c) hrep
      rw [h8, bind_ok]
      obtain ⟨u', h6, h7⟩ := h2.modifyRow hs hk (fun r => Bits.copyFrom r tt)
        (Noodle.charTransitions a (CharSet.ofCh c) ((L.row s).at k)) (fun r hr => ⟨_, hr.copyFrom h9, h9⟩)
      rw [h6, ub_some, bind_ok]
      refine ⟨_, rfl, ⟨R.set k (Noodle.charTransitions a (CharSet.ofCh c) ((L.row s).at k)), ?_, by simp [h3], ?_⟩, ?_⟩
      · rw [hRU, List.set_set] at h7
        exact h7
      · intro j hj
        rw [at_set _ _ _ _ (by omega), h4 j hj]
        by_cases hjk : j = k
        · subst hjk
          simp [hz]
        · have : j < k + 1 ↔ j < k := by omega
          simp [hjk, this]
      · simp [List.range_succ, hz]
  · rintro ⟨up', fl⟩ ⟨h1, ⟨R, h2, h3, h4⟩, h5⟩
    refine ⟨up', ?_, ?_⟩
    · rw [h1]
      simp only at h5
      rw [h5]
    · have : R = ((List.range (a.fuzz + 1)).map fun f =>
        if (L.row s).at f = 0 then 0 else Noodle.charTransitions a (CharSet.ofCh c) ((L.row s).at f)) := by
        apply rows_ext (by simp [h3])
        intro j hj
        rw [h3] at hj
        rw [h4 j hj, if_pos hj]
        simp [Rows.at, hj]
      rw [← this]
      exact h2

theorem fuzzLoop_rel {e : Expr} {a : Noodle.Expr} (h : RExpr e a) (c : Ch) {low up : Bits3} {L U : Tbl} (hl : RT a low L)
    {s : Nat} (hs : s < a.len) (hU : s < U.length) {R : Rows} (hR : R.length = a.fuzz + 1) (hu : RT a up (U.set s R)) :
    ∃ st', (List.range e.fuzz).foldlM (fuzzStep e c low s) (up, Bits.new e.states.length) = .ok st' ∧
      RT a st'.1 (U.set s ((List.range a.fuzz).foldl (Noodle.fuzzStep a c (L.row s)) (R, 0)).1) := by
  rw [h.fuzz, h.len]
  refine Exists.elim (foldM_rel₁
    (fun (st : Bits3 × Bits) (ac : Rows × Nat) => RT a st.1 (U.set s ac.1) ∧ ac.1.length = a.fuzz + 1 ∧
      Rep1 a.len a.len st.2 ac.2)
    (fuzzStep e c low s) (Noodle.fuzzStep a c (L.row s)) (List.range a.fuzz) ?_
    (up, Bits.new a.len) (R, 0) ⟨hu, hR, rep1_new _ _ (Nat.le_refl _)⟩) ?_
  · rintro f ⟨u, sup⟩ ⟨R, sp⟩ hf ⟨h2, h3, h4⟩
    simp only at h2 h3 h4
    have hf1 : f < a.fuzz + 1 := by have := List.mem_range.1 hf; omega
    have hf2 : f + 1 < a.fuzz + 1 := by have := List.mem_range.1 hf; omega
    have hRU : ∀ R', Tbl.row (U.set s R') s = R' := fun R' => by rw [row_set _ _ _ _ hU, if_pos rfl]
    obtain ⟨r, hr, hrep⟩ := hl.row s hs f hf1
    unfold fuzzStep Noodle.fuzzStep
    rw [hr, ub_some, bind_ok, hrep.isEmpty]
    by_cases hz : (L.row s).at f = 0
    · simp only [hz, decide_true, if_true]
      exact ⟨_, rfl, h2, h3, h4⟩
    · simp only [hz, decide_false, Bool.false_eq_true, if_false]
      have hlen : f + 1 < R.length := by omega
      obtain ⟨u1, e1, g1⟩ := h2.modifyRow hs hf2 (fun r' => Bits.union r' r) _
        (fun r' hr' => hr'.union hrep (Nat.le_refl _))
      rw [hRU, List.set_set] at g1
      rw [e1, ub_some, bind_ok]
      obtain ⟨ch, e2, g2⟩ := charTransitions_rel h CharSet.letters hrep
      rw [e2, bind_ok]
      obtain ⟨u2, e3, g3⟩ := g1.modifyRow hs hf2 (fun r' => Bits.union r' ch) _
        (fun r' hr' => hr'.union g2 (Nat.le_refl _))
      rw [hRU, List.set_set, at_set _ _ _ _ hlen, if_pos rfl, List.set_set] at g3
      rw [e3, ub_some, bind_ok]
      obtain ⟨ins, e4, g4⟩ := charTransitions_rel h (CharSet.ofCh c) g2
      rw [e4, bind_ok]
      obtain ⟨u3, e5, g5⟩ := g3.modifyRow hs hf2 (fun r' => Bits.union r' ins) _
        (fun r' hr' => hr'.union g4 (Nat.le_refl _))
      rw [hRU, List.set_set, at_set _ _ _ _ hlen, if_pos rfl, List.set_set] at g5
      rw [e5, ub_some, bind_ok]
      obtain ⟨u4, e6, g6⟩ := g5.modifyRow hs hf2 (fun r' => Bits.difference r' sup) _
        (fun r' hr' => hr'.difference h4)
      rw [hRU, List.set_set, at_set _ _ _ _ hlen, if_pos rfl, List.set_set] at g6
      rw [e6, ub_some, bind_ok]
      obtain ⟨row, e7, g7⟩ := g6.row s hs (f + 1) hf2
      rw [hRU, at_set _ _ _ _ hlen, if_pos rfl] at g7
      rw [e7, ub_some, bind_ok]
      obtain ⟨sup', e8, g8⟩ := h4.union g7 (Nat.le_refl _)
      rw [e8, ub_some, bind_ok]
      exact ⟨_, rfl, g6, by simp [h3], g8⟩
  · rintro st' ⟨h1, ⟨h2, _, _⟩⟩
    exact ⟨st', h1, h2⟩

theorem stateStep_rel {e : Expr} {a : Noodle.Expr} (h : RExpr e a) (c : Ch) {low up : Bits3} {L U : Tbl} (hl : RT a low L)
    (hu : RT a up U) {s : Nat} (hs : s < a.len) (fl : Bool) :
    ∃ up', stateStep e c low (up, fl) s =
        .ok (up', fl && (List.range (a.fuzz + 1)).all fun f => (L.row s).at f == 0) ∧
      RT a up' (U.set s (Noodle.fillRow a c (L.row s))) := by
  obtain ⟨u1, h1, h2⟩ := baseLoop_rel h c hl hu hs
  unfold stateStep Noodle.fillRow
  rw [h1, bind_ok]
  simp only
  cases hb : (List.range (a.fuzz + 1)).all fun f => (L.row s).at f == 0 with
  | true =>
    simp only [if_true]
    exact ⟨u1, by simp, h2⟩
  | false =>
    simp only [Bool.false_eq_true, if_false]
    obtain ⟨st', h3, h4⟩ := fuzzLoop_rel h c hl hs (by rw [hu.tlen]; exact hs) (by simp) h2
    rw [h3, bind_ok]
    exact ⟨st'.1, by simp, h4⟩

theorem stateLoop_rel {e : Expr} {a : Noodle.Expr} (h : RExpr e a) (c : Ch) (single : Bool) {low up : Bits3} {L U : Tbl}
    (hl : RT a low L) (hu : RT a up U) :
    ∃ up', (List.range (if single then 1 else e.states.length)).foldlM (stateStep e c low) (up, true) =
        .ok (up', Noodle.allEmpty a single L) ∧ RT a up' (Noodle.fillTbl a single c L U) := by
  have hn : (if single then 1 else e.states.length) = Noodle.nStart a single := by
    rw [h.len]; rfl
  have hle : Noodle.nStart a single ≤ a.len := by
    unfold Noodle.nStart
    have := h.pos
    split <;> omega
  rw [hn]
  refine Exists.elim (foldM_range (stateStep e c low)
    (fun k st => (∃ V : Tbl, RT a st.1 V ∧
        ∀ i, i < a.len → V.row i = if i < k then Noodle.fillRow a c (L.row i) else U.row i) ∧
      st.2 = (List.range k).all fun s => (List.range (a.fuzz + 1)).all fun f => (L.row s).at f == 0)
    (Noodle.nStart a single) ?_ (up, true) ⟨⟨U, hu, by simp⟩, by simp⟩) ?_
  · rintro k hk ⟨u, fl⟩ ⟨⟨V, h2, h3⟩, h5⟩
    simp only at h2 h5
    have hka : k < a.len := by omega
    obtain ⟨u', h6, h7⟩ := stateStep_rel h c hl h2 hka fl
    refine ⟨_, h6, ⟨_, h7, ?_⟩, ?_⟩
    · intro i hi
      rw [row_set _ _ _ _ (by rw [h2.tlen]; exact hka), h3 i hi]
      by_cases hik : i = k
      · subst hik
        simp
      · have : i < k + 1 ↔ i < k := by omega
        simp [hik, this]
    · simp only [h5, List.range_succ, List.all_append]
      simp
  · rintro ⟨up', fl⟩ ⟨h1, ⟨V, h2, h3⟩, h5⟩
    refine ⟨up', ?_, ?_⟩
    · rw [h1]
      simp only at h5
      rw [h5]
      rfl
    · have : V = Noodle.fillTbl a single c L U := by
        apply tbl_ext (by simp [Noodle.fillTbl, h2.tlen, hu.tlen])
        intro i hi
        rw [h2.tlen] at hi
        rw [h3 i hi]
        have hi' : i < U.length := by rw [hu.tlen]; exact hi
        simp [Noodle.fillTbl, Tbl.row, hi']
      rw [← this]
      exact h2

theorem ignores_eq {e : Expr} {a : Noodle.Expr} (h : RExpr e a) (c : Ch) : e.ignores c = a.ignores c := by
  unfold Expr.ignores Noodle.Expr.ignores
  rw [h.wb, h.punct]

theorem fillTable_rel {e : Expr} {a : Noodle.Expr} (h : RExpr e a) (single : Bool) (cs : List Ch) {cur : Bits3} {C : Tbl}
    {rest : List Bits3} {Rs : List Tbl} (hc : RT a cur C) (hr : List.Forall₂ (RT a) rest Rs) :
    RelE (fun x y => x.1 = y.1 ∧ List.Forall₂ (RT a) x.2 y.2) (fillTable e single cs cur rest)
      (Noodle.fillTable a single cs C Rs) := by
  induction cs generalizing cur C rest Rs with
  | nil => exact .ok ⟨rfl, hr⟩
  | cons c cs ih =>
    cases hr with
    | nil => exact .error _
    | cons hup hrest =>
      rename_i up U rest Rs
      unfold fillTable Noodle.fillTable
      rw [ignores_eq h]
      cases a.ignores c with
      | true =>
        obtain ⟨h1, h2⟩ := hup.copy hc
        simp only [if_true, h1, ub_some, bind_ok, h2]
        have := ih hc hrest
        revert this
        generalize fillTable e single cs cur rest = x
        generalize Noodle.fillTable a single cs C Rs = y
        intro hxy
        cases hxy with
        | error x => exact .error _
        | ok hab =>
          rw [bind_ok]
          exact .ok ⟨by rw [hab.1], .cons hc hab.2⟩
      | false =>
        obtain ⟨u, h1, h2⟩ := stateLoop_rel h c single hc hup
        simp only [Bool.false_eq_true, if_false, h1, bind_ok]
        cases Noodle.allEmpty a single C with
        | true => exact .ok ⟨rfl, .cons h2 hrest⟩
        | false =>
          simp only [Bool.false_eq_true, if_false]
          have := ih h2 hrest
          revert this
          generalize fillTable e single cs u rest = x
          generalize Noodle.fillTable a single cs _ Rs = y
          intro hxy
          cases hxy with
          | error x => exact .error _
          | ok hab =>
            rw [bind_ok]
            exact .ok ⟨by rw [hab.1], .cons h2 hab.2⟩

end Noodle.Blk
