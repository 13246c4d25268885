import Verif.Proofs.Optimize
import Verif.Model.Query
import Mathlib.Data.List.Forall2
import Mathlib.Data.List.Induction
import Mathlib.Data.Finset.Card
/-
The query planner: the optimisation loop preserves every matching phrase.
-/
namespace Noodle
open Spec List

/-! ### One matcher -/

/-- `optimize_for_wordlist`. -/
theorem optimize_spec {e : Expr} {D : Nat} {m : WM} (h : MInv e D m) (new : List Word) (hs : new <+ m.alive)
    (queue : List SearchPhase) (hq : queue ≠ []) (hD : maxDepth queue ≤ D) :
    ∃ (m' : WM) (did : Bool) (keep : Word → Bool), m.optimize new queue = .ok (m', did) ∧
      MInv e (maxDepth queue) m' ∧ m'.alive = new.filter keep ∧
      (∀ ws : List Word, ws ≠ [] → ws.length ≤ maxDepth queue → (∀ w ∈ ws, w ∈ new) → Matches e (charsOf ws) →
        ∀ w ∈ ws, keep w = true) ∧
      (m'.alive ≠ [] → ∀ ci ∈ m'.pm.wordClasses, ci ≠ 0) ∧
      (did = true → m'.alive = [] ∨ m'.pm.statesLen < m.pm.statesLen) ∧
      m'.pm.statesLen ≤ m.pm.statesLen ∧
      (did = false → (∀ ci ∈ m.pm.wordClasses, ci ≠ 0) → m'.alive = new) ∧
      (m.alive = [] → did = false) ∧
      (e.fuzz = 0 → ∀ w ∈ m'.alive, ∃ us vs, (∀ v ∈ us ++ vs, v ∈ new) ∧ Matches e (charsOf (us ++ w :: vs))) := by
  unfold WM.optimize
  rw [if_neg (by have := hs.length_le; omega)]
  by_cases hal : m.alive = []
  · have hnew : new = [] := by rw [hal] at hs; simpa using hs
    rw [if_pos hal, if_pos hnew]
    refine ⟨m, false, fun _ => true, rfl, h.mono hD, by simp [hal, hnew], fun _ _ _ _ _ _ _ => rfl,
      fun hc => absurd hal hc, by simp, Nat.le_refl _, fun _ _ => by rw [hal, hnew], fun _ => rfl,
      fun _ w hw => by rw [hal] at hw; simp at hw⟩
  · rw [if_neg hal]
    obtain ⟨T, hT⟩ := h.body hal
    have hfst : (m.alive.zip m.pm.wordClasses).map Prod.fst = m.alive :=
      List.map_fst_zip (by rw [hT.wcl])
    obtain ⟨hf1, hf2, hf3⟩ := filterAlive_spec (fun w => decide (T w = emptyTbl m.pm.statesLen m.pm.fuzzLimit))
      (m.alive.zip m.pm.wordClasses) (fun p hp => by
        rw [(hT.cls p.1 p.2 hp).2]; simp) new (by rw [hfst]; exact hs)
    generalize filterAlive (m.alive.zip m.pm.wordClasses) new = r at hf1 hf2 hf3
    simp only
    rw [if_neg (by simpa using hf1)]
    have hlt : (r.1.all fun p => decide (p.2 < m.pm.classes.length)) = true := by
      rw [List.all_eq_true]
      intro p hp
      obtain ⟨wc, hc⟩ := (hT.cls p.1 p.2 (hf3 p hp).1).1
      simpa using (List.getElem?_eq_some_iff.1 hc).1
    rw [hlt, if_neg (by simp)]
    obtain ⟨hr1, hr2, hr3, hr4⟩ := recount_spec m.pm.classes r.1
    have hgetc : ∀ (ci : Nat) t wc, m.pm.classes[ci]? = some (t, wc) → ∃ wc', (recount m.pm.classes r.1)[ci]? = some (t, wc') := by
      intro ci t wc hc
      have := hr1 ci
      rw [hc] at this
      cases hx : (recount m.pm.classes r.1)[ci]? with
      | none => rw [hx] at this; simp at this
      | some p =>
        rw [hx] at this
        simp only [Option.map_some, Option.some.injEq] at this
        exact ⟨p.2, by rw [← this]⟩
    have hsub : ∀ w ∈ r.1.map Prod.fst, w ∈ m.alive := by
      intro w hw
      obtain ⟨p, hp, rfl⟩ := List.mem_map.1 hw
      exact (List.of_mem_zip (hf3 p hp).1).1
    have hMB : MB e (maxDepth queue) { m.pm with classes := recount m.pm.classes r.1, wordClasses := r.1.map Prod.snd }
        (r.1.map Prod.fst) T := by
      have hT' := hT.mono hD
      refine ⟨hT'.fl, hT'.pos, ?_, by simp, ?_, hT'.start, fun w hw => hT'.range w (hsub w hw), ?_, ?_,
        fun ws h1 h2 => hT'.snd ws h1 fun w hw => hsub w (h2 w hw), fun w hw => hT'.shape w (hsub w hw)⟩
      · obtain ⟨wc, rest, hc⟩ := hT'.cls0
        obtain ⟨wc', h0⟩ := hgetc 0 (emptyTbl m.pm.statesLen m.pm.fuzzLimit) wc (by rw [hc]; rfl)
        cases hx : recount m.pm.classes r.1 with
        | nil => rw [hx] at h0; simp at h0
        | cons p rest =>
          rw [hx] at h0
          simp only [List.getElem?_cons_zero, Option.some.injEq] at h0
          exact ⟨wc', rest, by rw [h0]⟩
      · intro w ci hm
        rw [zip_fst_snd] at hm
        obtain ⟨⟨wc, hc⟩, h0⟩ := hT'.cls w ci (hf3 _ hm).1
        exact ⟨hgetc ci _ wc hc, h0⟩
      · intro ws h1 h2 h3
        exact hT'.acc ws h1 h2 fun w hw => hsub w (h3 w hw)
      · rcases hT'.dom with ⟨h0, hd⟩ | hno
        · exact Or.inl ⟨h0, fun w hw => hd w (hsub w hw)⟩
        · exact Or.inr fun ws h1 h2 h3 => hno ws h1 h2 fun w hw => hsub w (h3 w hw)
    obtain ⟨m', did, keep, g1, g2, g3, g4, g5, g6, g7, g8, g9⟩ := reduce_spec
      (m := { m with alive := r.1.map Prod.fst,
                     pm := { m.pm with classes := recount m.pm.classes r.1, wordClasses := r.1.map Prod.snd } })
      queue hq hr2 rfl hMB
      (by
        intro ci hci
        obtain ⟨p, hp, rfl⟩ := List.mem_map.1 hci
        exact (hf3 p hp).2)
      (by
        intro w ci hm p hp
        simp only [zip_fst_snd] at hm
        exact hr3 w ci hm p hp)
      (by
        intro t ht
        obtain ⟨q, hq, rfl⟩ := List.mem_map.1 ht
        obtain ⟨hq1, hq2⟩ := List.mem_filter.1 hq
        obtain ⟨j, hj⟩ := List.mem_iff_getElem?.1 hq1
        obtain ⟨w, hw⟩ := hr4 j q hj (by simpa using hq2)
        refine ⟨w, List.mem_map.2 ⟨_, hw, rfl⟩, ?_⟩
        obtain ⟨⟨wc, hc⟩, _⟩ := hT.cls w j (hf3 _ hw).1
        have := hr1 j
        rw [hj, hc] at this
        simpa using this.symm)
    refine ⟨m', did, fun w => keep w && !decide (T w = emptyTbl m.pm.statesLen m.pm.fuzzLimit), g1, g2, ?_, ?_, g5, g6, g8, ?_,
      fun hc => absurd hc hal, fun hf w hw => ?_⟩
    · rw [g3]; simp only [hf2]; rw [List.filter_filter]
    · intro ws h1 h2 h3 hma w hw
      have hnz : ∀ w ∈ ws, T w ≠ emptyTbl m.pm.statesLen m.pm.fuzzLimit := by
        obtain ⟨s, k, _, _, hp⟩ := (hT.acc ws h1 (by omega) fun w hw => hs.subset (h3 w hw)).2 hma
        exact path_nonempty hp
      have hin : ∀ w ∈ ws, w ∈ r.1.map Prod.fst := by
        intro w hw
        rw [hf2, List.mem_filter]
        exact ⟨h3 w hw, by simpa using hnz w hw⟩
      show (keep w && !decide (T w = emptyTbl m.pm.statesLen m.pm.fuzzLimit)) = true
      rw [g4 ws h1 h2 hin hma w hw]
      simpa using hnz w hw
    · intro hdid hcl
      rw [g7 hdid]
      show r.1.map Prod.fst = new
      rw [hf2]
      apply List.filter_eq_self.2
      intro w hw
      obtain ⟨ci, hci⟩ := hT.has (hs.subset hw)
      have := hcl ci (List.of_mem_zip hci).2
      have h0 := (hT.cls w ci hci).2
      simp only [Bool.not_eq_true', decide_eq_false_iff_not]
      exact fun hc => this (h0.2 hc)
    · obtain ⟨us, vs, h1, h2⟩ := g9 hf w hw
      refine ⟨us, vs, fun v hv => ?_, h2⟩
      have hv : v ∈ r.1.map Prod.fst := h1 v hv
      rw [hf2] at hv
      exact (List.mem_filter.1 hv).1

/-! ### The initial matchers -/

theorem insertWord_body {pm : PM} {L : List Word} {T : Word → Tbl} {w : Word} {z : Tbl}
    (h0 : ∃ wc rest, pm.classes = (z, wc) :: rest) (hl : pm.wordClasses.length = L.length)
    (hc : ∀ w ci, (w, ci) ∈ L.zip pm.wordClasses → (∃ wc, pm.classes[ci]? = some (T w, wc)) ∧ (ci = 0 ↔ T w = z))
    (hmt : ∀ p ∈ pm.classes, p.2.minTranche = 0) :
    (∃ wc rest, (pm.insertWord w (T w)).classes = (z, wc) :: rest) ∧
    (pm.insertWord w (T w)).wordClasses.length = (L ++ [w]).length ∧
    (∀ v ci, (v, ci) ∈ (L ++ [w]).zip (pm.insertWord w (T w)).wordClasses →
      (∃ wc, (pm.insertWord w (T w)).classes[ci]? = some (T v, wc)) ∧ (ci = 0 ↔ T v = z)) ∧
    (∀ p ∈ (pm.insertWord w (T w)).classes, p.2.minTranche = 0) := by
  obtain ⟨wc0, rest, h0⟩ := h0
  obtain ⟨⟨suf, e1, e2⟩, ⟨wc1, e3⟩, e4⟩ := entryIdx_spec pm.classes (T w) z wc0 rest h0
  unfold PM.insertWord
  generalize entryIdx pm.classes (T w) = E at e1 e2 e3 e4
  obtain ⟨i, cl⟩ := E
  simp only at e1 e2 e3 e4 ⊢
  have hget : ∀ (j : Nat) t wc, cl[j]? = some (t, wc) →
      ∃ wc', (cl.modify i fun q => (q.1, q.2.add w))[j]? = some (t, wc') := by
    intro j t wc hj
    have := modify_fst cl i w j
    rw [hj] at this
    cases hx : (cl.modify i fun q => (q.1, q.2.add w))[j]? with
    | none => rw [hx] at this; simp at this
    | some p =>
      rw [hx] at this
      simp only [Option.map_some, Option.some.injEq] at this
      exact ⟨p.2, by rw [← this]⟩
  refine ⟨?_, by simp [hl], ?_, ?_⟩
  · obtain ⟨wc', hx⟩ := hget 0 z wc0 (by rw [e1, h0]; rfl)
    cases hm : (cl.modify i fun q => (q.1, q.2.add w)) with
    | nil => rw [hm] at hx; simp at hx
    | cons p r =>
      rw [hm] at hx
      simp only [List.getElem?_cons_zero, Option.some.injEq] at hx
      exact ⟨wc', r, by rw [hx]⟩
  · intro v ci hm
    rw [List.zip_append hl.symm] at hm
    rcases List.mem_append.1 hm with hm | hm
    · obtain ⟨⟨wc, h1⟩, h2⟩ := hc v ci hm
      refine ⟨hget ci _ wc ?_, h2⟩
      rw [e1, List.getElem?_append_left (List.getElem?_eq_some_iff.1 h1).1]; exact h1
    · simp only [List.zip_cons_cons, List.zip_nil_right, List.mem_singleton, Prod.mk.injEq] at hm
      obtain ⟨rfl, rfl⟩ := hm
      exact ⟨hget _ _ wc1 e3, e4⟩
  · apply modify_mt
    rw [e1]
    intro p hp
    rcases List.mem_append.1 hp with hp | hp
    · exact hmt p hp
    · exact e2 p hp

theorem foldl_insert {e : Expr} (L : List Word) :
    let pm := L.foldl (fun pm w => pm.insertWord w (wordTbl e w.chars)) (PM.new e)
    pm.statesLen = e.len ∧ pm.fuzzLimit = e.fuzz + 1 ∧ pm.start = e.eps 0 ∧
    (∃ wc rest, pm.classes = (emptyTbl e.len (e.fuzz + 1), wc) :: rest) ∧
    pm.wordClasses.length = L.length ∧
    (∀ v ci, (v, ci) ∈ L.zip pm.wordClasses →
      (∃ wc, pm.classes[ci]? = some (canonT e v, wc)) ∧ (ci = 0 ↔ canonT e v = emptyTbl e.len (e.fuzz + 1))) ∧
    (∀ p ∈ pm.classes, p.2.minTranche = 0) := by
  induction L using List.reverseRecOn with
  | nil =>
    refine ⟨rfl, rfl, rfl, ⟨{}, [], rfl⟩, rfl, by simp, ?_⟩
    intro p hp
    have : p = (emptyTbl e.len (e.fuzz + 1), {}) := by simpa [PM.new] using hp
    rw [this]
  | append_singleton L w ih =>
    simp only [List.foldl_append, List.foldl_cons, List.foldl_nil] at ih ⊢
    obtain ⟨h1, h2, h3, h4, h5, h6, h7⟩ := ih
    obtain ⟨k1, k2, k3, k4⟩ := insertWord_body (T := canonT e) (w := w) h4 h5 h6 h7
    exact ⟨h1, h2, h3, k1, k2, k3, k4⟩

theorem MInv.init {e : Expr} (hw : WF e) {maxLen : Nat} {m : WM} {P : List Word} (h : WMInv e false maxLen m P) (D : Nat) :
    MInv e D m := by
  have hpm := h.pm rfl
  have hfold := foldl_insert (e := e) (P.filter fun w => aliveB e false w.chars)
  rw [show (P.filter fun w => aliveB e false w.chars).foldl (fun pm w => pm.insertWord w (wordTbl e w.chars)) (PM.new e) =
    pmOf e P from rfl, ← hpm, ← h.alive] at hfold
  obtain ⟨h1, h2, h3, h4, h5, h6, h7⟩ := hfold
  refine ⟨h7, h2, fun _ => ⟨canonT e, ?_⟩⟩
  refine ⟨h2, by rw [h1]; exact hw.nonempty, by rw [h1, h2]; exact h4, h5, by rw [h1, h2]; exact h6, ?_, ?_, ?_, ?_, ?_, ?_⟩
  · intro s hs; rw [h3] at hs; rw [h1]; exact hw.eps_lt _ _ hs
  · intro w _ s f d hb
    rw [h1]
    exact ⟨wordTbl_bit_src e _ _ _ _ hb, (wordTbl_bit_dst e hw _ _ _ _ hb).1⟩
  · intro ws h8 _ _
    rw [h1, h2, h3]
    exact pacc_iff_matches e hw ws h8
  · left
    rw [h3, h2]
    refine ⟨hw.refl 0 hw.nonempty, fun w _ j k d hj hk hc => canon_dom e hw w j k d hj (by omega) hc⟩
  · intro ws h8 _
    rw [h1, h2, h3]
    exact (pacc_iff_matches e hw ws h8).1
  · intro w _
    rw [h1, h2]
    refine ⟨by simp [canonT, wordTbl], fun r hr => ?_⟩
    obtain ⟨s, _, rfl⟩ := List.mem_map.1 hr
    exact wordRow_length _ _ _

/-! ### A pass over all matchers -/

/-- Number of states of the matchers, the measure of the loop. -/
def msize (ms : List WM) : Nat := (ms.map fun m => m.pm.statesLen).sum

/-- No word of the matcher has the empty class. -/
def Clean (m : WM) : Prop := ∀ ci ∈ m.pm.wordClasses, ci ≠ 0

/-- Invariant of a matcher during planning: good for phrases of up to `D` words over `A`. -/
def PInv (D : Nat) (A : List Word) (e : Expr) (m : WM) : Prop := MInv e D m ∧ A <+ m.alive

/-- After a pass: no word in use has the empty class. -/
def QInv (D : Nat) (A : List Word) (e : Expr) (m : WM) : Prop :=
  PInv D A e m ∧ (A ≠ [] → ∀ ci ∈ m.pm.wordClasses, ci ≠ 0)

theorem optimizePass_spec {D : Nat} (queue : List SearchPhase) (hq : queue ≠ []) (hD : maxDepth queue ≤ D)
    (es : List Expr) : ∀ (ms : List WM) (A : List Word), Forall₂ (PInv D A) es ms →
      ∃ (ms' : List WM) (A' : List Word) (conv : Bool) (keep : Word → Bool),
        optimizePass queue ms A = .ok (ms', A', conv) ∧ A' = A.filter keep ∧
        Forall₂ (QInv (maxDepth queue) A') es ms' ∧
        (∀ ws : List Word, ws ≠ [] → ws.length ≤ maxDepth queue → (∀ w ∈ ws, w ∈ A) →
          (∀ e ∈ es, Matches e (charsOf ws)) → ∀ w ∈ ws, keep w = true) ∧
        (conv = true → A' = A ∧ ∀ m ∈ ms', m.alive = A') ∧
        msize ms' ≤ msize ms ∧
        (conv = false → (∀ m ∈ ms, Clean m) → A' = [] ∨ msize ms' < msize ms) ∧
        (A = [] → ∀ m ∈ ms', m.alive = []) ∧
        ((∀ m ∈ ms, m.alive = []) → conv = true) ∧
        (es.length = 1 → ∀ m ∈ ms', m.alive = A') := by
  induction es with
  | nil =>
    intro ms A h
    cases h
    exact ⟨[], A, true, fun _ => true, rfl, (List.filter_eq_self.2 fun _ _ => rfl).symm, Forall₂.nil,
      fun _ _ _ _ _ _ _ => rfl, by simp, Nat.le_refl _, by simp, by simp, by simp, by simp⟩
  | cons e es ih =>
    intro ms A h
    cases h with
    | @cons _ m _ ms h1 h2 =>
    obtain ⟨m', did, k, o1, o2, o3, o4, o5, o6, o7, o8, o9, _⟩ := optimize_spec h1.1 A h1.2 queue hq hD
    rw [optimizePass, o1]
    simp only
    have hlenA : m'.alive.length ≤ A.length := by rw [o3]; exact List.length_filter_le _ _
    have hAm := h1.2.length_le
    by_cases hlen : m'.alive.length = A.length
    · have hA : m'.alive = A := by
        rw [o3] at hlen ⊢
        exact List.filter_eq_self.2 (List.length_filter_eq_length_iff.1 hlen)
      rw [if_neg (by simpa using hlen)]
      obtain ⟨ms', A', conv, k2, p1, p2, p3, p4, p5, p6, p7, p8, p9, p10⟩ := ih ms A h2
      rw [p1]
      simp only
      refine ⟨_, _, _, k2, rfl, p2, Forall₂.cons ⟨⟨o2, ?_⟩, ?_⟩ p3, ?_, ?_, ?_, ?_, ?_, ?_, ?_⟩
      · rw [hA, p2]; exact List.filter_sublist
      · intro hne
        apply o5
        rw [hA]
        intro hc
        rw [p2, hc] at hne; exact hne rfl
      · intro ws h3 h4 h5 h6
        exact p4 ws h3 h4 h5 fun e he => h6 e (by simp [he])
      · intro hc
        simp only [Bool.and_eq_true, Bool.not_eq_true'] at hc
        obtain ⟨a, b⟩ := p5 hc.2
        refine ⟨a, ?_⟩
        intro x hx
        rcases List.mem_cons.1 hx with rfl | hx
        · rw [hA, a]
        · exact b x hx
      · simp only [msize, List.map_cons, List.sum_cons] at p6 ⊢
        omega
      · intro hc hcl
        simp only [msize, List.map_cons, List.sum_cons] at p6 p7 ⊢
        cases hd : did with
        | true =>
          rcases o6 hd with h0 | hlt
          · left
            rw [p2, ← hA, h0]; rfl
          · right; omega
        | false =>
          rw [hd] at hc
          simp only [Bool.not_false, Bool.true_and] at hc
          rcases p7 hc fun x hx => hcl x (by simp [hx]) with h0 | hlt
          · exact Or.inl h0
          · right; omega
      · intro hA0 x hx
        rcases List.mem_cons.1 hx with rfl | hx
        · rw [hA, hA0]
        · exact p8 hA0 x hx
      · intro hall
        rw [o9 (hall m (by simp)), p9 fun x hx => hall x (by simp [hx])]; rfl
      · intro h1 x hx
        have hes0 : es = [] := by simpa using h1
        subst hes0
        cases h2
        simp only [optimizePass, Except.ok.injEq, Prod.mk.injEq] at p1
        obtain ⟨rfl, rfl, _⟩ := p1
        rw [List.mem_singleton] at hx
        rw [hx, hA]
    · rw [if_pos hlen, if_neg (by omega)]
      have hAne : A ≠ [] := by
        rintro rfl
        simp at hlen hlenA
        exact hlen hlenA
      have hmne : m.alive ≠ [] := by
        intro hc; rw [hc] at hAm; exact hAne (List.length_eq_zero_iff.1 (by simpa using hAm))
      by_cases hnil : m'.alive = []
      · rw [if_pos hnil]
        refine ⟨_, [], false, k, rfl, by rw [← o3, hnil], ?_, ?_, by simp, ?_, ?_, ?_, ?_, ?_⟩
        · refine Forall₂.cons ⟨⟨o2, List.nil_sublist _⟩, fun hc => absurd rfl hc⟩ ?_
          exact h2.imp fun e m hm => ⟨⟨hm.1.mono hD, List.nil_sublist _⟩, fun hc => absurd rfl hc⟩
        · intro ws h3 h4 h5 h6
          exact o4 ws h3 h4 h5 (h6 e (by simp))
        · simp only [msize, List.map_cons, List.sum_cons]
          omega
        · exact fun _ _ => Or.inl rfl
        · exact fun hc => absurd hc hAne
        · exact fun hall => absurd (hall m (by simp)) hmne
        · intro h1 x hx
          have hes0 : es = [] := by simpa using h1
          subst hes0
          cases h2
          rw [List.mem_singleton] at hx
          rw [hx, hnil]
      · rw [if_neg hnil]
        have hsubl : m'.alive <+ A := by rw [o3]; exact List.filter_sublist
        obtain ⟨ms', A', conv, k2, p1, p2, p3, p4, p5, p6, p7, p8, p9, p10⟩ := ih ms m'.alive
          (h2.imp fun e m hm => ⟨hm.1, hsubl.trans hm.2⟩)
        rw [p1]
        simp only
        refine ⟨_, _, _, fun w => k2 w && k w, rfl, ?_, Forall₂.cons ⟨⟨o2, ?_⟩, fun _ => o5 hnil⟩ p3, ?_, by simp,
          ?_, ?_, ?_, ?_, ?_⟩
        · rw [p2, o3, List.filter_filter]
        · rw [p2]; exact List.filter_sublist
        · intro ws h3 h4 h5 h6 w hw
          have hk := o4 ws h3 h4 h5 (h6 e (by simp))
          have hin : ∀ w ∈ ws, w ∈ m'.alive := by
            intro w hw
            rw [o3, List.mem_filter]; exact ⟨h5 w hw, hk w hw⟩
          show (k2 w && k w) = true
          rw [hk w hw, p4 ws h3 h4 hin (fun e he => h6 e (by simp [he])) w hw]; rfl
        · simp only [msize, List.map_cons, List.sum_cons] at p6 ⊢
          omega
        · intro _ hcl
          simp only [msize, List.map_cons, List.sum_cons] at p6 ⊢
          cases hd : did with
          | true =>
            rcases o6 hd with h0 | hlt
            · exact absurd h0 hnil
            · right; omega
          | false =>
            exact absurd (by rw [o8 hd (hcl m (by simp))]) hlen
        · exact fun hc => absurd hc hAne
        · exact fun hall => absurd (hall m (by simp)) hmne
        · intro h1 x hx
          have hes0 : es = [] := by simpa using h1
          subst hes0
          cases h2
          simp only [optimizePass, Except.ok.injEq, Prod.mk.injEq] at p1
          obtain ⟨rfl, rfl, _⟩ := p1
          rw [List.mem_singleton] at hx
          rw [hx]

/-- The number of different lengths in a queue. -/
def depths (q : List SearchPhase) : Nat := (q.map SearchPhase.depth).toFinset.card

theorem depths_filter_lt (q : List SearchPhase) (G : Nat → Bool) (h : (q.filter fun p => G p.depth).length < q.length) :
    depths (q.filter fun p => G p.depth) < depths q := by
  unfold depths
  apply Finset.card_lt_card
  rw [Finset.ssubset_iff_of_subset]
  · have : ¬ ∀ p ∈ q, G p.depth = true := fun hc => by
      rw [List.filter_eq_self.2 hc] at h; omega
    simp only [not_forall] at this
    obtain ⟨p, hp, hG⟩ := this
    refine ⟨p.depth, by simpa using ⟨p, hp, rfl⟩, ?_⟩
    simp only [List.mem_toFinset, List.mem_map, List.mem_filter, not_exists, not_and]
    intro x hx hxd
    rw [hxd] at hx
    exact hG hx.2
  · intro d
    simp only [List.mem_toFinset, List.mem_map, List.mem_filter]
    rintro ⟨p, ⟨hp, _⟩, rfl⟩
    exact ⟨p, hp, rfl⟩

theorem depths_filter_le (q : List SearchPhase) (G : Nat → Bool) :
    depths (q.filter fun p => G p.depth) ≤ depths q := by
  rcases Nat.lt_or_ge (q.filter fun p => G p.depth).length q.length with h | h
  · exact (depths_filter_lt q G h).le
  · rw [(List.filter_sublist (l := q)).eq_of_length_le h]

open Classical in
/-- The part of the loop's measure that is not about sizes. -/
noncomputable def stage (ms : List WM) (A : List Word) : Nat :=
  if A = [] then (if ∀ m ∈ ms, m.alive = [] then 0 else 1)
  else if ∀ m ∈ ms, Clean m then 2 else 3

theorem stage_le (ms : List WM) (A : List Word) : stage ms A ≤ 3 := by
  unfold stage; split <;> split <;> omega

/-! ### Filtering the queue -/

theorem filterAll_ok (pms : List PM) (hmt : ∀ pm ∈ pms, ∀ p ∈ pm.classes, p.2.minTranche = 0) (q : List SearchPhase) :
    filterAll pms q = .ok (q.filter fun p => pms.all fun pm => keepDepth pm p.depth) := by
  unfold filterAll
  induction pms generalizing q with
  | nil => simp
  | cons pm pms ih =>
    rw [List.foldl_cons]
    simp only
    rw [filterPhases_ok pm (hmt pm (by simp)), ih fun pm' h => hmt pm' (by simp [h])]
    rw [List.filter_filter]
    congr 1
    apply List.filter_congr
    intro p _
    rw [List.all_cons, Bool.and_comm]

/-- The lengths kept by all matchers. -/
def keepAll (pms : List PM) (d : Nat) : Bool := pms.all fun pm => keepDepth pm d

theorem filterFix_ok (pms : List PM) (hmt : ∀ pm ∈ pms, ∀ p ∈ pm.classes, p.2.minTranche = 0) (n : Nat)
    (q : List SearchPhase) (hn : 0 < n) (hn2 : (q.filter fun p => keepAll pms p.depth).length = q.length ∨ 1 < n) (ch : Bool) :
    ∃ ch', filterFix pms n q ch = .ok (q.filter (fun p => keepAll pms p.depth), ch') ∧
      ((q.filter fun p => keepAll pms p.depth) ≠ [] → ch = false → ch' = true →
        (q.filter fun p => keepAll pms p.depth).length < q.length) := by
  obtain ⟨n, rfl⟩ : ∃ k, n = k + 1 := ⟨n - 1, by omega⟩
  rw [filterFix, filterAll_ok pms hmt]
  simp only
  change ∃ ch', (if (q.filter fun p => keepAll pms p.depth) = [] then _ else if
    q.length ≠ (q.filter fun p => keepAll pms p.depth).length then filterFix pms n (q.filter fun p => keepAll pms p.depth) true
    else Except.ok (q.filter fun p => keepAll pms p.depth, ch)) = _ ∧ _
  by_cases h0 : (q.filter fun p => keepAll pms p.depth) = []
  · rw [if_pos h0]
    exact ⟨ch, rfl, fun hc => absurd h0 hc⟩
  · rw [if_neg h0]
    by_cases h1 : (q.filter fun p => keepAll pms p.depth).length = q.length
    · rw [if_neg (by simpa using h1.symm)]
      refine ⟨ch, rfl, fun _ h2 h3 => ?_⟩
      rw [h2] at h3; simp at h3
    · rw [if_pos (fun hc => h1 hc.symm)]
      obtain ⟨n, rfl⟩ : ∃ k, n = k + 1 := ⟨n - 1, by omega⟩
      rw [filterFix, filterAll_ok pms hmt]
      simp only
      have hidem : ((q.filter fun p => keepAll pms p.depth).filter fun p => pms.all fun pm => keepDepth pm p.depth) =
          q.filter fun p => keepAll pms p.depth := by
        apply List.filter_eq_self.2
        intro p hp
        exact (List.mem_filter.1 hp).2
      rw [hidem, if_neg h0, if_neg (by simp)]
      exact ⟨true, rfl, fun _ _ _ => by have := List.length_filter_le (fun p => keepAll pms p.depth) q; omega⟩

/-! ### The loop -/

/-- What the planner guarantees about the words and the search phases, relative to a set `M` of phrases. -/
structure LInv (es : List Expr) (M : List Word → Prop) (A0 : List Word) (q0 : List SearchPhase)
    (ms : List WM) (A : List Word) (q : List SearchPhase) : Prop where
  ms : Forall₂ (PInv (maxDepth q) A) es ms
  words : ∃ keep : Word → Bool, A = A0.filter keep
  queue : ∃ G : Nat → Bool, q = q0.filter fun p => G p.depth
  all : ∀ ws, M ws → (∀ w ∈ ws, w ∈ A) ∧ ∃ p ∈ q, p.depth = ws.length

theorem forall₂_mem_right {α β : Type} {R : α → β → Prop} {P : β → Prop} {l : List α} {l' : List β}
    (h : Forall₂ R l l') (hp : ∀ a b, R a b → P b) : ∀ b ∈ l', P b := by
  induction h with
  | nil => simp
  | cons h1 _ ih =>
    intro b hb
    rcases List.mem_cons.1 hb with rfl | hb
    · exact hp _ _ h1
    · exact ih b hb

theorem forall₂_mem_left {α β : Type} {R : α → β → Prop} {P : α → Prop} {l : List α} {l' : List β}
    (h : Forall₂ R l l') (hp : ∀ a b, R a b → P a) : ∀ b ∈ l, P b := by
  induction h with
  | nil => simp
  | cons h1 _ ih =>
    intro b hb
    rcases List.mem_cons.1 hb with rfl | hb
    · exact hp _ _ h1
    · exact ih b hb

theorem keepAll_of_match {es : List Expr} {ms : List WM} {D : Nat} {A : List Word} (h : Forall₂ (PInv D A) es ms)
    (ws : List Word) (hne : ws ≠ []) (hlen : ws.length ≤ D) (hal : ∀ w ∈ ws, w ∈ A)
    (hm : ∀ e ∈ es, Matches e (charsOf ws)) : keepAll (ms.map WM.pm) ws.length = true := by
  unfold keepAll
  induction h with
  | nil => rfl
  | @cons e m es ms h1 _ ih =>
    rw [List.map_cons, List.all_cons, ih fun e' he' => hm e' (by simp [he']), Bool.and_true]
    have hmal : ∀ w ∈ ws, w ∈ m.alive := fun w hw => h1.2.subset (hal w hw)
    obtain ⟨w, hw⟩ := List.exists_mem_of_ne_nil ws hne
    obtain ⟨T, hT⟩ := h1.1.body (List.ne_nil_of_mem (hmal w hw))
    exact keepDepth_of_acc hT ws hmal ((hT.acc ws hne hlen hmal).2 (hm e (by simp)))

/-- The measure of the loop decreases unless it converges. -/
theorem measure_lt {D : Nat} {es : List Expr} {ms rms : List WM} {A A' : List Word} {q : List SearchPhase} {conv ch : Bool}
    (G : Nat → Bool) (keep : Word → Bool) (hA : A' = A.filter keep)
    (hQ : Forall₂ (QInv D A') es rms.reverse)
    (p6 : msize rms ≤ msize ms.reverse)
    (p7 : conv = false → (∀ m ∈ ms.reverse, Clean m) → A' = [] ∨ msize rms < msize ms.reverse)
    (p8 : A = [] → ∀ m ∈ rms, m.alive = []) (p9 : (∀ m ∈ ms.reverse, m.alive = []) → conv = true)
    (hch : ch = true → (q.filter fun p => G p.depth).length < q.length)
    (hconv : ¬ (conv && !ch) = true) :
    msize rms.reverse + depths (q.filter fun p => G p.depth) + stage rms.reverse A' < msize ms + depths q + stage ms A := by
  have hms : msize ms.reverse = msize ms := by simp [msize, List.sum_reverse]
  have hms' : msize rms.reverse = msize rms := by simp [msize, List.sum_reverse]
  have hdl := depths_filter_le q G
  have hclean : A' ≠ [] → ∀ m ∈ rms.reverse, Clean m := fun hne =>
    forall₂_mem_right (P := Clean) hQ fun e m hm => hm.2 hne
  rw [hms] at p6 p7
  rw [hms']
  -- the stage never increases
  have hst : stage rms.reverse A' ≤ stage ms A := by
    unfold stage
    by_cases hA0 : A = []
    · have hA'0 : A' = [] := by rw [hA, hA0]; rfl
      rw [if_pos hA0, if_pos hA'0, if_pos (by simpa using p8 hA0)]
      omega
    · rw [if_neg hA0]
      by_cases hA'0 : A' = []
      · rw [if_pos hA'0]; split <;> split <;> omega
      · rw [if_neg hA'0, if_pos (hclean hA'0)]; split <;> omega
  cases hcv : conv with
  | true =>
    have hcht : ch = true := by rw [hcv] at hconv; simpa using hconv
    have := depths_filter_lt q G (hch hcht)
    omega
  | false =>
    by_cases hA0 : A = []
    · have hA'0 : A' = [] := by rw [hA, hA0]; rfl
      have h1 : stage rms.reverse A' = 0 := by
        unfold stage; rw [if_pos hA'0, if_pos (by simpa using p8 hA0)]
      have h2 : stage ms A = 1 := by
        unfold stage; rw [if_pos hA0, if_neg]
        intro hc
        have := p9 (by simpa using hc)
        rw [hcv] at this; simp at this
      omega
    · by_cases hcl : ∀ m ∈ ms, Clean m
      · have h2 : stage ms A = 2 := by unfold stage; rw [if_neg hA0, if_pos hcl]
        rcases p7 hcv (by simpa using hcl) with h0 | hlt
        · have h1 : stage rms.reverse A' ≤ 1 := by unfold stage; rw [if_pos h0]; split <;> omega
          omega
        · omega
      · have h2 : stage ms A = 3 := by unfold stage; rw [if_neg hA0, if_neg hcl]
        have h1 : stage rms.reverse A' ≤ 2 := by
          unfold stage
          by_cases hA'0 : A' = []
          · rw [if_pos hA'0]; split <;> omega
          · rw [if_neg hA'0, if_pos (hclean hA'0)]
        omega

theorem optimizeLoop_spec {es : List Expr} {M : List Word → Prop} {A0 : List Word} {q0 : List SearchPhase}
    (hM : ∀ ws, M ws → ws ≠ [] ∧ ∀ e ∈ es, Matches e (charsOf ws)) (k : Nat) :
    ∀ (ms : List WM) (A : List Word) (q : List SearchPhase), LInv es M A0 q0 ms A q →
      ∃ out, optimizeLoop (k + 1) ms A q = .ok out ∧
        match out with
        | none => ∀ ws, ¬ M ws
        | some o => o.queue ≠ [] ∧ LInv es M A0 q0 o.ms o.alive o.queue ∧
            Forall₂ (QInv (maxDepth o.queue) o.alive) es o.ms ∧
            (o.gaveUp = false ∨ es.length = 1 → ∀ m ∈ o.ms, m.alive = o.alive) ∧
            (msize ms + depths q + stage ms A ≤ k → o.gaveUp = false) := by
  induction k with
  | zero =>
    intro ms A q h
    rw [optimizeLoop]
    obtain ⟨ch, hf, hch⟩ := filterFix_ok (ms.map WM.pm) (by
      intro pm hpm
      obtain ⟨m, hm, rfl⟩ := List.mem_map.1 hpm
      exact forall₂_mem_right (P := fun m => ∀ p ∈ m.pm.classes, p.2.minTranche = 0) h.ms (fun e m hm => hm.1.mt) m hm)
      (q.length + 1) q (by omega) (by
        by_cases hq : q.length = 0
        · left; have := List.length_filter_le (fun p => keepAll (ms.map WM.pm) p.depth) q; omega
        · right; omega) false
    rw [hf]
    simp only
    generalize hq' : (q.filter fun p => keepAll (ms.map WM.pm) p.depth) = q' at hch
    have hsubq : ∀ p ∈ q', p ∈ q := by rw [← hq']; intro p hp; exact (List.mem_filter.1 hp).1
    have hmd := maxDepth_mono hsubq
    have hall : ∀ ws, M ws → (∀ w ∈ ws, w ∈ A) ∧ ∃ p ∈ q', p.depth = ws.length := by
      intro ws hws
      obtain ⟨h1, p, h2, h3⟩ := h.all ws hws
      refine ⟨h1, p, ?_, h3⟩
      rw [← hq', List.mem_filter, h3]
      exact ⟨h2, keepAll_of_match h.ms ws (hM ws hws).1 (by rw [← h3]; exact le_maxDepth q p h2) h1 (hM ws hws).2⟩
    by_cases hnil : q' = []
    · rw [if_pos hnil]
      refine ⟨none, rfl, ?_⟩
      intro ws hws
      obtain ⟨_, p, hp, _⟩ := hall ws hws
      rw [hnil] at hp; simp at hp
    · rw [if_neg hnil]
      obtain ⟨rms, A', conv, keep, p1, p2, p3, p4, p5, p6, p7, p8, p9, p10⟩ := optimizePass_spec q' hnil hmd es.reverse ms.reverse A
        (forall₂_reverse_iff.2 h.ms)
      rw [p1]
      simp only
      have hall' : ∀ ws, M ws → (∀ w ∈ ws, w ∈ A') ∧ ∃ p ∈ q', p.depth = ws.length := by
        intro ws hws
        obtain ⟨h1, p, h2, h3⟩ := hall ws hws
        refine ⟨fun w hw => ?_, p, h2, h3⟩
        rw [p2, List.mem_filter]
        exact ⟨h1 w hw, p4 ws (hM ws hws).1 (by rw [← h3]; exact le_maxDepth q' p h2) h1
          (fun e he => (hM ws hws).2 e (by simpa using he)) w hw⟩
      have hQ : Forall₂ (QInv (maxDepth q') A') es rms.reverse := by
        have := forall₂_reverse_iff.2 p3
        rwa [List.reverse_reverse] at this
      have hL : LInv es M A0 q0 rms.reverse A' q' := by
        refine ⟨hQ.imp fun e m hm => hm.1, ?_, ?_, hall'⟩
        · obtain ⟨k0, hk0⟩ := h.words
          exact ⟨fun w => keep w && k0 w, by rw [p2, hk0, List.filter_filter]⟩
        · obtain ⟨G, hG⟩ := h.queue
          exact ⟨fun d => keepAll (ms.map WM.pm) d && G d, by rw [← hq', hG, List.filter_filter]⟩
      by_cases hconv : (conv && !ch) = true
      · rw [if_pos hconv]
        refine ⟨some _, rfl, hnil, hL, hQ, ?_, fun _ => rfl⟩
        intro _ m hm
        simp only [Bool.and_eq_true] at hconv
        exact (p5 hconv.1).2 m (by simpa using hm)
      · rw [if_neg hconv, if_pos trivial]
        refine ⟨some _, rfl, hnil, hL, hQ, ?_, ?_⟩
        · rintro (hc | h1) m hm
          · simp at hc
          · exact p10 (by simpa using h1) m (by simpa using hm)
        intro hsz
        exfalso
        have := measure_lt (q := q) (conv := conv) (ch := ch) (keepAll (ms.map WM.pm)) keep p2 hQ p6 p7 p8 p9
          (by rw [hq']; exact hch hnil rfl) hconv
        omega
  | succ k ih =>
    intro ms A q h
    rw [optimizeLoop]
    obtain ⟨ch, hf, hch⟩ := filterFix_ok (ms.map WM.pm) (by
      intro pm hpm
      obtain ⟨m, hm, rfl⟩ := List.mem_map.1 hpm
      exact forall₂_mem_right (P := fun m => ∀ p ∈ m.pm.classes, p.2.minTranche = 0) h.ms (fun e m hm => hm.1.mt) m hm)
      (q.length + 1) q (by omega) (by
        by_cases hq : q.length = 0
        · left; have := List.length_filter_le (fun p => keepAll (ms.map WM.pm) p.depth) q; omega
        · right; omega) false
    rw [hf]
    simp only
    generalize hq' : (q.filter fun p => keepAll (ms.map WM.pm) p.depth) = q' at hch
    have hlq : q'.length ≤ q.length := by rw [← hq']; exact List.length_filter_le _ _
    have hsubq : ∀ p ∈ q', p ∈ q := by rw [← hq']; intro p hp; exact (List.mem_filter.1 hp).1
    have hmd := maxDepth_mono hsubq
    have hall : ∀ ws, M ws → (∀ w ∈ ws, w ∈ A) ∧ ∃ p ∈ q', p.depth = ws.length := by
      intro ws hws
      obtain ⟨h1, p, h2, h3⟩ := h.all ws hws
      refine ⟨h1, p, ?_, h3⟩
      rw [← hq', List.mem_filter, h3]
      exact ⟨h2, keepAll_of_match h.ms ws (hM ws hws).1 (by rw [← h3]; exact le_maxDepth q p h2) h1 (hM ws hws).2⟩
    by_cases hnil : q' = []
    · rw [if_pos hnil]
      refine ⟨none, rfl, ?_⟩
      intro ws hws
      obtain ⟨_, p, hp, _⟩ := hall ws hws
      rw [hnil] at hp; simp at hp
    · rw [if_neg hnil]
      obtain ⟨rms, A', conv, keep, p1, p2, p3, p4, p5, p6, p7, p8, p9, p10⟩ := optimizePass_spec q' hnil hmd es.reverse ms.reverse A
        (forall₂_reverse_iff.2 h.ms)
      rw [p1]
      simp only
      have hall' : ∀ ws, M ws → (∀ w ∈ ws, w ∈ A') ∧ ∃ p ∈ q', p.depth = ws.length := by
        intro ws hws
        obtain ⟨h1, p, h2, h3⟩ := hall ws hws
        refine ⟨fun w hw => ?_, p, h2, h3⟩
        rw [p2, List.mem_filter]
        exact ⟨h1 w hw, p4 ws (hM ws hws).1 (by rw [← h3]; exact le_maxDepth q' p h2) h1
          (fun e he => (hM ws hws).2 e (by simpa using he)) w hw⟩
      have hQ : Forall₂ (QInv (maxDepth q') A') es rms.reverse := by
        have := forall₂_reverse_iff.2 p3
        rwa [List.reverse_reverse] at this
      have hL : LInv es M A0 q0 rms.reverse A' q' := by
        refine ⟨hQ.imp fun e m hm => hm.1, ?_, ?_, hall'⟩
        · obtain ⟨k0, hk0⟩ := h.words
          exact ⟨fun w => keep w && k0 w, by rw [p2, hk0, List.filter_filter]⟩
        · obtain ⟨G, hG⟩ := h.queue
          exact ⟨fun d => keepAll (ms.map WM.pm) d && G d, by rw [← hq', hG, List.filter_filter]⟩
      by_cases hconv : (conv && !ch) = true
      · rw [if_pos hconv]
        refine ⟨some _, rfl, hnil, hL, hQ, ?_, fun _ => rfl⟩
        intro _ m hm
        simp only [Bool.and_eq_true] at hconv
        exact (p5 hconv.1).2 m (by simpa using hm)
      · rw [if_neg hconv, if_neg (by omega)]
        obtain ⟨out, ho1, ho2⟩ := ih rms.reverse A' q' hL
        refine ⟨out, ho1, ?_⟩
        cases out with
        | none => exact ho2
        | some o =>
          obtain ⟨a, b, c, d, f⟩ := ho2
          refine ⟨a, b, c, d, fun hsz => f ?_⟩
          have := measure_lt (q := q) (conv := conv) (ch := ch) (keepAll (ms.map WM.pm)) keep p2 hQ p6 p7 p8 p9
            (by rw [hq']; exact hch hnil rfl) hconv
          rw [hq'] at this
          omega

end Noodle
