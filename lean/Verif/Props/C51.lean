import Verif.Props.C18
import Verif.Proofs.Report
import Verif.Spec.Report
import Mathlib.Tactic.ByContra
/-
C51, C52: what the evaluator says about itself: `progress()` and the texts of `Complete`.
-/
namespace Noodle
open Spec List
set_option autoImplicit false

/-! ### C51 -/

theorem watch_session {F : Floats} {es : List Expr} {wl : List Word} {depth : Nat} {limit : Option Nat}
    {clks : List Clock} {rs : List Resp} {s : Shown} (h : Watch F es wl depth limit clks rs s) :
    ∃ q, QState.new es wl depth limit = .ok q ∧ q.run clks = .ok (s.q, rs) := by
  obtain ⟨s0, h1, h2⟩ := h
  unfold Shown.new at h1
  split at h1
  · cases h1
  · rename_i q hq
    injection h1 with h1
    subst h1
    exact ⟨q, hq, Shown.run_q h2⟩

/-- C51: a session with a `progress()` is a session. -/
theorem C51_session {F : Floats} {es : List Expr} {wl : List Word} {depth : Nat} {limit : Option Nat}
    {clks : List Clock} {rs : List Resp} {s : Shown} (h : Watch F es wl depth limit clks rs s) :
    Session es wl depth limit clks rs := by
  obtain ⟨q, h1, h2⟩ := watch_session h
  exact ⟨q, s.q, h1, h2⟩

theorem singles_take {es : List Expr} {P ws : List Word} {L M : List (List Word)}
    (h : singles es (P ++ ws) ++ L = M ++ ((ws.filter (allB es)).map (fun w => [w]) ++ L)) : M = singles es P := by
  have hs : ∀ l : List Word, (l.filter (allB es)).map (fun w => [w]) = singles es l := by
    intro l
    rw [singles_eq]
    unfold found
    rw [phrases_one, List.filter_map]
    congr 1
    apply List.filter_congr
    intro w _
    rw [Bool.eq_iff_iff, allB_iff]
    simp
  rw [hs, ← List.append_assoc] at h
  have h2 := List.append_cancel_right h
  have h3 : singles es (P ++ ws) = singles es P ++ singles es ws := by
    unfold singles
    rw [List.filter_append, List.map_append]
  rw [h3] at h2
  exact (List.append_cancel_right h2).symm

theorem word_state {F : Floats} {es : List Expr} {wl : List Word} (h : Ready es wl) {depth : Nat} {limit : Option Nat}
    {clks : List Clock} {rs : List Resp} {s : Shown} (hw : Watch F es wl depth limit clks rs s)
    (hl : ∀ b, .logs b ∉ rs) (hc : ¬ Completed rs) {L : List (List Word)} {g : Bool} {cL : Nat}
    (hL : Planned es wl depth L g cL) :
    s.q.depthLimit = depth ∧ s.q.isDone = false ∧ s.q.isPhrase = false ∧
    ∃ m ms P ws, s.q.phase = .word (m :: ms) wl ∧ wl = P ++ ws ∧ m.wordIndex = P.length ∧ reported rs = singles es P ∧
      ∃ R, PhaseInv es wl depth L g cL s.q.phase R (ws.length + 1 + cL) := by
  obtain ⟨q, hq, hrun⟩ := watch_session hw
  obtain ⟨h1, h2, h3, h4, h5, h6⟩ := new_inv L g cL hq
  rcases run_state h.wf clks q _ _ _ _ (by rw [h2]; exact hL) h1 h5 hrun with
    ⟨_, b⟩ | ⟨a, b, b', c1, c2, c3, c3', R2, n2, c4, c5, c6⟩
  · exact absurd b hc
  have hnp : s.q.isPhrase = false := by
    have := c3 h6
    by_contra hx
    obtain ⟨b, hb⟩ := this.1 (by simpa using hx)
    exact hl b hb
  refine ⟨b.trans h2, a, hnp, ?_⟩
  rw [h2] at c4
  revert c4
  cases hp : s.q.phase with
  | done => simp [QState.isDone, hp] at a
  | phrase _ => simp [QState.isPhrase, hp] at hnp
  | word ms wl' =>
    intro c4
    have c4' := c4
    obtain ⟨rfl, e, es', m, ms', P, ws, hes, rfl, hwl, hat, hch, hR, hn⟩ := c4
    refine ⟨m, ms', P, ws, rfl, hwl, hat.idx, ?_, R2, by rw [← hn]; exact c4'⟩
    have hs : (wl'.filter (allB es)).map (fun w => [w]) = singles es wl' := by
      rw [singles_eq]
      unfold found
      rw [phrases_one, List.filter_map]
      congr 1
      apply List.filter_congr
      intro w _
      rw [Bool.eq_iff_iff, allB_iff]
      simp
    rw [hs, hR, hwl] at c5
    exact singles_take c5

theorem wordProgress_text {i n : Nat} (hn : n ≠ 0) :
    ∃ t, wordProgress i n = .ok t ∧ WordsDone t i n (100 * i / n) := by
  unfold wordProgress
  rw [if_neg hn]
  refine ⟨_, rfl, ?_⟩
  unfold WordsDone shownNat
  simp only [String.toList_append, List.append_assoc]
  rfl

/-- C51: while single words are looked for, and the word list is not empty, `progress()` tells how many words have been
done: the matches reported are those among them; and it is at most 100 percent. -/
theorem C51_words {F : Floats} {es : List Expr} {wl : List Word} (h : Ready es wl) (hne : wl ≠ []) {depth : Nat}
    {limit : Option Nat} {clks : List Clock} {rs : List Resp} {s : Shown} (hw : Watch F es wl depth limit clks rs s)
    (hl : ∀ b, .logs b ∉ rs) (hc : ¬ Completed rs) :
    ∃ i p t, s.progress F = .ok t ∧ WordsDone t i wl.length p ∧ i ≤ wl.length ∧ p = 100 * i / wl.length ∧ p ≤ 100 ∧
      reported rs = singles es (wl.take i) := by
  obtain ⟨L, g, cL, hL, _⟩ := planned_exists h.nonempty h.wf h.sorted depth
  obtain ⟨_, _, _, m, ms, P, ws, h1, h2, h3, h4, _⟩ := word_state h hw hl hc hL
  have hn : wl.length ≠ 0 := by simpa using hne
  obtain ⟨t, ht, ht'⟩ := wordProgress_text (i := P.length) hn
  have hle : P.length ≤ wl.length := by rw [h2]; simp
  refine ⟨P.length, _, t, ?_, ht', hle, rfl, ?_, ?_⟩
  · unfold Shown.progress
    rw [h1]
    dsimp only
    rw [h3]
    exact ht
  · rw [Nat.div_le_iff_le_mul_add_pred (by omega)]
    have := Nat.mul_le_mul_left 100 hle
    omega
  · rw [h4, h2]
    simp

/-- C51: from call to call the number of words done never decreases. -/
theorem C51_grows {F : Floats} {es : List Expr} {wl : List Word} (h : Ready es wl) (hne : wl ≠ []) {depth : Nat}
    {limit : Option Nat} {clks clks' : List Clock} {rs rs' : List Resp} {s s' : Shown}
    (hw : Watch F es wl depth limit clks rs s) (hw' : Watch F es wl depth limit (clks ++ clks') (rs ++ rs') s')
    (hlen : rs.length = clks.length) (hl : ∀ b, .logs b ∉ rs ++ rs') (hc : ¬ Completed (rs ++ rs')) :
    ∃ i i' p p' t t', s.progress F = .ok t ∧ WordsDone t i wl.length p ∧ s'.progress F = .ok t' ∧
      WordsDone t' i' wl.length p' ∧ i ≤ i' ∧ p ≤ p' := by
  obtain ⟨L, g, cL, hL, _⟩ := planned_exists h.nonempty h.wf h.sorted depth
  have hl1 : ∀ b, .logs b ∉ rs := fun b hb => hl b (by simp [hb])
  have hc1 : ¬ Completed rs := fun hb => hc (by unfold Completed at *; simp [hb])
  obtain ⟨a1, a2, a3, m, ms, P, ws, h1, h2, h3, h4, R, hR⟩ := word_state h hw hl1 hc1 hL
  obtain ⟨_, _, _, m', ms', P', ws', h1', h2', h3', h4', R', hR'⟩ := word_state h hw' hl hc hL
  have hn : wl.length ≠ 0 := by simpa using hne
  have hle : P.length ≤ P'.length := by
    obtain ⟨q, hq, hrun⟩ := watch_session hw
    obtain ⟨q1, hq1, hrun1⟩ := watch_session hw'
    obtain rfl := Except.ok.inj (hq1.symm.trans hq)
    have happ : ∀ (cs : List Clock) (q q2 : QState) (r : List Resp), q.run cs = .ok (q2, r) → ∀ (cs' : List Clock) (q3 : QState) (r2 : List Resp),
        q.run (cs ++ cs') = .ok (q3, r2) → ∃ r3, q2.run cs' = .ok (q3, r3) ∧ r2 = r ++ r3 := by
      intro cs
      induction cs with
      | nil =>
        intro q q2 r hr cs' q3 r2 h5
        simp only [QState.run, Except.ok.injEq, Prod.mk.injEq] at hr
        obtain ⟨rfl, rfl⟩ := hr
        exact ⟨r2, h5, rfl⟩
      | cons c cs ih =>
        intro q q2 r hr cs' q3 r2 h5
        rw [List.cons_append, QState.run] at h5
        rw [QState.run] at hr
        revert hr h5
        generalize q.next c = x
        intro hr h5
        match x, hr, h5 with
        | .error _, hr, _ => cases hr
        | .ok (q4, r4), hr, h5 =>
          dsimp only at hr h5
          revert hr h5
          generalize hx : q4.run cs = x
          generalize hy : q4.run (cs ++ cs') = y
          intro hr h5
          match x, y, hr, h5, hx, hy with
          | .error _, _, hr, _, _, _ => cases hr
          | .ok _, .error _, _, h5, _, _ => cases h5
          | .ok (q5, r5), .ok (q6, r6), hr, h5, hx, hy =>
            injection hr with hr; injection hr with hr1 hr2; subst hr1 hr2
            injection h5 with h5; injection h5 with h51 h52; subst h51 h52
            obtain ⟨r3, u1, u2⟩ := ih q4 q5 r5 hx cs' q6 r6 hy
            exact ⟨r3, u1, by rw [u2]; rfl⟩
    obtain ⟨r3, u1, u2⟩ := happ clks q1 s.q rs hrun clks' s'.q _ hrun1
    obtain rfl : rs' = r3 := List.append_cancel_left u2
    rcases run_state h.wf clks' s.q R _ _ _ (by rw [a1]; exact hL) (by rw [a1]; exact hR) a2 u1 with
      ⟨_, b⟩ | ⟨a, b, b', c1, c2, c3, c3', R2, n2, c4, c5, c6⟩
    · exact absurd (by unfold Completed; simp [b]) hc
    · rw [a1] at c4
      rw [h1'] at c4
      obtain ⟨_, e, es', m2, ms2, P2, ws2, _, hms, hwl2, hat2, _, _, hn2⟩ := c4
      injection hms with hm2 _
      subst hm2
      have : P2.length = P'.length := by rw [← hat2.idx, h3']
      have l1 : wl.length = P.length + ws.length := by conv => lhs; rw [h2]
                                                       simp
      have l2 : wl.length = P2.length + ws2.length := by conv => lhs; rw [hwl2]
                                                         simp
      omega
  obtain ⟨t, ht, ht'⟩ := wordProgress_text (i := P.length) hn
  obtain ⟨t2, ht2, ht2'⟩ := wordProgress_text (i := P'.length) hn
  refine ⟨P.length, P'.length, _, _, t, t2, ?_, ht', ?_, ht2', hle, Nat.div_le_div_right (Nat.mul_le_mul_left _ hle)⟩
  · unfold Shown.progress
    rw [h1]
    dsimp only
    rw [h3]
    exact ht
  · unfold Shown.progress
    rw [h1']
    dsimp only
    rw [h3']
    exact ht2

/-- C51: after `Complete`, `progress()` is "Done". -/
theorem C51_done {F : Floats} {es : List Expr} {wl : List Word} {depth : Nat} {limit : Option Nat} {clks : List Clock}
    {rs : List Resp} {s : Shown} (hw : Watch F es wl depth limit clks rs s) (hc : Completed rs) :
    s.progress F = .ok "Done".toList := by
  obtain ⟨q, _, hrun⟩ := watch_session hw
  unfold Shown.progress
  rw [run_complete clks q s.q rs hrun hc]

/-- The bound under which the estimates fit in 32 bits. -/
theorem small_of {F : Floats} (hF : Usual F) {es : List Expr} {wl : List Word} (h : Ready es wl) {depth k : Nat}
    (hk : ∀ w ∈ wl, w.tranche < k) (hb : 409600 * ((depth - 1) * k) < 2 ^ 32) :
    ∀ ms ps, Sync false (maxWordLen wl) es ms wl → plan ms depth = .ok (some ps) →
      ∃ e, searchEstimate F ps.queue = .ok e ∧ 100 * e < 2 ^ 32 ∧ e = (ps.queue.map fun p => F.size p.totalSize).sum ∧
        ∀ p ∈ ps.queue, p.totalSize = totalSize ps.wl p ∧ p.totalSize ≠ 0 ∧ 2 ≤ p.depth ∧ p.depth ≤ depth := by
  intro ms ps hsync hplan
  have hal : ∀ (es : List Expr) (ms : List WM) (A : List Word), Sync false (maxWordLen wl) es ms A →
      (∀ w ∈ A, w.tranche < k) → ∀ m ∈ ms, ∀ w ∈ m.alive, w.tranche < k := by
    intro es
    induction es with
    | nil =>
      intro ms A hs hA m hm
      cases ms with
      | nil => cases hm
      | cons _ _ => simp [Sync] at hs
    | cons e es ih =>
      intro ms A hs hA m hm
      cases ms with
      | nil => cases hm
      | cons m1 ms =>
        obtain ⟨s1, s2⟩ := hs
        have h1 : ∀ w ∈ m1.alive, w.tranche < k := fun w hw => hA w (s1.alive_sub w hw)
        rcases List.mem_cons.1 hm with rfl | hm
        · exact h1
        · exact ih ms m1.alive s2 h1 m hm
  obtain ⟨h1, h2⟩ := plan_queue hplan (hal es ms wl hsync hk)
  have hsz : ∀ p ∈ ps.queue, F.size p.totalSize ≤ 4096 := by
    intro p hp
    apply hF.bound _ (Nat.pos_of_ne_zero (h2 p hp).2.1)
    rw [(h2 p hp).1]
    unfold totalSize
    split
    · decide
    · have : (2 : Nat) ^ 64 - 1 < 2 ^ 64 := by decide
      omega
  have hsum : (ps.queue.map fun p => F.size p.totalSize).sum ≤ 4096 * ps.queue.length := by
    generalize ps.queue = q at hsz
    induction q with
    | nil => simp
    | cons p q ih =>
      rw [List.map_cons, List.sum_cons, List.length_cons]
      have := hsz p (by simp)
      have := ih fun x hx => hsz x (by simp [hx])
      omega
  have := Nat.mul_le_mul_left 4096 h1
  refine ⟨_, ?_, ?_, rfl, h2⟩
  · unfold searchEstimate
    exact if_pos (by omega)
  · omega

/-- C51: with at most 2^32 / 409600 phases (40 words of 256 tranches) the estimates do not overflow, so that every session is
one with a `progress()`. -/
theorem C51_runs {F : Floats} (hF : Usual F) {es : List Expr} {wl : List Word} (h : Ready es wl) {depth k : Nat}
    (hk : ∀ w ∈ wl, w.tranche < k) (hb : 409600 * ((depth - 1) * k) < 2 ^ 32) {limit : Option Nat} {clks : List Clock}
    {rs : List Resp} (hs : Session es wl depth limit clks rs) : ∃ s, Watch F es wl depth limit clks rs s := by
  obtain ⟨L, g, cL, hL, _⟩ := planned_exists h.nonempty h.wf h.sorted depth
  obtain ⟨q, q', h1, h2⟩ := hs
  obtain ⟨i1, i2, i3, i4, i5, i6⟩ := new_inv L g cL h1
  have hst : Stands F es wl depth L g cL ⟨q, 0⟩ := by
    refine ⟨i2, .inr ⟨_, _, by rw [← i2]; exact i1⟩, fun ps hp => ?_⟩
    dsimp only at hp
    simp [QState.isPhrase, hp] at i6
  obtain ⟨s, a, b, _⟩ := hst.run h.wf hL (fun ms ps x y => ⟨_, (small_of hF h hk hb ms ps x y).choose_spec.1⟩) clks h2
  exact ⟨s, ⟨q, 0⟩, by unfold Shown.new; rw [h1], a⟩

theorem watch_stands {F : Floats} (hF : Usual F) {es : List Expr} {wl : List Word} (h : Ready es wl) {depth k : Nat}
    (hk : ∀ w ∈ wl, w.tranche < k) (hb : 409600 * ((depth - 1) * k) < 2 ^ 32) {limit : Option Nat} {clks : List Clock}
    {rs : List Resp} {s : Shown} (hw : Watch F es wl depth limit clks rs s) {L : List (List Word)} {g : Bool} {cL : Nat}
    (hL : Planned es wl depth L g cL) : Stands F es wl depth L g cL s := by
  obtain ⟨s0, h0, hr⟩ := hw
  unfold Shown.new at h0
  split at h0
  · cases h0
  rename_i q h1
  injection h0 with h0
  subst h0
  obtain ⟨i1, i2, i3, i4, i5, i6⟩ := new_inv L g cL h1
  have hst : Stands F es wl depth L g cL ⟨q, 0⟩ := by
    refine ⟨i2, .inr ⟨_, _, by rw [← i2]; exact i1⟩, fun ps hp => ?_⟩
    dsimp only at hp
    simp [QState.isPhrase, hp] at i6
  obtain ⟨s', a, b, c⟩ := hst.run h.wf hL (fun ms ps x y => ⟨_, (small_of hF h hk hb ms ps x y).choose_spec.1⟩) clks
    (Shown.run_q hr)
  have := Except.ok.inj (a.symm.trans hr)
  injection this with this
  rw [← this]
  exact c

/-- In the phrase phase: the phases, the estimates and what is still to come. -/
theorem phrase_state {F : Floats} (hF : Usual F) {es : List Expr} {wl : List Word} (h : Ready es wl) {depth k : Nat}
    (hk : ∀ w ∈ wl, w.tranche < k) (hb : 409600 * ((depth - 1) * k) < 2 ^ 32) {limit : Option Nat} {clks : List Clock}
    {rs : List Resp} {s : Shown} (hw : Watch F es wl depth limit clks rs s) {b : Bool} (hl : .logs b ∈ rs)
    (hc : ¬ Completed rs) {L : List (List Word)} {g : Bool} {cL : Nat} (hL : Planned es wl depth L g cL) :
    ∃ ps ph q l ls now, s.q.phase = .phrase ps ∧ ps.queue = ph :: q ∧ ps.layers = l :: ls ∧ 2 ≤ ph.depth ∧
      ph.depth ≤ depth ∧ searchEstimate F ps.queue = .ok now ∧ now ≤ s.initial ∧ 100 * s.initial < 2 ^ 32 ∧
      (s.initial = 0 → depth < 2 ^ 32 → ∃ w, ∀ ws ∈ L, ws = List.replicate ws.length w) := by
  have hst := watch_stands hF h hk hb hw hL
  obtain ⟨q, hq, hrun⟩ := watch_session hw
  obtain ⟨i1, i2, i3, i4, i5, i6⟩ := new_inv L g cL hq
  rcases run_state h.wf clks q _ _ _ _ (by rw [i2]; exact hL) i1 i5 hrun with
    ⟨_, b⟩ | ⟨a, _, _, c1, c2, c3, _, R2, n2, c4, c5, c6⟩
  · exact absurd b hc
  have hph : s.q.isPhrase = true := (c3 i6).2 ⟨b, hl⟩
  cases hp : s.q.phase with
  | word _ _ => simp [QState.isPhrase, hp] at hph
  | done => simp [QState.isPhrase, hp] at hph
  | phrase ps =>
    rw [hp] at c4
    obtain ⟨c, ph, qq, rs', hcx, hcne, hS, _, _⟩ := c4
    obtain ⟨ms, ps0, p1, p2, p3, p4⟩ := hst.plan ps hp
    obtain ⟨e, e1, e2, e3, e4⟩ := small_of hF h hk hb ms ps0 p1 p2
    obtain rfl := Except.ok.inj (e1.symm.trans p3)
    have hmem : ph ∈ ps0.queue := p4.subset (by rw [hS.queue]; simp)
    obtain ⟨now, hn1, hn2⟩ := estimate_sublist p4 p3
    have hlay : ∃ l ls, ps.layers = l :: ls := by
      have := (hS.depth ph (by rw [hS.queue]; simp)).2
      cases hls : ps.layers with
      | nil => rw [hls] at this; simp at this
      | cons l ls => exact ⟨l, ls, rfl⟩
    obtain ⟨l, ls, hlay⟩ := hlay
    refine ⟨ps, ph, qq, l, ls, now, rfl, hS.queue, hlay, (e4 ph hmem).2.2.1, (e4 ph hmem).2.2.2, hn1, hn2, e2, ?_⟩
    intro h0 hd32
    have hd1 : ¬ depth ≤ 1 := by have := (e4 ph hmem).2.2; omega
    unfold Planned at hL
    rw [if_neg hd1] at hL
    rcases hL ms p1 with ⟨h5, _⟩ | ⟨ps1, c1', ph1, q1, h5, h6, h7, h8, h9, _⟩
    · rw [h5] at p2; cases p2
    · rw [h5] at p2
      injection p2 with p2; injection p2 with p2
      subst p2
      refine delivers_one h6 h7 h8 h9 fun p hpq => ?_
      obtain ⟨z1, z2, z3, z4⟩ := e4 p hpq
      rw [h8.wl] at z1
      rw [z1] at z2
      refine totalSize_one ?_ z2 z3 (by omega)
      rw [← z1]
      apply hF.zero
      rw [e3] at h0
      exact List.sum_eq_zero_iff_forall_eq_nat.1 h0 _ (List.mem_map.2 ⟨p, hpq, rfl⟩)

/-- C51: while phrases are looked for, `progress()`, if it does not panic, is a part of the initial estimate, at most 100
percent, and names a number of words between two and the limit. -/
theorem C51_phrases {F : Floats} (hF : Usual F) {es : List Expr} {wl : List Word} (h : Ready es wl) {depth k : Nat}
    (hk : ∀ w ∈ wl, w.tranche < k) (hb : 409600 * ((depth - 1) * k) < 2 ^ 32) {limit : Option Nat} {clks : List Clock}
    {rs : List Resp} {s : Shown} (hw : Watch F es wl depth limit clks rs s) {b : Bool} (hl : .logs b ∈ rs)
    (hc : ¬ Completed rs) {t : List Char} (ht : s.progress F = .ok t) :
    ∃ d e n p tr, PhrasesDone t d e n p tr ∧ 2 ≤ d ∧ d ≤ depth ∧ e ≤ n ∧ p = 100 * e / n ∧ p ≤ 100 := by
  obtain ⟨L, g, cL, hL, _⟩ := planned_exists h.nonempty h.wf h.sorted depth
  obtain ⟨ps, ph, q, l, ls, now, h1, h2, h3, h4, h5, h6, h7, h8, _⟩ := phrase_state hF h hk hb hw hl hc hL
  unfold Shown.progress at ht
  rw [h1] at ht
  dsimp only at ht
  rw [h2, h3] at ht
  dsimp only at ht
  rw [← h2, h6] at ht
  dsimp only at ht
  unfold phraseProgress at ht
  dsimp only at ht
  split at ht
  · cases ht
  split at ht
  · cases ht
  split at ht
  · cases ht
  rename_i hne
  injection ht with ht
  refine ⟨ph.depth, s.initial - (now - F.step l.wordIndex ph.depth), s.initial, _, ph.tranche, ?_, h4, h5, ?_, rfl, ?_⟩
  · unfold PhrasesDone
    rw [← ht]
    unfold shownNat
    simp only [String.toList_append, List.append_assoc]
    rfl
  · omega
  · rw [Nat.div_le_iff_le_mul_add_pred (by omega)]
    omega

/-- C51: `progress()` panics only if the word list is empty, or in the phrase phase if all phrases of more than one word
that the query ever reports are repetitions of one and the same word. -/
theorem C51_panic {F : Floats} (hF : Usual F) {es : List Expr} {wl : List Word} (h : Ready es wl) {depth k : Nat}
    (hk : ∀ w ∈ wl, w.tranche < k) (hb : 409600 * ((depth - 1) * k) < 2 ^ 32) (hd : depth < 2 ^ 32) {limit : Option Nat}
    {clks : List Clock} {rs : List Resp} {s : Shown} (hw : Watch F es wl depth limit clks rs s) {x : Crash}
    (hx : s.progress F = .error x) :
    wl = [] ∨ ((∃ b, .logs b ∈ rs) ∧ ∃ w, ∀ (limit' : Option Nat) (clks' : List Clock) (rs' : List Resp),
      Session es wl depth limit' clks' rs' → ∀ ws ∈ reported rs', 2 ≤ ws.length → ws = List.replicate ws.length w) := by
  by_cases hc : Completed rs
  · rw [C51_done hw hc] at hx; cases hx
  by_cases hl : ∃ b, .logs b ∈ rs
  · right
    refine ⟨hl, ?_⟩
    obtain ⟨b, hl⟩ := hl
    obtain ⟨L, g, cL, hL, _⟩ := planned_exists h.nonempty h.wf h.sorted depth
    obtain ⟨ps, ph, q, l, ls, now, h1, h2, h3, h4, h5, h6, h7, h8, h9⟩ := phrase_state hF h hk hb hw hl hc hL
    unfold Shown.progress at hx
    rw [h1] at hx
    dsimp only at hx
    rw [h2, h3] at hx
    dsimp only at hx
    rw [← h2, h6] at hx
    dsimp only at hx
    unfold phraseProgress at hx
    dsimp only at hx
    have h0 : s.initial = 0 := by
      by_contra hne
      rw [if_neg (by omega), if_neg (by omega), if_neg hne] at hx
      cases hx
    obtain ⟨w, hw9⟩ := h9 h0 hd
    refine ⟨w, fun limit' clks' rs' hs ws hws hlen => hw9 ws ?_⟩
    obtain ⟨q0, q0', a1, a2⟩ := hs
    obtain ⟨i1, i2, i3, i4, i5, i6⟩ := new_inv L g cL a1
    obtain ⟨q2, rs2, r1, H⟩ := run_spec h.wf clks' q0 _ _ (by rw [i2]; exact hL) i1 i5
    rw [a2] at r1
    injection r1 with r1; injection r1 with r1 r2
    subst r2
    have hsub := H.pre.subset hws
    have : ws ∈ (wl.filter (allB es)).map (fun w => [w]) ++ L := by
      unfold cut at hsub
      split at hsub
      · exact hsub
      · exact List.mem_of_mem_take hsub
    rcases List.mem_append.1 this with h10 | h10
    · obtain ⟨v, _, rfl⟩ := List.mem_map.1 h10
      simp at hlen
    · exact h10
  · left
    by_contra hne
    obtain ⟨i, p, t, ht, _⟩ := C51_words h hne hw (fun b hb => hl ⟨b, hb⟩) hc
    rw [ht] at hx
    cases hx

/-! ### Instances -/

/-- Computations as intended, in whole numbers. -/
def exF : Floats := ⟨fun n => if n = 0 then 2 ^ 32 - 1 else n.log2 ^ 2, fun i d => (i.log2 * d) ^ 2⟩

theorem exF_usual : Usual exF := by
  refine ⟨fun n h0 hn => ?_, fun n hn => ?_⟩
  · have h1 : n.log2 < 64 := (Nat.log2_lt (by omega)).2 hn
    simp only [exF, if_neg (show n ≠ 0 by omega)]
    have : n.log2 * n.log2 ≤ 64 * 64 := Nat.mul_le_mul (by omega) (by omega)
    rw [Nat.pow_two]; omega
  · by_cases h : n = 0
    · omega
    · simp only [exF, if_neg h] at hn
      have : n.log2 = 0 := by
        rw [Nat.pow_two] at hn
        rcases Nat.mul_eq_zero.1 hn with h | h <;> exact h
      have := Nat.lt_log2_self (n := n)
      rw [‹n.log2 = 0›] at this
      omega

theorem watch_of_run {F : Floats} {es : List Expr} {wl : List Word} {depth : Nat} {limit : Option Nat} {clks : List Clock}
    {rs : List Resp} {t : Option (List Char)}
    (h : ((Shown.new es wl depth limit).toOption.bind fun s => (s.run F clks).toOption.map fun r =>
      (r.2, (r.1.progress F).toOption)) = some (rs, t)) :
    ∃ s, Watch F es wl depth limit clks rs s ∧ (s.progress F).toOption = t := by
  unfold Watch
  cases h1 : Shown.new es wl depth limit with
  | error x => rw [h1] at h; simp [Except.toOption] at h
  | ok q =>
    rw [h1] at h
    simp only [Except.toOption, Option.bind_some] at h
    cases h2 : q.run F clks with
    | error x => rw [h2] at h; simp at h
    | ok r =>
      rw [h2] at h
      simp only [Option.map_some, Option.some.injEq, Prod.mk.injEq] at h
      exact ⟨r.1, ⟨q, rfl, by rw [h2, ← h.1]⟩, h.2⟩

example : ∃ s, Watch exF [exAB] [exA, exB] 10 none [] [] s ∧
    (s.progress exF).toOption = some "Single-word matches: 0/2 (0%)".toList := watch_of_run (by decide +kernel)
example : ∃ s, Watch exF [exAB] [exA, exB] 10 none [none] [.logs false] s ∧
    (s.progress exF).toOption = some "2-word phrase matches: 0/4 (0%) - tranche=0".toList :=
  watch_of_run (by decide +kernel)
example : ∃ s, Watch exF [exAB] [exA, exB] 10 none [none, none, none] [.logs false, .matched [exA, exB], .complete] s ∧
    (s.progress exF).toOption = some "Done".toList := watch_of_run (by decide +kernel)
example : 409600 * ((10 - 1) * 256) < 2 ^ 32 := by decide

/-- C51: with an empty word list `progress()` panics. -/
theorem C51_empty (F : Floats) {es : List Expr} (hne : es ≠ []) (depth : Nat) (limit : Option Nat) :
    ∃ s x, Watch F es [] depth limit [] [] s ∧ s.progress F = .error x := by
  cases es with
  | nil => exact absurd rfl hne
  | cons e es =>
    obtain ⟨s, hs, hp⟩ : ∃ s, Shown.new (e :: es) [] depth limit = .ok s ∧ s.progress F = .error .overflow := by
      unfold Shown.new QState.new
      rw [if_neg (by simp)]
      exact ⟨_, rfl, rfl⟩
    exact ⟨s, .overflow, ⟨s, hs, rfl⟩, hp⟩

/-- C51: it panics too in the phrase phase of the query `aa` with the word list `a`. -/
theorem C51_counterexample : ∃ s, Watch exF [exAA] [exA] 10 none [none] [.logs false] s ∧
    (s.progress exF).toOption = none := watch_of_run (by decide +kernel)

end Noodle
