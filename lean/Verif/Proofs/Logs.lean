import Verif.Proofs.Texts
/-
The texts of `Logs`.
-/
namespace Noodle
open Spec List
set_option autoImplicit false

/-- Each word occurs in a phrase of such words that the expression matches. -/
def Useful (es : List Expr) (A : List Word) : Prop :=
  ∀ e ∈ es, e.fuzz = 0 → ∀ w ∈ A, ∃ us vs : List Word, (∀ v ∈ us ++ vs, v ∈ A) ∧ Matches e (charsOf (us ++ w :: vs))

/-- The matcher has at most as many states as the expression. -/
def Slim (e : Expr) (m : WM) : Prop := m.pm.statesLen ≤ e.len

theorem optimizePass_slim {D : Nat} (queue : List SearchPhase) (hq : queue ≠ []) (hD : maxDepth queue ≤ D)
    (es : List Expr) : ∀ (ms : List WM) (A : List Word), Forall₂ (PInv D A) es ms → Forall₂ Slim es ms →
      ∀ (ms' : List WM) (A' : List Word) (conv : Bool), optimizePass queue ms A = .ok (ms', A', conv) →
        Forall₂ Slim es ms' ∧ (conv = true → A' = A ∧ Useful es A) := by
  induction es with
  | nil =>
    intro ms A h hs ms' A' conv ho
    cases h
    injection ho with ho; injection ho with h1 ho; injection ho with h2 h3
    subst h1 h2 h3
    exact ⟨Forall₂.nil, fun _ => ⟨rfl, fun e he => by simp at he⟩⟩
  | cons e es ih =>
    intro ms A h hs ms' A' conv ho
    cases h with
    | @cons _ m _ ms h1 h2 =>
    cases hs with
    | cons s1 s2 =>
    obtain ⟨m', did, k, o1, o2, o3, o4, o5, o6, o7, o8, o9, o10⟩ := optimize_spec h1.1 A h1.2 queue hq hD
    rw [optimizePass, o1] at ho
    simp only at ho
    have hm' : Slim e m' := Nat.le_trans o7 s1
    split at ho
    · split at ho
      · cases ho
      · split at ho
        · injection ho with ho; injection ho with h1 ho; injection ho with h2 h3
          subst h1 h2 h3
          exact ⟨Forall₂.cons hm' s2, fun h => by cases h⟩
        · have hP : Forall₂ (PInv D m'.alive) es ms := h2.imp fun e m hm => ⟨hm.1, by
            rw [o3]; exact List.filter_sublist.trans hm.2⟩
          split at ho
          · cases ho
          · rename_i hx
            injection ho with ho; injection ho with h1 ho; injection ho with h2 h3
            subst h1 h2 h3
            exact ⟨Forall₂.cons hm' (ih ms _ hP s2 _ _ _ hx).1, fun h => by cases h⟩
    · rename_i hlen
      have hal : m'.alive = A := by
        have : m'.alive <+ A := by rw [o3]; exact List.filter_sublist
        exact this.eq_of_length (by simpa using hlen)
      split at ho
      · cases ho
      · rename_i ms1 A1 conv1 hx
        injection ho with ho; injection ho with h1 ho; injection ho with h2 h3
        subst h1 h2 h3
        obtain ⟨i1, i2⟩ := ih ms A h2 s2 _ _ _ hx
        refine ⟨Forall₂.cons hm' i1, fun hc => ?_⟩
        rw [Bool.and_eq_true] at hc
        obtain ⟨j1, j2⟩ := i2 hc.2
        refine ⟨j1, fun e' he' hf w hw => ?_⟩
        rcases List.mem_cons.1 he' with rfl | he'
        · exact o10 hf w (by rw [hal]; exact hw)
        · exact j2 e' he' hf w hw

theorem useful_reverse {es : List Expr} {A : List Word} (h : Useful es.reverse A) : Useful es A :=
  fun e he => h e (by simpa using he)

/-- What the log says about the loop. -/
theorem optimizeLoop_logs {es : List Expr} (k : Nat) :
    ∀ (ms : List WM) (A : List Word) (q : List SearchPhase), Forall₂ (PInv (maxDepth q) A) es ms → Forall₂ Slim es ms →
      ∀ o, optimizeLoop (k + 1) ms A q = .ok (some o) →
        Forall₂ Slim es o.ms ∧ (o.gaveUp = false → Useful es o.alive) ∧
        1 ≤ optimizePasses (k + 1) ms A q ∧ optimizePasses (k + 1) ms A q ≤ k + 1 ∧
        (o.gaveUp = true → optimizePasses (k + 1) ms A q = k + 1) ∧
        optimizePasses (k + 1) ms A q ≤ msize ms + depths q + stage ms A + 1 := by
  induction k with
  | zero =>
    intro ms A q h hs o ho
    rw [optimizeLoop] at ho
    rw [optimizePasses]
    obtain ⟨ch, hf, hch⟩ := filterFix_ok (ms.map WM.pm) (by
      intro pm hpm
      obtain ⟨m, hm, rfl⟩ := List.mem_map.1 hpm
      exact forall₂_mem_right (P := fun m => ∀ p ∈ m.pm.classes, p.2.minTranche = 0) h (fun e m hm => hm.1.mt) m hm)
      (q.length + 1) q (by omega) (by
        by_cases hq : q.length = 0
        · left; have := List.length_filter_le (fun p => keepAll (ms.map WM.pm) p.depth) q; omega
        · right; omega) false
    rw [hf] at ho ⊢
    simp only at ho ⊢
    generalize hq' : (q.filter fun p => keepAll (ms.map WM.pm) p.depth) = q' at hch ho
    have hsubq : ∀ p ∈ q', p ∈ q := by rw [← hq']; intro p hp; exact (List.mem_filter.1 hp).1
    have hmd := maxDepth_mono hsubq
    by_cases hnil : q' = []
    · rw [if_pos hnil] at ho; cases ho
    · rw [if_neg hnil] at ho ⊢
      obtain ⟨rms, A', conv, keep, p1, p2, p3, p4, p5, p6, p7, p8, p9, p10⟩ := optimizePass_spec q' hnil hmd es.reverse ms.reverse A
        (forall₂_reverse_iff.2 h)
      obtain ⟨s1, s2⟩ := optimizePass_slim q' hnil hmd es.reverse ms.reverse A (forall₂_reverse_iff.2 h)
        (forall₂_reverse_iff.2 hs) _ _ _ p1
      have s1' : Forall₂ Slim es rms.reverse := by
        have := forall₂_reverse_iff.2 s1
        rwa [List.reverse_reverse] at this
      rw [p1] at ho ⊢
      simp only at ho ⊢
      by_cases hconv : (conv && !ch) = true
      · rw [if_pos hconv] at ho ⊢
        injection ho with ho; injection ho with ho; subst ho
        rw [Bool.and_eq_true] at hconv
        obtain ⟨j1, j2⟩ := s2 hconv.1
        exact ⟨s1', (fun _ => by rw [j1]; exact useful_reverse j2), by omega, by omega, (fun h => by cases h), by omega⟩
      · rw [if_neg hconv, if_pos trivial] at ho ⊢
        injection ho with ho; injection ho with ho; subst ho
        exact ⟨s1', (fun h => by cases h), by omega, by omega, (fun _ => by omega), by omega⟩
  | succ k ih =>
    intro ms A q h hs o ho
    rw [optimizeLoop] at ho
    rw [optimizePasses]
    obtain ⟨ch, hf, hch⟩ := filterFix_ok (ms.map WM.pm) (by
      intro pm hpm
      obtain ⟨m, hm, rfl⟩ := List.mem_map.1 hpm
      exact forall₂_mem_right (P := fun m => ∀ p ∈ m.pm.classes, p.2.minTranche = 0) h (fun e m hm => hm.1.mt) m hm)
      (q.length + 1) q (by omega) (by
        by_cases hq : q.length = 0
        · left; have := List.length_filter_le (fun p => keepAll (ms.map WM.pm) p.depth) q; omega
        · right; omega) false
    rw [hf] at ho ⊢
    simp only at ho ⊢
    generalize hq' : (q.filter fun p => keepAll (ms.map WM.pm) p.depth) = q' at hch ho
    have hsubq : ∀ p ∈ q', p ∈ q := by rw [← hq']; intro p hp; exact (List.mem_filter.1 hp).1
    have hmd := maxDepth_mono hsubq
    by_cases hnil : q' = []
    · rw [if_pos hnil] at ho; cases ho
    · rw [if_neg hnil] at ho ⊢
      obtain ⟨rms, A', conv, keep, p1, p2, p3, p4, p5, p6, p7, p8, p9, p10⟩ := optimizePass_spec q' hnil hmd es.reverse ms.reverse A
        (forall₂_reverse_iff.2 h)
      obtain ⟨s1, s2⟩ := optimizePass_slim q' hnil hmd es.reverse ms.reverse A (forall₂_reverse_iff.2 h)
        (forall₂_reverse_iff.2 hs) _ _ _ p1
      have s1' : Forall₂ Slim es rms.reverse := by
        have := forall₂_reverse_iff.2 s1
        rwa [List.reverse_reverse] at this
      have hQ : Forall₂ (QInv (maxDepth q') A') es rms.reverse := by
        have := forall₂_reverse_iff.2 p3
        rwa [List.reverse_reverse] at this
      rw [p1] at ho ⊢
      simp only at ho ⊢
      by_cases hconv : (conv && !ch) = true
      · rw [if_pos hconv] at ho ⊢
        injection ho with ho; injection ho with ho; subst ho
        rw [Bool.and_eq_true] at hconv
        obtain ⟨j1, j2⟩ := s2 hconv.1
        exact ⟨s1', (fun _ => by rw [j1]; exact useful_reverse j2), by omega, by omega, (fun h => by cases h), by omega⟩
      · rw [if_neg hconv, if_neg (by omega)] at ho ⊢
        have hlt := measure_lt (q := q) (conv := conv) (ch := ch) (keepAll (ms.map WM.pm)) keep p2 hQ p6 p7 p8 p9
          (by rw [hq']; exact hch hnil rfl) hconv
        rw [hq'] at hlt
        obtain ⟨a, b, c, d, f, g⟩ := ih rms.reverse A' q' (hQ.imp fun e m hm => hm.1) s1' o ho
        exact ⟨a, b, by omega, by omega, (fun hg => by have := f hg; omega), by omega⟩

theorem sync_slim {maxLen : Nat} (es : List Expr) : ∀ (ms : List WM) (B : List Word), Sync false maxLen es ms B →
    Forall₂ Slim es ms ∧ Forall₂ (fun e m => m.pm.expr = e) es ms := by
  induction es with
  | nil =>
    intro ms B h
    cases ms with
    | nil => exact ⟨Forall₂.nil, Forall₂.nil⟩
    | cons m ms => simp [Sync] at h
  | cons e es ih =>
    intro ms B h
    cases ms with
    | nil => simp [Sync] at h
    | cons m ms =>
      obtain ⟨h1, h2⟩ := h
      obtain ⟨i1, i2⟩ := ih ms _ h2
      exact ⟨Forall₂.cons (Nat.le_of_eq h1.pmLen) i1, Forall₂.cons h1.pmExpr i2⟩

/-- A call that answers `Logs`. -/
theorem next_logs {es : List Expr} (hes : ∀ e ∈ es, WF e) {wl : List Word} {L : List (List Word)} {g : Bool} {cL : Nat}
    (q : QState) (R : List (List Word)) (n : Nat) (hq : PhaseInv es wl q.depthLimit L g cL q.phase R n)
    {clk : Clock} {q' : QState} {b : Bool} (h : q.next clk = .ok (q', .logs b)) (took : List Char) :
    ∃ ms ps, ¬ q.depthLimit ≤ 1 ∧ Sync false (maxWordLen wl) es ms wl ∧ plan ms q.depthLimit = .ok (some ps) ∧ b = planGaveUp ms q.depthLimit ∧
      q.logText took clk = logLines took ms q.depthLimit := by
  obtain ⟨phase, depth, limit, count⟩ := q
  simp only at hq
  unfold QState.next at h
  unfold QState.logText
  cases phase with
  | done => cases h
  | word ms wl' =>
    obtain ⟨rfl, e, es', m, ms', P, ws, rfl, rfl, hwl, hat, hch, hR, hn⟩ := hq
    simp only at h ⊢
    split at h
    · cases h
    have hes0 : ∀ e' ∈ es', 0 < e'.len := fun e' he' => (hes e' (by simp [he'])).nonempty
    have hidx : wl'.length - m.wordIndex + 1 = ws.length + 1 := by
      rw [hat.idx, hwl]; simp
    have hlt : ∀ w ∈ P ++ ws, w.chars.length < maxWordLen wl' := by rw [← hwl]; exact lt_maxWordLen wl'
    obtain ⟨m', ms'', out, clk', k, g1, g2, g3, g4, g5, g6⟩ := wordLoop_spec (hes e (by simp)).nonempty hes0
      (ws.length + 1) clk hat hch hlt (by omega)
    rw [← hwl] at g1
    rw [hidx, g1] at h ⊢
    cases out with
    | some w => cases h
    | none =>
      obtain ⟨_, b', _⟩ := g6
      simp only at h ⊢
      by_cases hread : clk'.read.1 = true
      · rw [if_pos hread] at h; cases h
      · rw [if_neg hread] at h
        have hk : k = ws.length := by
          rcases b' with b' | b'
          · exact b'
          · rw [b'] at hread; exact absurd rfl hread
        subst hk
        rw [List.take_length, ← hwl] at g4
        by_cases hs : depth ≤ 1
        · rw [if_pos (by simpa using hs)] at h; cases h
        · rw [if_neg (by simpa using hs)] at h
          have hsf : decide (depth ≤ 1) = false := by simpa using hs
          rw [hsf] at g4 g5
          obtain ⟨ms3, h1, h2⟩ := drainAll_sync hes0 g5
            (fun x hx => lt_maxWordLen wl' x (g4.alive_sub x hx))
          rw [h1] at h ⊢
          simp only at h ⊢
          revert h
          generalize hp : plan (m' :: ms3) depth = x
          intro h
          match x, hp, h with
          | .error _, _, h => cases h
          | .ok none, _, h => cases h
          | .ok (some ps), hp, h =>
            injection h with h; injection h with _ h; injection h with h
            exact ⟨m' :: ms3, ps, hs, ⟨g4, h2⟩, hp, h.symm, rfl⟩
  | phrase ps =>
    simp only at h
    split at h
    · cases h
    · split at h
      · cases h
      · split at h <;> cases h

theorem logTexts_done (took : List Char) (q : QState) (h : q.phase = .done) (clks : List Clock) :
    q.logTexts took clks = .ok [] := by
  induction clks with
  | nil => rfl
  | cons c cs ih =>
    have : q.next c = .ok (q, .complete) := by unfold QState.next; rw [h]
    rw [QState.logTexts, this]
    dsimp only
    rw [ih]

/-- Is it a log? -/
def isLogs : Resp → Bool
  | .logs _ => true
  | _ => false

/-- What is known of the logs of a history. -/
def LogSpec (es : List Expr) (wl : List Word) (took : List Char) (q : QState) (clks : List Clock) (rs : List Resp) : Prop :=
  (rs.countP isLogs = 0 ∧ q.logTexts took clks = .ok []) ∨
  (q.isPhrase = false ∧ rs.countP isLogs = 1 ∧
    ∃ ms ps, ¬ q.depthLimit ≤ 1 ∧ Sync false (maxWordLen wl) es ms wl ∧ plan ms q.depthLimit = .ok (some ps) ∧
      .logs (planGaveUp ms q.depthLimit) ∈ rs ∧ q.logTexts took clks = .ok [logLines took ms q.depthLimit])

/-- The log texts of a history. -/
theorem logTexts_spec {es : List Expr} (hes : ∀ e ∈ es, WF e) {wl : List Word} {L : List (List Word)} {g : Bool} {cL : Nat}
    (took : List Char) (clks : List Clock) : ∀ (q : QState) (R : List (List Word)) (n : Nat) (q' : QState) (rs : List Resp),
      Planned es wl q.depthLimit L g cL → PhaseInv es wl q.depthLimit L g cL q.phase R n → q.isDone = false →
      q.run clks = .ok (q', rs) →
      LogSpec es wl took q clks rs := by
  induction clks with
  | nil =>
    intro q R n q' rs _ _ _ h
    simp only [QState.run, Except.ok.injEq, Prod.mk.injEq] at h
    obtain ⟨rfl, rfl⟩ := h
    exact .inl ⟨rfl, rfl⟩
  | cons c cs ih =>
    intro q R n q' rs hL hq hd h
    have hend : ∀ q1 : QState, q.next c = .ok (q1, .complete) → q1.phase = .done →
        (rs.countP isLogs = 0 ∧ q.logTexts took (c :: cs) = .ok []) := by
      intro q1 h1 h2
      simp only [QState.run, h1, run_done q1 h2, Except.ok.injEq, Prod.mk.injEq] at h
      obtain ⟨rfl, rfl⟩ := h
      refine ⟨?_, ?_⟩
      · rw [List.countP_cons_of_neg (by simp [isLogs]), List.countP_replicate]; rfl
      · rw [QState.logTexts, h1]
        dsimp only
        rw [logTexts_done took q1 h2]
    by_cases hf : q.full = true
    · exact .inl (hend _ (next_full q hd hf c) rfl)
    · have hf' : q.full = false := by simpa using hf
      obtain ⟨q1, r, h1, h2, h3, h4⟩ := next_step hes q hL R n hq hd hf' c
      rw [QState.run, h1] at h
      dsimp only at h
      revert h
      generalize hcs : q1.run cs = x
      intro h
      match x, hcs, h with
      | .error x, _, h => cases h
      | .ok (q2, rs2), hcs, h =>
        injection h with h; injection h with h5 h6; subst h5 h6
        have hstep : ∀ (R' : List (List Word)) (n' : Nat), (∀ b, r ≠ .logs b) →
            PhaseInv es wl q.depthLimit L g cL q1.phase R' n' → q1.isDone = false → q1.isPhrase = q.isPhrase →
            LogSpec es wl took q (c :: cs) (r :: rs2) := by
          intro R' n' hr hinv hd1 hph
          have i := ih q1 R' n' q2 rs2 (by rw [h2]; exact hL) (by rw [h2]; exact hinv) hd1 hcs
          unfold LogSpec at i
          rw [h2, hph] at i
          have hc : (r :: rs2).countP isLogs = rs2.countP isLogs := by
            rw [List.countP_cons_of_neg]
            cases r <;> simp_all [isLogs]
          have hl : ∀ ts, q1.logTexts took cs = .ok ts → q.logTexts took (c :: cs) = .ok ts := by
            intro ts hts
            rw [QState.logTexts, h1]
            dsimp only
            rw [hts]
            cases r <;> simp_all
          rw [← hc] at i
          rcases i with ⟨i1, i2⟩ | ⟨i1, i2, ms, ps, i0, i3, i4, i5, i6⟩
          · exact .inl ⟨i1, hl _ i2⟩
          · exact .inr ⟨i1, i2, ms, ps, i0, i3, i4, List.mem_cons_of_mem r i5, hl _ i6⟩
        cases h4 with
        | empty e1 e2 e3 e4 e5 e6 => exact .inl (hend q1 h1 e2)
        | matched ws R' n' e1 e2 e3 e4 e5 e6 => exact hstep R' n' (by simp) e2 e4 e5
        | timeout n' e0 e2 e3 e3' e4 e5 e6 => exact hstep R n' (by simp) e2 e4 e5
        | logs n' e2 e3 e4 e5 e6 e7 e8 =>
          have hd1 : q1.isDone = false := by
            obtain ⟨ph1, _, _, _⟩ := q1
            cases ph1 <;> simp_all [QState.isPhrase, QState.isDone]
          obtain ⟨ms, ps, s0, s1, s2, s3, s4⟩ := next_logs hes q R n hq h1 took
          rcases ih q1 R n' q2 rs2 (by rw [h2]; exact hL) (by rw [h2]; exact e2) hd1 hcs with ⟨i1, i2⟩ | ⟨i1, _⟩
          · refine .inr ⟨e4, ?_, ms, ps, s0, s1, s2, by rw [← s3]; simp, ?_⟩
            · rw [List.countP_cons_of_pos (by rfl), i1]
            · rw [QState.logTexts, h1]
              dsimp only
              rw [i2, s4]
          · rw [e5] at i1; cases i1

end Noodle
