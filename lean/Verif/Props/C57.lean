import Verif.Spec.Ops
import Verif.Proofs.Exprs
import Verif.Proofs.Loose
import Verif.Props.C44
/-
C57: using the evaluator object: changing the settings between calls, iterating, asking for the expressions.
-/
namespace Noodle
open Spec
set_option autoImplicit false

/-! ### What one call does to the phase and the settings -/

/-- A call keeps the settings; in the single-word phase it depends on the phrase length only through "at most one word",
and on the limit only through its being reached; it leaves that phase exactly when it says `Complete` or `Logs`. -/
theorem next_word {q q' : QState} {c : Clock} {r : Resp} {ms : List WM} {wl : List Word} (hp : q.phase = .word ms wl)
    (h : q.next c = .ok (q', r)) :
    (Early [r] ∧ (∃ ms', q'.phase = .word ms' wl) ∧ q'.depthLimit = q.depthLimit ∧ q'.resultsLimit = q.resultsLimit ∧
      q'.resultsCount = q.resultsCount + (reported [r]).length ∧ q.full = false ∧
      ∀ D L, (D ≤ 1 ↔ q.depthLimit ≤ 1) → ({ q with depthLimit := D, resultsLimit := L } : QState).full = false →
        ({ q with depthLimit := D, resultsLimit := L } : QState).next c =
          .ok ({ q' with depthLimit := D, resultsLimit := L }, r)) ∨
    (¬ Early [r] ∧ ∀ ms' wl', q'.phase ≠ .word ms' wl') := by
  obtain ⟨ph, d, l, k⟩ := q
  simp only at hp
  subst hp
  unfold QState.next at h
  simp only at h
  split at h
  · injection h with h; injection h with h1 h2; subst h1 h2
    exact .inr ⟨fun h => h.1 (by simp), by simp⟩
  · rename_i hf
    split at h
    · cases h
    · rename_i m ms
      split at h
      · cases h
      · rename_i m' ms' w clk' hw
        injection h with h; injection h with h1 h2; subst h1 h2
        refine .inl ⟨by simp [Early], ⟨_, rfl⟩, rfl, rfl, rfl, by simpa [QState.full] using hf, fun D L hD hL => ?_⟩
        simp only [QState.full] at hL
        unfold QState.next
        simp only
        rw [if_neg (by simpa using hL)]
        have : decide (D ≤ 1) = decide (d ≤ 1) := by simp [hD]
        simp only [this, hw]
      · rename_i m' ms' clk' hw
        split at h
        · rename_i ht
          injection h with h; injection h with h1 h2; subst h1 h2
          refine .inl ⟨by simp [Early], ⟨_, rfl⟩, rfl, rfl, rfl, by simpa [QState.full] using hf, fun D L hD hL => ?_⟩
          simp only [QState.full] at hL
          unfold QState.next
          simp only
          rw [if_neg (by simpa using hL)]
          have : decide (D ≤ 1) = decide (d ≤ 1) := by simp [hD]
          simp only [this, hw]
          rw [if_pos ht]
        · split at h
          · injection h with h; injection h with h1 h2; subst h1 h2
            exact .inr ⟨fun h => h.1 (by simp), by simp⟩
          · split at h
            · cases h
            · split at h
              · cases h
              · injection h with h; injection h with h1 h2; subst h1 h2
                exact .inr ⟨fun h => h.1 (by simp), by simp⟩
              · injection h with h; injection h with h1 h2; subst h1 h2
                exact .inr ⟨fun h => h.2 _ (List.mem_singleton.2 rfl), by simp⟩

/-- The other phases never go back to single words. -/
theorem next_late {q q' : QState} {c : Clock} {r : Resp} (hp : ∀ ms wl, q.phase ≠ .word ms wl)
    (h : q.next c = .ok (q', r)) : ∀ ms wl, q'.phase ≠ .word ms wl := by
  unfold QState.next at h
  split at h
  · injection h with h; injection h with h1 h2; subst h1; exact hp
  · rename_i hq; exact absurd hq (hp _ _)
  · split at h
    · injection h with h; injection h with h1 h2; subst h1; simp
    · split at h
      · cases h
      · split at h
        · cases h
        · injection h with h; injection h with h1 h2; subst h1; simp
        · injection h with h; injection h with h1 h2; subst h1; simp
        · injection h with h; injection h with h1 h2; subst h1; simp

theorem Early.cons {r : Resp} {rs : List Resp} : Early (r :: rs) ↔ Early [r] ∧ Early rs := by
  simp only [Early, List.mem_cons, List.not_mem_nil, or_false, not_or]
  constructor
  · rintro ⟨⟨a, b⟩, c⟩
    exact ⟨⟨a, fun x => (c x).1⟩, b, fun x => (c x).2⟩
  · rintro ⟨⟨a, b⟩, c, d⟩
    exact ⟨⟨a, c⟩, fun x => ⟨b x, d x⟩⟩

theorem uses_late (ops : List Op) : ∀ {q q' : QState} {rs : List Resp}, (∀ ms wl, q.phase ≠ .word ms wl) →
    uses q ops = .ok (q', rs) → ∀ ms wl, q'.phase ≠ .word ms wl := by
  induction ops with
  | nil =>
    intro q q' rs hp h
    injection h with h; injection h with h1 h2; subst h1; exact hp
  | cons o ops ih =>
    intro q q' rs hp h
    cases o with
    | call c =>
      rw [uses] at h
      split at h
      · cases h
      · rename_i q1 r h1
        split at h
        · cases h
        · rename_i q2 rs2 h2
          injection h with h; injection h with h3 h4; subst h3
          exact ih (next_late hp h1) h2
    | limit l =>
      rw [uses] at h
      split at h
      · cases h
      · rename_i q1 h1
        unfold QState.setLimit at h1
        split at h1
        · rename_i hq; exact absurd hq (hp _ _)
        · cases h1
    | depth d =>
      rw [uses] at h
      split at h
      · cases h
      · rename_i q1 h1
        unfold QState.setDepth at h1
        split at h1
        · rename_i hq; exact absurd hq (hp _ _)
        · cases h1

theorem reported_cons (r : Resp) (rs : List Resp) : reported (r :: rs) = reported [r] ++ reported rs := by
  cases r <;> rfl

/-- A history that stays in the single-word phase. -/
theorem uses_word (ops : List Op) : ∀ {q q' : QState} {rs : List Resp} {ms : List WM} {wl : List Word},
    q.phase = .word ms wl → uses q ops = .ok (q', rs) →
    (Early rs ↔ ∃ ms' wl', q'.phase = .word ms' wl') ∧
    (Early rs → q'.depthLimit = lastDepth q.depthLimit ops ∧ q'.resultsLimit = lastLimit q.resultsLimit ops ∧
      q'.resultsCount = q.resultsCount + (reported rs).length ∧
      ∀ D L, (∀ d ∈ depthsAtCalls q.depthLimit ops, (D ≤ 1 ↔ d ≤ 1)) →
        ({ q' with resultsLimit := L } : QState).full = false →
        ({ q with depthLimit := D, resultsLimit := L } : QState).run (callsOf ops) =
          .ok ({ q' with depthLimit := D, resultsLimit := L }, rs)) := by
  induction ops with
  | nil =>
    intro q q' rs ms wl hp h
    injection h with h; injection h with h1 h2; subst h1 h2
    exact ⟨iff_of_true (by simp [Early]) ⟨_, _, hp⟩, fun _ => ⟨rfl, rfl, rfl, fun _ _ _ _ => rfl⟩⟩
  | cons o ops ih =>
    intro q q' rs ms wl hp h
    cases o with
    | call c =>
      rw [uses] at h
      split at h
      · cases h
      · rename_i q1 r h1
        split at h
        · cases h
        · rename_i q2 rs2 h2
          injection h with h; injection h with h3 h4; subst h3 h4
          rcases next_word hp h1 with ⟨e, ⟨ms1, p1⟩, p2, p3, p4, p5, p6⟩ | ⟨e, p⟩
          · obtain ⟨i1, i2⟩ := ih p1 h2
            rw [Early.cons]
            refine ⟨⟨fun h => i1.1 h.2, fun h => ⟨e, i1.2 h⟩⟩, fun h => ?_⟩
            obtain ⟨j1, j2, j3, j4⟩ := i2 h.2
            refine ⟨by rw [j1, p2]; rfl, by rw [j2, p3]; rfl, ?_, fun D L hD hL => ?_⟩
            · rw [j3, p4, reported_cons r rs2, List.length_append]; omega
            · have hq : ({ q with depthLimit := D, resultsLimit := L } : QState).full = false := by
                cases L with
                | none => rfl
                | some l =>
                  simp only [QState.full, Option.any_some, decide_eq_false_iff_not] at hL ⊢
                  omega
              simp only [depthsAtCalls, List.mem_cons, forall_eq_or_imp] at hD
              rw [callsOf, QState.run, p6 D L hD.1 hq]
              simp only
              rw [j4 D L (by rw [p2]; exact hD.2) hL]
          · have hl := uses_late ops p h2
            refine ⟨iff_of_false (fun h => e (Early.cons.1 h).1) (by simpa using hl), fun h => absurd (Early.cons.1 h).1 e⟩
    | limit l =>
      rw [uses] at h
      split at h
      · cases h
      · rename_i q1 h1
        unfold QState.setLimit at h1
        rw [hp] at h1
        injection h1 with h1
        rw [← hp] at h1
        subst h1
        exact ih (q := { q with resultsLimit := l }) hp h
    | depth d =>
      rw [uses] at h
      split at h
      · cases h
      · rename_i q1 h1
        unfold QState.setDepth at h1
        rw [hp] at h1
        injection h1 with h1
        rw [← hp] at h1
        subst h1
        exact ih (q := { q with depthLimit := d }) hp h

theorem uses_append (ops ops' : List Op) : ∀ (q : QState), uses q (ops ++ ops') =
    match uses q ops with
    | .error x => .error x
    | .ok (q', rs) =>
      match uses q' ops' with
      | .error x => .error x
      | .ok (q'', rs') => .ok (q'', rs ++ rs') := by
  induction ops with
  | nil =>
    intro q
    simp only [List.nil_append, uses]
    cases uses q ops' with
    | error x => rfl
    | ok p => rfl
  | cons o ops ih =>
    intro q
    cases o with
    | call c =>
      simp only [List.cons_append, uses]
      cases q.next c with
      | error x => rfl
      | ok p =>
        simp only
        rw [ih]
        cases uses p.1 ops with
        | error x => rfl
        | ok p =>
          simp only
          cases uses p.1 ops' <;> rfl
    | limit l =>
      simp only [List.cons_append, uses]
      cases q.setLimit l with
      | error x => rfl
      | ok p => exact ih p
    | depth l =>
      simp only [List.cons_append, uses]
      cases q.setDepth l with
      | error x => rfl
      | ok p => exact ih p

theorem uses_calls (clks : List Clock) : ∀ (q : QState), uses q (clks.map .call) = q.run clks := by
  induction clks with
  | nil => intro q; rfl
  | cons c cs ih =>
    intro q
    simp only [List.map_cons, uses, QState.run]
    cases q.next c with
    | error x => rfl
    | ok p =>
      simp only
      rw [ih]
      cases p.1.run cs <;> rfl

theorem run_calls_append (cs cs' : List Clock) (q : QState) : q.run (cs ++ cs') =
    match q.run cs with
    | .error x => .error x
    | .ok (q', rs) =>
      match q'.run cs' with
      | .error x => .error x
      | .ok (q'', rs') => .ok (q'', rs ++ rs') := by
  rw [← uses_calls, List.map_append, uses_append, uses_calls]
  cases q.run cs with
  | error x => rfl
  | ok p => simp only [uses_calls]

theorem new_word {es : List Expr} {wl : List Word} {d : Nat} {l : Option Nat} {q : QState}
    (h : QState.new es wl d l = .ok q) : (∃ ms, q.phase = .word ms wl) ∧ q.depthLimit = d ∧ q.resultsLimit = l ∧
      q.resultsCount = 0 ∧ ∀ D L, QState.new es wl D L = .ok { q with depthLimit := D, resultsLimit := L } := by
  unfold QState.new at h ⊢
  split at h
  · cases h
  · rename_i hne
    injection h with h
    subst h
    exact ⟨⟨_, rfl⟩, rfl, rfl, rfl, fun D L => by rw [if_neg hne]⟩

/-! ### Single words only: what was done before does not matter -/

/-- Two evaluators at the same word, prepared in different ways. -/
def Like (es : List Expr) (wl : List Word) (q p : QState) : Prop :=
  ∃ m ms m' ms', q.phase = .word (m :: ms) wl ∧ p.phase = .word (m' :: ms') wl ∧
    LChain (maxWordLen wl) es (m :: ms) wl ∧ LChain (maxWordLen wl) es (m' :: ms') wl ∧
    m'.wordIndex = m.wordIndex ∧ p.resultsCount = q.resultsCount

theorem Like.symm {es : List Expr} {wl : List Word} {q p : QState} (h : Like es wl q p) : Like es wl p q := by
  obtain ⟨m, ms, m', ms', a, b, c, d, e, f⟩ := h
  exact ⟨m', ms', m, ms, b, a, d, c, e.symm, f.symm⟩

theorem Like.loop {es : List Expr} (hes : ∀ e ∈ es, 0 < e.len) {wl : List Word} {m m' : WM} {ms ms' : List WM}
    (h : LChain (maxWordLen wl) es (m :: ms) wl) (h' : LChain (maxWordLen wl) es (m' :: ms') wl)
    (hi : m'.wordIndex = m.wordIndex) (s s' : Bool) (c : Clock) :
    ∃ m1 ms1 m1' ms1' out clk', wordLoop wl s (wl.length - m.wordIndex + 1) m ms c = .ok (m1, ms1, out, clk') ∧
      wordLoop wl s' (wl.length - m'.wordIndex + 1) m' ms' c = .ok (m1', ms1', out, clk') ∧
      LChain (maxWordLen wl) es (m1 :: ms1) wl ∧ LChain (maxWordLen wl) es (m1' :: ms1') wl ∧
      m1'.wordIndex = m1.wordIndex := by
  cases es with
  | nil => simp [LChain] at h
  | cons e es =>
    rw [hi]
    exact wordLoop_same (hes e (by simp)) (fun e he => hes e (by simp [he])) (lt_maxWordLen wl) s s' _ c h h' hi
      (Nat.lt_succ_self _)

/-- A call of an evaluator that, whatever its phrase length, stays with single words: one that looks only at single
words responds in the same way. -/
theorem Like.next {es : List Expr} (hes : ∀ e ∈ es, 0 < e.len) {wl : List Word} {q p q' : QState} {c : Clock} {r : Resp}
    (h : Like es wl q p) (hd : p.depthLimit ≤ 1) (hf : p.full = false) (hn : q.next c = .ok (q', r)) (he : Early [r]) :
    ∃ p', p.next c = .ok (p', r) ∧ Like es wl q' p' ∧ p'.depthLimit = p.depthLimit ∧
      p'.resultsLimit = p.resultsLimit := by
  obtain ⟨ph, d, l, k⟩ := q
  obtain ⟨ph', d', l', k'⟩ := p
  obtain ⟨m, ms, m', ms', h1, h2, h3, h4, h5, h6⟩ := h
  simp only at h1 h2 h6 hd
  subst h1 h2 h6
  obtain ⟨m1, ms1, m1', ms1', out, clk', g1, g2, g3, g4, g5⟩ := Like.loop hes h3 h4 h5 (decide (d ≤ 1)) true c
  unfold QState.next at hn ⊢
  simp only [g1] at hn
  simp only [hd, decide_true, g2]
  rw [if_neg (by simpa [QState.full] using hf)]
  split at hn
  · injection hn with hn; injection hn with hn1 hn2; subst hn2
    exact absurd he (fun h => h.1 (by simp))
  · cases out with
    | some w =>
      injection hn with hn; injection hn with hn1 hn2; subst hn1 hn2
      exact ⟨_, rfl, ⟨m1, ms1, m1', ms1', rfl, rfl, g3, g4, g5, rfl⟩, rfl, rfl⟩
    | none =>
      simp only at hn ⊢
      by_cases ht : clk'.read.1 = true
      · rw [if_pos ht] at hn ⊢
        injection hn with hn; injection hn with hn1 hn2; subst hn1 hn2
        exact ⟨_, rfl, ⟨m1, ms1, m1', ms1', rfl, rfl, g3, g4, g5, rfl⟩, rfl, rfl⟩
      · exfalso
        rw [if_neg ht] at hn
        split at hn
        · injection hn with hn; injection hn with hn1 hn2; subst hn2
          exact he.1 (by simp)
        · split at hn
          · cases hn
          · split at hn
            · cases hn
            · injection hn with hn; injection hn with hn1 hn2; subst hn2
              exact he.1 (by simp)
            · injection hn with hn; injection hn with hn1 hn2; subst hn2
              exact he.2 _ (List.mem_singleton.2 rfl)

/-- Two evaluators that look only at single words, have the same limit and are at the same word respond alike. -/
theorem Like.next_single {es : List Expr} (hes : ∀ e ∈ es, 0 < e.len) {wl : List Word} {q p : QState}
    (h : Like es wl q p) (hq : q.depthLimit ≤ 1) (hp : p.depthLimit ≤ 1) (hl : p.resultsLimit = q.resultsLimit)
    (c : Clock) : ∃ q' p' r, q.next c = .ok (q', r) ∧ p.next c = .ok (p', r) ∧
      ((q'.phase = .done ∧ p'.phase = .done) ∨
        (Like es wl q' p' ∧ q'.depthLimit ≤ 1 ∧ p'.depthLimit ≤ 1 ∧ p'.resultsLimit = q'.resultsLimit)) := by
  obtain ⟨ph, d, l, k⟩ := q
  obtain ⟨ph', d', l', k'⟩ := p
  obtain ⟨m, ms, m', ms', h1, h2, h3, h4, h5, h6⟩ := h
  simp only at h1 h2 h6 hq hp hl
  subst h1 h2 h6 hl
  obtain ⟨m1, ms1, m1', ms1', out, clk', g1, g2, g3, g4, g5⟩ := Like.loop hes h3 h4 h5 true true c
  unfold QState.next
  simp only [hq, hp, decide_true, g1, g2]
  split
  · exact ⟨_, _, _, rfl, rfl, .inl ⟨rfl, rfl⟩⟩
  · cases out with
    | some w =>
      exact ⟨_, _, _, rfl, rfl, .inr ⟨⟨m1, ms1, m1', ms1', rfl, rfl, g3, g4, g5, rfl⟩, hq, hp, rfl⟩⟩
    | none =>
      simp only
      split
      · exact ⟨_, _, _, rfl, rfl, .inr ⟨⟨m1, ms1, m1', ms1', rfl, rfl, g3, g4, g5, rfl⟩, hq, hp, rfl⟩⟩
      · exact ⟨_, _, _, rfl, rfl, .inl ⟨rfl, rfl⟩⟩

theorem Like.run_single {es : List Expr} (hes : ∀ e ∈ es, 0 < e.len) {wl : List Word} (clks : List Clock) :
    ∀ {q p : QState}, Like es wl q p → q.depthLimit ≤ 1 → p.depthLimit ≤ 1 → p.resultsLimit = q.resultsLimit →
      ∃ q' p' rs, q.run clks = .ok (q', rs) ∧ p.run clks = .ok (p', rs) := by
  induction clks with
  | nil => intro q p _ _ _ _; exact ⟨q, p, [], rfl, rfl⟩
  | cons c cs ih =>
    intro q p h hq hp hl
    obtain ⟨q1, p1, r, h1, h2, h3⟩ := h.next_single hes hq hp hl c
    simp only [QState.run, h1, h2]
    rcases h3 with ⟨a, b⟩ | ⟨a, b, c', d⟩
    · rw [run_done _ a, run_done _ b]
      exact ⟨_, _, _, rfl, rfl⟩
    · obtain ⟨q2, p2, rs, g1, g2⟩ := ih a b c' d
      rw [g1, g2]
      exact ⟨_, _, _, rfl, rfl⟩

theorem Like.uses {es : List Expr} (hes : ∀ e ∈ es, 0 < e.len) {wl : List Word} (ops : List Op) :
    ∀ {q p q' : QState} {rs : List Resp}, Like es wl q p → p.depthLimit ≤ 1 → uses q ops = .ok (q', rs) → Early rs →
      (∀ n, p.resultsLimit = some n → q'.resultsCount < n) →
      ∃ p', p.run (callsOf ops) = .ok (p', rs) ∧ Like es wl q' p' ∧ p'.depthLimit = p.depthLimit ∧
        p'.resultsLimit = p.resultsLimit := by
  induction ops with
  | nil =>
    intro q p q' rs h hd hu _ _
    injection hu with hu; injection hu with h1 h2; subst h1 h2
    exact ⟨p, rfl, h, rfl, rfl⟩
  | cons o ops ih =>
    intro q p q' rs h hd hu he hl
    cases o with
    | call c =>
      rw [Spec.uses] at hu
      split at hu
      · cases hu
      · rename_i q1 r h1
        split at hu
        · cases hu
        · rename_i q2 rs2 h2
          injection hu with hu; injection hu with h3 h4; subst h3 h4
          obtain ⟨he1, he2⟩ := Early.cons.1 he
          obtain ⟨m, ms, m', ms', hp, -, -, -, -, hc⟩ := id h
          have hcount : q.resultsCount ≤ q1.resultsCount ∧ q1.resultsCount ≤ q2.resultsCount := by
            rcases next_word hp h1 with ⟨-, ⟨ms1, p1⟩, -, -, p4, -, -⟩ | ⟨e, -⟩
            · obtain ⟨-, i2⟩ := uses_word ops p1 h2
              have := (i2 he2).2.2.1
              omega
            · exact absurd he1 e
          have hf : p.full = false := by
            unfold QState.full
            cases hlim : p.resultsLimit with
            | none => rfl
            | some n =>
              have := hl n hlim
              simp only [Option.any_some, decide_eq_false_iff_not]
              omega
          obtain ⟨p1, g1, g2, g3, g4⟩ := h.next hes hd hf h1 he1
          obtain ⟨p2, k1, k2, k3, k4⟩ := ih g2 (by rw [g3]; exact hd) h2 he2 (by rw [g4]; exact hl)
          refine ⟨p2, ?_, k2, k3.trans g3, k4.trans g4⟩
          simp only [callsOf, QState.run, g1, k1]
    | limit l =>
      rw [Spec.uses] at hu
      split at hu
      · cases hu
      · rename_i q1 h1
        obtain ⟨m, ms, m', ms', a, b⟩ := h
        unfold QState.setLimit at h1
        rw [a] at h1
        injection h1 with h1
        subst h1
        refine ih (p := p) ?_ hd hu he hl
        exact ⟨m, ms, m', ms', rfl, b⟩
    | depth d =>
      rw [Spec.uses] at hu
      split at hu
      · cases hu
      · rename_i q1 h1
        obtain ⟨m, ms, m', ms', a, b⟩ := h
        unfold QState.setDepth at h1
        rw [a] at h1
        injection h1 with h1
        subst h1
        refine ih (p := p) ?_ hd hu he hl
        exact ⟨m, ms, m', ms', rfl, b⟩

theorem new_like {es : List Expr} {wl : List Word} {d d' : Nat} {l l' : Option Nat} {q p : QState}
    (h : QState.new es wl d l = .ok q) (h' : QState.new es wl d' l' = .ok p) : Like es wl q p := by
  unfold QState.new at h h'
  cases es with
  | nil => simp at h
  | cons e es =>
    rw [if_neg (by simp)] at h h'
    injection h with h
    injection h' with h'
    subst h h'
    have hpos : 0 < maxWordLen wl := by unfold maxWordLen; omega
    have := lchain_new (maxWordLen wl) hpos (e :: es) wl
    exact ⟨_, _, _, _, rfl, rfl, this, this, rfl, rfl⟩

/-! ### C57 -/

/-- C57: the settings may be changed as long as no call has said `Complete` or `Logs`; after that, both setters panic. -/
theorem C57_setters {es : List Expr} {wl : List Word} {d0 : Nat} {l0 : Option Nat} {ops : List Op} {rs : List Resp}
    (h : Used es wl d0 l0 ops rs) (o : Op) (ho : ∀ c, o ≠ .call c) :
    (Early rs → Used es wl d0 l0 (ops ++ [o]) rs) ∧ (¬ Early rs → ∀ rs', ¬ Used es wl d0 l0 (ops ++ [o]) rs') := by
  obtain ⟨q, q', hq, hu⟩ := h
  obtain ⟨⟨ms, hp⟩, -⟩ := new_word hq
  obtain ⟨i1, -⟩ := uses_word ops hp hu
  refine ⟨fun he => ?_, fun he rs' hr => ?_⟩
  · obtain ⟨ms', wl', hp'⟩ := i1.1 he
    cases o with
    | call c => exact absurd rfl (ho c)
    | limit l =>
      refine ⟨q, { q' with resultsLimit := l }, hq, ?_⟩
      rw [uses_append, hu]
      simp [uses, QState.setLimit, hp']
    | depth d =>
      refine ⟨q, { q' with depthLimit := d }, hq, ?_⟩
      rw [uses_append, hu]
      simp [uses, QState.setDepth, hp']
  · obtain ⟨p, p', hp1, hp2⟩ := hr
    rw [hq] at hp1
    injection hp1 with hp1
    subst hp1
    rw [uses_append, hu] at hp2
    have hnw : ∀ ms' wl', q'.phase ≠ .word ms' wl' := fun ms' wl' hw => he (i1.2 ⟨_, _, hw⟩)
    cases o with
    | call c => exact absurd rfl (ho c)
    | limit l =>
      have : q'.setLimit l = .error .assert := by
        unfold QState.setLimit
        split
        · rename_i hw; exact absurd hw (hnw _ _)
        · rfl
      simp [uses, this] at hp2
    | depth l =>
      have : q'.setDepth l = .error .assert := by
        unfold QState.setDepth
        split
        · rename_i hw; exact absurd hw (hnw _ _)
        · rfl
      simp [uses, this] at hp2

/-- If the limit is now not above the number of matches already reported. -/
theorem settings_full {es : List Expr} {wl : List Word} {d0 : Nat} {l0 : Option Nat} {ops : List Op} {clks : List Clock}
    {rs rs' : List Resp} (h : Used es wl d0 l0 ops rs) (he : Early rs)
    (h' : Used es wl d0 l0 (ops ++ clks.map .call) (rs ++ rs')) (n : Nat) (hl : lastLimit l0 ops = some n)
    (hn : n ≤ (reported rs).length) : rs' = List.replicate clks.length .complete := by
  obtain ⟨q, q', hq, hu⟩ := h
  obtain ⟨⟨ms, hp⟩, hd0, hl0, hc0, hnew⟩ := new_word hq
  obtain ⟨i1, i2⟩ := uses_word ops hp hu
  obtain ⟨j1, j2, j3, -⟩ := i2 he
  obtain ⟨ms', wl', hp'⟩ := i1.1 he
  rw [hl0] at j2
  rw [hc0, Nat.zero_add] at j3
  obtain ⟨p, p', hp1, hp2⟩ := h'
  rw [hq] at hp1
  injection hp1 with hp1
  subst hp1
  rw [uses_append, hu] at hp2
  simp only [uses_calls] at hp2
  split at hp2
  · cases hp2
  · rename_i q2 rs2 h2
    injection hp2 with hp2; injection hp2 with h3 h4
    have h4 := List.append_cancel_left h4
    subst h3 h4
    have hf : q'.full = true := by
      simp only [QState.full, j2, hl, Option.any_some, decide_eq_true_eq]
      omega
    cases clks with
    | nil => simp [QState.run] at h2; simp [h2.2]
    | cons c cs =>
      rw [QState.run, next_full q' (by simp [QState.isDone, hp']) hf] at h2
      simp only at h2
      rw [run_done _ rfl] at h2
      injection h2 with h2; injection h2 with h5 h6
      subst h6
      rfl

/-- If the phrase lengths in force at the calls all allow only single words, or all allow phrases. -/
theorem settings_same {es : List Expr} {wl : List Word} {d0 : Nat} {l0 : Option Nat} {ops : List Op} {clks : List Clock}
    {rs rs' : List Resp} (h : Used es wl d0 l0 ops rs) (he : Early rs)
    (hd : ∀ d ∈ depthsAtCalls d0 ops, (lastDepth d0 ops ≤ 1 ↔ d ≤ 1))
    (h' : Used es wl d0 l0 (ops ++ clks.map .call) (rs ++ rs')) :
    ((∀ n, lastLimit l0 ops = some n → (reported rs).length < n) →
      Session es wl (lastDepth d0 ops) (lastLimit l0 ops) (callsOf ops ++ clks) (rs ++ rs')) ∧
    (∀ n, lastLimit l0 ops = some n → n ≤ (reported rs).length → rs' = List.replicate clks.length .complete) := by
  obtain ⟨q, q', hq, hu⟩ := h
  obtain ⟨⟨ms, hp⟩, hd0, hl0, hc0, hnew⟩ := new_word hq
  obtain ⟨i1, i2⟩ := uses_word ops hp hu
  obtain ⟨j1, j2, j3, j4⟩ := i2 he
  obtain ⟨ms', wl', hp'⟩ := i1.1 he
  rw [hd0] at j1 j4
  rw [hl0] at j2
  rw [hc0, Nat.zero_add] at j3
  obtain ⟨p, p', hp1, hp2⟩ := h'
  rw [hq] at hp1
  injection hp1 with hp1
  subst hp1
  rw [uses_append, hu] at hp2
  simp only [uses_calls] at hp2
  split at hp2
  · cases hp2
  · rename_i q2 rs2 h2
    injection hp2 with hp2; injection hp2 with h3 h4
    have h4 := List.append_cancel_left h4
    subst h3 h4
    refine ⟨fun hl => ?_, fun n hl hn => ?_⟩
    · have hf : ({ q' with resultsLimit := lastLimit l0 ops } : QState).full = false := by
        simp only [QState.full]
        cases hl' : lastLimit l0 ops with
        | none => rfl
        | some n =>
          have := hl n hl'
          simp only [Option.any_some, decide_eq_false_iff_not]
          omega
      have hr := j4 (lastDepth d0 ops) (lastLimit l0 ops) hd hf
      refine ⟨_, q2, hnew _ _, ?_⟩
      rw [run_calls_append, hr]
      have : ({ q' with depthLimit := lastDepth d0 ops, resultsLimit := lastLimit l0 ops } : QState) = q' := by
        rw [← j1, ← j2]
      simp only [this, h2]
    · have hf : q'.full = true := by
        simp only [QState.full, j2, hl, Option.any_some, decide_eq_true_eq]
        omega
      cases clks with
      | nil => simp [QState.run] at h2; simp [h2.2]
      | cons c cs =>
        rw [QState.run, next_full q' (by simp [QState.isDone, hp']) hf] at h2
        simp only at h2
        rw [run_done _ rfl] at h2
        injection h2 with h2; injection h2 with h5 h6
        subst h6
        rfl

/-- If only single words are wanted from now on. -/
theorem settings_single {es : List Expr} {wl : List Word} (hr : Ready es wl) {d0 : Nat} {l0 : Option Nat} {ops : List Op}
    {clks : List Clock} {rs rs' : List Resp} (h : Used es wl d0 l0 ops rs) (he : Early rs) (hd : lastDepth d0 ops ≤ 1)
    (h' : Used es wl d0 l0 (ops ++ clks.map .call) (rs ++ rs'))
    (hl : ∀ n, lastLimit l0 ops = some n → (reported rs).length < n) :
    Session es wl (lastDepth d0 ops) (lastLimit l0 ops) (callsOf ops ++ clks) (rs ++ rs') := by
  have hes : ∀ e ∈ es, 0 < e.len := fun e h => (hr.wf e h).nonempty
  obtain ⟨q, q', hq, hu⟩ := h
  obtain ⟨⟨ms, hp⟩, hd0, hl0, hc0, hnew⟩ := new_word hq
  obtain ⟨i1, i2⟩ := uses_word ops hp hu
  obtain ⟨j1, j2, j3, -⟩ := i2 he
  rw [hd0] at j1
  rw [hl0] at j2
  rw [hc0, Nat.zero_add] at j3
  obtain ⟨p0, p0', hp1, hp2⟩ := h'
  rw [hq] at hp1
  injection hp1 with hp1
  subst hp1
  rw [uses_append, hu] at hp2
  simp only [uses_calls] at hp2
  split at hp2
  · cases hp2
  · rename_i q2 rs2 h2
    injection hp2 with hp2; injection hp2 with h3 h4
    have h4 := List.append_cancel_left h4
    subst h3 h4
    have hn := hnew (lastDepth d0 ops) (lastLimit l0 ops)
    obtain ⟨p', k1, k2, k3, k4⟩ := (new_like hq hn).uses hes ops hd hu he (by rw [j3]; exact hl)
    obtain ⟨q3, p3, rs3, g1, g2⟩ := k2.run_single hes clks (by rw [j1]; exact hd) (by rw [k3]; exact hd) (by rw [k4, j2])
    rw [h2] at g1
    injection g1 with g1; injection g1 with g1 g3
    subst g3
    exact ⟨_, p3, hn, by rw [run_calls_append, k1]; simp only [g2]⟩

/-- C57: what counts is the settings in force when the phrase phase begins: after any history of calls and settings in
which no call has said `Complete` or `Logs`, further calls respond as those of an evaluator that had its present
settings from the beginning; except that, if the limit is now not above the number of matches already reported, they
all say `Complete`. (If phrases are wanted now, they must have been wanted at every call before: see the
counterexamples.) -/
theorem C57_settings {es : List Expr} {wl : List Word} (hr : Ready es wl) {d0 : Nat} {l0 : Option Nat} {ops : List Op}
    {clks : List Clock} {rs rs' : List Resp} (h : Used es wl d0 l0 ops rs) (he : Early rs)
    (hd : 2 ≤ lastDepth d0 ops → ∀ d ∈ depthsAtCalls d0 ops, 2 ≤ d)
    (h' : Used es wl d0 l0 (ops ++ clks.map .call) (rs ++ rs')) :
    ((∀ n, lastLimit l0 ops = some n → (reported rs).length < n) →
      Session es wl (lastDepth d0 ops) (lastLimit l0 ops) (callsOf ops ++ clks) (rs ++ rs')) ∧
    (∀ n, lastLimit l0 ops = some n → n ≤ (reported rs).length → rs' = List.replicate clks.length .complete) := by
  by_cases h2 : 2 ≤ lastDepth d0 ops
  · exact settings_same h he (fun d hm => by have := hd h2 d hm; omega) h'
  · exact ⟨settings_single hr h he (by omega) h', settings_full h he h'⟩

/-- If the phrase lengths in force at the calls all allow only single words, or all allow phrases. -/
theorem no_crash_same {es : List Expr} {wl : List Word} (hr : Ready es wl) {d0 : Nat} {l0 : Option Nat} {ops : List Op}
    {rs : List Resp} (h : Used es wl d0 l0 ops rs) (he : Early rs)
    (hd : ∀ d ∈ depthsAtCalls d0 ops, (lastDepth d0 ops ≤ 1 ↔ d ≤ 1)) (clks : List Clock) :
    ∃ rs', rs'.length = clks.length ∧ Used es wl d0 l0 (ops ++ clks.map .call) (rs ++ rs') := by
  obtain ⟨q, q', hq, hu⟩ := h
  obtain ⟨⟨ms, hp⟩, hd0, hl0, hc0, hnew⟩ := new_word hq
  obtain ⟨i1, i2⟩ := uses_word ops hp hu
  obtain ⟨j1, j2, j3, j4⟩ := i2 he
  obtain ⟨ms', wl', hp'⟩ := i1.1 he
  rw [hd0] at j1 j4
  rw [hl0] at j2
  suffices hs : ∃ q2 rs2, rs2.length = clks.length ∧ q'.run clks = .ok (q2, rs2) by
    obtain ⟨q2, rs2, h0, h2⟩ := hs
    exact ⟨rs2, h0, q, q2, hq, by rw [uses_append, hu]; simp only [uses_calls, h2]⟩
  have hq' : ({ q' with depthLimit := lastDepth d0 ops, resultsLimit := lastLimit l0 ops } : QState) = q' := by
    rw [← j1, ← j2]
  by_cases hf : q'.full = true
  · cases clks with
    | nil => exact ⟨q', [], rfl, rfl⟩
    | cons c cs =>
      refine ⟨{ q' with phase := .done }, .complete :: List.replicate cs.length .complete, by simp, ?_⟩
      rw [QState.run, next_full q' (by simp [QState.isDone, hp']) hf]
      simp only
      rw [run_done _ rfl]
  · have hf : q'.full = false := by simpa using hf
    have hrun := j4 (lastDepth d0 ops) (lastLimit l0 ops) hd (by rw [← j2]; exact hf)
    rw [hq'] at hrun
    obtain ⟨rs2, ⟨p, p', hn, hs⟩, hlen⟩ := C42_no_crash hr (lastDepth d0 ops) (lastLimit l0 ops) (callsOf ops ++ clks)
    rw [hnew] at hn
    injection hn with hn
    subst hn
    rw [run_calls_append, hrun] at hs
    simp only at hs
    split at hs
    · cases hs
    · rename_i q2 rs3 h2
      injection hs with hs; injection hs with h5 h6
      subst h5 h6
      refine ⟨_, _, ?_, h2⟩
      have : rs.length = (callsOf ops).length := by
        clear * - hu
        induction ops generalizing q rs with
        | nil => injection hu with h; injection h with h1 h2; subst h2; rfl
        | cons o ops ih =>
          cases o with
          | call c =>
            rw [uses] at hu
            split at hu
            · cases hu
            · split at hu
              · cases hu
              · rename_i h2
                injection hu with h; injection h with h3 h4; subst h3 h4
                simp [callsOf, ih _ h2]
          | _ =>
            rw [uses] at hu
            split at hu
            · cases hu
            · exact ih _ hu
      simp at hlen
      omega

theorem run_length (clks : List Clock) : ∀ {q q' : QState} {rs : List Resp}, q.run clks = .ok (q', rs) →
    rs.length = clks.length := by
  induction clks with
  | nil => intro q q' rs h; injection h with h; injection h with h1 h2; subst h2; rfl
  | cons c cs ih =>
    intro q q' rs h
    rw [QState.run] at h
    split at h
    · cases h
    · split at h
      · cases h
      · rename_i h2
        injection h with h; injection h with h3 h4; subst h4
        simp [ih h2]

/-- C57: nothing crashes: after any history of calls and settings in which no call has said `Complete` or `Logs`, any
calls get responses. (If phrases are wanted now, they must have been wanted at every call before.) -/
theorem C57_no_crash {es : List Expr} {wl : List Word} (hr : Ready es wl) {d0 : Nat} {l0 : Option Nat} {ops : List Op}
    {rs : List Resp} (h : Used es wl d0 l0 ops rs) (he : Early rs)
    (hd : 2 ≤ lastDepth d0 ops → ∀ d ∈ depthsAtCalls d0 ops, 2 ≤ d) (clks : List Clock) :
    ∃ rs', rs'.length = clks.length ∧ Used es wl d0 l0 (ops ++ clks.map .call) (rs ++ rs') := by
  by_cases h2 : 2 ≤ lastDepth d0 ops
  · exact no_crash_same hr h he (fun d hm => by have := hd h2 d hm; omega) clks
  · have hes : ∀ e ∈ es, 0 < e.len := fun e h => (hr.wf e h).nonempty
    obtain ⟨q, q', hq, hu⟩ := h
    obtain ⟨⟨ms, hp⟩, hd0, hl0, hc0, hnew⟩ := new_word hq
    obtain ⟨i1, i2⟩ := uses_word ops hp hu
    obtain ⟨j1, j2, j3, -⟩ := i2 he
    rw [hd0] at j1
    have hn := hnew (lastDepth d0 ops) none
    obtain ⟨p', k1, k2, k3, k4⟩ := (new_like hq hn).uses hes ops (by simp only; omega) hu he (by simp)
    have hlike : Like es wl q' { p' with resultsLimit := q'.resultsLimit } := k2
    obtain ⟨q3, p3, rs3, g1, g2⟩ := hlike.run_single hes clks (by omega) (by simp only [k3]; omega) rfl
    refine ⟨rs3, run_length clks g1, q, q3, hq, ?_⟩
    rw [uses_append, hu]
    simp only [uses_calls, g1]

/-! ### The expressions -/

theorem run_expressions (clks : List Clock) : ∀ {q q' : QState} {rs : List Resp}, q.run clks = .ok (q', rs) →
    (¬ Completed rs → q'.expressions = q.expressions) ∧ (Completed rs → q'.expressions = []) := by
  intro q q' rs h
  refine ⟨?_, fun hc => ?_⟩
  · induction clks generalizing q rs with
    | nil => injection h with h; injection h with h1 h2; subst h1; exact fun _ => rfl
    | cons c cs ih =>
      rw [QState.run] at h
      split at h
      · cases h
      · rename_i h1
        split at h
        · cases h
        · rename_i h2
          injection h with h; injection h with h3 h4; subst h3 h4
          intro hc
          rw [ih h2 (fun h => hc (List.mem_cons_of_mem _ h)),
            next_expressions h1 (fun h => hc (by rw [h]; exact List.mem_cons_self))]
  · unfold QState.expressions
    rw [run_complete clks _ _ _ h hc]

/-- C57: `expressions()` gives the expressions the evaluator was made from, in order, until a call says `Complete`, and
nothing from then on. -/
theorem C57_expressions {es : List Expr} {wl : List Word} {depth : Nat} {limit : Option Nat} {clks : List Clock}
    {rs : List Resp} {q q' : QState} (hq : QState.new es wl depth limit = .ok q) (hr : q.run clks = .ok (q', rs)) :
    (¬ Completed rs → q'.expressions = es) ∧ (Completed rs → q'.expressions = []) := by
  obtain ⟨a, b⟩ := run_expressions clks hr
  refine ⟨fun hc => ?_, b⟩
  rw [a hc]
  unfold QState.new at hq
  split at hq
  · cases hq
  · injection hq with hq
    subst hq
    show List.map (fun m : WM => m.pm.expr) (List.map _ es) = es
    rw [List.map_map]
    exact List.map_id _

/-! ### Iterating -/

theorem iterates_done {q : QState} (h : q.phase = .done) (k : Nat) : iterates q k = .ok (List.replicate k none) := by
  induction k with
  | zero => rfl
  | succ k ih =>
    rw [iterates]
    unfold QState.iterNext
    rw [h]
    simp only [ih]
    rfl

theorem iterNext_ok {q q' : QState} {r : Resp} (hn : q.expressions ≠ []) (h : q.next none = .ok (q', r)) :
    q.iterNext = .ok (q', some r) := by
  have hn : q.phase ≠ .done := fun hd => hn (by unfold QState.expressions; rw [hd])
  unfold QState.iterNext
  split
  · rename_i hd; exact absurd hd hn
  · rw [h]

theorem iterates_run (a : List Resp) : ∀ {q q' : QState} (k : Nat), .complete ∉ a →
    q.run (List.replicate (a.length + 1) none) = .ok (q', a ++ [.complete]) → q.expressions ≠ [] →
    iterates q (a.length + 1 + k) = .ok ((a ++ [Resp.complete]).map some ++ List.replicate k none) := by
  induction a with
  | nil =>
    intro q q' k _ h hn
    simp only [List.length_nil, Nat.zero_add, List.replicate_one, List.nil_append, QState.run] at h
    split at h
    · cases h
    · rename_i q1 r h1
      injection h with h; injection h with h2 h3; injection h3 with h3 h4; subst h2 h3
      have hd : q1.phase = .done :=
        run_complete [none] q q1 [.complete] (by rw [QState.run, h1]; rfl) (by simp)
      rw [List.length_nil, Nat.zero_add, Nat.add_comm, iterates, iterNext_ok hn h1]
      simp only [iterates_done hd]
      rfl
  | cons x a ih =>
    intro q q' k ha h hn
    rw [List.length_cons, List.replicate_succ, QState.run] at h
    split at h
    · cases h
    · rename_i q1 r h1
      split at h
      · cases h
      · rename_i q2 rs h2
        injection h with h; injection h with h3 h4; injection h4 with h4 h5; subst h3 h4 h5
        have hx : q1.expressions ≠ [] := by
          rw [next_expressions h1 (fun h => ha (by rw [h]; exact List.mem_cons_self))]
          exact hn
        rw [show (r :: a).length + 1 + k = (a.length + 1 + k) + 1 by simp; omega, iterates, iterNext_ok hn h1]
        simp only [ih k (fun h => ha (List.mem_cons_of_mem _ h)) h2 hx]
        rfl

/-- C57: iterating over an evaluator yields the responses of a session without deadlines up to and including the first
`Complete`, and then ends, for good. -/
theorem C57_iterator {es : List Expr} {wl : List Word} (h : Ready es wl) (depth : Nat) (limit : Option Nat) :
    ∃ q a, QState.new es wl depth limit = .ok q ∧ .complete ∉ a ∧ .timeout ∉ a ∧
      Session es wl depth limit (List.replicate (a.length + 1) none) (a ++ [.complete]) ∧
      ∀ k, iterates q (a.length + 1 + k) = .ok ((a ++ [.complete]).map some ++ List.replicate k none) := by
  obtain ⟨a, h1, h2, q, q', hq, hr⟩ := complete_session h depth limit
  refine ⟨q, a, hq, h1, h2, ⟨q, q', hq, hr⟩, fun k => iterates_run a k h1 hr ?_⟩
  have := (C57_expressions hq (clks := []) (rs := []) rfl).1 (by simp [Completed])
  rw [this]
  exact h.nonempty

/-! ### Concrete cases -/

def exAandB : Word := ⟨0, [0, 1, 27], "ab", 3⟩

/-- A history is what the (executable) evaluator does. -/
theorem used_of_run {es : List Expr} {wl : List Word} {d : Nat} {l : Option Nat} {ops : List Op} {rs : List Resp}
    (h : ((match QState.new es wl d l with
      | .ok q => match uses q ops with
        | .ok (_, rs) => some rs
        | .error _ => none
      | .error _ => none) : Option (List Resp)) = some rs) : Used es wl d l ops rs := by
  split at h
  · split at h
    · rename_i q hq _ q' rs' hr
      obtain rfl := Option.some.inj h
      exact ⟨q, q', hq, hr⟩
    · simp at h
  · simp at h

/-- Non-vacuity: `ab` over a, b, ab. After the first match the limit and the phrase length are changed; the history meets
the hypotheses of `C57_settings`, and the session it is compared with finds `a b` as well. -/
example : Used [exAB] [exA, exB, exAandB] 3 (some 1) [.call none, .limit none, .depth 2] [.matched [exAandB]] ∧
    Early [.matched [exAandB]] ∧
    (2 ≤ lastDepth 3 [.call none, .limit none, .depth 2] → ∀ d ∈ depthsAtCalls 3 [.call none, .limit none, .depth 2], 2 ≤ d) ∧
    Used [exAB] [exA, exB, exAandB] 3 (some 1) ([.call none, .limit none, .depth 2] ++ [none, none, none].map .call)
      ([.matched [exAandB]] ++ [.logs false, .matched [exA, exB], .complete]) ∧
    Session [exAB] [exA, exB, exAandB] 2 none [none, none, none, none]
      [.matched [exAandB], .logs false, .matched [exA, exB], .complete] :=
  ⟨used_of_run (by decide +kernel), by simp [Early], by decide, used_of_run (by decide +kernel),
    session_of_run (by decide +kernel)⟩

/-- Non-vacuity: a phrase length lowered to one word: no phrases are looked for, as if it had been 1 from the beginning. -/
example : Ready [exAB] [exA, exB, exAandB] ∧
    Used [exAB] [exA, exB, exAandB] 3 none [.call none, .depth 1] [.matched [exAandB]] ∧ Early [.matched [exAandB]] ∧
    (2 ≤ lastDepth 3 [.call none, .depth 1] → ∀ d ∈ depthsAtCalls 3 [.call none, .depth 1], 2 ≤ d) ∧
    Used [exAB] [exA, exB, exAandB] 3 none ([.call none, .depth 1] ++ [none].map .call)
      ([.matched [exAandB]] ++ [.complete]) ∧
    Session [exAB] [exA, exB, exAandB] 1 none [none, none] [.matched [exAandB], .complete] :=
  ⟨⟨by simp, by simpa using exAB_wf, by simp [exA, exB, exAandB]⟩, used_of_run (by decide +kernel), by simp [Early],
    by decide, used_of_run (by decide +kernel), session_of_run (by decide +kernel)⟩

/-- After the phrase phase has begun, the setters panic. -/
example : Used [exAB] [exA, exB] 3 none [.call none] [.logs false] ∧ ¬ Early [.logs false] :=
  ⟨used_of_run (by decide +kernel), fun h => h.2 false (by simp)⟩

/-- C57: a phrase length raised from one word to several between calls is not honoured: the words seen while only single
words were wanted are not available for phrases. (`a b` is reported when the length is 2 from the beginning, but not when
it is raised from 1 to 2 after the first match.) -/
theorem C57_counterexample :
    Used [exAB] [exA, exB, exAandB] 1 none [.call none, .depth 2, .call none] [.matched [exAandB], .complete] ∧
    Session [exAB] [exA, exB, exAandB] 2 none [none, none, none]
      [.matched [exAandB], .logs false, .matched [exA, exB]] :=
  ⟨used_of_run (by decide +kernel), session_of_run (by decide +kernel)⟩

/-- The automaton the compiler produces for the query line `a?b`. -/
def exOptB : Expr :=
  { states := [⟨3, CharSet.ofCh 0, 1⟩, ⟨2, CharSet.ofCh 1, 2⟩, ⟨4, CharSet.ofCh 27, 2⟩]
    ignWB := true, ignPunct := true, fuzz := 0 }

def exX : Word := ⟨0, [23, 27], "x", 3⟩
def exB' : Word := ⟨0, [1, 27], "B", 4⟩

/-- C57: raising it can even make the evaluator report phrases that do not match: with `a?b` over a, b, x, B, and the phrase
length set to 1 after the first match and back to 2 after the second, `a x` is reported. (The tables of `x` are left over
from `b`, except for what is needed for single words.) -/
theorem C57_counterexample_false :
    Used [exOptB] [exA, exB, exX, exB'] 2 none
      [.call none, .depth 1, .call none, .depth 2, .call none, .call none, .call none]
      [.matched [exB], .matched [exB'], .logs false, .matched [exA, exB], .matched [exA, exX]] ∧
    ¬ Answer [exOptB] [exA, exB, exX, exB'] 2 [exA, exX] := by
  refine ⟨used_of_run (by decide +kernel), fun h => ?_⟩
  have hm := (matchB_iff exOptB ⟨0, charsOf [exA, exX], "", 0⟩).2 (h.2.2.2 exOptB (by simp))
  revert hm
  decide +kernel

end Noodle
