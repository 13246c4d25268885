import Verif.Model.Query
/-
The expressions of the matchers never change.
-/
namespace Noodle
set_option autoImplicit false

/-- The expression of a matcher. -/
abbrev WM.ex (m : WM) : Expr := m.pm.expr

theorem word_ex {m m' : WM} {single : Bool} {w : Word} {b : Bool} (h : m.word single w = .ok (m', b)) : m'.ex = m.ex := by
  unfold WM.word at h
  simp only at h
  split at h
  · cases h
  · split at h
    · cases h
    · split at h
      · injection h with h; injection h with h1 h2; subst h1; rfl
      · split at h
        · cases h
        · injection h with h; injection h with h1 h2; subst h1; rfl

theorem loop_ex {single : Bool} (ws : List Word) : ∀ {m m' : WM} {clk clk' : Clock} {cnt : Nat} {o : Option Word},
    m.loop single clk cnt ws = .ok (m', o, clk') → m'.ex = m.ex := by
  induction ws with
  | nil => intro m m' clk clk' cnt o h; injection h with h; injection h with h1 h2; subst h1; rfl
  | cons w ws ih =>
    intro m m' clk clk' cnt o h
    rw [WM.loop] at h
    generalize (if cnt % 256 = 0 then clk.read else (false, clk)) = rd at h
    split at h
    · injection h with h; injection h with h1 h2; subst h1; rfl
    · split at h
      · cases h
      · rename_i h1
        injection h with h; injection h with h2 h3; subst h2
        exact word_ex h1
      · rename_i h1
        rw [ih h, word_ex h1]

theorem wmnext_ex {m m' : WM} {wl : List Word} {single : Bool} {clk clk' : Clock} {o : Option Word}
    (h : m.next wl single clk = .ok (m', o, clk')) : m'.ex = m.ex := loop_ex _ h

theorem iterLast_ex {wl : List Word} {single : Bool} (n : Nat) : ∀ {m m' : WM} {l l' : Option Word},
    m.iterLast wl single n l = .ok (m', l') → m'.ex = m.ex := by
  induction n with
  | zero => intro m m' l l' h; cases h
  | succ n ih =>
    intro m m' l l' h
    rw [WM.iterLast] at h
    split at h
    · cases h
    · rename_i h1
      injection h with h; injection h with h2 h3; subst h2
      exact wmnext_ex h1
    · rename_i h1
      rw [ih h, wmnext_ex h1]

theorem drain_ex {m m' : WM} {wl : List Word} {single : Bool} {o : Option Word}
    (h : m.drain wl single = .ok (m', o)) : m'.ex = m.ex := iterLast_ex _ h

theorem feed_ex {single : Bool} {w : Word} : ∀ {ms ms' : List WM} {wl : List Word} {b : Bool},
    feed single w ms wl = .ok (ms', b) → ms'.map WM.ex = ms.map WM.ex := by
  intro ms
  induction ms with
  | nil => intro ms' wl b h; injection h with h; injection h with h1 h2; subst h1; rfl
  | cons m ms ih =>
    intro ms' wl b h
    rw [feed] at h
    split at h
    · cases h
    · rename_i h1
      split at h
      · cases h
      · rename_i h2
        injection h with h; injection h with h3 h4; subst h3
        rw [List.map_cons, List.map_cons, ih h2, drain_ex h1]

theorem wordLoop_ex {wl : List Word} {single : Bool} (n : Nat) : ∀ {m m' : WM} {ms ms' : List WM} {clk clk' : Clock}
    {o : Option Word}, wordLoop wl single n m ms clk = .ok (m', ms', o, clk') →
    (m' :: ms').map WM.ex = (m :: ms).map WM.ex := by
  induction n with
  | zero => intro m m' ms ms' clk clk' o h; cases h
  | succ n ih =>
    intro m m' ms ms' clk clk' o h
    rw [wordLoop] at h
    split at h
    · cases h
    · rename_i h1
      injection h with h; injection h with h2 h3; injection h3 with h3 h4; subst h2 h3
      rw [List.map_cons, List.map_cons, wmnext_ex h1]
    · rename_i h1
      split at h
      · cases h
      · rename_i h5
        injection h with h; injection h with h2 h3; injection h3 with h3 h4; subst h2 h3
        rw [List.map_cons, List.map_cons, wmnext_ex h1, feed_ex h5]
      · rename_i h5
        rw [ih h, List.map_cons, List.map_cons, wmnext_ex h1, feed_ex h5]

theorem drainAll_ex : ∀ {ms ms' : List WM} {wl : List Word}, drainAll ms wl = .ok ms' → ms'.map WM.ex = ms.map WM.ex := by
  intro ms
  induction ms with
  | nil => intro ms' wl h; injection h with h; subst h; rfl
  | cons m ms ih =>
    intro ms' wl h
    rw [drainAll] at h
    split at h
    · cases h
    · rename_i h1
      split at h
      · cases h
      · rename_i h2
        injection h with h; subst h
        rw [List.map_cons, List.map_cons, ih h2, drain_ex h1]

theorem optimize_ex {m m' : WM} {nl : List Word} {q : List SearchPhase} {b : Bool} (h : m.optimize nl q = .ok (m', b)) :
    m'.ex = m.ex := by
  unfold WM.optimize at h
  split at h
  · cases h
  · split at h
    · split at h
      · injection h with h; injection h with h1 h2; subst h1; rfl
      · cases h
    · simp only at h
      split at h
      · cases h
      · split at h
        · cases h
        · unfold WM.reduce at h
          split at h
          · cases h
          · simp only at h
            split at h
            · injection h with h; injection h with h1 h2; subst h1; rfl
            · unfold WM.shrink at h
              simp only at h
              split at h
              · cases h
              · split at h
                · cases h
                · split at h
                  · injection h with h; injection h with h1 h2; subst h1; rfl
                  · split at h
                    · cases h
                    · injection h with h; injection h with h1 h2; subst h1; rfl

theorem optimizePass_ex {q : List SearchPhase} : ∀ {ms ms' : List WM} {a a' : List Word} {b : Bool},
    optimizePass q ms a = .ok (ms', a', b) → ms'.map WM.ex = ms.map WM.ex := by
  intro ms
  induction ms with
  | nil => intro ms' a a' b h; injection h with h; injection h with h1 h2; subst h1; rfl
  | cons m ms ih =>
    intro ms' a a' b h
    rw [optimizePass] at h
    split at h
    · cases h
    · rename_i h1
      split at h
      · split at h
        · cases h
        · split at h
          · injection h with h; injection h with h1' h2; subst h1'
            rw [List.map_cons, List.map_cons, optimize_ex h1]
          · split at h
            · cases h
            · rename_i h2
              injection h with h; injection h with h3 h4; subst h3
              rw [List.map_cons, List.map_cons, optimize_ex h1, ih h2]
      · split at h
        · cases h
        · rename_i h2
          injection h with h; injection h with h3 h4; subst h3
          rw [List.map_cons, List.map_cons, optimize_ex h1, ih h2]

theorem optimizeLoop_ex (k : Nat) : ∀ {ms : List WM} {a : List Word} {q : List SearchPhase} {o : OptOut},
    optimizeLoop k ms a q = .ok (some o) → o.ms.map WM.ex = ms.map WM.ex := by
  induction k with
  | zero => intro ms a q o h; cases h
  | succ k ih =>
    intro ms a q o h
    rw [optimizeLoop] at h
    split at h
    · cases h
    · split at h
      · cases h
      · split at h
        · cases h
        · rename_i h1
          have he := optimizePass_ex h1
          have he' := congrArg List.reverse he
          rw [← List.map_reverse, ← List.map_reverse, List.reverse_reverse] at he'
          split at h
          · injection h with h; injection h with h; subst h; exact he'
          · split at h
            · injection h with h; injection h with h; subst h; exact he'
            · rw [ih h]; exact he'

theorem mkPhrase_ms {o : OptOut} {ps : PS} (h : mkPhrase o = .ok (some ps)) : ps.ms = o.ms.map WM.pm := by
  unfold mkPhrase at h
  split at h
  · cases h
  · split at h
    · cases h
    · simp only at h
      split at h
      · cases h
      · split at h
        · cases h
        · split at h
          · cases h
          · injection h with h; injection h with h; subst h; rfl

theorem plan_ex {ms : List WM} {d : Nat} {ps : PS} (h : plan ms d = .ok (some ps)) :
    ps.ms.map PM.expr = ms.map WM.ex := by
  unfold plan at h
  split at h
  · cases h
  · simp only at h
    split at h
    · cases h
    · split at h
      · cases h
      · cases h
      · rename_i h1
        rw [mkPhrase_ms h, List.map_map, ← optimizeLoop_ex _ h1]
        rfl

theorem endPhase_ms {ps ps' : PS} (h : endPhase ps = .next ps') : ps'.ms = ps.ms := by
  unfold endPhase at h
  split at h
  · cases h
  · simp only at h
    split at h <;> split at h
    all_goals first | (cases h; done) | (injection h with h; subst h; rfl)

theorem advance_ms (t n : Nat) : ∀ {ps ps' : PS}, advance ps t n = .next ps' → ps'.ms = ps.ms := by
  induction n with
  | zero =>
    intro ps ps' h
    rw [advance] at h
    try simp only at h
    split at h
    · split at h
      · rw [endPhase_ms h]
      · injection h with h; subst h; rfl
    · rw [endPhase_ms h]
  | succ n ih =>
    intro ps ps' h
    rw [advance] at h
    try simp only at h
    split at h
    · split at h
      · rw [ih h]
      · injection h with h; subst h; rfl
    · rw [ih h]

theorem iter_ms {ps ps' : PS} {r : Option (List Word)} (h : ps.iter = .ok (.next ps', r)) : ps'.ms = ps.ms := by
  unfold PS.iter at h
  split at h
  · split at h
    · cases h
    · simp only at h
      split at h
      · cases h
      · split at h
        · injection h with h; injection h with h1 h2; injection h1 with h1; subst h1; rfl
        · injection h with h; injection h with h1 h2
          rw [advance_ms _ _ h1]
  · cases h

theorem psloop_ms (n : Nat) : ∀ {ps : PS} {clk clk' : Clock} {cnt : Nat} {out : Looped},
    PS.loop n ps clk cnt = .ok (out, clk') →
      (∀ ps' ws, out = .found ps' ws → ps'.ms = ps.ms) ∧ ∀ ps', out = .timeout ps' → ps'.ms = ps.ms := by
  induction n with
  | zero => intro ps clk clk' cnt out h; cases h
  | succ n ih =>
    intro ps clk clk' cnt out h
    rw [PS.loop] at h
    split at h
    · cases h
    · injection h with h; injection h with h1 h2; subst h1
      exact ⟨(by intro _ _ h; cases h), (by intro _ h; cases h)⟩
    · rename_i h1
      injection h with h; injection h with h2 h3; subst h2
      exact ⟨(by intro _ _ h; injection h with h h'; subst h; exact iter_ms h1), (by intro _ h; cases h)⟩
    · rename_i h1
      simp only at h
      generalize (if (cnt + 1) % 256 = 0 then clk.read else (false, clk)) = rd at h
      split at h
      · injection h with h; injection h with h2 h3; subst h2
        exact ⟨(by intro _ _ h; cases h), (by intro _ h; injection h with h; subst h; exact iter_ms h1)⟩
      · obtain ⟨a, b⟩ := ih h
        exact ⟨fun ps' ws he => (a ps' ws he).trans (iter_ms h1), fun ps' he => (b ps' he).trans (iter_ms h1)⟩

/-- A call keeps the expressions unless it completes. -/
theorem next_expressions {q q' : QState} {c : Clock} {r : Resp} (h : q.next c = .ok (q', r)) :
    r ≠ .complete → q'.expressions = q.expressions := by
  obtain ⟨ph, d, l, k⟩ := q
  unfold QState.next at h
  cases ph with
  | done => injection h with h; injection h with h1 h2; subst h1 h2; exact fun h => absurd rfl h
  | word ms wl =>
    simp only at h
    split at h
    · injection h with h; injection h with h1 h2; subst h2; exact fun h => absurd rfl h
    · split at h
      · cases h
      · split at h
        · cases h
        · rename_i hw
          injection h with h; injection h with h1 h2; subst h1 h2
          exact fun _ => wordLoop_ex _ hw
        · rename_i hw
          split at h
          · injection h with h; injection h with h1 h2; subst h1 h2
            exact fun _ => wordLoop_ex _ hw
          · split at h
            · injection h with h; injection h with h1 h2; subst h2; exact fun h => absurd rfl h
            · split at h
              · cases h
              · rename_i hd
                split at h
                · cases h
                · injection h with h; injection h with h1 h2; subst h2; exact fun h => absurd rfl h
                · rename_i hp
                  injection h with h; injection h with h1 h2; subst h1 h2
                  intro _
                  have h1 := plan_ex hp
                  have h2 := wordLoop_ex _ hw
                  rw [List.map_cons, drainAll_ex hd, ← List.map_cons (f := WM.ex), h2] at h1
                  exact h1
  | phrase ps =>
    simp only at h
    split at h
    · injection h with h; injection h with h1 h2; subst h2; exact fun h => absurd rfl h
    · split at h
      · cases h
      · split at h
        · cases h
        · injection h with h; injection h with h1 h2; subst h2; exact fun h => absurd rfl h
        · rename_i hl
          injection h with h; injection h with h1 h2; subst h1 h2
          intro _
          show List.map _ _ = List.map _ _
          rw [(psloop_ms _ hl).2 _ rfl]
        · rename_i hl
          injection h with h; injection h with h1 h2; subst h1 h2
          intro _
          show List.map _ _ = List.map _ _
          rw [(psloop_ms _ hl).1 _ _ rfl]

end Noodle
