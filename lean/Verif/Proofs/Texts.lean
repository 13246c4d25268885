import Verif.Proofs.Report
/-
The texts of `Complete`.
-/
namespace Noodle
open Spec List
set_option autoImplicit false

/-- The number of phrases a search finds from a state on, with one it does not return. -/
inductive Counts : PS → Nat → Prop
  | finished {ps : PS} {r : Option (List Word)} : ps.iter = .ok (.finished, r) → Counts ps (if r.isSome then 1 else 0)
  | skip {ps ps' : PS} {k : Nat} : ps.iter = .ok (.next ps', none) → Counts ps' k → Counts ps k
  | found {ps ps' : PS} {ws : List Word} {k : Nat} : ps.iter = .ok (.next ps', some ws) → Counts ps' k → Counts ps (k + 1)

theorem counts_exists {c : Ctx} (hc : CtxOk c) (n : Nat) :
    ∀ {ps : PS} {ph : SearchPhase} {q : List SearchPhase} {rs : List Nat}, SInv c ps ph q rs → pendCost c ph q rs < n →
      Counts ps (pendRes c ph q rs).length := by
  induction n with
  | zero => intro ps ph q rs _ h; omega
  | succ n ih =>
    intro ps ph q rs h hn
    obtain ⟨mv, res, h1, h2⟩ := iter_spec hc h
    cases mv with
    | finished =>
      have := Counts.finished h1
      cases res with
      | none => rw [show pendRes c ph q rs = [] from h2.1]; exact this
      | some ws =>
        obtain ⟨⟨p, a, _⟩, b⟩ := h2
        rw [a]; exact this
    | next ps' =>
      obtain ⟨ph', q', rs', a, b, d⟩ := h2
      have h3 := ih a (by omega)
      cases res with
      | none =>
        have d : pendRes c ph q rs = pendRes c ph' q' rs' := d
        rw [d]; exact Counts.skip h1 h3
      | some ws =>
        obtain ⟨p, e1, e2⟩ := d
        rw [e1]; exact Counts.found h1 h3

theorem loop_counts (n : Nat) : ∀ {ps : PS} {k : Nat} {clk clk' : Clock} {cnt : Nat} {out : Looped},
    Counts ps k → PS.loop n ps clk cnt = .ok (out, clk') →
      match out with
      | .found ps' _ => ∃ k', k = k' + 1 ∧ Counts ps' k'
      | .timeout ps' => Counts ps' k
      | .finished j => k = j := by
  induction n with
  | zero => intro ps k clk clk' cnt out _ h; simp [PS.loop] at h
  | succ n ih =>
    intro ps k clk clk' cnt out hk h
    unfold PS.loop at h
    cases hk with
    | finished h1 =>
      rw [h1] at h
      simp only [Except.ok.injEq, Prod.mk.injEq] at h
      rw [← h.1]
    | found h1 h2 =>
      rw [h1] at h
      simp only [Except.ok.injEq, Prod.mk.injEq] at h
      rw [← h.1]
      exact ⟨_, rfl, h2⟩
    | skip h1 h2 =>
      rw [h1] at h
      simp only at h
      generalize (if (cnt + 1) % 256 = 0 then clk.read else (false, clk)) = rd at h
      split at h
      · simp only [Except.ok.injEq, Prod.mk.injEq] at h
        rw [← h.1]; exact h2
      · exact ih h2 h

theorem next_counts {q q' : QState} {clk : Clock} {r : Resp} {ps : PS} {k : Nat} (hp : q.phase = .phrase ps)
    (hf : q.full = false) (hk : Counts ps k) (h : q.next clk = .ok (q', r)) :
    (r = .complete → q'.resultsCount = q.resultsCount + k) ∧
    (∀ ps', q'.phase = .phrase ps' → ∃ k', Counts ps' k' ∧ q'.resultsCount + k' = q.resultsCount + k) := by
  unfold QState.full at hf
  unfold QState.next at h
  rw [hp] at h
  dsimp only at h
  rw [if_neg (by simpa using hf)] at h
  split at h
  · cases h
  · revert h
    generalize hx : ps.loop ps.fuel clk 0 = x
    intro h
    match x, hx, h with
    | .error x, _, h => cases h
    | .ok (.finished j, c'), hx, h =>
      have := loop_counts _ hk hx
      dsimp only at this h
      injection h with h; injection h with h1 h2; subst h1 h2
      exact ⟨(fun _ => by rw [this]), (fun ps' h => by cases h)⟩
    | .ok (.timeout ps1, c'), hx, h =>
      have := loop_counts _ hk hx
      dsimp only at this h
      injection h with h; injection h with h1 h2; subst h1 h2
      exact ⟨(fun h => by cases h), (fun ps' h => by injection h with h; subst h; exact ⟨k, this, rfl⟩)⟩
    | .ok (.found ps1 ws, c'), hx, h =>
      obtain ⟨k', e, this⟩ := loop_counts _ hk hx
      dsimp only at this h
      injection h with h; injection h with h1 h2; subst h1 h2
      exact ⟨(fun h => by cases h), (fun ps' h => by
        injection h with h; subst h; exact ⟨k', this, by dsimp only; omega⟩)⟩

/-- The number of phrases of a plan. -/
def Holds (es : List Expr) (wl : List Word) (depth T : Nat) : Prop :=
  ∀ ms ps, Sync false (maxWordLen wl) es ms wl → plan ms depth = .ok (some ps) → Counts ps T

/-- How a history ends: the text of its first `Complete`. -/
inductive Ends (es : List Expr) (wl : List Word) (L : List (List Word)) (T : Nat) (q : QState) (R : List (List Word))
    (rs : List Resp) : List Char → Prop
  | limited (l : Nat) : q.resultsLimit = some l → l ≤ q.resultsCount + (matchesOf rs).length →
      Ends es wl L T q R rs ("Found ".toList ++ shownNat (q.resultsCount + (matchesOf rs).length) ++ " results, stopping".toList)
  | words : q.isPhrase = false → (∀ b, .logs b ∉ rs) → q.depthLimit ≤ 1 → R = matchesOf rs →
      Ends es wl L T q R rs ("Complete, found all ".toList ++ shownNat (q.resultsCount + (matchesOf rs).length) ++
        " single-word matches".toList)
  | noPhrases : q.isPhrase = false → (∀ b, .logs b ∉ rs) → ¬ q.depthLimit ≤ 1 → R = matchesOf rs →
      (∃ ms, Sync false (maxWordLen wl) es ms wl ∧ plan ms q.depthLimit = .ok none) →
      Ends es wl L T q R rs "Complete, found all single-word matches (no phrases possible)".toList
  | phrases (n : Nat) : (q.isPhrase = true ∨ ∃ b, .logs b ∈ rs) → R = matchesOf rs →
      (∀ ps k, q.phase = .phrase ps → Counts ps k → n = q.resultsCount + k) →
      (q.isPhrase = false → n + L.length = q.resultsCount + R.length + T) →
      (n = q.resultsCount + (matchesOf rs).length ∨ n = q.resultsCount + (matchesOf rs).length + 1) →
      Ends es wl L T q R rs ("Complete, found all ".toList ++ shownNat n ++ " phrases up to ".toList ++ shownNat q.depthLimit ++
        " words".toList)

theorem texts_done (q : QState) (h : q.phase = .done) (clks : List Clock) :
    q.texts clks = .ok (List.replicate clks.length "QueryEvaluator.next_within_deadline called repeatedly".toList) := by
  induction clks with
  | nil => rfl
  | cons c cs ih =>
    have : q.next c = .ok (q, .complete) := by unfold QState.next; rw [h]
    rw [QState.texts, this]
    dsimp only
    rw [ih]
    dsimp only
    rw [if_pos rfl, List.length_cons, List.replicate_succ]
    unfold completeText
    rw [h]

theorem completeText_full {q q' : QState} (hd : q.isDone = false) (hf : q.full = true) :
    completeText q q' = "Found ".toList ++ shownNat q.resultsCount ++ " results, stopping".toList := by
  unfold QState.full at hf
  unfold completeText
  cases hp : q.phase with
  | done => simp [QState.isDone, hp] at hd
  | word _ _ => dsimp only; rw [if_pos hf]
  | phrase _ => dsimp only; rw [if_pos hf]

theorem counts_unique {ps : PS} {k : Nat} (h : Counts ps k) : ∀ {k' : Nat}, Counts ps k' → k = k' := by
  induction h with
  | finished h1 =>
    intro k' h'
    cases h' with
    | finished h2 =>
      rw [h1] at h2
      simp only [Except.ok.injEq, Prod.mk.injEq, true_and] at h2
      rw [h2]
    | skip h2 _ => rw [h1] at h2; simp at h2
    | found h2 _ => rw [h1] at h2; simp at h2
  | skip h1 _ ih =>
    intro k' h'
    cases h' with
    | finished h2 => rw [h1] at h2; simp at h2
    | skip h2 h3 =>
      rw [h1] at h2
      simp only [Except.ok.injEq, Prod.mk.injEq, Moved.next.injEq, and_true] at h2
      subst h2; exact ih h3
    | found h2 _ => rw [h1] at h2; simp at h2
  | found h1 _ ih =>
    intro k' h'
    cases h' with
    | finished h2 => rw [h1] at h2; simp at h2
    | skip h2 _ => rw [h1] at h2; simp at h2
    | found h2 h3 =>
      rw [h1] at h2
      simp only [Except.ok.injEq, Prod.mk.injEq, Moved.next.injEq, Option.some.injEq] at h2
      obtain ⟨rfl, rfl⟩ := h2; rw [ih h3]

/-- The texts of a history. -/
theorem texts_spec {es : List Expr} (hes : ∀ e ∈ es, WF e) {wl : List Word} {L : List (List Word)} {g : Bool} {cL T : Nat}
    (clks : List Clock) : ∀ (q : QState) (R : List (List Word)) (n : Nat) (q' : QState) (rs : List Resp),
      Planned es wl q.depthLimit L g cL → PhaseInv es wl q.depthLimit L g cL q.phase R n → q.isDone = false →
      Holds es wl q.depthLimit T → (∀ ps, q.phase = .phrase ps → ∃ k, Counts ps k) →
      q.run clks = .ok (q', rs) →
      (.complete ∉ rs ∧ q.texts clks = .ok []) ∨
      ∃ t k, rs.count .complete = k + 1 ∧ Ends es wl L T q R rs t ∧
        q.texts clks = .ok (t :: List.replicate k "QueryEvaluator.next_within_deadline called repeatedly".toList) := by
  induction clks with
  | nil =>
    intro q R n q' rs _ _ _ _ _ h
    simp only [QState.run, Except.ok.injEq, Prod.mk.injEq] at h
    obtain ⟨rfl, rfl⟩ := h
    exact .inl ⟨by simp, rfl⟩
  | cons c cs ih =>
    intro q R n q' rs hL hq hd hT hk h
    have hend : ∀ q1 : QState, q.next c = .ok (q1, .complete) → q1.phase = .done →
        rs = List.replicate (cs.length + 1) .complete ∧ matchesOf rs = [] ∧
        q.texts (c :: cs) = .ok (completeText q q1 :: List.replicate cs.length
          "QueryEvaluator.next_within_deadline called repeatedly".toList) := by
      intro q1 h1 h2
      simp only [QState.run, h1, run_done q1 h2, Except.ok.injEq, Prod.mk.injEq] at h
      obtain ⟨rfl, rfl⟩ := h
      refine ⟨rfl, ?_, ?_⟩
      · rw [← List.replicate_succ]
        unfold matchesOf
        rw [List.filterMap_replicate_of_none rfl]
      · rw [QState.texts, h1]
        dsimp only
        rw [texts_done q1 h2]
        dsimp only
        rw [if_pos rfl]
    by_cases hf : q.full = true
    · obtain ⟨e1, e2, e3⟩ := hend _ (next_full q hd hf c) rfl
      refine .inr ⟨_, cs.length, by rw [e1]; simp, ?_, e3⟩
      rw [completeText_full hd hf]
      unfold QState.full at hf
      cases hl : q.resultsLimit with
      | none => rw [hl] at hf; simp at hf
      | some l =>
        rw [hl] at hf
        have := Ends.limited (es := es) (wl := wl) (L := L) (T := T) (R := R) (rs := rs) l hl (by
          rw [e2]; simpa using hf)
        rw [e2] at this
        exact this
    · have hf' : q.full = false := by simpa using hf
      obtain ⟨q1, r, h1, h2, h3, h4⟩ := next_step hes q hL R n hq hd hf' c
      have hk1 : q.isPhrase = true → ∀ ps, q1.phase = .phrase ps → ∃ k, Counts ps k := by
        intro hp ps hps
        cases hph : q.phase with
        | done => simp [QState.isPhrase, hph] at hp
        | word _ _ => simp [QState.isPhrase, hph] at hp
        | phrase ps0 =>
          obtain ⟨k, hk⟩ := hk ps0 hph
          obtain ⟨k', hk', _⟩ := (next_counts hph hf' hk h1).2 ps hps
          exact ⟨k', hk'⟩
      have hk2 : ∀ ps k, q.phase = .phrase ps → Counts ps k →
          ∀ ps', q1.phase = .phrase ps' → ∃ k', Counts ps' k' ∧ q1.resultsCount + k' = q.resultsCount + k := by
        intro ps k hps hk
        exact (next_counts hps hf' hk h1).2
      rw [QState.run, h1] at h
      dsimp only at h
      revert h
      generalize hcs : q1.run cs = x
      intro h
      match x, hcs, h with
      | .error x, _, h => cases h
      | .ok (q2, rs2), hcs, h =>
        injection h with h; injection h with h5 h6; subst h5 h6
        have hstep : ∀ (R' : List (List Word)) (n' : Nat), r ≠ .complete → PhaseInv es wl q.depthLimit L g cL q1.phase R' n' →
            q1.isDone = false → (∀ ps, q1.phase = .phrase ps → ∃ k, Counts ps k) →
            (∀ t, Ends es wl L T q1 R' rs2 t → Ends es wl L T q R (r :: rs2) t) →
            (.complete ∉ r :: rs2 ∧ q.texts (c :: cs) = .ok []) ∨
            ∃ t k, (r :: rs2).count .complete = k + 1 ∧ Ends es wl L T q R (r :: rs2) t ∧
              q.texts (c :: cs) = .ok (t :: List.replicate k
                "QueryEvaluator.next_within_deadline called repeatedly".toList) := by
          intro R' n' hr hinv hd1 hk1 hE
          rcases ih q1 R' n' q2 rs2 (by rw [h2]; exact hL) (by rw [h2]; exact hinv) hd1 (by rw [h2]; exact hT) hk1 hcs with
            ⟨a, b⟩ | ⟨t, k, a, b, d⟩
          · refine .inl ⟨by simp [a, Ne.symm hr], ?_⟩
            rw [QState.texts, h1]
            dsimp only
            rw [b]
            dsimp only
            rw [if_neg hr]
          · refine .inr ⟨t, k, by rw [List.count_cons_of_ne hr]; exact a, hE t b, ?_⟩
            rw [QState.texts, h1]
            dsimp only
            rw [d]
            dsimp only
            rw [if_neg hr]
        cases h4 with
        | empty e1 e2 e3 e4 e5 e6 =>
          obtain ⟨a1, a2, a3⟩ := hend q1 h1 e2
          refine .inr ⟨_, cs.length, by rw [a1]; simp, ?_, a3⟩
          have hnl : ∀ b, .logs b ∉ (Resp.complete :: rs2) := by
            intro b hb; rw [a1] at hb; simp at hb
          unfold completeText
          unfold QState.full at hf
          cases hph : q.phase with
          | done => simp [QState.isDone, hph] at hd
          | word ms wl' =>
            dsimp only
            rw [if_neg (by simpa using hf)]
            have hnp : q.isPhrase = false := by simp [QState.isPhrase, hph]
            split
            · rename_i hd1
              have := Ends.words (es := es) (wl := wl) (L := L) (T := T) hnp hnl hd1 (e1.trans a2.symm)
              rw [a2] at this
              exact this
            · rename_i hd1
              exact Ends.noPhrases hnp hnl hd1 (e1.trans a2.symm) (e4 hnp hd1)
          | phrase ps =>
            dsimp only
            rw [if_neg (by simpa using hf), e5]
            refine Ends.phrases _ (.inl (by simp [QState.isPhrase, hph])) (e1.trans a2.symm) ?_ ?_ ?_
            · intro ps' k hps' hc
              exact (next_counts hps' hf' hc h1).1 rfl
            · intro hnp; simp [QState.isPhrase, hph] at hnp
            · rw [a2]
              rcases e6 with e6 | ⟨_, e6⟩
              · exact .inl (by rw [e6]; rfl)
              · exact .inr (by rw [e6]; rfl)
        | matched ws R' n' e1 e2 e3 e4 e5 e6 =>
          refine hstep R' n' (by simp) e2 e4 ?_ ?_
          · by_cases hp : q.isPhrase = true
            · exact hk1 hp
            · intro ps hps
              rw [← e5] at hp
              simp [QState.isPhrase, hps] at hp
          · intro t ht
            have hm : matchesOf (.matched ws :: rs2) = ws :: matchesOf rs2 := rfl
            have hc : q1.resultsCount + (matchesOf rs2).length = q.resultsCount + (matchesOf (.matched ws :: rs2)).length := by
              rw [hm, e6, List.length_cons]; omega
            have hlogs : ∀ b, .logs b ∈ (Resp.matched ws :: rs2) ↔ .logs b ∈ rs2 := by intro b; simp
            cases ht with
            | limited l f1 f2 =>
              rw [hc]
              exact Ends.limited l (h3.symm.trans f1) (by rw [← hc]; exact f2)
            | words f1 f2 f3 f4 =>
              rw [hc]
              exact Ends.words (e5.symm.trans f1) (fun b hb => f2 b ((hlogs b).1 hb)) (by rw [← h2]; exact f3)
                (by rw [e1, f4, hm])
            | noPhrases f1 f2 f3 f4 f5 =>
              exact Ends.noPhrases (e5.symm.trans f1) (fun b hb => f2 b ((hlogs b).1 hb)) (by rw [← h2]; exact f3)
                (by rw [e1, f4, hm]) (by rw [← h2]; exact f5)
            | phrases m f1 f2 f3 f4 f5 =>
              rw [h2]
              refine Ends.phrases m ?_ (by rw [e1, f2, hm]) ?_ ?_ (by rw [← hc]; exact f5)
              · rcases f1 with f1 | ⟨b, f1⟩
                · exact .inl (e5.symm.trans f1)
                · exact .inr ⟨b, (hlogs b).2 f1⟩
              · intro ps k hps hk
                have hp1 : q1.isPhrase = true := by rw [e5]; simp [QState.isPhrase, hps]
                cases hph : q1.phase with
                | done => simp [QState.isPhrase, hph] at hp1
                | word _ _ => simp [QState.isPhrase, hph] at hp1
                | phrase ps1 =>
                  obtain ⟨k', u1, u2⟩ := hk2 ps k hps hk ps1 hph
                  rw [f3 ps1 k' hph u1, u2]
              · intro hnp
                have := f4 (e5.trans hnp)
                rw [e1, List.length_cons]
                omega
        | timeout n' e0 e2 e3 e3' e4 e5 e6 =>
          refine hstep R n' (by simp) e2 e4 ?_ ?_
          · by_cases hp : q.isPhrase = true
            · exact hk1 hp
            · intro ps hps
              rw [← e5] at hp
              simp [QState.isPhrase, hps] at hp
          · intro t ht
            have hm : matchesOf (.timeout :: rs2) = matchesOf rs2 := rfl
            have hc : q1.resultsCount + (matchesOf rs2).length = q.resultsCount + (matchesOf (.timeout :: rs2)).length := by
              rw [hm, e6]
            have hlogs : ∀ b, .logs b ∈ (Resp.timeout :: rs2) ↔ .logs b ∈ rs2 := by intro b; simp
            cases ht with
            | limited l f1 f2 =>
              rw [hc]
              exact Ends.limited l (h3.symm.trans f1) (by rw [← hc]; exact f2)
            | words f1 f2 f3 f4 =>
              rw [hc]
              exact Ends.words (e5.symm.trans f1) (fun b hb => f2 b ((hlogs b).1 hb)) (by rw [← h2]; exact f3)
                (by rw [f4, hm])
            | noPhrases f1 f2 f3 f4 f5 =>
              exact Ends.noPhrases (e5.symm.trans f1) (fun b hb => f2 b ((hlogs b).1 hb)) (by rw [← h2]; exact f3)
                (by rw [f4, hm]) (by rw [← h2]; exact f5)
            | phrases m f1 f2 f3 f4 f5 =>
              rw [h2]
              refine Ends.phrases m ?_ (by rw [f2, hm]) ?_ ?_ (by rw [← hc]; exact f5)
              · rcases f1 with f1 | ⟨b, f1⟩
                · exact .inl (e5.symm.trans f1)
                · exact .inr ⟨b, (hlogs b).2 f1⟩
              · intro ps k hps hk
                have hp1 : q1.isPhrase = true := by rw [e5]; simp [QState.isPhrase, hps]
                cases hph : q1.phase with
                | done => simp [QState.isPhrase, hph] at hp1
                | word _ _ => simp [QState.isPhrase, hph] at hp1
                | phrase ps1 =>
                  obtain ⟨k', u1, u2⟩ := hk2 ps k hps hk ps1 hph
                  rw [f3 ps1 k' hph u1, u2]
              · intro hnp
                have := f4 (e5.trans hnp)
                omega
        | logs n' e2 e3 e4 e5 e6 e7 e8 =>
          have hd1 : q1.isDone = false := by
            obtain ⟨ph1, _, _, _⟩ := q1
            cases ph1 <;> simp_all [QState.isPhrase, QState.isDone]
          obtain ⟨ms, ps, s1, s2, s3⟩ := e8
          have hcT : Counts ps T := hT ms ps s1 s2
          refine hstep R n' (by simp) e2 hd1 ?_ ?_
          · intro ps' hps'
            rw [s3] at hps'
            injection hps' with hps'
            subst hps'
            exact ⟨T, hcT⟩
          · intro t ht
            have hm : matchesOf (.logs g :: rs2) = matchesOf rs2 := rfl
            have hc : q1.resultsCount + (matchesOf rs2).length = q.resultsCount + (matchesOf (.logs g :: rs2)).length := by
              rw [hm, e7]
            cases ht with
            | limited l f1 f2 =>
              rw [hc]
              exact Ends.limited l (h3.symm.trans f1) (by rw [← hc]; exact f2)
            | words f1 f2 f3 f4 => rw [e5] at f1; cases f1
            | noPhrases f1 f2 f3 f4 f5 => rw [e5] at f1; cases f1
            | phrases m f1 f2 f3 f4 f5 =>
              rw [h2]
              refine Ends.phrases m (.inr ⟨g, by simp⟩) (by rw [f2, hm]) ?_ ?_ (by rw [← hc]; exact f5)
              · intro ps k hps hk
                simp [QState.isPhrase, hps] at e4
              · intro hnp
                have := f3 ps T s3 hcT
                rw [← e6]
                omega

end Noodle
