import Verif.Props.C51
import Verif.Proofs.Texts
/-
C52: the texts of `Complete`.
-/
namespace Noodle
open Spec List
set_option autoImplicit false

theorem holds_exists {es : List Expr} {wl : List Word} (h : Ready es wl) {depth : Nat} {L : List (List Word)} {g : Bool}
    {cL : Nat} (hL : Planned es wl depth L g cL) :
    ∃ T, Holds es wl depth T ∧ (g = false ∨ es.length = 1 → T = (longer es wl depth).length) ∧
      ((∃ ms, Sync false (maxWordLen wl) es ms wl ∧ plan ms depth = .ok none) → longer es wl depth = []) := by
  have hpos : 0 < maxWordLen wl := by unfold maxWordLen; omega
  obtain ⟨ms, _, hsync⟩ := drainAll_sync (fun e he => (h.wf e he).nonempty) (chain_new false (maxWordLen wl) hpos es wl)
    (lt_maxWordLen wl)
  have huniq : ∀ ms', Sync false (maxWordLen wl) es ms' wl → ms' = ms := fun ms' h => h.unique hsync
  rcases (plan_spec h.nonempty h.wf hsync h.sorted depth).2 with
    ⟨h1, h2⟩ | ⟨ps, c, ph, q, h1, h2, h3, hsub, h4, hin, hnd, hord, h5⟩
  · refine ⟨0, ?_, fun _ => by rw [h2]; rfl, fun _ => h2⟩
    intro ms' ps hs hp
    rw [huniq ms' hs, h1] at hp
    cases hp
  · refine ⟨(pendRes c ph q [0]).length, ?_, ?_, ?_⟩
    · intro ms' ps' hs hp
      rw [huniq ms' hs, h1] at hp
      injection hp with hp; injection hp with hp
      subst hp
      exact counts_exists h2 _ h4 (Nat.lt_succ_self _)
    · intro hg
      by_cases hd : depth ≤ 1
      · have hz : longer es wl depth = [] := by
          unfold longer
          rw [show depth - 1 = 0 by omega]; rfl
        have : pendRes c ph q [0] = [] := by
          apply List.eq_nil_iff_forall_not_mem.2
          intro p hp
          have := hin p hp
          omega
        rw [hz, this]; rfl
      · unfold Planned at hL
        rw [if_neg hd] at hL
        rcases hL ms hsync with ⟨h6, _⟩ | ⟨_, _, _, _, _, _, _, _, _, _, h6⟩
        · rw [h6] at h1; cases h1
        · rw [← (h5 (hg.imp_left h6.trans)).length_eq, List.length_map]
    · rintro ⟨ms', hs, hp⟩
      rw [huniq ms' hs, h1] at hp
      cases hp

/-- C52: every session has texts. -/
theorem C52_told {es : List Expr} {wl : List Word} {depth : Nat} {limit : Option Nat} {clks : List Clock} {rs : List Resp}
    (hs : Session es wl depth limit clks rs) : ∃ ts, Told es wl depth limit clks rs ts := by
  obtain ⟨q, q', h1, h2⟩ := hs
  suffices ∀ (clks : List Clock) (q q' : QState) (rs : List Resp), q.run clks = .ok (q', rs) → ∃ ts, q.texts clks = .ok ts by
    obtain ⟨ts, h3⟩ := this clks q q' rs h2
    exact ⟨ts, q, q', h1, h2, h3⟩
  intro clks
  induction clks with
  | nil => exact fun _ _ _ _ => ⟨[], rfl⟩
  | cons c cs ih =>
    intro q q' rs h
    rw [QState.run] at h
    rw [QState.texts]
    revert h
    generalize q.next c = x
    intro h
    match x, h with
    | .error _, h => cases h
    | .ok (q1, r), h =>
      dsimp only at h ⊢
      revert h
      generalize hx : q1.run cs = x
      intro h
      match x, hx, h with
      | .error _, _, h => cases h
      | .ok (q2, rs2), hx, h =>
        obtain ⟨ts, ht⟩ := ih q1 q2 rs2 hx
        rw [ht]
        exact ⟨_, rfl⟩

/-- C52: a session without `Complete` has no text. One with it has the verdict, and then only the remark that it is called
repeatedly, once per further `Complete`. -/
theorem C52_texts {es : List Expr} {wl : List Word} (h : Ready es wl) {depth : Nat} {limit : Option Nat} {clks : List Clock}
    {rs : List Resp} {ts : List (List Char)} (ht : Told es wl depth limit clks rs ts) :
    (¬ Completed rs ∧ ts = []) ∨
    ∃ t k, rs.count .complete = k + 1 ∧ Verdict es wl depth limit rs t ∧
      ts = t :: List.replicate k "QueryEvaluator.next_within_deadline called repeatedly".toList := by
  obtain ⟨L, g, cL, hL, _⟩ := planned_exists h.nonempty h.wf h.sorted depth
  obtain ⟨T, hT, hTl, hnone⟩ := holds_exists h hL
  obtain ⟨q, q', h1, h2, h3⟩ := ht
  obtain ⟨i1, i2, i3, i4, i5, i6⟩ := new_inv L g cL h1
  have hsing : (wl.filter (allB es)).map (fun w => [w]) = singles es wl := by
    rw [singles_eq]
    unfold found
    rw [phrases_one, List.filter_map]
    congr 1
    apply List.filter_congr
    intro w _
    rw [Bool.eq_iff_iff, allB_iff]
    simp
  have hL1 : (depth ≤ 1 → L = []) ∧ ((∃ ms, Sync false (maxWordLen wl) es ms wl ∧ plan ms depth = .ok none) → L = []) := by
    by_cases hd : depth ≤ 1
    · unfold Planned at hL
      rw [if_pos hd] at hL
      exact ⟨fun _ => hL.1, fun _ => hL.1⟩
    · unfold Planned at hL
      rw [if_neg hd] at hL
      refine ⟨fun h => absurd h hd, ?_⟩
      rintro ⟨ms, m1, m2⟩
      rcases hL ms m1 with h5 | ⟨ps, _, _, _, h5, _⟩
      · exact h5.2.1
      · rw [m2] at h5; cases h5
  have hg : ¬ Unsettled es rs → (∃ b, .logs b ∈ rs) → g = false ∨ es.length = 1 := by
    rintro hn ⟨b, hb⟩
    obtain ⟨q2, rs2, r1, H⟩ := run_spec h.wf clks q _ _ (by rw [i2]; exact hL) i1 i5
    rw [h2] at r1
    injection r1 with r1; injection r1 with _ r1
    subst r1
    have := H.flag b hb
    subst this
    cases b with
    | false => exact .inl rfl
    | true => exact .inr (one_of_settled h.nonempty hn hb)
  have hlim : ∀ l, limit = some l → (matchesOf rs).length ≤ l := by
    intro l hl
    have := C20_limit h (n := l) (clks := clks) (rs := rs) (depth := depth) (by rw [← hl]; exact ⟨q, q', h1, h2⟩)
    rw [reported_eq] at this
    exact this
  rcases texts_spec h.wf (T := T) clks q _ _ q' rs (by rw [i2]; exact hL) i1 i5 (by rw [i2]; exact hT)
      (by intro ps hp; simp [QState.isPhrase, hp] at i6) h2 with ⟨a, b⟩ | ⟨t, k, a, b, d⟩
  · exact .inl ⟨a, Except.ok.inj (h3.symm.trans b)⟩
  · refine .inr ⟨t, k, a, ?_, Except.ok.inj (h3.symm.trans d)⟩
    rw [hsing] at b
    have h0 : q.resultsCount + (matchesOf rs).length = (reported rs).length := by rw [i4, reported_eq]; omega
    cases b with
    | limited l f1 f2 =>
      rw [i3] at f1
      have h5 := hlim l f1
      have h6 : (reported rs).length = l := by rw [reported_eq]; omega
      rw [h0, h6]
      have := Verdict.limited (es := es) (wl := wl) (depth := depth) (limit := limit) l f1 h6
      simp only [String.toList_append, List.append_assoc] at this ⊢
      exact this
    | words f1 f2 f3 f4 =>
      rw [i2] at f3
      rw [hL1.1 f3, List.append_nil, ← reported_eq] at f4
      rw [h0]
      have := Verdict.words (es := es) (wl := wl) (depth := depth) (limit := limit) f3 f4.symm
      simp only [String.toList_append, List.append_assoc] at this ⊢
      exact this
    | noPhrases f1 f2 f3 f4 f5 =>
      rw [i2] at f3 f5
      rw [hL1.2 f5, List.append_nil, ← reported_eq] at f4
      exact Verdict.noPhrases f3 f2 f4.symm (hnone f5)
    | phrases m f1 f2 f3 f4 f5 =>
      have hlogs : ∃ b, .logs b ∈ rs := by
        rcases f1 with f1 | f1
        · rw [i6] at f1; cases f1
        · exact f1
      rw [h0] at f5
      rw [i2]
      have := Verdict.phrases (es := es) (wl := wl) (depth := depth) (limit := limit) m hlogs ?_ f5
      · simp only [String.toList_append, List.append_assoc] at this ⊢
        exact this
      · intro hgu
        have h6 := hTl (hg hgu hlogs)
        have h7 := f4 i6
        rw [i4, List.length_append] at h7
        unfold answers
        omega

/-! ### Instances -/

theorem told_of_run {es : List Expr} {wl : List Word} {depth : Nat} {limit : Option Nat} {clks : List Clock} {rs : List Resp}
    {ts : List (List Char)}
    (h : ((QState.new es wl depth limit).toOption.bind fun q => (q.run clks).toOption.bind fun r =>
      (q.texts clks).toOption.map fun ts => (r.2, ts)) = some (rs, ts)) : Told es wl depth limit clks rs ts := by
  unfold Told
  cases h1 : QState.new es wl depth limit with
  | error x => rw [h1] at h; simp [Except.toOption] at h
  | ok q =>
    rw [h1] at h
    simp only [Except.toOption, Option.bind_some] at h
    cases h2 : q.run clks with
    | error x => rw [h2] at h; simp at h
    | ok r =>
      cases h3 : q.texts clks with
      | error x => rw [h3] at h; simp at h
      | ok t =>
        rw [h2, h3] at h
        simp only [Option.bind_some, Option.map_some, Option.some.injEq, Prod.mk.injEq] at h
        exact ⟨q, r.1, rfl, by rw [h2, ← h.1], by rw [h3, h.2]⟩

example : Told [exAB] [exA, exB] 10 none [none, none, none, none] [.logs false, .matched [exA, exB], .complete, .complete]
    ["Complete, found all 1 phrases up to 10 words".toList,
      "QueryEvaluator.next_within_deadline called repeatedly".toList] := told_of_run (by decide +kernel)

/-- C52: the number in the text need not be the number of matches reported: here it counts the phrase that is dropped. -/
theorem C52_counterexample : Told [exAA] [exA] 10 none [none, none] [.logs false, .complete]
    ["Complete, found all 1 phrases up to 10 words".toList] := told_of_run (by decide +kernel)

end Noodle
