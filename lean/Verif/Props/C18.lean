import Verif.Proofs.Run
import Verif.Spec.Session
/-
C18–C26, C42: what the query evaluator reports, for every word list, every set of compiled expressions, every
depth and result limit and every schedule of deadlines.
-/
namespace Noodle
open Spec List
set_option autoImplicit false

/-! ### From histories to sessions -/

theorem reported_eq (rs : List Resp) : reported rs = matchesOf rs := rfl

theorem singles_eq (es : List Expr) (wl : List Word) : singles es wl = found es wl 1 := by
  unfold found singles
  rw [phrases_one, List.filter_map]
  congr 1
  apply List.filter_congr
  intro w _
  have : (∀ e ∈ es, Matches e w.chars) ↔ MatchesAll es [w] := by simp [MatchesAll, charsOf]
  exact decide_eq_decide.2 this

theorem session_history {es : List Expr} {wl : List Word} (h : Ready es wl) (depth : Nat) :
    ∃ L g n, (depth ≤ 1 → L = []) ∧
      (∀ ws ∈ L, 2 ≤ ws.length ∧ ws.length ≤ depth ∧ ∀ w ∈ ws, w ∈ wl) ∧ (wl.Nodup → L.Nodup) ∧
      ((es.map Expr.len).sum + depth ≤ 97 → g = false) ∧
      (g = false ∨ es.length = 1 → L ~ longer es wl depth ∨ ∃ d w, L ++ [List.replicate d w] ~ longer es wl depth) ∧
      ∀ limit clks rs, Session es wl depth limit clks rs → ∃ q, q.resultsLimit = limit ∧ q.resultsCount = 0 ∧
        q.isPhrase = false ∧ History L g q (singles es wl ++ L) n clks rs := by
  obtain ⟨L, g, n, h1, h2, h3, h4, _, h5, h6⟩ := history h.nonempty h.wf h.sorted depth
  refine ⟨L, g, n, h1, h2, h3, h4, fun hg => (h5 hg).perm, ?_⟩
  rintro limit clks rs ⟨q, q', s1, s2⟩
  obtain ⟨p, p1, p2, p3, p4, p5⟩ := h6 limit
  have hpq : p = q := Except.ok.inj (p1.symm.trans s1)
  subst hpq
  obtain ⟨p', rs', r1, r2⟩ := p5 clks
  have := Except.ok.inj (r1.symm.trans s2)
  obtain rfl : rs' = rs := congrArg Prod.snd this
  rw [singles_eq]
  exact ⟨p, p2, p3, p4, r2⟩

/-! ### C42 -/

/-- C42: evaluation never panics, never indexes out of range and never loops: whatever the word list, the
expressions, the limits and the deadlines, every call returns. -/
theorem C42_no_crash {es : List Expr} {wl : List Word} (h : Ready es wl) (depth : Nat) (limit : Option Nat)
    (clks : List Clock) : ∃ rs, Session es wl depth limit clks rs ∧ rs.length = clks.length := by
  obtain ⟨_, _, _, _, _, _, _, _, _, h6⟩ := history h.nonempty h.wf h.sorted depth
  obtain ⟨q, p1, _, _, _, p5⟩ := h6 limit
  obtain ⟨q', rs, r1, r2⟩ := p5 clks
  exact ⟨rs, ⟨q, q', p1, r1⟩, r2.len⟩

/-- A session's responses are determined by its inputs. -/
theorem session_unique {es : List Expr} {wl : List Word} {depth : Nat} {limit : Option Nat} {clks : List Clock}
    {rs rs' : List Resp} (h : Session es wl depth limit clks rs) (h' : Session es wl depth limit clks rs') : rs = rs' := by
  obtain ⟨q, p, a, b⟩ := h
  obtain ⟨q', p', a', b'⟩ := h'
  obtain rfl := Except.ok.inj (a.symm.trans a')
  exact congrArg Prod.snd (Except.ok.inj (b.symm.trans b'))

/-- C42: the one input the evaluator rejects: a query without expressions fails an assertion. -/
theorem C42_empty_query (wl : List Word) (depth : Nat) (limit : Option Nat) :
    QState.new [] wl depth limit = .error .assert := rfl

/-! ### C18, C19 -/

/-- C18: until the phrase phase is announced, the matches reported are the matching entries of the word list, in
list order, each entry once, without a gap. -/
theorem C18_prefix {es : List Expr} {wl : List Word} (h : Ready es wl) {depth : Nat} {limit : Option Nat}
    {clks : List Clock} {rs : List Resp} (hs : Session es wl depth limit clks rs) (hn : ∀ b, .logs b ∉ rs) :
    reported rs <+: singles es wl := by
  obtain ⟨L, g, n, _, _, _, _, _, h6⟩ := session_history h depth
  obtain ⟨q, _, _, hp, H⟩ := h6 limit clks rs hs
  obtain ⟨S, hS⟩ := H.single hp (hn g)
  rw [List.append_cancel_right hS]
  exact List.prefix_append _ _

/-- C18: when the phrase phase is announced, exactly the matching entries have been reported, in list order; it is
announced at most once. -/
theorem C18_at_logs {es : List Expr} {wl : List Word} (h : Ready es wl) {depth : Nat} {limit : Option Nat}
    {clks : List Clock} {a b : List Resp} {g : Bool}
    (hs : Session es wl depth limit clks (a ++ .logs g :: b)) :
    reported a = singles es wl ∧ ∀ g', .logs g' ∉ b := by
  obtain ⟨L, g0, n, _, _, _, _, _, h6⟩ := session_history h depth
  obtain ⟨q, _, _, hp, H⟩ := h6 limit clks _ hs
  have hg : g = g0 := H.flag g (by simp)
  subst hg
  obtain ⟨h1, h2⟩ := H.logs a b rfl
  refine ⟨(List.append_cancel_right h1).symm, fun g' hg' => ?_⟩
  have : g' = g := H.flag g' (by simp [hg'])
  subst this
  exact h2 hg'

/-- C19: in a session that runs to the end without a limit, the one-word matches are exactly the entries of the
word list that match every expression, in list order. -/
theorem C19_singles {es : List Expr} {wl : List Word} (h : Ready es wl) {depth : Nat} {clks : List Clock}
    {rs : List Resp} (hs : Session es wl depth none clks rs) (hc : Completed rs) :
    (reported rs).filter (fun ws => ws.length == 1) = singles es wl := by
  obtain ⟨L, g, n, _, h2, _, _, _, h6⟩ := session_history h depth
  obtain ⟨q, hl, _, hp, H⟩ := h6 none clks rs hs
  have := H.complete hc
  rw [reported_eq, this, hl]
  simp only [cut, List.filter_append]
  rw [List.filter_eq_self.2, List.filter_eq_nil_iff.2, List.append_nil]
  · intro ws hws
    have := (h2 ws hws).1
    simp; omega
  · intro ws hws
    unfold singles at hws
    obtain ⟨w, _, rfl⟩ := List.mem_map.1 hws
    rfl

/-- C19, as a user reads it: a word is reported iff it is in the word list and matches every expression. -/
theorem C19_iff {es : List Expr} {wl : List Word} (h : Ready es wl) {depth : Nat} {clks : List Clock}
    {rs : List Resp} (hs : Session es wl depth none clks rs) (hc : Completed rs) (w : Word) :
    [w] ∈ reported rs ↔ w ∈ wl ∧ ∀ e ∈ es, Matches e w.chars := by
  have := C19_singles h hs hc
  have h1 : [w] ∈ reported rs ↔ [w] ∈ (reported rs).filter (fun ws => ws.length == 1) := by
    simp [List.mem_filter]
  rw [h1, this]
  unfold singles
  simp

/-! ### C20, C21, C22 -/

private theorem cut_prefix (limit : Option Nat) (R : List (List Word)) : cut limit 0 R <+: R := by
  cases limit with
  | none => exact List.prefix_rfl
  | some l => exact List.take_prefix _ _

/-- C20: at most `n` matches are reported under the limit `n`. -/
theorem C20_limit {es : List Expr} {wl : List Word} (h : Ready es wl) {depth n : Nat} {clks : List Clock}
    {rs : List Resp} (hs : Session es wl depth (some n) clks rs) : (reported rs).length ≤ n := by
  obtain ⟨L, g, k, _, _, _, _, _, h6⟩ := session_history h depth
  obtain ⟨q, hl, h0, hp, H⟩ := h6 _ clks rs hs
  refine H.pre.length_le.trans ?_
  rw [hl, h0]
  simp only [cut, List.length_take]
  omega

/-- C20: the limited session reports the first `n` matches of the unlimited one, whatever the deadlines of both. -/
theorem C20_first {es : List Expr} {wl : List Word} (h : Ready es wl) {depth n : Nat} {clks clks' : List Clock}
    {rs rs' : List Resp} (hs : Session es wl depth (some n) clks rs) (hc : Completed rs)
    (hs' : Session es wl depth none clks' rs') (hc' : Completed rs') : reported rs = (reported rs').take n := by
  obtain ⟨L, g, k, _, _, _, _, _, h6⟩ := session_history h depth
  obtain ⟨q, hl, h0, hp, H⟩ := h6 _ clks rs hs
  obtain ⟨q', hl', h0', hp', H'⟩ := h6 _ clks' rs' hs'
  rw [reported_eq, reported_eq, H.complete hc, H'.complete hc', hl, hl', h0, h0']
  rfl

/-- C20, C21: whatever the deadlines and the limit, what has been reported so far is the beginning of what the
completed unlimited session reports. -/
theorem C21_prefix {es : List Expr} {wl : List Word} (h : Ready es wl) {depth : Nat} {limit : Option Nat}
    {clks clks' : List Clock} {rs rs' : List Resp} (hs : Session es wl depth limit clks rs)
    (hs' : Session es wl depth none clks' rs') (hc' : Completed rs') : reported rs <+: reported rs' := by
  obtain ⟨L, g, k, _, _, _, _, _, h6⟩ := session_history h depth
  obtain ⟨q, hl, h0, hp, H⟩ := h6 _ clks rs hs
  obtain ⟨q', hl', h0', hp', H'⟩ := h6 _ clks' rs' hs'
  have h1 := H.pre
  rw [reported_eq, reported_eq, H'.complete hc', hl', h0']
  rw [h0] at h1
  exact h1.trans (cut_prefix _ _)

/-- C21: cutting a session by deadlines anywhere and resuming it reports the same matches in the same order as an
uninterrupted session. -/
theorem C21_same {es : List Expr} {wl : List Word} (h : Ready es wl) {depth : Nat} {limit : Option Nat}
    {clks clks' : List Clock} {rs rs' : List Resp} (hs : Session es wl depth limit clks rs) (hc : Completed rs)
    (hs' : Session es wl depth limit clks' rs') (hc' : Completed rs') : reported rs = reported rs' := by
  obtain ⟨L, g, k, _, _, _, _, _, h6⟩ := session_history h depth
  obtain ⟨q, hl, h0, hp, H⟩ := h6 _ clks rs hs
  obtain ⟨q', hl', h0', hp', H'⟩ := h6 _ clks' rs' hs'
  rw [reported_eq, reported_eq, H.complete hc, H'.complete hc', hl, hl', h0, h0']

/-- C21: a call without a deadline never times out. -/
theorem C21_no_deadline {es : List Expr} {wl : List Word} (h : Ready es wl) {depth : Nat} {limit : Option Nat}
    {clks : List Clock} {rs : List Resp} (hs : Session es wl depth limit clks rs) (i : Nat)
    (hi : clks[i]? = some none) : rs[i]? ≠ some .timeout := by
  obtain ⟨L, g, k, _, _, _, _, _, h6⟩ := session_history h depth
  obtain ⟨q, _, _, _, H⟩ := h6 _ clks rs hs
  exact H.deadline i hi

/-- C22: for every query there is a number of calls after which it is complete, whatever the limit and the
deadlines; only calls made after their own deadline do not count. -/
theorem C22_terminates {es : List Expr} {wl : List Word} (h : Ready es wl) (depth : Nat) :
    ∃ N, ∀ limit clks rs, Session es wl depth limit clks rs →
      N ≤ clks.countP (fun c => c != some 0) → Completed rs := by
  obtain ⟨L, g, k, _, _, _, _, _, h6⟩ := session_history h depth
  refine ⟨k + 1, fun limit clks rs hs hN => ?_⟩
  obtain ⟨q, _, _, _, H⟩ := h6 _ clks rs hs
  exact H.progress (by omega)

/-- C22: after `Complete` every further call reports `Complete`, so no more matches. -/
theorem C22_stays {es : List Expr} {wl : List Word} (h : Ready es wl) {depth : Nat} {limit : Option Nat}
    {clks : List Clock} {rs : List Resp} (hs : Session es wl depth limit clks rs) (i j : Nat)
    (hi : rs[i]? = some .complete) (hij : i ≤ j) (hj : j < rs.length) : rs[j]? = some .complete := by
  obtain ⟨L, g, k, _, _, _, _, _, h6⟩ := session_history h depth
  obtain ⟨q, _, _, _, H⟩ := h6 _ clks rs hs
  obtain ⟨a, m, hrs, ha⟩ := H.split
  rw [hrs] at hi hj ⊢
  have hia : a.length ≤ i := by
    by_contra hlt
    rw [List.getElem?_append_left (by omega)] at hi
    exact ha (List.mem_of_getElem? hi)
  rw [List.getElem?_append_right (by omega), List.getElem?_replicate]
  simp only [List.length_append, List.length_replicate] at hj
  rw [if_pos (by omega)]

private theorem next_complete {q q' : QState} {clk : Clock} (h : q.next clk = .ok (q', .complete)) :
    q'.phase = .done := by
  unfold QState.next at h
  split at h
  · simp only [Except.ok.injEq, Prod.mk.injEq, and_true] at h; rw [← h]; assumption
  · split at h
    · simp only [Except.ok.injEq, Prod.mk.injEq, and_true] at h; rw [← h]
    · split at h
      · simp at h
      · simp only at h
        split at h
        · simp at h
        · simp at h
        · split at h
          · simp at h
          · split at h
            · simp only [Except.ok.injEq, Prod.mk.injEq, and_true] at h; rw [← h]
            · split at h
              · simp at h
              · split at h
                · simp at h
                · simp only [Except.ok.injEq, Prod.mk.injEq, and_true] at h; rw [← h]
                · simp at h
  · split at h
    · simp only [Except.ok.injEq, Prod.mk.injEq, and_true] at h; rw [← h]
    · split at h
      · simp at h
      · split at h
        · simp at h
        · simp only [Except.ok.injEq, Prod.mk.injEq, and_true] at h; rw [← h]
        · simp at h
        · simp at h

theorem run_complete (clks : List Clock) : ∀ (q q' : QState) (rs : List Resp), q.run clks = .ok (q', rs) →
    .complete ∈ rs → q'.phase = .done := by
  induction clks with
  | nil =>
    intro q q' rs h hc
    simp only [QState.run, Except.ok.injEq, Prod.mk.injEq] at h
    rw [← h.2] at hc
    simp at hc
  | cons c cs ih =>
    intro q q' rs h hc
    simp only [QState.run] at h
    split at h
    · simp at h
    · rename_i q1 r h1
      split at h
      · simp at h
      · rename_i q2 rs' h2
        simp only [Except.ok.injEq, Prod.mk.injEq] at h
        obtain ⟨rfl, rfl⟩ := h
        rcases List.mem_cons.1 hc with rfl | hc
        · have hd := next_complete h1
          rw [run_done q1 hd] at h2
          simp only [Except.ok.injEq, Prod.mk.injEq] at h2
          rw [← h2.1]; exact hd
        · exact ih _ _ _ h2 hc

/-- C22: the iterator is fused: once a session is complete, `next()` is `None`, and stays so. -/
theorem C22_fused {es : List Expr} {wl : List Word} {depth : Nat} {limit : Option Nat} {clks : List Clock}
    {rs : List Resp} {q q' : QState} (_hq : QState.new es wl depth limit = .ok q)
    (hr : q.run clks = .ok (q', rs)) (hc : Completed rs) : q'.iterNext = .ok (q', none) := by
  have := run_complete clks q q' rs hr hc
  unfold QState.iterNext
  rw [this]

/-! ### C23–C26 -/

private theorem mem_longer {es : List Expr} {wl : List Word} {depth : Nat} {ws : List Word} :
    ws ∈ longer es wl depth ↔ 2 ≤ ws.length ∧ ws.length ≤ depth ∧ (∀ w ∈ ws, w ∈ wl) ∧
      ∀ e ∈ es, Matches e (charsOf ws) := by
  simp only [longer, found, List.mem_flatMap, List.mem_filter, mem_phrases, List.mem_range'_1, decide_eq_true_eq]
  constructor
  · rintro ⟨d, ⟨h1, h2⟩, ⟨h3, h4⟩, h5⟩
    exact ⟨by omega, by omega, h4, h5⟩
  · rintro ⟨h1, h2, h3, h4⟩
    exact ⟨ws.length, ⟨by omega, by omega⟩, ⟨rfl, h3⟩, h4⟩

private theorem mem_singles {es : List Expr} {wl : List Word} {ws : List Word} :
    ws ∈ singles es wl ↔ ws.length = 1 ∧ (∀ w ∈ ws, w ∈ wl) ∧ ∀ e ∈ es, Matches e (charsOf ws) := by
  rw [singles_eq]
  simp only [found, List.mem_filter, mem_phrases, decide_eq_true_eq, and_assoc]
  rfl

/-- C26: a reported phrase has at least one and at most `depth` words (one word if `depth` is 0), all of them
entries of the word list. -/
theorem C26_length {es : List Expr} {wl : List Word} (h : Ready es wl) {depth : Nat} {limit : Option Nat}
    {clks : List Clock} {rs : List Resp} (hs : Session es wl depth limit clks rs) :
    ∀ ws ∈ reported rs, 1 ≤ ws.length ∧ ws.length ≤ max depth 1 ∧ ∀ w ∈ ws, w ∈ wl := by
  obtain ⟨L, g, k, _, h2, _, _, _, h6⟩ := session_history h depth
  obtain ⟨q, hl, h0, _, H⟩ := h6 _ clks rs hs
  intro ws hws
  have hR := (H.pre.subset hws)
  rw [h0] at hR
  rcases List.mem_append.1 ((cut_prefix _ _).subset hR) with hw | hw
  · obtain ⟨a, b, _⟩ := mem_singles.1 hw
    exact ⟨by omega, by omega, b⟩
  · obtain ⟨a, b, c⟩ := h2 ws hw
    exact ⟨by omega, by omega, c⟩

/-- C26: with depth limit 0 or 1 only single words are reported. -/
theorem C26_single {es : List Expr} {wl : List Word} (h : Ready es wl) {depth : Nat} (hd : depth ≤ 1)
    {limit : Option Nat} {clks : List Clock} {rs : List Resp} (hs : Session es wl depth limit clks rs) :
    ∀ ws ∈ reported rs, ws.length = 1 := by
  intro ws hws
  have := C26_length h hs ws hws
  omega

/-- A session that gave up and is settled has one expression. -/
theorem one_of_settled {es : List Expr} (hne : es ≠ []) {rs : List Resp} (hg : ¬ Unsettled es rs) (h : GaveUp rs) :
    es.length = 1 := by
  have := List.length_pos_of_ne_nil hne
  by_contra hc
  exact hg ⟨h, by omega⟩

/-- Every reported phrase was found before `L` or belongs to a phase that was announced. -/
private theorem reported_sub {es : List Expr} {wl : List Word} {L : List (List Word)} {g : Bool} {q : QState} {n : Nat}
    {clks : List Clock} {rs : List Resp} (H : History L g q (singles es wl ++ L) n clks rs) (h0 : q.resultsCount = 0)
    (hne : es ≠ []) (hp : q.isPhrase = false) (hg : ¬ Unsettled es rs) :
    reported rs <+: singles es wl ∨ ((g = false ∨ es.length = 1) ∧ reported rs <+: singles es wl ++ L) := by
  by_cases hl : .logs g ∈ rs
  · right
    have hpre : reported rs <+: singles es wl ++ L := by
      have := H.pre
      rw [h0] at this
      exact this.trans (cut_prefix _ _)
    refine ⟨?_, hpre⟩
    cases g with
    | false => exact Or.inl rfl
    | true => exact Or.inr (one_of_settled hne hg hl)
  · left
    obtain ⟨S, hS⟩ := H.single hp hl
    rw [List.append_cancel_right hS]
    exact List.prefix_append _ _

/-- C23: unless the evaluator gave up optimising a query of several expressions (and logged it), every reported phrase
consists of words of the word list and matches every expression. -/
theorem C23_sound_partial {es : List Expr} {wl : List Word} (h : Ready es wl) {depth : Nat} {limit : Option Nat}
    {clks : List Clock} {rs : List Resp} (hs : Session es wl depth limit clks rs) (hg : ¬ Unsettled es rs) :
    ∀ ws ∈ reported rs, Answer es wl depth ws := by
  obtain ⟨L, g, k, _, h2, _, _, h5, h6⟩ := session_history h depth
  obtain ⟨q, hl, h0, hp, H⟩ := h6 _ clks rs hs
  have hsing : ∀ ws ∈ singles es wl, Answer es wl depth ws := by
    intro ws hw
    obtain ⟨a, b, c⟩ := mem_singles.1 hw
    exact ⟨by rintro rfl; simp at a, by omega, b, c⟩
  intro ws hws
  rcases reported_sub H h0 h.nonempty hp hg with hpre | ⟨hg', hpre⟩
  · exact hsing ws (hpre.subset hws)
  · rcases List.mem_append.1 (hpre.subset hws) with hw | hw
    · exact hsing ws hw
    · have hw' : ws ∈ longer es wl depth := by
        rcases h5 hg' with hperm | ⟨d, w, hperm⟩
        · exact hperm.subset hw
        · exact hperm.subset (by simp [hw])
      obtain ⟨a, b, c, d⟩ := mem_longer.1 hw'
      exact ⟨by rintro rfl; simp at a, by omega, c, d⟩

/-- C23: for single words there is no exception: every reported word is in the list and matches every expression. -/
theorem C23_words {es : List Expr} {wl : List Word} (h : Ready es wl) {depth : Nat} {limit : Option Nat}
    {clks : List Clock} {rs : List Resp} (hs : Session es wl depth limit clks rs) :
    ∀ w : Word, [w] ∈ reported rs → w ∈ wl ∧ ∀ e ∈ es, Matches e w.chars := by
  obtain ⟨L, g, k, _, h2, _, _, _, h6⟩ := session_history h depth
  obtain ⟨q, hl, h0, hp, H⟩ := h6 _ clks rs hs
  intro w hw
  have hR := (H.pre.subset hw)
  rw [h0] at hR
  rcases List.mem_append.1 ((cut_prefix _ _).subset hR) with hw | hw
  · obtain ⟨_, b, c⟩ := mem_singles.1 hw
    exact ⟨b w (by simp), by simpa [charsOf] using c⟩
  · have := (h2 _ hw).1
    simp at this

/-- C23: for a query of one expression there is no exception: every reported phrase matches. -/
theorem C23_one {e : Expr} {wl : List Word} (h : Ready [e] wl) {depth : Nat} {limit : Option Nat}
    {clks : List Clock} {rs : List Resp} (hs : Session [e] wl depth limit clks rs) :
    ∀ ws ∈ reported rs, Answer [e] wl depth ws :=
  C23_sound_partial h hs fun hc => by have := hc.2; simp at this

/-- C23: the evaluator never gives up on queries of ordinary size: total number of automaton states plus depth
limit at most 97. -/
theorem C23_no_give_up {es : List Expr} {wl : List Word} (h : Ready es wl) {depth : Nat} {limit : Option Nat}
    {clks : List Clock} {rs : List Resp} (hs : Session es wl depth limit clks rs)
    (hsz : (es.map Expr.len).sum + depth ≤ 97) : ¬ GaveUp rs := by
  obtain ⟨L, g, k, _, h2, _, h4, h5, h6⟩ := session_history h depth
  obtain ⟨q, hl, h0, hp, H⟩ := h6 _ clks rs hs
  intro hc
  have h1 := H.flag true hc
  have h2 := h4 hsz
  rw [h2] at h1
  simp at h1

/-- C24: if the word list has no repeated entry no phrase is reported twice (whether or not the optimiser gave up). -/
theorem C24_nodup {es : List Expr} {wl : List Word} (h : Ready es wl) (hn : wl.Nodup) {depth : Nat}
    {limit : Option Nat} {clks : List Clock} {rs : List Resp} (hs : Session es wl depth limit clks rs) :
    (reported rs).Nodup := by
  obtain ⟨L, g, k, _, h2, h3, _, h5, h6⟩ := session_history h depth
  obtain ⟨q, hl, h0, hp, H⟩ := h6 _ clks rs hs
  have hpre : reported rs <+: singles es wl ++ L := by
    have := H.pre
    rw [h0] at this
    exact this.trans (cut_prefix _ _)
  refine List.Nodup.sublist hpre.sublist ?_
  refine List.nodup_append.2 ⟨?_, h3 hn, ?_⟩
  · unfold singles
    refine (hn.filter _).map ?_
    intro a b hab
    simpa using hab
  · intro a ha b hb hab
    subst hab
    have := (mem_singles.1 ha).1
    have := (h2 a hb).1
    omega

/-- C25 (partial: the full claim is false, see `C25_counterexample`). A completed session without a limit (unless
it gave up optimising several expressions) reports every matching phrase, except possibly one single phrase, which then is the same word
repeated. -/
theorem C25_partial {es : List Expr} {wl : List Word} (h : Ready es wl) {depth : Nat} {clks : List Clock}
    {rs : List Resp} (hs : Session es wl depth none clks rs) (hc : Completed rs) (hg : ¬ Unsettled es rs) :
    (∀ ws, Answer es wl depth ws → ws ∈ reported rs) ∨
    ∃ d w, 2 ≤ d ∧ ∀ ws, Answer es wl depth ws → ws ≠ List.replicate d w → ws ∈ reported rs := by
  obtain ⟨L, g, k, _, h2, h3, _, h5, h6⟩ := session_history h depth
  obtain ⟨q, hl, h0, hp, H⟩ := h6 _ clks rs hs
  have hgf : g = false ∨ es.length = 1 := by
    rcases H.quiet hp hc hl with hx | hx
    · cases g with
      | false => exact Or.inl rfl
      | true => exact Or.inr (one_of_settled h.nonempty hg hx)
    · exact Or.inl hx
  have hR : reported rs = singles es wl ++ L := by
    rw [reported_eq, H.complete hc, hl]; rfl
  have hcases : ∀ ws, Answer es wl depth ws → ws ∈ singles es wl ∨ ws ∈ longer es wl depth := by
    rintro ws ⟨a1, a2, a3, a4⟩
    have hpos : 0 < ws.length := List.length_pos_of_ne_nil a1
    by_cases h1 : ws.length = 1
    · exact Or.inl (mem_singles.2 ⟨h1, a3, a4⟩)
    · exact Or.inr (mem_longer.2 ⟨by omega, by omega, a3, a4⟩)
  rcases h5 hgf with hperm | ⟨d, w, hperm⟩
  · left
    intro ws hws
    rw [hR]
    rcases hcases ws hws with hx | hx
    · simp [hx]
    · exact List.mem_append.2 (Or.inr (hperm.symm.subset hx))
  · right
    have hd : 2 ≤ d := by
      have : List.replicate d w ∈ longer es wl depth := hperm.subset (by simp)
      have := (mem_longer.1 this).1
      simpa using this
    refine ⟨d, w, hd, fun ws hws hne => ?_⟩
    rw [hR]
    rcases hcases ws hws with hx | hx
    · simp [hx]
    · rcases List.mem_append.1 (hperm.symm.subset hx) with hy | hy
      · exact List.mem_append.2 (Or.inr hy)
      · simp at hy; exact absurd hy hne

/-- C25: when no phrase of one repeated word is an answer, the reported phrases are exactly the answers. -/
theorem C25_exact {es : List Expr} {wl : List Word} (h : Ready es wl) {depth : Nat} {clks : List Clock}
    {rs : List Resp} (hs : Session es wl depth none clks rs) (hc : Completed rs) (hg : ¬ Unsettled es rs)
    (hrep : ∀ d w, 2 ≤ d → ¬ Answer es wl depth (List.replicate d w)) (ws : List Word) :
    ws ∈ reported rs ↔ Answer es wl depth ws := by
  refine ⟨C23_sound_partial h hs hg ws, fun hws => ?_⟩
  rcases C25_partial h hs hc hg with hx | ⟨d, w, hd, hx⟩
  · exact hx ws hws
  · refine hx ws hws ?_
    rintro rfl
    exact hrep d w hd hws

/-- C25: for a query of one expression, when no phrase of one repeated word is an answer, the phrases reported by a
completed session are exactly the answers, whatever its size. -/
theorem C25_one {e : Expr} {wl : List Word} (h : Ready [e] wl) {depth : Nat} {clks : List Clock}
    {rs : List Resp} (hs : Session [e] wl depth none clks rs) (hc : Completed rs)
    (hrep : ∀ d w, 2 ≤ d → ¬ Answer [e] wl depth (List.replicate d w)) (ws : List Word) :
    ws ∈ reported rs ↔ Answer [e] wl depth ws :=
  C25_exact h hs hc (fun hc => by have := hc.2; simp at this) hrep ws

/-! ### Concrete cases -/

/-- The automaton the compiler produces for the query line `aa`. -/
def exAA : Expr :=
  { states := [⟨1, CharSet.ofCh 0, 1⟩, ⟨2, CharSet.ofCh 0, 2⟩, ⟨4, CharSet.ofCh 27, 2⟩]
    ignWB := true, ignPunct := true, fuzz := 0 }

/-- The automaton the compiler produces for the query line `ab`. -/
def exAB : Expr :=
  { states := [⟨1, CharSet.ofCh 0, 1⟩, ⟨2, CharSet.ofCh 1, 2⟩, ⟨4, CharSet.ofCh 27, 2⟩]
    ignWB := true, ignPunct := true, fuzz := 0 }

def exA : Word := ⟨0, [0, 27], "a", 1⟩
def exB : Word := ⟨0, [1, 27], "b", 2⟩

theorem wf_of_check {e : Expr} (h0 : 0 < e.len) (h1 : ∀ st ∈ e.states, st.next < e.len ∧ st.eps < 2 ^ e.len)
    (h2 : ∀ i < e.len, (e.eps i).testBit i = true)
    (h3 : ∀ i < e.len, ∀ j < e.len, (e.eps i).testBit j = true → (e.eps j) ||| (e.eps i) = e.eps i) : WF e := by
  have hlt : ∀ (i j : Nat), (e.eps i).testBit j = true → i < e.len ∧ j < e.len := by
    intro i j h
    have hi : i < e.len := by
      by_contra hc
      have : e.states[i]? = none := List.getElem?_eq_none (by unfold Expr.len at hc; omega)
      simp [Expr.eps, this, noStates] at h
    refine ⟨hi, ?_⟩
    by_contra hc
    have hm : e.states[i]? = some (e.states[i]'hi) := List.getElem?_eq_getElem hi
    have hb := (h1 _ (List.mem_of_getElem? hm)).2
    simp only [Expr.eps, hm, Option.map_some, Option.getD_some] at h
    rw [Nat.testBit_lt_two_pow (lt_of_lt_of_le hb (Nat.pow_le_pow_right (by omega) (by omega)))] at h
    simp at h
  refine ⟨h0, ?_, fun i j h => (hlt i j h).2, h2, ?_⟩
  · intro i st h
    exact (h1 st (List.mem_of_getElem? h)).1
  · intro i j k h h'
    rw [← h3 i (hlt i j h).1 j (hlt i j h).2 h, Nat.testBit_or, h']
    rfl

theorem exAA_wf : WF exAA := wf_of_check (by decide) (by decide) (by decide) (by decide)
theorem exAB_wf : WF exAB := wf_of_check (by decide) (by decide) (by decide) (by decide)

theorem ready_AB : Ready [exAB] [exA, exB] :=
  ⟨by simp, by simpa using exAB_wf, by simp [exA, exB]⟩
theorem ready_AA : Ready [exAA] [exA] := ⟨by simp, by simpa using exAA_wf, by simp⟩
theorem ready_AA2 : Ready [exAA] [exA, exB] := ⟨by simp, by simpa using exAA_wf, by simp [exA, exB]⟩

/-- A session is what the (executable) evaluator does. -/
theorem session_of_run {es : List Expr} {wl : List Word} {depth : Nat} {limit : Option Nat} {clks : List Clock}
    {rs : List Resp}
    (h : ((match QState.new es wl depth limit with
      | .ok q => match q.run clks with
        | .ok (_, rs) => some rs
        | .error _ => none
      | .error _ => none) : Option (List Resp)) = some rs) : Session es wl depth limit clks rs := by
  split at h
  · split at h
    · rename_i q hq _ q' rs' hr
      obtain rfl := Option.some.inj h
      exact ⟨q, q', hq, hr⟩
    · simp at h
  · simp at h

/-- Non-vacuity: the query `ab` over the list a, b: the phrase phase is announced, `a b` is found, and the session
completes; the hypotheses of C18–C26 are met. -/
example : Session [exAB] [exA, exB] 10 none [none, none, none, none]
    [.logs false, .matched [exA, exB], .complete, .complete] := session_of_run (by decide +kernel)
/-- With deadlines: already expired ones time out, the rest resumes. -/
example : Session [exAB] [exA, exB] 10 (some 1) [some 0, some 1, some 0, some 5, some 0, none, none]
    [.timeout, .timeout, .timeout, .logs false, .matched [exA, exB], .complete, .complete] :=
  session_of_run (by decide +kernel)
example : ([exAB].map Expr.len).sum + 10 ≤ 97 := by decide

/-- C25: the full claim is false: the query `aa` over the list `a` completes without a limit and without giving up,
and `a a` is an answer, but it is not reported (the result found last is dropped, query.rs:625-640). -/
theorem C25_counterexample :
    ∃ rs, Session [exAA] [exA] 10 none [none, none, none] rs ∧ Completed rs ∧ ¬ GaveUp rs ∧
      Answer [exAA] [exA] 10 [exA, exA] ∧ [exA, exA] ∉ reported rs := by
  refine ⟨[.logs false, .complete, .complete], session_of_run (by decide +kernel), by simp [Completed],
    by simp [GaveUp], ?_, by decide⟩
  refine ⟨by simp, by decide, by simp, ?_⟩
  simp only [List.mem_singleton, forall_eq]
  refine ⟨[0, 0], 0, ⟨0, by decide, ?_⟩, by decide, ?_⟩
  · exact .cons (m := 1) ⟨⟨1, CharSet.ofCh 0, 1⟩, rfl, by decide, by decide⟩
      (.cons (m := 2) ⟨⟨2, CharSet.ofCh 0, 2⟩, rfl, by decide, by decide⟩ (.nil 2))
  · exact .keep 0 (.keep 0 .nil)

/-- An unusable further word does not help: it is removed before the search. -/
example : Session [exAA] [exA, exB] 10 none [none, none, none] [.logs false, .complete, .complete] :=
  session_of_run (by decide +kernel)

end Noodle
