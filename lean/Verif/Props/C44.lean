import Verif.Props.C39
import Verif.Props.C52
/-
C44: the command line program. C45: the web socket.
-/
namespace Noodle
open Spec
set_option autoImplicit false

/-! ### C44 -/

theorem joinBlank_eq : ∀ ls : List (List Char), joinBlank ls = List.intercalate [' '] ls
  | [] => rfl
  | [x] => by simp [joinBlank]
  | x :: y :: ls => by
    rw [joinBlank, joinBlank_eq (y :: ls)]
    · simp [List.intercalate]
    · simp

/-- A match as the command line program prints it. -/
def Spec.printed (ws : List Word) : List Char := List.intercalate [' '] (ws.map fun w => w.text.toList) ++ ['\n']

theorem cliLoop_run : ∀ (a : List Resp) {n : Nat} {q q' : QState},
    q.run (List.replicate (a.length + 1) none) = .ok (q', a ++ [.complete]) → .complete ∉ a → a.length + 2 ≤ n →
    cliLoop n q = .ok (some ((reported a).flatMap printed))
  | a, 0, q, q', h, ha, hn => by omega
  | [], n + 1, q, q', h, ha, hn => by
    obtain ⟨q1, r, rs', h1, h2, h3⟩ := run_cons h
    rw [cliLoop]
    by_cases hd : q.phase = .done
    · have : q.iterNext = .ok (q, none) := by unfold QState.iterNext; rw [hd]
      rw [this]
      rfl
    · have hi : q.iterNext = .ok (q1, some .complete) := by
        rw [List.nil_append] at h3
        injection h3 with h3 _
        unfold QState.iterNext
        split
        · rename_i hd'; exact absurd hd' hd
        · rw [h1, ← h3]
      have hq1 : q1.phase = .done := by
        have := run_complete [none] q q1 [r] (by
          rw [QState.run, h1]
          rfl) (by
            rw [List.nil_append] at h3
            injection h3 with h3 _
            simp [h3])
        exact this
      have hn1 : q1.iterNext = .ok (q1, none) := by unfold QState.iterNext; rw [hq1]
      rw [hi]
      obtain ⟨m, rfl⟩ : ∃ m, n = m + 1 := ⟨n - 1, by simp at hn; omega⟩
      simp only [cliLoop, hn1]
      rfl
  | x :: a, n + 1, q, q', h, ha, hn => by
    obtain ⟨q1, r, rs', h1, h2, h3⟩ := run_cons h
    rw [List.cons_append] at h3
    injection h3 with h3 h4
    subst h3 h4
    have hd : q.phase ≠ .done := by
      intro hd
      have : q.next none = .ok (q, .complete) := by
        unfold QState.next
        rw [hd]
      rw [this] at h1
      injection h1 with h1
      injection h1 with _ h1
      exact ha (by simp [h1])
    have hi : q.iterNext = .ok (q1, some x) := by
      unfold QState.iterNext
      split
      · rename_i hd'; exact absurd hd' hd
      · rw [h1]
    have ih := cliLoop_run a (n := n) h2 (fun hm => ha (by simp [hm])) (by simp at hn ⊢; omega)
    rw [cliLoop, hi]
    simp only [ih, Except.map, Option.map]
    cases x with
    | complete => simp at ha
    | matched ws =>
      rw [show Resp.matched ws :: a = [.matched ws] ++ a from rfl, reported_append, List.flatMap_append]
      simp only [joinBlank_eq]
      simp [reported, printed]
    | _ => rfl

theorem new_set {es : List Expr} {wl : List Word} {d d' : Nat} {l l' : Option Nat} {q : QState}
    (h : QState.new es wl d l = .ok q) :
    ∃ q1 q2, q.setLimit l' = .ok q1 ∧ q1.setDepth d' = .ok q2 ∧ QState.new es wl d' l' = .ok q2 := by
  unfold QState.new at h ⊢
  split at h
  · cases h
  · rename_i hne
    injection h with h
    subst h
    exact ⟨_, _, rfl, rfl, by rw [if_neg hne]⟩

/-- The responses of a session without deadlines that has just ended. -/
theorem complete_session {es : List Expr} {wl : List Word} (h : Ready es wl) (depth : Nat) (limit : Option Nat) :
    ∃ a, .complete ∉ a ∧ .timeout ∉ a ∧
      Session es wl depth limit (List.replicate (a.length + 1) none) (a ++ [.complete]) := by
  obtain ⟨N, hN⟩ := ended_session h depth
  obtain ⟨rs, ⟨a, r, rfl, hr, ha⟩, hlen, hs⟩ := hN limit (List.replicate N none) (by simp)
  have htake : (List.replicate N (none : Clock)).take (a ++ [r]).length = List.replicate (a.length + 1) none := by
    rw [List.take_replicate]
    congr 1
    simp at hlen ⊢
    omega
  rw [htake] at hs
  have hnt : r ≠ .timeout := by
    have := C21_no_deadline h hs a.length (by simp)
    simpa using this
  rcases hr with hr | hr
  · exact absurd hr hnt
  · subst hr
    exact ⟨a, fun hm => (ha _ hm).2 rfl, fun hm => (ha _ hm).1 rfl, hs⟩

/-- C44: the command line program prints all matches of the query, in the order in which they are found, one per line, the
words separated by blanks, and nothing else; it stops. The word list is that of the query, if it has one, and otherwise
that of the file; the limits are those of the command line: `#words` and `#limit` in the query have no effect. -/
theorem C44_prints {U : Unicode} {file query : List Char} {count : Option Nat} {phraseLength : Nat} {q : QueryAst}
    {es : List Expr} (hq : QueryAst.ofText U query = .ok q) (hne : q.expressions ≠ [])
    (hes : q.expressions.mapM fromAst = .ok es) :
    ∃ N clks rs, (∀ c ∈ clks, c = none) ∧ Completed rs ∧
      Session es (q.options.wordlist.getD (loadWordlist U file)) phraseLength count clks rs ∧
      ∀ calls, N ≤ calls →
        cliRun U file count phraseLength query calls = .ok (some ((reported rs).flatMap printed)) := by
  have hsort : (q.options.wordlist.getD (loadWordlist U file)).Pairwise fun a b => a.tranche ≤ b.tranche := by
    cases hw : q.options.wordlist with
    | none => exact sortWords_tranche _
    | some wl => exact ofText_tranche hq hw
  have hready := C06_ready hne hes hsort
  obtain ⟨a, h1, _, hs⟩ := complete_session hready phraseLength count
  refine ⟨a.length + 2, _, _, fun c hc => List.eq_of_mem_replicate hc, by simp [Completed], hs, fun calls hcalls => ?_⟩
  obtain ⟨q2, q', h3, h4⟩ := hs
  have hnew : ∃ q0, QState.new es (q.options.wordlist.getD (loadWordlist U file)) (q.options.maxWords.getD 10)
      (q.options.limit.or (some 300)) = .ok q0 := by
    unfold QState.new
    rw [if_neg hready.nonempty]
    exact ⟨_, rfl⟩
  obtain ⟨q0, h5⟩ := hnew
  obtain ⟨q1, q2', h6, h7, h8⟩ := new_set (d' := phraseLength) (l' := count) h5
  obtain rfl := Except.ok.inj (h3.symm.trans h8)
  unfold cliRun
  rw [hq]
  simp only [QState.ofAst, hes, Except.bind, h5, h6, h7]
  rw [cliLoop_run a h4 h1 hcalls, reported_append]
  simp [reported]

/-- C44: a query with a syntax error makes the program fail. -/
theorem C44_error {U : Unicode} {query : List Char} {n : Nat} (h : QueryAst.ofText U query = .error (.syntax n))
    (file : List Char) (count : Option Nat) (phraseLength calls : Nat) :
    cliRun U file count phraseLength query calls = .error .index := by
  unfold cliRun
  rw [h]

/-! ### C45 -/

/-- The matches among the messages, in order. -/
def Spec.sentMatches (ms : List WsMsg) : List (List Word) :=
  ms.filterMap fun m => match m with | .matched ws => some ws | _ => none

/-- Neither the client nor the clock ends the loop in this round. -/
def Spec.Tick.Calm (t : Tick) : Prop := t.closed = false ∧ t.late = false

theorem Shown.run_cons_ok {F : Floats} {s s1 s' : Shown} {c : Clock} {cs : List Clock} {r : Resp} {rs : List Resp}
    (h1 : s.next F c = .ok (s1, r)) (h : s1.run F cs = .ok (s', rs)) : s.run F (c :: cs) = .ok (s', r :: rs) := by
  rw [Shown.run, h1]
  simp only [h]

/-- Something panics: a call, or `progress()` after it. -/
def Spec.Panics (F : Floats) (s : Shown) (clks : List Clock) : Prop :=
  (∃ x, s.run F clks = .error x) ∨ ∃ s' rs x, s.run F clks = .ok (s', rs) ∧ s'.progress F = .error x

theorem panics_cons {F : Floats} {s s1 : Shown} {c : Clock} {cs : List Clock} {r : Resp} (h1 : s.next F c = .ok (s1, r))
    (h : Panics F s1 cs) : Panics F s (c :: cs) := by
  rcases h with ⟨x, h⟩ | ⟨s', rs, x, h, h2⟩
  · left
    refine ⟨x, ?_⟩
    rw [Shown.run, h1]
    simp only [h]
  · exact .inr ⟨s', r :: rs, x, Shown.run_cons_ok h1 h, h2⟩

theorem reported_cons_none {r : Resp} {rs : List Resp} (h : ∀ ws, r ≠ .matched ws) : reported (r :: rs) = reported rs := by
  cases r with
  | matched ws => exact absurd rfl (h ws)
  | _ => rfl

theorem sent_logs (ts : List (List Char)) :
    (ts.map WsMsg.log).filterMap (fun m => match m with | .matched ws => some ws | _ => none) = ([] : List (List Word)) := by
  rw [List.filterMap_eq_nil_iff]
  intro m hm
  obtain ⟨_, _, rfl⟩ := List.mem_map.1 hm
  rfl

theorem wsLoop_run (F : Floats) (P : Prints) : ∀ (ticks : List Tick) (s : Shown),
    ∃ (k : Nat) (s' : Shown) (rs : List Resp), s.run F ((ticks.take k).map Tick.clock) = .ok (s', rs) ∧
      sentMatches (wsLoop F P s ticks).1 = reported rs ∧
      ((∀ t ∈ ticks, Tick.Calm t) →
        (Completed rs ∧ (wsLoop F P s ticks).2 = .finished ∧
          ∃ txt el, (wsLoop F P s ticks).1.getLast? = some (.ended txt el) ∧
            s.q.texts ((ticks.take k).map Tick.clock) = .ok [txt]) ∨
        (¬ Completed rs ∧ ticks.length ≤ k ∧ (wsLoop F P s ticks).2 = .running) ∨
        ((wsLoop F P s ticks).2 = .crashed ∧ ∃ j, Panics F s ((ticks.take j).map Tick.clock)))
  | [], s => ⟨0, s, [], rfl, rfl, fun _ => .inr (.inl ⟨by simp [Completed], by simp, rfl⟩)⟩
  | t :: ts, s => by
    unfold wsLoop
    by_cases hc : t.closed = true
    · rw [if_pos hc]
      refine ⟨0, s, [], rfl, rfl, fun h => ?_⟩
      have := (h t (by simp)).1
      rw [hc] at this
      cases this
    rw [if_neg hc]
    by_cases hl : t.late = true
    · rw [if_pos hl]
      refine ⟨0, s, [], rfl, rfl, fun h => ?_⟩
      have := (h t (by simp)).2
      rw [hl] at this
      cases this
    rw [if_neg hl]
    cases h1 : s.next F t.clock with
    | error x =>
      refine ⟨0, s, [], rfl, rfl, fun _ => .inr (.inr ⟨rfl, 1, .inl ⟨x, ?_⟩⟩)⟩
      simp only [List.take_succ_cons, List.take_zero, List.map_cons, List.map_nil]
      rw [Shown.run, h1]
    | ok v =>
      obtain ⟨s1, r⟩ := v
      obtain ⟨k, s', rs, i1, i2, i4⟩ := wsLoop_run F P ts s1
      have hrun : s.run F (((t :: ts).take (k + 1)).map Tick.clock) = .ok (s', r :: rs) := by
        rw [List.take_succ_cons, List.map_cons]
        exact Shown.run_cons_ok h1 i1
      have hone : s.run F (((t :: ts).take 1).map Tick.clock) = .ok (s1, [r]) := by
        simp only [List.take_succ_cons, List.take_zero, List.map_cons, List.map_nil]
        exact Shown.run_cons_ok h1 rfl
      have hrest : ∀ (ms : List WsMsg), r ≠ .complete → (∀ x ∈ t :: ts, Tick.Calm x) →
          (Completed (r :: rs) ∧ (wsLoop F P s1 ts).2 = .finished ∧
            ∃ txt el, (ms ++ (wsLoop F P s1 ts).1).getLast? = some (.ended txt el) ∧
              s.q.texts (((t :: ts).take (k + 1)).map Tick.clock) = .ok [txt]) ∨
          (¬ Completed (r :: rs) ∧ (t :: ts).length ≤ k + 1 ∧ (wsLoop F P s1 ts).2 = .running) ∨
          ((wsLoop F P s1 ts).2 = .crashed ∧ ∃ j, Panics F s (((t :: ts).take j).map Tick.clock)) := by
        intro ms hr h
        rcases i4 fun x hx => h x (by simp [hx]) with ⟨h3, h4, txt, el, h5, h6⟩ | ⟨h3, h4, h5⟩ | ⟨h3, j, h4⟩
        · refine .inl ⟨?_, h4, txt, el, ?_, ?_⟩
          · unfold Completed at *; simp [h3]
          · rw [List.getLast?_append, h5]; rfl
          · rw [List.take_succ_cons, List.map_cons, QState.texts, Shown.next_q h1]
            dsimp only
            rw [h6]
            dsimp only
            rw [if_neg hr]
        · refine .inr (.inl ⟨?_, by simpa using h4, h5⟩)
          unfold Completed at *; simp [h3, Ne.symm hr]
        · refine .inr (.inr ⟨h3, j + 1, ?_⟩)
          rw [List.take_succ_cons, List.map_cons]
          exact panics_cons h1 h4
      cases r with
      | complete =>
        refine ⟨1, s1, [.complete], hone, rfl, fun _ => .inl ⟨by simp [Completed], rfl, _, _, rfl, ?_⟩⟩
        simp only [List.take_succ_cons, List.take_zero, List.map_cons, List.map_nil]
        rw [QState.texts, Shown.next_q h1]
        rfl
      | matched ws =>
        dsimp only
        refine ⟨k + 1, s', .matched ws :: rs, hrun, ?_, hrest [.matched ws] (by simp)⟩
        show ws :: sentMatches _ = ws :: reported rs
        rw [i2]
      | logs g =>
        dsimp only
        refine ⟨k + 1, s', .logs g :: rs, hrun, ?_, hrest ((s.q.logText P.took t.clock).map .log) (by simp)⟩
        rw [reported_cons_none (by simp), ← i2]
        unfold sentMatches
        rw [List.filterMap_append, sent_logs, List.nil_append]
      | timeout =>
        dsimp only
        cases hp : s1.progress F with
        | error x =>
          refine ⟨1, s1, [.timeout], hone, rfl, fun _ => .inr (.inr ⟨rfl, 1, .inr ⟨s1, _, x, hone, hp⟩⟩)⟩
        | ok txt =>
          refine ⟨k + 1, s', .timeout :: rs, hrun, ?_, hrest [.progress t.secs txt] (by simp)⟩
          rw [reported_cons_none (by simp), ← i2]
          rfl

/-- C45: over a web socket the client gets, as match messages, what a session with the query's expressions, words and limits
reports, in the same order, without gaps, whatever the timing, and whenever the client goes away. If nothing disturbs the
loop and the connection, the session is complete and the handler has ended with the verdict on it, or both go on, or the handler has
panicked. -/
theorem C45_socket {F : Floats} {P : Prints} {U : Unicode} {dir : List DirEntry} {query : List Char} {q : QueryAst} {es : List Expr}
    {wl : List Word} (hq : QueryAst.ofText U query = .ok q) (hdef : ∃ ws, HasDict U dir "default".toList ws)
    (hwl : ChosenWords (HasDict U dir) q.options wl) (hne : q.expressions ≠ [])
    (hes : q.expressions.mapM fromAst = .ok es) (sends : Option Nat) (others : Nat)
    (ticks : List Tick) :
    ∃ k rs, Session es wl (q.options.maxWords.getD 10) (some (q.options.limit.getD 300))
        ((ticks.take k).map Tick.clock) rs ∧
      sentMatches (wsRun F P U (loadDir U [] dir) (some (some query)) sends others ticks).2.1 <+: reported rs ∧
      (sends = none →
        sentMatches (wsRun F P U (loadDir U [] dir) (some (some query)) sends others ticks).2.1 = reported rs ∧
        ((∀ t ∈ ticks, Tick.Calm t) →
          (Completed rs ∧ (wsRun F P U (loadDir U [] dir) (some (some query)) sends others ticks).2.2 = .finished ∧
            ∃ txt el, (wsRun F P U (loadDir U [] dir) (some (some query)) sends others ticks).2.1.getLast? = some (.ended txt el) ∧
              Verdict es wl (q.options.maxWords.getD 10) (some (q.options.limit.getD 300)) rs txt) ∨
          (¬ Completed rs ∧ ticks.length ≤ k ∧
            (wsRun F P U (loadDir U [] dir) (some (some query)) sends others ticks).2.2 = .running) ∨
          ((wsRun F P U (loadDir U [] dir) (some (some query)) sends others ticks).2.2 = .crashed ∧
            ∃ s0 j, Shown.new es wl (q.options.maxWords.getD 10) (some (q.options.limit.getD 300)) = .ok s0 ∧
              Panics F s0 ((ticks.take j).map Tick.clock)))) := by
  have hready : Ready es wl := C06_ready hne hes (chosen_tranche hq hwl)
  obtain ⟨dict, hdict⟩ := dictWords_of_chosen (o := q.options) hdef
  obtain rfl := (C40_words hdict wl).1 hwl
  have hlim : q.options.limit.or (some 300) = some (q.options.limit.getD 300) := by
    cases q.options.limit <;> rfl
  obtain ⟨_, ⟨q0, _, h0, _⟩, _⟩ := C42_no_crash hready (q.options.maxWords.getD 10) (some (q.options.limit.getD 300)) []
  have hs0 : Shown.new es (q.options.wordlist.getD dict) (q.options.maxWords.getD 10)
      (some (q.options.limit.getD 300)) = .ok ⟨q0, 0⟩ := by
    unfold Shown.new
    rw [h0]
  obtain ⟨k, s', rs, i1, i2, i4⟩ := wsLoop_run F P ticks ⟨q0, 0⟩
  have htalk : wsTalk F P U (loadDir U [] dir) (some query) others ticks =
      ([.begun others, .status ("Parsed query in ".toList ++ P.parsed ++ "...".toList)] ++
      (List.zipWith ExprAst.logged q.expressions q0.expressions).map WsMsg.log ++ (wsLoop F P ⟨q0, 0⟩ ticks).1,
        (wsLoop F P ⟨q0, 0⟩ ticks).2) := by
    unfold wsTalk
    simp only [hq]
    show (match dictWords _ (q.options.dictionary.getD "default".toList) with | .error _ => _ | .ok dict => _) = _
    rw [hdict]
    simp only [QState.ofAst, hes, Except.bind, hlim, h0]
  have hsent : sentMatches ([.begun others, .status ("Parsed query in ".toList ++ P.parsed ++ "...".toList)] ++
      (List.zipWith ExprAst.logged q.expressions q0.expressions).map WsMsg.log ++ (wsLoop F P ⟨q0, 0⟩ ticks).1) =
      reported rs := by
    rw [← i2]
    unfold sentMatches
    rw [List.filterMap_append, List.filterMap_append]
    rw [sent_logs]
    rfl
  refine ⟨k, rs, ⟨q0, s'.q, h0, Shown.run_q i1⟩, ?_, ?_⟩
  · simp only [wsRun, htalk]
    rw [← hsent]
    cases sends with
    | none => exact List.prefix_rfl
    | some n =>
      dsimp only
      split
      · exact (List.take_prefix _ _).filterMap _
      · exact List.prefix_rfl
  · rintro rfl
    simp only [wsRun, htalk]
    refine ⟨hsent, fun hc => ?_⟩
    rcases i4 hc with ⟨h1, h2, txt, el, h3, h4⟩ | h1 | ⟨h1, j, h2⟩
    · refine .inl ⟨h1, h2, txt, el, ?_, ?_⟩
      · rw [List.getLast?_append, h3]; rfl
      · rcases C52_texts hready ⟨q0, s'.q, h0, Shown.run_q i1, h4⟩ with ⟨h5, _⟩ | ⟨t, m, _, h5, h6⟩
        · exact absurd h1 h5
        · injection h6 with h6 _
          subst h6
          exact h5
    · exact .inr (.inl h1)
    · exact .inr (.inr ⟨h1, _, j, hs0, h2⟩)

/-- C45: with an ordinary computation of the estimates, fewer than 2^32 words in a phrase and not too many phases (at most 40
words and 256 tranches), the handler panics only if the word list is empty or if there are no phrases of more than one
word but repetitions of one word. -/
theorem C45_panics {F : Floats} (hF : Usual F) {es : List Expr} {wl : List Word} (h : Ready es wl) {depth k : Nat}
    (hk : ∀ w ∈ wl, w.tranche < k) (hb : 409600 * ((depth - 1) * k) < 2 ^ 32) (hd : depth < 2 ^ 32) {limit : Option Nat}
    {s0 : Shown} (hs : Shown.new es wl depth limit = .ok s0) {clks : List Clock} (hp : Panics F s0 clks) :
    wl = [] ∨ ∃ w, ∀ (limit' : Option Nat) (clks' : List Clock) (rs' : List Resp),
      Session es wl depth limit' clks' rs' → ∀ ws ∈ reported rs', 2 ≤ ws.length → ws = List.replicate ws.length w := by
  rcases hp with ⟨x, hx⟩ | ⟨s', rs, x, h1, h2⟩
  · obtain ⟨rs, hsess, _⟩ := C42_no_crash h depth limit clks
    obtain ⟨s, s0', h3, h4⟩ := C51_runs hF h hk hb hsess
    obtain rfl := Except.ok.inj (hs.symm.trans h3)
    rw [hx] at h4
    cases h4
  · rcases C51_panic hF h hk hb hd ⟨s0, hs, h1⟩ h2 with h3 | ⟨_, h3⟩
    · exact .inl h3
    · exact .inr h3

/-- C45: if nothing disturbs the loop, it ends after a bounded number of rounds in time. -/
theorem C45_ends {es : List Expr} {wl : List Word} (h : Ready es wl) (depth : Nat) :
    ∃ N, ∀ (limit : Option Nat) (k : Nat) (ticks : List Tick) (rs : List Resp),
      Session es wl depth limit ((ticks.take k).map Tick.clock) rs → ¬ Completed rs → ticks.length ≤ k →
      ticks.countP (fun t => t.clock != some 0) < N := by
  obtain ⟨N, hN⟩ := C22_terminates h depth
  refine ⟨N, fun limit k ticks rs hs hc hk => ?_⟩
  by_contra hlt
  refine hc (hN limit _ rs hs ?_)
  rw [List.take_of_length_le hk, List.countP_map]
  exact Nat.le_of_not_lt hlt

end Noodle
