import Verif.Props.C57
import Verif.Props.C69
import Verif.Spec.Bench
/-
C70: the benchmark program.
-/
namespace Noodle
set_option autoImplicit false
open Spec

/-! ### Counting -/

theorem countMatches_run : ∀ (a : List Resp) {n : Nat} {q q' : QState},
    q.run (List.replicate (a.length + 1) none) = .ok (q', a ++ [.complete]) → .complete ∉ a → a.length + 2 ≤ n →
    countMatches n q = .ok (some (reported a).length)
  | a, 0, q, q', h, ha, hn => by omega
  | [], n + 1, q, q', h, ha, hn => by
    obtain ⟨q1, r, rs', h1, h2, h3⟩ := run_cons h
    rw [countMatches]
    by_cases hd : q.phase = .done
    · have : q.iterNext = .ok (q, none) := by unfold QState.iterNext; rw [hd]
      rw [this]
      rfl
    · have hr : r = .complete := by
        rw [List.nil_append] at h3
        injection h3 with h3 _
        exact h3.symm
      subst hr
      have hi : q.iterNext = .ok (q1, some .complete) := by
        unfold QState.iterNext
        split
        · rename_i hd'; exact absurd hd' hd
        · rw [h1]
      have hq1 : q1.phase = .done := run_complete [none] q q1 [.complete] (by rw [QState.run, h1]; rfl) (by simp)
      have hn1 : q1.iterNext = .ok (q1, none) := by unfold QState.iterNext; rw [hq1]
      rw [hi]
      obtain ⟨m, rfl⟩ : ∃ m, n = m + 1 := ⟨n - 1, by simp at hn; omega⟩
      simp only [countMatches, hn1]
      rfl
  | x :: a, n + 1, q, q', h, ha, hn => by
    obtain ⟨q1, r, rs', h1, h2, h3⟩ := run_cons h
    rw [List.cons_append] at h3
    injection h3 with h3 h4
    subst h3 h4
    have hd : q.phase ≠ .done := by
      intro hd
      have : q.next none = .ok (q, .complete) := by
        unfold QState.next
        rw [hd]
      rw [this] at h1
      injection h1 with h1
      injection h1 with _ h1
      exact ha (by simp [h1])
    have hi : q.iterNext = .ok (q1, some x) := by
      unfold QState.iterNext
      split
      · rename_i hd'; exact absurd hd' hd
      · rw [h1]
    have ih := countMatches_run a (n := n) h2 (fun hm => ha (by simp [hm])) (by simp at hn ⊢; omega)
    rw [countMatches, hi]
    cases x with
    | complete => simp at ha
    | matched ws =>
      rw [show Resp.matched ws :: a = [.matched ws] ++ a from rfl, reported_append]
      simp only [ih, Except.map, Option.map]
      simp [reported, Nat.add_comm]
    | logs g => rw [reported_cons_none (by simp)]; exact ih
    | timeout => rw [reported_cons_none (by simp)]; exact ih

theorem benchCount_run : ∀ (a : List Resp) {n m : Nat} {q q' : QState},
    q.run (List.replicate (a.length + 1) none) = .ok (q', a ++ [.complete]) → .complete ∉ a → a.length + 2 ≤ n →
    a.length + 2 ≤ m →
    ∃ b q1 k, nextMatch n q = .ok (some (b, q1)) ∧ countMatches m q1 = .ok (some k) ∧ b.toNat + k = (reported a).length
  | a, 0, m, q, q', h, ha, hn, hm => by omega
  | [], n + 1, m, q, q', h, ha, hn, hm => by
    obtain ⟨q1, r, rs', h1, h2, h3⟩ := run_cons h
    obtain ⟨m, rfl⟩ : ∃ k, m = k + 1 := ⟨m - 1, by simp at hm; omega⟩
    rw [nextMatch]
    by_cases hd : q.phase = .done
    · have : q.iterNext = .ok (q, none) := by unfold QState.iterNext; rw [hd]
      rw [this]
      exact ⟨_, _, 0, rfl, by rw [countMatches, this], rfl⟩
    · have hr : r = .complete := by
        rw [List.nil_append] at h3
        injection h3 with h3 _
        exact h3.symm
      subst hr
      have hi : q.iterNext = .ok (q1, some .complete) := by
        unfold QState.iterNext
        split
        · rename_i hd'; exact absurd hd' hd
        · rw [h1]
      have hq1 : q1.phase = .done := run_complete [none] q q1 [.complete] (by rw [QState.run, h1]; rfl) (by simp)
      have hn1 : q1.iterNext = .ok (q1, none) := by unfold QState.iterNext; rw [hq1]
      rw [hi]
      obtain ⟨n, rfl⟩ : ∃ k, n = k + 1 := ⟨n - 1, by simp at hn; omega⟩
      simp only [nextMatch, hn1]
      exact ⟨_, _, 0, rfl, by rw [countMatches, hn1], rfl⟩
  | x :: a, n + 1, m, q, q', h, ha, hn, hm => by
    obtain ⟨q1, r, rs', h1, h2, h3⟩ := run_cons h
    rw [List.cons_append] at h3
    injection h3 with h3 h4
    subst h3 h4
    have hd : q.phase ≠ .done := by
      intro hd
      have : q.next none = .ok (q, .complete) := by
        unfold QState.next
        rw [hd]
      rw [this] at h1
      injection h1 with h1
      injection h1 with _ h1
      exact ha (by simp [h1])
    have hi : q.iterNext = .ok (q1, some x) := by
      unfold QState.iterNext
      split
      · rename_i hd'; exact absurd hd' hd
      · rw [h1]
    have ha' : .complete ∉ a := fun hm => ha (by simp [hm])
    rw [nextMatch, hi]
    cases x with
    | complete => simp at ha
    | matched ws =>
      have hk := countMatches_run a (n := m) h2 ha' (by simp at hm ⊢; omega)
      refine ⟨_, _, _, rfl, hk, ?_⟩
      rw [show Resp.matched ws :: a = [.matched ws] ++ a from rfl, reported_append]
      simp [reported, Nat.add_comm]
    | logs g =>
      rw [reported_cons_none (by simp)]
      exact benchCount_run a h2 ha' (by simp at hn ⊢; omega) (by simp at hm ⊢; omega)
    | timeout =>
      rw [reported_cons_none (by simp)]
      exact benchCount_run a h2 ha' (by simp at hn ⊢; omega) (by simp at hm ⊢; omega)

/-- C70: asking the iterator for the first match and counting the others, as the benchmark does, and counting all, as the
test below it does, give the number of matches of the session with the limits of the query: both end, without a panic. -/
theorem C70_count {q : QueryAst} {words : List Word} {es : List Expr} (hne : q.expressions ≠ [])
    (hes : q.expressions.mapM fromAst = .ok es)
    (hw : (q.options.wordlist.getD words).Pairwise fun a b => a.tranche ≤ b.tranche) :
    ∃ N e clks rs, QState.ofAst q words = .ok e ∧
      Session es (q.options.wordlist.getD words) (q.options.maxWords.getD 10) (some (q.options.limit.getD 300)) clks rs ∧
      Completed rs ∧ ∀ calls, N ≤ calls → benchCount calls e = .ok (some (reported rs).length) ∧
        countMatches calls e = .ok (some (reported rs).length) := by
  have hready := C06_ready hne hes hw
  have hlim : q.options.limit.or (some 300) = some (q.options.limit.getD 300) := by
    cases q.options.limit <;> rfl
  obtain ⟨a, h1, _, e, e', h3, h4⟩ := complete_session hready (q.options.maxWords.getD 10) (some (q.options.limit.getD 300))
  have hr : reported (a ++ [.complete]) = reported a := by rw [reported_append]; simp [reported]
  refine ⟨a.length + 2, e, _, _, ?_, ⟨e, e', h3, h4⟩, by simp [Completed], fun calls hc => ?_⟩
  · unfold QState.ofAst
    rw [hes, hlim]
    exact h3
  · rw [hr]
    refine ⟨?_, countMatches_run a h4 h1 hc⟩
    obtain ⟨b, q1, k, g1, g2, g3⟩ := benchCount_run a h4 h1 hc hc
    unfold benchCount
    rw [g1]
    simp only [g2, Except.map, Option.map, g3]

/-! ### The queries of the benchmark -/

/-- C70: the queries of the benchmark are well-formed: they consist of the lines listed in the specification. -/
theorem C70_queries : ∀ b ∈ benchQueries, ∃ ls, (b.text, ls) ∈ exampleLines ++ benchLines ∧
    (∃ raw, Lines (exampleQuery b.text.toList) raw ∧ Script [] raw ls ∧ ∀ l ∈ ls, l.ok = true) := by
  intro b hb
  have hm : ∀ b ∈ benchQueries, b.text ∈ (exampleLines ++ benchLines).map (·.1) := by
    have : (benchQueries.all fun b => decide (b.text ∈ (exampleLines ++ benchLines).map (·.1))) = true := by decide +kernel
    simpa only [List.all_eq_true, decide_eq_true_eq] using this
  have hc : ∀ x ∈ exampleLines ++ benchLines, scriptCheck [] (splitLines (exampleQuery x.1.toList)) x.2 = true := by
    have : ((exampleLines ++ benchLines).all fun x => scriptCheck [] (splitLines (exampleQuery x.1.toList)) x.2) = true := by
      decide +kernel
    exact List.all_eq_true.1 this
  obtain ⟨⟨t, ls⟩, hx, ht⟩ := List.mem_map.1 (hm b hb)
  simp only at ht
  subst ht
  obtain ⟨h1, h2⟩ := script_of_check (by simp) (hc _ hx)
  exact ⟨ls, hx, _, lines_splitLines _, h1, h2⟩

/-- No line sets a limit. -/
def freeCheck (ls : List Line) : Bool := decide (lastSome Line.givesWords ls = none) && decide (lastSome Line.givesLimit ls = none)

theorem bench_parsed {b : BenchQuery} (hb : b ∈ benchQueries) (U : Unicode) {wl : List Word}
    (hw : wl.Pairwise fun a b => a.tranche ≤ b.tranche) :
    ∃ q es, QueryAst.ofText U b.text.toList = .ok q ∧ q.expressions ≠ [] ∧ q.expressions.mapM fromAst = .ok es ∧
      q.options.maxWords = none ∧ q.options.limit = none ∧ q.options.wordlist = none ∧
      ∀ {depth : Nat} {clks : List Clock} {rs : List Resp}, Session es wl depth none clks rs → Completed rs → ∀ w : Word,
        ([w] ∈ reported rs ↔ w ∈ wl ∧ ∀ a ∈ q.expressions, Near a w.chars) := by
  obtain ⟨ls, hx, raw, h1, h2, h3⟩ := C70_queries b hb
  have hf : (b.text ∈ benchQueries.map (·.text) → fitsCheck ls = true ∧ freeCheck ls = true) := by
    have : ((exampleLines ++ benchLines).all fun x => fitsCheck x.2 && freeCheck x.2) = true := by
      decide +kernel
    have := List.all_eq_true.1 this _ hx
    simp only [Bool.and_eq_true] at this
    exact fun _ => this
  obtain ⟨hf, hp⟩ := hf (List.mem_map.2 ⟨b, hb, rfl⟩)
  obtain ⟨es, q, e1, e2, e3, e4, e5, _, _, e6, _⟩ := C34_query (U := U) h1 h2 h3
  rw [← C69_layout U (C69_example _)] at e1
  rw [parsed_exprs h3] at e2
  have e2 : ((ls.filterMap Line.givesExpr).map fun x => exprOf x.1 x.2) = es :=
    List.map_injective_iff.2 (fun a b h => by simpa using h) e2
  unfold fitsCheck at hf
  rw [e2, e3] at hf
  simp only [Bool.and_eq_true, List.all_eq_true, decide_eq_true_eq, Bool.not_eq_true', List.isEmpty_eq_false_iff] at hf
  unfold freeCheck at hp
  simp only [Bool.and_eq_true, decide_eq_true_eq] at hp
  obtain ⟨fs, g1, g2⟩ := C07_words_partial hf.1 hf.2 hw
  exact ⟨q, fs, e1, hf.1, g1, e4.trans hp.1, e5.trans hp.2, e6, g2⟩

/-! ### The program -/

/-- C70: the number of matches of a query of the benchmark exists, and is determined by the dictionary; it is at most 300, the
number of all matches or 300 if there are more. -/
theorem C70_number {b : BenchQuery} (hb : b ∈ benchQueries) (U : Unicode) {wl : List Word}
    (hw : wl.Pairwise fun a b => a.tranche ≤ b.tranche) :
    ∃ n, MatchCount U wl b.text n ∧ (∀ m, MatchCount U wl b.text m → m = n) ∧
      ∃ q es clks rs, QueryAst.ofText U b.text.toList = .ok q ∧ q.expressions.mapM fromAst = .ok es ∧
        Session es wl 10 none clks rs ∧ Completed rs ∧ n = min 300 (reported rs).length ∧
        ∀ w : Word, [w] ∈ reported rs ↔ w ∈ wl ∧ ∀ a ∈ q.expressions, Near a w.chars := by
  obtain ⟨q, es, h1, h2, h3, _, _, _, h4⟩ := bench_parsed hb U hw
  have hready := C06_ready h2 h3 hw
  obtain ⟨a, _, _, hs⟩ := complete_session hready 10 (some 300)
  obtain ⟨a', _, _, hs'⟩ := complete_session hready 10 none
  have key : ∀ m, MatchCount U wl b.text m → m = min 300 (reported (a' ++ [.complete])).length := by
    rintro m ⟨q2, es2, clks, rs, g1, g2, g3, g4, rfl⟩
    rw [h1] at g1
    cases g1
    rw [h3] at g2
    cases g2
    rw [C20_first hready g3 g4 hs' (by simp [Completed]), List.length_take]
  have hm : MatchCount U wl b.text (reported (a ++ [.complete])).length :=
    ⟨q, es, _, _, h1, h3, hs, by simp [Completed], rfl⟩
  refine ⟨_, hm, fun m h => (key m h).trans (key _ hm).symm, q, es, _, _, h1, h3, hs', by simp [Completed], key _ hm, ?_⟩
  exact fun w => h4 hs' (by simp [Completed]) w

theorem benchRound_eq {b : BenchQuery} (hb : b ∈ benchQueries) (U : Unicode) {wl : List Word}
    (hw : wl.Pairwise fun a b => a.tranche ≤ b.tranche) :
    ∃ N n, MatchCount U wl b.text n ∧ ∀ calls, N ≤ calls → benchRound U wl calls b = (aboutQuery (b, n), .ok n) := by
  obtain ⟨q, es, h1, h2, h3, h4, h5, h6, _⟩ := bench_parsed hb U hw
  obtain ⟨N, e, clks, rs, g1, g2, g3, g4⟩ := C70_count (words := wl) h2 h3 (by rw [h6]; exact hw)
  rw [h4, h5, h6] at g2
  refine ⟨N, _, ⟨q, es, clks, rs, h1, h3, g2, g3, rfl⟩, fun calls hc => ?_⟩
  unfold benchRound
  simp only [h1, g1, (g4 calls hc).1]
  rfl

theorem benchLoop_eq (U : Unicode) {wl : List Word} (hw : wl.Pairwise fun a b => a.tranche ≤ b.tranche) :
    ∀ bs : List BenchQuery, (∀ b ∈ bs, b ∈ benchQueries) → ∃ (N : Nat) (good : List (BenchQuery × Nat)) (bad : Option (BenchQuery × Nat)),
      good.map (·.1) ++ bad.toList.map (·.1) <+: bs ∧ (bad = none → good.map (·.1) = bs) ∧
      (∀ x ∈ good, MatchCount U wl x.1.text x.2 ∧ AsExpected x) ∧
      (∀ x ∈ bad, MatchCount U wl x.1.text x.2 ∧ ¬ AsExpected x) ∧
      ∀ calls, N ≤ calls → benchLoop U wl calls bs =
        (good.flatMap aboutQuery ++ bad.toList.flatMap (fun x => aboutQuery x ++ [.wrong x.1.text x.1.lo x.1.hi x.2]),
          .ok good.length)
  | [], _ => ⟨0, [], none, by simp, by simp, by simp, by simp, fun _ _ => rfl⟩
  | b :: bs, hb => by
    obtain ⟨N, n, h1, h2⟩ := benchRound_eq (hb b (by simp)) U hw
    by_cases hr : b.lo ≤ n ∧ n ≤ b.hi
    · obtain ⟨M, good, bad, g1, g2, g3, g4, g5⟩ := benchLoop_eq U hw bs (fun x hx => hb x (by simp [hx]))
      refine ⟨max N M, (b, n) :: good, bad, ?_, ?_, ?_, g4, fun calls hc => ?_⟩
      · simpa using g1
      · intro h; simp [g2 h]
      · intro x hx
        rcases List.mem_cons.1 hx with rfl | hx
        · exact ⟨h1, hr⟩
        · exact g3 x hx
      · rw [benchLoop, h2 calls (by omega)]
        simp only
        rw [if_pos hr, g5 calls (by omega)]
        simp [Except.map]
    · refine ⟨N, [], some (b, n), ?_, by simp, by simp, ?_, fun calls hc => ?_⟩
      · simp
      · intro x hx
        cases hx
        exact ⟨h1, hr⟩
      · rw [benchLoop, h2 calls (by omega)]
        simp only
        rw [if_neg hr]
        simp

/-- C70: for every dictionary file the benchmark program ends, without a panic. It prints, for the queries in order, the number
of matches; it stops with an error message at the first number that is not in the range expected, if there is one, and then
prints a table of the queries before that. -/
theorem C70_program (U : Unicode) (file : List Char) :
    ∃ (N : Nat) (good : List (BenchQuery × Nat)) (bad : Option (BenchQuery × Nat)),
      good.map (·.1) ++ bad.toList.map (·.1) <+: benchQueries ∧ (bad = none → good.map (·.1) = benchQueries) ∧
      (∀ x ∈ good, MatchCount U (loadWordlist U file) x.1.text x.2 ∧ AsExpected x) ∧
      (∀ x ∈ bad, MatchCount U (loadWordlist U file) x.1.text x.2 ∧ ¬ AsExpected x) ∧
      ∀ calls, N ≤ calls → benchRun U (some file) calls = (benchOutput good bad, .finished) := by
  obtain ⟨N, good, bad, h1, h2, h3, h4, h5⟩ :=
    benchLoop_eq U (sortWords_tranche _ : (loadWordlist U file).Pairwise _) benchQueries fun _ h => h
  refine ⟨N, good, bad, h1, h2, h3, h4, fun calls hc => ?_⟩
  unfold benchRun
  have h6 : benchLoop U (loadWordlist U file) calls benchQueries = _ := h5 calls hc
  simp only [h6]
  have ht : benchQueries.take good.length = good.map (·.1) := by
    obtain ⟨t, ht⟩ := h1
    rw [← ht, List.append_assoc, List.take_left' (by simp)]
  simp only [ht]
  simp [benchOutput]

/-- C70: two of the ranges go beyond the limit of 300 matches: they can be met only by exactly 300. -/
theorem C70_capped {b : BenchQuery} (hb : b ∈ benchQueries) (h : 300 ≤ b.lo) {U : Unicode} {wl : List Word}
    (hw : wl.Pairwise fun a b => a.tranche ≤ b.tranche) {n : Nat} (hn : MatchCount U wl b.text n) (hr : AsExpected (b, n)) :
    n = 300 := by
  obtain ⟨m, _, h2, _, _, _, _, _, _, _, _, h3, _⟩ := C70_number hb U hw
  have := h2 n hn
  have := hr.1
  simp only at this
  omega

theorem load_empty (U : Unicode) : loadWordlist U [] = [] := by
  unfold loadWordlist
  have : fileLines [] ([] : List Char) = [] := by decide
  rw [this]
  simp [loadLines, sortWords]

/-- With no words in the dictionary, the first query has no match, and the program stops there. -/
theorem C70_empty (U : Unicode) : ∃ N, ∀ calls, N ≤ calls → benchRun U (some []) calls =
    ([.loaded, .blank, .blank, .query "helloworld", .parsed, .matches 0, .evaluated, .wrong "helloworld" 1 1 0], .finished) := by
  obtain ⟨N, good, bad, h1, h2, h3, h4, h5⟩ := C70_program U []
  rw [load_empty] at h3 h4
  have hb : (⟨"helloworld", 1, 1, 13⟩ : BenchQuery) ∈ benchQueries := by simp [benchQueries]
  have hz : ∀ n, MatchCount U [] "helloworld" n → n = 0 := by
    intro n hn
    obtain ⟨q, es, g1, g2, g3, _⟩ := bench_parsed hb U (wl := []) .nil
    obtain ⟨q', es', clks, rs, k1, k2, k3, _, rfl⟩ := hn
    rw [g1] at k1
    cases k1
    rw [g3] at k2
    cases k2
    have hr : reported rs = [] := by
      rw [List.eq_nil_iff_forall_not_mem]
      intro ws hws
      obtain ⟨a, _, c⟩ := C26_length (C06_ready g2 g3 .nil) k3 ws hws
      cases ws with
      | nil => simp at a
      | cons w ws => simpa using c w (by simp)
    rw [hr]
    rfl
  cases good with
  | cons x good =>
    have hx : x.1 = ⟨"helloworld", 1, 1, 13⟩ := by
      obtain ⟨t, ht⟩ := h1
      simp only [List.map_cons, List.cons_append, benchQueries] at ht
      injection ht
    obtain ⟨k1, k2⟩ := h3 x (by simp)
    rw [hx] at k1
    have := hz _ k1
    have := k2.1
    rw [hx] at this
    simp at this
    omega
  | nil =>
    cases bad with
    | none => exact absurd (h2 rfl) (by simp [benchQueries])
    | some x =>
      obtain ⟨b, n⟩ := x
      have hx : b = ⟨"helloworld", 1, 1, 13⟩ := by
        obtain ⟨t, ht⟩ := h1
        simp only [Option.toList, List.map_cons, List.map_nil, List.nil_append, List.cons_append, benchQueries] at ht
        injection ht
      subst hx
      have := hz n (h4 _ rfl).1
      subst this
      exact ⟨N, h5⟩

end Noodle
