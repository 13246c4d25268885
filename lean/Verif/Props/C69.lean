import Verif.Proofs.Layout
import Verif.Props.C60
import Verif.Props.C07
import Verif.Props.C64
import Verif.Model.Web
/-
C69: the layout of a query does not matter, and the examples of the page are the queries that they show.
-/
namespace Noodle
set_option autoImplicit false
open Spec

/-! ### Layout -/

/-- C69: two texts with the same lines, separated by newlines or semicolons, up to blanks at the beginning of lines, are the
same query: both are accepted, with the same expressions and options, or both are rejected, because of the same line. -/
theorem C69_layout (U : Unicode) {s t : List Char} (h : SameLayout s t) : QueryAst.ofText U s = QueryAst.ofText U t := by
  obtain ⟨ls, ms, h1, h2, h3⟩ := h
  unfold QueryAst.ofText
  rw [splitLines_of_lines h1, splitLines_of_lines h2, parseLines_gap h3 0 {} (by intro m hm; cases hm)]

/-- C69: so they are answered alike, over the web socket, as a plain request and by the command line program. (The text of a
syntax error, made by pest, shows the line as it is written, and may differ.) -/
theorem C69_answers (U : Unicode) {s t : List Char} (h : SameLayout s t) {q : QueryAst} (hq : QueryAst.ofText U s = .ok q) :
    (∀ F P ds others ticks, wsTalk F P U ds (some s) others ticks = wsTalk F P U ds (some t) others ticks) ∧
    (∀ err ds plain clks, syncBody U err ds s plain clks = syncBody U err ds t plain clks) ∧
    (∀ file count depth calls, cliRun U file count depth s calls = cliRun U file count depth t calls) := by
  have ht := (C69_layout U h).symm.trans hq
  refine ⟨fun F P ds others ticks => ?_, fun err ds plain clks => ?_, fun file count depth calls => ?_⟩
  · unfold wsTalk; simp only [hq, ht]
  · unfold syncBody; rw [hq, ht]
  · unfold cliRun; rw [hq, ht]

/-! ### Examples of the page -/

theorem aligned_refl : ∀ ls : List (List Char), Aligned ls ls
  | [] => .nil
  | _ :: ls => .cons (n := 0) (m := 0) (aligned_refl ls)

theorem aligned_append {a b c d : List (List Char)} (h : Aligned a b) (k : Aligned c d) : Aligned (a ++ c) (b ++ d) := by
  induction h with
  | nil => exact k
  | cons _ ih => exact .cons ih

theorem aligned_blank {a b : List Char} {ls ms : List (List Char)} (h : Aligned (a :: ls) (b :: ms)) :
    Aligned ((' ' :: a) :: ls) (b :: ms) := by
  cases h with
  | @cons n m line _ _ h => exact .cons (n := n + 1) h

theorem aligned_tail {a b : List Char} {ls ms : List (List Char)} (h : Aligned (a :: ls) (b :: ms)) : Aligned ls ms := by
  cases h with
  | cons h => exact h

theorem aligned_char {c : Char} {a : List Char} {ls ms : List (List Char)} (h : Aligned (a :: ls) (a :: ms)) :
    Aligned ((c :: a) :: ls) ((c :: a) :: ms) := .cons (n := 0) (m := 0) (aligned_tail h)

/-- After a semicolon (`true`), blanks may be missing. -/
theorem example_lines : ∀ (b : Bool) (s : List Char), ∃ l l' ls ms, splitLines s = l :: ls ∧
    splitLines (exampleAux b s) = l' :: ms ∧ (b = false → l' = l) ∧ Aligned (l :: ls) (l' :: ms)
  | b, [] => ⟨[], [], [], [], rfl, by cases b <;> rfl, fun _ => rfl, aligned_refl _⟩
  | b, c :: s => by
    by_cases hb : b = true ∧ c = ' '
    · obtain ⟨rfl, rfl⟩ := hb
      obtain ⟨l, l', ls, ms, h1, h2, _, h4⟩ := example_lines true s
      refine ⟨' ' :: l, l', ls, ms, ?_, ?_, (fun h => nomatch h), aligned_blank h4⟩
      · rw [splitLines, if_neg (by decide), h1]
      · rw [exampleAux]; exact h2
    · have e : exampleAux b (c :: s) = if c = ';' then '\n' :: exampleAux true s else c :: exampleAux false s := by
        rw [exampleAux]
        rintro rfl rfl
        exact hb ⟨rfl, rfl⟩
      rw [e]
      by_cases hc : c = ';'
      · subst hc
        obtain ⟨l, l', ls, ms, h1, h2, _, h4⟩ := example_lines true s
        rw [if_pos rfl]
        refine ⟨[], [], l :: ls, l' :: ms, ?_, ?_, fun _ => rfl, .cons (n := 0) (m := 0) h4⟩
        · rw [splitLines, if_pos (.inr rfl), h1]
        · rw [splitLines, if_pos (.inl rfl), h2]
      · rw [if_neg hc]
        obtain ⟨l, l', ls, ms, h1, h2, h3, h4⟩ := example_lines false s
        have h3 := h3 rfl
        subst h3
        by_cases hn : c = '\n'
        · subst hn
          refine ⟨[], [], l' :: ls, l' :: ms, ?_, ?_, fun _ => rfl, .cons (n := 0) (m := 0) h4⟩
          · rw [splitLines, if_pos (.inl rfl), h1]
          · rw [splitLines, if_pos (.inl rfl), h2]
        · refine ⟨c :: l', c :: l', ls, ms, ?_, ?_, fun _ => rfl, aligned_char h4⟩
          · rw [splitLines, if_neg (by simp [hc, hn]), h1]
          · rw [splitLines, if_neg (by simp [hc, hn]), h2]

/-- C69: the query that the page makes of the text of an example has the same lines. -/
theorem C69_example (s : List Char) : SameLayout s (exampleQuery s) := by
  obtain ⟨l, l', ls, ms, h1, h2, _, h4⟩ := example_lines false s
  exact ⟨_, _, lines_splitLines s, lines_splitLines _, by unfold exampleQuery; rw [h1, h2]; exact h4⟩

theorem example_clean : ∀ (b : Bool) {s : List Char}, '\r' ∉ s → '\r' ∉ exampleAux b s
  | b, [], _ => by cases b <;> simp [exampleAux]
  | b, c :: s, h => by
    simp only [List.mem_cons, not_or] at h
    have h1 := example_clean true h.2
    have h2 := example_clean false h.2
    rw [exampleAux.eq_def]
    split
    · simp
    · next e => cases e; exact h1
    · next e => cases e; split <;> simp [h1, h2, h.1]

/-- C69: a click on an example asks for what the link shows: the page sends what it would send for the text of the link as it
is, with at most ten words; and so does opening the link elsewhere, where the query is put into its field. -/
theorem C69_click (U : Unicode) {name : List Char} {n : Nat} {s : List Char} (hs : '\r' ∉ s)
    (hn : (Line.dict 0 "#dict".toList 1 name 0).ok = true) (custom : List Char) :
    QueryAst.ofText U (exampleText name (digits n) custom s) =
      QueryAst.ofText U (pageText name (digits 10) (digits n) s custom) ∧
    loadInput (exampleHash s) = some (exampleQuery s) ∧
    ∀ w, QueryAst.ofText U (pageText name (digits w) (digits n) (exampleQuery s) custom) =
      QueryAst.ofText U (pageText name (digits w) (digits n) s custom) := by
  have ha : areaValue (exampleQuery s) = exampleQuery s := areaValue_plain (example_clean false hs)
  have hw : ∀ w, QueryAst.ofText U (pageText name (digits w) (digits n) (exampleQuery s) custom) =
      QueryAst.ofText U (pageText name (digits w) (digits n) s custom) := by
    intro w
    obtain ⟨ls, ms, h1, h2, h3⟩ := C69_example s
    refine (C69_layout U ⟨_, _, page_lines hn h1 custom, page_lines hn h2 custom, ?_⟩).symm
    exact aligned_append (aligned_refl _) (aligned_append h3 (aligned_refl _))
  refine ⟨?_, ?_, hw⟩
  · unfold exampleText
    rw [ha, show "10".toList = digits 10 by decide +kernel]
    exact hw 10
  · have := C64_link (exampleQuery s)
    rw [ha] at this
    exact this

/-- Do the lines become these lines? -/
def scriptCheck : List Line → List (List Char) → List Line → Bool
  | _, [], [] => true
  | before, r :: raw, l :: ls => decide (applyMacros (defsOf before) r = l.text) && l.ok && scriptCheck (before ++ [l]) raw ls
  | _, _, _ => false

theorem script_of_check : ∀ {before : List Line} {raw : List (List Char)} {ls : List Line}, (∀ l ∈ before, l.ok = true) →
    scriptCheck before raw ls = true → Script before raw ls ∧ ∀ l ∈ ls, l.ok = true
  | _, [], [], _, _ => ⟨.nil, by simp⟩
  | before, r :: raw, l :: ls, hb, h => by
    simp only [scriptCheck, Bool.and_eq_true, decide_eq_true_eq] at h
    obtain ⟨⟨h1, h2⟩, h3⟩ := h
    have hb' : ∀ x ∈ before ++ [l], x.ok = true := by
      intro x hx
      rcases List.mem_append.1 hx with hx | hx
      · exact hb x hx
      · rw [List.mem_singleton] at hx; subst hx; exact h2
    obtain ⟨h4, h5⟩ := script_of_check hb' h3
    refine ⟨.cons ((expanded_iff (defsOf_names hb)).2 h1) h4, ?_⟩
    intro x hx
    rcases List.mem_cons.1 hx with rfl | hx
    · exact h2
    · exact h5 x hx
  | _, [], _ :: _, _, h => by simp [scriptCheck] at h
  | _, _ :: _, [], _, h => by simp [scriptCheck] at h

/-- C69: all examples of the page are well-formed queries, that consist of the lines listed in the specification, and none is
rejected. -/
theorem C69_examples : pageExamples = exampleLines.map (·.1) ∧ ∀ x ∈ exampleLines,
    (∃ raw, Lines (exampleQuery x.1.toList) raw ∧ Script [] raw x.2 ∧ ∀ l ∈ x.2, l.ok = true) ∧
    ∀ U, ∃ q, QueryAst.ofText U (exampleQuery x.1.toList) = .ok q ∧ QueryAst.ofText U x.1.toList = .ok q := by
  have hc : ∀ x ∈ exampleLines, scriptCheck [] (splitLines (exampleQuery x.1.toList)) x.2 = true := by
    have : (exampleLines.all fun x => scriptCheck [] (splitLines (exampleQuery x.1.toList)) x.2) = true := by decide +kernel
    exact List.all_eq_true.1 this
  refine ⟨by decide +kernel, fun x hx => ?_⟩
  obtain ⟨h1, h2⟩ := script_of_check (by simp) (hc x hx)
  refine ⟨⟨_, lines_splitLines _, h1, h2⟩, fun U => ?_⟩
  obtain ⟨_, q, hq, _⟩ := C34_query (U := U) (lines_splitLines _) h1 h2
  exact ⟨q, hq, (C69_layout U (C69_example _)).trans hq⟩

/-- Are all expressions, after the rewriting of anagrams, in the fragment that is compiled as it is meant? -/
def fitsCheck (ls : List Line) : Bool :=
  match expandExpressions ((ls.filterMap Line.givesExpr).map fun x => exprOf x.1 x.2) with
  | .ok as => !as.isEmpty && as.all fun a => tame a.root && decide (states a.root < 16384)
  | .error _ => false

/-- C69: every example works with every dictionary: its expressions are compiled without a panic and mean what is written, no
run of the query panics, and a complete run reports exactly the words that all expressions stand for, up to the edits allowed. -/
theorem C69_run {s : String} (hs : s ∈ pageExamples) (U : Unicode) {q : QueryAst} (hq : QueryAst.ofText U s.toList = .ok q)
    {wl : List Word} (hw : wl.Pairwise fun a b => a.tranche ≤ b.tranche) :
    ∃ es, q.expressions.mapM fromAst = .ok es ∧
      (∀ depth limit clks, ∃ rs, Session es wl depth limit clks rs ∧ rs.length = clks.length) ∧
      ∀ depth clks rs, Session es wl depth none clks rs → Completed rs → ∀ w : Word,
        ([w] ∈ reported rs ↔ w ∈ wl ∧ ∀ a ∈ q.expressions, Near a w.chars) := by
  rw [C69_examples.1] at hs
  obtain ⟨x, hx, rfl⟩ := List.mem_map.1 hs
  obtain ⟨⟨raw, h1, h2, h3⟩, h4⟩ := C69_examples.2 x hx
  have hf : fitsCheck x.2 = true := by
    have : (exampleLines.all fun x => fitsCheck x.2) = true := by decide +kernel
    exact List.all_eq_true.1 this x hx
  obtain ⟨es, q', e1, e2, e3, _⟩ := C34_query (U := U) h1 h2 h3
  rw [← C69_layout U (C69_example _), hq] at e1
  cases e1
  rw [parsed_exprs h3] at e2
  have e2 : ((x.2.filterMap Line.givesExpr).map fun x => exprOf x.1 x.2) = es :=
    List.map_injective_iff.2 (fun a b h => by simpa using h) e2
  unfold fitsCheck at hf
  rw [e2, e3] at hf
  simp only [Bool.and_eq_true, List.all_eq_true, decide_eq_true_eq, Bool.not_eq_true', List.isEmpty_eq_false_iff] at hf
  obtain ⟨fs, g1, g2⟩ := C07_words_partial hf.1 hf.2 hw
  exact ⟨fs, g1, fun depth limit clks => C42_no_crash (C06_ready hf.1 g1 hw) depth limit clks,
    fun depth clks rs hs hc w => g2 hs hc w⟩

theorem lineNode_list {st st' : ParseState} {p : Peg.Pair} (h : lineNode st p = .ok st') (hn : st'.wordlist = none) :
    st.wordlist = none := by
  unfold lineNode at h
  split at h
  · revert h; cases parseExpression p <;> simp [Except.map]; rintro rfl; exact hn
  all_goals first
    | (cases h; exact hn)
    | (cases h; cases hn)
    | skip
  · simp only at h
    split at h
    · cases h; exact hn
    · cases h

theorem parseLine_list {U : Unicode} {st st' : ParseState} {i : Nat} {l : List Char} (h : parseLine U st i l = .ok st')
    (hn : st'.wordlist = none) : st.wordlist = none := by
  cases hw : st.wordlist with
  | none => rfl
  | some wl =>
    unfold parseLine at h
    rw [hw] at h
    simp only [Except.ok.injEq] at h
    rw [← h] at hn
    split at hn
    · rw [hw] at hn; cases hn
    · cases hn

theorem parseLines_list {U V : Unicode} : ∀ {ls : List (List Char)} {i : Nat} {st st' : ParseState},
    parseLines U i ls st = .ok st' → st'.wordlist = none → st.wordlist = none ∧ parseLines V i ls st = .ok st'
  | [], _, _, _, h, hn => by cases h; exact ⟨hn, rfl⟩
  | l :: ls, i, st, st', h, hn => by
    rw [parseLines] at h ⊢
    cases hp : parseLine U st i l with
    | error e => rw [hp] at h; cases h
    | ok s =>
      rw [hp] at h
      obtain ⟨h1, h2⟩ := parseLines_list (V := V) (ls := ls) h hn
      have h3 := parseLine_list hp h1
      have h4 : parseLine V st i l = .ok s := by
        rw [parseLine_tree h3] at hp ⊢; exact hp
      exact ⟨h3, by rw [h4]; exact h2⟩

/-- A query without a word list is read in the same way whatever the tables of Unicode are. -/
theorem ofText_unicode {U V : Unicode} {t : List Char} {q : QueryAst} (h : QueryAst.ofText U t = .ok q)
    (hn : q.options.wordlist = none) : QueryAst.ofText V t = .ok q := by
  unfold QueryAst.ofText at h ⊢
  cases hp : parseLines U 0 (splitLines t) {} with
  | error e => rw [hp] at h; cases h
  | ok st =>
    rw [hp] at h
    have hw : st.wordlist = none := by
      simp only [Except.bind] at h
      revert h
      cases expandExpressions st.expressions with
      | error c => simp [orCrash, Except.map]
      | ok es =>
        simp only [orCrash, Except.map, Except.ok.injEq]
        rintro rfl
        simpa using hn
    rw [(parseLines_list (V := V) hp hw).2]
    exact h

/-- Is the text read as a query with this one expression? -/
def readsAs (U : Unicode) (t : List Char) (shown : List Char) : Bool :=
  match QueryAst.ofText U t with
  | .ok q => q.options.wordlist.isNone && decide (q.expressions.map ExprAst.show = [shown])
  | .error _ => false

theorem readsAs_spec {U V : Unicode} {t shown : List Char} (h : readsAs U t shown = true) :
    ∃ q, QueryAst.ofText V t = .ok q ∧ q.expressions.map ExprAst.show = [shown] := by
  unfold readsAs at h
  cases hq : QueryAst.ofText U t with
  | error e => rw [hq] at h; cases h
  | ok q =>
    rw [hq] at h
    simp only [Bool.and_eq_true, Option.isNone_iff_eq_none, decide_eq_true_eq] at h
    exact ⟨q, ofText_unicode hq h.1, h.2⟩

/-- C69: only blanks at the beginning of a line are free. A blank at the end of a line can matter: a blank before the `=` of a
definition belongs to the name of the macro, so that `A =x` replaces `A` only where a blank follows. -/
theorem C69_counterexample (U : Unicode) :
    (∃ q, QueryAst.ofText U "A =x\nbA".toList = .ok q ∧ q.expressions.map ExprAst.show = ["(ba)".toList]) ∧
    (∃ q, QueryAst.ofText U "A =x\nbA ".toList = .ok q ∧ q.expressions.map ExprAst.show = ["(bx)".toList]) :=
  ⟨readsAs_spec (U := asciiUnicode) (by decide +kernel), readsAs_spec (U := asciiUnicode) (by decide +kernel)⟩

/-- Not trivial: different texts of the same layout. -/
example : SameLayout "V=[ae];  xVy !1; #words 2".toList "  V=[ae]\nxVy !1\n   #words 2".toList :=
  ⟨["V=[ae]".toList, "  xVy !1".toList, " #words 2".toList], ["  V=[ae]".toList, "xVy !1".toList, "   #words 2".toList],
    lines_iff.2 (by decide +kernel), lines_iff.2 (by decide +kernel),
    .cons (n := 0) (m := 2) (line := "V=[ae]".toList) (.cons (n := 2) (m := 0) (line := "xVy !1".toList)
      (.cons (n := 1) (m := 3) (line := "#words 2".toList) .nil))⟩

example : exampleQuery "<smiles>;  .*ss.*".toList = "<smiles>\n.*ss.*".toList ∧
    exampleHash "<smiles>; .*ss.*".toList = "#%3Csmiles%3E%0A.*ss.*".toList := by constructor <;> decide +kernel

end Noodle
