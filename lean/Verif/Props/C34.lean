import Verif.Proofs.ScriptLine
import Verif.Proofs.Sort
import Verif.Proofs.Expand
import Verif.Proofs.ParseTotal
/-
C34: the lines of a query. `QueryAst.ofText` is the model of `QueryAst::new_from_str`; `Spec/Script.lean` says what the
lines of a query are and do.
-/
namespace Noodle
open Spec
set_option autoImplicit false

/-- The state of the parser after these lines. -/
def stateAfter (ls : List Line) : ParseState :=
  { expressions := (ls.filterMap Line.givesExpr).map fun x => exprOf x.1 x.2
    macros := defsOf ls
    options := { maxWords := lastSome Line.givesWords ls, dictionary := lastSome Line.givesDict ls,
                 limit := lastSome Line.givesLimit ls, quiet := lastSome Line.givesQuiet ls } }

theorem effect_after (ls : List Line) (l : Line) : effect (stateAfter ls) l = stateAfter (ls ++ [l]) := by
  unfold stateAfter
  cases l <;> simp only [effect, List.filterMap_append, List.map_append, lastSome_append] <;>
    simp [Line.givesExpr, Line.givesWords, Line.givesDict, Line.givesLimit, Line.givesQuiet] <;>
    first
    | exact (defsOf_other _ _ rfl).symm
    | exact (defsOf_define _ _ _ _ rfl).symm

theorem parseLine_does {U : Unicode} {st : ParseState} {i : Nat} {line text : List Char} {f : ParseState → ParseState}
    (hw : st.wordlist = none) (ht : applyMacros st.macros line = text) (h : Does text f) :
    parseLine U st i line = .ok (f st) := by
  obtain ⟨p, q, rest, h1, h2, h3⟩ := h
  unfold parseLine
  rw [hw]
  simp only [ht, h1, h2, h3]
  rfl

theorem run_script {U : Unicode} {before : List Line} {raw : List (List Char)} {ls : List Line}
    (h : Script before raw ls) : (∀ l ∈ before, l.ok = true) → (∀ l ∈ ls, l.ok = true) →
    ∀ (i : Nat) (rest : List (List Char)), parseLines U i (raw ++ rest) (stateAfter before) =
      parseLines U (i + raw.length) rest (stateAfter (before ++ ls)) := by
  induction h with
  | nil => intro _ _ i rest; simp
  | @cons before r raw l ls he _ ih =>
    intro hb hl i rest
    have hl0 := hl l (by simp)
    rw [List.cons_append, parseLines, parseLine_does rfl ((expanded_iff (defsOf_names hb)).1 he) (does_line l hl0)]
    show parseLines U (i + 1) (raw ++ rest) (effect (stateAfter before) l) = _
    rw [effect_after, ih _ (fun x hx => hl x (by simp [hx]))]
    · simp [Nat.add_assoc, Nat.add_comm 1]
    · intro x hx
      rcases List.mem_append.1 hx with hx | hx
      · exact hb x hx
      · rw [List.mem_singleton] at hx; subst hx; exact hl0

theorem parsed_exprs {ls : List Line} (hok : ∀ l ∈ ls, l.ok = true) :
    (ls.filterMap Line.givesExpr).map (fun x => ExprAst.ofText (exprText 0 x.1 x.2)) =
      ((ls.filterMap Line.givesExpr).map fun x => exprOf x.1 x.2).map fun e => .ok (some e) := by
  rw [List.map_map]
  apply List.map_congr_left
  intro x hx
  obtain ⟨l, hl, he⟩ := List.mem_filterMap.1 hx
  have := hok l hl
  cases l <;> simp only [Line.givesExpr, reduceCtorEq, Option.some.injEq] at he
  subst he
  simp only [Line.ok, Bool.and_eq_true] at this
  exact ofText_ok 0 _ _ this.1 this.2

/-- C34: a query, the lines of which become documented lines when the macros defined on earlier lines are replaced, is
accepted. Its expressions are those of its lines, in order, each as it would be parsed alone, after the rewriting of
anagram blocks; its options are those of the last pragma of each kind; there is no word list. -/
theorem C34_query {U : Unicode} {text : List Char} {raw : List (List Char)} {ls : List Line} (hl : Lines text raw)
    (hs : Script [] raw ls) (hok : ∀ l ∈ ls, l.ok = true) :
    ∃ es q, QueryAst.ofText U text = .ok q ∧
      (ls.filterMap Line.givesExpr).map (fun x => ExprAst.ofText (exprText 0 x.1 x.2)) =
        es.map (fun e => .ok (some e)) ∧
      expandExpressions es = .ok q.expressions ∧
      q.options.maxWords = lastSome Line.givesWords ls ∧ q.options.limit = lastSome Line.givesLimit ls ∧
      q.options.dictionary = lastSome Line.givesDict ls ∧ q.options.quiet = lastSome Line.givesQuiet ls ∧
      q.options.wordlist = none ∧ q.macros = defsOf ls := by
  have hrun := run_script (U := U) hs (by simp) hok 0 []
  rw [List.append_nil, List.nil_append] at hrun
  have h0 : stateAfter [] = {} := rfl
  obtain ⟨ex, hex⟩ : ∃ ex, expandExpressions (stateAfter ls).expressions = .ok ex := ⟨_, expandExpressions_eq _⟩
  refine ⟨(stateAfter ls).expressions, ⟨defsOf ls, ex, (stateAfter ls).options⟩, ?_, parsed_exprs hok, hex,
    rfl, rfl, rfl, rfl, rfl, rfl⟩
  unfold QueryAst.ofText
  rw [splitLines_of_lines hl, ← h0, hrun]
  simp only [parseLines, Except.bind, hex, orCrash, Except.map]
  rfl

/-! ### Word lists -/

theorem isWhite_iff (c : Char) : isWhite c = true ↔ c.toNat ∈ whiteCodes := by
  simp only [isWhite, whiteCodes, List.mem_cons, List.not_mem_nil, or_false, Bool.or_eq_true, Bool.and_eq_true,
    decide_eq_true_eq, beq_iff_eq]
  omega

theorem isWhite_not (c : Char) : isWhite c = false ↔ c.toNat ∉ whiteCodes := by
  rw [← isWhite_iff, Bool.not_eq_true]

theorem trim_spec (l : List Char) : Trims l (trim l) := by
  unfold Trims
  simp only [← isWhite_iff, Bool.not_eq_true]
  have h1 : l = l.takeWhile isWhite ++ l.dropWhile isWhite := (List.takeWhile_append_dropWhile).symm
  have h2 : l.dropWhile isWhite = trim l ++ ((l.dropWhile isWhite).reverse.takeWhile isWhite).reverse := by
    have := congrArg List.reverse
      (List.takeWhile_append_dropWhile (p := isWhite) (l := (l.dropWhile isWhite).reverse)).symm
    rw [List.reverse_reverse, List.reverse_append] at this
    exact this
  have hd : ∀ (m : List Char) (c : Char), (m.dropWhile isWhite).head? = some c → isWhite c = false := by
    intro m c h
    have := List.head?_dropWhile_not isWhite m
    rw [h] at this
    simpa using this
  refine ⟨l.takeWhile isWhite, ((l.dropWhile isWhite).reverse.takeWhile isWhite).reverse, ?_, ?_, ?_, ?_, ?_⟩
  · rw [List.append_assoc, ← h2, ← h1]
  · intro c hc
    have := List.all_takeWhile (p := isWhite) (l := l)
    exact List.all_eq_true.1 this c hc
  · intro c hc
    have := List.all_takeWhile (p := isWhite) (l := (l.dropWhile isWhite).reverse)
    exact List.all_eq_true.1 this c (List.mem_reverse.1 hc)
  · intro c hc
    refine hd l c ?_
    rw [h2, List.head?_append, hc]
    rfl
  · intro c hc
    refine hd (l.dropWhile isWhite).reverse c ?_
    unfold trim at hc
    rw [List.getLast?_reverse] at hc
    exact hc

theorem run_listed (U : Unicode) : ∀ (rest : List (List Char)) (i : Nat) (st : ParseState) (wl : List Word),
    st.wordlist = some wl →
    ∃ ws, Listed U i rest ws ∧ parseLines U i rest st = .ok { st with wordlist := some (wl ++ ws) }
  | [], i, st, wl, h => ⟨[], .nil, by rw [parseLines, List.append_nil, ← h]⟩
  | l :: rest, i, st, wl, h => by
    by_cases he : (trim l) = []
    · obtain ⟨ws, h1, h2⟩ := run_listed U rest (i + 1) st wl h
      refine ⟨ws, .blank (he ▸ trim_spec l) h1, ?_⟩
      rw [parseLines, parseLine, h]
      simp only [he, List.isEmpty_nil, if_true, Except.bind]
      exact h2
    · obtain ⟨ws, h1, h2⟩ := run_listed U rest (i + 1)
        { st with wordlist := some (wl ++ [Word.new U (String.ofList (trim l)) 1 (i % 2 ^ 32)]) } _ rfl
      refine ⟨_, .word (trim_spec l) he h1, ?_⟩
      rw [parseLines, parseLine, h]
      have he' : (trim l).isEmpty = false := by simpa using he
      simp only [he', Bool.false_eq_true, if_false, Except.bind]
      rw [h2]
      simp

/-- C34: lines after `#wordlist` are not parsed: those that are not blank are the words of the list (trimmed, with the
number of the line as score and tranche 1), in the order of words; the lines before it are read as in `C34_query`. -/
theorem C34_wordlist {U : Unicode} {text : List Char} {raw rest : List (List Char)} {r : List Char} {ls : List Line}
    {key : List Char} {b t : Nat} (hl : Lines text (raw ++ r :: rest)) (hs : Script [] raw ls)
    (hok : ∀ l ∈ ls, l.ok = true) (hr : Expanded (defsOf ls) r (gap b ++ key ++ gap t))
    (hk : keyword "#wordlist" key = true) :
    ∃ es q ws wl, QueryAst.ofText U text = .ok q ∧
      (ls.filterMap Line.givesExpr).map (fun x => ExprAst.ofText (exprText 0 x.1 x.2)) =
        es.map (fun e => .ok (some e)) ∧
      expandExpressions es = .ok q.expressions ∧
      q.options.maxWords = lastSome Line.givesWords ls ∧ q.options.limit = lastSome Line.givesLimit ls ∧
      q.options.dictionary = lastSome Line.givesDict ls ∧ q.options.quiet = lastSome Line.givesQuiet ls ∧
      q.macros = defsOf ls ∧
      q.options.wordlist = some wl ∧ Listed U (raw.length + 1) rest ws ∧ wl.Perm ws ∧
      wl.Pairwise (fun x y => Word.cmp x y ≠ .gt) := by
  have hrun := run_script (U := U) hs (by simp) hok 0 (r :: rest)
  rw [List.nil_append, Nat.zero_add] at hrun
  have h0 : stateAfter [] = {} := rfl
  have hw : parseLine U (stateAfter ls) raw.length r = .ok { stateAfter ls with wordlist := some [] } :=
    parseLine_does rfl (by rw [← List.append_assoc]; exact (expanded_iff (defsOf_names hok)).1 hr) (does_wordlist b key t hk)
  obtain ⟨ex, hex⟩ : ∃ ex, expandExpressions (stateAfter ls).expressions = .ok ex := ⟨_, expandExpressions_eq _⟩
  obtain ⟨ws, hws, hp⟩ := run_listed U rest (raw.length + 1) { stateAfter ls with wordlist := some [] } [] rfl
  refine ⟨(stateAfter ls).expressions,
    ⟨defsOf ls, ex, { (stateAfter ls).options with wordlist := some (sortWords ws) }⟩, ws, sortWords ws, ?_,
    parsed_exprs hok, hex, rfl, rfl, rfl, rfl, rfl, rfl, hws, sortWords_perm ws, sortWords_sorted ws⟩
  unfold QueryAst.ofText
  rw [splitLines_of_lines hl, ← h0, hrun, parseLines, hw]
  simp only [Except.bind, hp, hex, orCrash, Except.map, List.nil_append, Option.map]
  rfl

/-! ### Errors -/

theorem parseLines_append (U : Unicode) : ∀ (a b : List (List Char)) (i : Nat) (st : ParseState),
    parseLines U i (a ++ b) st = (parseLines U i a st).bind (parseLines U (i + a.length) b)
  | [], b, i, st => rfl
  | l :: a, b, i, st => by
    rw [List.cons_append, parseLines, parseLines]
    cases parseLine U st i l with
    | error e => rfl
    | ok s =>
      show parseLines U (i + 1) (a ++ b) s = (parseLines U (i + 1) a s).bind _
      rw [parseLines_append U a b, List.length_cons, Nat.add_assoc, Nat.add_comm 1]

theorem parseLine_error {U : Unicode} {st : ParseState} {i n : Nat} {line : List Char}
    (h : parseLine U st i line = .error (.syntax n)) :
    n = i + 1 ∧ st.wordlist = none ∧ Peg.parse .query (applyMacros st.macros line) = some none := by
  unfold parseLine at h
  split at h
  · cases h
  · rename_i hw
    split at h
    · cases h
    · rename_i hp
      injection h with h
      injection h with h
      exact ⟨h.symm, hw, hp⟩
    · split at h
      · cases h
      · revert h
        generalize lineNode st _ = r
        cases r <;> simp [orCrash]

theorem parseLines_error {U : Unicode} : ∀ (raw : List (List Char)) (i n : Nat) (st : ParseState),
    parseLines U i raw st = .error (.syntax n) →
    ∃ a r b s, raw = a ++ r :: b ∧ n = i + a.length + 1 ∧ parseLines U i a st = .ok s ∧
      parseLine U s (i + a.length) r = .error (.syntax n)
  | [], i, n, st, h => by cases h
  | l :: raw, i, n, st, h => by
    rw [parseLines] at h
    revert h
    generalize hp : parseLine U st i l = r
    cases r with
    | error e =>
      intro h
      have he : e = .syntax n := by simpa [Except.bind] using h
      subst he
      exact ⟨[], l, raw, st, rfl, (parseLine_error hp).1, rfl, hp⟩
    | ok s =>
      intro h
      obtain ⟨a, r, b, s', h1, h2, h3, h4⟩ := parseLines_error raw (i + 1) n s h
      refine ⟨l :: a, r, b, s', by rw [h1]; rfl, by rw [h2, List.length_cons]; omega, ?_, ?_⟩
      · rw [parseLines, hp]; exact h3
      · rw [List.length_cons, show i + (a.length + 1) = i + 1 + a.length by omega]; exact h4

/-- C34: the number in a syntax error is that of the first line that cannot be read (from 1): the lines before it are a
query on their own; the lines up to and including it give the same error, whatever follows; and the line, after the
macros defined before it are replaced, is on its own a query of one line that cannot be read. -/
theorem C34_error {U : Unicode} {text : List Char} {raw : List (List Char)} {n : Nat} (hl : Lines text raw)
    (h : QueryAst.ofText U text = .error (.syntax n)) :
    1 ≤ n ∧ n ≤ raw.length ∧
    (∀ t, Lines t (raw.take (n - 1)) → ∃ q, QueryAst.ofText U t = .ok q) ∧
    (∀ t more, Lines t (raw.take n ++ more) → QueryAst.ofText U t = .error (.syntax n)) ∧
    (∀ t q r r', Lines t (raw.take (n - 1)) → QueryAst.ofText U t = .ok q → raw[n - 1]? = some r →
      Expanded q.macros r r' → Lines r' [r'] →
        QueryAst.ofText U r' = .error (.syntax 1)) := by
  have h0 : parseLines U 0 raw {} = .error (.syntax n) := by
    unfold QueryAst.ofText at h
    rw [splitLines_of_lines hl] at h
    revert h
    generalize parseLines U 0 raw {} = r
    cases r with
    | error e => intro h; simpa [Except.bind] using h
    | ok s =>
      intro h
      simp [Except.bind, expandExpressions_eq, orCrash, Except.map] at h
  obtain ⟨a, r, b, s, h1, h2, h3, h4⟩ := parseLines_error raw 0 n {} h0
  rw [Nat.zero_add] at h2 h4
  have hn : n - 1 = a.length := by omega
  have htake : raw.take (n - 1) = a := by rw [hn, h1]; simp
  have htake' : raw.take n = a ++ [r] := by
    rw [h2, h1, List.take_append, List.take_of_length_le (by omega)]
    simp
  have hall : ∀ t, Lines t a → QueryAst.ofText U t = (orCrash (expandExpressions s.expressions)).map fun es =>
      { macros := s.macros, expressions := es,
        options := { s.options with wordlist := s.wordlist.map sortWords } } := by
    intro t ht
    unfold QueryAst.ofText
    rw [splitLines_of_lines ht, h3]
    rfl
  refine ⟨by omega, by rw [h1, List.length_append, List.length_cons]; omega, ?_, ?_, ?_⟩
  · intro t ht
    rw [htake] at ht
    rw [hall t ht, expandExpressions_eq]
    exact ⟨_, rfl⟩
  · intro t more ht
    unfold QueryAst.ofText
    rw [splitLines_of_lines ht, htake', List.append_assoc, parseLines_append, h3]
    show (parseLines U (0 + a.length) ([r] ++ more) s).bind _ = _
    rw [List.singleton_append, parseLines, Nat.zero_add, h4]
    rfl
  · intro t q r2 r' ht hq hr he hl'
    rw [htake] at ht
    have hr2 : r2 = r := by
      rw [hn, h1, List.getElem?_append_right (Nat.le_refl _)] at hr
      simpa using hr.symm
    have hqm : q.macros = s.macros := by
      rw [hall t ht, expandExpressions_eq] at hq
      simp only [orCrash, Except.map, Except.ok.injEq] at hq
      rw [← hq]
    rw [hqm, hr2] at he
    have he' := (expanded_iff (parseLines_names a 0 {} s h3 (by intro m hm; cases hm))).1 he
    have hp := (parseLine_error h4).2.2
    rw [he'] at hp
    unfold QueryAst.ofText
    rw [splitLines_of_lines hl', parseLines, parseLine]
    show ((match Peg.parse .query r' with
        | none => .error (.crash .fuel)
        | some none => .error (.syntax (0 + 1))
        | some (some p) => _ : Except ParseError ParseState).bind _).bind _ = _
    rw [hp]
    rfl

theorem ofText_bad {U : Unicode} {r : List Char} (hl : Lines r [r]) :
    Peg.parse .query r = some none ↔ QueryAst.ofText U r = .error (.syntax 1) := by
  constructor
  · intro h
    unfold QueryAst.ofText
    rw [splitLines_of_lines hl, parseLines, parseLine]
    show ((match Peg.parse .query r with
        | none => .error (.crash .fuel)
        | some none => .error (.syntax (0 + 1))
        | some (some p) => _ : Except ParseError ParseState).bind _).bind _ = _
    rw [h]
    rfl
  · intro h
    unfold QueryAst.ofText at h
    rw [splitLines_of_lines hl, parseLines] at h
    revert h
    generalize hp : parseLine U {} 0 r = x
    cases x with
    | error e =>
      intro h
      have he : e = .syntax 1 := by simpa [Except.bind] using h
      subst he
      exact (parseLine_error hp).2.2
    | ok s =>
      intro h
      simp [Except.bind, parseLines, expandExpressions_eq, orCrash, Except.map] at h

/-- C34: a line that is, after the macros defined before it are replaced, not a query on its own, makes the query an
error with the number of that line, whatever follows it. -/
theorem C34_rejected {U : Unicode} {text : List Char} {raw rest : List (List Char)} {r r' : List Char} {ls : List Line}
    (hl : Lines text (raw ++ r :: rest)) (hs : Script [] raw ls) (hok : ∀ l ∈ ls, l.ok = true)
    (hr : Expanded (defsOf ls) r r') (h1 : Lines r' [r']) (h : QueryAst.ofText U r' = .error (.syntax 1)) :
    QueryAst.ofText U text = .error (.syntax (raw.length + 1)) := by
  have hrun := run_script (U := U) hs (by simp) hok 0 (r :: rest)
  rw [List.nil_append, Nat.zero_add] at hrun
  have h0 : stateAfter [] = {} := rfl
  have he := (expanded_iff (defsOf_names hok)).1 hr
  have hp := (ofText_bad h1).2 h
  unfold QueryAst.ofText
  rw [splitLines_of_lines hl, ← h0, hrun, parseLines, parseLine]
  show ((match Peg.parse .query (applyMacros (defsOf ls) r) with
        | none => .error (.crash .fuel)
        | some none => .error (.syntax (raw.length + 1))
        | some (some p) => _ : Except ParseError ParseState).bind _).bind _ = _
  rw [he, hp]
  rfl

/-! ### Examples -/

/-- The lines of a query that defines a macro and gives an option twice. -/
def sampleScript : List Line :=
  [.define 0 "AB".toList 1 "[xy]".toList 0, .words 0 "#words".toList 1 3 0, .blank 2,
   .limit 1 "#LIMIT".toList 1 7 0, .comment 1 '/' " a comment".toList, .words 0 "#Words".toList 1 4 1,
   .quiet 0 "#quiet".toList 0, .dict 0 "#dict".toList 1 "uk".toList 0,
   .expr 0 (.one (.cons (.cls false [.one 'x', .one 'y']) .star 0 (.last (.chr 'b') .none 0))) []]

/-- The same lines, as they are written. -/
def sampleRaw : List (List Char) := ["AB= [xy]".toList, "#words 3".toList, "  ".toList, " #LIMIT 7".toList,
  " // a comment".toList, "#Words 4 ".toList, "#quiet".toList, "#dict uk".toList, "AB*b".toList]

def sampleText : List Char :=
  "AB= [xy]\n#words 3;  \n #LIMIT 7\n // a comment\n#Words 4 ;#quiet\n#dict uk\nAB*b".toList

theorem sampleLines : Lines sampleText sampleRaw := lines_iff.2 (by decide +kernel)
theorem sampleOk : ∀ l ∈ sampleScript, l.ok = true := by
  have : sampleScript.all Line.ok = true := by decide +kernel
  exact List.all_eq_true.1 this

/-- An executable form of `Script`. -/
def scriptB (before : List Line) : List (List Char) → List Line → Bool
  | [], [] => true
  | r :: raw, l :: ls => l.ok && applyMacros (defsOf before) r == l.text && scriptB (before ++ [l]) raw ls
  | _, _ => false

theorem script_of_scriptB : ∀ (raw : List (List Char)) (ls before : List Line), (∀ l ∈ before, l.ok = true) →
    scriptB before raw ls = true → Script before raw ls
  | [], [], _, _, _ => .nil
  | [], _ :: _, _, _, h => by simp [scriptB] at h
  | _ :: _, [], _, _, h => by simp [scriptB] at h
  | r :: raw, l :: ls, before, hb, h => by
    simp only [scriptB, Bool.and_eq_true, beq_iff_eq] at h
    refine .cons ((expanded_iff (defsOf_names hb)).2 h.1.2) (script_of_scriptB raw ls _ ?_ h.2)
    intro x hx
    rcases List.mem_append.1 hx with hx | hx
    · exact hb x hx
    · rw [List.mem_singleton] at hx; subst hx; exact h.1.1

theorem sampleScripted : Script [] sampleRaw sampleScript :=
  script_of_scriptB _ _ _ (by simp) (by decide +kernel)

example (U : Unicode) : ∃ es q, QueryAst.ofText U sampleText = .ok q ∧
    [ExprAst.ofText "[xy]*b".toList] = es.map (fun e => .ok (some e)) ∧ expandExpressions es = .ok q.expressions ∧
    q.options.maxWords = some 4 ∧ q.options.limit = some 7 ∧ q.options.dictionary = some "uk".toList ∧
    q.options.quiet = some true ∧ q.options.wordlist = none ∧ q.macros = [("AB".toList, "[xy]".toList)] :=
  C34_query sampleLines sampleScripted sampleOk

example (U : Unicode) : ∃ es q ws wl, QueryAst.ofText U (sampleText ++ "\n#WordList \n two \n\n(one".toList) = .ok q ∧
    [ExprAst.ofText "[xy]*b".toList] = es.map (fun e => .ok (some e)) ∧ expandExpressions es = .ok q.expressions ∧
    q.options.maxWords = some 4 ∧ q.options.limit = some 7 ∧ q.options.dictionary = some "uk".toList ∧
    q.options.quiet = some true ∧ q.macros = [("AB".toList, "[xy]".toList)] ∧
    q.options.wordlist = some wl ∧ Listed U 10 [" two ".toList, [], "(one".toList] ws ∧ wl.Perm ws ∧
      wl.Pairwise (fun x y => Word.cmp x y ≠ .gt) :=
  C34_wordlist (b := 0) (t := 1) (r := "#WordList ".toList) (key := "#WordList".toList) (lines_iff.2 (by decide +kernel)) sampleScripted sampleOk
    ((expanded_iff (defsOf_names sampleOk)).2 (by decide +kernel)) (by decide +kernel)

theorem rejects_of {r : List Char} (h : (Peg.parse .query r).map Option.isNone = some true) :
    Peg.parse .query r = some none := by
  revert h
  generalize Peg.parse .query r = x
  cases x with
  | none => simp
  | some y => cases y <;> simp

/-- A query with an error on its third line. -/
theorem sample_error (U : Unicode) : QueryAst.ofText U "a\n#words 2;(b\nc".toList = .error (.syntax 3) :=
  C34_rejected (raw := ["a".toList, "#words 2".toList]) (r := "(b".toList) (rest := ["c".toList]) (r' := "(b".toList)
    (ls := [.expr 0 (.one (.last (.chr 'a') .none 0)) [], .words 0 "#words".toList 1 2 0])
    (lines_iff.2 (by decide +kernel)) (script_of_scriptB _ _ _ (by simp) (by decide +kernel))
    (List.all_eq_true.1 (by decide +kernel)) .nil (lines_iff.2 (by decide +kernel))
    ((ofText_bad (lines_iff.2 (by decide +kernel))).1 (rejects_of (by decide +kernel)))

/-- C34: a comment without any text is not a comment, but a syntax error, be it on a line of its own or after an
expression. -/
theorem C34_empty_comment (U : Unicode) :
    QueryAst.ofText U "//".toList = .error (.syntax 1) ∧ QueryAst.ofText U "--".toList = .error (.syntax 1) ∧
    QueryAst.ofText U "ab //".toList = .error (.syntax 1) ∧ QueryAst.ofText U "#quiet --".toList = .error (.syntax 1) :=
  ⟨(ofText_bad (lines_iff.2 (by decide +kernel))).1 (rejects_of (by decide +kernel)),
   (ofText_bad (lines_iff.2 (by decide +kernel))).1 (rejects_of (by decide +kernel)),
   (ofText_bad (lines_iff.2 (by decide +kernel))).1 (rejects_of (by decide +kernel)),
   (ofText_bad (lines_iff.2 (by decide +kernel))).1 (rejects_of (by decide +kernel))⟩

/-- `C34_error` holds of it: the lines before the third are a query on their own. -/
example (U : Unicode) : ∃ q, QueryAst.ofText U "a;#words 2".toList = .ok q :=
  (C34_error (raw := ["a".toList, "#words 2".toList, "(b".toList, "c".toList]) (lines_iff.2 (by decide +kernel))
    (sample_error U)).2.2.1 _ (lines_iff.2 (by decide +kernel))

/-- A macro cannot be defined twice: its name is replaced by its value in the line of the second definition. -/
theorem C34_no_redefinition (U : Unicode) : QueryAst.ofText U "A=[xy]\nA=z".toList = .error (.syntax 2) :=
  C34_rejected (raw := ["A=[xy]".toList]) (r := "A=z".toList) (rest := []) (r' := "[xy]=z".toList)
    (ls := [.define 0 "A".toList 0 "[xy]".toList 0])
    (lines_iff.2 (by decide +kernel)) (script_of_scriptB _ _ _ (by simp) (by decide +kernel))
    (List.all_eq_true.1 (by decide +kernel))
    ((expanded_iff (defsOf_names (List.all_eq_true.1 (by decide +kernel)))).2 (by decide +kernel))
    (lines_iff.2 (by decide +kernel))
    ((ofText_bad (lines_iff.2 (by decide +kernel))).1 (rejects_of (by decide +kernel)))

end Noodle
