import Verif.Props.C59
import Verif.Model.Page
/-
C60: what the web page asks.
-/
namespace Noodle
open List Peg Spec
set_option autoImplicit false

/-! ### A query with lines in front of it -/

/-- The same, but for a default value. -/
def OrDefault {α : Type} (d : α) (x x' : Option α) : Prop := x' = x ∨ (x = none ∧ x' = some d)

/-- What the lines of the input do does not depend on the three lines before them. -/
structure Rel (name : List Char) (w n : Nat) (s s' : ParseState) : Prop where
  expressions : s'.expressions = s.expressions
  macros : s'.macros = s.macros
  words : OrDefault w s.options.maxWords s'.options.maxWords
  limit : OrDefault n s.options.limit s'.options.limit
  dict : s'.options.dictionary = some (s.options.dictionary.getD name)
  quiet : s'.options.quiet = s.options.quiet
  list : s'.wordlist.map (List.map Word.text) = s.wordlist.map (List.map Word.text)

theorem lineNode_rel {name : List Char} {w n : Nat} {s s' : ParseState} (h : Rel name w n s s') (p : Pair) :
    (∃ t t', lineNode s p = .ok t ∧ lineNode s' p = .ok t' ∧ Rel name w n t t') ∨
      ∃ c, lineNode s p = .error c ∧ lineNode s' p = .error c := by
  unfold lineNode
  split
  · cases hp : parseExpression p with
    | error c => exact .inr ⟨c, rfl, rfl⟩
    | ok e =>
      refine .inl ⟨_, _, rfl, rfl, ?_, h.macros, h.words, h.limit, h.dict, h.quiet, h.list⟩
      simp only [h.expressions]
  · exact .inl ⟨_, _, rfl, rfl, h.expressions, h.macros, .inl rfl, h.limit, h.dict, h.quiet, h.list⟩
  · exact .inl ⟨_, _, rfl, rfl, h.expressions, h.macros, h.words, h.limit, rfl, h.quiet, h.list⟩
  · exact .inl ⟨_, _, rfl, rfl, h.expressions, h.macros, h.words, .inl rfl, h.dict, h.quiet, h.list⟩
  · exact .inl ⟨_, _, rfl, rfl, h.expressions, h.macros, h.words, h.limit, h.dict, rfl, h.list⟩
  · exact .inl ⟨_, _, rfl, rfl, h.expressions, h.macros, h.words, h.limit, h.dict, h.quiet, rfl⟩
  · simp only
    split
    · refine .inl ⟨_, _, rfl, rfl, h.expressions, ?_, h.words, h.limit, h.dict, h.quiet, h.list⟩
      simp only [h.macros]
    · exact .inr ⟨_, rfl, rfl⟩
  · exact .inl ⟨_, _, rfl, rfl, h⟩

theorem parseLine_rel {U : Unicode} {name : List Char} {w n : Nat} {s s' : ParseState} (h : Rel name w n s s') (i : Nat)
    (l : List Char) :
    (∃ t t', parseLine U s i l = .ok t ∧ parseLine U s' (i + 3) l = .ok t' ∧ Rel name w n t t') ∨
      (parseLine U s i l = .error (.syntax (i + 1)) ∧ parseLine U s' (i + 3) l = .error (.syntax (i + 1 + 3))) ∨
      ∃ c, parseLine U s i l = .error (.crash c) ∧ parseLine U s' (i + 3) l = .error (.crash c) := by
  unfold parseLine
  have hl := h.list
  cases hs : s.wordlist with
  | some a =>
    rw [hs] at hl
    obtain ⟨b, hb⟩ : ∃ b, s'.wordlist = some b := by
      cases hb : s'.wordlist with
      | none => rw [hb] at hl; cases hl
      | some b => exact ⟨b, rfl⟩
    rw [hb]
    rw [hb] at hl
    have hl : b.map Word.text = a.map Word.text := by simpa using hl
    left
    refine ⟨_, _, rfl, rfl, ?_⟩
    split
    · exact h
    · refine ⟨h.expressions, h.macros, h.words, h.limit, h.dict, h.quiet, ?_⟩
      show some _ = some _
      rw [List.map_append, List.map_append, hl]
      rfl
  | none =>
    rw [hs] at hl
    have hb : s'.wordlist = none := by
      cases hb : s'.wordlist with
      | none => rfl
      | some b => rw [hb] at hl; cases hl
    rw [hb]
    simp only
    rw [h.macros]
    cases hp : parse .query (applyMacros s.macros l) with
    | none => exact .inr (.inr ⟨_, rfl, rfl⟩)
    | some r =>
      cases r with
      | none => exact .inr (.inl ⟨rfl, rfl⟩)
      | some p =>
        simp only
        cases hi : p.inner with
        | nil => exact .inl ⟨_, _, rfl, rfl, h⟩
        | cons q qs =>
          simp only
          rcases lineNode_rel h q with ⟨t, t', h1, h2, h3⟩ | ⟨c, h1, h2⟩
          · rw [h1, h2]; exact .inl ⟨t, t', rfl, rfl, h3⟩
          · rw [h1, h2]; exact .inr (.inr ⟨c, rfl, rfl⟩)

theorem parseLines_rel {U : Unicode} {name : List Char} {w n : Nat} : ∀ (raw : List (List Char)) (i : Nat) {s s' : ParseState},
    Rel name w n s s' →
    (∃ t t', parseLines U i raw s = .ok t ∧ parseLines U (i + 3) raw s' = .ok t' ∧ Rel name w n t t') ∨
      (∃ m, parseLines U i raw s = .error (.syntax m) ∧ parseLines U (i + 3) raw s' = .error (.syntax (m + 3))) ∨
      ∃ c, parseLines U i raw s = .error (.crash c) ∧ parseLines U (i + 3) raw s' = .error (.crash c)
  | [], i, s, s', h => .inl ⟨s, s', rfl, rfl, h⟩
  | l :: raw, i, s, s', h => by
    rw [parseLines, parseLines]
    rcases parseLine_rel (U := U) h i l with ⟨t, t', h1, h2, h3⟩ | ⟨h1, h2⟩ | ⟨c, h1, h2⟩
    · rw [h1, h2]
      have := parseLines_rel (U := U) raw (i + 1) h3
      rw [show i + 1 + 3 = i + 3 + 1 by omega] at this
      exact this
    · rw [h1, h2]; exact .inr (.inl ⟨_, rfl, rfl⟩)
    · rw [h1, h2]; exact .inr (.inr ⟨_, rfl, rfl⟩)

/-! ### The text of the page -/

/-- The lines of the page before those of the input. -/
def pageLines (name : List Char) (w n : Nat) : List Line :=
  [.dict 0 "#dict".toList 1 name 0, .words 0 "#words".toList 1 w 0, .limit 0 "#limit".toList 1 n 0]

/-- The lines of the page after those of the input. -/
def pageEnd (custom : List Char) : List (List Char) := if custom = [] then [] else "#wordlist".toList :: splitLines custom

theorem lines_append {a b : List Char} {as bs : List (List Char)} (ha : Lines a as) (hb : Lines b bs) :
    Lines (a ++ '\n' :: b) (as ++ bs) := by
  induction ha with
  | last h1 h2 => exact .cons h1 h2 (.inl rfl) hb
  | cons h1 h2 hs _ ih =>
    rw [List.append_assoc, List.cons_append, List.cons_append]
    exact .cons h1 h2 hs ih

theorem line_number {key : String} (hk : '\n' ∉ key.toList ∧ ';' ∉ key.toList) (w : Nat) :
    Lines (key.toList ++ digits w) [key.toList ++ digits w] := by
  refine .last ?_ ?_ <;> rw [List.mem_append] <;> rintro (h | h)
  · exact hk.1 h
  · have := digits_digit w _ h; revert this; decide
  · exact hk.2 h
  · have := digits_digit w _ h; revert this; decide

theorem dict_line (name : List Char) : (Line.dict 0 "#dict".toList 1 name 0).text = "#dict ".toList ++ name := by
  simp only [Line.text, gap, List.replicate_zero, List.append_nil, List.nil_append]
  rfl

theorem page_lines {name : List Char} {w n : Nat} {input : List Char} {raw : List (List Char)}
    (hn : (Line.dict 0 "#dict".toList 1 name 0).ok = true) (hl : Lines input raw) (custom : List Char) :
    Lines (pageText name (digits w) (digits n) input custom) ((pageLines name w n).map Line.text ++ (raw ++ pageEnd custom)) := by
  have e1 : Lines ("#dict ".toList ++ name) ["#dict ".toList ++ name] := dict_line name ▸ lines_dict hn
  have e2 : Lines ("#words ".toList ++ digits w) ["#words ".toList ++ digits w] :=
    line_number (by constructor <;> decide +kernel) w
  have e3 : Lines ("#limit ".toList ++ digits n) ["#limit ".toList ++ digits n] :=
    line_number (by constructor <;> decide +kernel) n
  have t2 : (Line.words 0 "#words".toList 1 w 0).text = "#words ".toList ++ digits w := by
    simp only [Line.text, gap, List.replicate_zero, List.append_nil, List.nil_append]; rfl
  have t3 : (Line.limit 0 "#limit".toList 1 n 0).text = "#limit ".toList ++ digits n := by
    simp only [Line.text, gap, List.replicate_zero, List.append_nil, List.nil_append]; rfl
  have hend : Lines (input ++ if custom = [] then [] else "\n#wordlist\n".toList ++ custom) (raw ++ pageEnd custom) := by
    unfold pageEnd
    split
    · simpa using hl
    · have : Lines ("#wordlist".toList ++ '\n' :: custom) ("#wordlist".toList :: splitLines custom) :=
        .cons (by decide +kernel) (by decide +kernel) (.inl rfl) (lines_splitLines custom)
      have e : "\n#wordlist\n".toList ++ custom = '\n' :: ("#wordlist".toList ++ '\n' :: custom) := by
        rw [show "\n#wordlist\n".toList = '\n' :: ("#wordlist".toList ++ ['\n']) by decide +kernel]
        simp only [List.cons_append, List.append_assoc, List.nil_append]
      rw [e]
      exact lines_append hl this
  have := lines_append e1 (lines_append e2 (lines_append e3 hend))
  have hp : pageText name (digits w) (digits n) input custom = ("#dict ".toList ++ name) ++ '\n' :: (("#words ".toList ++ digits w) ++
      '\n' :: (("#limit ".toList ++ digits n) ++ '\n' :: (input ++ if custom = [] then [] else "\n#wordlist\n".toList ++ custom))) := by
    have nl : "\n".toList = ['\n'] := by decide +kernel
    unfold pageText
    simp only [nl]
    split <;> simp only [List.append_assoc, List.cons_append, List.nil_append, List.append_nil]
  rw [hp]
  simp only [pageLines, List.map_cons, List.map_nil, dict_line, t2, t3]
  exact this

theorem page_script {name : List Char} {w n : Nat} : Script [] ((pageLines name w n).map Line.text) (pageLines name w n) :=
  .cons .nil (.cons .nil (.cons .nil .nil))

theorem page_ok {name : List Char} {w n : Nat} (hn : (Line.dict 0 "#dict".toList 1 name 0).ok = true) (hw : w < 2 ^ 64)
    (hr : n < 2 ^ 64) : ∀ l ∈ pageLines name w n, l.ok = true := by
  intro l hl
  simp only [pageLines, List.mem_cons, List.not_mem_nil, or_false] at hl
  rcases hl with rfl | rfl | rfl
  · exact hn
  · simp only [Line.ok, Bool.and_eq_true, decide_eq_true_eq]; exact ⟨by decide +kernel, hw⟩
  · simp only [Line.ok, Bool.and_eq_true, decide_eq_true_eq]; exact ⟨by decide +kernel, hr⟩

theorem page_state {name : List Char} {w n : Nat} :
    Rel (name.filter fun c => c != '-' && c != ' ') w n {} (stateAfter (pageLines name w n)) :=
  ⟨rfl, rfl, .inr ⟨rfl, rfl⟩, .inr ⟨rfl, rfl⟩, rfl, rfl, rfl⟩

/-- What the page sends is read as the three lines, and then the input with the numbers of its lines three higher. -/
theorem page_run {U : Unicode} {name : List Char} {w n : Nat} {input : List Char}
    (hn : (Line.dict 0 "#dict".toList 1 name 0).ok = true) (hw : w < 2 ^ 64) (hr : n < 2 ^ 64) (custom : List Char) :
    parseLines U 0 (splitLines (pageText name (digits w) (digits n) input custom)) {} =
      (parseLines U 3 (splitLines input) (stateAfter (pageLines name w n))).bind
        (parseLines U (3 + (splitLines input).length) (pageEnd custom)) := by
  have hl := page_lines (w := w) (n := n) hn (lines_splitLines input) custom
  have hrun := run_script (U := U) (page_script (name := name) (w := w) (n := n)) (by simp) (page_ok hn hw hr) 0
    (splitLines input ++ pageEnd custom)
  have h0 : stateAfter [] = {} := rfl
  rw [List.nil_append, Nat.zero_add, List.length_map, show (pageLines name w n).length = 3 from rfl, h0] at hrun
  rw [splitLines_of_lines hl, hrun, parseLines_append]

theorem ofText_run {U : Unicode} {text : List Char} {s : ParseState} (h : parseLines U 0 (splitLines text) {} = .ok s) :
    ∃ es, expandExpressions s.expressions = .ok es ∧
      QueryAst.ofText U text = .ok ⟨s.macros, es, { s.options with wordlist := s.wordlist.map sortWords }⟩ := by
  refine ⟨_, expandExpressions_eq _, ?_⟩
  unfold QueryAst.ofText
  rw [h]
  simp only [Except.bind, expandExpressions_eq, orCrash, Except.map]

theorem ofText_run' {U : Unicode} {text : List Char} {q : QueryAst} (h : QueryAst.ofText U text = .ok q) :
    ∃ s, parseLines U 0 (splitLines text) {} = .ok s ∧ expandExpressions s.expressions = .ok q.expressions ∧
      q = ⟨s.macros, q.expressions, { s.options with wordlist := s.wordlist.map sortWords }⟩ := by
  cases hp : parseLines U 0 (splitLines text) {} with
  | error e =>
    unfold QueryAst.ofText at h
    rw [hp] at h
    cases h
  | ok s =>
    obtain ⟨es, h1, h2⟩ := ofText_run hp
    rw [h] at h2
    cases h2
    exact ⟨s, rfl, h1, rfl⟩

theorem ofText_run_error {U : Unicode} {text : List Char} {e : ParseError} :
    QueryAst.ofText U text = .error e ↔ parseLines U 0 (splitLines text) {} = .error e := by
  cases hp : parseLines U 0 (splitLines text) {} with
  | error e' =>
    unfold QueryAst.ofText
    rw [hp]
    constructor <;> (intro h; cases h; rfl)
  | ok s =>
    obtain ⟨es, h1, h2⟩ := ofText_run hp
    rw [h2]
    constructor <;> (intro h; cases h)

/-- C60: a syntax error in the input is reported with the number of its line, plus three; and a panic stays one. -/
theorem C60_error {U : Unicode} {name : List Char} {w n : Nat} {input : List Char}
    (hn : (Line.dict 0 "#dict".toList 1 name 0).ok = true) (hw : w < 2 ^ 64) (hr : n < 2 ^ 64) (custom : List Char) :
    (∀ k, QueryAst.ofText U input = .error (.syntax k) →
      QueryAst.ofText U (pageText name (digits w) (digits n) input custom) = .error (.syntax (k + 3))) ∧
    ∀ c, QueryAst.ofText U input = .error (.crash c) →
      QueryAst.ofText U (pageText name (digits w) (digits n) input custom) = .error (.crash c) := by
  have hrun := page_run (U := U) (input := input) hn hw hr custom
  rcases parseLines_rel (U := U) (splitLines input) 0 (page_state (name := name) (w := w) (n := n)) with
    ⟨t, t', h1, h2, h3⟩ | ⟨m, h1, h2⟩ | ⟨c, h1, h2⟩
  · constructor <;> (intro k hk; rw [ofText_run_error, h1] at hk; cases hk)
  · rw [Nat.zero_add] at h2
    rw [h2] at hrun
    constructor
    · intro k hk
      rw [ofText_run_error, h1] at hk
      cases hk
      rw [ofText_run_error, hrun]
      rfl
    · intro k hk
      rw [ofText_run_error, h1] at hk
      cases hk
  · rw [Nat.zero_add] at h2
    rw [h2] at hrun
    constructor
    · intro k hk
      rw [ofText_run_error, h1] at hk
      cases hk
    · intro k hk
      rw [ofText_run_error, h1] at hk
      cases hk
      rw [ofText_run_error, hrun]
      rfl

/-- What the page sends asks for the same as the input, but for the defaults: a word list, a phrase length and a
limit. -/
def SameButDefaults (name : List Char) (w n : Nat) (q q' : QueryAst) : Prop :=
  q'.expressions = q.expressions ∧ q'.macros = q.macros ∧ q'.options.quiet = q.options.quiet ∧
    OrDefault w q.options.maxWords q'.options.maxWords ∧ OrDefault n q.options.limit q'.options.limit ∧
    q'.options.dictionary = some (q.options.dictionary.getD name)

/-- C60: without a custom word list: for every input that is a query, what the page sends is the same query, where the
options that the input does not give are those of the page. If the input has a word list of its own, the words are the
same. -/
theorem C60_page {U : Unicode} {name : List Char} {w n : Nat} {input : List Char} {q : QueryAst}
    (hn : (Line.dict 0 "#dict".toList 1 name 0).ok = true) (hw : w < 2 ^ 64) (hr : n < 2 ^ 64)
    (hq : QueryAst.ofText U input = .ok q) :
    ∃ q', QueryAst.ofText U (pageText name (digits w) (digits n) input []) = .ok q' ∧
      SameButDefaults (name.filter fun c => c != '-' && c != ' ') w n q q' ∧
      (q.options.wordlist = none → q'.options.wordlist = none) ∧
      ∀ ws, q.options.wordlist = some ws → ∃ ws', q'.options.wordlist = some ws' ∧ (ws'.map Word.text).Perm (ws.map Word.text) := by
  have hrun := page_run (U := U) (input := input) hn hw hr []
  obtain ⟨s, hs, hx, he⟩ := ofText_run' hq
  rcases parseLines_rel (U := U) (splitLines input) 0 (page_state (name := name) (w := w) (n := n)) with
    ⟨t, t', h1, h2, h3⟩ | ⟨m, h1, h2⟩ | ⟨c, h1, h2⟩
  · rw [hs] at h1
    cases h1
    rw [Nat.zero_add] at h2
    rw [h2] at hrun
    obtain ⟨es, h4, h5⟩ := ofText_run (s := t') (by rw [hrun]; rfl)
    rw [h3.expressions, hx] at h4
    cases h4
    refine ⟨_, h5, ?_, ?_, ?_⟩
    · rw [he]
      exact ⟨rfl, h3.macros, h3.quiet, h3.words, h3.limit, h3.dict⟩
    · intro h
      rw [he] at h
      have hl := h3.list
      have h : s.wordlist.map sortWords = none := h
      have : s.wordlist = none := by simpa using h
      rw [this] at hl
      have : t'.wordlist = none := by simpa using hl
      show t'.wordlist.map sortWords = none
      rw [this]; rfl
    · intro ws h
      rw [he] at h
      have h : s.wordlist.map sortWords = some ws := h
      obtain ⟨a, ha, rfl⟩ := Option.map_eq_some_iff.1 h
      have hl := h3.list
      rw [ha] at hl
      obtain ⟨b, hb, hab⟩ := Option.map_eq_some_iff.1 hl
      refine ⟨sortWords b, by show t'.wordlist.map sortWords = _; rw [hb]; rfl, ?_⟩
      have e : b.map Word.text = a.map Word.text := hab
      exact ((sortWords_perm b).map _).trans (e ▸ ((sortWords_perm a).map _).symm)
  · rw [hs] at h1; cases h1
  · rw [hs] at h1; cases h1

theorem replaced_self {pat rep : List Char} : ∀ {l : List Char}, ¬ pat <:+: l → Replaced pat rep l l
  | [], _ => .nil
  | c :: l, h => .miss (fun hp => h hp.isInfix) (replaced_self fun hi => h (List.infix_cons hi))

theorem expanded_self {l : List Char} : ∀ {ds : List (List Char × List Char)}, (∀ d ∈ ds, ¬ d.1 <:+: l) → Expanded ds l l
  | [], _ => .nil
  | d :: ds, h => .cons (replaced_self (h d (by simp))) (expanded_self fun d hd => h d (List.mem_cons_of_mem _ hd))

/-- C60: with a custom word list: if the input has none itself, and no macro that it defines has a name that occurs in
`#wordlist`, then what the page sends is the same query with the defaults of the page, and the words are those of the lines
of the custom word list. -/
theorem C60_custom {U : Unicode} {name : List Char} {w n : Nat} {input : List Char} {q : QueryAst} {raw : List (List Char)}
    (hn : (Line.dict 0 "#dict".toList 1 name 0).ok = true) (hw : w < 2 ^ 64) (hr : n < 2 ^ 64)
    (hq : QueryAst.ofText U input = .ok q) (hnone : q.options.wordlist = none)
    (hm : ∀ d ∈ q.macros, ¬ d.1 <:+: "#wordlist".toList) {custom : List Char} (hc : custom ≠ []) (hraw : Lines input raw)
    {lines : List (List Char)} (hlines : Lines custom lines) :
    ∃ q' ws wl, QueryAst.ofText U (pageText name (digits w) (digits n) input custom) = .ok q' ∧
      SameButDefaults (name.filter fun c => c != '-' && c != ' ') w n q q' ∧
      q'.options.wordlist = some wl ∧ Listed U (raw.length + 4) lines ws ∧ wl.Perm ws := by
  have hrun := page_run (U := U) (input := input) hn hw hr custom
  obtain ⟨s, hs, hx, he⟩ := ofText_run' hq
  rcases parseLines_rel (U := U) (splitLines input) 0 (page_state (name := name) (w := w) (n := n)) with
    ⟨t, t', h1, h2, h3⟩ | ⟨m, h1, h2⟩ | ⟨c, h1, h2⟩
  · rw [hs] at h1
    cases h1
    rw [Nat.zero_add] at h2
    have hs' : s.wordlist = none := by
      rw [he] at hnone
      have h : s.wordlist.map sortWords = none := hnone
      simpa using h
    have ht' : t'.wordlist = none := by
      have hl := h3.list
      rw [hs'] at hl
      simpa using hl
    have hmac : t'.macros = q.macros := by rw [h3.macros, he]
    have hname : ∀ d ∈ t'.macros, d.1 ≠ [] := by
      rw [h3.macros]
      exact parseLines_names _ _ _ _ hs (by intro m h; cases h)
    have hexp := (expanded_iff hname).1 (expanded_self (l := "#wordlist".toList) (hmac ▸ hm))
    have hd : Does "#wordlist".toList fun st => { st with wordlist := some [] } := by
      have := does_wordlist 0 "#wordlist".toList 0 (by decide +kernel)
      simpa [gap] using this
    have hline : parseLine U t' (3 + (splitLines input).length) "#wordlist".toList = .ok { t' with wordlist := some [] } :=
      parseLine_does ht' hexp hd
    obtain ⟨ws, hws, hp⟩ := run_listed U lines (3 + (splitLines input).length + 1) { t' with wordlist := some [] } [] rfl
    have hend : pageEnd custom = "#wordlist".toList :: lines := by
      unfold pageEnd
      rw [if_neg hc, splitLines_of_lines hlines]
    rw [h2, hend] at hrun
    have hrun : _ = (parseLine U t' (3 + (splitLines input).length) "#wordlist".toList).bind
      (parseLines U (3 + (splitLines input).length + 1) lines) := hrun
    rw [hline] at hrun
    obtain ⟨es, h4, h5⟩ := ofText_run (hrun.trans hp)
    have h4 : expandExpressions t'.expressions = .ok es := h4
    rw [h3.expressions, hx] at h4
    cases h4
    refine ⟨_, ws, sortWords ws, h5, ?_, rfl, ?_, sortWords_perm ws⟩
    · rw [he]
      exact ⟨rfl, h3.macros, h3.quiet, h3.words, h3.limit, h3.dict⟩
    · rw [splitLines_of_lines hraw] at hws
      rw [show raw.length + 4 = 3 + raw.length + 1 by omega]
      exact hws
  · rw [hs] at h1; cases h1
  · rw [hs] at h1; cases h1

/-- C60: the defaults of the page hold exactly if no line of the input gives the option. -/
theorem C60_defaults {U : Unicode} {name : List Char} {w n : Nat} {input : List Char} {raw : List (List Char)} {ls : List Line}
    (hn : (Line.dict 0 "#dict".toList 1 name 0).ok = true) (hw : w < 2 ^ 64) (hr : n < 2 ^ 64) (hl : Lines input raw)
    (hs : Script [] raw ls) (hok : ∀ l ∈ ls, l.ok = true) :
    ∃ q', QueryAst.ofText U (pageText name (digits w) (digits n) input []) = .ok q' ∧
      q'.options.maxWords = some ((lastSome Line.givesWords ls).getD w) ∧
      q'.options.limit = some ((lastSome Line.givesLimit ls).getD n) ∧
      q'.options.dictionary = some ((lastSome Line.givesDict ls).getD (name.filter fun c => c != '-' && c != ' ')) := by
  have hscript : ∀ {before : List Line} {raw : List (List Char)} {ls : List Line}, Script before raw ls →
      Script (pageLines name w n ++ before) raw ls := by
    intro before raw ls h
    induction h with
    | nil => exact .nil
    | cons he _ ih => exact .cons he (by rw [List.append_assoc]; exact ih)
  have hfull : Script [] ((pageLines name w n).map Line.text ++ (raw ++ pageEnd [])) (pageLines name w n ++ ls) := by
    have h1 : Script (pageLines name w n) raw ls := by simpa using hscript hs
    have e : raw ++ pageEnd [] = raw := by simp [pageEnd]
    rw [e]
    exact .cons .nil (.cons .nil (.cons .nil h1))
  obtain ⟨es, q, h1, _, _, h2, h3, h4, _⟩ := C34_query (U := U) (page_lines (w := w) (n := n) hn hl []) hfull
    (by intro l hl; rcases List.mem_append.1 hl with h | h
        · exact page_ok hn hw hr l h
        · exact hok l h)
  refine ⟨q, h1, ?_, ?_, ?_⟩
  · rw [h2]
    show (((lastSome Line.givesWords ls).or _).or _).or _ = _
    cases lastSome Line.givesWords ls <;> rfl
  · rw [h3]
    show (((lastSome Line.givesLimit ls).or _).or _).or _ = _
    cases lastSome Line.givesLimit ls <;> rfl
  · rw [h4]
    show (((lastSome Line.givesDict ls).or _).or _).or _ = _
    cases lastSome Line.givesDict ls <;> rfl

/-- C60, the condition on the macros is needed: a macro called `w` makes every custom word list a syntax error in a line
that the user did not write. -/
theorem C60_counterexample (U : Unicode) {name : List Char} {w n : Nat} (hn : (Line.dict 0 "#dict".toList 1 name 0).ok = true)
    (hw : w < 2 ^ 64) (hr : n < 2 ^ 64) :
    (∃ q, QueryAst.ofText U "w=[ab]".toList = .ok q ∧ q.options.wordlist = none) ∧
    ∀ custom, custom ≠ [] →
      QueryAst.ofText U (pageText name (digits w) (digits n) "w=[ab]".toList custom) = .error (.syntax 5) := by
  have hl : Lines "w=[ab]".toList ["w=[ab]".toList] := lines_iff.2 (by decide +kernel)
  have hs : Script [] ["w=[ab]".toList] [.define 0 "w".toList 0 "[ab]".toList 0] :=
    script_of_scriptB _ _ _ (by simp) (by decide +kernel)
  have hok : ∀ l ∈ [Line.define 0 "w".toList 0 "[ab]".toList 0], l.ok = true := List.all_eq_true.1 (by decide +kernel)
  constructor
  · obtain ⟨es, q, h1, _, _, _, _, _, _, h2, _⟩ := C34_query (U := U) hl hs hok
    exact ⟨q, h1, h2⟩
  · intro custom hc
    have hlp := page_lines (w := w) (n := n) hn hl custom
    have e : (pageLines name w n).map Line.text ++ (["w=[ab]".toList] ++ pageEnd custom) =
        ((pageLines name w n).map Line.text ++ ["w=[ab]".toList]) ++ "#wordlist".toList :: splitLines custom := by
      rw [pageEnd, if_neg hc, List.append_assoc]
    rw [e] at hlp
    have hfull : Script [] ((pageLines name w n).map Line.text ++ ["w=[ab]".toList])
        (pageLines name w n ++ [.define 0 "w".toList 0 "[ab]".toList 0]) :=
      .cons .nil (.cons .nil (.cons .nil (.cons .nil .nil)))
    exact C34_rejected (r' := "#[ab]ordlist".toList) hlp hfull
      (by intro l hl; rcases List.mem_append.1 hl with h | h
          · exact page_ok hn hw hr l h
          · exact hok l h)
      (by
        have : defsOf (pageLines name w n ++ [.define 0 "w".toList 0 "[ab]".toList 0]) = [("w".toList, "[ab]".toList)] := by rfl
        rw [this]
        exact (expanded_iff (by simp)).2 (by decide +kernel))
      (lines_iff.2 (by decide +kernel)) ((ofText_bad (lines_iff.2 (by decide +kernel))).1 (rejects_of (by decide +kernel)))

/-- A page with the list `default`, phrases of three words, and a hundred results. -/
example (U : Unicode) : ∃ q', QueryAst.ofText U (pageText "default".toList (digits 3) (digits 100) "ab*\n#limit 7".toList []) = .ok q' ∧
    q'.options.maxWords = some 3 ∧ q'.options.limit = some 7 ∧ q'.options.dictionary = some "default".toList := by
  obtain ⟨q, h1, h2, h3, h4⟩ := C60_defaults (U := U) (name := "default".toList) (w := 3) (n := 100)
    (input := "ab*\n#limit 7".toList) (raw := ["ab*".toList, "#limit 7".toList])
    (ls := [.expr 0 (.one (.cons (.chr 'a') .none 0 (.last (.chr 'b') .star 0))) [], .limit 0 "#limit".toList 1 7 0])
    (by decide +kernel) (by decide) (by decide) (lines_iff.2 (by decide +kernel))
    (script_of_scriptB _ _ _ (by simp) (by decide +kernel)) (List.all_eq_true.1 (by decide +kernel))
  exact ⟨q, h1, h2, h3, by rw [h4]; decide +kernel⟩

/-- And one with a custom word list. -/
example (U : Unicode) : ∃ q' ws wl,
    QueryAst.ofText U (pageText "default".toList (digits 3) (digits 100) "#quiet".toList "one\ntwo".toList) = .ok q' ∧
    q'.options.wordlist = some wl ∧ Listed U 5 ["one".toList, "two".toList] ws ∧ wl.Perm ws := by
  obtain ⟨es, q, h1, _, _, _, _, _, _, h2, h3⟩ := C34_query (U := U) (text := "#quiet".toList) (raw := ["#quiet".toList])
    (ls := [.quiet 0 "#quiet".toList 0]) (lines_iff.2 (by decide +kernel)) (script_of_scriptB _ _ _ (by simp) (by decide +kernel))
    (List.all_eq_true.1 (by decide +kernel))
  obtain ⟨q', ws, wl, h4, _, h5, h6, h7⟩ := C60_custom (U := U) (name := "default".toList) (w := 3) (n := 100)
    (raw := ["#quiet".toList]) (lines := ["one".toList, "two".toList]) (custom := "one\ntwo".toList)
    (by decide +kernel) (by decide) (by decide) h1 h2 (by rw [h3]; intro d hd; cases hd) (by decide +kernel)
    (lines_iff.2 (by decide +kernel)) (lines_iff.2 (by decide +kernel))
  exact ⟨q', ws, wl, h4, h5, h6, h7⟩

end Noodle
