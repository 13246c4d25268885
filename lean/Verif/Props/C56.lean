import Verif.Proofs.Case
import Verif.Props.C46
/-
C56: the case of the letters of a query does not matter.
-/
namespace Noodle
open Peg Spec
set_option autoImplicit false

/-! ### From nodes to the syntax tree -/

theorem CasePair.rule {p p' : Pair} (h : CasePair p p') : p.rule = p'.rule := by cases h; rfl
theorem CasePair.text {p p' : Pair} (h : CasePair p p') : Alike p.text p'.text := by cases h; assumption
theorem CasePair.inner {p p' : Pair} (h : CasePair p p') : CasePairs p.inner p'.inner := by cases h; assumption
theorem CasePair.range {p p' : Pair} (h : CasePair p p') (hr : p.rule = .letterRange) : SameRange p.text p'.text := by
  cases h with
  | mk r ht hs hi => exact hs hr

theorem Alike.digits {t t' : List Char} (h : List.Forall₂ EqC t t') (hd : t.all Char.isDigit = true) : t = t' := by
  induction h with
  | nil => rfl
  | cons h _ ih =>
    simp only [List.all_cons, Bool.and_eq_true] at hd
    rw [h.eq (digit_not_alpha hd.1), ih hd.2]

theorem Alike.allDigits {t t' : List Char} (h : List.Forall₂ EqC t t') : t.all Char.isDigit = t'.all Char.isDigit := by
  induction h with
  | nil => rfl
  | cons h _ ih => rw [List.all_cons, List.all_cons, h.digit, ih]

theorem parseUsize_case {t t' : List Char} (h : Alike t t') : parseUsize t = parseUsize t' := by
  have e := Alike.allDigits h.eqc
  by_cases hd : t.all Char.isDigit = true
  · rw [Alike.digits h.eqc hd]
  · have hd' := hd
    rw [e] at hd'
    unfold parseUsize
    rw [if_neg (by simp [hd]), if_neg (by simp [hd'])]

theorem parseNumbers_case : ∀ {ps ps' : List Pair}, CasePairs ps ps' → parseNumbers ps = parseNumbers ps'
  | _, _, .nil => rfl
  | _, _, .cons h hs => by
    have ih := parseNumbers_case hs
    unfold parseNumbers at ih ⊢
    rw [List.filterMap_cons, List.filterMap_cons, ih, h.rule, parseUsize_case h.text]

theorem chars_case {t t' : List Char} (h : List.Forall₂ EqC t t') : t.map chOfChar = t'.map chOfChar := by
  induction h with
  | nil => rfl
  | cons h _ ih => rw [List.map_cons, List.map_cons, h.ch, ih]

theorem parseAnagram_case {ps ps' : List Pair} (h : CasePairs ps ps') : parseAnagram ps = parseAnagram ps' := by
  cases h with
  | nil => rfl
  | cons h hs => simp only [parseAnagram, h.rule, chars_case h.text.eqc, parseNumbers_case hs]

theorem ofChar_case {c d : Char} (h : EqC c d) : CharSet.ofChar c = CharSet.ofChar d := by
  unfold CharSet.ofChar
  rw [h.ch]

theorem head_case {t t' : List Char} (h : Alike t t') :
    (t.head? = none ∧ t'.head? = none) ∨ ∃ c d, t.head? = some c ∧ t'.head? = some d ∧ EqC c d := by
  have := h.length
  cases t <;> cases t' <;> simp at this
  · exact .inl ⟨rfl, rfl⟩
  · exact .inr ⟨_, _, rfl, rfl, h.head⟩

theorem get_case {t t' : List Char} (h : Alike t t') (i : Nat) :
    (t[i]? = none ∧ t'[i]? = none) ∨ ∃ c d, t[i]? = some c ∧ t'[i]? = some d := by
  have := h.length
  by_cases hi : i < t.length
  · exact .inr ⟨_, _, List.getElem?_eq_getElem hi, List.getElem?_eq_getElem (this ▸ hi)⟩
  · exact .inl ⟨List.getElem?_eq_none (by omega), List.getElem?_eq_none (by omega)⟩

theorem classItem_case (st : Bool × CharSet) {p p' : Pair} (h : CasePair p p') : classItem st p = classItem st p' := by
  unfold classItem
  rw [← h.rule]
  split
  · rfl
  · next hr =>
    rcases get_case h.text 0 with ⟨h1, h2⟩ | ⟨lo, lo', h1, h2⟩
    · rw [h1, h2]
    rcases get_case h.text 2 with ⟨h3, h4⟩ | ⟨hi, hi', h3, h4⟩
    · rw [h1, h2, h3, h4]
    rw [h1, h2, h3, h4]
    simp only [h.range hr lo hi lo' hi' h1 h3 h2 h4]
  · rcases head_case h.text with ⟨h1, h2⟩ | ⟨c, d, h1, h2, h3⟩
    · rw [h1, h2]
    · rw [h1, h2]; simp only [ofChar_case h3]
  · rfl

theorem foldlM_case {σ : Type} {f : σ → Pair → Except Crash σ} (hf : ∀ st p p', CasePair p p' → f st p = f st p') :
    ∀ {ps ps' : List Pair} (st : σ), CasePairs ps ps' → ps.foldlM f st = ps'.foldlM f st
  | _, _, _, .nil => rfl
  | _, _, st, .cons h hs => by
    rw [List.foldlM_cons, List.foldlM_cons, hf st _ _ h]
    congr 1
    funext st'
    exact foldlM_case hf st' hs

theorem parseClass_case {ps ps' : List Pair} (h : CasePairs ps ps') : parseClass ps = parseClass ps' := by
  unfold parseClass
  cases h with
  | nil => rfl
  | cons h hs =>
    simp only [← h.rule]
    split
    · simp only [foldlM_case classItem_case _ hs]
    · simp only [foldlM_case classItem_case _ (CasePairs.cons h hs)]

theorem parseAnagramTerm_case (r : Rule) {ps ps' : List Pair} (h : CasePairs ps ps') :
    parseAnagramTerm r ps = parseAnagramTerm r ps' := by
  unfold parseAnagramTerm
  rw [parseAnagram_case h]

mutual
theorem parseTerm_case : ∀ {p p' : Pair}, CasePair p p' → parseTerm p = parseTerm p'
  | _, _, .mk r ht hr hi => by
    have e1 := parseTerms_case hi
    have e2 : ∀ r, parseRepeat r _ = parseRepeat r _ := fun r => parseRepeat_case r hi
    cases r <;> simp only [parseTerm, parseClass_case hi, e1, e2, parseAnagramTerm_case _ hi, parseUsize_case ht]
    rcases head_case ht with ⟨h1, h2⟩ | ⟨c, d, h1, h2, h3⟩
    · rw [h1, h2]
    · rw [h1, h2]; simp only [ofChar_case h3]
theorem parseRepeat_case : ∀ (r : Rule) {ps ps' : List Pair}, CasePairs ps ps' → parseRepeat r ps = parseRepeat r ps'
  | _, _, _, .nil => rfl
  | r, _, _, .cons h hs => by
    rw [parseRepeat, parseRepeat, parseTerm_case h, parseNumbers_case hs]
theorem parseTerms_case : ∀ {ps ps' : List Pair}, CasePairs ps ps' → parseTerms ps = parseTerms ps'
  | _, _, .nil => rfl
  | _, _, .cons h hs => by
    rw [parseTerms, parseTerms, parseTerm_case h, parseTerms_case hs]
end

theorem parseOption_case (o : ExprOptions) (p p' : Pair) (h : CasePair p p') : parseOption o p = parseOption o p' := by
  unfold parseOption
  rw [← h.rule, parseNumbers_case h.inner]

theorem parseExpression_case {p p' : Pair} (h : CasePair p p') : parseExpression p = parseExpression p' := by
  unfold parseExpression
  rw [← h.rule]
  split
  · rfl
  · have hi := h.inner
    generalize p.inner = i at hi ⊢
    generalize p'.inner = i' at hi ⊢
    cases hi with
    | nil => rfl
    | cons h hs =>
      simp only [← h.rule, parseTerm_case h, parseOptions, foldlM_case parseOption_case _ hs]

theorem alike_of_same {l l' : List Char} (h : SameUpToCase l l') (h1 : PlainRanges l) (h2 : PlainRanges l') : Alike l l' := by
  refine ⟨?_, h1, h2⟩
  unfold SameUpToCase at h
  clear h1 h2
  induction l generalizing l' with
  | nil =>
    cases l' with
    | nil => exact .nil
    | cons d l' => simp at h
  | cons c l ih =>
    cases l' with
    | nil => simp at h
    | cons d l' =>
      rw [List.map_cons, List.map_cons, List.cons.injEq] at h
      exact .cons h.1 (ih h.2)

/-- **C56.** Two expressions that differ only in the case of letters are read alike: as the same expression, or both as
errors. -/
theorem C56_expression {l l' : List Char} (h : SameUpToCase l l') (h1 : PlainRanges l) (h2 : PlainRanges l') :
    ExprAst.ofText l = ExprAst.ofText l' := by
  unfold ExprAst.ofText
  rcases parse_case .expression (alike_of_same h h1 h2) with ⟨e1, e2⟩ | ⟨e1, e2⟩ | ⟨p, p', e1, e2, e3⟩
  · rw [e1, e2]
  · rw [e1, e2]
  · rw [e1, e2]; simp only [parseExpression_case e3]

/-! ### Queries -/

theorem alike_split : ∀ {l l' : List Char}, List.Forall₂ EqC l l' →
    List.Forall₂ (List.Forall₂ EqC) (splitLines l) (splitLines l')
  | _, _, .nil => .cons .nil .nil
  | c :: cs, d :: ds, .cons h hs => by
    have ih := alike_split hs
    have e : (c = '\n' ∨ c = ';') ↔ (d = '\n' ∨ d = ';') := by
      constructor
      · rintro (rfl | rfl)
        · exact .inl (h.eq (by decide)).symm
        · exact .inr (h.eq (by decide)).symm
      · rintro (rfl | rfl)
        · exact .inl (h.symm.eq (by decide)).symm
        · exact .inr (h.symm.eq (by decide)).symm
    rw [splitLines, splitLines]
    by_cases hc : c = '\n' ∨ c = ';'
    · rw [if_pos hc, if_pos (e.1 hc)]; exact .cons .nil ih
    · rw [if_neg hc, if_neg (fun h' => hc (e.2 h'))]
      generalize splitLines cs = x at ih ⊢
      generalize splitLines ds = x' at ih ⊢
      cases ih with
      | nil => exact .cons (.cons h .nil) .nil
      | cons h1 h2 => exact .cons (.cons h h1) h2

theorem lines_infix {l : List Char} {ls : List (List Char)} (h : Lines l ls) : ∀ m ∈ ls, m <:+: l := by
  induction h with
  | last _ _ =>
    intro m hm
    rw [List.mem_singleton] at hm
    subst hm
    exact List.infix_rfl
  | @cons l t ls s _ _ _ _ ih =>
    intro m hm
    rcases List.mem_cons.1 hm with rfl | hm
    · exact (List.prefix_append _ _).isInfix
    · exact (ih m hm).trans ((List.suffix_cons s t).trans (List.suffix_append l (s :: t))).isInfix

theorem alike_lines {l l' : List Char} (h : Alike l l') : List.Forall₂ Alike (splitLines l) (splitLines l') := by
  have h1 := lines_infix (lines_splitLines l)
  have h2 := lines_infix (lines_splitLines l')
  have h3 := alike_split h.eqc
  generalize splitLines l = x at *
  generalize splitLines l' = x' at *
  induction h3 with
  | nil => exact .nil
  | cons h4 _ ih =>
    refine .cons ⟨h4, plain_infix h.plain (h1 _ (by simp)), plain_infix h.plain' (h2 _ (by simp))⟩ ?_
    exact ih (fun m hm => h1 m (by simp [hm])) fun m hm => h2 m (by simp [hm])

/-- No macro, no dictionary, no word list so far. -/
def Neutral (st : ParseState) : Prop := st.macros = [] ∧ st.options.dictionary = none ∧ st.wordlist = none

theorem insertMacro_ne (n v : List Char) : ∀ ms, insertMacro n v ms ≠ []
  | [] => by simp [insertMacro]
  | (n', v') :: ms => by rw [insertMacro]; split <;> simp

theorem lineNode_neutral {st st' : ParseState} {p : Pair} (h : lineNode st p = .ok st') (hn : Neutral st') :
    Neutral st ∧ p.rule ≠ .pragmaDict ∧ p.rule ≠ .macroDefine := by
  unfold lineNode at h
  split at h
  · next hr =>
    rw [hr]
    cases he : parseExpression p with
    | error c => rw [he] at h; cases h
    | ok e => rw [he] at h; cases h; exact ⟨hn, by simp, by simp⟩
  · next hr => rw [hr]; cases h; exact ⟨hn, by simp, by simp⟩
  · next hr => cases h; exact absurd hn.2.1 (by simp)
  · next hr => rw [hr]; cases h; exact ⟨hn, by simp, by simp⟩
  · next hr => rw [hr]; cases h; exact ⟨hn, by simp, by simp⟩
  · next hr => cases h; exact absurd hn.2.2 (by simp)
  · next hr =>
    simp only at h
    split at h
    · cases h; exact absurd hn.1 (insertMacro_ne _ _ _)
    · cases h
  · next h1 h2 h3 h4 h5 h6 h7 => cases h; exact ⟨hn, h3, h7⟩

theorem lineNode_case {st : ParseState} {p p' : Pair} (h : CasePair p p') (h1 : p.rule ≠ .pragmaDict)
    (h2 : p.rule ≠ .macroDefine) : lineNode st p = lineNode st p' := by
  unfold lineNode
  rw [← h.rule]
  split
  · rw [parseExpression_case h]
  · rw [parseNumbers_case h.inner]
  · next hr => exact absurd hr h1
  · rw [parseNumbers_case h.inner]
  · rfl
  · rfl
  · next hr => exact absurd hr h2
  · rfl

theorem parseLine_neutral {U : Unicode} {st st' : ParseState} {i : Nat} {l : List Char}
    (h : parseLine U st i l = .ok st') (hn : Neutral st') : Neutral st := by
  unfold parseLine at h
  split at h
  · next wl hw =>
    cases h
    split at hn
    · exact hn
    · exact absurd hn.2.2 (by simp)
  · split at h
    · cases h
    · cases h
    · next p _ =>
      split at h
      · cases h; exact hn
      · next q _ _ =>
        cases he : lineNode st q with
        | error c => rw [he] at h; cases h
        | ok s => rw [he] at h; cases h; exact (lineNode_neutral he hn).1

theorem parseLine_case {U : Unicode} {st st' : ParseState} {i : Nat} {l l' : List Char} (hl : Alike l l')
    (h : parseLine U st i l = .ok st') (hn : Neutral st') : parseLine U st i l' = .ok st' := by
  have hs := parseLine_neutral h hn
  unfold parseLine at h ⊢
  rw [hs.2.2, hs.1] at h ⊢
  simp only [applyMacros, List.foldl_nil] at h ⊢
  rcases parse_case .query hl with ⟨e1, e2⟩ | ⟨e1, e2⟩ | ⟨p, p', e1, e2, e3⟩
  · rw [e1] at h; cases h
  · rw [e1] at h; cases h
  · rw [e1] at h
    rw [e2]
    simp only at h ⊢
    have hi := e3.inner
    generalize p.inner = x at hi h ⊢
    generalize p'.inner = x' at hi ⊢
    cases hi with
    | nil => exact h
    | @cons q q' _ _ h1 h2 =>
      simp only at h ⊢
      cases he : lineNode st q with
      | error c => rw [he] at h; cases h
      | ok s =>
        rw [he] at h
        cases h
        obtain ⟨_, g1, g2⟩ := lineNode_neutral he hn
        rw [← lineNode_case h1 g1 g2, he]
        rfl

theorem parseLines_neutral {U : Unicode} : ∀ {ls : List (List Char)} {i : Nat} {st st' : ParseState},
    parseLines U i ls st = .ok st' → Neutral st' → Neutral st
  | [], _, _, _, h, hn => by cases h; exact hn
  | l :: ls, i, st, st', h, hn => by
    rw [parseLines] at h
    cases hp : parseLine U st i l with
    | error e => rw [hp] at h; cases h
    | ok s => rw [hp] at h; exact parseLine_neutral hp (parseLines_neutral (ls := ls) h hn)

theorem parseLines_case {U : Unicode} : ∀ {ls ls' : List (List Char)} {i : Nat} {st st' : ParseState},
    List.Forall₂ Alike ls ls' → parseLines U i ls st = .ok st' → Neutral st' → parseLines U i ls' st = .ok st'
  | _, _, _, _, _, .nil, h, _ => h
  | l :: ls, l' :: ls', i, st, st', .cons hl hls, h, hn => by
    rw [parseLines] at h ⊢
    cases hp : parseLine U st i l with
    | error e => rw [hp] at h; cases h
    | ok s =>
      rw [hp] at h
      rw [parseLine_case hl hp (parseLines_neutral (ls := ls) h hn)]
      exact parseLines_case (ls := ls) hls h hn

theorem ofText_case {U : Unicode} {l l' : List Char} {q : QueryAst} (h : Alike l l')
    (hq : QueryAst.ofText U l = .ok q) (hm : q.macros = []) (hd : q.options.dictionary = none)
    (hw : q.options.wordlist = none) : QueryAst.ofText U l' = .ok q := by
  unfold QueryAst.ofText at hq ⊢
  cases hp : parseLines U 0 (splitLines l) {} with
  | error e => rw [hp] at hq; cases hq
  | ok st =>
    rw [hp] at hq
    simp only [Except.bind] at hq
    cases he : orCrash (expandExpressions st.expressions) with
    | error e => rw [he] at hq; cases hq
    | ok es =>
      have hq' := hq
      rw [he] at hq'
      cases hq'
      have hn : Neutral st := ⟨hm, hd, by simpa using hw⟩
      rw [parseLines_case (alike_lines h) hp hn]
      exact hq

/-- **C56.** The same for queries, as long as they define no macro (their names are matched letter by letter) and name
no dictionary and no word list of their own: `#LIMIT`, `#Quiet` and the rest are understood in any case. -/
theorem C56_query {U : Unicode} {l l' : List Char} {q : QueryAst} (h : SameUpToCase l l') (h1 : PlainRanges l)
    (h2 : PlainRanges l') (hm : q.macros = []) (hd : q.options.dictionary = none) (hw : q.options.wordlist = none) :
    QueryAst.ofText U l = .ok q ↔ QueryAst.ofText U l' = .ok q :=
  ⟨fun hq => ofText_case (alike_of_same h h1 h2) hq hm hd hw,
    fun hq => ofText_case (alike_of_same h h1 h2).symm hq hm hd hw⟩

/-- **C56.** What the HTTP server answers to such a query does not depend on the case. -/
theorem C56_answer {U : Unicode} {l l' : List Char} {q : QueryAst} (h : SameUpToCase l l') (h1 : PlainRanges l)
    (h2 : PlainRanges l') (hq : QueryAst.ofText U l = .ok q) (hm : q.macros = []) (hd : q.options.dictionary = none)
    (hw : q.options.wordlist = none) (errorText : List Char → List Char) (ds : Dicts) (plaintext : Bool)
    (clks : List Clock) :
    syncBody U errorText ds l plaintext clks = syncBody U errorText ds l' plaintext clks := by
  have hq' := (C56_query h h1 h2 hm hd hw).1 hq
  unfold syncBody
  rw [hq, hq']

/-- **C56.** What the command line program prints does not depend on the case. -/
theorem C56_prints {U : Unicode} {l l' : List Char} {q : QueryAst} (h : SameUpToCase l l') (h1 : PlainRanges l)
    (h2 : PlainRanges l') (hq : QueryAst.ofText U l = .ok q) (hm : q.macros = []) (hd : q.options.dictionary = none)
    (hw : q.options.wordlist = none) (file : List Char) (count : Option Nat) (phraseLength calls : Nat) :
    cliRun U file count phraseLength l calls = cliRun U file count phraseLength l' calls := by
  have hq' := (C56_query h h1 h2 hm hd hw).1 hq
  unfold cliRun
  rw [hq, hq']

/-- The classes in a short expression. -/
def classesOf : Except Crash (Option ExprAst) → List Nat
  | .ok (some ⟨.seq l, _⟩) => l.map fun a => match a with
    | .cls c => c.toNat
    | _ => 0
  | _ => []

/-- Without the condition on ranges it fails: `[A-c]` takes every letter, `[a-c]` three. -/
theorem C56_counterexample : SameUpToCase "[A-c]".toList "[a-c]".toList ∧
    ExprAst.ofText "[A-c]".toList ≠ ExprAst.ofText "[a-c]".toList := by
  have h1 : classesOf (ExprAst.ofText "[A-c]".toList) ≠ classesOf (ExprAst.ofText "[a-c]".toList) := by decide +kernel
  have h2 : "[A-c]".toList.map Char.toLower = "[a-c]".toList.map Char.toLower := by decide +kernel
  exact ⟨h2, fun h => h1 (by rw [h])⟩

/-- A way to check `PlainRanges`: what follows one character. -/
def rangeCheck (x : Char) : List Char → Bool
  | d :: y :: _ => d != '-' || x.isUpper == y.isUpper
  | _ => true

/-- A way to check `PlainRanges`. -/
def plainCheck : List Char → Bool
  | [] => true
  | x :: l => rangeCheck x l && plainCheck l

theorem plainCheck_spec : ∀ {l : List Char}, plainCheck l = true → PlainRanges l
  | [], _ => fun x y h => absurd (List.infix_nil.1 h) (by simp)
  | c :: l, h => by
    rw [plainCheck, Bool.and_eq_true] at h
    intro x y hx ax ay
    rcases List.infix_cons_iff.1 hx with hx | hx
    · obtain ⟨t, ht⟩ := hx
      simp only [List.cons_append, List.nil_append, List.cons.injEq] at ht
      obtain ⟨rfl, rfl⟩ := ht
      simpa [rangeCheck] using h.1
    · exact plainCheck_spec h.2 x y hx ax ay

/-- A query with two lines: an expression with a range, an anagram and options, and a limit. -/
def c56Lower : List Char := "[a-c]at<dog>!1\n#limit 5".toList
def c56Upper : List Char := "[A-C]aT<dOG>!1\n#LiMiT 5".toList

theorem parseLine_unicode {U U' : Unicode} {st st' : ParseState} {i : Nat} {l : List Char}
    (h : parseLine U st i l = .ok st') (hn : Neutral st') : parseLine U' st i l = .ok st' := by
  have hs := parseLine_neutral h hn
  unfold parseLine at h ⊢
  rw [hs.2.2] at h ⊢
  exact h

theorem parseLines_unicode {U U' : Unicode} : ∀ {ls : List (List Char)} {i : Nat} {st st' : ParseState},
    parseLines U i ls st = .ok st' → Neutral st' → parseLines U' i ls st = .ok st'
  | [], _, _, _, h, _ => h
  | l :: ls, i, st, st', h, hn => by
    rw [parseLines] at h ⊢
    cases hp : parseLine U st i l with
    | error e => rw [hp] at h; cases h
    | ok s =>
      rw [hp] at h
      rw [parseLine_unicode hp (parseLines_neutral (ls := ls) h hn)]
      exact parseLines_unicode (ls := ls) h hn

/-- What is left to check of the example. -/
def readyCheck (U : Unicode) (l : List Char) : Bool :=
  match parseLines U 0 (splitLines l) {} with
  | .ok st => st.macros.isEmpty && st.options.dictionary.isNone && st.wordlist.isNone && st.options.limit == some 5 &&
    (expandExpressions st.expressions).toBool
  | .error _ => false

theorem c56_ready (U : Unicode) : ∃ q, QueryAst.ofText U c56Lower = .ok q ∧ q.macros = [] ∧
    q.options.dictionary = none ∧ q.options.wordlist = none ∧ q.options.limit = some 5 := by
  have h : readyCheck asciiUnicode c56Lower = true := by decide +kernel
  unfold readyCheck at h
  unfold QueryAst.ofText
  cases hp : parseLines asciiUnicode 0 (splitLines c56Lower) {} with
  | error e => rw [hp] at h; cases h
  | ok st =>
    rw [hp] at h
    simp only [Bool.and_eq_true, List.isEmpty_iff, Option.isNone_iff_eq_none, beq_iff_eq] at h
    obtain ⟨⟨⟨⟨h1, h2⟩, h3⟩, h4⟩, h5⟩ := h
    rw [parseLines_unicode hp ⟨h1, h2, h3⟩]
    cases he : expandExpressions st.expressions with
    | error e => rw [he] at h5; cases h5
    | ok es => exact ⟨⟨st.macros, es, { st.options with wordlist := st.wordlist.map sortWords }⟩,
        by simp only [Except.bind, he, orCrash, Except.map], h1, h2, by simp [h3], h4⟩

example (U : Unicode) : ∃ q, QueryAst.ofText U c56Lower = .ok q ∧ QueryAst.ofText U c56Upper = .ok q ∧ c56Lower ≠ c56Upper := by
  obtain ⟨q, h, h1, h2, h3, _⟩ := c56_ready U
  have hs : c56Lower.map Char.toLower = c56Upper.map Char.toLower := by decide +kernel
  have hq := (C56_query hs (plainCheck_spec (by decide +kernel)) (plainCheck_spec (by decide +kernel)) h1 h2 h3).1 h
  exact ⟨q, h, hq, by decide +kernel⟩

end Noodle
