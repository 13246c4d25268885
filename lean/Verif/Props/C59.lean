import Verif.Props.C58
import Verif.Proofs.ParseTotal
import Verif.Proofs.Alphabet
import Mathlib.Tactic.Tauto
/-
C59: which dictionaries a query can choose.
-/
namespace Noodle
open List Peg Spec
set_option autoImplicit false

/-- A character of the name of a dictionary that a query can ask for. -/
def Spec.dictChar (c : Char) : Bool := c.isAlpha || c == '.' || c == '\'' || c == '_'

/-! ### What nodes of characters say -/

theorem character_char {p : Pair} (h : Lawful p) (hr : p.rule = .character) : ∃ c, p.text = [c] ∧ dictChar c = true := by
  rcases h with rfl | ⟨at', qs, _, h⟩
  · cases hr
  rw [hr] at h
  simp only [grammar] at h
  obtain ⟨e, he, h⟩ := derives_choices h
  simp only [List.mem_cons, List.not_mem_nil, or_false] at he
  rcases he with rfl | rfl | rfl | rfl
  · obtain ⟨c, h1, hc, _⟩ := derives_chr h
    exact ⟨c, hc, by simp [dictChar, h1]⟩
  · obtain ⟨qs', _, h⟩ := derives_node h
    simp only [grammar] at h
    exact ⟨'.', (derives_lit h).1, rfl⟩
  · exact ⟨'\'', (derives_lit h).1, rfl⟩
  · exact ⟨'_', (derives_lit h).1, rfl⟩

theorem dict_inner {p : Pair} (h : Lawful p) (hr : p.rule = .pragmaDict) :
    ∀ c ∈ p.inner.flatMap Pair.text, dictChar c = true := by
  have hin := fun q' (hq' : q' ∈ p.inner) => h.inner hq'
  have hrule : ∀ q ∈ p.inner, q.rule = .character := by
    rcases h with rfl | ⟨at', qs, hqs, h⟩
    · cases hr
    rw [hr] at h hqs
    have hqs : p.inner = qs := hqs
    rw [hqs]
    simp only [grammar] at h
    obtain ⟨x, w, y, qs1, rs, _, hu, rfl, h1, h2⟩ := derives_seq h
    have : qs1 = [] := by
      rcases derives_alt h1 with h1 | h1
      · exact derives_istr h1
      · exact derives_istr h1
    subst this
    rw [List.nil_append]
    refine derives_plus ?_ h2
    intro u ps h
    rcases derives_alt h with h | h
    · intro p hp
      simpa using sole_all (sole_node h) p hp
    · rw [(derives_lit h).2]; simp
  intro c hc
  obtain ⟨q, hq, hc⟩ := List.mem_flatMap.1 hc
  obtain ⟨d, hd, h1⟩ := character_char (hin q hq).1 (hrule q hq)
  rw [hd] at hc
  have : c = d := by simpa using hc
  exact this ▸ h1

theorem lineNode_dict {p : Pair} {u : List Char} (h : Derives false (.ref (.vis .query)) u [p])
    {q : Pair} {qs : List Pair} (hq : p.inner = q :: qs) {st st' : ParseState} (hst : lineNode st q = .ok st') :
    st'.options.dictionary = st.options.dictionary ∨
      ∃ name, st'.options.dictionary = some name ∧ ∀ c ∈ name, dictChar c = true := by
  have hl := (derives_nodes h p (by simp)).1
  have hl := hl.inner (q := q) (by rw [hq]; simp)
  unfold lineNode at hst
  split at hst
  case h_3 hr =>
    right
    cases hst
    exact ⟨_, rfl, dict_inner hl.1 hr⟩
  case h_7 hr =>
    left
    simp only at hst
    split at hst
    · cases hst; rfl
    · cases hst
  all_goals first
    | (left; cases hst; rfl)
    | (left; revert hst; generalize parseExpression q = r; cases r <;> simp [Except.map]; rintro rfl; rfl)

theorem parseLine_dict {U : Unicode} {st st' : ParseState} {i : Nat} {line : List Char}
    (h : parseLine U st i line = .ok st') : st'.options.dictionary = st.options.dictionary ∨
      ∃ name, st'.options.dictionary = some name ∧ ∀ c ∈ name, dictChar c = true := by
  unfold parseLine at h
  split at h
  · left
    simp only [Except.ok.injEq] at h
    rw [← h]
    split <;> rfl
  · split at h
    · cases h
    · cases h
    · rename_i p hp
      obtain ⟨u, v, huv, hd⟩ := parse_derives hp
      split at h
      · left; cases h; rfl
      · rename_i q qs hq
        have hn : lineNode st q = .ok st' := by
          revert h
          generalize lineNode st q = r
          cases r <;> simp [orCrash]
        exact lineNode_dict hd hq hn

theorem parseLines_dict {U : Unicode} : ∀ (raw : List (List Char)) (i : Nat) (st st' : ParseState),
    parseLines U i raw st = .ok st' → (∀ name, st.options.dictionary = some name → ∀ c ∈ name, dictChar c = true) →
    ∀ name, st'.options.dictionary = some name → ∀ c ∈ name, dictChar c = true
  | [], i, st, st', h, hm => by cases h; exact hm
  | l :: raw, i, st, st', h, hm => by
    rw [parseLines] at h
    revert h
    generalize hp : parseLine U st i l = r
    cases r with
    | error e => intro h; cases h
    | ok s =>
      intro h
      refine parseLines_dict raw (i + 1) s st' h ?_
      rcases parseLine_dict hp with h1 | ⟨n, h1, h2⟩
      · rw [h1]; exact hm
      · intro name hname
        rw [h1] at hname
        cases hname
        exact h2

/-- C59: whatever the text of a query is, a dictionary that it asks for has a name of letters, full stops, apostrophes and
underscores only: no digits, no hyphens. -/
theorem C59_names {U : Unicode} {text name : List Char} {q : QueryAst} (h : QueryAst.ofText U text = .ok q)
    (hn : q.options.dictionary = some name) : ∀ c ∈ name, dictChar c = true := by
  unfold QueryAst.ofText at h
  cases hp : parseLines U 0 (splitLines text) {} with
  | error e => rw [hp] at h; cases h
  | ok st =>
    rw [hp] at h
    have hst : q.options.dictionary = st.options.dictionary := by
      revert h
      show (Except.map _ (orCrash (expandExpressions st.expressions)) = _) → _
      generalize orCrash (expandExpressions st.expressions) = r
      cases r with
      | error e => intro h; cases h
      | ok es => intro h; cases h; rfl
    exact parseLines_dict _ _ _ _ hp (by intro n h; cases h) name (hst ▸ hn)

/-! ### Dictionaries that no query uses -/

theorem dictWords_congr {ds ds' : Dicts} (h : ∀ name, (∀ c ∈ name, dictChar c = true) → Dicts.get ds name = Dicts.get ds' name)
    {name : List Char} (hn : ∀ c ∈ name, dictChar c = true) : dictWords ds name = dictWords ds' name := by
  unfold dictWords
  rw [h name hn, h defaultName (List.all_eq_true.1 (by decide +kernel))]

theorem dict_same {U : Unicode} {dir dir' : List DirEntry}
    (h : ∀ name ws, (∀ c ∈ name, dictChar c = true) → (HasDict U dir name ws ↔ HasDict U dir' name ws)) :
    ∀ name, (∀ c ∈ name, dictChar c = true) → Dicts.get (loadDir U [] dir) name = Dicts.get (loadDir U [] dir') name := by
  intro name hn
  apply Option.ext
  intro ws
  have := h name ws hn
  rw [← C40_dictionaries, ← C40_dictionaries] at this
  exact this

theorem asked_char {U : Unicode} {text : List Char} {q : QueryAst} (h : QueryAst.ofText U text = .ok q) :
    ∀ c ∈ q.options.dictionary.getD defaultName, dictChar c = true := by
  cases hd : q.options.dictionary with
  | none => exact List.all_eq_true.1 (by decide +kernel)
  | some name => exact C59_names h hd

/-- C59: so the answers to all queries are the same, whichever files with other names there are in the directory: they are
never used. -/
theorem C59_unused {U : Unicode} {dir dir' : List DirEntry}
    (h : ∀ name ws, (∀ c ∈ name, dictChar c = true) → (HasDict U dir name ws ↔ HasDict U dir' name ws)) :
    (∀ errorText text plain clks, syncBody U errorText (loadDir U [] dir) text plain clks =
      syncBody U errorText (loadDir U [] dir') text plain clks) ∧
    ∀ F P msg sends others ticks, wsRun F P U (loadDir U [] dir) msg sends others ticks =
      wsRun F P U (loadDir U [] dir') msg sends others ticks := by
  have hs := dict_same h
  constructor
  · intro errorText text plain clks
    unfold syncBody
    cases hq : QueryAst.ofText U text with
    | error e => cases e <;> rfl
    | ok q =>
      have e : (limitPlain plain q).options.dictionary = q.options.dictionary := by
        unfold limitPlain; split <;> rfl
      simp only
      rw [e, dictWords_congr hs (asked_char hq)]
  · intro F P msg sends others ticks
    have key : ∀ m, wsTalk F P U (loadDir U [] dir) m others ticks = wsTalk F P U (loadDir U [] dir') m others ticks := by
      intro m
      unfold wsTalk
      cases m with
      | none => rfl
      | some text =>
        simp only
        cases hq : QueryAst.ofText U text with
        | error e => cases e <;> rfl
        | ok q =>
          simp only
          rw [dictWords_congr hs (asked_char hq)]
    unfold wsRun
    cases msg with
    | none => rfl
    | some m => simp only [key m]

/-! ### What asking does -/

theorem lines_dict {b : Nat} {key : List Char} {g : Nat} {name : List Char} {t : Nat}
    (hok : (Line.dict b key g name t).ok = true) : Lines (Line.dict b key g name t).text [(Line.dict b key g name t).text] := by
  simp only [Line.ok, Bool.and_eq_true, List.all_eq_true] at hok
  obtain ⟨⟨⟨hk, _⟩, hn⟩, _⟩ := hok
  have hk : key.map Char.toLower = "#dict".toList := by simpa [keyword] using hk
  have low : ∀ x : Char, x = '\n' ∨ x = ';' → x ∉ (Line.dict b key g name t).text := by
    intro x hx hm
    simp only [Line.text, gap, List.mem_append, List.mem_replicate] at hm
    rcases hm with (((hm | hm) | hm) | hm) | hm
    · rcases hx with rfl | rfl <;> exact absurd hm.2 (by decide)
    · have : x.toLower ∈ "#dict".toList := hk ▸ List.mem_map_of_mem hm
      rcases hx with rfl | rfl <;> revert this <;> decide +kernel
    · rcases hx with rfl | rfl <;> exact absurd hm.2 (by decide)
    · have := hn x hm
      rcases hx with rfl | rfl <;> revert this <;> decide +kernel
    · rcases hx with rfl | rfl <;> exact absurd hm.2 (by decide)
  exact .last (low _ (.inl rfl)) (low _ (.inr rfl))

/-- C59: a line `#dict` with a name of these characters asks for the dictionary with the name; and with hyphens or blanks in
it, for the one with the name without them. -/
theorem C59_asked {U : Unicode} {b : Nat} {key : List Char} {g : Nat} {name : List Char} {t : Nat}
    (hok : (Line.dict b key g name t).ok = true) :
    ∃ q, QueryAst.ofText U (Line.dict b key g name t).text = .ok q ∧
      q.options.dictionary = some (name.filter fun c => c != '-' && c != ' ') ∧
      ((∀ c ∈ name, dictChar c = true) → q.options.dictionary = some name) := by
  obtain ⟨es, q, h1, _, _, _, _, h2, _⟩ := C34_query (U := U) (lines_dict hok) (.cons .nil .nil) (by simpa using hok)
  have h2 : q.options.dictionary = some (name.filter fun c => c != '-' && c != ' ') := h2
  refine ⟨q, h1, h2, fun hc => ?_⟩
  rw [h2]
  congr 1
  rw [List.filter_eq_self]
  intro c hm
  have := hc c hm
  have hne : c ≠ '-' ∧ c ≠ ' ' := by
    refine ⟨?_, ?_⟩ <;> rintro rfl <;> revert this <;> decide
  simp [hne.1, hne.2]

/-- C59: the lists of the documentation (noodle_help.md:157,161) and of /repo/wordlists include `wiki-titles` and
`npl-allwords2`, and the web page asks for them by name (index.html:450); but the hyphen is lost and a digit is a syntax
error. And of `#dictionary uk`, which the grammar means to allow, only `#dict` is the keyword. -/
theorem C59_counterexample (U : Unicode) :
    (∃ q, QueryAst.ofText U "#dict wiki-titles".toList = .ok q ∧ q.options.dictionary = some "wikititles".toList) ∧
    QueryAst.ofText U "#dict npl-allwords2".toList = .error (.syntax 1) ∧
    (∃ q, QueryAst.ofText U "#dictionary uk".toList = .ok q ∧ q.options.dictionary = some "ionaryuk".toList) := by
  refine ⟨?_, (ofText_bad (lines_iff.2 (by decide +kernel))).1 (rejects_of (by decide +kernel)), ?_⟩
  · obtain ⟨q, h1, h2, _⟩ := C59_asked (U := U) (b := 0) (key := "#dict".toList) (g := 1) (name := "wiki-titles".toList) (t := 0)
      (by decide +kernel)
    have e : (Line.dict 0 "#dict".toList 1 "wiki-titles".toList 0).text = "#dict wiki-titles".toList := by decide +kernel
    rw [e] at h1
    exact ⟨q, h1, by rw [h2]; decide +kernel⟩
  · obtain ⟨q, h1, h2, _⟩ := C59_asked (U := U) (b := 0) (key := "#dict".toList) (g := 0) (name := "ionary uk".toList) (t := 0)
      (by decide +kernel)
    have e : (Line.dict 0 "#dict".toList 0 "ionary uk".toList 0).text = "#dictionary uk".toList := by decide +kernel
    rw [e] at h1
    exact ⟨q, h1, by rw [h2]; decide +kernel⟩

/-- A directory with the list `wiki-titles`, and one without it. -/
example : let d : DirEntry := ⟨"default.txt".toList, true, "one\n".toList⟩
    let w : DirEntry := ⟨"wiki-titles.txt".toList, true, "two\n".toList⟩
    ∀ U name ws, (∀ c ∈ name, dictChar c = true) → (HasDict U [d, w] name ws ↔ HasDict U [d] name ws) := by
  intro d w U name ws hn
  rw [← C40_dictionaries, ← C40_dictionaries, loadDir_get, loadDir_get]
  have : dictName w.file ≠ name := by
    rintro rfl
    have := hn '-' (by decide +kernel)
    revert this; decide
  simp only [Dicts.get, Option.none_or, firstFile, List.find?_cons, this, decide_false, Bool.and_false]

/-! ### The characters of a line -/

/-- A character that is used in lines that define nothing. -/
def Spec.queryChar (c : Char) : Bool :=
  c.isAlpha || c.isDigit || " '._[]^-|<>+(:){,}?*!#".toList.contains c

theorem exprChar_query {c : Char} (h : exprChar c = true) : queryChar c = true := by
  unfold exprChar at h
  unfold queryChar
  have : ∀ x ∈ " '._[]^-|<>+(:){,}?*!".toList, x ∈ " '._[]^-|<>+(:){,}?*!#".toList := by decide +kernel
  simp only [Bool.or_eq_true, List.contains_iff_mem] at h ⊢
  rcases h with h | h
  · exact .inl h
  · exact .inr (this c h)

theorem noComment_marks : ∀ {l : List Char}, noComment l = true → Unmarked l
  | [], _ => ⟨fun h => absurd (List.IsInfix.length_le h) (by decide), fun h => absurd (List.IsInfix.length_le h) (by decide)⟩
  | c :: cs, h => by
    simp only [noComment, Bool.and_eq_true, Bool.not_eq_true', Bool.and_eq_false_iff, beq_eq_false_iff_ne] at h
    have ih := noComment_marks h.2
    constructor
    · intro hi
      rcases List.infix_cons_iff.1 hi with ⟨t, ht⟩ | hi
      · have e : c = '/' ∧ cs = '/' :: t := by
          have ht : '/' :: '/' :: t = c :: cs := ht
          injection ht with h1 h2
          exact ⟨h1.symm, h2.symm⟩
        rcases h.1.1 with h1 | h1
        · exact h1 e.1
        · exact h1 (by rw [e.2]; rfl)
      · exact ih.1 hi
    · intro hi
      rcases List.infix_cons_iff.1 hi with ⟨t, ht⟩ | hi
      · have e : c = '-' ∧ cs = '-' :: t := by
          have ht : '-' :: '-' :: t = c :: cs := ht
          injection ht with h1 h2
          exact ⟨h1.symm, h2.symm⟩
        rcases h.1.2 with h1 | h1
        · exact h1 e.1
        · exact h1 (by rw [e.2]; rfl)
      · exact ih.2 hi

/-- The ways to read a line. -/
theorem query_forms {l : List Char} {p : Pair} (h : parse .query l = some (some p)) :
    (∃ w x w' qs e, Skipped w ∧ Skipped w' ∧ l = w ++ x ++ w' ∧ e ∈ [Peg.node .pragmaWords, Peg.node .pragmaDict, Peg.node .pragmaLimit,
      Peg.node .pragmaQuiet, Peg.node .pragmaWordlist] ∧ Derives false e x qs) ∨
    (∃ qs, Derives false (grammar (.vis .macroDefine)).2 l qs) ∨ (∃ qs, Derives false (grammar (.vis .expression)).2 l qs) ∨
    Skipped l := by
  have hd := query_derives h
  have hd : Derives false (Peg.node .query) l [p] := hd
  obtain ⟨qs, _, hd⟩ := derives_node hd
  simp only [grammar] at hd
  obtain ⟨e, he, hd⟩ := derives_choices hd
  simp only [List.mem_cons, List.not_mem_nil, or_false] at he
  rcases he with rfl | rfl | rfl | rfl
  · left
    have hd := derives_silent hd (by intro r hr; cases hr)
    simp only [grammar, seqs] at hd
    obtain ⟨x, w, y, qs, rs, hw, rfl, _, h1, h2⟩ := derives_seq hd
    obtain ⟨rfl, _⟩ := derives_soi h1
    obtain ⟨x, w', y, qs, rs, hw', rfl, _, h1, h2⟩ := derives_seq h2
    obtain ⟨rfl, _⟩ := derives_eoi h2
    obtain ⟨e, he, h1⟩ := derives_choices h1
    exact ⟨w, x, w', _, e, hw.2, hw'.2, by simp, he, h1⟩
  · obtain ⟨qs, _, h1⟩ := derives_node hd
    exact .inr (.inl ⟨qs, h1⟩)
  · obtain ⟨qs, _, h1⟩ := derives_node hd
    exact .inr (.inr (.inl ⟨qs, h1⟩))
  · have hd := derives_silent hd (by intro r hr; cases hr)
    simp only [grammar] at hd
    obtain ⟨x, w, y, qs, rs, hw, rfl, _, h1, h2⟩ := derives_seq hd
    obtain ⟨rfl, _⟩ := derives_soi h1
    obtain ⟨rfl, _⟩ := derives_eoi h2
    refine .inr (.inr (.inr ?_))
    simpa using hw.2

theorem expr_chars {l : List Char} {qs : List Pair} (h : Derives false (grammar (.vis .expression)).2 l qs) (hu : Unmarked l) :
    ∀ c ∈ l, exprChar c = true :=
  takes_all (S := fun m => exprRule m = true) expr_takes (by decide) h (expr_takes (.vis .expression) rfl) hu

theorem lower_query {s : List Char} (hs : (s.map Char.toLower).all (fun c => c == '#' || c.isLower) = true) :
    ∀ c : Char, c.toLower ∈ s.map Char.toLower → queryChar c = true := by
  intro c hc
  have h := List.all_eq_true.1 hs _ hc
  simp only [Bool.or_eq_true, beq_iff_eq] at h
  unfold queryChar
  simp only [Bool.or_eq_true, List.contains_iff_mem]
  have hcase : c.isUpper = true ∨ c.toLower = c := by
    unfold Char.toLower
    by_cases hc : c.isUpper = true
    · exact .inl hc
    · right
      rw [dif_neg]
      simpa [Char.isUpper] using hc
  rcases hcase with h1 | h1
  · left; left; simp [Char.isAlpha, h1]
  · rw [h1] at h
    rcases h with rfl | h
    · right; decide +kernel
    · left; left; simp [Char.isAlpha, h]

theorem alpha_of_lower {c : Char} (h : c.toLower.isLower = true) : c.isAlpha = true := by
  by_cases hc : c.isUpper = true
  · simp [Char.isAlpha, hc]
  · have : c.toLower = c := by
      unfold Char.toLower
      rw [dif_neg]
      simpa [Char.isUpper] using hc
    rw [this] at h
    simp [Char.isAlpha, h]

theorem pragma_chars {e : Exp} {x : List Char} {qs : List Pair} (he : e ∈ [Peg.node .pragmaWords, Peg.node .pragmaDict, Peg.node .pragmaLimit,
      Peg.node .pragmaQuiet, Peg.node .pragmaWordlist]) (h : Derives false e x qs) (hu : Unmarked x) :
    ∀ c ∈ x, queryChar c = true := by
  have hS : ∀ m, exprRule m = true → Takes (fun c => queryChar c = true) (fun m => exprRule m = true) (grammar m).2 :=
    fun m hm => Takes.mono (fun c => exprChar_query) _ (expr_takes m hm)
  have hb : queryChar ' ' = true := by decide +kernel
  simp only [List.mem_cons, List.not_mem_nil, or_false] at he
  rcases he with rfl | rfl | rfl | rfl | rfl
  all_goals
    obtain ⟨qs, _, h⟩ := derives_node h
    simp only [grammar] at h
    refine takes_all hS hb h ?_ hu
    simp only [Takes, Exp.plus, lit, Peg.node]
    repeat' constructor
    all_goals first
      | exact lower_query (by decide +kernel)
      | exact List.all_eq_true.1 (by decide +kernel)
      | trivial

theorem reads_or_fails {U : Unicode} {l : List Char} (hl : Lines l [l]) :
    (∃ p, parse .query l = some (some p)) ∨ QueryAst.ofText U l = .error (.syntax 1) := by
  obtain ⟨res, h⟩ := parse_ends .query l
  cases res with
  | none => exact .inr ((ofText_bad hl).1 h)
  | some p => exact .inl ⟨p, h⟩

/-- C34: in a line without comments that defines nothing, a character other than the letters `a` to `z` and `A` to `Z`, the
digits, the blank and `'._[]^-|<>+(:){,}?*!#` is a syntax error. -/
theorem C34_alphabet {U : Unicode} {l : List Char} (hl : Lines l [l]) (hn : noComment l = true) (hd : '=' ∉ l)
    {c : Char} (hc : c ∈ l) (hq : queryChar c = false) : QueryAst.ofText U l = .error (.syntax 1) := by
  have hu := noComment_marks hn
  rcases reads_or_fails (U := U) hl with ⟨p, hp⟩ | h
  · exfalso
    have hb : queryChar ' ' = true := by decide +kernel
    rcases query_forms hp with ⟨w, x, w', qs, e, hw, hw', rfl, he, h⟩ | ⟨qs, h⟩ | ⟨qs, h⟩ | h
    · have := pragma_chars he h (hu.infix ⟨w, w', rfl⟩)
      have h1 := (hu.infix (u := w) ⟨[], x ++ w', by simp⟩).blanks hw
      have h2 := (hu.infix (u := w') ⟨w ++ x, [], by simp⟩).blanks hw'
      rcases List.mem_append.1 hc with hc | hc
      · rcases List.mem_append.1 hc with hc | hc
        · rw [h1 c hc, hb] at hq; cases hq
        · rw [this c hc] at hq; cases hq
      · rw [h2 c hc, hb] at hq; cases hq
    · simp only [grammar, seqs] at h
      obtain ⟨x, w, y, qs, rs, _, rfl, _, _, h⟩ := derives_seq h
      obtain ⟨x, w, y, qs, rs, _, rfl, _, _, h⟩ := derives_seq h
      obtain ⟨x, w, y, qs, rs, _, rfl, _, h, _⟩ := derives_seq h
      obtain ⟨rfl, _⟩ := derives_lit h
      exact hd (by simp)
    · rw [exprChar_query (expr_chars h hu c hc)] at hq; cases hq
    · rw [hu.blanks h c hc, hb] at hq; cases hq
  · exact h

/-- C34: so the comments `/* … */` of the documentation are syntax errors: a single slash is. -/
theorem C34_slash {U : Unicode} {l : List Char} (hl : Lines l [l]) (hn : noComment l = true) (hd : '=' ∉ l) (hc : '/' ∈ l) :
    QueryAst.ofText U l = .error (.syntax 1) :=
  C34_alphabet hl hn hd hc (by decide +kernel)

/-- Such a line. -/
example (U : Unicode) : QueryAst.ofText U "ab /* a comment */".toList = .error (.syntax 1) :=
  C34_slash (lines_iff.2 (by decide +kernel)) (by decide +kernel) (by decide +kernel) (by decide +kernel)

/-! ### The lines that choose a dictionary -/

theorem blanks_head : ∀ {w v : List Char} {b : Nat} {k : List Char}, (∀ c ∈ w, c = ' ') → v.head? ≠ some ' ' → k.head? ≠ some ' ' →
    v ≠ [] → k ≠ [] → w ++ v = gap b ++ k → v = k
  | [], v, 0, k, _, _, _, _, _, h => by simpa [gap] using h
  | [], c :: v, b + 1, k, _, hv, _, _, _, h => by
    have h : c :: v = ' ' :: (gap b ++ k) := by simpa [gap, List.replicate_succ] using h
    injection h with h1 h2
    exact absurd (by rw [h1]; rfl) hv
  | c :: w, v, 0, k, hw, _, hk, _, _, h => by
    have h : c :: (w ++ v) = k := by simpa [gap] using h
    exact absurd (by rw [← h, hw c (by simp)]; rfl) hk
  | c :: w, v, b + 1, k, hw, hv, hk, h1, h2, h => by
    have h : c :: (w ++ v) = ' ' :: (gap b ++ k) := by simpa [gap, List.replicate_succ] using h
    injection h with _ h
    exact blanks_head (fun c hc => hw c (List.mem_cons_of_mem _ hc)) hv hk h1 h2 h
  | [], [], b + 1, k, _, _, _, h1, _, _ => absurd rfl h1

theorem key_head {x : List Char} {s : List Char} (hs : s.head? = some '#') (hx : x.map Char.toLower = s) :
    x.head? = some '#' := by
  cases x with
  | nil => rw [← hx] at hs; cases hs
  | cons c x =>
    rw [← hx] at hs
    rw [toLower_hash c (by simpa using hs)]; rfl

theorem key_clash {x t key rest : List Char} {s s' : List Char} (h : x ++ t = key ++ rest) (hx : x.map Char.toLower = s)
    (hk : key.map Char.toLower = s') (i : Nat) (hi : i < s.length) (hi' : i < s'.length) : s[i] = s'[i] := by
  subst hx hk
  have h1 := congrArg (fun l => (l.map Char.toLower)[i]?) h
  simp only [List.map_append] at h1
  rw [List.getElem?_append_left hi, List.getElem?_append_left hi', List.getElem?_eq_getElem hi, List.getElem?_eq_getElem hi'] at h1
  exact Option.some.inj h1

/-- A line whose first word is `#dict` and that is read at all. -/
theorem dict_reads {b : Nat} {key rest : List Char} {p : Pair} (hk : keyword "#dict" key = true) (hn : Unmarked rest)
    (hm : Unmarked (gap b ++ key ++ rest)) (h : parse .query (gap b ++ key ++ rest) = some (some p)) :
    (∃ c ∈ rest, c ≠ ' ') ∧ ∀ c ∈ rest, dictChar c = true ∨ c = '-' ∨ c = ' ' := by
  have hk : key.map Char.toLower = "#dict".toList := by simpa [keyword] using hk
  have hh : key.head? = some '#' := key_head rfl hk
  have hlen : key.length = 5 := by simpa using congrArg List.length hk
  have hne : key ≠ [] := by rintro rfl; cases hh
  have hkr : (key ++ rest).head? = some '#' := by rw [List.head?_append, hh]; rfl
  have hsharp : '#' ∈ gap b ++ key ++ rest := by
    rw [List.append_assoc]
    exact List.mem_append_right _ (List.mem_of_head? hkr)
  have align : ∀ {w v : List Char}, Skipped w → gap b ++ key ++ rest = w ++ v → v ≠ [] → v.head? ≠ some ' ' → v = key ++ rest := by
    intro w v hw e hv hv'
    refine blanks_head (b := b) ((hm.infix ⟨[], v, by rw [e]; simp⟩).blanks hw) hv' ?_ hv ?_ ?_
    · rw [hkr]; decide
    · intro e; rw [e] at hkr; cases hkr
    · rw [← e, List.append_assoc]
  rcases query_forms h with ⟨w, x, w', qs, e, hw, hw', e1, he, h⟩ | ⟨qs, h⟩ | ⟨qs, h⟩ | h
  · -- a pragma
    rw [List.append_assoc w] at e1
    have clash : ∀ {s : List Char} {k t : List Char}, x = k ++ t → k.map Char.toLower = s → s.head? = some '#' →
        ∀ h : 1 < s.length, s[1] = 'd' := by
      intro s k t hx hkl hs hl
      have hkh := key_head hs hkl
      have hv : (x ++ w').head? = some '#' := by rw [hx, List.append_assoc, List.head?_append, hkh]; rfl
      have := align hw e1 (by intro e; rw [e] at hv; cases hv) (by rw [hv]; decide)
      rw [hx, List.append_assoc] at this
      exact key_clash this hkl hk 1 hl (by decide)
    simp only [List.mem_cons, List.not_mem_nil, or_false] at he
    rcases he with rfl | rfl | rfl | rfl | rfl
    · obtain ⟨qs, _, h⟩ := derives_node h
      simp only [grammar] at h
      obtain ⟨k, w2, y, _, _, _, hx, _, h1, _⟩ := derives_seq h
      cases h1 with
      | istr hkl => exact absurd (clash (by rw [hx, List.append_assoc]) hkl rfl (by decide)) (by decide)
    · obtain ⟨qs, _, h⟩ := derives_node h
      simp only [grammar] at h
      obtain ⟨k, w2, y, _, _, hw2, hx, _, h1, h2⟩ := derives_seq h
      have hk' : k.map Char.toLower = "#dict".toList ∨ k.map Char.toLower = "#dictionary".toList := by
        rcases derives_alt h1 with h1 | h1
        · cases h1 with
          | istr hkl => exact .inl hkl
        · cases h1 with
          | istr hkl => exact .inr hkl
      have hkh : k.head? = some '#' := by
        rcases hk' with h | h <;> exact key_head rfl h
      have hv : (x ++ w').head? = some '#' := by
        rw [hx, List.append_assoc, List.append_assoc, List.head?_append, hkh]; rfl
      have hal := align hw e1 (by intro e; rw [e] at hv; cases hv) (by rw [hv]; decide)
      have hdrop : rest = k.drop 5 ++ (w2 ++ y ++ w') := by
        have := congrArg (List.drop 5) hal
        rw [List.drop_append_of_le_length (by omega : 5 ≤ key.length), show List.drop 5 key = [] from by rw [List.drop_eq_nil_iff]; omega,
          List.nil_append] at this
        rw [← this, hx, List.append_assoc, List.append_assoc]
        rw [List.drop_append_of_le_length]
        · simp
        · rcases hk' with h | h
          · have := congrArg List.length h; simp at this; omega
          · have := congrArg List.length h; simp at this; omega
      have hy : ∀ c ∈ y, dictChar c = true ∨ c = '-' ∨ c = ' ' := by
        refine takes_all (S := fun m => m = .vis .character ∨ m = .vis .dot) ?_ (.inr (.inr rfl)) h2 ?_
          (hn.infix ⟨k.drop 5 ++ w2, w', by rw [hdrop]; simp⟩)
        · rintro m (rfl | rfl)
          · simp only [grammar, choices, Takes, alphaChar, lit, Peg.node]
            refine ⟨fun c hc => .inl (by simp [dictChar, hc]), .inr trivial, fun c hc => .inl ?_, fun c hc => .inl ?_⟩
            · have : c = '\'' := by simpa using hc
              rw [this]; rfl
            · have : c = '_' := by simpa using hc
              rw [this]; rfl
          · simp only [grammar, Takes, lit]
            intro c hc
            have : c = '.' := by simpa using hc
            rw [this]; exact .inl rfl
        · simp only [Takes, Exp.plus, lit, Peg.node]
          have hyph : ∀ c ∈ "-".toList, dictChar c = true ∨ c = '-' ∨ c = ' ' := fun c hc => .inr (.inl (by simpa using hc))
          exact ⟨⟨.inl trivial, hyph⟩, .inl trivial, hyph⟩
      have hkd : ∀ c ∈ k.drop 5, dictChar c = true := by
        intro c hc
        rcases hk' with h | h
        · have : k.length = 5 := by simpa using congrArg List.length h
          rw [List.drop_eq_nil_iff.2 (by omega)] at hc
          cases hc
        · have h' : (k.drop 5).map Char.toLower = "ionary".toList := by rw [List.map_drop, h]; rfl
          have h1 : c.toLower ∈ "ionary".toList := h' ▸ List.mem_map_of_mem hc
          have h2 : c.isAlpha = true := alpha_of_lower ((List.all_eq_true.1 (by decide +kernel : "ionary".toList.all Char.isLower = true)) _ h1)
          simp [dictChar, h2]
      have hb2 := (hn.infix (u := w2) ⟨k.drop 5, y ++ w', by rw [hdrop]; simp⟩).blanks hw2.2
      have hb3 := (hn.infix (u := w') ⟨k.drop 5 ++ (w2 ++ y), [], by rw [hdrop]; simp⟩).blanks hw'
      constructor
      · obtain ⟨y1, _, y2, _, _, _, rfl, _, h3, _⟩ := derives_seq h2
        have : ∃ c ∈ y1, c ≠ ' ' := by
          rcases derives_alt h3 with h3 | h3
          · obtain ⟨qs', hp, _⟩ := derives_node h3
            have hlaw := (derives_nodes h3 (.mk .character y1 (if (grammar (.vis .character)).1 then [] else qs'))
              (by rw [hp]; exact List.mem_singleton.2 rfl)).1
            obtain ⟨c, hc, h4⟩ := character_char hlaw rfl
            have hc : y1 = [c] := hc
            refine ⟨c, by rw [hc]; simp, ?_⟩
            rintro rfl
            revert h4; decide
          · obtain ⟨rfl, _⟩ := derives_lit h3
            exact ⟨'-', by decide +kernel, by decide⟩
        obtain ⟨c, hc, h⟩ := this
        exact ⟨c, by rw [hdrop]; simp only [List.mem_append]; exact .inr (.inl (.inr (.inl (.inl hc)))), h⟩
      · intro c hc
        rw [hdrop] at hc
        simp only [List.mem_append] at hc
        rcases hc with hc | (hc | hc) | hc
        · exact .inl (hkd c hc)
        · exact .inr (.inr (hb2 c hc))
        · exact hy c hc
        · exact .inr (.inr (hb3 c hc))
    · obtain ⟨qs, _, h⟩ := derives_node h
      simp only [grammar] at h
      obtain ⟨k, w2, y, _, _, _, hx, _, h1, _⟩ := derives_seq h
      cases h1 with
      | istr hkl => exact absurd (clash (by rw [hx, List.append_assoc]) hkl rfl (by decide)) (by decide)
    · obtain ⟨qs, _, h⟩ := derives_node h
      simp only [grammar] at h
      cases h with
      | istr hkl => exact absurd (clash (t := []) (by simp) hkl rfl (by decide)) (by decide)
    · obtain ⟨qs, _, h⟩ := derives_node h
      simp only [grammar] at h
      cases h with
      | istr hkl => exact absurd (clash (t := []) (by simp) hkl rfl (by decide)) (by decide)
  · -- a definition starts with a letter
    exfalso
    simp only [grammar, seqs] at h
    obtain ⟨x, w, y, _, _, hw, e1, _, h1, h⟩ := derives_seq h
    obtain ⟨rfl, _⟩ := derives_soi h1
    obtain ⟨x, w', y', _, _, _, rfl, _, h, _⟩ := derives_seq h
    obtain ⟨_, _, h⟩ := derives_node h
    simp only [grammar] at h
    obtain ⟨x, w2, y2, _, _, _, rfl, _, h, _⟩ := derives_seq h
    obtain ⟨c, hc, rfl, _⟩ := derives_chr h
    have := align (v := c :: (w2 ++ y2 ++ w' ++ y')) hw.2 (by rw [e1]; simp) (by simp)
      (by intro e; have : c = ' ' := by simpa using e
          rw [this] at hc; cases hc)
    rw [← this] at hkr
    have : c = '#' := by simpa using hkr
    rw [this] at hc
    cases hc
  · have := expr_chars h hm '#' hsharp
    exact absurd this (by decide +kernel)
  · have := hm.blanks h '#' hsharp
    exact absurd this (by decide)

/-- C59: and of the lines with `#dict` in front (and no comment) exactly these are accepted: those that have a name of
letters, full stops, apostrophes and underscores, with hyphens and blanks anywhere in it. All others are syntax errors, in
particular those with a digit in the name. -/
theorem C59_exactly {U : Unicode} {b : Nat} {key rest : List Char} (hk : keyword "#dict" key = true)
    (hl : '\n' ∉ rest ∧ ';' ∉ rest) (hn : noComment rest = true) :
    if (∃ c ∈ rest, c ≠ ' ') ∧ ∀ c ∈ rest, dictChar c = true ∨ c = '-' ∨ c = ' ' then
      ∃ q, QueryAst.ofText U (gap b ++ key ++ rest) = .ok q ∧
        q.options.dictionary = some (rest.filter fun c => c != '-' && c != ' ')
    else QueryAst.ofText U (gap b ++ key ++ rest) = .error (.syntax 1) := by
  have hk' : key.map Char.toLower = "#dict".toList := by simpa [keyword] using hk
  have hkc : ∀ c ∈ key, c.toLower ∈ "#dict".toList := fun c hc => hk' ▸ List.mem_map_of_mem hc
  have hkx : ∀ x : Char, x.toLower ∉ "#dict".toList → x ∉ key := fun x hx hm => hx (hkc x hm)
  have hkn : noComment (gap b ++ key ++ rest) = true := by
    have step : ∀ (l m : List Char), (∀ c ∈ l, c ≠ '/' ∧ c ≠ '-') → noComment m = true → noComment (l ++ m) = true := by
      intro l m h hm
      induction l with
      | nil => exact hm
      | cons c l ih =>
        have h1 := h c (by simp)
        simp [noComment, h1.1, h1.2, ih (fun c hc => h c (by simp [hc]))]
    rw [List.append_assoc]
    refine step _ _ ?_ (step _ _ ?_ hn)
    · intro c hc
      have : c = ' ' := by simpa [gap] using (List.mem_replicate.1 hc).2
      rw [this]; decide
    · intro c hc
      constructor <;> rintro rfl
      · exact hkx _ (by decide +kernel) hc
      · exact hkx _ (by decide +kernel) hc
  have hlines : Lines (gap b ++ key ++ rest) [gap b ++ key ++ rest] := by
    have low : ∀ x : Char, x = '\n' ∨ x = ';' → x ∉ gap b ++ key ++ rest := by
      intro x hx hm
      simp only [gap, List.mem_append, List.mem_replicate] at hm
      rcases hm with (hm | hm) | hm
      · rcases hx with rfl | rfl <;> exact absurd hm.2 (by decide)
      · rcases hx with rfl | rfl <;> exact hkx _ (by decide +kernel) hm
      · rcases hx with rfl | rfl
        · exact hl.1 hm
        · exact hl.2 hm
    exact .last (low _ (.inl rfl)) (low _ (.inr rfl))
  split
  · rename_i h
    have hok : (Line.dict b key 0 rest 0).ok = true := by
      simp only [Line.ok, Bool.and_eq_true, List.any_eq_true, List.all_eq_true]
      refine ⟨⟨⟨hk, ?_⟩, ?_⟩, hn⟩
      · obtain ⟨c, hc, h1⟩ := h.1
        exact ⟨c, hc, by simp [h1]⟩
      · intro c hc
        rcases h.2 c hc with h | h | h
        · simp only [dictChar, Bool.or_eq_true, beq_iff_eq] at h
          simp only [plainChar, Bool.or_eq_true, beq_iff_eq]
          tauto
        · simp [h]
        · simp [h]
    obtain ⟨q, h1, h2, _⟩ := C59_asked (U := U) hok
    have e : (Line.dict b key 0 rest 0).text = gap b ++ key ++ rest := by simp [Line.text, gap]
    rw [e] at h1
    exact ⟨q, h1, h2⟩
  · rename_i h
    rcases reads_or_fails (U := U) hlines with ⟨p, hp⟩ | h'
    · exact absurd (dict_reads hk (noComment_marks hn) (noComment_marks hkn) hp) h
    · exact h'

/-- Such lines. -/
example (U : Unicode) : QueryAst.ofText U "#DICT npl-allwords2".toList = .error (.syntax 1) := by
  have := C59_exactly (U := U) (b := 0) (key := "#DICT".toList) (rest := " npl-allwords2".toList) (by decide +kernel)
    ⟨by decide +kernel, by decide +kernel⟩ (by decide +kernel)
  rw [if_neg] at this
  · exact this
  · intro h
    have := h.2 '2' (by decide +kernel)
    revert this; decide

/-- C59: what the web page sends (index.html:449-456) when the list `npl-allwords2` is chosen is, whatever the query that
follows it, a syntax error in its first line. -/
theorem C59_page (U : Unicode) (rest : List Char) :
    QueryAst.ofText U ("#dict npl-allwords2\n".toList ++ rest) = .error (.syntax 1) := by
  obtain ⟨ls, hls⟩ : ∃ ls, Lines rest ls := ⟨splitLines rest, lines_iff.2 rfl⟩
  have hl : Lines ("#dict npl-allwords2\n".toList ++ rest) ([] ++ "#dict npl-allwords2".toList :: ls) := by
    have e : "#dict npl-allwords2\n".toList ++ rest = "#dict npl-allwords2".toList ++ '\n' :: rest := by
      rw [show "#dict npl-allwords2\n".toList = "#dict npl-allwords2".toList ++ ['\n'] by decide +kernel]
      simp
    rw [e]
    exact .cons (by decide +kernel) (by decide +kernel) (.inl rfl) hls
  exact C34_rejected (raw := []) (ls := []) hl .nil (by simp) .nil (lines_iff.2 (by decide +kernel)) (C59_counterexample U).2.1

end Noodle
