import Verif.Proofs.Web
import Verif.Proofs.SyntaxLine
import Verif.Props.C34
import Verif.Proofs.Json
/-
C38, C39, C40: the programs around the library.
-/
namespace Noodle
open Spec
set_option autoImplicit false

/-! ### Dictionaries -/

theorem stem_dictName : ∀ (file : List Char), HasDict.Stem file (dictName file)
  | [] => ⟨by simp [dictName], .inl rfl⟩
  | c :: cs => by
    unfold dictName
    split
    · rename_i hc
      subst hc
      exact ⟨by simp, .inr ⟨cs, rfl⟩⟩
    · rename_i hc
      obtain ⟨h1, h2⟩ := stem_dictName cs
      refine ⟨by simp [h1]; exact fun h => hc h.symm, ?_⟩
      rcases h2 with h2 | ⟨r, h2⟩
      · exact .inl (by rw [← h2])
      · exact .inr ⟨r, by rw [List.cons_append, ← h2]⟩

theorem stem_iff {file name : List Char} : HasDict.Stem file name ↔ dictName file = name := by
  refine ⟨?_, fun h => h ▸ stem_dictName file⟩
  rintro ⟨h1, h2⟩
  have key : ∀ (name rest : List Char), '.' ∉ name → dictName (name ++ '.' :: rest) = name ∧ dictName name = name := by
    intro name
    induction name with
    | nil => intro rest _; exact ⟨rfl, rfl⟩
    | cons c cs ih =>
      intro rest h
      have hc : c ≠ '.' := by rintro rfl; simp at h
      have := ih rest (by intro hm; exact h (by simp [hm]))
      simp [dictName, hc, this.1, this.2]
  rcases h2 with rfl | ⟨rest, rfl⟩
  · exact (key _ [] h1).2
  · exact (key _ rest h1).1

theorem get_append : ∀ (ds es : Dicts) (name : List Char),
    Dicts.get (ds ++ es) name = (Dicts.get ds name).or (Dicts.get es name)
  | [], es, name => by simp [Dicts.get]
  | (n, ws) :: ds, es, name => by
    rw [List.cons_append, Dicts.get, Dicts.get]
    split
    · rfl
    · exact get_append ds es name

/-- The first regular file with a name. -/
def firstFile (dir : List DirEntry) (name : List Char) : Option DirEntry :=
  dir.find? fun e => e.regular && decide (dictName e.file = name)

theorem loadDir_get (U : Unicode) : ∀ (dir : List DirEntry) (ds : Dicts) (name : List Char),
    Dicts.get (loadDir U ds dir) name =
      (Dicts.get ds name).or ((firstFile dir name).map fun e => loadWordlist U e.text)
  | [], ds, name => by simp [loadDir, firstFile]
  | e :: dir, ds, name => by
    unfold loadDir
    cases hr : e.regular with
    | false =>
      simp only [Bool.not_false, if_true]
      rw [loadDir_get U dir]
      simp [firstFile, hr]
    | true =>
      simp only [Bool.not_true, Bool.false_eq_true, if_false]
      split
      · rename_i ws hws
        rw [loadDir_get U dir]
        by_cases hn : dictName e.file = name
        · rw [← hn, hws]; simp
        · simp [firstFile, hr, hn]
      · rename_i hws
        rw [loadDir_get U dir, get_append]
        by_cases hn : dictName e.file = name
        · rw [← hn, hws]; simp [Dicts.get, firstFile, hr]
        · simp [Dicts.get, firstFile, hr, hn]

/-- C40: the dictionaries are those of the directory. -/
theorem C40_dictionaries (U : Unicode) (dir : List DirEntry) (name : List Char) (ws : List Word) :
    Dicts.get (loadDir U [] dir) name = some ws ↔ HasDict U dir name ws := by
  rw [loadDir_get]
  simp only [Dicts.get, Option.none_or, firstFile, Option.map_eq_some_iff, List.find?_eq_some_iff_append]
  constructor
  · rintro ⟨e, ⟨he, a, b, hab, hn⟩, rfl⟩
    simp only [Bool.and_eq_true, decide_eq_true_eq] at he
    refine ⟨a, e, b, hab, he.1, stem_iff.2 he.2, rfl, fun x hx hr hs => ?_⟩
    have := hn x hx
    simp [hr, stem_iff.1 hs] at this
  · rintro ⟨a, e, b, hab, hr, hs, rfl, hn⟩
    refine ⟨e, ⟨by simp [hr, stem_iff.1 hs], a, b, hab, fun x hx => ?_⟩, rfl⟩
    have := hn x hx
    rw [stem_iff] at this
    cases hx : x.regular <;> simp_all

theorem hasDict_unique {U : Unicode} {dir : List DirEntry} {name : List Char} {ws ws' : List Word}
    (h : HasDict U dir name ws) (h' : HasDict U dir name ws') : ws = ws' := by
  rw [← C40_dictionaries] at h h'
  exact Option.some.inj (h.symm.trans h')

theorem get_none_iff {U : Unicode} {dir : List DirEntry} {name : List Char} :
    Dicts.get (loadDir U [] dir) name = none ↔ ∀ ws, ¬ HasDict U dir name ws := by
  rw [Option.eq_none_iff_forall_not_mem]
  exact forall_congr' fun ws => not_congr (C40_dictionaries U dir name ws)

/-- C40: what the server does when it looks for the words of a query: it fails iff neither the dictionary named nor the
dictionary `default` exists (even if the query has its own word list), -/
theorem C40_missing (U : Unicode) (dir : List DirEntry) (name : List Char) :
    dictWords (loadDir U [] dir) name = .error .index ↔
      (∀ ws, ¬ HasDict U dir name ws) ∧ ∀ ws, ¬ HasDict U dir "default".toList ws := by
  unfold dictWords
  rw [← get_none_iff, ← get_none_iff]
  show _ ↔ _ ∧ Dicts.get _ defaultName = none
  cases Dicts.get (loadDir U [] dir) name <;> cases Dicts.get (loadDir U [] dir) defaultName <;> simp

/-- C40: and otherwise the words that the query is evaluated on are its own word list; or those of the dictionary it names;
or those of the dictionary `default`. -/
theorem C40_words {U : Unicode} {dir : List DirEntry} {o : QueryOptions} {dict : List Word}
    (h : dictWords (loadDir U [] dir) (o.dictionary.getD "default".toList) = .ok dict) (wl : List Word) :
    ChosenWords (HasDict U dir) o wl ↔ wl = o.wordlist.getD dict := by
  have hd : ∀ name, dictWords (loadDir U [] dir) name = .ok dict →
      (HasDict U dir name dict ∨ (∀ ws, ¬ HasDict U dir name ws) ∧ HasDict U dir "default".toList dict) := by
    intro name hn
    unfold dictWords at hn
    rw [← C40_dictionaries, ← C40_dictionaries, ← get_none_iff]
    show _ ∨ _ ∧ Dicts.get _ defaultName = some dict
    revert hn
    cases Dicts.get (loadDir U [] dir) name <;> cases Dicts.get (loadDir U [] dir) defaultName <;> simp
  have hdef : HasDict U dir "default".toList dict → ∀ {ws}, HasDict U dir "default".toList ws → ws = dict :=
    fun h1 _ h2 => hasDict_unique h2 h1
  cases hw : o.wordlist with
  | some w =>
    constructor
    · rintro (⟨h1⟩ | ⟨h1, _⟩ | ⟨h1, _⟩ | ⟨h1, _⟩)
      · rw [hw] at h1; exact (Option.some.inj h1).symm
      all_goals rw [hw] at h1; cases h1
    · rintro rfl; exact .given hw
  | none =>
    show _ ↔ wl = dict
    cases hn : o.dictionary with
    | none =>
      rw [hn] at h
      have hdd : HasDict U dir "default".toList dict := by
        rcases hd _ h with h1 | ⟨_, h1⟩ <;> exact h1
      constructor
      · rintro (⟨h1⟩ | ⟨_, h1, _⟩ | ⟨_, h1, _⟩ | ⟨_, _, h1⟩)
        · rw [hw] at h1; cases h1
        · rw [hn] at h1; cases h1
        · rw [hn] at h1; cases h1
        · exact hasDict_unique h1 hdd
      · rintro rfl; exact .unnamed hw hn hdd
    | some name =>
      rw [hn] at h
      constructor
      · rintro (⟨h1⟩ | ⟨_, h1, h2⟩ | ⟨_, h1, h2, h3⟩ | ⟨_, h1, _⟩)
        · rw [hw] at h1; cases h1
        · rw [hn] at h1; cases h1
          rcases hd _ h with h4 | ⟨h4, _⟩
          · exact hasDict_unique h2 h4
          · exact absurd h2 (h4 _)
        · rw [hn] at h1; cases h1
          rcases hd _ h with h4 | ⟨_, h4⟩
          · exact absurd h4 (h2 _)
          · exact hasDict_unique h3 h4
        · rw [hn] at h1; cases h1
      · rintro rfl
        rcases hd _ h with h4 | ⟨h4, h5⟩
        · exact .named hw hn h4
        · exact .unknown hw hn h4 h5

/-- A query fails with this panic. -/
def fails (c : Crash) (r : Except Crash (Option (List Char))) : Bool :=
  match r with
  | .error x => decide (x = c)
  | .ok _ => false

theorem eq_of_fails {c : Crash} {r : Except Crash (Option (List Char))} (h : fails c r = true) : r = .error c := by
  unfold fails at h
  split at h
  · rw [of_decide_eq_true h]
  · cases h

/-- C40: a server without a dictionary `default` fails on a query with its own word list. -/
theorem C40_counterexample :
    syncBody asciiUnicode id [] "a\n#wordlist\na".toList true [none, none, none] = .error .index :=
  eq_of_fails (by decide +kernel)

/-! ### Word lists are in order -/

theorem sortWords_tranche (l : List Word) : (sortWords l).Pairwise fun a b => a.tranche ≤ b.tranche :=
  (sortWords_sorted l).imp fun h => tranche_of_cmp h

theorem hasDict_tranche {U : Unicode} {dir : List DirEntry} {name : List Char} {ws : List Word}
    (h : HasDict U dir name ws) : ws.Pairwise fun a b => a.tranche ≤ b.tranche := by
  obtain ⟨_, e, _, _, _, _, rfl, _⟩ := h
  exact sortWords_tranche _

theorem ofText_tranche {U : Unicode} {text : List Char} {q : QueryAst} {wl : List Word}
    (h : QueryAst.ofText U text = .ok q) (hw : q.options.wordlist = some wl) :
    wl.Pairwise fun a b => a.tranche ≤ b.tranche := by
  unfold QueryAst.ofText at h
  revert h
  generalize parseLines U 0 (splitLines text) {} = r
  intro h
  cases r with
  | error e => cases h
  | ok st =>
    simp only [Except.bind] at h
    revert h
    generalize orCrash (expandExpressions st.expressions) = r
    intro h
    cases r with
    | error e => cases h
    | ok es =>
      simp only [Except.map] at h
      injection h with h
      subst h
      simp only [Option.map_eq_some_iff] at hw
      obtain ⟨l, _, rfl⟩ := hw
      exact sortWords_tranche _

theorem chosen_tranche {U : Unicode} {dir : List DirEntry} {text : List Char} {q : QueryAst} {wl : List Word}
    (h : QueryAst.ofText U text = .ok q) (hw : ChosenWords (HasDict U dir) q.options wl) :
    wl.Pairwise fun a b => a.tranche ≤ b.tranche := by
  rcases hw with ⟨h1⟩ | ⟨_, _, h1⟩ | ⟨_, _, _, h1⟩ | ⟨_, _, h1⟩
  · exact ofText_tranche h h1
  all_goals exact hasDict_tranche h1

theorem dictWords_of_chosen {U : Unicode} {dir : List DirEntry} {o : QueryOptions}
    (hdef : ∃ ws, HasDict U dir "default".toList ws) :
    ∃ dict, dictWords (loadDir U [] dir) (o.dictionary.getD "default".toList) = .ok dict := by
  cases h : dictWords (loadDir U [] dir) (o.dictionary.getD "default".toList) with
  | ok d => exact ⟨d, rfl⟩
  | error c =>
    have hc : c = .index := by
      unfold dictWords at h
      revert h
      cases Dicts.get (loadDir U [] dir) (o.dictionary.getD "default".toList) <;>
        cases Dicts.get (loadDir U [] dir) defaultName <;> simp <;> (intro h; exact h.symm)
    subst hc
    obtain ⟨ws, hws⟩ := hdef
    exact absurd hws (((C40_missing U dir _).1 h).2 ws)

/-! ### C39 -/

theorem bodyLine_plain (ws : List Word) : bodyLine true ws = plainLine ws := by
  simp [bodyLine, plainLine, List.flatMap]

/-- The text of an answer of the HTTP interface. -/
def Spec.answerText (plaintext : Bool) (rs : List Resp) : List Char :=
  (reported rs).flatMap (fun ws => if plaintext then plainLine ws else flattenPhrase ws ++ ['\n']) ++
    if .timeout ∈ rs then (if plaintext then "# Timeout after 10s\n" else "# Timeout after 150s\n").toList else []

theorem sync_answer {p : Bool} {es : List Expr} {wl : List Word} {depth : Nat} {limit : Option Nat} {clks : List Clock}
    {rs : List Resp} (he : Ended rs) (hs : Session es wl depth limit (clks.take rs.length) rs) {q : QState}
    (hq : QState.new es wl depth limit = .ok q) : syncLoop p q clks [] = .ok (some (answerText p rs)) := by
  obtain ⟨a, r, rfl, hr, ha⟩ := he
  obtain ⟨q0, q', h1, h2⟩ := hs
  obtain rfl := Except.ok.inj (h1.symm.trans hq)
  have := syncLoop_run p a r (rest := clks.drop (a ++ [r]).length) [] h2 ha hr
  rw [List.take_append_drop] at this
  rw [this, List.nil_append]
  have h3 : reported (a ++ [r]) = reported a := by
    rw [reported_append]
    rcases hr with rfl | rfl <;> simp [reported]
  have h4 : (.timeout ∈ a ++ [r]) ↔ r = .timeout := by
    simp only [List.mem_append, List.mem_singleton]
    constructor
    · rintro (h | h)
      · exact absurd rfl (ha _ h).1
      · exact h.symm
    · exact fun h => .inr h.symm
  unfold answerText
  rw [h3]
  simp only [h4]
  have h5 : bodyLine p = fun ws => if p then plainLine ws else flattenPhrase ws ++ ['\n'] := by
    funext ws
    cases p with
    | true => simp [bodyLine_plain]
    | false => simp [bodyLine]
  rw [h5]
  cases p <;> rfl

/-- C39: the HTTP interface answers every query that compiles, whatever the deadline: after a bounded number of calls of
the evaluator, with the matches reported up to the first `Timeout` or `Complete`, in order, one per line, and then a line
that says so iff it was a timeout. The session is that of the words chosen for the query, with the limits it sets (and 10
words, and 300 results or, for plain text, 15, if it sets none). -/
theorem C39_answer {U : Unicode} {errorText : List Char → List Char} {dir : List DirEntry} {query : List Char}
    {plaintext : Bool} {q : QueryAst} {es : List Expr} {wl : List Word} (hq : QueryAst.ofText U query = .ok q)
    (hdef : ∃ ws, HasDict U dir "default".toList ws) (hwl : ChosenWords (HasDict U dir) q.options wl)
    (hne : q.expressions ≠ []) (hes : q.expressions.mapM fromAst = .ok es) :
    ∃ N, ∀ clks : List Clock, N ≤ clks.length → ∃ rs, Ended rs ∧
      Session es wl (q.options.maxWords.getD 10) (some (q.options.limit.getD (if plaintext then 15 else 300)))
        (clks.take rs.length) rs ∧
      syncBody U errorText (loadDir U [] dir) query plaintext clks = .ok (some (answerText plaintext rs)) := by
  have hready : Ready es wl := C06_ready hne hes (chosen_tranche hq hwl)
  obtain ⟨N, hN⟩ := ended_session hready (q.options.maxWords.getD 10)
  refine ⟨N, fun clks hl => ?_⟩
  obtain ⟨rs, he, _, hs⟩ := hN (some (q.options.limit.getD (if plaintext then 15 else 300))) clks hl
  refine ⟨rs, he, hs, ?_⟩
  obtain ⟨dict, hdict⟩ := dictWords_of_chosen (o := q.options) hdef
  obtain rfl := (C40_words hdict wl).1 hwl
  obtain ⟨q0, q', h1, h2⟩ := hs
  have hlim : (limitPlain plaintext q).options.limit.or (some 300) =
      some (q.options.limit.getD (if plaintext then 15 else 300)) := by
    unfold limitPlain
    cases plaintext <;> cases h : q.options.limit <;> simp [h]
  have ho : (limitPlain plaintext q).options.dictionary = q.options.dictionary ∧
      (limitPlain plaintext q).options.wordlist = q.options.wordlist ∧
      (limitPlain plaintext q).options.maxWords = q.options.maxWords ∧
      (limitPlain plaintext q).expressions = q.expressions := by
    unfold limitPlain
    split <;> exact ⟨rfl, rfl, rfl, rfl⟩
  unfold syncBody
  rw [hq]
  show (match dictWords _ ((limitPlain plaintext q).options.dictionary.getD "default".toList) with
    | .error c => _
    | .ok dict => _) = _
  rw [ho.1, hdict]
  simp only [QState.ofAst, ho, hes, Except.bind, hlim, h1]
  exact sync_answer he ⟨q0, q', h1, h2⟩ h1

/-- C39: a query with a syntax error is answered with the text of the error. -/
theorem C39_error {U : Unicode} {errorText : List Char → List Char} {ds : Dicts} {query : List Char} {plaintext : Bool}
    {n : Nat} (h : QueryAst.ofText U query = .error (.syntax n)) (clks : List Clock) :
    syncBody U errorText ds query plaintext clks = .ok (some (errorText query)) := by
  unfold syncBody
  rw [h]

/-- C39: without a timeout the answer does not depend on the timing, and lists the first results of the complete run;
with one, it lists a beginning of them. -/
theorem C39_same {es : List Expr} {wl : List Word} (h : Ready es wl) {depth n : Nat} {clks clks' : List Clock}
    {rs rs' : List Resp} (hs : Session es wl depth (some n) clks rs) (he : Ended rs)
    (hs' : Session es wl depth none clks' rs') (hc' : Completed rs') :
    (.timeout ∉ rs → reported rs = (reported rs').take n) ∧ reported rs <+: (reported rs').take n := by
  constructor
  · intro ht
    refine C20_first h hs ?_ hs' hc'
    obtain ⟨a, r, rfl, hr, _⟩ := he
    rcases hr with rfl | rfl
    · exact absurd (by simp) ht
    · simp [Completed]
  · have h1 := C21_prefix h hs hs' hc'
    have h2 := C20_limit h hs
    exact List.prefix_take_iff.2 ⟨h1, h2⟩

/-- C39: the JSON lines are what they should be: the text and the score of each word of the match, on one line. -/
theorem C39_json (ws : List Word) : JsonMatch (flattenPhrase ws) (ws.map entry) ∧ '\n' ∉ flattenPhrase ws :=
  ⟨jsonMatch_spec ws, jsonMatch_line (jsonMatch_spec ws)⟩

/-- C39: a client can tell from an answer in JSON which matches were found, in which order, and whether the time was up. -/
theorem C39_readable {rs rs' : List Resp} (h : answerText false rs = answerText false rs') :
    (reported rs).map (fun ws => ws.map entry) = (reported rs').map (fun ws => ws.map entry) ∧
      (.timeout ∈ rs ↔ .timeout ∈ rs') := by
  unfold answerText at h
  have hne : ∀ (rs : List Resp) (t : List Char),
      (if .timeout ∈ rs then (if false then "# Timeout after 10s\n" else "# Timeout after 150s\n").toList else []) ≠ '{' :: t := by
    intro rs t
    split
    · rw [if_neg (by simp), show "# Timeout after 150s\n".toList = '#' :: " Timeout after 150s\n".toList by decide]
      simp
    · simp
  obtain ⟨h1, h2⟩ := jsonLines_unique (hne rs) (hne rs') h
  refine ⟨h1, ?_⟩
  have hl : (if false then "# Timeout after 10s\n" else "# Timeout after 150s\n").toList ≠ [] := by decide
  by_cases ha : .timeout ∈ rs <;> by_cases hb : .timeout ∈ rs'
  · simp [ha, hb]
  · rw [if_pos ha, if_neg hb] at h2; exact absurd h2 hl
  · rw [if_neg ha, if_pos hb] at h2; exact absurd h2.symm hl
  · simp [ha, hb]

/-- A case of `C39_json`: a quotation mark in a text is escaped. -/
example : flattenPhrase [⟨1, [], "a\"b", 7⟩, ⟨1, [], "c", 10⟩] =
    "{\"match\":{\"phrase\":[{\"text\":\"a\\\"b\",\"score\":7},{\"text\":\"c\",\"score\":10}]}}".toList := by
  decide +kernel

/-- A query, and a directory, that meet the hypotheses of `C39_answer`. -/
def Spec.sampleDir : List DirEntry := [⟨"README".toList, false, []⟩, ⟨"default.txt".toList, true, "ab\ncd\n".toList⟩]

example : ∃ q es wl, QueryAst.ofText asciiUnicode "ab #dict nix".toList = .error (.syntax 1) ∧
    QueryAst.ofText asciiUnicode "#dict nix;ab".toList = .ok q ∧
    (∃ ws, HasDict asciiUnicode sampleDir "default".toList ws) ∧
    ChosenWords (HasDict asciiUnicode sampleDir) q.options wl ∧ q.expressions ≠ [] ∧
    q.expressions.mapM fromAst = .ok es := by
  have h1 : (match QueryAst.ofText asciiUnicode "ab #dict nix".toList with
      | .error (.syntax n) => n == 1 | _ => false) = true := by decide +kernel
  have h2 : (match QueryAst.ofText asciiUnicode "#dict nix;ab".toList with
      | .ok q => q.options.wordlist.isNone && (q.options.dictionary == some "nix".toList) && !q.expressions.isEmpty &&
          (match q.expressions.mapM fromAst with | .ok _ => true | _ => false)
      | _ => false) = true := by decide +kernel
  have h3 : HasDict asciiUnicode sampleDir "default".toList (loadWordlist asciiUnicode "ab\ncd\n".toList) :=
    ⟨[⟨"README".toList, false, []⟩], _, [], rfl, rfl, ⟨by decide, .inr ⟨"txt".toList, rfl⟩⟩, rfl, by simp⟩
  have h4 : ∀ ws, ¬ HasDict asciiUnicode sampleDir "nix".toList ws := by
    rw [← get_none_iff, loadDir_get]
    have : firstFile sampleDir "nix".toList = none := by
      unfold firstFile
      rw [List.find?_eq_none]
      decide
    rw [this]
    rfl
  revert h1 h2
  generalize QueryAst.ofText asciiUnicode "ab #dict nix".toList = r1
  generalize QueryAst.ofText asciiUnicode "#dict nix;ab".toList = r2
  intro h1 h2
  match r1, r2, h1, h2 with
  | .error (.syntax n), .ok q, h1, h2 =>
    simp only [Bool.and_eq_true, beq_iff_eq] at h1 h2
    subst h1
    obtain ⟨⟨⟨h5, h6⟩, h7⟩, h8⟩ := h2
    revert h8
    cases hm : q.expressions.mapM fromAst with
    | error c => intro h; cases h
    | ok es =>
      intro _
      exact ⟨q, es, _, rfl, rfl, ⟨_, h3⟩, .unknown (by simpa using h5) h6 h4 h3, by simpa using h7, hm⟩

end Noodle
