import Verif.Spec.Wire
import Verif.Proofs.JsonText
import Verif.Props.C44
import Verif.Props.C57
/-
C68: what is sent over a web socket, and what the page makes of it.
-/
namespace Noodle
open Spec
set_option autoImplicit false

/-! ### Writing -/

theorem skip_id {c : Char} {t : List Char} (h : c ∉ [' ', '\t', '\n', '\r']) : skip (c :: t) = c :: t := by
  unfold skip
  rw [List.dropWhile_cons, if_neg (by simpa using h)]

theorem jsonChar_str (c : Char) {i s r : List Char} (h : JsonStr i s r) : JsonStr (jsonChar c ++ i) (c :: s) r := by
  unfold jsonChar
  split
  · rename_i hc; subst hc; exact .escape (by simp) h
  split
  · rename_i hc; subst hc; exact .escape (by simp) h
  split
  · rename_i hc; obtain rfl : c = Char.ofNat 8 := char_eq (by rw [hc]; rfl)
    exact .escape (by decide) h
  split
  · rename_i hc; obtain rfl : c = '\t' := char_eq (by rw [hc]; rfl)
    exact .escape (by decide) h
  split
  · rename_i hc; obtain rfl : c = '\n' := char_eq (by rw [hc]; rfl)
    exact .escape (by decide) h
  split
  · rename_i hc; obtain rfl : c = Char.ofNat 12 := char_eq (by rw [hc]; rfl)
    exact .escape (by decide) h
  split
  · rename_i hc; obtain rfl : c = '\r' := char_eq (by rw [hc]; rfl)
    exact .escape (by decide) h
  split
  · rename_i hc
    refine .unicode (h := ['0', '0', hexDigit (c.toNat / 16), hexDigit (c.toNat % 16)]) rfl ?_ h
    exact ⟨_, _, _, _, 0, 0, _, _, rfl, .inl (by decide), .inl (by decide), .inl (hex_mem _ (by omega)),
      .inl (hex_mem _ (by omega)), by omega⟩
  · rename_i h1 h2 _ _ _ _ _ h8
    exact .raw (by omega) h1 h2 h

theorem jsonString_str : ∀ (s r : List Char), JsonStr (s.flatMap jsonChar ++ '"' :: r) s r
  | [], r => .close r
  | c :: s, r => by
    rw [List.flatMap_cons, List.append_assoc]
    exact jsonChar_str c (jsonString_str s r)

theorem jsonString_value (s r : List Char) : JsonValue (jsonString s ++ r) (.str s) r := by
  have : jsonString s ++ r = '"' :: (s.flatMap jsonChar ++ '"' :: r) := by simp [jsonString]
  rw [this]
  exact .str (jsonString_str s r)

/-- A name that is written as it is. -/
def plainName (k : List Char) : Bool := k.all fun c => decide (32 ≤ c.toNat) && c != '"' && c != '\\'

theorem plainName_str : ∀ {k : List Char}, plainName k = true → ∀ r, JsonStr (k ++ '"' :: r) k r
  | [], _, r => .close r
  | c :: k, h, r => by
    simp only [plainName, List.all_cons, Bool.and_eq_true, decide_eq_true_eq, bne_iff_ne] at h
    exact .raw h.1.1.1 h.1.1.2 h.1.2 (plainName_str (by simpa [plainName] using h.2) r)

/-- The text of a value: it does not begin with a blank, and is read before anything that does not go on like a number. -/
structure Writes (x : List Char) (v : Json) : Prop where
  head : ∃ c t, x = c :: t ∧ c ∉ [' ', '\t', '\n', '\r']
  value : ∀ r : List Char, (∀ c, r.head? = some c → numChar c = false) → JsonValue (x ++ r) v r

theorem Writes.before {x : List Char} {v : Json} (h : Writes x v) (c : Char) (r : List Char) (hc : numChar c = false) :
    JsonValue (x ++ c :: r) v (c :: r) :=
  h.value _ fun d hd => by
    obtain rfl : c = d := by simpa using hd
    exact hc

theorem Writes.skip {x : List Char} {v : Json} (h : Writes x v) (r : List Char) : skip (x ++ r) = x ++ r := by
  obtain ⟨c, t, rfl, hc⟩ := h.head
  exact skip_id hc

theorem writes_str (s : List Char) : Writes (jsonString s) (.str s) :=
  ⟨⟨'"', _, rfl, by decide⟩, fun r _ => jsonString_value s r⟩

theorem toDigits_head (n : Nat) : (Nat.toDigits 10 n).head? = some '0' → n = 0 := by
  induction n using Nat.strongRecOn with
  | _ n ih =>
    by_cases h : n < 10
    · rw [Nat.toDigits_of_lt_base h]
      have : ∀ n : Fin 10, [n.val.digitChar].head? = some '0' → n.val = 0 := by decide
      exact this ⟨n, h⟩
    · rw [Nat.toDigits_of_base_le (by omega) (by omega)]
      intro hh
      rw [List.head?_append_of_ne_nil _ Nat.toDigits_ne_nil] at hh
      have := ih (n / 10) (by omega) hh
      omega

theorem toString_numeral (n : Nat) : Numeral (toString n).toList := by
  have h : Digits (toString n).toList := by
    exact ⟨digits_ne n, digits_digit n⟩
  have h0 : (toString n).toList.head? = some '0' → (toString n).toList = ['0'] := by
    show (Nat.repr n).toList.head? = _ → (Nat.repr n).toList = _
    rw [Nat.toList_repr]
    intro h
    have := toDigits_head n h
    subst this
    rfl
  have := Numeral.mk (sign := []) (frac := []) (exp := []) (by simp) h h0 (.inl rfl) (.inl rfl)
  simpa using this

theorem writes_num (n : Nat) : Writes (toString n).toList (.num (toString n).toList) := by
  have h := toString_numeral n
  refine ⟨?_, fun r hr => .num rfl h hr⟩
  have := numeral_chars h
  cases ht : (toString n).toList with
  | nil => exact absurd ht this.1
  | cons c t =>
    refine ⟨c, t, rfl, fun hc => ?_⟩
    have h1 := this.2 c (by rw [ht]; simp)
    have key : ∀ c ∈ [' ', '\t', '\n', '\r'], numChar c = false := by decide
    rw [key c hc] at h1
    cases h1

theorem writes_one {k x : List Char} {v : Json} (hk : plainName k = true) (h : Writes x v) :
    Writes ("{\"".toList ++ k ++ "\":".toList ++ x ++ "}".toList) (.obj [(k, v)]) := by
  refine ⟨⟨'{', _, rfl, by decide⟩, fun r _ => ?_⟩
  have : "{\"".toList ++ k ++ "\":".toList ++ x ++ "}".toList ++ r =
      '{' :: '"' :: (k ++ '"' :: ':' :: (x ++ '}' :: r)) := by simp
  rw [this]
  exact .members (.last (skip_id (by decide)) (plainName_str hk _) (skip_id (by decide))
    (by rw [h.skip]; exact h.before '}' _ (by decide)) (skip_id (by decide)))

theorem writes_two {k k' x x' : List Char} {v v' : Json} (hk : plainName k = true) (hk' : plainName k' = true)
    (h : Writes x v) (h' : Writes x' v') :
    Writes ("{\"".toList ++ k ++ "\":".toList ++ x ++ ",\"".toList ++ k' ++ "\":".toList ++ x' ++ "}".toList)
      (.obj [(k, v), (k', v')]) := by
  refine ⟨⟨'{', _, rfl, by decide⟩, fun r _ => ?_⟩
  have : "{\"".toList ++ k ++ "\":".toList ++ x ++ ",\"".toList ++ k' ++ "\":".toList ++ x' ++ "}".toList ++ r =
      '{' :: '"' :: (k ++ '"' :: ':' :: (x ++ ',' :: '"' :: (k' ++ '"' :: ':' :: (x' ++ '}' :: r)))) := by simp
  rw [this]
  exact .members (.more (skip_id (by decide)) (plainName_str hk _) (skip_id (by decide))
    (by rw [h.skip]; exact h.before ',' _ (by decide)) (skip_id (by decide))
    (.last (skip_id (by decide)) (plainName_str hk' _) (skip_id (by decide))
      (by rw [h'.skip]; exact h'.before '}' _ (by decide)) (skip_id (by decide))))

/-- The value of a word. -/
def wordValue (w : Word) : Json := .obj [("text".toList, .str w.text.toList), ("score".toList, .num (toString w.score).toList)]

theorem writes_word (w : Word) : Writes (jsonWord w) (wordValue w) := by
  have := writes_two (k := "text".toList) (k' := "score".toList) (by decide) (by decide) (writes_str w.text.toList)
    (writes_num w.score)
  have e : jsonWord w = "{\"".toList ++ "text".toList ++ "\":".toList ++ jsonString w.text.toList ++ ",\"".toList ++
      "score".toList ++ "\":".toList ++ (toString w.score).toList ++ "}".toList := by
    unfold jsonWord
    simp only [List.append_assoc]
    rfl
  rw [e]
  exact this

theorem items_write : ∀ (w : Word) (ws : List Word) (r : List Char),
    JsonItems (commas ((w :: ws).map jsonWord) ++ ']' :: r) ((w :: ws).map wordValue) r
  | w, [], r => by
    have h := writes_word w
    show JsonItems (jsonWord w ++ ']' :: r) [wordValue w] r
    exact .last (by rw [h.skip]; exact h.before ']' r (by decide)) (skip_id (by decide))
  | w, w' :: ws, r => by
    have h := writes_word w
    have e : commas ((w :: w' :: ws).map jsonWord) ++ ']' :: r =
        jsonWord w ++ ',' :: (commas ((w' :: ws).map jsonWord) ++ ']' :: r) := by
      simp [commas]
    rw [e]
    exact .more (by rw [h.skip]; exact h.before ',' _ (by decide)) (skip_id (by decide)) (items_write w' ws r)

theorem writes_words (ws : List Word) : Writes ("[".toList ++ commas (ws.map jsonWord) ++ "]".toList) (.arr (ws.map wordValue)) := by
  refine ⟨⟨'[', _, rfl, by decide⟩, fun r _ => ?_⟩
  have e : "[".toList ++ commas (ws.map jsonWord) ++ "]".toList ++ r =
      '[' :: (commas (ws.map jsonWord) ++ ']' :: r) := by simp
  rw [e]
  cases ws with
  | nil => exact .noItems (skip_id (by decide))
  | cons w ws => exact .items (items_write w ws _)

/-- The value of a message. -/
def responseValue : Response → Json
  | .status t => .obj [("status".toList, .str t)]
  | .log t => .obj [("log".toList, .obj [("message".toList, .str t)])]
  | .found ws => .obj [("match".toList, .obj [("phrase".toList, .arr (ws.map wordValue))])]

theorem writes_response (m : Response) : Writes m.json (responseValue m) := by
  cases m with
  | status t =>
    have h := writes_one (k := "status".toList) (by decide) (writes_str t)
    have e : Response.json (.status t) = "{\"".toList ++ "status".toList ++ "\":".toList ++ jsonString t ++ "}".toList := by
      unfold Response.json
      simp only [List.append_assoc]
      rfl
    rw [e]
    exact h
  | log t =>
    have h := writes_one (k := "log".toList) (by decide) (writes_one (k := "message".toList) (by decide) (writes_str t))
    have e : Response.json (.log t) = "{\"".toList ++ "log".toList ++ "\":".toList ++
        ("{\"".toList ++ "message".toList ++ "\":".toList ++ jsonString t ++ "}".toList) ++ "}".toList := by
      unfold Response.json
      simp only [List.append_assoc]
      rfl
    rw [e]
    exact h
  | found ws =>
    have h := writes_one (k := "match".toList) (by decide) (writes_one (k := "phrase".toList) (by decide) (writes_words ws))
    have e : Response.json (.found ws) = "{\"".toList ++ "match".toList ++ "\":".toList ++
        ("{\"".toList ++ "phrase".toList ++ "\":".toList ++ ("[".toList ++ commas (ws.map jsonWord) ++ "]".toList) ++
          "}".toList) ++ "}".toList := by
      show flattenPhrase ws = _
      unfold flattenPhrase
      simp only [List.append_assoc]
      rfl
    rw [e]
    exact h

theorem response_text (m : Response) : JsonText m.json (responseValue m) := by
  have h := writes_response m
  refine ⟨[], ?_, rfl⟩
  have h1 := h.skip []
  have h2 := h.value [] (by simp)
  rw [List.append_nil] at h1 h2
  rw [h1]
  exact h2

/-! ### Reading -/

theorem readWord_value (w : Word) : readWord (wordValue w) = some (entry w) := by
  have h : ((toString w.score).toList.all Char.isDigit) = true := List.all_eq_true.2 (digits_digit w.score)
  have h2 : decimal (toString w.score).toList = w.score := decimal_digits w.score
  have e1 : (wordValue w).field "text".toList = some (.str w.text.toList) := rfl
  have e2 : (wordValue w).field "score".toList = some (.num (toString w.score).toList) := rfl
  have e3 : (Json.num (toString w.score).toList).nat = some w.score := by
    show (if ((toString w.score).toList.all Char.isDigit) = true then some (decimal (toString w.score).toList) else none) = _
    rw [if_pos h, h2]
  unfold readWord
  rw [e1, e2]
  simp only [Option.bind_some, e3]
  rfl

theorem readWords_value : ∀ ws : List Word, (ws.map wordValue).mapM readWord = some (ws.map entry)
  | [] => rfl
  | w :: ws => by
    rw [List.map_cons, List.mapM_cons, readWord_value, readWords_value ws]
    rfl

theorem readMsg_value (m : WsMsg) :
    readMsg (responseValue m.response) = if m = .status [] then none else some (shownAs m) := by
  have hstatus : ∀ t : List Char, t ≠ [] → readMsg (responseValue (.status t)) = some (.status t) := by
    intro t ht
    cases t with
    | nil => exact absurd rfl ht
    | cons c t => rfl
  cases m with
  | begun n =>
    rw [if_neg (by simp)]
    show readMsg (responseValue (.status _)) = _
    rw [hstatus _ (by simp)]
    simp [shownAs, shownNat, toString]
  | status t =>
    by_cases h : t = []
    · subst h; rfl
    · rw [if_neg (by simpa using h)]
      exact hstatus t h
  | progress secs t =>
    rw [if_neg (by simp)]
    show readMsg (responseValue (.status _)) = _
    rw [hstatus _ (by simp)]
    simp [shownAs, toString]
  | ended t elapsed =>
    rw [if_neg (by simp)]
    show readMsg (responseValue (.status _)) = _
    rw [hstatus _ (by simp)]
    simp [shownAs, toString]
  | log t => rfl
  | matched ws =>
    rw [if_neg (by simp)]
    show ((ws.map wordValue).mapM readWord).map Msg.found = _
    rw [readWords_value]
    rfl

/-- C68: each message is sent as a JSON text with exactly one value, and the page takes from it what the message says: the number
of other queries, the texts, and the text and score of each word. -/
theorem C68_message (m : WsMsg) (hm : m ≠ .status []) :
    (∃ v, JsonText m.response.json v ∧ ∀ v', JsonText m.response.json v' → v' = v) ∧
      ∀ got, Carried m.response.json got ↔ got = shownAs m := by
  have h := response_text m.response
  refine ⟨⟨_, h, fun v' h' => jsonText_det h' h⟩, fun got => ⟨?_, ?_⟩⟩
  · rintro ⟨v, h1, h2⟩
    rw [jsonText_det h1 h, readMsg_value, if_neg hm] at h2
    exact (Option.some.inj h2).symm
  · rintro rfl
    exact ⟨_, h, by rw [readMsg_value, if_neg hm]⟩

/-! ### The messages of a session -/

theorem wsLoop_status (F : Floats) (P : Prints) : ∀ (ticks : List Tick) (s : Shown), WsMsg.status [] ∉ (wsLoop F P s ticks).1
  | [], s => by simp [wsLoop]
  | t :: ts, s => by
    unfold wsLoop
    split
    · simp
    split
    · simp
    split
    · simp
    · simpa using wsLoop_status F P ts _
    · simpa using wsLoop_status F P ts _
    · split
      · simp
      · simpa using wsLoop_status F P ts _
    · simp

/-- C68: there is no message that the page ignores. -/
theorem C68_status (F : Floats) (P : Prints) (U : Unicode) (ds : Dicts) (msg : Option (Option (List Char)))
    (sends : Option Nat) (others : Nat) (ticks : List Tick) :
    WsMsg.status [] ∉ (wsRun F P U ds msg sends others ticks).2.1 := by
  unfold wsRun
  cases msg with
  | none => simp
  | some m =>
    have key : WsMsg.status [] ∉ (wsTalk F P U ds m others ticks).1 := by
      unfold wsTalk
      split
      · simp
      split
      · simp
      · simp
      · split
        · simp
        · split
          · simp
          · intro h
            simp only [List.mem_append, List.mem_cons, List.not_mem_nil, or_false, List.mem_map] at h
            rcases h with ((h | h) | ⟨_, _, h⟩) | h
            · cases h
            · cases h
            · cases h
            · exact wsLoop_status F P ticks _ h
    dsimp only
    split
    · split
      · exact fun h => key (List.mem_of_mem_take h)
      · exact key
    · exact key

theorem sentLogs_map (ts : List (List Char)) : sentLogs (ts.map WsMsg.log) = ts := by
  unfold sentLogs
  rw [List.filterMap_map]
  exact List.filterMap_some

theorem sentLogs_append (a b : List WsMsg) : sentLogs (a ++ b) = sentLogs a ++ sentLogs b := List.filterMap_append

/-- The texts of a call, before those of later calls. -/
def addLog (took : List Char) (q : QState) (c : Clock) (ls : List (List (List Char))) : Resp → List (List (List Char))
  | .logs _ => q.logText took c :: ls
  | _ => ls

theorem logTexts_cons {took : List Char} {q q' : QState} {c : Clock} {cs : List Clock} {r : Resp} {ls : List (List (List Char))}
    (h1 : q.next c = .ok (q', r)) (h2 : q'.logTexts took cs = .ok ls) :
    q.logTexts took (c :: cs) = .ok (addLog took q c ls r) := by
  rw [QState.logTexts, h1]
  dsimp only
  rw [h2]
  cases r <;> rfl

theorem wsLoop_logs (F : Floats) (P : Prints) : ∀ (ticks : List Tick) (s : Shown),
    ∃ (k : Nat) (s' : Shown) (rs : List Resp) (ls : List (List (List Char))),
      s.run F ((ticks.take k).map Tick.clock) = .ok (s', rs) ∧
      s.q.logTexts P.took ((ticks.take k).map Tick.clock) = .ok ls ∧
      sentMatches (wsLoop F P s ticks).1 = reported rs ∧ sentLogs (wsLoop F P s ticks).1 = ls.flatten
  | [], s => ⟨0, s, [], [], rfl, rfl, rfl, rfl⟩
  | t :: ts, s => by
    unfold wsLoop
    split
    · exact ⟨0, s, [], [], rfl, rfl, rfl, rfl⟩
    split
    · exact ⟨0, s, [], [], rfl, rfl, rfl, rfl⟩
    cases h1 : s.next F t.clock with
    | error x => exact ⟨0, s, [], [], rfl, rfl, rfl, rfl⟩
    | ok v =>
      obtain ⟨s1, r⟩ := v
      obtain ⟨k, s', rs, ls, i1, i2, i3, i4⟩ := wsLoop_logs F P ts s1
      have hrun : s.run F (((t :: ts).take (k + 1)).map Tick.clock) = .ok (s', r :: rs) := by
        rw [List.take_succ_cons, List.map_cons]
        exact Shown.run_cons_ok h1 i1
      have hlog := logTexts_cons (took := P.took) (Shown.next_q h1) i2
      have hone : s.run F (((t :: ts).take 1).map Tick.clock) = .ok (s1, [r]) := by
        simp only [List.take_succ_cons, List.take_zero, List.map_cons, List.map_nil]
        exact Shown.run_cons_ok h1 rfl
      have hlog1 := logTexts_cons (took := P.took) (cs := []) (ls := []) (Shown.next_q h1) rfl
      rw [← List.map_cons, ← List.take_succ_cons] at hlog
      cases r with
      | complete =>
        refine ⟨1, s1, [.complete], [], hone, ?_, rfl, rfl⟩
        simpa [addLog] using hlog1
      | matched ws =>
        refine ⟨k + 1, s', _, ls, hrun, hlog, ?_, ?_⟩
        · show ws :: sentMatches _ = ws :: reported rs
          rw [i3]
        · exact i4
      | logs g =>
        refine ⟨k + 1, s', _, _, hrun, hlog, ?_, ?_⟩
        · dsimp only
          rw [reported_cons_none (by simp), ← i3]
          unfold sentMatches
          rw [List.filterMap_append, sent_logs, List.nil_append]
        · dsimp only
          rw [sentLogs_append, sentLogs_map, i4]
          rfl
      | timeout =>
        dsimp only
        cases hp : s1.progress F with
        | error x =>
          refine ⟨1, s1, [.timeout], [], hone, ?_, rfl, rfl⟩
          simpa [addLog] using hlog1
        | ok txt =>
          refine ⟨k + 1, s', _, ls, hrun, hlog, ?_, i4⟩
          rw [reported_cons_none (by simp), ← i3]
          rfl

theorem wsRun_sends (F : Floats) (P : Prints) (U : Unicode) (ds : Dicts) (m : Option (Option (List Char))) (sends : Option Nat)
    (others : Nat) (ticks : List Tick) :
    (wsRun F P U ds m sends others ticks).2.1 <+: (wsRun F P U ds m none others ticks).2.1 := by
  unfold wsRun
  cases m with
  | none => exact List.prefix_refl _
  | some m =>
    cases sends with
    | none => exact List.prefix_refl _
    | some n =>
      dsimp only
      split
      · exact List.take_prefix ..
      · exact List.prefix_refl _

/-- C68: over a web socket the log messages are, in order: for each expression what is logged of it, and then what the session
notes; and they come with the matches of the same session. Of both the client gets the first ones, and all if it stays. -/
theorem C68_log {F : Floats} {P : Prints} {U : Unicode} {dir : List DirEntry} {query : List Char} {q : QueryAst} {es : List Expr}
    {wl : List Word} (hq : QueryAst.ofText U query = .ok q) (hdef : ∃ ws, HasDict U dir "default".toList ws)
    (hwl : ChosenWords (HasDict U dir) q.options wl) (hne : q.expressions ≠ [])
    (hes : q.expressions.mapM fromAst = .ok es) (sends : Option Nat) (others : Nat) (ticks : List Tick) {sent : List WsMsg}
    (hsent : (wsRun F P U (loadDir U [] dir) (some (some query)) sends others ticks).2.1 = sent) :
    ∃ k rs ls, Noted es wl (q.options.maxWords.getD 10) (some (q.options.limit.getD 300))
        ((ticks.take k).map Tick.clock) (String.ofList P.took) rs ls ∧
      sentMatches sent <+: reported rs ∧
      sentLogs sent <+: List.zipWith ExprAst.logged q.expressions es ++ ls.flatten ∧
      (sends = none → sentMatches sent = reported rs ∧
        sentLogs sent = List.zipWith ExprAst.logged q.expressions es ++ ls.flatten) := by
  have hready : Ready es wl := C06_ready hne hes (chosen_tranche hq hwl)
  obtain ⟨dict, hdict⟩ := dictWords_of_chosen (o := q.options) hdef
  obtain rfl := (C40_words hdict wl).1 hwl
  have hlim : q.options.limit.or (some 300) = some (q.options.limit.getD 300) := by
    cases q.options.limit <;> rfl
  obtain ⟨_, ⟨q0, _, h0, _⟩, _⟩ := C42_no_crash hready (q.options.maxWords.getD 10) (some (q.options.limit.getD 300)) []
  have hexprs : q0.expressions = es := (C57_expressions h0 (clks := []) rfl).1 (by simp [Completed])
  obtain ⟨k, s', rs, ls, i1, i2, i3, i4⟩ := wsLoop_logs F P ticks ⟨q0, 0⟩
  have htalk : wsTalk F P U (loadDir U [] dir) (some query) others ticks =
      ([.begun others, .status ("Parsed query in ".toList ++ P.parsed ++ "...".toList)] ++
        (List.zipWith ExprAst.logged q.expressions es).map WsMsg.log ++ (wsLoop F P ⟨q0, 0⟩ ticks).1,
        (wsLoop F P ⟨q0, 0⟩ ticks).2) := by
    unfold wsTalk
    simp only [hq]
    show (match dictWords _ (q.options.dictionary.getD "default".toList) with | .error _ => _ | .ok dict => _) = _
    rw [hdict]
    simp only [QState.ofAst, hes, Except.bind, hlim, h0, hexprs]
  have hm : sentMatches (wsRun F P U (loadDir U [] dir) (some (some query)) none others ticks).2.1 = reported rs := by
    simp only [wsRun, htalk]
    rw [← i3]
    unfold sentMatches
    rw [List.filterMap_append, List.filterMap_append, sent_logs]
    rfl
  have hl : sentLogs (wsRun F P U (loadDir U [] dir) (some (some query)) none others ticks).2.1 =
      List.zipWith ExprAst.logged q.expressions es ++ ls.flatten := by
    simp only [wsRun, htalk]
    rw [sentLogs_append, sentLogs_append, sentLogs_map, i4]
    rfl
  have hpre := wsRun_sends F P U (loadDir U [] dir) (some (some query)) sends others ticks
  rw [hsent] at hpre
  refine ⟨k, rs, ls, ⟨q0, s'.q, h0, Shown.run_q i1, by simpa using i2⟩, ?_, ?_, ?_⟩
  · rw [← hm]; exact hpre.filterMap _
  · rw [← hl]; exact hpre.filterMap _
  · rintro rfl
    rw [← hsent]
    exact ⟨hm, hl⟩

/-! ### All messages, in order -/

/-- `Says`, from a given state on. -/
def SaysFrom (F : Floats) (P : Prints) (s0 : Shown) (clks : List Clock) (rs : List Resp) (t : Tick) : Resp → List WsMsg → Prop
  | .matched ws, ms => ms = [.matched ws]
  | .timeout, ms => ∃ s txt, s0.run F clks = .ok (s, rs) ∧ s.progress F = .ok txt ∧ ms = [.progress t.secs txt]
  | .logs _, ms => ∃ ls l s, s0.run F clks = .ok (s, rs) ∧ s0.q.logTexts P.took clks = .ok (ls ++ [l]) ∧ ms = l.map .log
  | .complete, ms => ∃ txt s, s0.run F clks = .ok (s, rs) ∧ s0.q.texts clks = .ok [txt] ∧ ms = [.ended txt t.elapsed]

theorem SaysFrom.cons {F : Floats} {P : Prints} {s s1 : Shown} {c : Clock} {cs : List Clock} {x r : Resp} {rs : List Resp}
    {t : Tick} {ms : List WsMsg} (h1 : s.next F c = .ok (s1, x)) (hx : x ≠ .complete) (h : SaysFrom F P s1 cs rs t r ms) :
    SaysFrom F P s (c :: cs) (x :: rs) t r ms := by
  cases r with
  | matched ws => exact h
  | timeout =>
    obtain ⟨s', txt, a, b, d⟩ := h
    exact ⟨s', txt, Shown.run_cons_ok h1 a, b, d⟩
  | logs g =>
    obtain ⟨ls, l, s', a, b, d⟩ := h
    have := logTexts_cons (Shown.next_q h1) b
    cases x with
    | logs g' => exact ⟨_ :: ls, l, s', Shown.run_cons_ok h1 a, this, d⟩
    | _ => exact ⟨ls, l, s', Shown.run_cons_ok h1 a, this, d⟩
  | complete =>
    obtain ⟨txt, s', a, b, d⟩ := h
    refine ⟨txt, s', Shown.run_cons_ok h1 a, ?_, d⟩
    rw [QState.texts, Shown.next_q h1]
    dsimp only
    rw [b]
    dsimp only
    rw [if_neg hx]

theorem wsLoop_talk (F : Floats) (P : Prints) : ∀ (ticks : List Tick) (s : Shown),
    ∃ (s' : Shown) (rs : List Resp) (mss : List (List WsMsg)) (tail : List WsMsg),
      s.run F ((ticks.take rs.length).map Tick.clock) = .ok (s', rs) ∧ mss.length = rs.length ∧
      (∀ (i : Nat) (r : Resp) (ms : List WsMsg) (t : Tick), rs[i]? = some r → mss[i]? = some ms → ticks[i]? = some t →
        SaysFrom F P s ((ticks.take (i + 1)).map Tick.clock) (rs.take (i + 1)) t r ms) ∧
      (wsLoop F P s ticks).1 = mss.flatten ++ tail ∧
      (tail = [] ∨ ∃ t, ticks[rs.length]? = some t ∧ t.late = true ∧ tail = [.status ("Timeout after ".toList ++ t.elapsed)])
  | [], s => ⟨s, [], [], [], rfl, rfl, by simp, rfl, .inl rfl⟩
  | t :: ts, s => by
    unfold wsLoop
    by_cases hc : t.closed = true
    · rw [if_pos hc]
      exact ⟨s, [], [], [], rfl, rfl, by simp, rfl, .inl rfl⟩
    rw [if_neg hc]
    by_cases hl : t.late = true
    · rw [if_pos hl]
      exact ⟨s, [], [], _, rfl, rfl, by simp, rfl, .inr ⟨t, rfl, hl, rfl⟩⟩
    rw [if_neg hl]
    cases h1 : s.next F t.clock with
    | error x => exact ⟨s, [], [], [], rfl, rfl, by simp, rfl, .inl rfl⟩
    | ok v =>
      obtain ⟨s1, r⟩ := v
      obtain ⟨s', rs, mss, tail, i1, i2, i3, i4, i5⟩ := wsLoop_talk F P ts s1
      have hrun : s.run F (((t :: ts).take (r :: rs).length).map Tick.clock) = .ok (s', r :: rs) := by
        rw [List.length_cons, List.take_succ_cons, List.map_cons]
        exact Shown.run_cons_ok h1 i1
      have hone : s.run F [t.clock] = .ok (s1, [r]) := Shown.run_cons_ok h1 rfl
      have hrest : ∀ ms : List WsMsg, r ≠ .complete → SaysFrom F P s [t.clock] [r] t r ms →
          ∃ (s' : Shown) (rs : List Resp) (mss : List (List WsMsg)) (tail : List WsMsg),
          s.run F (((t :: ts).take rs.length).map Tick.clock) = .ok (s', rs) ∧ mss.length = rs.length ∧
          (∀ (i : Nat) (r : Resp) (ms : List WsMsg) (x : Tick), rs[i]? = some r → mss[i]? = some ms → (t :: ts)[i]? = some x →
            SaysFrom F P s (((t :: ts).take (i + 1)).map Tick.clock) (rs.take (i + 1)) x r ms) ∧
          ms ++ (wsLoop F P s1 ts).1 = mss.flatten ++ tail ∧
          (tail = [] ∨ ∃ x, (t :: ts)[rs.length]? = some x ∧ x.late = true ∧
            tail = [.status ("Timeout after ".toList ++ x.elapsed)]) := by
        intro ms hr h0
        refine ⟨s', r :: rs, ms :: mss, tail, hrun, by simp [i2], ?_, by simp [i4], by simpa using i5⟩
        intro i r' ms' x a1 a2 a3
        cases i with
        | zero =>
          simp only [List.getElem?_cons_zero, Option.some.injEq] at a1 a2 a3
          subst a1 a2 a3
          exact h0
        | succ i =>
          simp only [List.getElem?_cons_succ] at a1 a2 a3
          rw [List.take_succ_cons, List.take_succ_cons, List.map_cons]
          exact (i3 i r' ms' x a1 a2 a3).cons h1 hr
      have hend : ∀ ms : List WsMsg, SaysFrom F P s [t.clock] [r] t r ms →
          ∃ (s' : Shown) (rs : List Resp) (mss : List (List WsMsg)) (tail : List WsMsg),
          s.run F (((t :: ts).take rs.length).map Tick.clock) = .ok (s', rs) ∧ mss.length = rs.length ∧
          (∀ (i : Nat) (r : Resp) (ms : List WsMsg) (x : Tick), rs[i]? = some r → mss[i]? = some ms → (t :: ts)[i]? = some x →
            SaysFrom F P s (((t :: ts).take (i + 1)).map Tick.clock) (rs.take (i + 1)) x r ms) ∧
          ms = mss.flatten ++ tail ∧
          (tail = [] ∨ ∃ x, (t :: ts)[rs.length]? = some x ∧ x.late = true ∧
            tail = [.status ("Timeout after ".toList ++ x.elapsed)]) := by
        intro ms h0
        refine ⟨s1, [r], [ms], [], by simpa using hone, rfl, ?_, by simp, .inl rfl⟩
        intro i r' ms' x a1 a2 a3
        cases i with
        | zero =>
          simp only [List.getElem?_cons_zero, Option.some.injEq] at a1 a2 a3
          subst a1 a2 a3
          exact h0
        | succ i => simp at a1
      cases r with
      | complete =>
        refine hend _ ⟨_, s1, hone, ?_, rfl⟩
        rw [QState.texts, Shown.next_q h1]
        rfl
      | matched ws => exact hrest [.matched ws] (by simp) rfl
      | logs g =>
        refine hrest ((s.q.logText P.took t.clock).map .log) (by simp) ⟨[], _, s1, hone, ?_, rfl⟩
        exact logTexts_cons (cs := []) (ls := []) (Shown.next_q h1) rfl
      | timeout =>
        dsimp only
        cases hp : s1.progress F with
        | error x => exact ⟨s, [], [], [], rfl, rfl, by simp, rfl, .inl rfl⟩
        | ok txt => exact hrest [.progress t.secs txt] (by simp) ⟨s1, txt, hone, hp, rfl⟩

/-- C68: all messages, in order. First the number of other queries and the time for parsing, then what is logged of each
expression, then, for one response after the other, the message that says it: a match, what is noted, the progress at that
moment, or the final text; and if the time is over a message about that. A client that goes away has got the first of them. -/
theorem C68_talk {F : Floats} {P : Prints} {U : Unicode} {dir : List DirEntry} {query : List Char} {q : QueryAst} {es : List Expr}
    {wl : List Word} (hq : QueryAst.ofText U query = .ok q) (hdef : ∃ ws, HasDict U dir "default".toList ws)
    (hwl : ChosenWords (HasDict U dir) q.options wl) (hne : q.expressions ≠ [])
    (hes : q.expressions.mapM fromAst = .ok es) (sends : Option Nat) (others : Nat) (ticks : List Tick) {sent : List WsMsg}
    (hsent : (wsRun F P U (loadDir U [] dir) (some (some query)) sends others ticks).2.1 = sent) :
    ∃ (rs : List Resp) (mss : List (List WsMsg)) (tail : List WsMsg),
      Session es wl (q.options.maxWords.getD 10) (some (q.options.limit.getD 300))
        ((ticks.take rs.length).map Tick.clock) rs ∧ mss.length = rs.length ∧
      (∀ (i : Nat) (r : Resp) (ms : List WsMsg) (t : Tick), rs[i]? = some r → mss[i]? = some ms → ticks[i]? = some t →
        Says F P es wl (q.options.maxWords.getD 10) (some (q.options.limit.getD 300)) ((ticks.take (i + 1)).map Tick.clock)
          (rs.take (i + 1)) t r ms) ∧
      (tail = [] ∨ ∃ t, ticks[rs.length]? = some t ∧ t.late = true ∧
        tail = [.status ("Timeout after ".toList ++ t.elapsed)]) ∧
      let all := [.begun others, .status ("Parsed query in ".toList ++ P.parsed ++ "...".toList)] ++
        (List.zipWith ExprAst.logged q.expressions es).map WsMsg.log ++ mss.flatten ++ tail
      sent <+: all ∧ (sends = none → sent = all) := by
  have hready : Ready es wl := C06_ready hne hes (chosen_tranche hq hwl)
  obtain ⟨dict, hdict⟩ := dictWords_of_chosen (o := q.options) hdef
  obtain rfl := (C40_words hdict wl).1 hwl
  have hlim : q.options.limit.or (some 300) = some (q.options.limit.getD 300) := by
    cases q.options.limit <;> rfl
  obtain ⟨_, ⟨q0, _, h0, _⟩, _⟩ := C42_no_crash hready (q.options.maxWords.getD 10) (some (q.options.limit.getD 300)) []
  have hexprs : q0.expressions = es := (C57_expressions h0 (clks := []) rfl).1 (by simp [Completed])
  have hs0 : Shown.new es (q.options.wordlist.getD dict) (q.options.maxWords.getD 10)
      (some (q.options.limit.getD 300)) = .ok ⟨q0, 0⟩ := by
    unfold Shown.new
    rw [h0]
  obtain ⟨s', rs, mss, tail, i1, i2, i3, i4, i5⟩ := wsLoop_talk F P ticks ⟨q0, 0⟩
  have htalk : wsTalk F P U (loadDir U [] dir) (some query) others ticks =
      ([.begun others, .status ("Parsed query in ".toList ++ P.parsed ++ "...".toList)] ++
        (List.zipWith ExprAst.logged q.expressions es).map WsMsg.log ++ (wsLoop F P ⟨q0, 0⟩ ticks).1,
        (wsLoop F P ⟨q0, 0⟩ ticks).2) := by
    unfold wsTalk
    simp only [hq]
    show (match dictWords _ (q.options.dictionary.getD "default".toList) with | .error _ => _ | .ok dict => _) = _
    rw [hdict]
    simp only [QState.ofAst, hes, Except.bind, hlim, h0, hexprs]
  have hall : (wsRun F P U (loadDir U [] dir) (some (some query)) none others ticks).2.1 =
      [.begun others, .status ("Parsed query in ".toList ++ P.parsed ++ "...".toList)] ++
        (List.zipWith ExprAst.logged q.expressions es).map WsMsg.log ++ mss.flatten ++ tail := by
    simp only [wsRun, htalk, i4, List.append_assoc]
  refine ⟨rs, mss, tail, ⟨q0, s'.q, h0, Shown.run_q i1⟩, i2, ?_, i5, ?_, ?_⟩
  · intro i r ms t a1 a2 a3
    have h := i3 i r ms t a1 a2 a3
    cases r with
    | matched ws => exact h
    | timeout =>
      obtain ⟨s, txt, a, b, d⟩ := h
      exact ⟨s, txt, ⟨_, hs0, a⟩, b, d⟩
    | logs g =>
      obtain ⟨ls, l, s, a, b, d⟩ := h
      exact ⟨ls, l, ⟨q0, s.q, h0, Shown.run_q a, by simpa using b⟩, d⟩
    | complete =>
      obtain ⟨txt, s, a, b, d⟩ := h
      exact ⟨txt, ⟨q0, s.q, h0, Shown.run_q a, b⟩, d⟩
  · rw [← hall, ← hsent]
    exact wsRun_sends ..
  · rintro rfl
    rw [← hall, ← hsent]

/-- C68: of a query with a syntax error the client gets the number of other queries, "Query parse error", and the error itself
as a log, or the first of these, and nothing else. -/
theorem C68_error {F : Floats} {P : Prints} {U : Unicode} {ds : Dicts} {query : List Char} {o : Nat}
    (hq : QueryAst.ofText U query = .error (.syntax o)) (sends : Option Nat) (others : Nat) (ticks : List Tick)
    {sent : List WsMsg} (hsent : (wsRun F P U ds (some (some query)) sends others ticks).2.1 = sent) :
    let all := [.begun others, .status "Query parse error".toList, .log (P.error query)]
    sent <+: all ∧ (sends = none → sent = all) := by
  have hall : (wsRun F P U ds (some (some query)) none others ticks).2.1 =
      [.begun others, .status "Query parse error".toList, .log (P.error query)] := by
    simp only [wsRun, wsTalk, hq]
  refine ⟨?_, ?_⟩
  · rw [← hall, ← hsent]
    exact wsRun_sends ..
  · rintro rfl
    rw [← hall, ← hsent]

/-! ### Examples -/

/-- A match of two words, one of them with characters to be escaped. -/
def someMatch : WsMsg := .matched [⟨0, [], "a\"b\n\\\x01é", 70⟩, ⟨0, [], "", 0⟩]

example : someMatch.response.json =
    "{\"match\":{\"phrase\":[{\"text\":\"a\\\"b\\n\\\\\\u0001é\",\"score\":70},{\"text\":\"\",\"score\":0}]}}".toList := by
  decide +kernel

example : Carried someMatch.response.json (.found [("a\"b\n\\\x01é".toList, 70), ([], 0)]) ∧
    ¬ Carried someMatch.response.json (.found [("a\"b\n\\\x01é".toList, 7), ([], 0)]) :=
  ⟨((C68_message someMatch (by simp [someMatch])).2 _).2 (by decide +kernel),
    fun h => absurd (((C68_message someMatch (by simp [someMatch])).2 _).1 h) (by decide +kernel)⟩

/-- Blanks, and an escape that serde does not write. -/
example : JsonText " {\"log\" : {\"message\":\"\\u00e9\"}}\n".toList
    (.obj [("log".toList, .obj [("message".toList, .str "é".toList)])]) := by
  refine ⟨"\n".toList, .members (.last (a := "log\" : {\"message\":\"\\u00e9\"}}\n".toList)
    (b := " : {\"message\":\"\\u00e9\"}}\n".toList) (c := " {\"message\":\"\\u00e9\"}}\n".toList) (m := "}\n".toList)
    (by decide) ?_ (by decide) ?_ (by decide)), by decide⟩
  · exact plainName_str (k := "log".toList) (by decide) _
  · refine .members (.last (a := "message\":\"\\u00e9\"}}\n".toList) (b := ":\"\\u00e9\"}}\n".toList)
      (c := "\"\\u00e9\"}}\n".toList) (m := "}}\n".toList) (by decide) ?_ (by decide) (.str ?_) (by decide))
    · exact plainName_str (k := "message".toList) (by decide) _
    · exact .unicode (h := "00e9".toList) (i := "\"}}\n".toList) (by decide) ⟨'0', '0', 'e', '9', 0, 0, 14, 9, by decide,
        .inl (by decide), .inl (by decide), .inl (by decide), .inl (by decide), by decide⟩ (.close _)

end Noodle
