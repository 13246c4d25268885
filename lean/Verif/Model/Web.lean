import Verif.Model.Load
import Verif.Model.Report
import Verif.Model.Compile
import Verif.Model.DebugText
/-
Model of the two programs around the library: `/repo/noodle-webapp/src/main.rs` (HTTP and web socket handlers, the
dictionaries, the gauge of active queries) and `/repo/noodle-cli/src/main.rs`, and of
`QueryEvaluator::from_ast` (/repo/noodle/src/query.rs:134-167).

Not modelled here: routing, percent decoding (Model/Routes), the texts of the messages (Model/Wire), HTTP and web socket framing
(warp, hyper, tokio), the order in which the directory is read. The order in which a `HashMap` gives its entries is a parameter
(`WORDLISTS.iter()`).
-/
namespace Noodle
set_option autoImplicit false

/-! ### query.rs -/

/-- query.rs:134-167 `QueryEvaluator::from_ast`. -/
def QState.ofAst (q : QueryAst) (wl : List Word) : Except Crash QState :=
  (q.expressions.mapM fromAst).bind fun es =>
    QState.new es (q.options.wordlist.getD wl) (q.options.maxWords.getD 10) (q.options.limit.or (some 300))

/-! ### Dictionaries -/

/-- main.rs:22, 59: `WORDLISTS`, as a list of names and word lists. -/
abbrev Dicts := List (List Char × List Word)

/-- `HashMap::get`, `contains_key` (main.rs:44, 125-127). -/
def Dicts.get : Dicts → List Char → Option (List Word)
  | [], _ => none
  | (n, ws) :: ds, name => if n = name then some ws else Dicts.get ds name

/-- main.rs:36-41: the part of the file name before the first dot. -/
def dictName : List Char → List Char
  | [] => []
  | c :: cs => if c = '.' then [] else c :: dictName cs

/-- main.rs:30-36: an entry of the directory: its name, whether it is a regular file, and its (decompressed) text. -/
structure DirEntry where
  file : List Char
  regular : Bool
  text : List Char

/-- main.rs:29-58: the loop over the directory; `ds` is the map so far. -/
def loadDir (U : Unicode) : Dicts → List DirEntry → Dicts
  | ds, [] => ds
  | ds, e :: es =>
    if !e.regular then loadDir U ds es
    else match ds.get (dictName e.file) with
      | some _ => loadDir U ds es
      | none => loadDir U (ds ++ [(dictName e.file, loadWordlist U e.text)]) es

/-- main.rs:19 -/
def defaultName : List Char := "default".toList

/-- main.rs:124-128 `words`. -/
def dictWords (ds : Dicts) (name : List Char) : Except Crash (List Word) :=
  match ds.get name with
  | some ws => .ok ws
  | none => match ds.get defaultName with
    | some ws => .ok ws
    | none => .error .index

/-- main.rs:112-122 `get_wordlist`: the body of the answer. -/
def getWordlist (ds : Dicts) (name : List Char) : Except Crash (List Char) :=
  (dictWords ds name).map fun ws => ws.flatMap fun w => w.text.toList ++ ['\n']

/-- main.rs:79-110 `get_metrics`: the body of the answer. `active` and `total` are the values read from the two counters,
`ds` the dictionaries in the order in which the map gives them. -/
def metricsText (active total : Nat) (ds : Dicts) : List Char :=
  "# HELP noodle_queries_active\n# TYPE noodle_queries_active gauge\nnoodle_queries_active ".toList ++
    (toString active).toList ++
  "\n\n# HELP noodle_queries_total\n# TYPE noodle_queries_total counter\nnoodle_queries_total ".toList ++
    (toString total).toList ++
  "\n\n# HELP noodle_wordlist_size\n# TYPE noodle_wordlist_size gauge\n".toList ++
  ds.flatMap fun d => "noodle_wordlist_size{wordlist=\"".toList ++ d.1 ++ "\"} ".toList ++
    (toString d.2.length).toList ++ ['\n']

/-- main.rs:130-143 `get_wordlist_js`: the body of the answer. -/
def wordlistJs (ds : Dicts) : List Char :=
  "window.WORDLISTS = [];\n".toList ++
  ds.flatMap fun d => "window.WORDLISTS.push({\"name\": \"".toList ++ d.1 ++ "\", \"len\": ".toList ++
    (toString d.2.length).toList ++ "});\n".toList

/-! ### Serialisation (serde_json) -/

/-- A hexadecimal digit, as serde_json writes it. -/
def hexDigit (n : Nat) : Char := if n < 10 then Char.ofNat ('0'.toNat + n) else Char.ofNat ('a'.toNat + (n - 10))

/-- The escapes of serde_json (`format_escaped_str`): control characters, `"` and `\`. -/
def jsonChar (c : Char) : List Char :=
  if c = '"' then ['\\', '"']
  else if c = '\\' then ['\\', '\\']
  else if c.toNat = 8 then ['\\', 'b']
  else if c.toNat = 9 then ['\\', 't']
  else if c.toNat = 10 then ['\\', 'n']
  else if c.toNat = 12 then ['\\', 'f']
  else if c.toNat = 13 then ['\\', 'r']
  else if c.toNat < 32 then ['\\', 'u', '0', '0', hexDigit (c.toNat / 16), hexDigit (c.toNat % 16)]
  else [c]

/-- A string in JSON. -/
def jsonString (s : List Char) : List Char := ['"'] ++ s.flatMap jsonChar ++ ['"']

/-- words.rs:154-162: a word is serialised as its text and its score. -/
def jsonWord (w : Word) : List Char :=
  "{\"text\":".toList ++ jsonString w.text.toList ++ ",\"score\":".toList ++ (toString w.score).toList ++ ['}']

/-- The elements, separated by commas. -/
def commas : List (List Char) → List Char
  | [] => []
  | [x] => x
  | x :: xs => x ++ [','] ++ commas xs

/-- main.rs:66-77 `Response::Match`, `flatten_phrase`. -/
def flattenPhrase (ws : List Word) : List Char :=
  "{\"match\":{\"phrase\":[".toList ++ commas (ws.map jsonWord) ++ "]}}".toList

/-! ### The HTTP handler -/

/-- main.rs:178-189: what is appended to the body for a match. -/
def bodyLine (plaintext : Bool) (ws : List Word) : List Char :=
  if plaintext then (ws.flatMap fun w => w.text.toList ++ [' ']) ++ ['\n'] else flattenPhrase ws ++ ['\n']

/-- main.rs:63-64, 160-164, 191: `format!("# Timeout after {:?}\n", timeout)`. -/
def timeoutLine (plaintext : Bool) : List Char :=
  (if plaintext then "# Timeout after 10s\n" else "# Timeout after 150s\n").toList

/-- main.rs:176-199: the loop. One element of the list for each call of the evaluator: how far the deadline is then;
`none`: the loop is still running after these calls. -/
def syncLoop (plaintext : Bool) : QState → List Clock → List Char → Except Crash (Option (List Char))
  | _, [], _ => .ok none
  | q, c :: cs, body =>
    match q.next c with
    | .error x => .error x
    | .ok (q', .matched ws) => syncLoop plaintext q' cs (body ++ bodyLine plaintext ws)
    | .ok (_, .timeout) => .ok (some (body ++ timeoutLine plaintext))
    | .ok (q', .logs _) => syncLoop plaintext q' cs body
    | .ok (_, .complete) => .ok (some body)

/-- main.rs:170-172: the limit of a plaintext query. -/
def limitPlain (plaintext : Bool) (q : QueryAst) : QueryAst :=
  if plaintext && q.options.limit.isNone then { q with options := { q.options with limit := some 15 } } else q

/-- main.rs:165-203: the answer of `run_query_sync`. The text of a syntax error (made by pest) is a parameter. -/
def syncBody (U : Unicode) (errorText : List Char → List Char) (ds : Dicts) (query : List Char) (plaintext : Bool)
    (clks : List Clock) : Except Crash (Option (List Char)) :=
  match QueryAst.ofText U query with
  | .error (.crash c) => .error c
  | .error (.syntax _) => .ok (some (errorText query))
  | .ok q0 =>
    let q := limitPlain plaintext q0
    match dictWords ds (q.options.dictionary.getD defaultName) with
    | .error c => .error c
    | .ok dict => match QState.ofAst q dict with
      | .error c => .error c
      | .ok e => syncLoop plaintext e clks []

/-- An update of a counter: `TOTAL_QUERIES.fetch_add`, `ACTIVE_QUERIES.fetch_add`, `ACTIVE_QUERIES.fetch_sub`. -/
inductive Act
  | count
  | start
  | stop
  deriving DecidableEq, Repr

/-- How a handler stands. -/
inductive HandlerEnd
  | running
  | finished
  | failed
  | crashed
  deriving DecidableEq, Repr

/-- main.rs:157-158, 204-205: what `run_query_sync` does to the counters, and how it ends: a panic unwinds through
it. -/
def syncRun (r : Except Crash (Option (List Char))) : List Act × HandlerEnd :=
  match r with
  | .ok none => ([.count, .start], .running)
  | .ok (some _) => ([.count, .start, .stop], .finished)
  | .error _ => ([.count, .start], .crashed)

/-! ### The web socket handler -/

/-- main.rs:66-72: a message sent to the client, with what is put into its text (the texts are in Model/Wire): the number of
other queries; the text of a status; `duration` and `progress()`; the text of `Complete` and the time; the text of a log; the words
of a match. -/
inductive WsMsg
  | begun (others : Nat)
  | status (t : List Char)
  | progress (secs t : List Char)
  | ended (t elapsed : List Char)
  | log (t : List Char)
  | matched (ws : List Word)
  deriving DecidableEq, Repr

/-- One round of the loop (main.rs:264-307): whether the client has closed the connection, whether 150 seconds are
over, and how far the deadline is; and how `start.elapsed()` and `duration.as_secs_f64()` are printed, if they are. -/
structure Tick where
  closed : Bool
  late : Bool
  clock : Clock
  elapsed : List Char := []
  secs : List Char := []

/-- How the other times and syntax errors are printed: `start.elapsed()` after parsing (main.rs:248), the time the optimisation
took (query.rs:430), and pest's message about a query (main.rs:242). -/
structure Prints where
  parsed : List Char
  took : List Char
  error : List Char → List Char

/-- main.rs:264-307: the loop, while all messages can be sent. -/
def wsLoop (F : Floats) (P : Prints) : Shown → List Tick → List WsMsg × HandlerEnd
  | _, [] => ([], .running)
  | s, t :: ts =>
    if t.closed then ([], .finished)
    else if t.late then ([.status ("Timeout after ".toList ++ t.elapsed)], .finished)
    else match s.next F t.clock with
      | .error _ => ([], .crashed)
      | .ok (s', .matched ws) => let r := wsLoop F P s' ts; (.matched ws :: r.1, r.2)
      | .ok (s', .logs _) =>
        let r := wsLoop F P s' ts; ((s.q.logText P.took t.clock).map .log ++ r.1, r.2)
      | .ok (s', .timeout) =>
        match s'.progress F with
        | .error _ => ([], .crashed)
        | .ok txt => let r := wsLoop F P s' ts; (.progress t.secs txt :: r.1, r.2)
      | .ok (s', .complete) => ([.ended (completeText s.q s'.q) t.elapsed], .finished)

/-- main.rs:228-307, from the first message on, while all messages can be sent: the messages, and the end. `none`: the
message is not a text. `others`: the value of `ACTIVE_QUERIES` before the `fetch_add` of main.rs:229. The text of an expression
(expression.rs:68) is that of the tree at the same place. -/
def wsTalk (F : Floats) (P : Prints) (U : Unicode) (ds : Dicts) (msg : Option (List Char)) (others : Nat)
    (ticks : List Tick) : List WsMsg × HandlerEnd :=
  match msg with
  | none => ([.begun others], .crashed)
  | some query => match QueryAst.ofText U query with
    | .error (.crash _) => ([.begun others], .crashed)
    | .error (.syntax _) => ([.begun others, .status "Query parse error".toList, .log (P.error query)], .failed)
    | .ok q =>
      let parsed := WsMsg.status ("Parsed query in ".toList ++ P.parsed ++ "...".toList)
      match dictWords ds (q.options.dictionary.getD defaultName) with
      | .error _ => ([.begun others, parsed], .crashed)
      | .ok dict => match QState.ofAst q dict with
        | .error _ => ([.begun others, parsed], .crashed)
        | .ok e =>
          let r := wsLoop F P ⟨e, 0⟩ ticks
          ([.begun others, parsed] ++ (List.zipWith ExprAst.logged q.expressions e.expressions).map WsMsg.log ++ r.1, r.2)

/-- main.rs:209-322 `run_websocket`: the updates of the counters, the messages the client gets, and the end.
`msg = none`: the connection was closed, or failed, before the first message. `sends = some n`: the message number `n`
cannot be sent (the `?` after each `send` leaves the block, without the `fetch_sub` of main.rs:309). -/
def wsRun (F : Floats) (P : Prints) (U : Unicode) (ds : Dicts) (msg : Option (Option (List Char))) (sends : Option Nat)
    (others : Nat) (ticks : List Tick) : List Act × List WsMsg × HandlerEnd :=
  match msg with
  | none => ([], [], .failed)
  | some m =>
    let r := wsTalk F P U ds m others ticks
    match sends with
    | some n => if n < r.1.length then ([.count, .start], r.1.take n, .failed)
      else (if r.2 = .finished then [.count, .start, .stop] else [.count, .start], r.1, r.2)
    | none => (if r.2 = .finished then [.count, .start, .stop] else [.count, .start], r.1, r.2)

/-! ### The command line program -/

/-- The texts, separated by blanks (noodle-cli/src/main.rs:37-44). -/
def joinBlank : List (List Char) → List Char
  | [] => []
  | [x] => x
  | x :: xs => x ++ [' '] ++ joinBlank xs

/-- noodle-cli/src/main.rs:35-46: the loop over the evaluator as an iterator (query.rs:647-657: `next()` without a
deadline, ending at `Complete`). The number bounds the calls: `none` = still running after so many. -/
def cliLoop : Nat → QState → Except Crash (Option (List Char))
  | 0, _ => .ok none
  | n + 1, q =>
    match q.iterNext with
    | .error x => .error x
    | .ok (_, none) => .ok (some [])
    | .ok (q', some r) => (cliLoop n q').map fun o => o.map fun out =>
        (match r with
          | .matched ws => joinBlank (ws.map fun w => w.text.toList) ++ ['\n']
          | _ => []) ++ out

/-- noodle-cli/src/main.rs:27-47 `main`: what is printed, for the text of the word list file, `--count`,
`--phrase-length` and the query. A syntax error is an `unwrap` of an `Err`. -/
def cliRun (U : Unicode) (file : List Char) (count : Option Nat) (phraseLength : Nat) (query : List Char) (calls : Nat) :
    Except Crash (Option (List Char)) :=
  match QueryAst.ofText U query with
  | .error (.crash c) => .error c
  | .error (.syntax _) => .error .index
  | .ok q => match QState.ofAst q (loadWordlist U file) with
    | .error c => .error c
    | .ok e => match e.setLimit count with
      | .error c => .error c
      | .ok e => match e.setDepth phraseLength with
        | .error c => .error c
        | .ok e => cliLoop calls e

end Noodle
