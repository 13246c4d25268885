import Verif.Model.Page
/-
What the web page shows, /repo/noodle-webapp/static/index.html:409-585 (JavaScript), as a machine driven by what the user does
and by what happens on the connections. The browser is modelled from the HTML and WebSocket standards: handlers run one at a
time; a message is delivered only while its connection is open, and `close()` ends that at once.

The score bars are in Model/ScoreBar, the links next to the results in Model/Links. Not modelled: errors on the console, the feedback form.
-/
namespace Noodle
set_option autoImplicit false

/-- A message of the server after `JSON.parse` (index.html:470): one of the three forms of `Response`
(noodle-webapp/src/main.rs:66-72); the words of a match have their text and their score. -/
inductive Msg
  | status (t : List Char)
  | log (t : List Char)
  | found (phrase : List (List Char × Nat))
  deriving DecidableEq, Repr

/-- index.html:478-498: an element of `window.matches`: the phrase, and `originalOrder`. -/
structure Hit where
  phrase : List (List Char × Nat)
  order : Nat
  deriving DecidableEq, Repr

/-- index.html:494 `match.fullText` -/
def Hit.text (h : Hit) : List Char := fullText (h.phrase.map Prod.fst)

/-- `readyState` of a web socket; `closed` stands for CLOSING, too. -/
inductive Conn
  | connecting
  | open
  | closed
  deriving DecidableEq, Repr

/-- What the page holds. `found = none`: `window.matches` is still `""` (index.html:409). `conns`: all connections made, the
oldest first, with the text each has to send; the last one is `window.ws`. `sent`: what has been sent, on which
connection. -/
structure Screen where
  found : Option (List Hit)
  shown : List Hit
  status : List Char
  log : List (List Char)
  sort : Bool
  filtered : Bool
  filter : List Char
  conns : List (Conn × List Char)
  sent : List (Nat × List Char)

/-- The page after it has been loaded; browsers may restore the values of the fields. -/
def Screen.fresh (sort filtered : Bool) (filter : List Char) : Screen :=
  { found := none, shown := [], status := [], log := [], sort, filtered, filter, conns := [], sent := [] }

/-- What can happen. `submit text`: the text is that of index.html:449-456 (`pageText`). `opened k`, `failed k`,
`closedBy k`, `message k m`: on the connection number `k`, in the order of their making, from 0. -/
inductive Happening
  | submit (text : List Char)
  | stop
  | setSort (b : Bool)
  | setFiltered (b : Bool)
  | setFilter (t : List Char)
  | opened (k : Nat)
  | failed (k : Nat)
  | closedBy (k : Nat)
  | message (k : Nat) (m : Msg)
  deriving DecidableEq, Repr

/-- `Array.prototype.sort` with `a.key - b.key` (ECMAScript 23.1.3.30: stable): `x` is put before what follows it and is not
smaller. -/
def insertBy (key : Hit → Int) (x : Hit) : List Hit → List Hit
  | [] => [x]
  | y :: l => if key x ≤ key y then x :: y :: l else y :: insertBy key x l

def sortBy (key : Hit → Int) : List Hit → List Hit
  | [] => []
  | x :: l => insertBy key x (sortBy key l)

/-- What the page depends on: `new RegExp(…)` and matching with it (`none`: a SyntaxError), and the score of a phrase
(index.html:485-490, a floating point number; such numbers are ordered like integers). -/
structure Browser where
  regexp : List Char → Option (List Char → Bool)
  net : List Nat → Int

/-- index.html:485-490 `netScore`, from the scores of the words. -/
def Hit.net (B : Browser) (h : Hit) : Int := B.net (h.phrase.map Prod.snd)

/-- index.html:411-430 `rebuildOutput`: an exception (`"".sort` is not a function; a filter that is no regular expression)
ends it. -/
def Screen.rebuild (B : Browser) (s : Screen) : Screen :=
  match s.found with
  | none => s
  | some ms =>
    let ms := if s.sort then sortBy (Hit.net B) ms else sortBy (fun h => h.order) ms
    if !s.filtered then { s with found := some ms, shown := ms }
    else match B.regexp s.filter with
      | none => { s with found := some ms }
      | some p => { s with found := some ms, shown := ms.filter fun h => p h.text }

/-- The connection number `k` gets another state. -/
def Screen.setConn (s : Screen) (k : Nat) (c : Conn) : Screen :=
  { s with conns := s.conns.modify k fun p => (c, p.2) }

/-- index.html:431-437 `stop` -/
def Screen.stop (s : Screen) : Screen :=
  if s.conns.isEmpty then s
  else { s.setConn (s.conns.length - 1) .closed with status := "Stopped by user".toList }

/-- index.html:438-460 `submit`, after the text has been put together. -/
def Screen.submit (s : Screen) (text : List Char) : Screen :=
  let s := s.stop
  { s with shown := [], status := "Connecting to Noodle server...".toList, log := [], found := some [], sort := false,
           filtered := false, conns := s.conns ++ [(.connecting, text)] }

/-- index.html:478-549: a match arrives. If the filter is no regular expression, the exception comes after the match has
been stored (498) and before it is shown. -/
def Screen.arrive (B : Browser) (s : Screen) (phrase : List (List Char × Nat)) : Screen :=
  let ms := s.found.getD []
  let h : Hit := ⟨phrase, ms.length⟩
  let s := { s with found := some (ms ++ [h]) }
  if !s.filtered then { s with shown := s.shown ++ [h], sort := false }
  else match B.regexp s.filter with
    | none => s
    | some p => if p h.text then { s with shown := s.shown ++ [h], sort := false } else s

/-- index.html:469-551 `ws.onmessage`: an empty status is no status. -/
def Screen.receive (B : Browser) (s : Screen) : Msg → Screen
  | .status t => if t = [] then s else { s with status := t }
  | .log t => { s with log := s.log ++ [t] }
  | .found phrase => s.arrive B phrase

/-- One thing happens. -/
def Screen.step (B : Browser) (s : Screen) : Happening → Screen
  | .submit text => s.submit text
  | .stop => s.stop
  -- index.html:569
  | .setSort b => ({ s with sort := b } : Screen).rebuild B
  -- index.html:570
  | .setFiltered b => ({ s with filtered := b } : Screen).rebuild B
  -- index.html:571-574
  | .setFilter t => ({ s with filter := t, filtered := true } : Screen).rebuild B
  -- index.html:461-464
  | .opened k => match s.conns[k]? with
    | some (.connecting, text) =>
      { s.setConn k .open with status := "Connected to Noodle server...".toList, sent := s.sent ++ [(k, text)] }
    | _ => s
  -- index.html:465-468
  | .failed k => if k < s.conns.length then
      { s.setConn k .closed with status := "Unable to connect to Noodle server".toList }
    else s
  | .closedBy k => s.setConn k .closed
  | .message k m => match s.conns[k]? with
    | some (.open, _) => s.receive B m
    | _ => s

def Screen.run (B : Browser) (s : Screen) (hs : List Happening) : Screen := hs.foldl (Screen.step B) s

/-- index.html:575-591: the copy button; `none`: the filter is no regular expression. -/
def Screen.copied (B : Browser) (s : Screen) : Option (List Char) :=
  let texts := (s.found.getD []).map fun h => h.phrase.map Prod.fst
  if !s.filtered then some (copyWordlist (fun _ => true) texts)
  else (B.regexp s.filter).map fun p => copyWordlist p texts

end Noodle
