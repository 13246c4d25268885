import Verif.Model.Web
/-
Model of the routing of `/repo/noodle-webapp/src/main.rs` (`main`, lines 325-379): which handler a request reaches and
with what text. The behaviour of the libraries it is written with is modelled here too: warp's filters `path`, `param`,
`content_length_limit` and `or`, `percent_decode_str`, `decode_utf8_lossy` and `str::from_utf8`.

Not modelled: static files (the last two routes), the parsing of HTTP, the headers of a web socket handshake (one flag).
-/
namespace Noodle
set_option autoImplicit false

/-! ### UTF-8 as Rust reads it -/

/-- The byte number `i`, and 0 after the end (`safe_get` in core's `Utf8Chunks`). -/
def byteAt (l : List UInt8) (i : Nat) : Nat := ((l[i]?).map UInt8.toNat).getD 0

/-- A continuation byte. -/
def isCont (b : Nat) : Bool := decide (0x80 ≤ b ∧ b ≤ 0xBF)

/-- The second byte of a sequence of three (core::str::lossy): no overlong forms, no surrogates. -/
def second3 (b c : Nat) : Bool :=
  decide (b = 0xE0 ∧ 0xA0 ≤ c ∧ c ≤ 0xBF ∨ 0xE1 ≤ b ∧ b ≤ 0xEC ∧ 0x80 ≤ c ∧ c ≤ 0xBF ∨
    b = 0xED ∧ 0x80 ≤ c ∧ c ≤ 0x9F ∨ 0xEE ≤ b ∧ b ≤ 0xEF ∧ 0x80 ≤ c ∧ c ≤ 0xBF)

/-- The second byte of a sequence of four: no overlong forms, nothing above U+10FFFF. -/
def second4 (b c : Nat) : Bool :=
  decide (b = 0xF0 ∧ 0x90 ≤ c ∧ c ≤ 0xBF ∨ 0xF1 ≤ b ∧ b ≤ 0xF3 ∧ 0x80 ≤ c ∧ c ≤ 0xBF ∨ b = 0xF4 ∧ 0x80 ≤ c ∧ c ≤ 0x8F)

/-- The character at the start of `b :: l`, or `none` for an invalid part; and how many bytes of `l` belong to it (core's
`Utf8Chunks::next`, which `from_utf8_lossy` uses). -/
def utf8Head (b : Nat) (l : List UInt8) : Option Char × Nat :=
  let c1 := byteAt l 0
  let c2 := byteAt l 1
  let c3 := byteAt l 2
  if b < 0x80 then (some (Char.ofNat b), 0)
  else if 0xC2 ≤ b ∧ b ≤ 0xDF then
    if isCont c1 then (some (Char.ofNat ((b - 0xC0) * 64 + (c1 - 0x80))), 1) else (none, 0)
  else if 0xE0 ≤ b ∧ b ≤ 0xEF then
    if !second3 b c1 then (none, 0)
    else if !isCont c2 then (none, 1)
    else (some (Char.ofNat ((b - 0xE0) * 4096 + (c1 - 0x80) * 64 + (c2 - 0x80))), 2)
  else if 0xF0 ≤ b ∧ b ≤ 0xF4 then
    if !second4 b c1 then (none, 0)
    else if !isCont c2 then (none, 1)
    else if !isCont c3 then (none, 2)
    else (some (Char.ofNat ((b - 0xF0) * 262144 + (c1 - 0x80) * 4096 + (c2 - 0x80) * 64 + (c3 - 0x80))), 3)
  else (none, 0)

/-- The characters and invalid parts of a sequence of bytes, of which the first `skip` belong to what was read before. -/
def utf8Parts : Nat → List UInt8 → List (Option Char)
  | _, [] => []
  | k + 1, _ :: l => utf8Parts k l
  | 0, b :: l => (utf8Head b.toNat l).1 :: utf8Parts (utf8Head b.toNat l).2 l

/-- `std::str::from_utf8` (main.rs:367): `none` is an `Err`. -/
def fromUtf8 (l : List UInt8) : Option (List Char) := (utf8Parts 0 l).mapM id

/-- `decode_utf8_lossy` (main.rs:360): every invalid part becomes U+FFFD. -/
def fromUtf8Lossy (l : List UInt8) : List Char := (utf8Parts 0 l).map fun o => o.getD (Char.ofNat 0xFFFD)

/-- The bytes of a `str`. -/
def strBytes (l : List Char) : List UInt8 := l.flatMap String.utf8EncodeChar

/-- `char::to_digit(16)` of a byte. -/
def hexValue (b : UInt8) : Option Nat :=
  let n := b.toNat
  if 48 ≤ n ∧ n ≤ 57 then some (n - 48)
  else if 65 ≤ n ∧ n ≤ 70 then some (n - 55)
  else if 97 ≤ n ∧ n ≤ 102 then some (n - 87)
  else none

/-- The byte that two hexadecimal digits after a `%` stand for. -/
def escaped : List UInt8 → Option UInt8
  | h :: l :: _ => match hexValue h, hexValue l with
    | some a, some b => some (UInt8.ofNat (16 * a + b))
    | _, _ => none
  | _ => none

/-- `percent_decode_str` (main.rs:360): `%` and two hexadecimal digits are a byte, any other `%` is itself. The first
`skip` bytes belong to what was read before. -/
def percentDecode : Nat → List UInt8 → List UInt8
  | _, [] => []
  | k + 1, _ :: l => percentDecode k l
  | 0, b :: l =>
    if b = 37 then match escaped l with
      | some x => x :: percentDecode 2 l
      | none => b :: percentDecode 0 l
    else b :: percentDecode 0 l

/-! ### Routes -/

/-- The method of a request; warp's `get` and `post` tell these apart. -/
inductive Method
  | get
  | post
  | other
  deriving DecidableEq, Repr

/-- A request: its method, its path (after the first slash, without the query string), whether it asks for a web socket,
its content length if it has that header, and its body. -/
structure Request where
  method : Method
  path : List Char
  upgrade : Bool
  length : Option Nat
  body : List UInt8

/-- What is done with a request. -/
inductive Handled
  /-- `run_query_sync` with this text (main.rs:147-207) -/
  | query (text : List Char) (plaintext : Bool)
  /-- `run_websocket` -/
  | socket
  /-- `get_wordlist` with this name -/
  | wordlist (name : List Char)
  | wordlistJs
  | metrics
  /-- a static file, or an error answer by warp -/
  | other
  /-- the handler panics -/
  | panicked
  deriving DecidableEq, Repr

/-- warp's `path::segment`: the text before the next slash -/
def segment : List Char → List Char
  | [] => []
  | c :: cs => if c = '/' then [] else c :: segment cs

/-- the path after this segment and the slash -/
def afterSegment : List Char → List Char
  | [] => []
  | c :: cs => if c = '/' then cs else afterSegment cs

/-- `warp::path("…")`: the rest of the path, if the next segment is this one -/
def pathFilter (name : List Char) (path : List Char) : Option (List Char) :=
  if segment path = name then some (afterSegment path) else none

/-- `warp::path::param::<String>()`: the next segment, which may not be empty -/
def pathParam (path : List Char) : Option (List Char) :=
  if segment path = [] then none else some (segment path)

/-- main.rs:357-360 `get_query` -/
def getQueryRoute (r : Request) : Option Handled :=
  if r.method = .get then
    (pathFilter "query".toList r.path).bind fun rest => (pathParam rest).map fun q =>
      .query (fromUtf8Lossy (percentDecode 0 (strBytes q))) true
  else none

/-- main.rs:362-368 `post_query` -/
def postQueryRoute (r : Request) : Option Handled :=
  if r.method = .post then
    (pathFilter "query".toList r.path).bind fun _ =>
      match r.length with
      | none => none
      | some n => if 64 * 1024 < n then none
        else match fromUtf8 r.body with
          | some t => some (.query t false)
          | none => some .panicked
  else none

/-- main.rs:352-354 `ws` -/
def wsRoute (r : Request) : Option Handled :=
  (pathFilter "ws".toList r.path).bind fun _ => if r.method = .get ∧ r.upgrade = true then some .socket else none

/-- main.rs:341-344 `wordlist`: the name is not decoded -/
def wordlistRoute (r : Request) : Option Handled :=
  if r.method = .get then
    (pathFilter "wordlist".toList r.path).bind fun rest => (pathParam rest).map .wordlist
  else none

/-- main.rs:347-349 `wordlist_js` -/
def wordlistJsRoute (r : Request) : Option Handled :=
  if r.method = .get then (pathFilter "wordlists.js".toList r.path).map fun _ => .wordlistJs else none

/-- main.rs:338 `metrics` -/
def metricsRoute (r : Request) : Option Handled :=
  if r.method = .get then (pathFilter "metrics".toList r.path).map fun _ => .metrics else none

/-- main.rs:370-377: `or` tries one filter after the other. -/
def route (r : Request) : Handled :=
  ((getQueryRoute r).orElse fun _ => (postQueryRoute r).orElse fun _ => (wsRoute r).orElse fun _ =>
    (wordlistRoute r).orElse fun _ => (wordlistJsRoute r).orElse fun _ => metricsRoute r).getD .other

/-- The body of the answer, for the handlers that answer at once: `none`, the handler is still running, or there is no
such body. -/
def answerBody (U : Unicode) (errorText : List Char → List Char) (ds : Dicts) (active total : Nat) (clks : List Clock)
    (r : Request) : Except Crash (Option (List Char)) :=
  match route r with
  | .query t p => syncBody U errorText ds t p clks
  | .wordlist n => (getWordlist ds n).map some
  | .wordlistJs => .ok (some (wordlistJs ds))
  | .metrics => .ok (some (metricsText active total ds))
  | .panicked => .error .index
  | .socket | .other => .ok none

end Noodle
