import Verif.Model.Page
import Verif.Model.Routes
/-
The address bar of the web page, /repo/noodle-webapp/static/index.html:408, 447 (JavaScript). `encodeURI` and `decodeURI` are
modelled from ECMAScript (Encode and Decode, 19.2.6.5-6), `location.hash` from the URL standard. Texts are sequences of
Unicode characters: strings of JavaScript that contain half of a surrogate pair (`encodeURI` throws) are not modelled.
-/
namespace Noodle
set_option autoImplicit false

/-- ECMAScript 19.2.6: the characters that `decodeURI` leaves escaped. -/
def preserved : List Char := ";/?:@&=+$,#".toList

/-- ECMAScript 19.2.6: the characters that `encodeURI` does not escape. -/
def unescapedUri (c : Char) : Bool := decide (c ∈ preserved) || c.isAlphanum || decide (c ∈ "-_.!~*'()".toList)

/-- A hexadecimal digit, in capitals. -/
def upperHex (n : Nat) : Char := ("0123456789ABCDEF".toList[n]?).getD '0'

/-- ECMAScript 19.2.6.5 Encode, step 4.c.iv: `%` and two digits. -/
def escapeByte (b : UInt8) : List Char := ['%', upperHex (b.toNat / 16), upperHex (b.toNat % 16)]

/-- `encodeURI` -/
def encodeURI (s : List Char) : List Char :=
  s.flatMap fun c => if unescapedUri c then [c] else (String.utf8EncodeChar c).flatMap escapeByte

/-- The value of a hexadecimal digit. -/
def hexOf (c : Char) : Option Nat := if c.toNat < 128 then hexValue (UInt8.ofNat c.toNat) else none

/-- ECMAScript 19.2.6.7 ParseHexOctet, after the `%`. -/
def hexOctet (a b : Char) : Option UInt8 :=
  match hexOf a, hexOf b with
  | some x, some y => some (UInt8.ofNat (16 * x + y))
  | _, _ => none

/-- ECMAScript 19.2.6.6 Decode: the number of leading 1 bits (5 stands for more than four). -/
def leadingOnes (b : Nat) : Nat :=
  if b < 128 then 0 else if b < 192 then 1 else if b < 224 then 2 else if b < 240 then 3 else if b < 248 then 4 else 5

/-- ECMAScript 19.2.6.6 Decode, step 4.c.vii.8: `n` more escapes, and what follows them. -/
def moreEscapes : Nat → List Char → Option (List UInt8 × List Char)
  | 0, s => some ([], s)
  | n + 1, '%' :: a :: b :: s => match hexOctet a b with
    | some x => (moreEscapes n s).map fun p => (x :: p.1, p.2)
    | none => none
  | _ + 1, _ => none

/-- `decodeURI` (ECMAScript 19.2.6.6 Decode); `none` is a `URIError`. The first argument is at least the length of the
text. -/
def decodeLoop : Nat → List Char → Option (List Char)
  | _, [] => some []
  | 0, _ => none
  | n + 1, c :: s =>
    if c ≠ '%' then (decodeLoop n s).map (c :: ·)
    else match s with
      | a :: b :: s' => match hexOctet a b with
        | none => none
        | some x =>
          let k := leadingOnes x.toNat
          if k = 0 then
            let d := Char.ofNat x.toNat
            if d ∈ preserved then (decodeLoop n s').map (fun t => '%' :: a :: b :: t) else (decodeLoop n s').map (d :: ·)
          else if k = 1 ∨ 4 < k then none
          else match moreEscapes (k - 1) s' with
            | none => none
            | some (xs, r) => match fromUtf8 (x :: xs) with
              | some [d] => (decodeLoop n r).map (d :: ·)
              | _ => none
      | _ => none

def decodeURI (s : List Char) : Option (List Char) := decodeLoop s.length s

/-- URL standard: the fragment percent-encode set: controls, everything above `~`, the space, `"`, `<`, `>`, backtick. -/
def fragmentEscapes (c : Char) : Bool :=
  decide (c.toNat < 0x20) || decide (0x7E < c.toNat) || decide (c ∈ " \"<>`".toList)

/-- HTML and URL standards: the value of `location.hash` after it has been set: a leading `#` is taken off, tabs and
newlines are removed, some characters are escaped; `""` when nothing is left. -/
def setHash (s : List Char) : List Char :=
  let s := match s with
    | '#' :: r => r
    | _ => s
  let f := (s.filter fun c => !(decide (c ∈ ['\t', '\n', '\r']))).flatMap fun c =>
    if fragmentEscapes c then (String.utf8EncodeChar c).flatMap escapeByte else [c]
  if f = [] then [] else '#' :: f

/-- index.html:447 `window.location.hash = "#" + encodeURI(input.value)`, on submitting: the hash after that. -/
def submitHash (input : List Char) : List Char := setHash ('#' :: encodeURI input)

/-- index.html:408 `input.value = decodeURI(window.location.hash.substring(1))`, on loading the page: the value of the
field after that. `none`: an exception; the rest of the script (409-604), which installs the handlers of all
buttons, is not executed. -/
def loadInput (hash : List Char) : Option (List Char) := (decodeURI (hash.drop 1)).map areaValue

/-- `/; */g` (the flag says whether a semicolon has just been replaced: the blanks after it belong to the match). -/
def exampleAux : Bool → List Char → List Char
  | _, [] => []
  | true, ' ' :: s => exampleAux true s
  | _, c :: s => if c = ';' then '\n' :: exampleAux true s else c :: exampleAux false s

/-- index.html:560 `a.innerText.replace(/; */g, "\n")`: the query of an example on the page, from the text of its link. -/
def exampleQuery (s : List Char) : List Char := exampleAux false s

/-- index.html:561: the address that the link of an example leads to (its fragment: what `location.hash` is after following
it). -/
def exampleHash (s : List Char) : List Char := setHash ('#' :: encodeURI (exampleQuery s))

/-- index.html:562-566: what the page sends after a click on an example: the query goes into its field, the largest number of
words of a phrase is set to 10. -/
def exampleText (wordlist maxResults custom s : List Char) : List Char :=
  pageText wordlist "10".toList maxResults (areaValue (exampleQuery s)) custom

/-- index.html:223-235: the examples of the page (`innerText`: without the escapes of HTML). -/
def pageExamples : List String :=
  ["helloworld", "h.... _ w....; <hello+>; <world+5>; [hale]+<owl>.*", "<smiles>", "<smiles>; .*ss.*",
   "ahumongoussentencewithmultiplewords", "ahumongoussentincewithmultiplewords !' !1",
   "3 3 8 7; (LOOHNEWHOOPCRLOVAIDYTILEAUQWOSLLPEASSOEHNCS:-) !'", "hen !1; hay !1", "breadfast !2", ".{8}pi.{6} !_",
   ".*cat.*; (string:+); 10", "(hello world:^)", "V=[aeiou]; C=[^aeiou]; CVCCVV"]

end Noodle
