import Verif.Model.Parse
/-
The query that the web page sends, /repo/noodle-webapp/static/index.html.
-/
namespace Noodle
set_option autoImplicit false

/-- index.html:449-456 (JavaScript): the text sent over the web socket. The arguments are the values of the fields: the name
of the word list (index.html:169-172, 609-619), the largest number of words of a phrase, the largest number of results, the
query and the custom word list (`""` is false in JavaScript). -/
def pageText (wordlist maxPhraseLength maxResults input customWordlist : List Char) : List Char :=
  let inputText := "#dict ".toList ++ wordlist ++ "\n".toList
  let inputText := inputText ++ "#words ".toList ++ maxPhraseLength ++ "\n".toList
  let inputText := inputText ++ "#limit ".toList ++ maxResults ++ "\n".toList
  let inputText := inputText ++ input
  if customWordlist = [] then inputText else inputText ++ "\n#wordlist\n".toList ++ customWordlist

/-- `String.prototype.trim` (ECMAScript): its white space is tab, vertical tab, form feed, the byte order mark, the space
separators of Unicode, and the line ends (newline, carriage return, line and paragraph separator). -/
def jsWhite (c : Char) : Bool :=
  decide (c.toNat ∈ [9, 10, 11, 12, 13, 0x20, 0xA0, 0x1680, 0x2000, 0x2001, 0x2002, 0x2003, 0x2004, 0x2005, 0x2006, 0x2007,
    0x2008, 0x2009, 0x200A, 0x2028, 0x2029, 0x202F, 0x205F, 0x3000, 0xFEFF])

def jsTrim (l : List Char) : List Char := ((l.dropWhile jsWhite).reverse.dropWhile jsWhite).reverse

/-- index.html:478-494 (JavaScript): `match.fullText`, from the texts of the words of a match. (What is shown: Model/Screen.lean.) -/
def fullText (texts : List (List Char)) : List Char := jsTrim (texts.flatMap fun t => t ++ [' '])

/-- The value of a `textarea` (HTML, "API value"): line ends become newlines. -/
def areaValue : List Char → List Char
  | [] => []
  | '\r' :: '\n' :: l => '\n' :: areaValue l
  | c :: l => (if c = '\r' then '\n' else c) :: areaValue l

/-- index.html:575-591 (JavaScript): "copy results to the custom word list": what the field then contains. The matches
are those shown (sorted or not, index.html:411-416); `keep` is the filter, if it is enabled (a regular expression of
JavaScript, not modelled). -/
def copyWordlist (keep : List Char → Bool) (matched : List (List (List Char))) : List Char :=
  areaValue (((matched.map fullText).filter keep).flatMap fun t => t ++ ['\n'])

end Noodle
