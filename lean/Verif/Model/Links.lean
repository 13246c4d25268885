import Verif.Model.Screen
import Verif.Model.Link
/-
The links next to a result, /repo/noodle-webapp/static/index.html:509-545 (JavaScript). Not modelled: what an address with a
blank, quote or character outside ASCII would become (there are none in these addresses but `'`, which is then written `%27`, the
same text), and the segments `.` and `..` of paths, which browsers take away.
-/
namespace Noodle
set_option autoImplicit false

/-- index.html:514 `navigator.clipboard.writeText(match.fullText)` -/
def copiedResult (h : Hit) : List Char := h.text

/-- index.html:521 -/
def googleLink (h : Hit) : List Char := "https://google.com/search?q=define:".toList ++ encodeURI h.text

/-- index.html:522 -/
def googleTitle (h : Hit) : List Char := "Google define:".toList ++ h.text

/-- index.html:528 -/
def wikiLink (h : Hit) : List Char := "https://en.wikipedia.org/w/index.php?ns0=1&search=".toList ++ encodeURI h.text

/-- index.html:529 -/
def wikiTitle (h : Hit) : List Char := "Wikipedia ".toList ++ h.text

/-- index.html:536 -/
def crosswordLink (h : Hit) : List Char := "https://crossword-solver.io/clue/".toList ++ encodeURI h.text

/-- index.html:535 -/
def crosswordTitle (h : Hit) : List Char := "crossword-solver.io clue ".toList ++ h.text

end Noodle
