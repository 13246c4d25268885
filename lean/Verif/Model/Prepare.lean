import Verif.Model.Extract
/-
Model of the program that prepares word lists, /repo/listgen/listgen.py: `main`, up to its `return`.
-/
namespace Noodle
set_option autoImplicit false

/-- listgen.py:406-413 `main`: `word_frequency` writes `title.txt` and `body.txt` from the files of counted words, and
`create_wordlist` reads them, and `enwiktionary.txt`. Simplified: what has been written before an exception is not part of
the result; that what is written is what is read is taken for granted. -/
def prepare (P : Python) (enough : Int → Int → Bool) (cutoff : Int) (wiktionary : List Char) (titles bodies : List (List Char)) :
    Except PyError ListFiles := do
  let (title, body) ← wordFrequency P enough titles bodies
  createWordlist P cutoff wiktionary title body

end Noodle
