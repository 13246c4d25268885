import Verif.Model.Prepare
/-
Model of how the list of Wiktionary is made, /repo/listgen/listgen.py: `wiktionary_wordlist` and `Wordlist.dump`, from the
entries of a dump of Wiktionary to the text of `enwiktionary.txt`. Reading the compressed file and its JSON is not modelled.
-/
namespace Noodle
set_option autoImplicit false

/-- What is used of an entry: `data.get("lang_code")`, `data["word"]` and `form["form"]` for its forms. -/
structure WikiEntry where
  lang : Option (List Char)
  word : Option (List Char)
  forms : List (List Char)

/-- listgen.py:58-72 `add_word`, with a score and without an index. -/
def addWord (P : Python) (W : Char → Bool) (d : WordData) (r : Int × List Char) : WordData :=
  let word := stripWord W r.2
  if word = [] then d
  else
    let canonical := canonicalize P word
    match d.get canonical with
    | none => d.set canonical (r.1, d.length, word)
    | some (oldScore, oldIndex, oldWord) => d.set canonical (max oldScore r.1, min d.length oldIndex, oldWord)

/-- listgen.py:354-361: one round of the loop. -/
def wikiStep (P : Python) (W : Char → Bool) (d : WordData) (e : WikiEntry) : WordData :=
  if e.lang ≠ some "en".toList then d
  else match e.word with
    | none => d
    | some w => ((e.forms.filter fun f => !(f.contains ' ') && decide (canonicalize P f = f)).map fun f => (50, f)).foldl
        (addWord P W) (addWord P W d (1000, w))

/-- listgen.py:29-34 `dump`. Sorting is stable, also with `reverse=True`. -/
def dumpList (d : WordData) : List Char :=
  (d.mergeSort fun x y => decide (y.2.1 ≤ x.2.1)).flatMap fun x => pyInt x.2.1 ++ '\t' :: (x.1 ++ '\t' :: (x.2.2.2 ++ ['\n']))

/-- listgen.py:350-362 `wiktionary_wordlist`, and 409 `dump`. -/
def wikiFile (P : Python) (W : Char → Bool) (entries : List WikiEntry) : List Char := dumpList (entries.foldl (wikiStep P W) [])

end Noodle
