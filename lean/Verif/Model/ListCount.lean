import Verif.Model.ListGen
/-
Model of the counting of words, /repo/listgen/listgen.py: `word_frequency`, from the texts of the files of counted words
(`*.title-wordlist`, `*.body-wordlist`, in the order in which they are read) to the texts of `title.txt` and `body.txt`.
-/
namespace Noodle
set_option autoImplicit false

/-- listgen.py:203, 210 `count_str, word = line.strip("\n").split("\t")`, and `int(count_str)`. -/
def rowOfShard (P : Python) (line : List Char) : Except PyError (Int × List Char) :=
  match splitTab line with
  | none => .error .value
  | some (count, word) => if '\t' ∈ word then .error .value else match P.int count with
    | none => .error .value
    | some n => .ok (n, word)

/-- listgen.py:204, 211, 227 `d[w] = d.get(w, 0) + n` (and `d[w] += n`, for a `Counter`). -/
def countRow (d : PyDict Int) (r : Int × List Char) : PyDict Int := d.set r.2 ((d.get r.2).getD 0 + r.1)

/-- listgen.py:197-205, 198-212: reading all files of one kind. -/
def countShards (P : Python) : PyDict Int → List (List Char) → Except PyError (PyDict Int)
  | d, [] => .ok d
  | d, t :: ts => match (pyLines [] t).mapM (rowOfShard P) with
    | .error e => .error e
    | .ok rows => countShards P (rows.foldl countRow d) ts

/-- listgen.py:214, 216: `canonical_form` and `new_c`. -/
structure Merging where
  forms : PyDict (List Char) := []
  counts : PyDict Int := []

/-- listgen.py:218-227: one round of the inner loop, over the entries of one dictionary. `title` and `body` are `title_count`
and `body_count` during this loop. `enough c n` is `c >= 0.01 * n`. -/
def mergeWord (P : Python) (enough : Int → Int → Bool) (title body : PyDict Int) (st : Merging) (x : List Char × Int) : Merging :=
  let canonical := canonicalize P x.1
  let forms := match st.forms.get canonical with
    | some _ => st.forms
    | none => st.forms.set canonical
      (if enough ((title.get canonical).getD 0 + (body.get canonical).getD 0) x.2 then canonical else x.1)
  ⟨forms, countRow st.counts (x.2, (forms.get canonical).getD [])⟩

/-- listgen.py:232-239: a line for each entry. -/
def dumpCounts (d : PyDict Int) : List Char := d.flatMap fun x => pyInt x.2 ++ '\t' :: (x.1 ++ ['\n'])

/-- listgen.py:194-240 `word_frequency`: the texts of `title.txt` and `body.txt`. The entries of one dictionary are replaced
(228-229) before those of the second are merged. -/
def wordFrequency (P : Python) (enough : Int → Int → Bool) (titles bodies : List (List Char)) :
    Except PyError (List Char × List Char) := do
  let title ← countShards P [] titles
  let body ← countShards P [] bodies
  let st := title.foldl (mergeWord P enough title body) {}
  let st' := body.foldl (mergeWord P enough st.counts body) ⟨st.forms, []⟩
  return (dumpCounts st.counts, dumpCounts st'.counts)

end Noodle
