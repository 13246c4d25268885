import Verif.Model.ListCount
/-
Model of the extraction of words, /repo/listgen/listgen.py: `strip_body`, `strip_word` with their regular expressions, and
`extract_word_frequency`, from the articles of one file of a Wikipedia dump to the texts of the two files of counted words that
`word_frequency` reads. Reading the compressed file and its JSON is not modelled: an article is what `json.loads` gives.
-/
namespace Noodle
set_option autoImplicit false

/-! ### Regular expressions

Matching goes from left to right with backtracking: what follows is a continuation, which may refuse. -/

/-- `[…]*`, as much as possible first. `acc` is what it has taken so far. -/
def starRe {α : Type} (p : Char → Bool) (k : List Char → List Char → Option α) (acc : List Char) : List Char → Option α
  | [] => k acc []
  | c :: cs =>
    if p c then match starRe p k (acc ++ [c]) cs with
      | some r => some r
      | none => k acc (c :: cs)
    else k acc (c :: cs)

/-- `[…]*?`, as little as possible first. -/
def lazyRe {α : Type} (p : Char → Bool) (k : List Char → List Char → Option α) (acc : List Char) : List Char → Option α
  | [] => k acc []
  | c :: cs => match k acc (c :: cs) with
    | some r => some r
    | none => if p c then lazyRe p k (acc ++ [c]) cs else none

/-- A literal text. -/
def literal {α : Type} (k : List Char → Option α) (pat s : List Char) : Option α :=
  if pat.isPrefixOf s then k (s.drop pat.length) else none

/-- `.` -/
def dot (c : Char) : Bool := c != '\n'

/-- `$`: the end, or before a newline at the end. -/
def atEnd (s : List Char) : Bool := s == [] || s == ['\n']

/-- The text that `strip_body_re` looks for. -/
def retrieved : List Char := " Retrieved ".toList

/-- listgen.py:89 `strip_body_re = r"(^.*? Retrieved .*?) Retrieved "`, `match.group(1)`. -/
def stripBodyRe (body : List Char) : Option (List Char) :=
  lazyRe dot (fun a s => literal (fun s =>
    lazyRe dot (fun b s => literal (fun _ => some (a ++ retrieved ++ b)) retrieved s) [] s) retrieved s) [] body

/-- listgen.py:96-105 `strip_body`. -/
def stripBody (body : List Char) : List Char := (stripBodyRe body).getD body

/-- listgen.py:91 `any_letter_re = r".*[a-zA-Z].*"`. -/
def anyLetterRe (s : List Char) : Bool :=
  (starRe dot (fun _ s => match s with
    | c :: s => if c.isAlpha then starRe dot (fun _ _ => some ()) [] s else none
    | [] => none) [] s).isSome

/-- `[\w/\-,.&']`. `W` is `\w`. -/
def innerChar (W : Char → Bool) (c : Char) : Bool := W c || "/-,.&'".toList.contains c

/-- listgen.py:90 `strip_word_re = r"^\W*([\w/\-,.&']*\w)\W*$"`, `match.group(1)`. -/
def stripWordRe (W : Char → Bool) (word : List Char) : Option (List Char) :=
  starRe (fun c => !W c) (fun _ s => starRe (innerChar W) (fun t s => match s with
    | c :: s => if W c then starRe (fun c => !W c) (fun _ s => if atEnd s then some (t ++ [c]) else none) [] s else none
    | [] => none) [] s) [] word

/-- The alternatives in `domain_re`. -/
def domainEnds : List (List Char) :=
  ["com", "co.", "org", "net", "gov", "biz", "info", "today", "cz", "at", "dk", "de"].map String.toList

/-- listgen.py:93 `domain_re = r".*\.(com|co\.|org|net|gov|biz|info|today|cz|at|dk|de)"`. -/
def domainRe (s : List Char) : Bool :=
  (starRe dot (fun _ s => literal (fun s => domainEnds.findSome? fun d => literal (fun _ => some ()) d s) ['.'] s) [] s).isSome

/-- `pat in s` -/
def within (pat : List Char) : List Char → Bool
  | [] => pat.isEmpty
  | c :: cs => pat.isPrefixOf (c :: cs) || within pat cs

/-- listgen.py:108-127 `strip_word`. -/
def stripWord (W : Char → Bool) (word : List Char) : List Char :=
  if !anyLetterRe word then []
  else match stripWordRe W word with
    | none => []
    | some word =>
      if within ['_'] word then []
      else
        let word := word.map fun c => if c = '–' then '-' else c
        if within "www.".toList word || domainRe word then [] else word

/-! ### Counting -/

/-- `str.split()` -/
def pySplit (P : Python) (cur : List Char) : List Char → List (List Char)
  | [] => if cur.isEmpty then [] else [cur]
  | c :: cs => if P.space c then (if cur.isEmpty then pySplit P [] cs else cur :: pySplit P [] cs) else pySplit P (cur ++ [c]) cs

/-- listgen.py:172-173 `counter.update(strip_word(w) for w in text.split())`. -/
def countText (P : Python) (W : Char → Bool) (d : PyDict Int) (text : List Char) : PyDict Int :=
  ((pySplit P [] text).map (stripWord W)).foldl (fun d w => countRow d (1, w)) d

/-- An article: title and body, if they are not `null`. -/
abbrev Article := Option (List Char) × Option (List Char)

/-- listgen.py:166-173: one round of the loop. -/
def extractStep (P : Python) (W : Char → Bool) (st : PyDict Int × PyDict Int) : Article → PyDict Int × PyDict Int
  | (some title, some body) => (countText P W st.1 title, countText P W st.2 (stripBody body))
  | _ => st

/-- listgen.py:162-182 `extract_word_frequency`: the texts of the files with the words of titles and of bodies. -/
def extractWords (P : Python) (W : Char → Bool) (articles : List Article) : List Char × List Char :=
  let st := articles.foldl (extractStep P W) ([], [])
  (dumpCounts st.1, dumpCounts st.2)

end Noodle
