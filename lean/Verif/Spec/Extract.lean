import Verif.Model.Extract
import Verif.Spec.ListCount
/-
What the extraction of words should give.
-/
namespace Noodle.Spec
set_option autoImplicit false

/-- The parts of a text between white space. -/
inductive Tokens (space : Char → Bool) : List Char → List (List Char) → Prop
  | nil : Tokens space [] []
  | blank {c : Char} {s : List Char} {ts : List (List Char)} : space c = true → Tokens space s ts → Tokens space (c :: s) ts
  | last {t : List Char} : t ≠ [] → (∀ c ∈ t, space c = false) → Tokens space t [t]
  | cons {t : List Char} {c : Char} {s : List Char} {ts : List (List Char)} : t ≠ [] → (∀ c ∈ t, space c = false) →
      space c = true → Tokens space s ts → Tokens space (t ++ c :: s) (t :: ts)

/-- What is left of a word without the signs around it. `W`: letters, digits and the like, and the underscore. -/
def Core (W : Char → Bool) (word w : List Char) : Prop :=
  ∃ a b x y, word = a ++ w ++ b ∧ (∀ c ∈ a ++ b, W c = false) ∧ w.head? = some x ∧ W x = true ∧ w.getLast? = some y ∧ W y = true

/-- What counts as a word: no signs in it but some, a letter of the English alphabet, no underscore, and nothing that looks
like the name of a web site. -/
structure Wordlike (W : Char → Bool) (w : List Char) : Prop where
  signs : ∀ c ∈ w, W c = true ∨ c ∈ "/-,.&'".toList
  letter : ∃ c ∈ w, c.isAlpha = true
  underscore : '_' ∉ w
  www : ¬ "www.".toList <:+: w
  domain : ∀ d ∈ [".com", ".co.", ".org", ".net", ".gov", ".biz", ".info", ".today", ".cz", ".at", ".dk", ".de"],
    ¬ d.toList <:+: w

/-- What a word is counted as; `[]` if it does not count as a word. -/
inductive Cleaned (W : Char → Bool) (word : List Char) : List Char → Prop
  | word {w : List Char} : Core W word w → Wordlike W w → Cleaned W word w
  | none : (∀ w, Core W word w → ¬ Wordlike W w) → Cleaned W word []

/-- A body without what follows the second " Retrieved ", if there is one in the first line. -/
inductive CutBody (body : List Char) : List Char → Prop
  | cut {a b c : List Char} : body = a ++ " Retrieved ".toList ++ (b ++ " Retrieved ".toList ++ c) → '\n' ∉ a ++ b →
      (∀ a' s, body = a' ++ " Retrieved ".toList ++ s → a.length ≤ a'.length) →
      (∀ b' s, b ++ " Retrieved ".toList ++ c = b' ++ " Retrieved ".toList ++ s → b.length ≤ b'.length) →
      CutBody body (a ++ " Retrieved ".toList ++ b)
  | whole : (∀ a b c, body = a ++ " Retrieved ".toList ++ (b ++ " Retrieved ".toList ++ c) → '\n' ∈ a ++ b) → CutBody body body

/-- What each of the tokens is counted as. -/
def CleanedAll (W : Char → Bool) (ts ws : List (List Char)) : Prop :=
  ws.length = ts.length ∧ ∀ (i : Nat) (t w : List Char), ts[i]? = some t → ws[i]? = some w → Cleaned W t w

/-- What is counted in titles and in bodies. -/
inductive Extracted (P : Python) (W : Char → Bool) : List Article → List (List Char) → List (List Char) → Prop
  | nil : Extracted P W [] [] []
  | skip {d : Article} {ds : List Article} {tw bw : List (List Char)} : d.1 = none ∨ d.2 = none → Extracted P W ds tw bw →
      Extracted P W (d :: ds) tw bw
  | cons {t b r : List Char} {tt tb t1 b1 : List (List Char)} {ds : List Article} {tw bw : List (List Char)} :
      Tokens P.space t tt → CleanedAll W tt t1 → CutBody b r → Tokens P.space r tb → CleanedAll W tb b1 →
      Extracted P W ds tw bw → Extracted P W ((some t, some b) :: ds) (t1 ++ tw) (b1 ++ bw)

/-- A file with a line for each of these words: how often it occurs, and the word. -/
def CountFile (ws : List (List Char)) (text : List Char) : Prop :=
  ∃ es : List CountRow, text = es.flatMap (fun e => (toString e.1).toList ++ '\t' :: (e.2 ++ ['\n'])) ∧
    (es.map fun e => e.2).Nodup ∧ ∀ n w, (n, w) ∈ es ↔ w ∈ ws ∧ n = (ws.count w : Int)

/-- A row for each canonical form of these words: how often words of this form occur, and a word of this form, one of `all`. -/
structure Counted (P : Python) (ws all : List (List Char)) (rows : List CountRow) : Prop where
  once : (rows.map fun e => canonicalize P e.2).Nodup
  count : ∀ e ∈ rows, e.1 = (ws.countP (fun w => canonicalize P w = canonicalize P e.2) : Int)
  forms : ∀ k, (∃ e ∈ rows, canonicalize P e.2 = k) ↔ ∃ w ∈ ws, canonicalize P w = k
  spelled : ∀ e ∈ rows, e.2 ∈ all

/-- A file with these rows. -/
def FormFile (P : Python) (ws all : List (List Char)) (text : List Char) : Prop :=
  ∃ es : List CountRow, text = es.flatMap (fun e => (toString e.1).toList ++ '\t' :: (e.2 ++ ['\n'])) ∧ Counted P ws all es

/-- What is needed of `\w`: it has the letters of the English alphabet, but no dash and no white space. -/
structure WordChars (P : Python) (W : Char → Bool) : Prop where
  letters : ∀ c : Char, c.isAlpha = true → W c = true
  dash : W '–' = false
  space : ∀ c, P.space c = true → W c = false

/-- What is needed of white space and of `int`. -/
structure ReadsBack (P : Python) : Prop where
  tab : P.space '\t' = true
  lf : P.space '\n' = true
  cr : P.space '\r' = true
  digits : ∀ c : Char, c.isDigit = true → P.space c = false
  int : ∀ n : Nat, P.int (toString n).toList = some (n : Int)

end Noodle.Spec
