import Verif.Spec.Surface
import Verif.Model.Parse
/-
The documented form of a query: lines, and what they do; written down independently of the parser.
-/
namespace Noodle.Spec
set_option autoImplicit false

/-- A line of a query. Numbers named `before`, `between`, `after` count blanks. -/
inductive Line
  /-- an expression with flags -/
  | expr (before : Nat) (a : Alts) (fs : List (Flag × Nat))
  /-- `#words n` -/
  | words (before : Nat) (key : List Char) (between n after : Nat)
  /-- `#limit n` -/
  | limit (before : Nat) (key : List Char) (between n after : Nat)
  /-- `#dict name` -/
  | dict (before : Nat) (key : List Char) (between : Nat) (name : List Char) (after : Nat)
  /-- `#quiet` -/
  | quiet (before : Nat) (key : List Char) (after : Nat)
  /-- `NAME=value` -/
  | define (before : Nat) (name : List Char) (between : Nat) (value : List Char) (after : Nat)
  /-- nothing -/
  | blank (n : Nat)
  /-- `// …` or `-- …` -/
  | comment (before : Nat) (mark : Char) (text : List Char)

def Line.text : Line → List Char
  | .expr b a fs => exprText b a fs
  | .words b key g n t => gap b ++ key ++ gap g ++ digits n ++ gap t
  | .limit b key g n t => gap b ++ key ++ gap g ++ digits n ++ gap t
  | .dict b key g name t => gap b ++ key ++ gap g ++ name ++ gap t
  | .quiet b key t => gap b ++ key ++ gap t
  | .define b name g value t => gap b ++ name ++ ['='] ++ gap g ++ value ++ gap t
  | .blank n => gap n
  | .comment b mark text => gap b ++ [mark, mark] ++ text

/-- A keyword, in capital or small letters. -/
def keyword (s : String) (key : List Char) : Bool := key.map Char.toLower == s.toList

/-- A character of the name of a macro. -/
def nameChar (c : Char) : Bool := c.isAlpha || c.isDigit || c == '_'

/-- A name of a macro: a letter, then letters, digits, `_`. -/
def nameOk : List Char → Bool
  | [] => false
  | c :: cs => c.isAlpha && cs.all nameChar

/-- No comment starts in this text. -/
def noComment : List Char → Bool
  | [] => true
  | c :: cs => !(c == '/' && cs.head? == some '/') && !(c == '-' && cs.head? == some '-') && noComment cs

/-- A value of a macro: printable ASCII characters, no blanks at the ends, no comment. -/
def valueOk (v : List Char) : Bool :=
  v.all (fun c => decide (32 ≤ c.toNat) && decide (c.toNat ≤ 126)) && v.head? != some ' ' &&
    v.getLast? != some ' ' && noComment v

def Line.ok : Line → Bool
  | .expr _ a fs => a.ok && fs.all fun f => f.1.ok
  | .words _ key _ n _ => keyword "#words" key && decide (n < 2 ^ 64)
  | .limit _ key _ n _ => keyword "#limit" key && decide (n < 2 ^ 64)
  | .dict _ key _ name _ => keyword "#dict" key && (name.any fun c => c != ' ') &&
      (name.all fun c => plainChar c || c == '.' || c == '-' || c == ' ') && noComment name
  | .quiet _ key _ => keyword "#quiet" key
  | .define _ name _ value _ => nameOk name && valueOk value
  | .blank _ => true
  | .comment _ mark text => (mark == '/' || mark == '-') && !text.isEmpty

/-! ### What the lines say -/

/-- The last of the values given. -/
def lastSome {α β : Type} (f : α → Option β) : List α → Option β
  | [] => none
  | a :: l => (lastSome f l).or (f a)

def Line.givesWords : Line → Option Nat | .words _ _ _ n _ => some n | _ => none
def Line.givesLimit : Line → Option Nat | .limit _ _ _ n _ => some n | _ => none
/-- Hyphens (and blanks) may be written in a name, but are not part of what is asked for. -/
def Line.givesDict : Line → Option (List Char)
  | .dict _ _ _ name _ => some (name.filter fun c => c != '-' && c != ' ')
  | _ => none
def Line.givesQuiet : Line → Option Bool | .quiet _ _ _ => some true | _ => none
def Line.givesExpr : Line → Option (Alts × List (Flag × Nat)) | .expr _ a fs => some (a, fs) | _ => none
def Line.defines : Line → Option (List Char × List Char) | .define _ name _ value _ => some (name, value) | _ => none

/-- The definitions a list of lines makes: the names in the order in which they were first defined, each with the value
it was last given. -/
def defsOf (ls : List Line) : List (List Char × List Char) :=
  let ds := ls.filterMap Line.defines
  (ds.map (·.1)).eraseDups.filterMap fun n => (lastSome (fun d : List Char × List Char => if d.1 = n then some d.2 else none) ds).map fun v => (n, v)

/-- `l'` is `l` with every occurrence of `pat`, from left to right and without overlaps, replaced by `rep`. -/
inductive Replaced (pat rep : List Char) : List Char → List Char → Prop
  | nil : Replaced pat rep [] []
  | hit {l l' : List Char} : Replaced pat rep l l' → Replaced pat rep (pat ++ l) (rep ++ l')
  | miss {c : Char} {l l' : List Char} : ¬ pat <+: c :: l → Replaced pat rep l l' → Replaced pat rep (c :: l) (c :: l')

/-- `l'` is `l` after all the definitions have been applied, one after the other. -/
inductive Expanded : List (List Char × List Char) → List Char → List Char → Prop
  | nil {l : List Char} : Expanded [] l l
  | cons {n v : List Char} {ds : List (List Char × List Char)} {l l1 l2 : List Char} :
      Replaced n v l l1 → Expanded ds l1 l2 → Expanded ((n, v) :: ds) l l2

/-- The lines `raw` become, each after the definitions made by the lines before it, the lines `ls`. -/
inductive Script : List Line → List (List Char) → List Line → Prop
  | nil {before : List Line} : Script before [] []
  | cons {before : List Line} {r : List Char} {raw : List (List Char)} {l : Line} {ls : List Line} :
      Expanded (defsOf before) r l.text → Script (before ++ [l]) raw ls → Script before (r :: raw) (l :: ls)

/-- The lines of a text: separated by newlines or semicolons. -/
inductive Lines : List Char → List (List Char) → Prop
  | last {l : List Char} : '\n' ∉ l → ';' ∉ l → Lines l [l]
  | cons {l t : List Char} {ls : List (List Char)} {s : Char} : '\n' ∉ l → ';' ∉ l → (s = '\n' ∨ s = ';') → Lines t ls →
      Lines (l ++ s :: t) (l :: ls)

/-! ### Word lists in a query -/

/-- The characters with the property `White_Space` in Unicode: tab to carriage return, blank, next line, no-break space,
ogham space mark, the spaces from en quad to hair space, line and paragraph separator, narrow no-break space, medium
mathematical space, ideographic space. -/
def whiteCodes : List Nat :=
  [9, 10, 11, 12, 13, 0x20, 0x85, 0xA0, 0x1680, 0x2000, 0x2001, 0x2002, 0x2003, 0x2004, 0x2005, 0x2006, 0x2007, 0x2008,
   0x2009, 0x200A, 0x2028, 0x2029, 0x202F, 0x205F, 0x3000]

/-- `t` is `l` without the white space (in the sense of Unicode) at its ends. -/
def Trims (l t : List Char) : Prop :=
  ∃ a b, l = a ++ t ++ b ∧ (∀ c ∈ a, c.toNat ∈ whiteCodes) ∧ (∀ c ∈ b, c.toNat ∈ whiteCodes) ∧
    (∀ c, t.head? = some c → c.toNat ∉ whiteCodes) ∧ (∀ c, t.getLast? = some c → c.toNat ∉ whiteCodes)

/-- The words that lines (numbered from `i`) list: those that are not blank, with tranche 1, and the number of the line
(modulo `2^32`) as their score. -/
inductive Listed (U : Unicode) : Nat → List (List Char) → List Word → Prop
  | nil {i : Nat} : Listed U i [] []
  | blank {i : Nat} {l : List Char} {ls : List (List Char)} {ws : List Word} : Trims l [] → Listed U (i + 1) ls ws →
      Listed U i (l :: ls) ws
  | word {i : Nat} {l t : List Char} {ls : List (List Char)} {ws : List Word} : Trims l t → t ≠ [] →
      Listed U (i + 1) ls ws → Listed U i (l :: ls) (Word.new U (String.ofList t) 1 (i % 2 ^ 32) :: ws)

end Noodle.Spec
