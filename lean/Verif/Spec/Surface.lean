import Verif.Spec.Chars
import Verif.Spec.Lang
/-
The documented syntax of expressions and what it means, written down independently of the parser: what a user writes
(`text`), and which strings of symbols it stands for (`Means`).
-/
namespace Noodle.Spec
set_option autoImplicit false

/-- Inside brackets: one character, or a range of letters. -/
inductive Item
  | one (c : Char)
  | range (lo hi : Char)

/-- After a term: nothing, `?`, `*`, `+`, `{n}`, `{,n}`, `{n,}`, `{n,m}`. -/
inductive Suffix
  | none
  | opt
  | star
  | plus
  | exact (n : Nat)
  | atMost (n : Nat)
  | atLeast (n : Nat)
  | range (n m : Nat)
  deriving DecidableEq

/-- The three groups that stand for parts: `(…:^)`, `(…:-)`, `(…:+)`. -/
inductive PartKind
  | substring
  | subset
  | superset

mutual
/-- A term. -/
inductive Term
  /-- a letter, `'` or `_` -/
  | chr (c : Char)
  /-- `.` -/
  | dot
  /-- `[…]`, or `[^…]` -/
  | cls (neg : Bool) (items : List Item)
  /-- a number: a word of that many letters -/
  | num (n : Nat)
  /-- `(…)` -/
  | group (a : Alts)
  /-- `<…>`, `<…+>`, `<…->`, `<…+n>`, `<…-n>` -/
  | bank (kind : AnagramKind) (letters : List Char)
  /-- `(…:^)`, `(…:-)`, `(…:+)` -/
  | part (kind : PartKind) (r : Row)
/-- One or more terms, each with a suffix, and with any number of blanks after it. -/
inductive Row
  | last (t : Term) (s : Suffix) (blanks : Nat)
  | cons (t : Term) (s : Suffix) (blanks : Nat) (r : Row)
/-- One or more rows, with `|` between them; any number of blanks after each `|`. -/
inductive Alts
  | one (r : Row)
  | more (r : Row) (blanks : Nat) (a : Alts)
end

/-! ### What is written -/

/-- Blanks. -/
def gap (n : Nat) : List Char := List.replicate n ' '

/-- A number in decimal. -/
def digits (n : Nat) : List Char := (toString n).toList

def Item.text : Item → List Char
  | .one c => [c]
  | .range lo hi => [lo, '-', hi]

def Suffix.text : Suffix → List Char
  | .none => []
  | .opt => ['?']
  | .star => ['*']
  | .plus => ['+']
  | .exact n => ['{'] ++ digits n ++ ['}']
  | .atMost n => ['{', ','] ++ digits n ++ ['}']
  | .atLeast n => ['{'] ++ digits n ++ [',', '}']
  | .range n m => ['{'] ++ digits n ++ [','] ++ digits m ++ ['}']

def bankText : AnagramKind → List Char
  | .standard => ['>']
  | .super => ['+', '>']
  | .sub => ['-', '>']
  | .transAdd n => ['+'] ++ digits n ++ ['>']
  | .transDelete n => ['-'] ++ digits n ++ ['>']

def PartKind.text : PartKind → List Char
  | .substring => [':', '^', ')']
  | .subset => [':', '-', ')']
  | .superset => [':', '+', ')']

mutual
def Term.text : Term → List Char
  | .chr c => [c]
  | .dot => ['.']
  | .cls neg items => ['['] ++ (if neg then ['^'] else []) ++ items.flatMap Item.text ++ [']']
  | .num n => digits n
  | .group a => ['('] ++ a.text ++ [')']
  | .bank kind letters => ['<'] ++ letters ++ bankText kind
  | .part kind r => ['('] ++ r.text ++ kind.text
def Row.text : Row → List Char
  | .last t s b => t.text ++ s.text ++ gap b
  | .cons t s b r => t.text ++ s.text ++ gap b ++ r.text
def Alts.text : Alts → List Char
  | .one r => r.text
  | .more r b a => r.text ++ ['|'] ++ gap b ++ a.text
end

/-! ### What may be written -/

/-- A character that stands for itself, inside or outside brackets. -/
def plainChar (c : Char) : Bool := c.isAlpha || c == '\'' || c == '_'

def Item.ok : Item → Bool
  | .one c => plainChar c || c == '.'
  | .range lo hi => lo.isAlpha && hi.isAlpha

/-- Numbers fit in 64 bits. -/
def Suffix.ok : Suffix → Bool
  | .none | .opt | .star | .plus => true
  | .exact n => decide (n < 2 ^ 64)
  | .atMost n => decide (n < 2 ^ 64)
  | .atLeast n => decide (n < 2 ^ 64)
  | .range n m => decide (n < 2 ^ 64) && decide (m < 2 ^ 64)

def bankOk : AnagramKind → Bool
  | .transAdd n => decide (n < 2 ^ 64)
  | .transDelete n => decide (n < 2 ^ 64)
  | _ => true

def Term.isNum : Term → Bool
  | .num _ => true
  | _ => false

def Row.startsNum : Row → Bool
  | .last t _ _ => t.isNum
  | .cons t _ _ _ => t.isNum

/-- No term of the row has a suffix. -/
def Row.bare : Row → Bool
  | .last _ s _ => s == .none
  | .cons _ s _ r => s == .none && r.bare

mutual
def Term.ok : Term → Bool
  | .chr c => plainChar c
  | .dot => true
  | .cls _ items => !items.isEmpty && items.all Item.ok
  | .num n => decide (n < 2 ^ 64)
  | .group a => a.ok
  | .bank kind letters => bankOk kind && !letters.isEmpty && letters.all Char.isAlpha
  | .part _ r => r.ok && r.bare
/-- Two numbers in a row have a blank between them. -/
def Row.ok : Row → Bool
  | .last t s _ => t.ok && s.ok
  | .cons t s b r => t.ok && s.ok && r.ok && (!(t.isNum && s == .none && b == 0 && r.startsNum))
def Alts.ok : Alts → Bool
  | .one r => r.ok
  | .more r _ a => r.ok && a.ok
end

/-! ### What it means -/

/-- A set of strings. -/
abbrev Strings := List Ch → Prop

/-- The strings that are put together from one string of each set, in order. -/
def Concat : List Strings → Strings
  | [], u => u = []
  | P :: Ps, u => ∃ v w, u = v ++ w ∧ P v ∧ Concat Ps w

/-- Likewise, with anything before, between and after. -/
def Around : List Strings → Strings
  | [], _ => True
  | P :: Ps, u => ∃ g v w, u = g ++ v ++ w ∧ P v ∧ Around Ps w

/-- How often the term before the suffix may be repeated. -/
def Suffix.Allows : Suffix → Nat → Prop
  | .none, k => k = 1
  | .opt, k => k ≤ 1
  | .star, _ => True
  | .plus, k => 1 ≤ k
  | .exact n, k => k = n
  | .atMost n, k => k ≤ n
  | .atLeast n, k => n ≤ k
  | .range n m, k => n ≤ k ∧ k ≤ m

/-- A repeated term. -/
def Suffix.Of (s : Suffix) (P : Strings) : Strings := fun u => ∃ k, s.Allows k ∧ Concat (List.replicate k P) u

/-- Which symbols are listed in brackets. -/
def Item.Lists : Item → Ch → Prop
  | .one c, x => Sym c x
  | .range lo hi, x => ∃ d : Char, lo ≤ d ∧ d ≤ hi ∧ Sym d x

/-- A bracket: the listed symbols; after `^`, the letters that are not listed (and the word end or the punctuation
symbol, if these are listed). -/
def Bracket (neg : Bool) (items : List Item) (x : Ch) : Prop :=
  if neg = true ∧ x.val < 26 then ¬ ∃ i ∈ items, i.Lists x else ∃ i ∈ items, i.Lists x

/-- The symbols of the letters in an anagram block. -/
inductive Spelled : List Char → List Ch → Prop
  | nil : Spelled [] []
  | cons {c : Char} {x : Ch} {cs : List Char} {xs : List Ch} : Sym c x → Spelled cs xs → Spelled (c :: cs) (x :: xs)

mutual
def Term.Means : Term → Strings
  | .chr c => fun u => ∃ x, u = [x] ∧ Sym c x
  | .dot => fun u => ∃ x : Ch, u = [x] ∧ x.val < 26
  | .cls neg items => fun u => ∃ x, u = [x] ∧ Bracket neg items x
  | .num n => fun u => ∃ v : List Ch, u = v ++ [Ch.wordEnd] ∧ v.length = n ∧ ∀ x ∈ v, x.val < 26
  | .group a => a.Means
  | .bank kind letters => fun u => ∃ b : List Ch, Spelled letters b ∧ Anagrams kind b u
  | .part .substring r => fun u => ∃ mid, mid <:+: r.parts ∧ Concat mid u
  | .part .subset r => fun u => ∃ s, s.Sublist r.parts ∧ Concat s u
  | .part .superset r => Around r.parts
def Row.parts : Row → List Strings
  | .last t s _ => [s.Of t.Means]
  | .cons t s _ r => s.Of t.Means :: r.parts
def Alts.Means : Alts → Strings
  | .one r => Concat r.parts
  | .more r _ a => fun u => Concat r.parts u ∨ a.Means u
end

/-! ### Which symbols are written -/

mutual
/-- A symbol is among the characters a term lists. A number is a word and so mentions the word end; `.` and anagram
blocks list letters only; `(…:+)` allows every symbol between its terms. -/
def Term.Mentions (x : Ch) : Term → Prop
  | .chr c => Sym c x
  | .dot => x.val < 26
  | .cls neg items => Bracket neg items x
  | .num _ => x = Ch.wordEnd ∨ x.val < 26
  | .group a => a.Mentions x
  | .bank _ letters => ∃ c ∈ letters, Sym c x
  | .part .superset _ => True
  | .part .subset r => r.Mentions x
  | .part .substring r => r.Mentions x
def Row.Mentions (x : Ch) : Row → Prop
  | .last t _ _ => t.Mentions x
  | .cons t _ _ r => t.Mentions x ∨ r.Mentions x
def Alts.Mentions (x : Ch) : Alts → Prop
  | .one r => r.Mentions x
  | .more r _ a => r.Mentions x ∨ a.Mentions x
end

/-- A symbol is in a class or an anagram bank, somewhere in a syntax tree. -/
inductive Appears (x : Ch) : Ast → Prop
  | cls {c : CharSet} : c.contains x = true → Appears x (.cls c)
  | bank {k : AnagramKind} {b : List Ch} : x ∈ b → Appears x (.anagram k b)
  | alts {l : List Ast} {a : Ast} : a ∈ l → Appears x a → Appears x (.alts l)
  | seq {l : List Ast} {a : Ast} : a ∈ l → Appears x a → Appears x (.seq l)
  | substr {l : List Ast} {a : Ast} : a ∈ l → Appears x a → Appears x (.substr l)
  | rep {t : Ast} {lo : Nat} {hi : Option Nat} : Appears x t → Appears x (.rep t lo hi)

/-- After an expression: `!_`, `!'`, `!n`. -/
inductive Flag
  | boundaries
  | punctuation
  | fuzz (n : Nat)

def Flag.text : Flag → List Char
  | .boundaries => ['!', '_']
  | .punctuation => ['!', '\'']
  | .fuzz n => ['!'] ++ digits n

def Flag.ok : Flag → Bool
  | .fuzz n => decide (n < 2 ^ 64)
  | _ => true

/-- The number of the last `!n`, if any. -/
def lastFuzz : List (Flag × Nat) → Option Nat
  | [] => none
  | (f, _) :: fs => (lastFuzz fs).or (match f with | .fuzz n => some n | _ => none)

/-- Flags, each with blanks after it. -/
def flagsText (fs : List (Flag × Nat)) : List Char := fs.flatMap fun f => f.1.text ++ gap f.2

/-- The text of an expression: blanks, alternatives, flags. -/
def exprText (b : Nat) (a : Alts) (fs : List (Flag × Nat)) : List Char := gap b ++ a.text ++ flagsText fs

end Noodle.Spec
