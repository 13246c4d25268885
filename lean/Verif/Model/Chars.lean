/-
Model of /repo/noodle/src/words.rs (symbols, character sets, words).
-/
namespace Noodle

/-- words.rs:13-15 `pub struct Char(u8)`, with the invariant `< Char::_MAX = 28` asserted by
`into_char`, `as_index` and `from_index` (words.rs:22-39) carried by the type. -/
abbrev Ch := Fin 28

/-- words.rs:18 `Char::PUNCTUATION`. -/
def Ch.punct : Ch := 26
/-- words.rs:19 `Char::WORD_END`. -/
def Ch.wordEnd : Ch := 27

/-- words.rs:42-51 `impl From<char> for Char`. -/
def chOfChar (c : Char) : Ch :=
  if 'A'.toNat ≤ c.toNat ∧ c.toNat ≤ 'Z'.toNat then Fin.ofNat 28 (c.toNat - 'A'.toNat)
  else if 'a'.toNat ≤ c.toNat ∧ c.toNat ≤ 'z'.toNat then Fin.ofNat 28 (c.toNat - 'a'.toNat)
  else if c = ' ' ∨ c = '_' then Ch.wordEnd
  else Ch.punct

/-- words.rs:22-29 `Char::into_char`. -/
def Ch.toChar (c : Ch) : Char :=
  if c = Ch.punct then '\''
  else if c = Ch.wordEnd then '_'
  else Char.ofNat ('a'.toNat + c.val)

/-- words.rs:66-67 `pub struct CharBitset(u32)`. -/
abbrev CharSet := BitVec 32

namespace CharSet
/-- words.rs:74 -/
def empty : CharSet := 0
/-- words.rs:75 `(1 << 26) - 1` -/
def letters : CharSet := (1#32 <<< 26) - 1
/-- words.rs:77 `(1 << 28) - 1` -/
def all : CharSet := (1#32 <<< 28) - 1
/-- words.rs:108-118 `impl From<Char> for CharBitset`: `1 << c.0`. -/
def ofCh (c : Ch) : CharSet := 1#32 <<< c.val
/-- words.rs:120-125 `impl From<char> for CharBitset`. -/
def ofChar (c : Char) : CharSet := ofCh (chOfChar c)
/-- words.rs:91-93 `union_with`. -/
def union (a b : CharSet) : CharSet := a ||| b
/-- words.rs:95-97 `difference_with`. -/
def diff (a b : CharSet) : CharSet := a &&& ~~~b
/-- words.rs:99-101 `is_intersecting`. -/
def intersects (a b : CharSet) : Bool := (a &&& b) != 0#32
/-- words.rs:103-105 `contains`. -/
def contains (s : CharSet) (c : Ch) : Bool := intersects s (ofCh c)
/-- words.rs:87-89 `invert`: xor with the letters only. -/
def invert (s : CharSet) : CharSet := s ^^^ letters
/-- words.rs:79-85 `from_range`: the loop `for c in low..=high` over Unicode scalar values.
Simplification: the range is over code points; Rust's `char` ranges skip the surrogates, which the
grammar (`letter_range = ASCII_ALPHA - ASCII_ALPHA`) excludes. -/
def fromRange (low high : Char) : CharSet :=
  (List.range' low.toNat (high.toNat + 1 - low.toNat)).foldl
    (fun x n => x ||| ofChar (Char.ofNat n)) empty
end CharSet

/-- words.rs:153-162 `struct Word`. `Tranche = u8` and `score : u32` are unbounded here. -/
structure Word where
  tranche : Nat
  chars : List Ch
  text : String
  score : Nat
  deriving DecidableEq, Repr

/-- The Unicode facilities `Word::new` calls (crate `unicode_normalization` and `char` methods):
not modelled, only passed in. -/
structure Unicode where
  /-- `.chars().nfkd()` -/
  nfkd : List Char → List Char
  /-- `is_combining_mark` -/
  isMark : Char → Bool
  /-- `char::to_uppercase` -/
  upper : Char → List Char
  /-- `char::to_lowercase` -/
  lower : Char → List Char

/-- words.rs:173-180: the ligature expansion closure. -/
def expandLigature (c : Char) : List Char :=
  if c = 'æ' ∨ c = 'Æ' then ['a', 'e']
  else if c = 'œ' ∨ c = 'Œ' then ['o', 'e']
  else [c]

/-- words.rs:168-188: the iterator chain computing `chars` in `Word::new`. -/
def normalise (U : Unicode) (text : List Char) : List Ch :=
  ((((((U.nfkd text).filter (fun c => !U.isMark c)).flatMap expandLigature).flatMap U.upper).flatMap
    U.lower).map chOfChar) ++ [Ch.wordEnd]

/-- words.rs:165-192 `Word::new`. -/
def Word.new (U : Unicode) (text : String) (tranche score : Nat) : Word :=
  { text, chars := normalise U text.toList, tranche, score }

end Noodle
