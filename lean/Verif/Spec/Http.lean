/-
Specification for C58: UTF-8 (Lean's own encoder), percent-encoding (RFC 3986, section 2.1, and what becomes of a `%` that
does not begin an escape), and paths.
-/
namespace Noodle.Spec
set_option autoImplicit false

/-- The bytes of a text in UTF-8. -/
def utf8 (t : List Char) : List UInt8 := t.flatMap String.utf8EncodeChar

/-- `c` is a hexadecimal digit, in either case, with the value `v`. -/
def HexDigit (c : Char) (v : Nat) : Prop :=
  "0123456789abcdef".toList[v]? = some c ∨ "0123456789ABCDEF".toList[v]? = some c

/-- `s` stands for these bytes: `%` and two hexadecimal digits for one byte, any other `%`, and any other character, for
themselves. -/
inductive Encoded : List UInt8 → List Char → Prop
  | nil : Encoded [] []
  | plain {c : Char} {bs : List UInt8} {s : List Char} : c ≠ '%' → Encoded bs s →
      Encoded (String.utf8EncodeChar c ++ bs) (c :: s)
  | escape {h l : Char} {a b : Nat} {bs : List UInt8} {s : List Char} : HexDigit h a → HexDigit l b → Encoded bs s →
      Encoded (UInt8.ofNat (16 * a + b) :: bs) ('%' :: h :: l :: s)
  | stray {bs : List UInt8} {s : List Char} :
      (∀ h l s' a b, s = h :: l :: s' → HexDigit h a → HexDigit l b → False) → Encoded bs s →
      Encoded (UInt8.ofNat 37 :: bs) ('%' :: s)

/-- The bytes `x` are the beginning of a character in UTF-8. -/
def Opens (x : List UInt8) : Prop := ∃ c : Char, x <+: String.utf8EncodeChar c

/-- The bytes are read as this text, of which every invalid part becomes one U+FFFD. An invalid part is, where no character
begins, the longest sequence of bytes that could be completed to a character, or else one byte (the "maximal subpart" of the
Unicode standard, D93b). -/
inductive ReadAs : List UInt8 → List Char → Prop
  | nil : ReadAs [] []
  | char {c : Char} {bs : List UInt8} {t : List Char} : ReadAs bs t → ReadAs (String.utf8EncodeChar c ++ bs) (c :: t)
  | bad {x bs : List UInt8} {t : List Char} : (∀ c : Char, ¬ String.utf8EncodeChar c <+: x ++ bs) → x ≠ [] →
      (x.length = 1 ∨ Opens x) → (∀ y, y <+: x ++ bs → Opens y → y.length ≤ x.length) → ReadAs bs t →
      ReadAs (x ++ bs) (Char.ofNat 0xFFFD :: t)

/-- The path `p` begins with the segments `segs`: they are separated by slashes, and the path ends after the last one, or
goes on with a slash. -/
def Begins (p : List Char) (segs : List (List Char)) : Prop :=
  (∀ s ∈ segs, '/' ∉ s) ∧ (p = ['/'].intercalate segs ∨ ∃ rest, p = ['/'].intercalate segs ++ '/' :: rest)

end Noodle.Spec
