import Verif.Model.Chars
/-
JSON texts and their values (RFC 8259 / ECMA-404). Each relation reads a value at the beginning of a text and leaves the rest.
-/
namespace Noodle.Spec
set_option autoImplicit false

/-- A value. A number is kept as it is written. -/
inductive Json
  | null
  | bool (b : Bool)
  | num (t : List Char)
  | str (s : List Char)
  | arr (l : List Json)
  | obj (l : List (List Char × Json))

/-- The text without the blanks at its beginning. -/
def skip (s : List Char) : List Char := s.dropWhile fun c => c ∈ [' ', '\t', '\n', '\r']

/-- A hexadecimal digit. -/
def HexVal (c : Char) (n : Nat) : Prop :=
  (c, n) ∈ "0123456789abcdef".toList.zipIdx ∨ (c, n) ∈ "0123456789ABCDEF".toList.zipIdx

/-- Four hexadecimal digits. -/
def Hex4 (l : List Char) (n : Nat) : Prop :=
  ∃ a b c d x y z w, l = [a, b, c, d] ∧ HexVal a x ∧ HexVal b y ∧ HexVal c z ∧ HexVal d w ∧
    n = 4096 * x + 256 * y + 16 * z + w

/-- The rest of a string, after the first quotation mark: its characters, and what comes after the last quotation mark. Characters
outside the basic plane may be written as a pair of escapes (an escape for half of such a pair alone is not a character). -/
inductive JsonStr : List Char → List Char → List Char → Prop
  | close (r : List Char) : JsonStr ('"' :: r) [] r
  | raw {c : Char} {i s r : List Char} : 32 ≤ c.toNat → c ≠ '"' → c ≠ '\\' → JsonStr i s r → JsonStr (c :: i) (c :: s) r
  | escape {x c : Char} {i s r : List Char} :
      (x, c) ∈ [('"', '"'), ('\\', '\\'), ('/', '/'), ('b', Char.ofNat 8), ('t', '\t'), ('n', '\n'),
        ('f', Char.ofNat 12), ('r', '\r')] → JsonStr i s r → JsonStr ('\\' :: x :: i) (c :: s) r
  | unicode {j i s r h : List Char} {c : Char} : j = '\\' :: 'u' :: h ++ i → Hex4 h c.toNat → JsonStr i s r →
      JsonStr j (c :: s) r
  | pair {j i s r h l : List Char} {c : Char} {m n : Nat} : j = '\\' :: 'u' :: h ++ '\\' :: 'u' :: l ++ i → Hex4 h m → Hex4 l n →
      0xD800 ≤ m → m < 0xDC00 → 0xDC00 ≤ n → n < 0xE000 →
      c.toNat = 0x10000 + 0x400 * (m - 0xD800) + (n - 0xDC00) → JsonStr i s r → JsonStr j (c :: s) r

/-- A sequence of digits, not empty. -/
def Digits (l : List Char) : Prop := l ≠ [] ∧ ∀ c ∈ l, c.isDigit = true

/-- A number: perhaps a sign, digits without a leading zero, perhaps a fraction, perhaps an exponent. -/
inductive Numeral : List Char → Prop
  | mk {sign int frac exp : List Char} : sign ∈ [[], ['-']] → Digits int → (int.head? = some '0' → int = ['0']) →
      (frac = [] ∨ ∃ d, Digits d ∧ frac = '.' :: d) →
      (exp = [] ∨ ∃ e s d, e ∈ ['e', 'E'] ∧ s ∈ [[], ['+'], ['-']] ∧ Digits d ∧ exp = e :: s ++ d) →
      Numeral (sign ++ int ++ frac ++ exp)

/-- Characters of numbers. -/
def numChar (c : Char) : Bool := c.isDigit || c == '-' || c == '+' || c == '.' || c == 'e' || c == 'E'

mutual
inductive JsonValue : List Char → Json → List Char → Prop
  | null (r : List Char) : JsonValue ('n' :: 'u' :: 'l' :: 'l' :: r) .null r
  | yes (r : List Char) : JsonValue ('t' :: 'r' :: 'u' :: 'e' :: r) (.bool true) r
  | no (r : List Char) : JsonValue ('f' :: 'a' :: 'l' :: 's' :: 'e' :: r) (.bool false) r
  | num {i t r : List Char} : i = t ++ r → Numeral t → (∀ c, r.head? = some c → numChar c = false) → JsonValue i (.num t) r
  | str {i s r : List Char} : JsonStr i s r → JsonValue ('"' :: i) (.str s) r
  | noItems {i r : List Char} : skip i = ']' :: r → JsonValue ('[' :: i) (.arr []) r
  | items {i r : List Char} {l : List Json} : JsonItems i l r → JsonValue ('[' :: i) (.arr l) r
  | noMembers {i r : List Char} : skip i = '}' :: r → JsonValue ('{' :: i) (.obj []) r
  | members {i r : List Char} {l : List (List Char × Json)} : JsonMembers i l r → JsonValue ('{' :: i) (.obj l) r
inductive JsonItems : List Char → List Json → List Char → Prop
  | last {i m r : List Char} {v : Json} : JsonValue (skip i) v m → skip m = ']' :: r → JsonItems i [v] r
  | more {i m n r : List Char} {v : Json} {l : List Json} : JsonValue (skip i) v m → skip m = ',' :: n → JsonItems n l r →
      JsonItems i (v :: l) r
inductive JsonMembers : List Char → List (List Char × Json) → List Char → Prop
  | last {i a k b c m r : List Char} {v : Json} : skip i = '"' :: a → JsonStr a k b → skip b = ':' :: c →
      JsonValue (skip c) v m → skip m = '}' :: r → JsonMembers i [(k, v)] r
  | more {i a k b c m n r : List Char} {v : Json} {l : List (List Char × Json)} : skip i = '"' :: a → JsonStr a k b →
      skip b = ':' :: c → JsonValue (skip c) v m → skip m = ',' :: n → JsonMembers n l r → JsonMembers i ((k, v) :: l) r
end

/-- A JSON text: one value, and nothing else but blanks. -/
def JsonText (s : List Char) (v : Json) : Prop := ∃ r, JsonValue (skip s) v r ∧ skip r = []

end Noodle.Spec
