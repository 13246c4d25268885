import Verif.Spec.Http
/-
What the part of a link after the `#` stands for.
-/
namespace Noodle.Spec
set_option autoImplicit false

/-- Bytes, each written as `%` and two hexadecimal digits. -/
inductive Escapes : List Char → List UInt8 → Prop
  | nil : Escapes [] []
  | cons {h l : Char} {a b : Nat} {s : List Char} {bs : List UInt8} : HexDigit h a → HexDigit l b → Escapes s bs →
      Escapes ('%' :: h :: l :: s) (UInt8.ofNat (16 * a + b) :: bs)

/-- The text that a link stands for: an escaped character (its bytes in UTF-8) for that character, except that escapes of
`; / ? : @ & = + $ , #` stay as they are; other characters but `%` for themselves. -/
inductive LinkText : List Char → List Char → Prop
  | nil : LinkText [] []
  | plain {c : Char} {s t : List Char} : c ≠ '%' → LinkText s t → LinkText (c :: s) (c :: t)
  | escaped {c : Char} {e s t : List Char} : Escapes e (String.utf8EncodeChar c) → c ∉ ";/?:@&=+$,#".toList →
      LinkText s t → LinkText (e ++ s) (c :: t)
  | kept {c : Char} {e s t : List Char} : Escapes e (String.utf8EncodeChar c) → c ∈ ";/?:@&=+$,#".toList →
      LinkText s t → LinkText (e ++ s) (e ++ t)

end Noodle.Spec
