import Verif.Spec.Load
import Verif.Spec.Http
/-
What the bytes of a word list file mean.
-/
namespace Noodle.Spec
set_option autoImplicit false

/-- The lines that can be read from a source of bytes and failing reads (`none`): each is the UTF-8 encoding of its text,
and ended by `\n` (10) or `\r\n` (13, 10), or by the end of the source, unless it is empty. A line that is not UTF-8 is
left out, and so is what has been read of a line when a read fails. -/
inductive Readable : List (Option UInt8) → List (List Char) → Prop
  | nil : Readable [] []
  | last {t : List Char} : t ≠ [] → 10 ∉ utf8 t → Readable ((utf8 t).map some) [t]
  | lastBad {l : List UInt8} : 10 ∉ l → (¬ ∃ t, l = utf8 t) → Readable (l.map some) []
  | unix {t : List Char} {es : List (Option UInt8)} {ls : List (List Char)} : 10 ∉ utf8 t →
      (utf8 t).getLast? ≠ some 13 → Readable es ls → Readable ((utf8 t).map some ++ some 10 :: es) (t :: ls)
  | dos {t : List Char} {es : List (Option UInt8)} {ls : List (List Char)} : 10 ∉ utf8 t → Readable es ls →
      Readable ((utf8 t).map some ++ some 13 :: some 10 :: es) (t :: ls)
  | bad {l : List UInt8} {es : List (Option UInt8)} {ls : List (List Char)} : 10 ∉ l → (¬ ∃ t, l = utf8 t) →
      Readable es ls → Readable (l.map some ++ some 10 :: es) ls
  | fail {l : List UInt8} {es : List (Option UInt8)} {ls : List (List Char)} : 10 ∉ l → Readable es ls →
      Readable (l.map some ++ none :: es) ls

end Noodle.Spec
