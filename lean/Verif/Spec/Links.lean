import Verif.Spec.Link
/-
What a web site is asked for by an address.
-/
namespace Noodle.Spec
set_option autoImplicit false

/-- The text that a part of an address stands for: escapes (the bytes of a character in UTF-8) for this character, `+` for a
blank in forms (`form`), other characters but `%` for themselves. -/
inductive UrlText (form : Bool) : List Char → List Char → Prop
  | nil : UrlText form [] []
  | plain {c : Char} {s t : List Char} : c ≠ '%' → (form = true → c ≠ '+') → UrlText form s t → UrlText form (c :: s) (c :: t)
  | blank {s t : List Char} : form = true → UrlText form s t → UrlText form ('+' :: s) (' ' :: t)
  | escaped {c : Char} {e s t : List Char} : Escapes e (String.utf8EncodeChar c) → UrlText form s t →
      UrlText form (e ++ s) (c :: t)

/-- `a` is `s` up to the first of these characters, or all of it. -/
def UpTo (marks s a : List Char) : Prop :=
  (∀ c ∈ a, c ∉ marks) ∧ (s = a ∨ ∃ m r, m ∈ marks ∧ s = a ++ m :: r)

/-- `b` is what comes in `s` after the first of this character. -/
def After (mark : Char) (s b : List Char) : Prop := ∃ a, mark ∉ a ∧ s = a ++ mark :: b

/-- The value of a field of a form: of the first `name=value` among the parts, which end with `&`. -/
inductive FieldIs (name : List Char) : List Char → List Char → Prop
  | here {query part n v t : List Char} : UpTo ['&'] query part → part = n ++ '=' :: v → '=' ∉ n → UrlText true n name →
      UrlText true v t → FieldIs name query t
  | later {query part rest t : List Char} : UpTo ['&'] query part → After '&' query rest →
      (∀ n v, part = n ++ '=' :: v → '=' ∉ n → ¬ UrlText true n name) → FieldIs name rest t → FieldIs name query t

/-- What a server is asked: the value of this field in the part of the address between the first `?` and the `#`. -/
def Asks (url name value : List Char) : Prop :=
  ∃ main query, UpTo ['#'] url main ∧ After '?' main query ∧ FieldIs name query value

/-- The page that is asked for: the part of the address up to `?` or `#`, decoded. -/
def Visits (url page : List Char) : Prop := ∃ main, UpTo ['?', '#'] url main ∧ UrlText false main page

end Noodle.Spec
