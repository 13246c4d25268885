import Verif.Model.Chars
/-
Independent description of the 28-symbol alphabet.
-/
namespace Noodle.Spec

/-- The symbol a written character stands for: letters case-insensitively, space and underscore are
the word end, everything else is punctuation. -/
inductive Sym : Char → Ch → Prop
  | lower (i : Fin 26) : Sym (Char.ofNat (97 + i.val)) ⟨i.val, by omega⟩
  | upper (i : Fin 26) : Sym (Char.ofNat (65 + i.val)) ⟨i.val, by omega⟩
  | space : Sym ' ' 27
  | underscore : Sym '_' 27
  | other (c : Char) : ¬ c.isAlpha → c ≠ ' ' → c ≠ '_' → Sym c 26

/-- Unicode facilities that behave as the Unicode standard prescribes on ASCII. -/
structure AsciiLawful (U : Unicode) : Prop where
  nfkd : ∀ l : List Char, (∀ c ∈ l, c.toNat < 128) → U.nfkd l = l
  isMark : ∀ c : Char, c.toNat < 128 → U.isMark c = false
  upper : ∀ c : Char, c.toNat < 128 → U.upper c = [c.toUpper]
  lower : ∀ c : Char, c.toNat < 128 → U.lower c = [c.toLower]

/-- ASCII case-insensitive equality of two texts. -/
def SameLetters (a b : List Char) : Prop := a.map Char.toLower = b.map Char.toLower

end Noodle.Spec
