import Verif.Model.Ast
/-
The documented meaning of an expression: which strings of symbols it stands for.
-/
namespace Noodle.Spec
set_option autoImplicit false

/-- What each anagram form asks of a word `u`: a rearrangement of the bank, of the bank plus further letters,
of part of the bank, of the bank plus exactly `n` letters, of the bank minus exactly `n` letters. -/
def Anagrams : AnagramKind → List Ch → List Ch → Prop
  | .standard, bank, u => u.Perm bank
  | .super, bank, u => ∃ extra : List Ch, (∀ c ∈ extra, c.val < 26) ∧ u.Perm (bank ++ extra)
  | .sub, bank, u => ∃ rest, (u ++ rest).Perm bank
  | .transAdd n, bank, u =>
    ∃ extra : List Ch, extra.length = n ∧ (∀ c ∈ extra, c.val < 26) ∧ u.Perm (bank ++ extra)
  | .transDelete n, bank, u => ∃ rest : List Ch, rest.length = min n bank.length ∧ (u ++ rest).Perm bank

/-- The strings an expression stands for. -/
inductive Lang : Ast → List Ch → Prop
  /-- a class: any one of its symbols -/
  | cls {c : CharSet} {x : Ch} : c.contains x = true → Lang (.cls c) [x]
  /-- alternatives: what one of them stands for -/
  | alts {l : List Ast} {a : Ast} {u : List Ch} : a ∈ l → Lang a u → Lang (.alts l) u
  /-- a sequence: concatenation -/
  | seqNil : Lang (.seq []) []
  | seqCons {a : Ast} {l : List Ast} {u v : List Ch} : Lang a u → Lang (.seq l) v →
      Lang (.seq (a :: l)) (u ++ v)
  /-- a substring group: a contiguous run of its terms -/
  | substr {pre mid post : List Ast} {u : List Ch} : Lang (.seq mid) u →
      Lang (.substr (pre ++ mid ++ post)) u
  /-- a repetition: `k` copies, with `k` between the bounds -/
  | rep {t : Ast} {lo : Nat} {hi : Option Nat} {k : Nat} {u : List Ch} : lo ≤ k → (∀ m ∈ hi, k ≤ m) →
      Lang (.seq (List.replicate k t)) u → Lang (.rep t lo hi) u
  /-- an anagram block -/
  | anagram {kind : AnagramKind} {bank u : List Ch} : Anagrams kind bank u → Lang (.anagram kind bank) u

/-- What the compiled form of an expression should accept: the strings the expression stands for, followed by
any number of word ends (the end of the phrase). -/
def Denotes (a : Ast) (u : List Ch) : Prop := ∃ v n, Lang a v ∧ u = v ++ List.replicate n Ch.wordEnd

end Noodle.Spec
