import Verif.Proofs.Chars
/-
C01 Word normalisation.
-/
namespace Noodle
open Spec

private theorem char_ascii_cases (P : Char → Prop) (h : ∀ n : Fin 128, P (Char.ofNat n.val))
    (c : Char) (hc : c.toNat < 128) : P c := by
  have := h ⟨c.toNat, hc⟩
  simpa using this

theorem char_ext {a b : Char} (h : a.toNat = b.toNat) : a = b := by
  have := congrArg Char.ofNat h
  simpa using this

theorem isAlpha_iff (c : Char) : c.isAlpha = true ↔
    (65 ≤ c.toNat ∧ c.toNat ≤ 90) ∨ (97 ≤ c.toNat ∧ c.toNat ≤ 122) := by
  simp only [Char.isAlpha, Char.isUpper, Char.isLower, Char.toNat, Bool.or_eq_true,
    Bool.and_eq_true, decide_eq_true_eq, GE.ge, UInt32.le_iff_toNat_le]
  rfl

private theorem alpha_table (n : Fin 128) (h : (Char.ofNat n.val).isAlpha = true) :
    (∃ i : Fin 26, n.val = 97 + i.val ∧ chOfChar (Char.ofNat n.val) = ⟨i.val, by omega⟩) ∨
    (∃ i : Fin 26, n.val = 65 + i.val ∧ chOfChar (Char.ofNat n.val) = ⟨i.val, by omega⟩) := by
  revert n
  decide +kernel

/-- C01: the symbol of a character is exactly the one the alphabet prescribes, for every character. -/
theorem C01_symbol (c : Char) (s : Ch) : chOfChar c = s ↔ Sym c s := by
  constructor
  · rintro rfl
    by_cases ha : c.isAlpha = true
    · have hlt : c.toNat < 128 := by rcases (isAlpha_iff c).1 ha with h | h <;> omega
      have := alpha_table ⟨c.toNat, hlt⟩ (by simpa using ha)
      rcases this with ⟨i, hi, he⟩ | ⟨i, hi, he⟩
      · have hc : c = Char.ofNat (97 + i.val) := by
          rw [← (show c.toNat = 97 + i.val from hi)]; simp
        have he' : chOfChar c = ⟨i.val, by omega⟩ := by simpa using he
        rw [he']; have h := Sym.lower i; rw [← hc] at h; exact h
      · have hc : c = Char.ofNat (65 + i.val) := by
          rw [← (show c.toNat = 65 + i.val from hi)]; simp
        have he' : chOfChar c = ⟨i.val, by omega⟩ := by simpa using he
        rw [he']; have h := Sym.upper i; rw [← hc] at h; exact h
    · have hn : ¬ ((65 ≤ c.toNat ∧ c.toNat ≤ 90) ∨ (97 ≤ c.toNat ∧ c.toNat ≤ 122)) :=
        fun h => ha ((isAlpha_iff c).2 h)
      by_cases h1 : c = ' '
      · subst h1; exact Sym.space
      · by_cases h2 : c = '_'
        · subst h2; exact Sym.underscore
        · have : chOfChar c = 26 := by
            unfold chOfChar
            rw [if_neg, if_neg, if_neg]
            · rfl
            · simp [h1, h2]
            · exact fun h => hn (Or.inr h)
            · exact fun h => hn (Or.inl h)
          rw [this]; exact Sym.other c ha h1 h2
  · intro h
    cases h with
    | lower i => revert i; decide +kernel
    | upper i => revert i; decide +kernel
    | space => decide
    | underscore => decide
    | other _ ha h1 h2 =>
      have hn : ¬ ((65 ≤ c.toNat ∧ c.toNat ≤ 90) ∨ (97 ≤ c.toNat ∧ c.toNat ≤ 122)) :=
        fun h => ha ((isAlpha_iff c).2 h)
      unfold chOfChar
      rw [if_neg, if_neg, if_neg]
      · rfl
      · simp [h1, h2]
      · exact fun h => hn (Or.inr h)
      · exact fun h => hn (Or.inl h)

theorem chOfChar_toLower (c : Char) : chOfChar c.toLower = chOfChar c := by
  by_cases hlt : c.toNat < 128
  · refine char_ascii_cases (fun c => chOfChar c.toLower = chOfChar c) ?_ c hlt
    decide +kernel
  · have : c.toLower = c := by
      unfold Char.toLower
      rw [dif_neg]
      intro h
      have := h.2
      simp only [UInt32.le_iff_toNat_le] at this
      have h2 : c.toNat ≤ 90 := this
      omega
    rw [this]

theorem flatMap_congr_mem {α β} (l : List α) (f g : α → List β) (h : ∀ x ∈ l, f x = g x) :
    l.flatMap f = l.flatMap g := by
  induction l with
  | nil => rfl
  | cons a l ih =>
    simp only [List.flatMap_cons]
    rw [h a (by simp), ih (fun x hx => h x (by simp [hx]))]

/-- C01: an ASCII word is stored as the symbols of its characters followed by the word end. -/
theorem C01_ascii (U : Unicode) (hU : AsciiLawful U) (text : String)
    (h : ∀ c ∈ text.toList, c.toNat < 128) (tr sc : Nat) :
    (Word.new U text tr sc).chars = text.toList.map chOfChar ++ [27] := by
  simp only [Word.new, normalise]
  congr 1
  rw [hU.nfkd _ h]
  have hf : text.toList.filter (fun c => !U.isMark c) = text.toList := by
    apply List.filter_eq_self.2
    intro c hc; simp [hU.isMark c (h c hc)]
  rw [hf]
  generalize text.toList = l at h
  induction l with
  | nil => rfl
  | cons a l ih =>
    have ha := h a (by simp)
    have hlig : expandLigature a = [a] := by
      refine char_ascii_cases (fun c => expandLigature c = [c]) ?_ a ha
      decide +kernel
    have hup : a.toUpper.toNat < 128 := by
      refine char_ascii_cases (fun c => c.toUpper.toNat < 128) ?_ a ha
      decide +kernel
    have hsame : chOfChar (a.toUpper.toLower) = chOfChar a := by
      refine char_ascii_cases (fun c => chOfChar (c.toUpper.toLower) = chOfChar c) ?_ a ha
      decide +kernel
    have ih' := ih (fun c hc => h c (by simp [hc]))
    simp only [List.flatMap_cons, hlig, List.cons_append, List.nil_append, hU.upper a ha,
      hU.lower _ hup, List.map_cons, hsame, ih']

/-- C01: spellings that differ only in ASCII case are the same word to the matcher. -/
theorem C01_case (U : Unicode) (hU : AsciiLawful U) (a b : String)
    (ha : ∀ c ∈ a.toList, c.toNat < 128) (hb : ∀ c ∈ b.toList, c.toNat < 128)
    (h : SameLetters a.toList b.toList) (t1 s1 t2 s2 : Nat) :
    (Word.new U a t1 s1).chars = (Word.new U b t2 s2).chars := by
  rw [C01_ascii U hU a ha, C01_ascii U hU b hb]
  have key : ∀ l : List Char, l.map chOfChar = (l.map Char.toLower).map chOfChar := by
    intro l; induction l with
    | nil => rfl
    | cons x l ih => simp only [List.map_cons, chOfChar_toLower, ih]
  rw [key a.toList, key b.toList, h]

/-- C01: two texts that agree after NFKD and removal of combining marks are the same word. -/
theorem C01_marks (U : Unicode) (a b : String)
    (h : (U.nfkd a.toList).filter (fun c => !U.isMark c) = (U.nfkd b.toList).filter (fun c => !U.isMark c))
    (t1 s1 t2 s2 : Nat) : (Word.new U a t1 s1).chars = (Word.new U b t2 s2).chars := by
  simp [Word.new, normalise, h]

/-- C01: a ligature is the same as its two letters spelled out. -/
theorem C01_ligature (U : Unicode) (a b : String) (p q : List Char) (lig : Char) (two : List Char)
    (hl : (lig = 'æ' ∨ lig = 'Æ') ∧ two = ['a', 'e'] ∨ (lig = 'œ' ∨ lig = 'Œ') ∧ two = ['o', 'e'])
    (ha : (U.nfkd a.toList).filter (fun c => !U.isMark c) = p ++ lig :: q)
    (hb : (U.nfkd b.toList).filter (fun c => !U.isMark c) = p ++ two ++ q)
    (t1 s1 t2 s2 : Nat) : (Word.new U a t1 s1).chars = (Word.new U b t2 s2).chars := by
  simp only [Word.new, normalise, ha, hb]
  have : (p ++ lig :: q).flatMap expandLigature = (p ++ two ++ q).flatMap expandLigature := by
    rcases hl with ⟨h | h, rfl⟩ | ⟨h | h, rfl⟩ <;> subst h <;>
      simp [List.flatMap_append, List.flatMap_cons, expandLigature]
  rw [this]

/-- C01: every word ends with a word end and the number of symbols is at least one, for every text. -/
theorem C01_end (U : Unicode) (text : String) (t s : Nat) :
    (Word.new U text t s).chars.getLast? = some 27 ∧ (Word.new U text t s).text = text := by
  simp [Word.new, normalise, Ch.wordEnd]

/-- A Unicode implementation restricted to ASCII, to show the hypotheses are satisfiable. -/
def asciiUnicode : Unicode :=
  { nfkd := id, isMark := fun _ => false, upper := fun c => [c.toUpper], lower := fun c => [c.toLower] }

example : AsciiLawful asciiUnicode := ⟨fun _ _ => rfl, fun _ _ => rfl, fun _ _ => rfl, fun _ _ => rfl⟩
example : (Word.new asciiUnicode "It's" 0 5).chars = [8, 19, 26, 18, 27] := by decide +kernel
example : SameLetters "HeLLo".toList "hEllo".toList := by unfold SameLetters; decide +kernel

end Noodle
