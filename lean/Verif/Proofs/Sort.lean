import Verif.Model.Parse
/-
Sorting words.
-/
namespace Noodle
set_option autoImplicit false

theorem cmpNats_eq : ∀ a b : List Nat, cmpNats a b = compare a b
  | [], [] => rfl
  | [], _ :: _ => rfl
  | _ :: _, [] => rfl
  | a :: as, b :: bs => by
    rw [cmpNats, cmpNats_eq as bs]
    show _ = List.compareLex compare _ _
    simp only [List.compareLex]
    cases compare a b <;> rfl

/-- The order of words, as a lexicographic combination. -/
def wordOrder : Word → Word → Ordering :=
  compareLex (compareOn Word.tranche) <| compareLex (compareOn fun w => w.chars.map (·.val)) <|
    compareLex (compareOn fun w => w.text.toList.map Char.toNat) (compareOn Word.score)

theorem cmp_eq (a b : Word) : Word.cmp a b = wordOrder a b := by
  unfold Word.cmp wordOrder
  simp only [cmpNats_eq, compareLex, compareOn]

theorem wordOrder_trans : Std.TransCmp wordOrder := by unfold wordOrder; infer_instance

theorem cmp_le_trans {a b c : Word} (h1 : Word.cmp a b ≠ .gt) (h2 : Word.cmp b c ≠ .gt) : Word.cmp a c ≠ .gt := by
  rw [cmp_eq] at *
  have := wordOrder_trans
  have h1 : (wordOrder a b).isLE := by cases h : wordOrder a b <;> simp_all
  have h2 : (wordOrder b c).isLE := by cases h : wordOrder b c <;> simp_all
  have := Std.TransCmp.isLE_trans h1 h2
  cases h : wordOrder a c <;> simp_all

theorem cmp_total (a b : Word) : Word.cmp a b ≠ .gt ∨ Word.cmp b a ≠ .gt := by
  rw [cmp_eq, cmp_eq]
  have := wordOrder_trans
  have h := Std.OrientedCmp.eq_swap (cmp := wordOrder) (a := a) (b := b)
  cases h1 : wordOrder b a <;> simp_all

theorem sortWords_perm (l : List Word) : (sortWords l).Perm l := List.mergeSort_perm _ _

theorem sortWords_sorted (l : List Word) : (sortWords l).Pairwise fun a b => Word.cmp a b ≠ .gt := by
  have := List.pairwise_mergeSort (le := fun a b => Word.cmp a b != .gt)
    (fun a b c h1 h2 => by simpa using cmp_le_trans (by simpa using h1) (by simpa using h2))
    (fun a b => by simpa using cmp_total a b) l
  exact this.imp fun h => by simpa using h

theorem tranche_of_cmp {a b : Word} (h : Word.cmp a b ≠ .gt) : a.tranche ≤ b.tranche := by
  unfold Word.cmp at h
  rcases Nat.lt_trichotomy a.tranche b.tranche with hlt | heq | hgt
  · omega
  · omega
  · have : compare a.tranche b.tranche = .gt := Nat.compare_eq_gt.2 hgt
    rw [this] at h
    exact absurd rfl h

end Noodle
