import Verif.Proofs.Bitset
/-
C04 Bitsets are finite sets.   C05 Rows of multi-dimensional bitsets do not alias.
-/
namespace Noodle.Bits

/-- Specification: the bitset `s`, created for `n` elements, holds the set `S ⊆ {0, …, n-1}`: it has the
allocated length and every bit of the allocation reads as `S` says (nothing outside `n`). -/
structure Represents (n : Nat) (s : Bits) (S : Nat → Bool) : Prop where
  size : s.length = blockSize n
  bits : ∀ i, i < 32 * blockSize n → contains s i = some (decide (i < n) && S i)

theorem represents_iff (n : Nat) (s : Bits) (S : Nat → Bool) :
    Represents n s S ↔ s.length = blockSize n ∧ ∀ i, Mem s i = (decide (i < n) && S i) := by
  constructor
  · rintro ⟨h1, h2⟩
    refine ⟨h1, fun i => ?_⟩
    by_cases hi : i < 32 * blockSize n
    · have := h2 i hi
      rw [contains_eq s i (by omega)] at this
      simpa using this
    · have hb := blockSize_le n
      rw [mem_eq_false_of_le (by omega)]
      simp [show ¬ i < n by omega]
  · rintro ⟨h1, h2⟩
    exact ⟨h1, fun i hi => by rw [contains_eq s i (by omega), h2 i]⟩

/-- C04: a new bitset is the empty set. -/
theorem C04_new (n : Nat) : Represents n (new n) (fun _ => false) := by
  rw [represents_iff]
  exact ⟨length_new n, fun i => by simp [mem_new]⟩

/-- C04: every mutating operation is the set operation, for every size, index and operand; the results
again represent sets, so this holds along every sequence of operations. -/
theorem C04_ops (n : Nat) (s o : Bits) (S O : Nat → Bool) (hs : Represents n s S) (ho : Represents n o O) :
    (∀ i, i < n → ∃ s', insert s i = some s' ∧ Represents n s' (fun j => S j || decide (j = i))) ∧
    (∀ i, i < n → ∃ s', remove s i = some s' ∧ Represents n s' (fun j => S j && !decide (j = i))) ∧
    (∃ s', union s o = some s' ∧ Represents n s' (fun j => S j || O j)) ∧
    (∃ s', difference s o = some s' ∧ Represents n s' (fun j => S j && !O j)) ∧
    (∃ s', intersect s o = some s' ∧ Represents n s' (fun j => S j && O j)) ∧
    (∃ s', copyFrom s o = some s' ∧ Represents n s' O) ∧
    Represents n (clear s) (fun _ => false) := by
  have hb := blockSize_le n
  rw [represents_iff] at hs ho
  obtain ⟨hs1, hs2⟩ := hs
  obtain ⟨ho1, ho2⟩ := ho
  refine ⟨fun i hi => ?_, fun i hi => ?_, ?_, ?_, ?_, ?_, ?_⟩
  · obtain ⟨s', h1, h2, h3⟩ := insert_spec s i (by omega)
    refine ⟨s', h1, (represents_iff _ _ _).2 ⟨by omega, fun j => ?_⟩⟩
    rw [h3, hs2]
    by_cases e : j = i
    · subst e; simp [hi]
    · simp [e]
  · obtain ⟨s', h1, h2, h3⟩ := remove_spec s i (by omega)
    refine ⟨s', h1, (represents_iff _ _ _).2 ⟨by omega, fun j => ?_⟩⟩
    rw [h3, hs2, Bool.and_assoc]
  · obtain ⟨s', h1, h2, h3⟩ := union_spec s o (by omega)
    refine ⟨s', h1, (represents_iff _ _ _).2 ⟨by omega, fun j => ?_⟩⟩
    rw [h3, hs2, ho2, Bool.and_or_distrib_left]
  · obtain ⟨s', h1, h2, h3⟩ := difference_spec s o (by omega)
    refine ⟨s', h1, (represents_iff _ _ _).2 ⟨by omega, fun j => ?_⟩⟩
    rw [h3, hs2, ho2]
    cases decide (j < n) <;> simp
  · obtain ⟨s', h1, h2, h3⟩ := intersect_spec s o (by omega)
    refine ⟨s', h1, (represents_iff _ _ _).2 ⟨by omega, fun j => ?_⟩⟩
    rw [h3, hs2, ho2]
    cases decide (j < n) <;> simp
  · exact ⟨o, copyFrom_spec s o (by omega), (represents_iff _ _ _).2 ⟨ho1, ho2⟩⟩
  · obtain ⟨h1, h2⟩ := clear_spec s
    exact (represents_iff _ _ _).2 ⟨by omega, fun j => by simp [h2]⟩

/-- C04: the queries: emptiness, subset, equality of the stored blocks, and the `ones()` iterator, which
lists exactly the elements, in ascending order (hence without duplicates). -/
theorem C04_queries (n : Nat) (s o : Bits) (S O : Nat → Bool) (hs : Represents n s S) (ho : Represents n o O) :
    (isEmpty s = true ↔ ∀ i, i < n → S i = false) ∧
    (isSubset s o = true ↔ ∀ i, i < n → S i = true → O i = true) ∧
    (s = o ↔ ∀ i, i < n → S i = O i) ∧
    (0 < n → ∃ l, ones s = some l ∧ l.Pairwise (· < ·) ∧ ∀ i, i ∈ l ↔ (i < n ∧ S i = true)) := by
  rw [represents_iff] at hs ho
  obtain ⟨hs1, hs2⟩ := hs
  obtain ⟨ho1, ho2⟩ := ho
  refine ⟨?_, ?_, ?_, ?_⟩
  · rw [isEmpty_spec]
    constructor
    · intro h i hi; have := h i; rw [hs2] at this; simpa [hi] using this
    · intro h i
      rw [hs2]
      by_cases hi : i < n
      · simp [h i hi]
      · simp [hi]
  · rw [isSubset_spec s o (by omega)]
    constructor
    · intro h i hi hS; have := h i; rw [hs2, ho2] at this; simpa [hi, hS] using this
    · intro h i
      rw [hs2, ho2]
      simp only [Bool.and_eq_true, decide_eq_true_eq]
      rintro ⟨h1, h2⟩; exact ⟨h1, h i h1 h2⟩
  · constructor
    · intro e i hi
      have h1 := hs2 i; have h2 := ho2 i
      rw [e, h2] at h1
      simpa [hi] using h1.symm
    · intro h
      apply List.ext_getElem (by omega)
      intro k h1 h2
      apply BitVec.eq_of_getLsbD_eq
      intro i hi
      have a := mem_of_get h1 hi
      have b := mem_of_get h2 hi
      simp only [List.getD, List.getElem?_eq_getElem h1, List.getElem?_eq_getElem h2, Option.getD_some] at a b
      rw [← a, ← b, hs2, ho2]
      by_cases hlt : 32 * k + i < n
      · simp [hlt, h _ hlt]
      · simp [hlt]
  · intro hn
    have hb := blockSize_le n
    obtain ⟨l, h1, h2, h3⟩ := ones_spec s (by rintro rfl; simp at hs1; omega)
    exact ⟨l, h1, h2, fun i => by rw [h3, hs2]; simp⟩

/-- C04: `resize` keeps the set when it fits the new size and panics when it does not. -/
theorem C04_resize (n m : Nat) (s : Bits) (S : Nat → Bool) (hs : Represents n s S) (hn : 0 < n) :
    ((∀ i, i < n → S i = true → i < m) → ∃ s', resize s m = some s' ∧ Represents m s' (fun i => decide (i < n) && S i)) ∧
    ((∃ i, i < n ∧ S i = true ∧ m ≤ i) → resize s m = none) := by
  rw [represents_iff] at hs
  obtain ⟨hs1, hs2⟩ := hs
  constructor
  · intro h
    obtain ⟨s', h1, h2, h3⟩ := resize_spec s m (by have := blockSize_le n; rintro rfl; simp at hs1; omega)
      (fun i hi => by rw [hs2] at hi; simp at hi; exact h i hi.1 hi.2)
    refine ⟨s', h1, (represents_iff _ _ _).2 ⟨h2, fun i => ?_⟩⟩
    rw [h3, hs2]
    cases hS : S i
    · simp
    · by_cases hi : i < n
      · simp [hi, h i hi hS]
      · simp [hi]
  · rintro ⟨i, hi, hS, hm⟩
    exact resize_none s m i (by rw [hs2]; simp [hi, hS]) hm

/-- C04: an index at or beyond the allocation is not a set operation at all (undefined behaviour). -/
theorem C04_out_of_range (s : Bits) (i : Nat) (h : 32 * s.length ≤ i) :
    contains s i = none ∧ insert s i = none ∧ remove s i = none := by
  have : ¬ i / 32 < s.length := by omega
  refine ⟨?_, by rw [insert, if_neg this], by rw [remove, if_neg this]⟩
  simp only [contains]
  rw [List.getElem?_eq_none (by omega)]; rfl

/-- C04: bitmask arithmetic on natural numbers (the representation used by the rest of the model) is
represented by the same operations on blocks. -/
theorem C04_mask (n a b : Nat) (s o : Bits) (hs : Represents n s a.testBit) (ho : Represents n o b.testBit) :
    (∃ s', union s o = some s' ∧ Represents n s' (a ||| b).testBit) ∧
    (∃ s', intersect s o = some s' ∧ Represents n s' (a &&& b).testBit) ∧
    (∃ s', difference s o = some s' ∧ Represents n s' (a ^^^ (a &&& b)).testBit) ∧
    (∀ i, i < n → ∃ s', insert s i = some s' ∧ Represents n s' (a ||| 2 ^ i).testBit) := by
  obtain ⟨h1, _, h3, h4, h5, _, _⟩ := C04_ops n s o _ _ hs ho
  refine ⟨?_, ?_, ?_, fun i hi => ?_⟩
  · obtain ⟨s', e, h⟩ := h3; exact ⟨s', e, by rw [show (a ||| b).testBit = fun j => a.testBit j || b.testBit j from funext fun j => Nat.testBit_or a b j]; exact h⟩
  · obtain ⟨s', e, h⟩ := h5; exact ⟨s', e, by rw [show (a &&& b).testBit = fun j => a.testBit j && b.testBit j from funext fun j => Nat.testBit_and a b j]; exact h⟩
  · obtain ⟨s', e, h⟩ := h4
    refine ⟨s', e, ?_⟩
    have : (a ^^^ (a &&& b)).testBit = fun j => a.testBit j && !b.testBit j := by
      funext j; rw [Nat.testBit_xor, Nat.testBit_and]
      cases a.testBit j <;> cases b.testBit j <;> rfl
    rw [this]; exact h
  · obtain ⟨s', e, h⟩ := h1 i hi
    refine ⟨s', e, ?_⟩
    have : (a ||| 2 ^ i).testBit = fun j => a.testBit j || decide (j = i) := by
      funext j; rw [Nat.testBit_or, Nat.testBit_two_pow]
      congr 1; exact decide_eq_decide.2 eq_comm
    rw [this]; exact h

example : Represents 100 (new 100) (fun _ => false) := C04_new 100
example : ((insert (new 100) 53).bind (insert · 2)).bind ones = some [2, 53] := by decide +kernel

/-- C05: in a fresh 3-D bitset every row is inside the allocation and empty. -/
theorem C05_new (x y z i j : Nat) (hi : i < x) (hj : j < y) :
    ∃ r, (new3 x y z).row i j = some r ∧ Represents z r (fun _ => false) :=
  ⟨new z, new3_row x y z i j hi hj, C04_new z⟩

/-- C05: in a 3-D bitset with `x` slabs, every in-range row can be read, and updating row `(i, j)` through a
mutable slice (by any update that keeps its length) changes that row to the result and no other row. -/
theorem C05_write (t : Bits3) (x : Nat) (hs : t.Shape x) (i j : Nat) (hi : i < x) (hj : j < t.d2)
    (f : Bits → Option Bits) (hf : ∀ r, r.length = t.bs → ∃ r', f r = some r' ∧ r'.length = t.bs) :
    ∃ r r' t', t.row i j = some r ∧ f r = some r' ∧ t.modifyRow i j f = some t' ∧ t'.Shape x ∧
      t'.d2 = t.d2 ∧ t'.bs = t.bs ∧ t'.row i j = some r' ∧
      ∀ i' j', i' < x → j' < t.d2 → (i', j') ≠ (i, j) → t'.row i' j' = t.row i' j' := by
  have hr := row_some t x hs i j hi hj
  have hrange := row_range t x hs i j hi hj
  have hl : ((t.blocks.drop (t.rowStart i j)).take t.bs).length = t.bs := by
    simp only [List.length_take, List.length_drop]; omega
  obtain ⟨r', h1, h2⟩ := hf _ hl
  obtain ⟨t', h3, h4, h5, h6, h7, h8⟩ := modifyRow_spec t x hs i j hi hj f _ r' hr h1 (by omega)
  exact ⟨_, r', t', hr, h1, h3, h4, h5, h6, h7, fun i' j' a b c => h8 i' j' a b (by simpa using c)⟩

/-- C05: distinct rows occupy disjoint block ranges, all inside the allocation. -/
theorem C05_disjoint (t : Bits3) (x : Nat) (hs : t.Shape x) (i j i' j' : Nat) (hi : i < x) (hj : j < t.d2)
    (hi' : i' < x) (hj' : j' < t.d2) (hne : (i, j) ≠ (i', j')) :
    (t.rowStart i j + t.bs ≤ t.rowStart i' j' ∨ t.rowStart i' j' + t.bs ≤ t.rowStart i j) ∧
    t.rowStart i j + t.bs ≤ t.blocks.length ∧ t.rowStart i' j' + t.bs ≤ t.blocks.length :=
  ⟨rows_disjoint t i j i' j' hj hj' (by simpa using hne), row_range t x hs i j hi hj,
    row_range t x hs i' j' hi' hj'⟩

/-- C05: row `j` of the 2-D slice `i` is the row `(i, j)`. -/
theorem C05_slice2d (t : Bits3) (x : Nat) (hs : t.Shape x) (i j : Nat) (hi : i < x) (hj : j < t.d2) :
    ((t.slice2d i).bind fun b => row2 b t.bs j) = t.row i j :=
  slice2d_row t x hs i j hi hj

example : (new3 2 3 100).Shape 2 := new3_shape 2 3 100
example : (((new3 2 3 100).modifyRow 1 2 (insert · 82)).bind fun t => (t.row 1 2).bind ones) = some [82] := by
  decide +kernel

end Noodle.Bits
