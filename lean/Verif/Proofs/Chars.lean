import Verif.Spec.Chars
namespace Noodle

theorem CharSet.getLsbD_ofCh (c : Ch) (i : Nat) : (CharSet.ofCh c).getLsbD i = decide (i = c.val) := by
  have := c.isLt
  simp only [CharSet.ofCh, BitVec.getLsbD_shiftLeft, BitVec.getLsbD_one]
  by_cases h : i = c.val
  · subst h; simp; omega
  · simp [h]; intros; omega

theorem CharSet.contains_eq (s : CharSet) (c : Ch) : s.contains c = s.getLsbD c.val := by
  have hc := c.isLt
  unfold CharSet.contains CharSet.intersects
  cases h : s.getLsbD c.val
  · have : s &&& CharSet.ofCh c = 0#32 := by
      apply BitVec.eq_of_getLsbD_eq
      intro i hi
      simp only [BitVec.getLsbD_and, CharSet.getLsbD_ofCh, BitVec.getLsbD_zero]
      by_cases hh : i = c.val
      · subst hh; simp [h]
      · simp [hh]
    simp [this]
  · have : s &&& CharSet.ofCh c ≠ 0#32 := by
      intro h0
      have := congrArg (fun x => x.getLsbD c.val) h0
      simp [CharSet.getLsbD_ofCh, h] at this
    simpa using this

theorem CharSet.ofCh_intersects (s : CharSet) (c : Ch) :
    CharSet.intersects (CharSet.ofCh c) s = s.contains c := by
  simp [CharSet.contains, CharSet.intersects, BitVec.and_comm]

theorem CharSet.contains_ofCh (c d : Ch) : (CharSet.ofCh d).contains c = decide (c = d) := by
  rw [CharSet.contains_eq, CharSet.getLsbD_ofCh]
  simp [Fin.ext_iff]

theorem CharSet.contains_union (a b : CharSet) (c : Ch) :
    (a.union b).contains c = (a.contains c || b.contains c) := by
  simp [CharSet.contains_eq, CharSet.union]

theorem CharSet.contains_or (a b : CharSet) (c : Ch) :
    CharSet.contains (a ||| b) c = (a.contains c || b.contains c) := by
  simp [CharSet.contains_eq]

theorem CharSet.contains_diff (a b : CharSet) (c : Ch) :
    (a.diff b).contains c = (a.contains c && !b.contains c) := by
  have := c.isLt
  simp [CharSet.contains_eq, CharSet.diff, show c.val < 32 by omega]

theorem CharSet.contains_empty (c : Ch) : CharSet.empty.contains c = false := by
  simp [CharSet.contains_eq, CharSet.empty]

theorem CharSet.contains_letters (c : Ch) : CharSet.letters.contains c = decide (c.val < 26) := by
  revert c; decide

theorem CharSet.contains_all (c : Ch) : CharSet.all.contains c = true := by
  revert c; decide

theorem CharSet.contains_invert (s : CharSet) (c : Ch) :
    s.invert.contains c = (if c.val < 26 then !s.contains c else s.contains c) := by
  have h := CharSet.contains_letters c
  rw [CharSet.contains_eq] at h
  simp only [CharSet.contains_eq, CharSet.invert, BitVec.getLsbD_xor, h]
  by_cases h26 : c.val < 26 <;> simp [h26]

/-- Only the 28 symbol bits are ever used. -/
def CharSet.WF (s : CharSet) : Prop := ∀ i, 28 ≤ i → s.getLsbD i = false

theorem CharSet.eq_empty_iff (s : CharSet) (h : s.WF) : s = 0#32 ↔ ∀ c : Ch, s.contains c = false := by
  constructor
  · rintro rfl c; exact CharSet.contains_empty c
  · intro hc
    apply BitVec.eq_of_getLsbD_eq
    intro i hi
    by_cases h28 : i < 28
    · have := hc ⟨i, h28⟩
      rw [CharSet.contains_eq] at this
      simpa using this
    · simpa using h i (by omega)

theorem CharSet.letters_intersects (s : CharSet) :
    CharSet.intersects CharSet.letters s = true ↔ ∃ c : Ch, c.val < 26 ∧ s.contains c = true := by
  constructor
  · intro h
    have hne : CharSet.letters &&& s ≠ 0#32 := by simpa [CharSet.intersects] using h
    have hex : ∃ i, i < 32 ∧ (CharSet.letters &&& s).getLsbD i = true := by
      refine Classical.byContradiction fun hcon => hne ?_
      apply BitVec.eq_of_getLsbD_eq
      intro i hi
      have : ¬ (CharSet.letters &&& s).getLsbD i = true := fun hh => hcon ⟨i, hi, hh⟩
      simpa using this
    obtain ⟨i, hi, hb⟩ := hex
    rw [BitVec.getLsbD_and, Bool.and_eq_true] at hb
    have hlt : i < 26 := by
      have h1 := hb.1
      refine Classical.byContradiction fun hge => ?_
      have : ∀ j : Fin 32, 26 ≤ j.val → CharSet.letters.getLsbD j.val = false := by decide
      have := this ⟨i, hi⟩ (by simpa using hge)
      simp_all
    refine ⟨⟨i, by omega⟩, hlt, ?_⟩
    rw [CharSet.contains_eq]; exact hb.2
  · rintro ⟨c, hc, hs⟩
    have hl := CharSet.contains_letters c
    rw [CharSet.contains_eq] at hl hs
    have : CharSet.letters &&& s ≠ 0#32 := by
      intro h0
      have := congrArg (fun x => x.getLsbD c.val) h0
      simp [hl, hc, hs] at this
    simpa [CharSet.intersects] using this

end Noodle
