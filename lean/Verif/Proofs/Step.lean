import Verif.Model.Query
import Verif.Proofs.Table
import Mathlib.Tactic.ByContra
/-
`PhraseMatcher::step` at the level of membership.
-/
namespace Noodle

theorem mem_ones (s d : Nat) : d ∈ ones s ↔ s.testBit d = true := by
  unfold ones
  rw [List.mem_filter, List.mem_range]
  constructor
  · exact fun h => h.2
  · intro h
    refine ⟨?_, h⟩
    have h1 : 2 ^ d ≤ s := Nat.ge_two_pow_of_testBit h
    have h2 : s ≠ 0 := by rintro rfl; simp at h
    have := (Nat.le_log2 h2).2 h1
    omega

theorem set_or_inner (t : Tbl) (dst f : Nat) (n : Nat) (next : Rows) (hn : f + n ≤ next.length) :
    let r := (List.range n).foldl (fun next df => next.set (f + df) (next.at (f + df) ||| (t.row dst).at df)) next
    r.length = next.length ∧ ∀ g d, (r.at g).testBit d = true ↔
      (next.at g).testBit d = true ∨ ∃ df, df < n ∧ f + df = g ∧ ((t.row dst).at df).testBit d = true := by
  induction n with
  | zero => simp
  | succ n ih =>
    obtain ⟨ih1, ih2⟩ := ih (by omega)
    rw [List.range_succ, List.foldl_append]
    simp only [List.foldl_cons, List.foldl_nil]
    generalize (List.range n).foldl (fun next df => next.set (f + df) (next.at (f + df) ||| (t.row dst).at df)) next
      = r at ih1 ih2
    refine ⟨by simp [ih1], fun g d => ?_⟩
    rw [at_set _ _ _ _ (by omega)]
    split
    · next hg =>
      subst hg
      rw [Nat.testBit_or, Bool.or_eq_true, ih2]
      constructor
      · rintro ((h | ⟨df, h1, h2, h3⟩) | h)
        · exact Or.inl h
        · exact Or.inr ⟨df, by omega, h2, h3⟩
        · exact Or.inr ⟨n, by omega, rfl, h⟩
      · rintro (h | ⟨df, h1, h2, h3⟩)
        · exact Or.inl (Or.inl h)
        · have : df = n := by omega
          subst this; exact Or.inr h3
    · next hg =>
      rw [ih2]
      constructor
      · rintro (h | ⟨df, h1, h2, h3⟩)
        · exact Or.inl h
        · exact Or.inr ⟨df, by omega, h2, h3⟩
      · rintro (h | ⟨df, h1, h2, h3⟩)
        · exact Or.inl h
        · exact Or.inr ⟨df, by rcases Nat.lt_succ_iff_lt_or_eq.1 h1 with h | h; exact h; subst h; omega, h2, h3⟩

theorem foldl_or_gen {α} (step : Rows → α → Rows) (R : α → Nat → Nat → Prop) (L : Nat)
    (l : List α)
    (hs : ∀ x ∈ l, ∀ r : Rows, r.length = L → (step r x).length = L ∧ ∀ g d, ((step r x).at g).testBit d = true ↔
      (r.at g).testBit d = true ∨ R x g d) (r : Rows) (hr : r.length = L) :
    (l.foldl step r).length = L ∧ ∀ g d, ((l.foldl step r).at g).testBit d = true ↔
      (r.at g).testBit d = true ∨ ∃ x ∈ l, R x g d := by
  induction l generalizing r with
  | nil => simp [hr]
  | cons x l ih =>
    obtain ⟨h1, h2⟩ := hs x (by simp) r hr
    obtain ⟨h3, h4⟩ := ih (fun y hy => hs y (by simp [hy])) (step r x) h1
    rw [List.foldl_cons]
    refine ⟨h3, fun g d => ?_⟩
    rw [h4, h2]
    simp only [List.mem_cons, exists_eq_or_imp]
    exact or_assoc

/-- Membership after one word step. -/
theorem stepInto_spec (fl : Nat) (t : Tbl) (prev next : Rows) (hl : fl ≤ next.length) :
    (stepInto fl t prev next).length = next.length ∧
    ∀ g d, ((stepInto fl t prev next).at g).testBit d = true ↔ (next.at g).testBit d = true ∨
      ∃ f df s, f + df = g ∧ g < fl ∧ (prev.at f).testBit s = true ∧ ((t.row s).at df).testBit d = true := by
  unfold stepInto
  have := foldl_or_gen (fun next f =>
    (ones (prev.at f)).foldl (fun next dst =>
      (List.range (fl - f)).foldl (fun next df =>
        next.set (f + df) (next.at (f + df) ||| (t.row dst).at df)) next) next)
    (fun f g d => ∃ df s, f + df = g ∧ g < fl ∧ (prev.at f).testBit s = true ∧ ((t.row s).at df).testBit d = true)
    next.length (List.range fl) ?_ next rfl
  · obtain ⟨h1, h2⟩ := this
    refine ⟨h1, fun g d => ?_⟩
    rw [h2]
    constructor
    · rintro (h | ⟨f, _, df, s, h3⟩)
      · exact Or.inl h
      · exact Or.inr ⟨f, df, s, h3⟩
    · rintro (h | ⟨f, df, s, h3, h4, h5⟩)
      · exact Or.inl h
      · exact Or.inr ⟨f, List.mem_range.2 (by omega), df, s, h3, h4, h5⟩
  · intro f hf r hr
    rw [List.mem_range] at hf
    have := foldl_or_gen (fun next dst =>
      (List.range (fl - f)).foldl (fun next df =>
        next.set (f + df) (next.at (f + df) ||| (t.row dst).at df)) next)
      (fun s g d => ∃ df, df < fl - f ∧ f + df = g ∧ ((t.row s).at df).testBit d = true)
      next.length (ones (prev.at f)) ?_ r hr
    · obtain ⟨h1, h2⟩ := this
      refine ⟨h1, fun g d => ?_⟩
      rw [h2]
      constructor
      · rintro (h | ⟨s, h3, df, h4, h5, h6⟩)
        · exact Or.inl h
        · exact Or.inr ⟨df, s, h5, by omega, (mem_ones _ _).1 h3, h6⟩
      · rintro (h | ⟨df, s, h3, h4, h5, h6⟩)
        · exact Or.inl h
        · exact Or.inr ⟨s, (mem_ones _ _).2 h5, df, by omega, h3, h6⟩
    · intro s hs r hr
      have := set_or_inner t s f (fl - f) r (by omega)
      exact ⟨by rw [this.1, hr], this.2⟩

theorem at_replicate_zero (n f : Nat) : Rows.at (List.replicate n 0) f = 0 := by
  simp [Rows.at, List.getD, List.getElem?_replicate]; split <;> rfl

theorem rowsOf_at (fl s f : Nat) (h : 0 < fl) : (rowsOf fl s).at f = if f = 0 then s else 0 := by
  rw [rowsOf, at_set _ _ _ _ (by simpa using h), at_replicate_zero]

theorem rowsEmpty_iff (r : Rows) : rowsEmpty r = true ↔ ∀ g d, (r.at g).testBit d = false := by
  simp only [rowsEmpty, List.all_eq_true, beq_iff_eq]
  constructor
  · intro h g d
    by_cases hg : g < r.length
    · have : r.at g = 0 := by
        have := h r[g] (List.getElem_mem hg)
        simpa [Rows.at, List.getD, List.getElem?_eq_getElem hg] using this
      rw [this]; simp
    · rw [at_eq_zero_of_le _ _ (by omega)]; simp
  · intro h x hx
    obtain ⟨g, hg, rfl⟩ := List.getElem_of_mem hx
    apply (nat_zero_iff_testBit _).2
    intro d
    have := h g d
    simpa [Rows.at, List.getD, List.getElem?_eq_getElem hg] using this

theorem hasSuccess_iff (pm : PM) (r : Rows) : pm.hasSuccess r = true ↔
    ∃ f, f < pm.fuzzLimit ∧ (r.at f).testBit (pm.statesLen - 1) = true := by
  simp [PM.hasSuccess]

end Noodle
