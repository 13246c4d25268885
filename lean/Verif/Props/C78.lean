import Verif.Spec.ScoreBar
import Verif.Props.C65
import Mathlib.Data.Rat.Floor
/-
C78: the bars below the results.
-/
namespace Noodle
open Spec
set_option autoImplicit false

variable {D : Doubles}

theorem rnd_nat (h : Rounds D) {n : Nat} (hn : n ≤ 2 ^ 53) : D.rnd n = n := by
  have := h.whole n (by rw [abs_of_nonneg (by positivity)]; exact_mod_cast hn)
  simpa using this

theorem foldl_whole (h : Rounds D) : ∀ (l : List Nat) (a : Nat), a + l.sum ≤ 2 ^ 53 →
    l.foldl (fun (a : ℚ) (s : Nat) => D.rnd (a + s)) (a : ℚ) = ((a + l.sum : Nat) : ℚ)
  | [], a, _ => by simp
  | s :: l, a, hl => by
    rw [List.sum_cons] at hl
    have h1 : D.rnd ((a : ℚ) + s) = ((a + s : Nat) : ℚ) := by
      have := rnd_nat h (n := a + s) (by omega)
      push_cast at this ⊢
      exact this
    rw [List.foldl_cons, h1, foldl_whole h l (a + s) (by omega), List.sum_cons, Nat.add_assoc]

/-- The sum of the scores is exact. -/
theorem netScore_sum (h : Rounds D) {l : List Nat} (hl : l.sum ≤ 2 ^ 53) :
    D.netScore l = D.rnd ((l.sum : ℚ) / D.root l.length) := by
  have := foldl_whole h l 0 (by omega)
  rw [Nat.zero_add] at this
  unfold Doubles.netScore
  rw [← this]
  norm_num

theorem fraction_anti (h : Rounds D) {x y : ℚ} (hxy : x ≤ y) : D.fraction y ≤ D.fraction x := by
  unfold Doubles.fraction
  refine max_le_max (le_refl _) (min_le_min (le_refl _) (h.mono _ _ ?_))
  exact div_le_div_of_nonneg_right (h.mono _ _ (by linarith)) (by norm_num)

theorem width_anti (h : Rounds D) {l m : List Nat} (hlm : D.netScore l ≤ D.netScore m) : D.barWidth m ≤ D.barWidth l :=
  h.mono _ _ (mul_le_mul_of_nonneg_right (fraction_anti h hlm) (by norm_num))

theorem small_bounds (h : Rounds D) : (2 / 100 : ℚ) * (1 - 1 / 2 ^ 53) ≤ D.rnd (2 / 100) ∧
    D.rnd (2 / 100) ≤ (2 / 100 : ℚ) * (1 + 1 / 2 ^ 53) := by
  have := abs_le.1 (h.near (2 / 100) (by rw [abs_of_pos (by norm_num)]; norm_num) (by rw [abs_of_pos (by norm_num)]; norm_num))
  rw [abs_of_pos (by norm_num : (0 : ℚ) < 2 / 100)] at this
  constructor <;> linarith [this.1, this.2]

theorem fraction_bounds (h : Rounds D) (x : ℚ) : (2 / 100 : ℚ) * (1 - 1 / 2 ^ 53) ≤ D.fraction x ∧ D.fraction x ≤ 1 := by
  have := small_bounds h
  unfold Doubles.fraction
  refine ⟨this.1.trans (le_max_left _ _), max_le (this.2.trans (by norm_num)) (min_le_left _ _)⟩

/-- C78: every bar can be seen and none is wider than its result: it has between 2 percent, up to a rounding error, and 100. -/
theorem C78_range (h : Rounds D) (scores : List Nat) :
    2 - 1 / 10 ^ 12 ≤ D.barWidth scores ∧ D.barWidth scores ≤ 100 := by
  obtain ⟨h1, h2⟩ := fraction_bounds h (D.netScore scores)
  unfold Doubles.barWidth
  generalize D.fraction (D.netScore scores) = f at *
  have h0 : (1 : ℚ) / 100 ≤ f := le_trans (by norm_num) h1
  have hab : |f * 100| = f * 100 := abs_of_nonneg (by linarith)
  constructor
  · have := (abs_le.1 (h.near (f * 100) (by rw [hab]; norm_num at *; linarith) (by rw [hab]; norm_num at *; linarith))).1
    rw [hab] at this
    norm_num at *
    linarith
  · have := h.mono _ _ (show f * 100 ≤ ((100 : ℕ) : ℚ) by norm_num; linarith)
    rwa [rnd_nat h (by norm_num)] at this

/-- C78: of two results with as many words, the one whose scores add up to more (its words are rarer) has no longer bar. -/
theorem C78_rarer (h : Rounds D) {l m : List Nat} (hlen : l.length = m.length) (hne : l ≠ []) (hsum : l.sum ≤ m.sum)
    (hm : m.sum ≤ 2 ^ 53) : D.netScore l ≤ D.netScore m ∧ D.barWidth m ≤ D.barWidth l := by
  have : D.netScore l ≤ D.netScore m := by
    rw [netScore_sum h (by omega), netScore_sum h hm, hlen]
    refine h.mono _ _ (div_le_div_of_nonneg_right (by exact_mod_cast hsum) (le_of_lt (h.pos _ ?_)))
    rw [← hlen]
    exact fun h0 => hne (List.length_eq_zero_iff.1 h0)
  exact ⟨this, width_anti h this⟩

/-- C78: right after the user has asked for the results by score, or has changed the filter with the results by score, the bars get no longer
down the page. -/
theorem C78_sorted (h : Rounds D) {B : Browser} (hB : Sorts B D) (a b : Bool) (f : List Char) {pre post : List Happening}
    {text : List Char} {x : Happening} {s : Screen} (hpost : ∀ x ∈ post, isSubmit x = false)
    (hx : (∃ c, x = .setSort c) ∨ (∃ c, x = .setFiltered c) ∨ ∃ t, x = .setFilter t)
    (hs : (Screen.fresh a b f).run B (pre ++ .submit text :: (post ++ [x])) = s) {p : List Char → Bool} (hp : Lets B s p)
    (hsort : s.sort = true) (hne : ∀ ws ∈ matchesIn (heard (submitted pre).length post), ws ≠ []) :
    (s.shown.map fun h => D.barWidth (h.phrase.map Prod.snd)).Pairwise fun v w => w ≤ v := by
  obtain ⟨h1, h2, _⟩ := C65_view B a b f hpost hx hs hp
  have hall : ∀ k ∈ s.shown, k.phrase.map Prod.snd ≠ [] := by
    intro k hk h0
    have hk := (List.mem_filter.1 (h1.mem_iff.1 hk)).1
    have : k.phrase ∈ (inOrder (matchesIn (heard (submitted pre).length post))).map Hit.phrase := List.mem_map_of_mem hk
    rw [inOrder_phrases] at this
    exact hne _ this (List.map_eq_nil_iff.1 h0)
  rw [List.pairwise_map]
  refine (h2 hsort).imp_of_mem fun {k l} hk hl hkl => ?_
  have : B.net (k.phrase.map Prod.snd) ≤ B.net (l.phrase.map Prod.snd) := by
    rcases hkl with hkl | ⟨hkl, _⟩
    · exact le_of_lt hkl
    · exact le_of_eq hkl
  exact width_anti h ((hB _ _ (hall k hk) (hall l hl)).1 this)

/-- C78: the same for the results that the server sends to the text of the query: their bars get no longer down the page. -/
theorem C78_session {F : Floats} {P : Prints} {U : Unicode} {dir : List DirEntry} {text : List Char} {q : QueryAst}
    {es : List Expr} {wl : List Word} (hq : QueryAst.ofText U text = .ok q)
    (hdef : ∃ ws, HasDict U dir "default".toList ws)
    (hwl : ChosenWords (HasDict U dir) q.options wl) (hqne : q.expressions ≠ [])
    (hes : q.expressions.mapM fromAst = .ok es) {sends : Option Nat} {others : Nat} {ticks : List Tick} {got : List Msg}
    (hgot : CarriedAll ((wsRun F P U (loadDir U [] dir) (some (some text)) sends others ticks).2.1.map fun m => m.response.json)
      got)
    (h : Rounds D) {B : Browser} (hB : Sorts B D) (a b : Bool) (f : List Char) {pre post : List Happening}
    {x : Happening} {s : Screen} (hpost : ∀ x ∈ post, isSubmit x = false)
    (hx : (∃ c, x = .setSort c) ∨ (∃ c, x = .setFiltered c) ∨ ∃ t, x = .setFilter t)
    (hs : (Screen.fresh a b f).run B (pre ++ .submit text :: (post ++ [x])) = s) {p : List Char → Bool} (hp : Lets B s p)
    (hsort : s.sort = true) (hheard : heard (submitted pre).length post <+: got) :
    (s.shown.map fun h => D.barWidth (h.phrase.map Prod.snd)).Pairwise fun v w => w ≤ v := by
  refine C78_sorted h hB a b f hpost hx hs hp hsort fun ws hws h0 => ?_
  obtain ⟨n, rs, ls, h1, h2, _, _⟩ := C68_log (F := F) (P := P) hq hdef hwl hqne hes sends others ticks rfl
  obtain ⟨q1, q2, h3, h4, _⟩ := h1
  have hready : Ready es wl := C06_ready hqne hes (chosen_tranche hq hwl)
  have hm : ws ∈ matchesIn got := (hheard.filterMap _).subset hws
  rw [carried_matches hgot, List.mem_map] at hm
  obtain ⟨vs, hv, hv2⟩ := hm
  have := (C26_length hready ⟨q1, q2, h3, h4⟩ vs (h2.subset hv)).1
  rw [h0, List.map_eq_nil_iff] at hv2
  rw [hv2] at this
  exact absurd this (by decide)

theorem netScore_one (h : Rounds D) {n : Nat} (hn : n ≤ 2 ^ 53) : D.netScore [n] = n := by
  rw [netScore_sum h (by simpa using hn)]
  simp only [List.sum_cons, List.sum_nil, Nat.add_zero, List.length_singleton, h.one, div_one]
  exact rnd_nat h hn

theorem difference_exact (h : Rounds D) {n : Nat} (hn : n < 2 ^ 32) : D.rnd (3300000 - (n : ℚ)) = 3300000 - n := by
  have := h.whole (3300000 - n) (abs_le.2 ⟨by omega, by omega⟩)
  push_cast at this
  exact this

theorem quotient_near (h : Rounds D) {n : Nat} (hn : n < 2 ^ 32) :
    |D.rnd ((3300000 - (n : ℚ)) / 3200000) - (3300000 - n) / 3200000| ≤ 1 / 2 ^ 42 := by
  have hn' : (n : ℚ) < 2 ^ 32 := by exact_mod_cast hn
  have hn0 : (0 : ℚ) ≤ n := Nat.cast_nonneg n
  obtain ⟨m, hm⟩ : ∃ m : Nat, (m : ℚ) = 3300000 := ⟨3300000, by norm_num⟩
  by_cases h0 : n = m
  · have hq0 : (3300000 - (n : ℚ)) / 3200000 = 0 := by rw [h0, hm, sub_self, zero_div]
    have := rnd_nat h (n := 0) (by norm_num)
    rw [Nat.cast_zero] at this
    rw [hq0, this, sub_self, abs_zero]
    norm_num
  · have hz : (1 : ℚ) ≤ |3300000 - (n : ℚ)| := by
      rcases Nat.lt_or_gt_of_ne h0 with h1 | h1
      · have : (n : ℚ) + 1 ≤ m := by exact_mod_cast h1
        exact le_trans (by linarith) (le_abs_self _)
      · have : (m : ℚ) + 1 ≤ n := by exact_mod_cast h1
        exact le_trans (by linarith) (neg_le_abs _)
    have hz2 : |3300000 - (n : ℚ)| ≤ 2 ^ 32 := abs_le.2 ⟨by linarith, by norm_num at *; linarith⟩
    have hab : |(3300000 - (n : ℚ)) / 3200000| = |3300000 - (n : ℚ)| / 3200000 := by
      rw [abs_div]; norm_num
    have := h.near ((3300000 - (n : ℚ)) / 3200000) (by rw [hab]; norm_num at *; linarith)
      (by rw [hab]; norm_num at *; linarith)
    rw [hab] at this
    norm_num at *
    linarith

/-- C78: the bar of a single word, up to a rounding error: the whole width for a score up to 100000, 2 percent for a score of 3236000 and
more, and in between in proportion. The scores of words are less than 2^32. -/
theorem C78_word (h : Rounds D) {n : Nat} (hn : n < 2 ^ 32) :
    |D.barWidth [n] - clamp 2 100 ((3300000 - n) / 32000)| ≤ 1 / 10 ^ 9 := by
  have hn' : (n : ℚ) < 2 ^ 32 := by exact_mod_cast hn
  have hn0 : (0 : ℚ) ≤ n := by positivity
  have h1 := difference_exact h hn
  unfold Doubles.barWidth
  rw [netScore_one h (le_of_lt (hn.trans (by norm_num)))]
  obtain ⟨hf1, hf2⟩ := fraction_bounds h n
  have hf : |D.fraction n - clamp 2 100 ((3300000 - n) / 32000) / 100| ≤ 1 / 2 ^ 41 := by
    obtain ⟨s1, s2⟩ := small_bounds h
    unfold Doubles.fraction
    rw [h1]
    have hq := quotient_near h hn
    obtain ⟨q1, q2⟩ := abs_le.1 hq
    generalize D.rnd ((3300000 - (n : ℚ)) / 3200000) = q at *
    generalize D.rnd (2 / 100) = c at *
    have e : ∀ v w : ℚ, v - w ≤ 1 / 2 ^ 41 → w - v ≤ 1 / 2 ^ 41 → |v - w| ≤ 1 / 2 ^ 41 := fun v w h1 h2 =>
      abs_le.2 ⟨by linarith, h1⟩
    unfold clamp
    norm_num at s1 s2 q1 q2
    rcases le_total 1 q with g1 | g1 <;> rcases le_total c (min 1 q) with g2 | g2 <;>
      simp only [min_eq_left g1, min_eq_right g1] at g2 ⊢ <;> simp only [max_eq_left g2, max_eq_right g2] <;>
      split_ifs <;> refine e _ _ ?_ ?_ <;> norm_num at * <;> linarith
  have hfx : |D.fraction n * 100| = D.fraction n * 100 := abs_of_nonneg (by norm_num at *; linarith)
  have hr := h.near (D.fraction n * 100) (by rw [hfx]; norm_num at *; linarith) (by rw [hfx]; norm_num at *; linarith)
  rw [hfx] at hr
  obtain ⟨r1, r2⟩ := abs_le.1 hr
  obtain ⟨f1, f2⟩ := abs_le.1 hf
  generalize D.rnd (D.fraction n * 100) = w at *
  generalize clamp 2 100 ((3300000 - n) / 32000) = c at *
  rw [abs_le]
  norm_num at *
  constructor <;> linarith

/-- C78: the score of a phrase is the sum of the scores of its words over the root of their number, up to a rounding error. -/
theorem C78_phrase (h : Rounds D) {l : List Nat} (hne : l ≠ []) (hlen : l.length ≤ 2 ^ 53) (hsum : l.sum ≤ 2 ^ 53) :
    0 ≤ D.netScore l ∧
      |D.netScore l ^ 2 * l.length - (l.sum : ℚ) ^ 2| ≤ (l.sum : ℚ) ^ 2 / 2 ^ 40 := by
  rw [netScore_sum h hsum]
  have hl0 : l.length ≠ 0 := fun h0 => hne (List.length_eq_zero_iff.1 h0)
  have hn1 : (1 : ℚ) ≤ l.length := by exact_mod_cast Nat.one_le_iff_ne_zero.2 hl0
  have hn2 : (l.length : ℚ) ≤ 2 ^ 53 := by exact_mod_cast hlen
  have hr0 := h.pos _ hl0
  obtain ⟨hr1, hr2⟩ := abs_le.1 (h.root _ hl0)
  have hS2 : (l.sum : ℚ) ≤ 2 ^ 53 := by exact_mod_cast hsum
  generalize (l.length : ℚ) = n at *
  generalize D.root l.length = r at *
  by_cases hs : l.sum = 0
  · have := rnd_nat h (n := 0) (by norm_num)
    rw [hs]
    simp only [Nat.cast_zero] at this
    norm_num [this]
  have hS1 : (1 : ℚ) ≤ l.sum := by exact_mod_cast Nat.one_le_iff_ne_zero.2 hs
  generalize (l.sum : ℚ) = S at *
  have hra : (1 : ℚ) / 2 ≤ r := by
    by_contra hc
    push Not at hc
    norm_num at *
    nlinarith
  have hrb : r ≤ 2 ^ 27 := by
    by_contra hc
    push Not at hc
    norm_num at *
    nlinarith
  have hx0 : 0 < S / r := div_pos (by linarith) hr0
  have hx1 : (1 : ℚ) / 2 ^ 100 ≤ S / r := by
    rw [le_div_iff₀ hr0]
    norm_num at *
    linarith
  have hx2 : S / r ≤ 2 ^ 100 := by
    rw [div_le_iff₀ hr0]
    norm_num at *
    linarith
  have hxr : S / r * r = S := div_mul_cancel₀ _ (ne_of_gt hr0)
  have hnear := h.near (S / r) (by rwa [abs_of_pos hx0]) (by rwa [abs_of_pos hx0])
  rw [abs_of_pos hx0] at hnear
  obtain ⟨y1, y2⟩ := abs_le.1 hnear
  generalize D.rnd (S / r) = y at *
  generalize S / r = x at *
  have hy0 : 0 ≤ y := by norm_num at *; linarith
  refine ⟨hy0, ?_⟩
  have e1 : (x * (1 - 1 / 2 ^ 53)) ^ 2 ≤ y ^ 2 := pow_le_pow_left₀ (by norm_num; linarith) (by linarith) 2
  have e2 : y ^ 2 ≤ (x * (1 + 1 / 2 ^ 53)) ^ 2 := pow_le_pow_left₀ hy0 (by linarith) 2
  have e3 : S ^ 2 = x ^ 2 * (r * r) := by rw [← hxr]; ring
  have hx2p : 0 ≤ x ^ 2 := sq_nonneg x
  -- `n` between the bounds that `r * r` gives
  have n1 : r * r * (1 - 1 / 2 ^ 49) ≤ n := by norm_num at *; linarith
  have n2 : n ≤ r * r * (1 + 1 / 2 ^ 49) := by norm_num at *; linarith
  have k1 : x ^ 2 * (1 - 1 / 2 ^ 53) ^ 2 * (r * r * (1 - 1 / 2 ^ 49)) ≤ y ^ 2 * n :=
    mul_le_mul (by rw [← mul_pow]; exact e1) n1 (mul_nonneg (by positivity) (by norm_num)) (sq_nonneg y)
  have k2 : y ^ 2 * n ≤ x ^ 2 * (1 + 1 / 2 ^ 53) ^ 2 * (r * r * (1 + 1 / 2 ^ 49)) :=
    mul_le_mul (by rw [← mul_pow]; exact e2) n2 (by linarith) (by positivity)
  have hS0 : 0 ≤ S ^ 2 := sq_nonneg S
  have k1' : S ^ 2 * ((1 - 1 / 2 ^ 53) ^ 2 * (1 - 1 / 2 ^ 49)) ≤ y ^ 2 * n := by rw [e3]; linarith
  have k2' : y ^ 2 * n ≤ S ^ 2 * ((1 + 1 / 2 ^ 53) ^ 2 * (1 + 1 / 2 ^ 49)) := by rw [e3]; linarith
  rw [abs_le]
  norm_num at *
  constructor <;> linarith

/-- C78: the comment in the page says that a score of 3500000 is mapped to nothing and one of 300000 to a full bar; but it is the scores up to 100000
that get a full bar, and 300000 gets less than 94 percent. -/
theorem C78_counterexample (h : Rounds D) : D.barWidth [300000] < 94 ∧ ∀ n : Nat, n ≤ 100000 → D.barWidth [n] = 100 := by
  constructor
  · have := (abs_le.1 (C78_word h (n := 300000) (by norm_num))).2
    unfold clamp at this
    norm_num at this
    linarith
  · intro n hn
    unfold Doubles.barWidth Doubles.fraction
    rw [netScore_one h (by omega)]
    have hn' : (n : ℚ) ≤ 100000 := by exact_mod_cast hn
    have h1 : (3200000 : ℚ) ≤ D.rnd (3300000 - n) := by
      have := h.mono _ _ (show ((3200000 : ℕ) : ℚ) ≤ 3300000 - n by norm_num; linarith)
      rwa [rnd_nat h (by norm_num), Nat.cast_ofNat] at this
    have h2 : (1 : ℚ) ≤ D.rnd (D.rnd (3300000 - n) / 3200000) := by
      have := h.mono _ _ (show ((1 : ℕ) : ℚ) ≤ D.rnd (3300000 - n) / 3200000 by
        rw [Nat.cast_one, le_div_iff₀ (by norm_num)]; linarith)
      rwa [rnd_nat h (by norm_num), Nat.cast_one] at this
    have h3 := (small_bounds h).2
    rw [min_eq_left h2, max_eq_right (by norm_num at *; linarith), one_mul]
    have := rnd_nat h (n := 100) (by norm_num)
    simpa using this

/-! ### Examples -/

/-- Numbers with a fixed number of binary digits behind the point. -/
def someDoubles : Doubles where
  rnd x := (⌊x * 2 ^ 160⌋ : ℤ) / 2 ^ 160
  root n := Nat.sqrt (n * 2 ^ 120) / 2 ^ 60

theorem someDoubles_whole (z : ℤ) : someDoubles.rnd z = z := by
  show ((⌊(z : ℚ) * 2 ^ 160⌋ : ℤ) : ℚ) / 2 ^ 160 = z
  have : (z : ℚ) * 2 ^ 160 = ((z * 2 ^ 160 : ℤ) : ℚ) := by push_cast; ring
  rw [this, Int.floor_intCast]
  push_cast
  exact mul_div_cancel_right₀ _ (by norm_num)

/-- The assumptions are not contradictory. -/
theorem C78_sample : Rounds someDoubles where
  mono x y h := by
    refine div_le_div_of_nonneg_right ?_ (by norm_num)
    exact_mod_cast Int.floor_le_floor (mul_le_mul_of_nonneg_right h (by norm_num))
  whole z _ := someDoubles_whole z
  near x h1 _ := by
    show |((⌊x * 2 ^ 160⌋ : ℤ) : ℚ) / 2 ^ 160 - x| ≤ _
    have f1 := Int.floor_le (x * 2 ^ 160)
    have f2 := Int.lt_floor_add_one (x * 2 ^ 160)
    generalize ((⌊x * 2 ^ 160⌋ : ℤ) : ℚ) = k at *
    generalize |x| = y at *
    rw [abs_le]
    norm_num at h1 f1 f2 ⊢
    constructor <;> linarith
  pos n hn := by
    have : 0 < Nat.sqrt (n * 2 ^ 120) := Nat.sqrt_pos.2 (by positivity)
    have : (0 : ℚ) < (Nat.sqrt (n * 2 ^ 120) : ℚ) := by exact_mod_cast this
    exact div_pos this (by norm_num)
  one := by
    have : Nat.sqrt (1 * 2 ^ 120) = 2 ^ 60 := by
      rw [show 1 * 2 ^ 120 = 2 ^ 60 * 2 ^ 60 by norm_num, Nat.sqrt_eq]
    show ((Nat.sqrt (1 * 2 ^ 120) : ℕ) : ℚ) / 2 ^ 60 = 1
    rw [this]
    norm_num
  root n hn := by
    have h1 := Nat.sqrt_le (n * 2 ^ 120)
    have h2 := Nat.lt_succ_sqrt (n * 2 ^ 120)
    have hn1 : (1 : ℚ) ≤ n := by exact_mod_cast Nat.one_le_iff_ne_zero.2 hn
    show |((Nat.sqrt (n * 2 ^ 120) : ℕ) : ℚ) / 2 ^ 60 * (((Nat.sqrt (n * 2 ^ 120) : ℕ) : ℚ) / 2 ^ 60) - n| ≤ _
    generalize Nat.sqrt (n * 2 ^ 120) = k at *
    have h1' : (k : ℚ) * k ≤ n * 2 ^ 120 := by exact_mod_cast h1
    have h2' : (n : ℚ) * 2 ^ 120 < (k + 1) * (k + 1) := by exact_mod_cast h2
    have hk0 : (0 : ℚ) ≤ k := by positivity
    have hk : (k : ℚ) ≤ n * 2 ^ 60 := by
      by_contra hc
      push Not at hc
      have : ((n : ℚ) * 2 ^ 60) * (n * 2 ^ 60) < k * k := mul_self_lt_mul_self (by positivity) hc
      have h4 : (n : ℚ) ≤ n * n := by nlinarith
      norm_num at h1' this
      linarith
    have e : (k : ℚ) / 2 ^ 60 * (k / 2 ^ 60) = k * k / 2 ^ 120 := by ring
    have e2 : ((k : ℚ) + 1) * (k + 1) = k * k + 2 * k + 1 := by ring
    rw [e, abs_le]
    rw [e2] at h2'
    generalize (k : ℚ) * k = kk at *
    generalize (k : ℚ) = x at *
    generalize (n : ℚ) = y at *
    norm_num at h1' h2' hk ⊢
    constructor <;> linarith

/-- A browser that sorts by the computed scores. -/
def someBrowser : Browser where
  regexp _ := none
  net l := ⌊someDoubles.netScore l * 2 ^ 160⌋

theorem someBrowser_sorts : Sorts someBrowser someDoubles := by
  intro l m _ _
  have key : ∀ x, someDoubles.rnd x * 2 ^ 160 = ((⌊x * 2 ^ 160⌋ : ℤ) : ℚ) := fun x => div_mul_cancel₀ _ (by norm_num)
  show ⌊someDoubles.netScore l * 2 ^ 160⌋ ≤ ⌊someDoubles.netScore m * 2 ^ 160⌋ ↔ _
  unfold Doubles.netScore
  rw [← mul_le_mul_iff_of_pos_right (show (0 : ℚ) < 2 ^ 160 by norm_num) (b := someDoubles.rnd _), key, key, Int.floor_intCast,
    Int.floor_intCast, Int.cast_le]

/-- Three results, shown by score. -/
example : ∃ s, (Screen.fresh false false []).run someBrowser ([] ++ .submit "y".toList ::
      ([.opened 0, .message 0 (.found [("abc".toList, 900000)]), .message 0 (.found [("b".toList, 500000), ("c".toList, 400000)]),
        .message 0 (.found [("xyz".toList, 30)])] ++ [.setSort true])) = s ∧ s.sort = true ∧
      s.shown.map (fun h => h.phrase.map Prod.snd) = [[30], [500000, 400000], [900000]] ∧
      Lets someBrowser s (fun _ => true) := by
  refine ⟨_, rfl, ?_, ?_, .inl ⟨?_, fun _ => rfl⟩⟩ <;> decide +kernel

example : someDoubles.barWidth [300000] = 375 / 4 ∧ someDoubles.barWidth [5] = 100 ∧
    someDoubles.barWidth [500000, 400000] ≠ 100 := by
  decide +kernel

end Noodle
