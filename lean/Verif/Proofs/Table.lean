import Verif.Spec.Match
import Verif.Proofs.Chars
/-
The transition tables compute the edit-run relation.
-/
namespace Noodle
open Spec

theorem nat_ne_zero_iff_testBit (n : Nat) : n ≠ 0 ↔ ∃ i, n.testBit i = true := by
  constructor
  · exact Nat.exists_testBit_of_ne_zero
  · rintro ⟨i, h⟩ rfl; simp at h

theorem nat_zero_iff_testBit (n : Nat) : n = 0 ↔ ∀ i, n.testBit i = false := by
  constructor
  · rintro rfl i; simp
  · intro h; apply Nat.eq_of_testBit_eq; intro i; simp [h]

theorem testBit_foldl_or {α} (l : List α) (p : α → Bool) (g : α → Nat) (a d : Nat) :
    (l.foldl (fun acc x => if p x then acc ||| g x else acc) a).testBit d = true ↔
      a.testBit d = true ∨ ∃ x ∈ l, p x = true ∧ (g x).testBit d = true := by
  induction l generalizing a with
  | nil => simp
  | cons x l ih =>
    rw [List.foldl_cons, ih]
    by_cases hp : p x = true
    · simp only [hp, if_true, Nat.testBit_or, Bool.or_eq_true, List.mem_cons, exists_eq_or_imp, true_and]
      exact or_assoc
    · simp [hp]

/-- `char_transitions` collects the closures of the targets of all matching edges. -/
theorem charTransitions_spec (e : Expr) (cb : CharSet) (S d : Nat) :
    (charTransitions e cb S).testBit d = true ↔
      ∃ s st, S.testBit s = true ∧ e.states[s]? = some st ∧ cb.intersects st.cls = true ∧
        (e.eps st.next).testBit d = true := by
  unfold charTransitions
  split
  · next h => subst h; simp
  · rw [testBit_foldl_or]
    simp only [Nat.zero_testBit, Bool.false_eq_true, false_or, Bool.and_eq_true]
    constructor
    · rintro ⟨⟨st, s⟩, hs, ⟨h1, h2⟩, h3⟩
      exact ⟨s, st, h1, List.mem_zipIdx_iff_getElem?.1 hs, h2, h3⟩
    · rintro ⟨s, st, h1, h2, h3, h4⟩
      exact ⟨(st, s), List.mem_zipIdx_iff_getElem?.2 h2, ⟨h1, h3⟩, h4⟩

/-- A letter edge (any letter). -/
def StepL (e : Expr) (s d : Nat) : Prop := ∃ x : Ch, x.val < 26 ∧ Step e x s d

theorem charTransitions_ofCh (e : Expr) (c : Ch) (S d : Nat) :
    (charTransitions e (CharSet.ofCh c) S).testBit d = true ↔ ∃ s, S.testBit s = true ∧ Step e c s d := by
  rw [charTransitions_spec]
  constructor
  · rintro ⟨s, st, h1, h2, h3, h4⟩
    exact ⟨s, h1, st, h2, by rw [← CharSet.ofCh_intersects]; exact h3, h4⟩
  · rintro ⟨s, h1, st, h2, h3, h4⟩
    exact ⟨s, st, h1, h2, by rw [CharSet.ofCh_intersects]; exact h3, h4⟩

theorem charTransitions_letters (e : Expr) (S d : Nat) :
    (charTransitions e CharSet.letters S).testBit d = true ↔ ∃ s, S.testBit s = true ∧ StepL e s d := by
  rw [charTransitions_spec]
  constructor
  · rintro ⟨s, st, h1, h2, h3, h4⟩
    obtain ⟨x, hx, hc⟩ := (CharSet.letters_intersects _).1 h3
    exact ⟨s, h1, x, hx, st, h2, hc, h4⟩
  · rintro ⟨s, h1, x, hx, st, h2, h3, h4⟩
    exact ⟨s, st, h1, h2, (CharSet.letters_intersects _).2 ⟨x, hx, h3⟩, h4⟩

/-- The states reachable with at most `k` edits according to a row. -/
def Cum (r : Rows) (k d : Nat) : Prop := ∃ f, f ≤ k ∧ (r.at f).testBit d = true

theorem Cum.mono {r : Rows} {k k' d : Nat} (h : Cum r k d) (hk : k ≤ k') : Cum r k' d := by
  obtain ⟨f, hf, hd⟩ := h; exact ⟨f, by omega, hd⟩

theorem at_set (r : Rows) (i f : Nat) (v : Nat) (hi : i < r.length) :
    Rows.at (r.set i v) f = if f = i then v else r.at f := by
  unfold Rows.at
  simp only [List.getD, List.getElem?_set]
  by_cases h : i = f
  · subst h; simp [hi]
  · have : ¬ f = i := fun e => h e.symm
    simp [h, this]

theorem at_eq_zero_of_le (r : Rows) (f : Nat) (h : r.length ≤ f) : r.at f = 0 := by
  simp [Rows.at, List.getElem?_eq_none h]

/-- What one fuzz step can reach from `S` on symbol `c` at the cost of one edit. -/
def FuzzReach (e : Expr) (c : Ch) (s d : Nat) : Prop :=
  s = d ∨ StepL e s d ∨ ∃ m, StepL e s m ∧ Step e c m d

theorem testBit_diff (a b d : Nat) : (a ^^^ (a &&& b)).testBit d = (a.testBit d && !b.testBit d) := by
  rw [Nat.testBit_xor, Nat.testBit_and]
  cases a.testBit d <;> cases b.testBit d <;> rfl

/-- Invariant of the fuzz loop after processing `f = 0 … n-1`. -/
theorem fuzzLoop_inv (e : Expr) (c : Ch) (lower base : Rows) (hb : base.length = e.fuzz + 1) (n : Nat) (hn : n ≤ e.fuzz) :
    let acc := (List.range n).foldl (fuzzStep e c lower) (base, 0)
    acc.1.length = e.fuzz + 1 ∧
    (∀ f, n < f → acc.1.at f = base.at f) ∧
    (∀ d, acc.2.testBit d = true → ∃ f, f ≤ n ∧ (acc.1.at f).testBit d = true) ∧
    (∀ k d, (Cum acc.1 k d ↔ Cum base k d ∨
      ∃ f s, f < k ∧ f < n ∧ (lower.at f).testBit s = true ∧ FuzzReach e c s d)) := by
  induction n with
  | zero => simp [hb]
  | succ n ih =>
    obtain ⟨ih1, ih2, ih3, ih4⟩ := ih (by omega)
    rw [List.range_succ, List.foldl_append]
    simp only [List.foldl_cons, List.foldl_nil]
    generalize hacc : (List.range n).foldl (fuzzStep e c lower) (base, 0) = acc at ih1 ih2 ih3 ih4
    unfold fuzzStep
    by_cases hz : lower.at n = 0
    · simp only [hz, if_true]
      refine ⟨ih1, fun f hf => ih2 f (by omega), fun d hd => ?_, fun k d => ?_⟩
      · obtain ⟨f, hf, h⟩ := ih3 d hd; exact ⟨f, by omega, h⟩
      · rw [ih4]
        constructor
        · rintro (h | ⟨f, s, h1, h2, h3⟩)
          · exact Or.inl h
          · exact Or.inr ⟨f, s, h1, by omega, h3⟩
        · rintro (h | ⟨f, s, h1, h2, h3, h4⟩)
          · exact Or.inl h
          · right
            refine ⟨f, s, h1, ?_, h3, h4⟩
            rcases Nat.lt_succ_iff_lt_or_eq.1 h2 with h | h
            · exact h
            · subst h; rw [hz] at h3; simp at h3
    · simp only [hz, if_false]
      generalize hu : (((acc.1.at (n + 1) ||| lower.at n) ||| charTransitions e CharSet.letters (lower.at n)) |||
        charTransitions e (CharSet.ofCh c) (charTransitions e CharSet.letters (lower.at n))) = u
      have hub : ∀ d, u.testBit d = true ↔ (acc.1.at (n+1)).testBit d = true ∨
          ∃ s, (lower.at n).testBit s = true ∧ FuzzReach e c s d := by
        intro d
        rw [← hu]
        simp only [Nat.testBit_or, Bool.or_eq_true, charTransitions_letters, charTransitions_ofCh]
        constructor
        · rintro (((h | h) | ⟨s, h1, h2⟩) | ⟨m, ⟨s, h1, h2⟩, h3⟩)
          · exact Or.inl h
          · exact Or.inr ⟨d, h, Or.inl rfl⟩
          · exact Or.inr ⟨s, h1, Or.inr (Or.inl h2)⟩
          · exact Or.inr ⟨s, h1, Or.inr (Or.inr ⟨m, h2, h3⟩)⟩
        · rintro (h | ⟨s, h1, rfl | h2 | ⟨m, h2, h3⟩⟩)
          · exact Or.inl (Or.inl (Or.inl h))
          · exact Or.inl (Or.inl (Or.inr h1))
          · exact Or.inl (Or.inr ⟨s, h1, h2⟩)
          · exact Or.inr ⟨m, ⟨s, h1, h2⟩, h3⟩
      have hlt : n + 1 < acc.1.length := by omega
      refine ⟨by simp [ih1], fun f hf => ?_, fun d hd => ?_, fun k d => ?_⟩
      · rw [at_set _ _ _ _ hlt, if_neg (by omega)]; exact ih2 f (by omega)
      · simp only [Nat.testBit_or, Bool.or_eq_true] at hd
        rcases hd with hd | hd
        · obtain ⟨f, hf, h⟩ := ih3 d hd
          exact ⟨f, by omega, by rw [at_set _ _ _ _ hlt, if_neg (by omega)]; exact h⟩
        · exact ⟨n + 1, Nat.le_refl _, by rw [at_set _ _ _ _ hlt, if_pos rfl]; exact hd⟩
      · constructor
        · rintro ⟨f, hf, h⟩
          rw [at_set _ _ _ _ hlt] at h
          split at h
          · next hfe =>
            rw [testBit_diff] at h
            simp only [Bool.and_eq_true] at h
            rcases (hub d).1 h.1 with h' | ⟨s, h1, h2⟩
            · have hc : Cum acc.1 k d := ⟨n + 1, by omega, h'⟩
              rcases (ih4 k d).1 hc with h'' | ⟨f', s, a1, a2, a3⟩
              · exact Or.inl h''
              · exact Or.inr ⟨f', s, a1, by omega, a3⟩
            · exact Or.inr ⟨n, s, by omega, by omega, h1, h2⟩
          · rcases (ih4 k d).1 ⟨f, hf, h⟩ with h'' | ⟨f', s, a1, a2, a3⟩
            · exact Or.inl h''
            · exact Or.inr ⟨f', s, a1, by omega, a3⟩
        · intro h
          have hold : Cum acc.1 k d ∨ (n < k ∧ ∃ s, (lower.at n).testBit s = true ∧ FuzzReach e c s d) := by
            rcases h with h | ⟨f, s, h1, h2, h3, h4⟩
            · exact Or.inl ((ih4 k d).2 (Or.inl h))
            · by_cases hfn : f = n
              · subst hfn; exact Or.inr ⟨h1, s, h3, h4⟩
              · exact Or.inl ((ih4 k d).2 (Or.inr ⟨f, s, h1, by omega, h3, h4⟩))
          have hin : (∀ f, f ≤ k → f ≠ n + 1 → (acc.1.at f).testBit d = true →
              Cum (acc.1.set (n+1) (u ^^^ (u &&& acc.2))) k d) := by
            intro f hf hne h
            exact ⟨f, hf, by rw [at_set _ _ _ _ hlt, if_neg hne]; exact h⟩
          have hu' : n + 1 ≤ k → u.testBit d = true → Cum (acc.1.set (n+1) (u ^^^ (u &&& acc.2))) k d := by
            intro hk hud
            cases hs : acc.2.testBit d
            · exact ⟨n + 1, hk, by rw [at_set _ _ _ _ hlt, if_pos rfl, testBit_diff, hud, hs]; rfl⟩
            · obtain ⟨f, hf, h⟩ := ih3 d hs
              exact hin f (by omega) (by omega) h
          rcases hold with ⟨f, hf, h⟩ | ⟨hk, h⟩
          · by_cases hfe : f = n + 1
            · subst hfe; exact hu' hf ((hub d).2 (Or.inl h))
            · exact hin f hf hfe h
          · exact hu' (by omega) ((hub d).2 (Or.inr h))

theorem fillRow_length (e : Expr) (c : Ch) (lower : Rows) : (fillRow e c lower).length = e.fuzz + 1 := by
  unfold fillRow
  simp only
  split
  · simp
  · exact (fuzzLoop_inv e c lower _ (by simp) e.fuzz (Nat.le_refl _)).1

/-- One symbol, cumulatively: exact moves at the same cost, one-edit moves at one more. -/
theorem fillRow_cum (e : Expr) (c : Ch) (lower : Rows) (hl : lower.length ≤ e.fuzz + 1) (k d : Nat) (hk : k ≤ e.fuzz) :
    Cum (fillRow e c lower) k d ↔
      (∃ s, Cum lower k s ∧ Step e c s d) ∨ (∃ s k', k' + 1 ≤ k ∧ Cum lower k' s ∧ FuzzReach e c s d) := by
  have hbase : ∀ k, k ≤ e.fuzz → (Cum ((List.range (e.fuzz + 1)).map fun f =>
      if lower.at f = 0 then 0 else charTransitions e (CharSet.ofCh c) (lower.at f)) k d ↔
      ∃ s, Cum lower k s ∧ Step e c s d) := by
    intro k hk
    have hat : ∀ f, f ≤ e.fuzz → Rows.at ((List.range (e.fuzz + 1)).map fun f =>
      if lower.at f = 0 then 0 else charTransitions e (CharSet.ofCh c) (lower.at f)) f =
      if lower.at f = 0 then 0 else charTransitions e (CharSet.ofCh c) (lower.at f) := by
      intro f hf
      simp [Rows.at, List.getD, List.getElem?_map, List.getElem?_range (show f < e.fuzz + 1 by omega)]
    constructor
    · rintro ⟨f, hf, h⟩
      rw [hat f (by omega)] at h
      split at h
      · simp at h
      · obtain ⟨s, h1, h2⟩ := (charTransitions_ofCh e c _ d).1 h
        exact ⟨s, ⟨f, hf, h1⟩, h2⟩
    · rintro ⟨s, ⟨f, hf, h1⟩, h2⟩
      refine ⟨f, hf, ?_⟩
      rw [hat f (by omega), if_neg ((nat_ne_zero_iff_testBit _).2 ⟨s, h1⟩)]
      exact (charTransitions_ofCh e c _ d).2 ⟨s, h1, h2⟩
  unfold fillRow
  simp only
  split
  · next hall =>
    rw [hbase k hk]
    constructor
    · exact Or.inl
    · rintro (h | ⟨s, k', _, ⟨f, hf, h⟩, _⟩)
      · exact h
      · rw [List.all_eq_true] at hall
        by_cases hf' : f < e.fuzz + 1
        · have := hall f (List.mem_range.2 hf')
          have : lower.at f = 0 := by simpa using this
          rw [this] at h; simp at h
        · rw [at_eq_zero_of_le _ _ (by omega)] at h; simp at h
  · have := fun base hb => (fuzzLoop_inv e c lower base hb e.fuzz (Nat.le_refl _)).2.2.2 k d
    rw [this _ (by simp), hbase k hk]
    constructor
    · rintro (h | ⟨f, s, h1, h2, h3, h4⟩)
      · exact Or.inl h
      · exact Or.inr ⟨s, f, by omega, ⟨f, Nat.le_refl _, h3⟩, h4⟩
    · rintro (h | ⟨s, k', hk', ⟨f, hf, h⟩, hr⟩)
      · exact Or.inl h
      · exact Or.inr ⟨f, s, by omega, by omega, h, hr⟩

/-! ### Runs -/

/-- Reading a word with a given number of edits. -/
inductive Run (e : Expr) : Nat → Nat → List Ch → Nat → Prop
  | done (s) : Run e s 0 [] s
  | ignore {s k c cs d} : e.ignores c = true → Run e s k cs d → Run e s k (c :: cs) d
  | exact {s m k c cs d} : e.ignores c = false → Step e c s m → Run e m k cs d → Run e s k (c :: cs) d
  | fuzz {s m k c cs d} : e.ignores c = false → FuzzReach e c s m → Run e m k cs d → Run e s (k + 1) (c :: cs) d

/-- The row after reading `cs` from an initial row (ignoring early termination). -/
def rowsAfter (e : Expr) : List Ch → Rows → Rows
  | [], r => r
  | c :: cs, r => if e.ignores c then rowsAfter e cs r else rowsAfter e cs (fillRow e c r)

theorem rowsAfter_length (e : Expr) (cs : List Ch) (r : Rows) (h : r.length = e.fuzz + 1) :
    (rowsAfter e cs r).length = e.fuzz + 1 := by
  induction cs generalizing r with
  | nil => exact h
  | cons c cs ih =>
    unfold rowsAfter; split
    · exact ih r h
    · exact ih _ (fillRow_length e c r)

theorem rowsAfter_cum (e : Expr) (cs : List Ch) (r : Rows) (h : r.length = e.fuzz + 1) (k d : Nat) (hk : k ≤ e.fuzz) :
    Cum (rowsAfter e cs r) k d ↔ ∃ s k1 k2, Cum r k1 s ∧ Run e s k2 cs d ∧ k1 + k2 ≤ k := by
  induction cs generalizing r k with
  | nil =>
    constructor
    · intro hc; exact ⟨d, k, 0, hc, Run.done d, by omega⟩
    · rintro ⟨s, k1, k2, h1, h2, h3⟩
      cases h2
      exact h1.mono (by omega)
  | cons c cs ih =>
    by_cases hi : e.ignores c = true
    · simp only [rowsAfter, hi, if_true]
      rw [ih r h k hk]
      constructor
      · rintro ⟨s, k1, k2, h1, h2, h3⟩
        exact ⟨s, k1, k2, h1, Run.ignore hi h2, h3⟩
      · rintro ⟨s, k1, k2, h1, h2, h3⟩
        cases h2 with
        | ignore _ h2 => exact ⟨s, k1, k2, h1, h2, h3⟩
        | exact h' => simp_all
        | fuzz h' => simp_all
    · have hif : e.ignores c = false := by simpa using hi
      simp only [rowsAfter, hif]
      rw [if_neg (by simp), ih _ (fillRow_length e c r) k hk]
      constructor
      · rintro ⟨m, k1, k2, h1, h2, h3⟩
        rcases (fillRow_cum e c r (by omega) k1 m (by omega)).1 h1 with ⟨s, a, b⟩ | ⟨s, k', a, b, c'⟩
        · exact ⟨s, k1, k2, a, Run.exact hif b h2, h3⟩
        · exact ⟨s, k', k2 + 1, b, Run.fuzz hif c' h2, by omega⟩
      · rintro ⟨s, k1, k2, h1, h2, h3⟩
        cases h2 with
        | ignore h' => simp_all
        | exact _ hs hr =>
          exact ⟨_, k1, k2, (fillRow_cum e c r (by omega) k1 _ (by omega)).2 (Or.inl ⟨s, h1, hs⟩), hr, h3⟩
        | fuzz _ hs hr =>
          exact ⟨_, k1 + 1, _, (fillRow_cum e c r (by omega) (k1 + 1) _ (by omega)).2
            (Or.inr ⟨s, k1, by omega, h1, hs⟩), hr, by omega⟩

/-- Runs split at any point. -/
theorem run_append (e : Expr) (cs ds : List Ch) (s k d : Nat) :
    Run e s k (cs ++ ds) d ↔ ∃ m k1 k2, Run e s k1 cs m ∧ Run e m k2 ds d ∧ k = k1 + k2 := by
  induction cs generalizing s k with
  | nil =>
    constructor
    · intro h; exact ⟨s, 0, k, Run.done s, h, by omega⟩
    · rintro ⟨m, k1, k2, h1, h2, h3⟩
      cases h1
      have : k = k2 := by omega
      subst this; exact h2
  | cons c cs ih =>
    constructor
    · intro h
      cases h with
      | ignore hi h =>
        obtain ⟨m, k1, k2, h1, h2, h3⟩ := (ih s k).1 h
        exact ⟨m, k1, k2, Run.ignore hi h1, h2, h3⟩
      | exact hi hs h =>
        obtain ⟨m, k1, k2, h1, h2, h3⟩ := (ih _ k).1 h
        exact ⟨m, k1, k2, Run.exact hi hs h1, h2, h3⟩
      | fuzz hi hs h =>
        obtain ⟨m, k1, k2, h1, h2, h3⟩ := (ih _ _).1 h
        exact ⟨m, k1 + 1, k2, Run.fuzz hi hs h1, h2, by omega⟩
    · rintro ⟨m, k1, k2, h1, h2, h3⟩
      cases h1 with
      | ignore hi h1 => exact Run.ignore hi ((ih s k).2 ⟨m, k1, k2, h1, h2, h3⟩)
      | exact hi hs h1 => exact Run.exact hi hs ((ih _ k).2 ⟨m, k1, k2, h1, h2, h3⟩)
      | fuzz hi hs h1 =>
        rename_i m' k1
        have : k = (k1 + k2) + 1 := by omega
        subst this
        exact Run.fuzz hi hs ((ih _ _).2 ⟨m, k1, k2, h1, h2, rfl⟩)

theorem visible_cons (e : Expr) (c : Ch) (cs : List Ch) :
    visible e (c :: cs) = if e.ignores c then visible e cs else c :: visible e cs := by
  have : (c :: cs).filter (fun c => !((e.ignWB && c == 27) || (e.ignPunct && c == 26))) =
    if e.ignores c then visible e cs else c :: visible e cs := by
    rw [List.filter_cons]
    unfold visible Expr.ignores Ch.wordEnd Ch.punct
    cases hh : (e.ignWB && c == 27 || e.ignPunct && c == 26) <;> simp
  exact this

/-- A run is an edit script followed by an exact reading. -/
theorem run_iff_edit (e : Expr) (cs : List Ch) (s k d : Nat) :
    Run e s k cs d ↔ ∃ u, Edit k (visible e cs) u ∧ Reads e s u d := by
  induction cs generalizing s k with
  | nil =>
    constructor
    · intro h; cases h; exact ⟨[], Edit.nil, Reads.nil _⟩
    · rintro ⟨u, h1, h2⟩
      have hv : visible e [] = [] := rfl
      rw [hv] at h1
      cases h1; cases h2; exact Run.done _
  | cons c cs ih =>
    rw [visible_cons]
    by_cases hi : e.ignores c = true
    · simp only [hi, if_true]
      rw [← ih]
      constructor
      · intro h
        cases h with
        | ignore _ h => exact h
        | exact h' => simp_all
        | fuzz h' => simp_all
      · exact Run.ignore hi
    · have hif : e.ignores c = false := by simpa using hi
      simp only [hif]
      rw [if_neg (by simp)]
      constructor
      · intro h
        cases h with
        | ignore h' => simp_all
        | exact _ hs h =>
          obtain ⟨u, h1, h2⟩ := (ih _ _).1 h
          exact ⟨c :: u, Edit.keep c h1, Reads.cons hs h2⟩
        | fuzz _ hs h =>
          obtain ⟨u, h1, h2⟩ := (ih _ _).1 h
          rcases hs with rfl | ⟨x, hx, hs⟩ | ⟨m', ⟨x, hx, hs⟩, hs'⟩
          · exact ⟨u, Edit.delete c h1, h2⟩
          · exact ⟨x :: u, Edit.change c x hx h1, Reads.cons hs h2⟩
          · exact ⟨x :: c :: u, Edit.insert c x hx h1, Reads.cons hs (Reads.cons hs' h2)⟩
      · rintro ⟨u, h1, h2⟩
        cases h1 with
        | keep _ h1 =>
          cases h2 with
          | cons hs h2 => exact Run.exact hif hs ((ih _ _).2 ⟨_, h1, h2⟩)
        | delete _ h1 => exact Run.fuzz hif (Or.inl rfl) ((ih _ _).2 ⟨_, h1, h2⟩)
        | change _ x hx h1 =>
          cases h2 with
          | cons hs h2 => exact Run.fuzz hif (Or.inr (Or.inl ⟨x, hx, hs⟩)) ((ih _ _).2 ⟨_, h1, h2⟩)
        | insert _ x hx h1 =>
          cases h2 with
          | cons hs h2 =>
            cases h2 with
            | cons hs' h2 =>
              exact Run.fuzz hif (Or.inr (Or.inr ⟨_, ⟨x, hx, hs⟩, hs'⟩)) ((ih _ _).2 ⟨_, h1, h2⟩)

/-- Matching through runs. -/
theorem matches_iff_run (e : Expr) (w : List Ch) :
    Matches e w ↔ ∃ s k, (e.eps 0).testBit s = true ∧ k ≤ e.fuzz ∧ Run e s k w (e.len - 1) := by
  constructor
  · rintro ⟨u, k, ⟨s, h1, h2⟩, h3, h4⟩
    exact ⟨s, k, h1, h3, (run_iff_edit e w s k _).2 ⟨u, h4, h2⟩⟩
  · rintro ⟨s, k, h1, h2, h3⟩
    obtain ⟨u, h4, h5⟩ := (run_iff_edit e w s k _).1 h3
    exact ⟨u, k, ⟨s, h1, h5⟩, h2, h4⟩

/-- Reading ends in closed sets: from a closed set of states, whatever is reachable is closed. -/
theorem run_closed (e : Expr) (hw : WF e) (cs : List Ch) (s k d d' : Nat) (h : Run e s k cs d)
    (hd : (e.eps d).testBit d' = true) : ∃ s', (e.eps s).testBit s' = true ∧ Run e s' k cs d' := by
  induction h with
  | done _ => exact ⟨d', hd, Run.done d'⟩
  | ignore hi _ ih =>
    obtain ⟨s', h1, h2⟩ := ih hd; exact ⟨s', h1, Run.ignore hi h2⟩
  | exact hi hs _ ih =>
    obtain ⟨m', h1, h2⟩ := ih hd
    obtain ⟨st, a, b, hn⟩ := hs
    refine ⟨_, hw.refl _ (List.getElem?_eq_some_iff.1 a).1, Run.exact hi ⟨st, a, b, hw.trans _ _ _ hn h1⟩ h2⟩
  | fuzz hi hs _ ih =>
    obtain ⟨m', h1, h2⟩ := ih hd
    rcases hs with rfl | ⟨x, hx, st, a, b, hn⟩ | ⟨q, ⟨x, hx, st, a, b, hn⟩, ⟨st', a', b', hn'⟩⟩
    · exact ⟨m', h1, Run.fuzz hi (Or.inl rfl) h2⟩
    · refine ⟨_, hw.refl _ (List.getElem?_eq_some_iff.1 a).1,
        Run.fuzz hi (Or.inr (Or.inl ⟨x, hx, st, a, b, hw.trans _ _ _ hn h1⟩)) h2⟩
    · refine ⟨_, hw.refl _ (List.getElem?_eq_some_iff.1 a).1,
        Run.fuzz hi (Or.inr (Or.inr ⟨q, ⟨x, hx, st, a, b, hn⟩, ⟨st', a', b', hw.trans _ _ _ hn' h1⟩⟩)) h2⟩

end Noodle
