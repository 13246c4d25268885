import Verif.Proofs.Step
import Verif.Proofs.WordMatcher
/-
Phrase matching as paths through the word tables.
-/
namespace Noodle
open Spec

/-- A path through the tables of a phrase, with its total number of edits. -/
inductive Path (T : Word → Tbl) : Nat → List Word → Nat → Nat → Prop
  | nil (s) : Path T s [] 0 s
  | cons {s m d w ws f k} : (((T w).row s).at f).testBit m = true → Path T m ws k d → Path T s (w :: ws) (f + k) d

/-- Stepping through a phrase one word at a time. -/
def phraseRows (fm fl : Nat) (T : Word → Tbl) (r : Rows) (ws : List Word) : Rows :=
  ws.foldl (fun r w => stepInto fl (T w) r (List.replicate fm 0)) r

theorem phraseRows_mem (fm fl : Nat) (h : fl ≤ fm) (T : Word → Tbl) (ws : List Word) (r : Rows) (g d : Nat)
    (hr : ∀ g s, (r.at g).testBit s = true → g < fl) :
    ((phraseRows fm fl T r ws).at g).testBit d = true ↔
      ∃ f k s, f + k = g ∧ g < fl ∧ (r.at f).testBit s = true ∧ Path T s ws k d := by
  induction ws generalizing r with
  | nil =>
    constructor
    · intro hb; exact ⟨g, 0, d, rfl, hr g d hb, hb, Path.nil d⟩
    · rintro ⟨f, k, s, h1, h2, h3, h4⟩
      cases h4
      have : f = g := by omega
      subst this; exact h3
  | cons w ws ih =>
    have hst := stepInto_spec fl (T w) r (List.replicate fm 0) (by simpa using h)
    have hr' : ∀ g s, ((stepInto fl (T w) r (List.replicate fm 0)).at g).testBit s = true → g < fl := by
      intro g s hb
      rcases (hst.2 g s).1 hb with h1 | ⟨_, _, _, _, h2, _⟩
      · rw [at_replicate_zero] at h1; simp at h1
      · exact h2
    have := ih (stepInto fl (T w) r (List.replicate fm 0)) hr'
    rw [phraseRows, List.foldl_cons]
    rw [phraseRows] at this
    rw [this]
    constructor
    · rintro ⟨f, k, m, h1, h2, h3, h4⟩
      rcases (hst.2 f m).1 h3 with h5 | ⟨f', df, s, h5, h6, h7, h8⟩
      · rw [at_replicate_zero] at h5; simp at h5
      · exact ⟨f', df + k, s, by omega, h2, h7, Path.cons h8 h4⟩
    · rintro ⟨f, k, s, h1, h2, h3, h4⟩
      cases h4 with
      | @cons _ m _ _ _ df k' h5 h6 =>
        exact ⟨f + df, k', m, by omega, h2, (hst.2 _ _).2 (Or.inr ⟨f, df, s, rfl, by omega, h3, h5⟩), h6⟩

/-- A phrase is accepted by a matcher given by tables, start set, number of states and fuzz limit. -/
def PAcc (T : Word → Tbl) (start n fl : Nat) (ws : List Word) : Prop :=
  ∃ s k, start.testBit s = true ∧ k < fl ∧ Path T s ws k (n - 1)

theorem path_append (T : Word → Tbl) (s : Nat) (ws vs : List Word) (k d : Nat) :
    Path T s (ws ++ vs) k d ↔ ∃ m k1 k2, Path T s ws k1 m ∧ Path T m vs k2 d ∧ k = k1 + k2 := by
  induction ws generalizing s k with
  | nil =>
    constructor
    · intro h; exact ⟨s, 0, k, Path.nil s, h, by omega⟩
    · rintro ⟨m, k1, k2, h1, h2, h3⟩
      cases h1
      have : k = k2 := by omega
      subst this; exact h2
  | cons w ws ih =>
    constructor
    · intro h
      cases h with
      | cons h1 h2 =>
        obtain ⟨m, k1, k2, a, b, c⟩ := (ih _ _).1 h2
        exact ⟨m, _, k2, Path.cons h1 a, b, by omega⟩
    · rintro ⟨m, k1, k2, h1, h2, h3⟩
      cases h1 with
      | @cons _ m' _ _ _ f k' a b =>
        have : k = f + (k' + k2) := by omega
        subst this
        exact Path.cons a ((ih _ _).2 ⟨m, k', k2, b, h2, rfl⟩)

/-! ### The canonical tables -/

/-- The table of a word, from scratch. -/
def canonT (e : Expr) (w : Word) : Tbl := wordTbl e w.chars

theorem wordTbl_row (e : Expr) (cs : List Ch) (s : Nat) (hs : s < e.len) : (wordTbl e cs).row s = wordRow e s cs := by
  rw [wordTbl, row_map_range _ _ _ hs]

theorem wordTbl_row_ge (e : Expr) (cs : List Ch) (s : Nat) (hs : e.len ≤ s) : (wordTbl e cs).row s = [] := by
  simp [Tbl.row, List.getD, wordTbl, List.getElem?_eq_none (show ((List.range e.len).map fun s => wordRow e s cs).length ≤ s by simpa using hs)]

theorem wordTbl_bit_src (e : Expr) (cs : List Ch) (s f d : Nat) (h : (((wordTbl e cs).row s).at f).testBit d = true) :
    s < e.len := by
  by_contra hc
  rw [wordTbl_row_ge e cs s (by omega)] at h
  simp [Rows.at] at h

/-- States reached are states. -/
theorem run_lt (e : Expr) (hw : WF e) {s k cs d} (h : Run e s k cs d) (hs : s < e.len) : d < e.len := by
  induction h with
  | done => exact hs
  | ignore _ _ ih => exact ih hs
  | exact _ hst _ ih =>
    obtain ⟨st, _, _, hn⟩ := hst
    exact ih (hw.eps_lt _ _ hn)
  | fuzz _ hf _ ih =>
    rcases hf with rfl | ⟨x, _, st, _, _, hn⟩ | ⟨m, _, st, _, _, hn⟩
    · exact ih hs
    · exact ih (hw.eps_lt _ _ hn)
    · exact ih (hw.eps_lt _ _ hn)

theorem wordTbl_bit_dst (e : Expr) (hw : WF e) (cs : List Ch) (s f d : Nat)
    (h : (((wordTbl e cs).row s).at f).testBit d = true) : d < e.len ∧ f ≤ e.fuzz := by
  have hs := wordTbl_bit_src e cs s f d h
  rw [wordTbl_row e cs s hs] at h
  have hf : f ≤ e.fuzz := by
    by_contra hc
    rw [at_eq_zero_of_le _ _ (by rw [wordRow_length]; omega)] at h
    simp at h
  obtain ⟨s', k', h1, h2, h3⟩ := (wordRow_cum e s cs f d hf).1 ⟨f, Nat.le_refl _, h⟩
  exact ⟨run_lt e hw h3 (hw.eps_lt _ _ h1), hf⟩

/-- Paths through canonical tables are runs over the concatenation. -/
theorem path_of_run (e : Expr) (hw : WF e) (ws : List Word) (hne : ws ≠ []) (s s' k d : Nat) (hs : s < e.len)
    (h1 : (e.eps s).testBit s' = true) (hk : k ≤ e.fuzz) (h2 : Run e s' k (charsOf ws) d) :
    ∃ k', k' ≤ k ∧ Path (canonT e) s ws k' d := by
  induction ws generalizing s s' k with
  | nil => exact absurd rfl hne
  | cons w ws ih =>
    have hsplit : charsOf (w :: ws) = w.chars ++ charsOf ws := rfl
    rw [hsplit, run_append] at h2
    obtain ⟨m, k1, k2, a, b, c⟩ := h2
    have hc : Cum (wordRow e s w.chars) k1 m := (wordRow_cum e s w.chars k1 m (by omega)).2 ⟨s', k1, h1, Nat.le_refl _, a⟩
    obtain ⟨f, hf, hb⟩ := hc
    rw [← wordTbl_row e w.chars s hs] at hb
    have hm : m < e.len := run_lt e hw a (hw.eps_lt _ _ h1)
    by_cases hws : ws = []
    · subst hws
      have : charsOf ([] : List Word) = [] := rfl
      rw [this] at b
      cases b
      exact ⟨f, by omega, by simpa using Path.cons (T := canonT e) hb (Path.nil _)⟩
    · obtain ⟨k', hk', hp⟩ := ih hws m m k2 hm (hw.refl m hm) (by omega) b
      exact ⟨f + k', by omega, Path.cons hb hp⟩

theorem run_of_path (e : Expr) (hw : WF e) (ws : List Word) (s k d : Nat)
    (h : Path (canonT e) s ws k d) (hk : k ≤ e.fuzz) (hs : s < e.len) :
    ∃ s' k', (e.eps s).testBit s' = true ∧ k' ≤ k ∧ Run e s' k' (charsOf ws) d := by
  induction h with
  | nil s => exact ⟨s, 0, hw.refl s hs, Nat.le_refl _, Run.done s⟩
  | @cons s m d w ws f k hb _ ih =>
    have hm := wordTbl_bit_dst e hw _ _ _ _ hb
    obtain ⟨m', k', h1, h2, h3⟩ := ih (by omega) hm.1
    have hb' := hb
    rw [canonT, wordTbl_row e w.chars s hs] at hb'
    obtain ⟨s', k1, h4, h5, h6⟩ := (wordRow_cum e s w.chars f m (by omega)).1 ⟨f, Nat.le_refl _, hb'⟩
    obtain ⟨s'', h7, h8⟩ := run_closed e hw _ _ _ _ _ h6 h1
    refine ⟨s'', k1 + k', hw.trans _ _ _ h4 h7, by omega, ?_⟩
    have hsplit : charsOf (w :: ws) = w.chars ++ charsOf ws := rfl
    rw [hsplit, run_append]
    exact ⟨m', k1, k', h8, h3, rfl⟩

/-- A phrase is accepted word by word exactly if its concatenation matches. -/
theorem pacc_iff_matches (e : Expr) (hw : WF e) (ws : List Word) (hne : ws ≠ []) :
    PAcc (canonT e) (e.eps 0) e.len (e.fuzz + 1) ws ↔ Matches e (charsOf ws) := by
  rw [matches_iff_run]
  constructor
  · rintro ⟨s, k, h1, h2, h3⟩
    obtain ⟨s', k', h4, h5, h6⟩ := run_of_path e hw ws s k _ h3 (by omega) (hw.eps_lt _ _ h1)
    exact ⟨s', k', hw.trans _ _ _ h1 h4, by omega, h6⟩
  · rintro ⟨s, k, h1, h2, h3⟩
    have hs := hw.eps_lt _ _ h1
    obtain ⟨k', hk', hp⟩ := path_of_run e hw ws hne s s k _ hs (hw.refl s hs) h2 h3
    exact ⟨s, k', h1, by omega, hp⟩

/-- The start state dominates everything in its closure. -/
theorem canon_dom (e : Expr) (hw : WF e) (w : Word) (j k d : Nat) (hj : (e.eps 0).testBit j = true)
    (hk : k ≤ e.fuzz) (h : Cum ((canonT e w).row j) k d) : Cum ((canonT e w).row 0) k d := by
  have hjl := hw.eps_lt _ _ hj
  rw [canonT, wordTbl_row e _ _ hjl] at h
  rw [canonT, wordTbl_row e _ _ hw.nonempty]
  obtain ⟨s', k', h1, h2, h3⟩ := (wordRow_cum e j w.chars k d hk).1 h
  exact (wordRow_cum e 0 w.chars k d hk).2 ⟨s', k', hw.trans _ _ _ hj h1, h2, h3⟩

end Noodle
