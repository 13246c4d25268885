import Verif.Model.Matcher
import Verif.Proofs.Table
import Mathlib.Tactic.ByContra
/-
The word matcher: prefix cache, verdicts, alive words.
-/
namespace Noodle
open Spec

/-- The row of source `s` after reading `cs`. -/
def wordRow (e : Expr) (s : Nat) (cs : List Ch) : Rows := rowsAfter e cs (rowsOf (e.fuzz + 1) (e.eps s))

/-- The full table of a word. -/
def wordTbl (e : Expr) (cs : List Ch) : Tbl := (List.range e.len).map fun s => wordRow e s cs

/-- All rows of the sources in use are empty after `cs`. -/
def emptyAfter (e : Expr) (single : Bool) (cs : List Ch) : Bool :=
  (List.range (nStart e single)).all fun s => (List.range (e.fuzz + 1)).all fun f => (wordRow e s cs).at f == 0

/-- The word survives `fill_transition_table`. -/
def aliveB (e : Expr) (single : Bool) (cs : List Ch) : Bool :=
  (List.range cs.length).all fun i =>
    match cs[i]? with
    | some c => e.ignores c || !emptyAfter e single (cs.take i)
    | none => true

/-- Table shape. -/
def Shape (e : Expr) (t : Tbl) : Prop := t.length = e.len ∧ ∀ r ∈ t, r.length = e.fuzz + 1

theorem Shape.row {e : Expr} {t : Tbl} (h : Shape e t) {s : Nat} (hs : s < e.len) : (t.row s).length = e.fuzz + 1 := by
  have hl : s < t.length := by rw [h.1]; exact hs
  have : t.row s = t[s] := by simp [Tbl.row, List.getD, List.getElem?_eq_getElem hl]
  rw [this]
  exact h.2 _ (List.getElem_mem hl)

theorem rowsAfter_append (e : Expr) (cs ds : List Ch) (r : Rows) :
    rowsAfter e (cs ++ ds) r = rowsAfter e ds (rowsAfter e cs r) := by
  induction cs generalizing r with
  | nil => rfl
  | cons c cs ih => simp only [List.cons_append, rowsAfter]; split <;> exact ih _

theorem row_map_range (n : Nat) (g : Nat → Rows) (s : Nat) (hs : s < n) :
    Tbl.row ((List.range n).map g) s = g s := by
  simp [Tbl.row, List.getD, List.getElem?_map, List.getElem?_range hs]

theorem nStart_le (e : Expr) (he : 0 < e.len) (single : Bool) : nStart e single ≤ e.len := by
  unfold nStart; split <;> omega

theorem nStart_pos (e : Expr) (he : 0 < e.len) (single : Bool) : 0 < nStart e single := by
  unfold nStart; split <;> omega

theorem tbl_row_mem (t : Tbl) (s : Nat) (h : s < t.length) : t.row s ∈ t := by
  have : t.row s = t[s] := by simp [Tbl.row, List.getD, List.getElem?_eq_getElem h]
  rw [this]; exact List.getElem_mem h

theorem fillTbl_shape (e : Expr) (single : Bool) (c : Ch) (lower upper : Tbl) (hu : Shape e upper) :
    Shape e (fillTbl e single c lower upper) := by
  refine ⟨by simp [fillTbl, hu.1], ?_⟩
  intro r hr
  simp only [fillTbl, List.mem_map, List.mem_range] at hr
  obtain ⟨s, hs, rfl⟩ := hr
  split
  · exact fillRow_length _ _ _
  · exact hu.2 _ (tbl_row_mem _ _ hs)

theorem fillTbl_row (e : Expr) (he : 0 < e.len) (single : Bool) (c : Ch) (lower upper : Tbl) (hu : Shape e upper)
    (s : Nat) (hs : s < nStart e single) : (fillTbl e single c lower upper).row s = fillRow e c (lower.row s) := by
  have := nStart_le e he single
  rw [fillTbl, row_map_range _ _ _ (by rw [hu.1]; omega), if_pos hs]

/-- What `fill_transition_table` computes. -/
theorem fillTable_spec (e : Expr) (he : 0 < e.len) (single : Bool) (cs : List Ch) (cur : Tbl) (rest : List Tbl)
    (hlen : cs.length ≤ rest.length) (hc : Shape e cur) (hr : ∀ t ∈ rest, Shape e t) :
    ∃ n rest', fillTable e single cs cur rest = .ok (n, rest') ∧ rest'.length = rest.length ∧
      (∀ t ∈ rest', Shape e t) ∧ n ≤ cs.length ∧
      (∀ i t, i ≤ n → (cur :: rest')[i]? = some t → ∀ s, s < nStart e single →
        t.row s = rowsAfter e (cs.take i) (cur.row s)) ∧
      (∀ i c, i < n → cs[i]? = some c → e.ignores c = false →
        ∃ s f, s < nStart e single ∧ f ≤ e.fuzz ∧ (rowsAfter e (cs.take i) (cur.row s)).at f ≠ 0) ∧
      (n < cs.length → ∃ c, cs[n]? = some c ∧ e.ignores c = false ∧
        ∀ s f, s < nStart e single → f ≤ e.fuzz → (rowsAfter e (cs.take n) (cur.row s)).at f = 0) := by
  induction cs generalizing cur rest with
  | nil =>
    refine ⟨0, rest, rfl, rfl, hr, by simp, ?_, ?_, ?_⟩
    · intro i t hi ht s hs
      have : i = 0 := by omega
      subst this; simp at ht; subst ht; rfl
    · intro i c hi; omega
    · intro h; simp at h
  | cons c cs ih =>
    match rest, hlen, hr with
    | [], hlen, _ => simp at hlen
    | up :: rest, hlen, hr =>
      have hup : Shape e up := hr up (by simp)
      have hr' : ∀ t ∈ rest, Shape e t := fun t ht => hr t (by simp [ht])
      have hlen' : cs.length ≤ rest.length := by simpa using hlen
      by_cases hi : e.ignores c = true
      · obtain ⟨n, rest', h1, h2, h3, h4, h5, h6, h7⟩ := ih cur rest hlen' hc hr'
        refine ⟨n + 1, cur :: rest', ?_, by simp [h2], ?_, by simpa using h4, ?_, ?_, ?_⟩
        · simp only [fillTable, hi, if_true, h1]
        · intro t ht; rcases List.mem_cons.1 ht with rfl | ht
          · exact hc
          · exact h3 t ht
        · intro i t hin ht s hs
          cases i with
          | zero => simp at ht; subst ht; rfl
          | succ i =>
            rw [List.getElem?_cons_succ] at ht
            simp only [List.take_succ_cons, rowsAfter, hi, if_true]
            exact h5 i t (by omega) ht s hs
        · intro i c' hin hc' hig
          cases i with
          | zero => simp at hc'; subst hc'; simp [hi] at hig
          | succ i =>
            rw [List.getElem?_cons_succ] at hc'
            simp only [List.take_succ_cons, rowsAfter, hi, if_true]
            exact h6 i c' (by omega) hc' hig
        · intro hn
          obtain ⟨c', a, b, d⟩ := h7 (by simpa using hn)
          refine ⟨c', by simpa using a, b, ?_⟩
          simp only [List.take_succ_cons, rowsAfter, hi, if_true]
          exact d
      · have hif : e.ignores c = false := by simpa using hi
        by_cases hemp : allEmpty e single cur = true
        · refine ⟨0, fillTbl e single c cur up :: rest, ?_, by simp, ?_, by simp, ?_, ?_, ?_⟩
          · simp [fillTable, hif, hemp]
          · intro t ht; rcases List.mem_cons.1 ht with rfl | ht
            · exact fillTbl_shape _ _ _ _ _ hup
            · exact hr' t ht
          · intro i t hin ht s hs
            have : i = 0 := by omega
            subst this; simp at ht; subst ht; rfl
          · intro i c' hin; omega
          · intro _
            refine ⟨c, by simp, hif, ?_⟩
            intro s f hs hf
            simp only [allEmpty, List.all_eq_true, List.mem_range] at hemp
            have := hemp s hs f (by omega)
            simpa [rowsAfter] using this
        · have hne : ∃ s f, s < nStart e single ∧ f ≤ e.fuzz ∧ (cur.row s).at f ≠ 0 := by
            by_contra hcon
            apply hemp
            simp only [allEmpty, List.all_eq_true, List.mem_range]
            intro s hs f hf
            by_contra hx
            exact hcon ⟨s, f, hs, by omega, by simpa using hx⟩
          have hsh := fillTbl_shape e single c cur up hup
          obtain ⟨n, rest', h1, h2, h3, h4, h5, h6, h7⟩ := ih _ rest hlen' hsh hr'
          refine ⟨n + 1, fillTbl e single c cur up :: rest', ?_, by simp [h2], ?_, by simpa using h4, ?_, ?_, ?_⟩
          · simp only [fillTable, hif, h1, hemp]; simp
          · intro t ht; rcases List.mem_cons.1 ht with rfl | ht
            · exact hsh
            · exact h3 t ht
          · intro i t hin ht s hs
            cases i with
            | zero => simp at ht; subst ht; rfl
            | succ i =>
              rw [List.getElem?_cons_succ] at ht
              simp only [List.take_succ_cons, rowsAfter, hif]
              rw [h5 i t (by omega) ht s hs, fillTbl_row e he single c cur up hup s hs]; simp
          · intro i c' hin hc' hig
            cases i with
            | zero =>
              obtain ⟨s, f, a, b, d⟩ := hne
              exact ⟨s, f, a, b, d⟩
            | succ i =>
              rw [List.getElem?_cons_succ] at hc'
              simp only [List.take_succ_cons, rowsAfter, hif]
              obtain ⟨s, f, a, b, d⟩ := h6 i c' (by omega) hc' hig
              rw [fillTbl_row e he single c cur up hup s a] at d
              exact ⟨s, f, a, b, by simpa using d⟩
          · intro hn
            obtain ⟨c', a, b, d⟩ := h7 (by simpa using hn)
            refine ⟨c', by simpa using a, b, ?_⟩
            simp only [List.take_succ_cons, rowsAfter, hif]
            intro s f hs hf
            have := d s f hs hf
            rw [fillTbl_row e he single c cur up hup s hs] at this
            simpa using this

/-! ### The cache invariant -/

/-- The phrase-matching data that the alive words of `P` leave behind, computed from scratch. -/
def pmOf (e : Expr) (P : List Word) : PM :=
  (P.filter fun w => aliveB e false w.chars).foldl (fun pm w => pm.insertWord w (wordTbl e w.chars)) (PM.new e)

/-- What is true of a word matcher that has processed the words `P`. -/
structure WMInv (e : Expr) (single : Bool) (maxLen : Nat) (m : WM) (P : List Word) : Prop where
  idx : m.wordIndex = P.length
  alive : m.alive = P.filter fun w => aliveB e single w.chars
  tlen : m.tables.length = maxLen
  clen : m.tableChars.length < maxLen
  shape : ∀ t ∈ m.tables, Shape e t
  cache : m.tableChars ≠ [] → ∀ i t, i ≤ m.tableChars.length → m.tables[i]? = some t →
    ∀ s, s < nStart e single → t.row s = wordRow e s (m.tableChars.take i)
  live : ∀ i c, m.tableChars[i]? = some c → e.ignores c = false →
    emptyAfter e single (m.tableChars.take i) = false
  pmExpr : m.pm.expr = e
  pmLen : m.pm.statesLen = e.len
  pmFuzz : m.pm.fuzzLimit = e.fuzz + 1
  pm : single = false → m.pm = pmOf e P

theorem emptyTbl_shape (e : Expr) : Shape e (emptyTbl e.len (e.fuzz + 1)) := by
  refine ⟨by simp [emptyTbl], ?_⟩
  intro r hr
  simp only [emptyTbl, List.mem_replicate] at hr
  rw [hr.2]; simp

theorem WMInv.new (e : Expr) (single : Bool) (maxLen : Nat) (h : 0 < maxLen) :
    WMInv e single maxLen (WM.new e maxLen) [] where
  idx := rfl
  alive := rfl
  tlen := by simp [WM.new]
  clen := by simpa [WM.new] using h
  shape := by
    intro t ht
    simp only [WM.new, List.mem_replicate] at ht
    rw [ht.2]; exact emptyTbl_shape e
  cache := by simp [WM.new]
  live := by simp [WM.new]
  pmExpr := rfl
  pmLen := rfl
  pmFuzz := rfl
  pm := by intro _; rfl

theorem commonPrefix_spec (a b : List Ch) : commonPrefix a b ≤ a.length ∧ commonPrefix a b ≤ b.length ∧
    a.take (commonPrefix a b) = b.take (commonPrefix a b) := by
  induction a generalizing b with
  | nil => simp [commonPrefix]
  | cons x a ih =>
    cases b with
    | nil => simp [commonPrefix]
    | cons y b =>
      unfold commonPrefix
      split
      · next h =>
        subst h
        obtain ⟨h1, h2, h3⟩ := ih b
        simp [h1, h2, h3]
      · simp

theorem initTbl_shape (e : Expr) : Shape e (initTbl e e.len (e.fuzz + 1)) := by
  refine ⟨by simp [initTbl], ?_⟩
  intro r hr
  simp only [initTbl, List.mem_map] at hr
  obtain ⟨s, _, rfl⟩ := hr
  simp

theorem initTbl_row (e : Expr) (s : Nat) (hs : s < e.len) :
    (initTbl e e.len (e.fuzz + 1)).row s = wordRow e s [] := by
  rw [initTbl, row_map_range _ _ _ hs]; rfl

theorem insertWord_expr (pm : PM) (w : Word) (t : Tbl) : (pm.insertWord w t).expr = pm.expr := rfl
theorem insertWord_len (pm : PM) (w : Word) (t : Tbl) : (pm.insertWord w t).statesLen = pm.statesLen := rfl
theorem insertWord_fuzz (pm : PM) (w : Word) (t : Tbl) : (pm.insertWord w t).fuzzLimit = pm.fuzzLimit := rfl
theorem insertWord_start (pm : PM) (w : Word) (t : Tbl) : (pm.insertWord w t).start = pm.start := rfl

theorem rowsOf_length (fl s : Nat) : (rowsOf fl s).length = fl := by simp [rowsOf]

theorem wordRow_length (e : Expr) (s : Nat) (cs : List Ch) : (wordRow e s cs).length = e.fuzz + 1 :=
  rowsAfter_length _ _ _ (rowsOf_length _ _)

/-- A shaped table whose rows are the word rows is the word table. -/
theorem eq_wordTbl (e : Expr) (t : Tbl) (cs : List Ch) (hs : Shape e t)
    (h : ∀ s, s < e.len → t.row s = wordRow e s cs) : t = wordTbl e cs := by
  apply List.ext_getElem
  · simp [wordTbl, hs.1]
  · intro i h1 h2
    have hi : i < e.len := by rw [← hs.1]; exact h1
    have := h i hi
    simp only [Tbl.row, List.getD, List.getElem?_eq_getElem h1, Option.getD_some] at this
    rw [this]; simp [wordTbl]

theorem emptyAfter_false_iff (e : Expr) (single : Bool) (cs : List Ch) : emptyAfter e single cs = false ↔
    ∃ s f, s < nStart e single ∧ f ≤ e.fuzz ∧ (wordRow e s cs).at f ≠ 0 := by
  rw [← Bool.not_eq_true]
  simp only [emptyAfter, List.all_eq_true, List.mem_range, beq_iff_eq]
  constructor
  · intro h
    by_contra hcon
    apply h
    intro s hs f hf
    by_contra hx
    exact hcon ⟨s, f, hs, by omega, hx⟩
  · rintro ⟨s, f, hs, hf, hx⟩ h
    exact hx (h s hs f (by omega))

theorem emptyAfter_iff (e : Expr) (single : Bool) (cs : List Ch) : emptyAfter e single cs = true ↔
    ∀ s f, s < nStart e single → f ≤ e.fuzz → (wordRow e s cs).at f = 0 := by
  simp only [emptyAfter, List.all_eq_true, List.mem_range, beq_iff_eq]
  constructor
  · intro h s f hs hf; exact h s hs f (by omega)
  · intro h s hs f hf; exact h s f hs (by omega)

theorem aliveB_iff (e : Expr) (single : Bool) (cs : List Ch) : aliveB e single cs = true ↔
    ∀ i c, cs[i]? = some c → e.ignores c = false → emptyAfter e single (cs.take i) = false := by
  simp only [aliveB, List.all_eq_true, List.mem_range]
  constructor
  · intro h i c hc hi
    have hl := (List.getElem?_eq_some_iff.1 hc).1
    have := h i hl
    rw [hc] at this
    simpa [hi] using this
  · intro h i hl
    rw [List.getElem?_eq_getElem hl]
    simp only [Bool.or_eq_true, Bool.not_eq_true']
    by_cases hi : e.ignores cs[i] = true
    · exact Or.inl hi
    · exact Or.inr (h i _ (List.getElem?_eq_getElem hl) (by simpa using hi))

/-- The match verdict on a table row. -/
def rowHas (fl : Nat) (r : Rows) (d : Nat) : Prop := ∃ f, f < fl ∧ (r.at f).testBit d = true

theorem rowHas_iff_cum (e : Expr) (r : Rows) (d : Nat) : rowHas (e.fuzz + 1) r d ↔ Cum r e.fuzz d := by
  constructor
  · rintro ⟨f, hf, h⟩; exact ⟨f, by omega, h⟩
  · rintro ⟨f, hf, h⟩; exact ⟨f, by omega, h⟩

theorem cum_rowsOf (fl S k d : Nat) (hfl : 0 < fl) : Cum (rowsOf fl S) k d ↔ S.testBit d = true := by
  unfold Cum
  have hat : ∀ f, (rowsOf fl S).at f = if f = 0 then S else 0 := by
    intro f
    rw [rowsOf, at_set _ _ _ _ (by simpa using hfl)]
    split
    · rfl
    · simp [Rows.at, List.getD, List.getElem?_replicate]; split <;> rfl
  constructor
  · rintro ⟨f, _, h⟩
    rw [hat] at h
    split at h
    · exact h
    · simp at h
  · intro h; exact ⟨0, by omega, by rw [hat]; simpa using h⟩

theorem wordRow_cum (e : Expr) (s : Nat) (cs : List Ch) (k d : Nat) (hk : k ≤ e.fuzz) :
    Cum (wordRow e s cs) k d ↔ ∃ s' k', (e.eps s).testBit s' = true ∧ k' ≤ k ∧ Run e s' k' cs d := by
  rw [wordRow, rowsAfter_cum e cs _ (rowsOf_length _ _) k d hk]
  constructor
  · rintro ⟨s', k1, k2, h1, h2, h3⟩
    exact ⟨s', k2, (cum_rowsOf _ _ _ _ (by omega)).1 h1, by omega, h2⟩
  · rintro ⟨s', k', h1, h2, h3⟩
    exact ⟨s', 0, k', (cum_rowsOf _ _ _ _ (by omega)).2 h1, h3, by omega⟩

theorem matches_iff_row (e : Expr) (cs : List Ch) :
    Matches e cs ↔ Cum (wordRow e 0 cs) e.fuzz (e.len - 1) := by
  rw [matches_iff_run, wordRow_cum e 0 cs _ _ (Nat.le_refl _)]

/-- Once all rows are empty they stay empty. -/
theorem rowsAfter_empty (e : Expr) (cs : List Ch) (r : Rows) (hr : r.length = e.fuzz + 1)
    (h : ∀ f, f ≤ e.fuzz → r.at f = 0) (k d : Nat) (hk : k ≤ e.fuzz) : ¬ Cum (rowsAfter e cs r) k d := by
  rw [rowsAfter_cum e cs r hr k d hk]
  rintro ⟨s, k1, k2, ⟨f, hf, hb⟩, _, h3⟩
  rw [h f (by omega)] at hb; simp at hb

/-- A word that can be read from one of the sources in use is alive. -/
theorem alive_of_cum (e : Expr) (single : Bool) (cs : List Ch) (s k d : Nat) (hs : s < nStart e single)
    (hk : k ≤ e.fuzz) (h : Cum (wordRow e s cs) k d) : aliveB e single cs = true := by
  rw [aliveB_iff]
  intro i c hc hi
  by_contra hcon
  have hemp := (emptyAfter_iff e single _).1 (by simpa using hcon)
  have hsplit : cs = cs.take i ++ cs.drop i := (List.take_append_drop i cs).symm
  rw [hsplit, wordRow, rowsAfter_append] at h
  exact rowsAfter_empty e (cs.drop i) (wordRow e s (cs.take i)) (wordRow_length _ _ _)
    (fun f hf => hemp s f hs hf) k d hk h

theorem alive_of_matches (e : Expr) (he : 0 < e.len) (single : Bool) (cs : List Ch) (h : Matches e cs) :
    aliveB e single cs = true :=
  alive_of_cum e single cs 0 e.fuzz (e.len - 1) (nStart_pos e he single) (Nat.le_refl _)
    ((matches_iff_row e cs).1 h)

theorem tblMatches_iff (pm : PM) (t : Tbl) : tblMatches pm t = true ↔
    rowHas pm.fuzzLimit (t.row 0) (pm.statesLen - 1) := by
  simp [tblMatches, rowHas]

theorem pmOf_append (e : Expr) (P : List Word) (w : Word) :
    pmOf e (P ++ [w]) = if aliveB e false w.chars then (pmOf e P).insertWord w (wordTbl e w.chars) else pmOf e P := by
  unfold pmOf
  rw [List.filter_append, List.foldl_append]
  by_cases h : aliveB e false w.chars = true
  · simp [h]
  · simp [h]

/-- Processing one word: it never fails, keeps the invariant, and reports the word exactly if it matches. -/
theorem word_spec (e : Expr) (he : 0 < e.len) (single : Bool) (maxLen : Nat) (m : WM) (P : List Word)
    (w : Word) (hinv : WMInv e single maxLen m P) (hw : w.chars.length < maxLen) :
    ∃ m' b, m.word single w = .ok (m', b) ∧ WMInv e single maxLen m' (P ++ [w]) ∧
      (b = true ↔ Matches e w.chars) := by
  obtain ⟨hidx, halive, htlen, hclen, hshape, hcache, hlive, hexpr, hlen, hfuzz, hpm⟩ := hinv
  obtain ⟨hp1, hp2, hp3⟩ := commonPrefix_spec w.chars m.tableChars
  generalize hpe : commonPrefix w.chars m.tableChars = p at hp1 hp2 hp3
  -- the table vector after (re)initialisation
  generalize hte : (if p = 0 then m.tables.set 0 (initTbl e e.len (e.fuzz + 1)) else m.tables) = tabs
  have htabs_len : tabs.length = maxLen := by rw [← hte]; split <;> simp [htlen]
  have htabs_shape : ∀ t ∈ tabs, Shape e t := by
    intro t ht
    rw [← hte] at ht
    split at ht
    · rcases List.mem_or_eq_of_mem_set ht with ht | rfl
      · exact hshape t ht
      · exact initTbl_shape e
    · exact hshape t ht
  have htabs_cache : ∀ i t, i ≤ p → tabs[i]? = some t → ∀ s, s < nStart e single →
      t.row s = wordRow e s (w.chars.take i) := by
    intro i t hi ht s hs
    have hsl := nStart_le e he single
    rw [← hte] at ht
    split at ht
    · next h0 =>
      have : i = 0 := by omega
      subst this
      rw [List.getElem?_set_self (by omega)] at ht
      simp only [Option.some.injEq] at ht; subst ht
      exact initTbl_row e s (by omega)
    · next h0 =>
      have hne : m.tableChars ≠ [] := by rintro h; rw [h] at hp2; simp at hp2; exact h0 hp2
      rw [hcache hne i t (by omega) ht s hs]
      have : w.chars.take i = m.tableChars.take i := by
        have := congrArg (List.take i) hp3
        simpa [List.take_take, Nat.min_eq_left hi] using this
      rw [this]
  have hplt : p < tabs.length := by omega
  have hcurE : tabs[p]? = some tabs[p] := List.getElem?_eq_getElem hplt
  have hcurS : Shape e tabs[p] := htabs_shape _ (List.getElem_mem hplt)
  have hrestS : ∀ t ∈ tabs.drop (p + 1), Shape e t := fun t ht => htabs_shape t (List.mem_of_mem_drop ht)
  obtain ⟨n, rest', h1, h2, h3, h4, h5, h6, h7⟩ := fillTable_spec e he single (w.chars.drop p) tabs[p]
    (tabs.drop (p + 1)) (by simp; omega) hcurS hrestS
  have hcur : ∀ s, s < nStart e single → (tabs[p]).row s = wordRow e s (w.chars.take p) :=
    fun s hs => htabs_cache p _ (Nat.le_refl _) hcurE s hs
  -- positions of the whole word
  have hrow : ∀ j s, s < nStart e single →
      rowsAfter e ((w.chars.drop p).take j) ((tabs[p]).row s) = wordRow e s (w.chars.take (p + j)) := by
    intro j s hs
    rw [hcur s hs, wordRow, wordRow, ← rowsAfter_append, List.take_add]
  simp only [List.length_drop] at h4
  have hn : p + n ≤ w.chars.length := by omega
  generalize htt : tabs.take (p + 1) ++ rest' = tt
  have htt_len : tt.length = maxLen := by rw [← htt]; simp [h2]; omega
  have htt_shape : ∀ t ∈ tt, Shape e t := by
    intro t ht
    rw [← htt] at ht
    rcases List.mem_append.1 ht with ht | ht
    · exact htabs_shape t (List.mem_of_mem_take ht)
    · exact h3 t ht
  have htt_get : ∀ j, tt[p + j]? = (tabs[p] :: rest')[j]? := by
    intro j
    rw [← htt]
    cases j with
    | zero =>
      rw [List.getElem?_append_left (by simp; omega)]
      simp [hcurE]
    | succ j =>
      rw [List.getElem?_append_right (by simp; omega)]
      simp only [List.length_take, List.getElem?_cons_succ]
      congr 1; omega
  have htt_cache : ∀ i t, i ≤ p + n → tt[i]? = some t → ∀ s, s < nStart e single →
      t.row s = wordRow e s (w.chars.take i) := by
    intro i t hi ht s hs
    by_cases hip : i < p
    · have : tt[i]? = tabs[i]? := by
        rw [← htt, List.getElem?_append_left (by simp; omega), List.getElem?_take, if_pos (by omega)]
      rw [this] at ht
      exact htabs_cache i t (by omega) ht s hs
    · obtain ⟨j, rfl⟩ : ∃ j, i = p + j := ⟨i - p, by omega⟩
      rw [htt_get] at ht
      rw [h5 j t (by omega) ht s hs, hrow j s hs]
  have hlive' : ∀ i c, i < p + n → w.chars[i]? = some c → e.ignores c = false →
      emptyAfter e single (w.chars.take i) = false := by
    intro i c hi hc hig
    by_cases hip : i < p
    · have h8 : m.tableChars[i]? = some c := by
        have := congrArg (fun l => l[i]?) hp3
        simpa [List.getElem?_take, hip, hc] using this.symm
      have := hlive i c h8 hig
      have h9 : w.chars.take i = m.tableChars.take i := by
        have := congrArg (List.take i) hp3
        simpa [List.take_take, Nat.min_eq_left (Nat.le_of_lt hip)] using this
      rw [h9]; exact this
    · obtain ⟨j, rfl⟩ : ∃ j, i = p + j := ⟨i - p, by omega⟩
      obtain ⟨s, f, a, b, d⟩ := h6 j c (by omega) (by rw [List.getElem?_drop]; exact hc) hig
      rw [hrow j s a] at d
      exact (emptyAfter_false_iff e single _).2 ⟨s, f, a, b, d⟩
  -- run the model
  have hrun : m.word single w =
      (if p + n < w.chars.length then
        .ok ({ m with wordIndex := m.wordIndex + 1, tables := tt, tableChars := w.chars.take (p + n) }, false)
      else match tt[w.chars.length]? with
        | none => .error .index
        | some t => .ok ({ m with
            wordIndex := m.wordIndex + 1, tables := tt, tableChars := w.chars.take (p + n),
            alive := m.alive ++ [w], pm := m.pm.insertWord w t }, tblMatches m.pm t)) := by
    unfold WM.word
    simp only [hpe, hexpr, hlen, hfuzz, hte, hcurE, h1, htt]
    rfl
  have hbase_cache : (w.chars.take (p + n)) ≠ [] → ∀ i t, i ≤ (w.chars.take (p + n)).length → tt[i]? = some t →
      ∀ s, s < nStart e single → t.row s = wordRow e s ((w.chars.take (p + n)).take i) := by
    intro _ i t hi ht s hs
    have hi' : i ≤ p + n := by simp at hi; omega
    rw [htt_cache i t hi' ht s hs, List.take_take, Nat.min_eq_left hi']
  have hbase_live : ∀ i c, (w.chars.take (p + n))[i]? = some c → e.ignores c = false →
      emptyAfter e single ((w.chars.take (p + n)).take i) = false := by
    intro i c hc hig
    rw [List.getElem?_take] at hc
    split at hc
    · next hi =>
      rw [List.take_take, Nat.min_eq_left (Nat.le_of_lt hi)]
      exact hlive' i c hi hc hig
    · simp at hc
  by_cases hpl : p + n < w.chars.length
  · -- dead
    obtain ⟨c, hc, hig, hz⟩ := h7 (by simp; omega)
    have hdead : ∀ sg, sg = single → aliveB e sg w.chars = false := by
      rintro sg rfl
      rw [← Bool.not_eq_true, aliveB_iff]
      intro hcon
      have := hcon (p + n) c (by rw [← List.getElem?_drop]; exact hc) hig
      obtain ⟨s, f, a, b, d⟩ := (emptyAfter_false_iff e sg _).1 this
      apply d
      rw [← hrow n s a]
      exact hz s f a b
    refine ⟨_, false, by rw [hrun, if_pos hpl], ?_, ?_⟩
    · exact
        { idx := by simp [hidx]
          alive := by simp [halive, hdead single rfl]
          tlen := htt_len
          clen := by simp; omega
          shape := htt_shape
          cache := hbase_cache
          live := hbase_live
          pmExpr := hexpr
          pmLen := hlen
          pmFuzz := hfuzz
          pm := by
            intro hs
            rw [pmOf_append, hpm hs, hdead false hs.symm]; simp }
    · constructor
      · intro h; simp at h
      · intro hm
        have := alive_of_matches e he single w.chars hm
        rw [hdead single rfl] at this; simp at this
  · have hpe' : p + n = w.chars.length := by omega
    have hlt : w.chars.length < tt.length := by omega
    have hgt : tt[w.chars.length]? = some tt[w.chars.length] := List.getElem?_eq_getElem hlt
    have halive1 : aliveB e single w.chars = true := by
      rw [aliveB_iff]
      intro i c hc hig
      exact hlive' i c (by rw [hpe']; exact (List.getElem?_eq_some_iff.1 hc).1) hc hig
    have hrows : ∀ s, s < nStart e single → (tt[w.chars.length]).row s = wordRow e s w.chars := by
      intro s hs
      rw [htt_cache _ _ (by omega) hgt s hs, List.take_of_length_le (Nat.le_refl _)]
    refine ⟨_, _, by rw [hrun, if_neg hpl, hgt], ?_, ?_⟩
    · exact
        { idx := by simp [hidx]
          alive := by simp [halive, halive1]
          tlen := htt_len
          clen := by simp; omega
          shape := htt_shape
          cache := hbase_cache
          live := hbase_live
          pmExpr := hexpr
          pmLen := hlen
          pmFuzz := hfuzz
          pm := by
            intro hs
            subst hs
            simp only
            rw [pmOf_append, hpm rfl, halive1, if_pos rfl]
            congr 1
            exact eq_wordTbl e _ _ (htt_shape _ (List.getElem_mem hlt)) (fun s hs => hrows s (by simpa [nStart] using hs)) }
    · rw [tblMatches_iff, hfuzz, hlen, hrows 0 (nStart_pos e he single), rowHas_iff_cum, ← matches_iff_row]

end Noodle
