import Verif.Proofs.Plan
import Verif.Proofs.Iter
import Verif.Spec.Query
/-
Index tuples and phrases; the results of the search phases together are the accepted tuples.
-/
namespace Noodle
open Spec List

/-! ### Phrases -/

theorem phrases_filter (k : Word → Bool) (wl : List Word) (d : Nat) :
    phrases (wl.filter k) d = (phrases wl d).filter fun ws => ws.all k := by
  induction d with
  | zero => rfl
  | succ d ih =>
    simp only [phrases, ih]
    clear ih
    generalize phrases wl d = R
    induction wl with
    | nil => rfl
    | cons w wl ihw =>
      rw [List.filter_cons]
      by_cases hk : k w = true
      · rw [if_pos hk, List.flatMap_cons, List.flatMap_cons, List.filter_append, ihw]
        congr 1
        rw [List.filter_map]
        congr 1
        apply List.filter_congr
        intro x _
        simp [hk]
      · rw [if_neg hk, List.flatMap_cons, List.filter_append, ihw]
        rw [(List.filter_eq_nil_iff (l := map (fun ws => w :: ws) R)).2]
        · rfl
        · intro x hx
          obtain ⟨y, _, rfl⟩ := List.mem_map.1 hx
          simp [hk]

theorem mem_phrases (wl : List Word) (d : Nat) (ws : List Word) :
    ws ∈ phrases wl d ↔ ws.length = d ∧ ∀ w ∈ ws, w ∈ wl := by
  induction d generalizing ws with
  | zero => simp only [phrases, List.mem_singleton]; constructor
            · rintro rfl; simp
            · rintro ⟨h, _⟩; exact List.length_eq_zero_iff.1 h
  | succ d ih =>
    simp only [phrases, List.mem_flatMap, List.mem_map, ih]
    constructor
    · rintro ⟨w, hw, v, ⟨h1, h2⟩, rfl⟩
      refine ⟨by simp [h1], ?_⟩
      intro x hx
      rcases List.mem_cons.1 hx with rfl | hx
      · exact hw
      · exact h2 x hx
    · rintro ⟨h1, h2⟩
      cases ws with
      | nil => simp at h1
      | cons w v => exact ⟨w, h2 w (by simp), v, ⟨by simpa using h1, fun x hx => h2 x (by simp [hx])⟩, rfl⟩

/-- Words that occur in no matching phrase may be dropped. -/
theorem found_filter (es : List Expr) (wl : List Word) (k : Word → Bool) (d : Nat)
    (h : ∀ ws, ws.length = d → (∀ w ∈ ws, w ∈ wl) → MatchesAll es ws → ∀ w ∈ ws, k w = true) :
    found es (wl.filter k) d = found es wl d := by
  unfold found
  rw [phrases_filter, List.filter_filter]
  apply List.filter_congr
  intro ws hws
  obtain ⟨h1, h2⟩ := (mem_phrases _ _ _).1 hws
  by_cases hm : MatchesAll es ws
  · simp only [hm, decide_true, Bool.true_and]
    rw [List.all_eq_true]; exact h ws h1 h2 hm
  · simp [hm]

theorem wordsOf_append (wl : List Word) (p q : List Nat) : wordsOf wl (p ++ q) = wordsOf wl p ++ wordsOf wl q := by
  simp [wordsOf]

theorem wordsOf_length (wl : List Word) (p : List Nat) (h : ∀ i ∈ p, i < wl.length) : (wordsOf wl p).length = p.length := by
  induction p with
  | nil => rfl
  | cons i p ih =>
    have hi := h i (by simp)
    simp only [wordsOf, List.filterMap_cons, List.getElem?_eq_getElem hi, List.length_cons] at ih ⊢
    rw [ih fun j hj => h j (by simp [hj])]

theorem range_flatMap {β : Type} (F : List Word → List β) (wl : List Word) :
    ((List.range wl.length).flatMap fun i => F (wl[i]?).toList) = wl.flatMap fun w => F [w] := by
  induction wl with
  | nil => rfl
  | cons w wl ih =>
    rw [List.length_cons, List.range_succ_eq_map, List.flatMap_cons, List.flatMap_cons, List.flatMap_map, ← ih]
    rfl

theorem tups_words (wl : List Word) (k : Nat) (p : List Nat) :
    (tups wl.length k p).map (wordsOf wl) = (phrases wl k).map fun ws => wordsOf wl p ++ ws := by
  induction k generalizing p with
  | zero => simp [tups, phrases]
  | succ k ih =>
    simp only [tups, phrases, List.map_flatMap, ih, List.map_map]
    have := range_flatMap (fun v => (phrases wl k).map fun ws => (wordsOf wl p ++ v) ++ ws) wl
    refine Eq.trans ?_ (this.trans ?_)
    · apply List.flatMap_congr
      intro i _
      apply List.map_congr_left
      intro ws _
      rw [wordsOf_append]
      cases hi : wl[i]? <;> simp [wordsOf, hi]
    · apply List.flatMap_congr
      intro w _
      apply List.map_congr_left
      intro ws _
      simp

/-! ### The phases of one depth -/

theorem tups_nodup (N k : Nat) (p : List Nat) : (tups N k p).Nodup := by
  induction k generalizing p with
  | zero => simp [tups]
  | succ k ih =>
    rw [tups, List.nodup_flatMap]
    refine ⟨fun i _ => ih _, ?_⟩
    apply List.nodup_range.imp
    intro i j hij x hx hy
    obtain ⟨s, _, _, rfl⟩ := (mem_tups _ _ _ _).1 hx
    obtain ⟨s', _, _, h⟩ := (mem_tups _ _ _ _).1 hy
    rw [List.append_assoc, List.append_assoc, List.append_cancel_left_eq] at h
    simp at h
    exact hij h.1

theorem trAt_le_maxTr (wl : List Word) (p : List Nat) (i : Nat) (h : i ∈ p) : trAt wl i ≤ maxTr wl p := by
  induction p with
  | nil => simp at h
  | cons x p ih =>
    simp only [maxTr, List.foldr_cons] at ih ⊢
    rcases List.mem_cons.1 h with rfl | h
    · omega
    · have := ih h; omega

theorem maxTr_mem (wl : List Word) (p : List Nat) (h : p ≠ []) : ∃ i ∈ p, trAt wl i = maxTr wl p := by
  induction p with
  | nil => exact absurd rfl h
  | cons x p ih =>
    by_cases hp : p = []
    · subst hp; exact ⟨x, by simp, by simp [maxTr]⟩
    · obtain ⟨i, h1, h2⟩ := ih hp
      simp only [maxTr, List.foldr_cons] at h2 ⊢
      rcases Nat.le_total (trAt wl x) (p.foldr (fun i m => max (trAt wl i) m) 0) with h3 | h3
      · exact ⟨i, by simp [h1], by omega⟩
      · exact ⟨x, by simp, by omega⟩

/-- For one depth, the phases of all tranches find every accepted tuple exactly once. -/
theorem phases_perm (fm : Nat) (ms : List PM) (wl : List Word) (hs : TrSorted wl) (tr : List Nat) (hn : tr.Nodup)
    (htr : ∀ w ∈ wl, w.tranche ∈ tr) (d : Nat) (hd : 0 < d) :
    ((tr.filter fun t => trancheCount wl t != 0).flatMap fun t =>
        (tups (trancheCum wl t) d []).filter (goodB fm ms wl t)) ~
      (tups wl.length d []).filter (accB fm ms) := by
  rw [List.perm_ext_iff_of_nodup]
  · intro p
    simp only [List.mem_flatMap, List.mem_filter, mem_tups, List.nil_append, goodB, Bool.and_eq_true, beq_iff_eq,
      exists_eq_right_right', bne_iff_ne]
    constructor
    · rintro ⟨t, _, ⟨h1, h2⟩, h3, _⟩
      exact ⟨⟨h1, fun i hi => Nat.lt_of_lt_of_le (h2 i hi) (cum_le _ _)⟩, h3⟩
    · rintro ⟨⟨h1, h2⟩, h3⟩
      have hne : p ≠ [] := by rintro rfl; simp at h1; omega
      obtain ⟨i, hi, hit⟩ := maxTr_mem wl p hne
      have hil := h2 i hi
      have htw : trAt wl i = wl[i].tranche := by simp [trAt, List.getElem?_eq_getElem hil]
      refine ⟨maxTr wl p, ⟨?_, ?_⟩, ⟨h1, ?_⟩, h3, rfl⟩
      · rw [← hit, htw]; exact htr _ (List.getElem_mem hil)
      · rw [trancheCount, Ne, List.countP_eq_zero]
        intro hc
        have := hc wl[i] (List.getElem_mem hil)
        rw [← hit, htw] at this
        simp at this
      · intro j hj
        exact (cum_iff hs _ _).2 ⟨h2 j hj, trAt_le_maxTr wl p j hj⟩
  · rw [List.nodup_flatMap]
    refine ⟨fun t _ => (tups_nodup _ _ _).filter _, ?_⟩
    apply (hn.filter _).imp
    intro a b hab x hx hy
    simp only [List.mem_filter, goodB, Bool.and_eq_true, beq_iff_eq] at hx hy
    exact hab (hx.2.2.symm.trans hy.2.2)
  · exact (tups_nodup _ _ _).filter _

/-! ### Dedup -/

theorem dedup_sorted (l : List Nat) (h : l.Pairwise (· ≤ ·)) : (dedup l).Pairwise (· < ·) ∧ ∀ x, x ∈ dedup l ↔ x ∈ l := by
  induction l with
  | nil => simp [dedup]
  | cons x l ih =>
    obtain ⟨h1, h2⟩ := ih (List.pairwise_cons.1 h).2
    have hx := (List.pairwise_cons.1 h).1
    rw [dedup]
    cases hd : dedup l with
    | nil =>
      rw [hd] at h2
      refine ⟨by simp, ?_⟩
      intro y
      have := h2 y
      simp at this
      simp [this]
    | cons y ys =>
      rw [hd] at h1 h2
      simp only
      by_cases hxy : x = y
      · rw [if_pos hxy]
        refine ⟨h1, ?_⟩
        intro z
        rw [List.mem_cons (a := z) (b := x), ← h2, hxy]
        simp
      · rw [if_neg hxy]
        have hy := hx y ((h2 y).1 (by simp))
        refine ⟨List.pairwise_cons.2 ⟨?_, h1⟩, ?_⟩
        · intro z hz
          rcases List.mem_cons.1 hz with rfl | hz
          · omega
          · have := (List.pairwise_cons.1 h1).1 z hz; omega
        · intro z
          rw [List.mem_cons, h2, List.mem_cons]

theorem dedup_strict (l : List Nat) (h : l.Pairwise (· < ·)) : dedup l = l := by
  induction l with
  | nil => rfl
  | cons x l ih =>
    rw [dedup, ih (List.pairwise_cons.1 h).2]
    cases l with
    | nil => rfl
    | cons y ys =>
      have := (List.pairwise_cons.1 h).1 y (by simp)
      simp only
      rw [if_neg (by omega)]

theorem sortNat_sorted (l : List Nat) (h : l.Pairwise (· < ·)) : sortNat l = l := by
  induction l with
  | nil => rfl
  | cons x l ih =>
    have := ih (List.pairwise_cons.1 h).2
    rw [sortNat, List.foldr_cons]
    rw [sortNat] at this
    rw [this]
    cases l with
    | nil => rfl
    | cons y ys =>
      have := (List.pairwise_cons.1 h).1 y (by simp)
      rw [sortNat.insSort, if_pos (by omega)]

/-- The tranches of a sorted word list. -/
theorem tranches_spec (wl : List Word) (h : TrSorted wl) :
    (dedup (wl.map Word.tranche)).Nodup ∧ (∀ w ∈ wl, w.tranche ∈ dedup (wl.map Word.tranche)) ∧
    dedup (sortNat (dedup (wl.map Word.tranche))) = dedup (wl.map Word.tranche) := by
  obtain ⟨h1, h2⟩ := dedup_sorted (wl.map Word.tranche) (List.pairwise_map.2 h)
  refine ⟨h1.imp fun {a b} hab => by omega, ?_, by rw [sortNat_sorted _ h1, dedup_strict _ h1]⟩
  intro w hw
  rw [h2]; exact List.mem_map_of_mem hw

/-! ### The whole queue -/

theorem insertPhase_perm (p : SearchPhase) (q : List SearchPhase) : insertPhase p q ~ p :: q := by
  induction q with
  | nil => exact List.Perm.refl _
  | cons x xs ih =>
    rw [insertPhase]
    split
    · exact List.Perm.refl _
    · exact (List.Perm.cons x ih).trans (List.Perm.swap _ _ _)

theorem sortPhases_perm (q : List SearchPhase) : sortPhases q ~ q := by
  induction q with
  | nil => exact List.Perm.refl _
  | cons x xs ih =>
    rw [sortPhases, List.foldr_cons]
    exact (insertPhase_perm x _).trans (List.Perm.cons x ih)

theorem filter_flatMap' {α β : Type} (l : List α) (f : α → List β) (p : β → Bool) :
    (l.flatMap f).filter p = l.flatMap fun a => (f a).filter p := by
  induction l with
  | nil => rfl
  | cons a l ih => rw [List.flatMap_cons, List.filter_append, ih, List.flatMap_cons]

/-- The results of the planned queue: the accepted tuples of the kept lengths. -/
theorem queue_perm (fm : Nat) (ms : List PM) (wl : List Word) (hs : TrSorted wl) (tr : List Nat) (hn : tr.Nodup)
    (htr : ∀ w ∈ wl, w.tranche ∈ tr) (depth : Nat) (G : Nat → Bool) (q3 : List SearchPhase)
    (hq : q3 ~ ((((initialQueue depth tr).filter fun p => G p.depth).map fun p =>
      { p with totalSize := totalSize wl p }).filter fun p => trancheCount wl p.tranche != 0)) :
    queueRes fm ms wl q3 ~
      (List.range' 2 (depth - 1)).flatMap fun d =>
        if G d then (tups wl.length d []).filter (accB fm ms) else [] := by
  have h1 : queueRes fm ms wl q3 ~ queueRes fm ms wl (((((initialQueue depth tr).filter fun p => G p.depth).map fun p =>
      { p with totalSize := totalSize wl p }).filter fun p => trancheCount wl p.tranche != 0)) := hq.flatMap_right _
  refine h1.trans ?_
  have h2 : queueRes fm ms wl (((((initialQueue depth tr).filter fun p => G p.depth).map fun p =>
      { p with totalSize := totalSize wl p }).filter fun p => trancheCount wl p.tranche != 0)) =
    (List.range' 2 (depth - 1)).flatMap fun d => if G d then
      ((tr.filter fun t => trancheCount wl t != 0).flatMap fun t =>
        (tups (trancheCum wl t) d []).filter (goodB fm ms wl t)) else [] := by
    unfold queueRes initialQueue
    rw [List.filter_map, List.flatMap_map, List.filter_filter, filter_flatMap', List.flatMap_assoc]
    apply List.flatMap_congr
    intro d _
    rw [List.filter_map, List.flatMap_map]
    by_cases hG : G d = true
    · rw [if_pos hG]
      rw [show (tr.filter fun t => trancheCount wl t != 0) = tr.filter _ from List.filter_congr ?_]
      · rfl
      · intro t _; simp [hG]
    · rw [if_neg hG, List.filter_eq_nil_iff.2]
      · rfl
      · intro t _; simp [hG]
  rw [h2]
  apply List.Perm.flatMap_left
  intro d hd
  have hd2 : 0 < d := by have := (List.mem_range'_1.1 hd).1; omega
  split
  · exact phases_perm fm ms wl hs tr hn htr d hd2
  · exact List.Perm.refl _

end Noodle
