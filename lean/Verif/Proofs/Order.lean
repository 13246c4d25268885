import Verif.Proofs.Tuples
import Verif.Spec.Order
import Mathlib.Data.List.NodupEquivFin
/-
The order of the search queue and of its results.
-/
namespace Noodle
open Spec List
set_option autoImplicit false

/-! ### Tuples in lexicographic order -/

theorem tups_lex (N k : Nat) (p : List Nat) : (tups N k p).Pairwise (· < ·) := by
  induction k generalizing p with
  | zero => simp [tups]
  | succ k ih =>
    rw [tups, List.pairwise_flatMap]
    refine ⟨fun i _ => ih _, ?_⟩
    apply (List.pairwise_lt_range (n := N)).imp
    intro i j hij x hx y hy
    obtain ⟨s, _, _, rfl⟩ := (mem_tups _ _ _ _).1 hx
    obtain ⟨t, _, _, rfl⟩ := (mem_tups _ _ _ _).1 hy
    rw [List.append_assoc, List.append_assoc]
    apply List.append_left_lt
    exact List.Lex.rel hij

/-! ### The queue -/

theorem insertPhase_stable {R : SearchPhase → SearchPhase → Prop} (p : SearchPhase) (q : List SearchPhase)
    (hp : ∀ x ∈ q, R p x)
    (hq : q.Pairwise fun a b => a.totalSize < b.totalSize ∨ (a.totalSize = b.totalSize ∧ R a b)) :
    (insertPhase p q).Pairwise fun a b => a.totalSize < b.totalSize ∨ (a.totalSize = b.totalSize ∧ R a b) := by
  induction q with
  | nil => simp [insertPhase]
  | cons x q ih =>
    rw [insertPhase]
    obtain ⟨h1, h2⟩ := List.pairwise_cons.1 hq
    split
    · next hle =>
      refine List.pairwise_cons.2 ⟨?_, hq⟩
      intro y hy
      have hR := hp y hy
      rcases List.mem_cons.1 hy with rfl | hy
      · rcases Nat.lt_or_eq_of_le hle with h | h
        · exact Or.inl h
        · exact Or.inr ⟨h, hR⟩
      · have := h1 y hy
        rcases Nat.lt_or_eq_of_le (show p.totalSize ≤ y.totalSize by omega) with h | h
        · exact Or.inl h
        · exact Or.inr ⟨h, hR⟩
    · next hle =>
      refine List.pairwise_cons.2 ⟨?_, ih (fun y hy => hp y (by simp [hy])) h2⟩
      intro y hy
      rcases List.mem_cons.1 ((insertPhase_perm p q).subset hy) with rfl | hy
      · exact Or.inl (by omega)
      · exact h1 y hy

theorem sortPhases_stable {R : SearchPhase → SearchPhase → Prop} (q : List SearchPhase) (h : q.Pairwise R) :
    (sortPhases q).Pairwise fun a b => a.totalSize < b.totalSize ∨ (a.totalSize = b.totalSize ∧ R a b) := by
  induction q with
  | nil => simp [sortPhases]
  | cons x q ih =>
    obtain ⟨h1, h2⟩ := List.pairwise_cons.1 h
    rw [sortPhases, List.foldr_cons]
    exact insertPhase_stable x _ (fun y hy => h1 y ((sortPhases_perm q).subset hy)) (ih h2)

/-- The order in which the phases are made. -/
def Made (a b : SearchPhase) : Prop := a.depth < b.depth ∨ (a.depth = b.depth ∧ a.tranche < b.tranche)

theorem initialQueue_made (depth : Nat) (tr : List Nat) (h : tr.Pairwise (· < ·)) :
    (initialQueue depth tr).Pairwise Made := by
  unfold initialQueue
  rw [List.pairwise_flatMap]
  refine ⟨fun d _ => ?_, ?_⟩
  · rw [List.pairwise_map]
    exact h.imp fun {a b} hab => Or.inr ⟨rfl, hab⟩
  · apply (List.pairwise_lt_range' (s := 2) (n := depth - 1) (step := 1) (by omega)).imp
    intro d d' hd x hx y hy
    obtain ⟨_, _, rfl⟩ := List.mem_map.1 hx
    obtain ⟨_, _, rfl⟩ := List.mem_map.1 hy
    exact Or.inl hd

theorem totalSize_mono (A : List Word) (a b : SearchPhase) (hd : b.depth ≤ a.depth) (hlt : a.depth < 2 ^ 32)
    (ht : b.tranche ≤ a.tranche) (ha : trancheCount A a.tranche ≠ 0) (hb : trancheCount A b.tranche ≠ 0) :
    totalSize A b ≤ totalSize A a := by
  unfold totalSize
  rw [if_neg ha, if_neg hb, Nat.mod_eq_of_lt hlt, Nat.mod_eq_of_lt (by omega)]
  have h1 : trancheCum A b.tranche ≤ trancheCum A a.tranche := by
    unfold trancheCum
    apply List.countP_mono_left
    intro x _ hx
    simp at hx ⊢; omega
  have h2 : 0 < trancheCum A a.tranche := by
    apply Nat.lt_of_lt_of_le (Nat.pos_of_ne_zero ha)
    unfold trancheCount trancheCum
    apply List.countP_mono_left
    intro x _ hx
    simp at hx ⊢; omega
  have h3 : trancheCum A b.tranche ^ b.depth ≤ trancheCum A a.tranche ^ a.depth :=
    (Nat.pow_le_pow_left h1 _).trans (Nat.pow_le_pow_right h2 hd)
  omega

/-- The planned queue never has a phase after one that is longer and rarer. -/
theorem queue_order (A : List Word) (depth : Nat) (tr : List Nat) (htr : tr.Pairwise (· < ·)) (G : Nat → Bool)
    (hdep : depth < 2 ^ 32) :
    (sortPhases ((((initialQueue depth tr).filter fun p => G p.depth).map fun p =>
      { p with totalSize := totalSize A p }).filter fun p => p.totalSize != 0)).Pairwise
      fun a b => ¬ (b.depth ≤ a.depth ∧ b.tranche ≤ a.tranche) := by
  generalize hq : ((((initialQueue depth tr).filter fun p => G p.depth).map fun p =>
      { p with totalSize := totalSize A p }).filter fun p => p.totalSize != 0) = q
  have h0 : q.Pairwise Made := by
    rw [← hq]
    refine List.Pairwise.filter _ ?_
    rw [List.pairwise_map]
    exact ((initialQueue_made depth tr htr).filter _).imp fun {a b} h => h
  have hmem : ∀ x ∈ sortPhases q, ∃ y : SearchPhase, x.depth = y.depth ∧ x.tranche = y.tranche ∧
      x.totalSize = totalSize A y ∧ trancheCount A y.tranche ≠ 0 ∧ y.depth < 2 ^ 32 := by
    intro x hx
    have := (sortPhases_perm q).subset hx
    rw [← hq, List.mem_filter] at this
    obtain ⟨y, hy, rfl⟩ := List.mem_map.1 this.1
    refine ⟨y, rfl, rfl, rfl, ?_, ?_⟩
    · intro hc
      have h2 := this.2
      simp only [bne_iff_ne] at h2
      exact h2 (by unfold totalSize; rw [if_pos hc])
    · obtain ⟨d, hd, hp⟩ := List.mem_flatMap.1 (List.mem_filter.1 hy).1
      obtain ⟨t', _, rfl⟩ := List.mem_map.1 hp
      have := List.mem_range'_1.1 hd
      show d < 2 ^ 32
      omega
  refine List.Pairwise.imp_of_mem ?_ (sortPhases_stable q h0)
  rintro a b ha hb hab ⟨hd, ht⟩
  obtain ⟨x, x1, x2, x3, x4, x5⟩ := hmem a ha
  obtain ⟨y, y1, y2, y3, y4, y5⟩ := hmem b hb
  have := totalSize_mono A x y (by omega) x5 (by omega) x4 y4
  rcases hab with h | ⟨_, h | ⟨_, h⟩⟩ <;> omega

/-! ### The results -/

theorem rarity_eq (wl : List Word) (p : List Nat) (h : ∀ i ∈ p, i < wl.length) : rarity wl p = maxTr wl p := by
  unfold rarity maxTr phraseAt
  induction p with
  | nil => rfl
  | cons i p ih =>
    have hi := h i (by simp)
    rw [List.filterMap_cons, List.getElem?_eq_getElem hi]
    simp only [List.map_cons, List.foldr_cons, trAt, List.getElem?_eq_getElem hi, Option.map_some, Option.getD_some]
    rw [ih fun j hj => h j (by simp [hj])]
    rfl

theorem not_due_of {wl : List Word} {p q : List Nat} (hp : 2 ≤ p.length) (hq : 2 ≤ q.length)
    (h : ¬ (q.length ≤ p.length ∧ rarity wl q ≤ rarity wl p) ∨
      (q.length = p.length ∧ rarity wl q = rarity wl p ∧ p < q)) : ¬ Due wl q p := by
  rintro (⟨h1, _⟩ | ⟨h1, h2, h3⟩)
  · omega
  · rcases h with h | ⟨h4, h5, h6⟩
    · exact h ⟨h1, h2⟩
    · rcases h3 with h3 | h3 | h3
      · omega
      · omega
      · exact absurd (List.lt_trans h3 h6) (List.lt_irrefl _)

theorem queueRes_order (fm : Nat) (ms : List PM) (wl : List Word) (q : List SearchPhase) (h2 : ∀ p ∈ q, 2 ≤ p.depth)
    (hq : q.Pairwise fun a b => ¬ (b.depth ≤ a.depth ∧ b.tranche ≤ a.tranche)) :
    (queueRes fm ms wl q).Pairwise fun p p' => ¬ Due wl p' p := by
  have key : ∀ a ∈ q, ∀ x ∈ phaseRes fm ms wl a, x.length = a.depth ∧ rarity wl x = a.tranche := by
    intro a _ x hx
    obtain ⟨h3, h4⟩ := List.mem_filter.1 hx
    obtain ⟨s, h5, h6, rfl⟩ := (mem_tups _ _ _ _).1 h3
    simp only [goodB, Bool.and_eq_true, beq_iff_eq] at h4
    refine ⟨by simpa using h5, ?_⟩
    rw [rarity_eq]
    · exact h4.2
    · intro i hi
      exact Nat.lt_of_lt_of_le (h6 i hi) (cum_le _ _)
  unfold queueRes
  rw [List.pairwise_flatMap]
  refine ⟨?_, ?_⟩
  · intro a ha
    refine List.Pairwise.imp_of_mem ?_ ((tups_lex (trancheCum wl a.tranche) a.depth []).filter _)
    intro x y hx hy hxy
    obtain ⟨k1, k2⟩ := key a ha x hx
    obtain ⟨k3, k4⟩ := key a ha y hy
    have := h2 a ha
    exact not_due_of (by omega) (by omega) (Or.inr ⟨by omega, by omega, hxy⟩)
  · refine List.Pairwise.imp_of_mem ?_ hq
    intro a b ha hb hab x hx y hy
    obtain ⟨k1, k2⟩ := key a ha x hx
    obtain ⟨k3, k4⟩ := key b hb y hy
    have := h2 a ha
    have := h2 b hb
    exact not_due_of (by omega) (by omega) (Or.inl (by rw [k1, k2, k3, k4]; exact hab))

/-! ### Positions in the whole word list -/

theorem map_lt_map {f : Nat → Nat} (hf : ∀ a b, f a < f b ↔ a < b) (p q : List Nat) :
    p.map f < q.map f ↔ p < q := by
  have hinj : ∀ a b, f a = f b ↔ a = b := by
    intro a b
    have h1 := hf a b
    have h2 := hf b a
    constructor
    · intro h
      by_cases hab : a < b
      · have := h1.2 hab; omega
      · by_cases hba : b < a
        · have := h2.2 hba; omega
        · omega
    · rintro rfl; rfl
  induction p generalizing q with
  | nil => cases q <;> simp
  | cons a p ih =>
    cases q with
    | nil => simp
    | cons b q => simp only [List.map_cons, List.cons_lt_cons_iff, ih, hf, hinj]

theorem phraseAt_map {A wl : List Word} {f : Nat → Nat} (hf : ∀ i : Nat, A[i]? = wl[f i]?) (p : List Nat) :
    phraseAt wl (p.map f) = phraseAt A p := by
  unfold phraseAt
  rw [List.filterMap_map]
  apply List.filterMap_congr
  intro i _
  exact (hf i).symm

theorem due_map {A wl : List Word} {f : Nat → Nat} (hf : ∀ i : Nat, A[i]? = wl[f i]?)
    (hlt : ∀ a b, f a < f b ↔ a < b) (p q : List Nat) : Due wl (p.map f) (q.map f) ↔ Due A p q := by
  unfold Due rarity
  rw [phraseAt_map hf, phraseAt_map hf, map_lt_map hlt]
  simp

/-- Phrases given by positions in a sublist, as positions in the whole list. -/
theorem lift_positions {A wl : List Word} (h : A <+ wl) (ps : List (List Nat)) (hps : ∀ p ∈ ps, ∀ i ∈ p, i < A.length)
    {b : Prop} (ho : b → ps.Pairwise fun p p' => ¬ Due A p' p) (hnd : ps.Nodup) :
    ∃ ps' : List (List Nat), ps.map (phraseAt A) = ps'.map (phraseAt wl) ∧ (∀ p ∈ ps', ∀ i ∈ p, i < wl.length) ∧
      (∀ p' ∈ ps', ∃ p ∈ ps, p'.length = p.length) ∧ ps'.Nodup ∧ (b → ps'.Pairwise fun p p' => ¬ Due wl p' p) := by
  obtain ⟨f, hf⟩ := List.sublist_iff_exists_orderEmbedding_getElem?_eq.1 h
  have hlt : ∀ a b, f a < f b ↔ a < b := fun a b => f.lt_iff_lt
  refine ⟨ps.map (List.map f), ?_, ?_, ?_, ?_, ?_⟩
  · rw [List.map_map]
    apply List.map_congr_left
    intro p _
    exact (phraseAt_map hf p).symm
  · intro p hp i hi
    obtain ⟨p0, hp0, rfl⟩ := List.mem_map.1 hp
    obtain ⟨j, hj, rfl⟩ := List.mem_map.1 hi
    have h1 := hps p0 hp0 j hj
    have h2 := hf j
    rw [List.getElem?_eq_getElem h1] at h2
    exact (List.getElem?_eq_some_iff.1 h2.symm).1
  · intro p' hp
    obtain ⟨p0, hp0, rfl⟩ := List.mem_map.1 hp
    exact ⟨p0, hp0, by simp⟩
  · exact hnd.map (List.map_injective_iff.2 f.injective)
  · intro hb
    rw [List.pairwise_map]
    exact (ho hb).imp fun {a b} hab => fun hd => hab ((due_map hf hlt b a).1 hd)

end Noodle
