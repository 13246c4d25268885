import Verif.Proofs.Shape
import Verif.Proofs.RawLang
/-
The unoptimised automaton of an expression of the fragment has the shape that the optimisation handles.
-/
namespace Noodle
set_option autoImplicit false
open Spec G

/-! ### The fragment is part of the larger one -/

theorem plainAll_iff {l : List Ast} : plainAll l = true ↔ ∀ t ∈ l, plain t = true := by
  induction l with
  | nil => simp [plainAll]
  | cons a l ih => rw [plainAll, Bool.and_eq_true, ih]; simp

theorem tameAll_iff {l : List Ast} : tameAll l = true ↔ ∀ t ∈ l, tame t = true := by
  induction l with
  | nil => simp [tameAll]
  | cons a l ih => rw [tameAll, Bool.and_eq_true, ih]; simp

theorem rigidAll_iff {l : List Ast} : rigidAll l = true ↔ ∀ t ∈ l, rigid t = true := by
  induction l with
  | nil => simp [rigidAll]
  | cons a l ih => rw [rigidAll, Bool.and_eq_true, ih]; simp

mutual
theorem tame_plain : (a : Ast) → tame a = true → plain a = true
  | .cls _, _ => by rw [plain]
  | .alts l, h => by
    rw [tame, Bool.and_eq_true] at h
    rw [plain]; exact tameAlts_plain l h.2
  | .seq l, h => by
    rw [tame] at h
    rw [plain]; exact tameAll_plain l h
  | .substr l, h => by rw [tame] at h; rw [plain]; exact h
  | .rep t lo hi, h => by
    rw [tame] at h
    rw [plain]
    by_cases h0 : lo = 0 ∧ hi = some 0
    · rw [if_pos h0]
    · rw [if_neg h0] at h ⊢
      rw [Bool.and_eq_true, decide_eq_true_eq]
      by_cases h1 : lo = 1 ∧ hi = some 1
      · rw [if_pos h1] at h
        obtain ⟨rfl, rfl⟩ := h1
        exact ⟨Nat.le_refl _, tame_plain t h⟩
      · rw [if_neg h1] at h
        by_cases hn : hi = none
        · rw [if_pos hn] at h
          refine ⟨by rw [hn]; exact Nat.le_refl _, ?_⟩
          by_cases hlo : lo = 0
          · rw [if_pos hlo, Bool.or_eq_true, Bool.and_eq_true, Bool.and_eq_true] at h
            rcases h with h | h
            · exact tame_plain t h.1.1
            · cases t with
              | cls c => rw [plain]
              | _ => cases h
          · rw [if_neg hlo, Bool.and_eq_true, Bool.and_eq_true] at h
            exact tame_plain t h.1.1
        · rw [if_neg hn, Bool.and_eq_true, Bool.and_eq_true, decide_eq_true_eq] at h
          exact ⟨h.1.1, tame_plain t h.1.2⟩
  | .anagram _ _, h => by simp [tame] at h
theorem tameAll_plain : (l : List Ast) → tameAll l = true → plainAll l = true
  | [], _ => rfl
  | a :: l, h => by
    rw [tameAll, Bool.and_eq_true] at h
    rw [plainAll, tame_plain a h.1, tameAll_plain l h.2]; rfl
theorem tameEnd_plainEnd : (a : Ast) → tameEnd a = true → plainEnd a = true
  | .cls _, h => h
  | .alts _, h => by simp [tameEnd] at h
  | .seq l, h => by
    rw [tameEnd] at h
    rw [plainEnd]; exact tameEndSeq_plain l h
  | .substr _, h => by simp [tameEnd] at h
  | .rep t lo hi, h => by
    rw [tameEnd] at h
    rw [plainEnd]
    by_cases h1 : lo = 1 ∧ hi = some 1
    · rw [if_pos h1] at h
      rw [if_neg (by rw [h1.1]; simp), if_pos h1]
      exact tameEnd_plainEnd t h
    · rw [if_neg h1] at h
      by_cases hn : hi = none
      · rw [if_pos hn] at h
        subst hn
        rw [if_neg (by simp), if_neg (by simp), Bool.and_eq_true, decide_eq_true_eq]
        refine ⟨Nat.le_refl _, ?_⟩
        by_cases hlo : lo = 0
        · rw [if_pos hlo, Bool.or_eq_true, Bool.and_eq_true, Bool.and_eq_true] at h
          rcases h with h | h
          · exact tame_plain t h.1.1
          · cases t with
            | cls c => rw [plain]
            | _ => cases h
        · rw [if_neg hlo, Bool.and_eq_true, Bool.and_eq_true] at h
          exact tame_plain t h.1.1
      · rw [if_neg hn] at h; cases h
  | .anagram _ _, h => by simp [tameEnd] at h
theorem tameEndSeq_plain : (l : List Ast) → tameEndSeq l = true → plainEndSeq l = true
  | [], h => by simp [tameEndSeq] at h
  | [a], h => by
    rw [tameEndSeq] at h
    rw [plainEndSeq]; exact tameEnd_plainEnd a h
  | a :: b :: l, h => by
    rw [tameEndSeq, Bool.and_eq_true] at h
    rw [plainEndSeq, tame_plain a h.1, tameEndSeq_plain (b :: l) h.2]; rfl
theorem tameAlts_plain : (l : List Ast) → tameAlts l = true → plainAlts l = true
  | [], _ => rfl
  | [a], h => by
    rw [tameAlts, Bool.and_eq_true] at h
    rw [plainAlts, tame_plain a h.1, h.2]; rfl
  | a :: b :: l, h => by
    rw [tameAlts, Bool.and_eq_true] at h
    rw [plainAlts, tameEnd_plainEnd a h.1, tameAlts_plain (b :: l) h.2]; rfl
end

mutual
theorem tameEnd_in : (a : Ast) → tameEnd a = true → tame a = true
  | .cls _, h => h
  | .alts _, h => by simp [tameEnd] at h
  | .seq l, h => by
    rw [tameEnd] at h
    rw [tame]; exact tameEndSeq_in l h
  | .substr _, h => by simp [tameEnd] at h
  | .rep t lo hi, h => by
    rw [tameEnd] at h
    rw [tame]
    by_cases h1 : lo = 1 ∧ hi = some 1
    · rw [if_pos h1] at h
      rw [if_neg (by rw [h1.1]; simp), if_pos h1]
      exact tameEnd_in t h
    · rw [if_neg h1] at h
      by_cases hn : hi = none
      · rw [if_pos hn] at h
        rw [if_neg (by rw [hn]; simp), if_neg h1, if_pos hn]
        exact h
      · rw [if_neg hn] at h; cases h
  | .anagram _ _, h => by simp [tameEnd] at h
theorem tameEndSeq_in : (l : List Ast) → tameEndSeq l = true → tameAll l = true
  | [], h => by simp [tameEndSeq] at h
  | [a], h => by
    rw [tameEndSeq] at h
    rw [tameAll, tameEnd_in a h]; rfl
  | a :: b :: l, h => by
    rw [tameEndSeq, Bool.and_eq_true] at h
    rw [tameAll, h.1, tameEndSeq_in (b :: l) h.2]; rfl
end

/-- A sequence of expressions of the fragment. -/
theorem tame_seq {l : List Ast} (h : ∀ t ∈ l, tame t = true) : tame (.seq l) = true := by
  rw [tame, tameAll_iff]
  exact h

/-! ### States in an automaton -/

/-- The state `x` is as given, as far as it matters. -/
structure LaysAt (h : G) (x : Nat) (st : State) : Prop where
  z : h.Z x ↔ st.cls = CharSet.empty
  e : ∀ y, h.E x y ↔ st.eps.testBit y = true
  nx : h.Does x → h.nx x = st.next

/-- The states from `o` on are as given. -/
def Lays (h : G) (o : Nat) (b : List State) : Prop := ∀ (i : Nat) (st : State), b[i]? = some st → LaysAt h (o + i) st

section
variable {h : G} {o : Nat} {b1 b2 b : List State} {st : State}

theorem Lays.left (f : Lays h o (b1 ++ b2)) : Lays h o b1 := fun i s hi => f i s (by
  rw [List.getElem?_append_left (List.getElem?_eq_some_iff.1 hi).1]; exact hi)

theorem Lays.right (f : Lays h o (b1 ++ b2)) : Lays h (o + b1.length) b2 := fun i s hi => by
  have := f (b1.length + i) s (by rw [List.getElem?_append_right (by omega)]; rw [← hi]; congr 1; omega)
  rwa [← Nat.add_assoc] at this

theorem Lays.head (f : Lays h o (st :: b)) : LaysAt h o st := f 0 st rfl

theorem Lays.tail (f : Lays h o (st :: b)) : Lays h (o + 1) b := (f.right (b1 := [st]) (b2 := b) :)

/-- The last state of a term, whose target is the end of the term. -/
theorem Lays.repoint {a : Ast} {p : Nat} (f : Lays h p (repoint p (p + states a) (blk a p))) (ht : tame a = true)
    (hs : 0 < states a) : Lays h p (blk a p) := by
  have hp := tame_plain a ht
  obtain ⟨b', st, hb, hl⟩ := (blk_last a hp hs p).form
  have hlen := blk_length a hp p
  rw [hb, List.length_append, List.length_singleton] at hlen
  have hr : Noodle.repoint p (p + states a) (blk a p) = b' ++ [{ st with next := p + states a }] := by
    rw [hb, repoint_concat, ← retarget_self]
    congr 3; omega
  rw [hr] at f
  rw [hb]
  intro i s hi
  by_cases hib : i < b'.length
  · rw [List.getElem?_append_left hib] at hi
    exact f.left i s hi
  · rw [List.getElem?_append_right (by omega)] at hi
    have hi0 : i - b'.length = 0 := by
      obtain ⟨hlt, _⟩ := List.getElem?_eq_some_iff.1 hi
      simp at hlt; omega
    rw [hi0] at hi
    obtain rfl : st = s := by simpa using hi
    have k := f.right.head
    rw [show p + i = p + b'.length by omega]
    refine ⟨k.z, k.e, fun hd => ?_⟩
    rw [k.nx hd]
    rcases hl with hl | ⟨h1, h2⟩
    · exact hl.symm
    · exfalso
      rcases hd with g | g
      · exact g (k.z.2 h1)
      · have hne := h2 ht
        obtain ⟨y, hy⟩ := Nat.exists_testBit_of_ne_zero hne
        exact g y ((k.e y).2 hy)

theorem LaysAt.quiet {x : Nat} (f : LaysAt h x st) (he : st.eps = 0) : h.Quiet x := by
  intro y e
  rw [f.e, he] at e
  simp at e

end

/-- The level of merging an expression needs. -/
structure Levels (r : Nat) (a : Ast) : Prop where
  le : r ≤ 2
  rigid : r = 0 → rigid a = true
  calm : r = 1 → calm a = true

theorem Levels.wild (a : Ast) : Levels 2 a := ⟨Nat.le_refl _, by simp, by simp⟩

/-- What is proved about the blocks of an expression. -/
structure Tamed (a : Ast) : Prop where
  shape : ∀ (r : Nat), Levels r a → ∀ (h : G) (o : Nat), Lays h o (blk a o) → Shape h r o (o + states a) (o + states a)
  null : ∀ (h : G) (o : Nat), Lays h o (blk a o) → (nullable a = true ↔ h.Rt o (o + states a))

/-! ### Sequences -/

theorem calmAll_iff {l : List Ast} : calmAll l = true ↔ ∀ t ∈ l, calm t = true := by
  induction l with
  | nil => simp [calmAll]
  | cons a l ih => rw [calmAll, Bool.and_eq_true, ih]; simp

theorem Levels.seq {r : Nat} {l : List Ast} (f : Levels r (.seq l)) : ∀ t ∈ l, Levels r t := fun t ht =>
  ⟨f.le, fun h => by have := f.rigid h; rw [Spec.rigid] at this; exact rigidAll_iff.1 this t ht,
    fun h => by have := f.calm h; rw [Spec.calm] at this; exact calmAll_iff.1 this t ht⟩

theorem tamed_seq {l : List Ast} (ht : ∀ t ∈ l, Tamed t) (hp : plainAll l = true) {r : Nat} (hr : ∀ t ∈ l, Levels r t) (h : G) (o : Nat)
    (f : Lays h o (blkSeq l o)) : Shape h r o (o + statesAll l) (o + statesAll l) ∧
    (nullAll l = true ↔ h.Rt o (o + statesAll l)) := by
  induction l generalizing o with
  | nil => exact ⟨.weak .empty (Nat.zero_le _), by rw [nullAll, statesAll]; simp; exact .refl⟩
  | cons a l ih =>
    rw [plainAll, Bool.and_eq_true] at hp
    rw [blkSeq] at f
    have f2 := f.right
    rw [blk_length a hp.1] at f2
    have t1 := ht a (by simp)
    have s1 := t1.shape r (hr a (by simp)) h o f.left
    have n1 := t1.null h o f.left
    obtain ⟨s2, n2⟩ := ih (fun t ht' => ht t (by simp [ht'])) hp.2 (fun t ht' => hr t (by simp [ht'])) (o + states a) f2
    rw [statesAll, ← Nat.add_assoc]
    refine ⟨.app s1 s2, ?_⟩
    rw [nullAll, Bool.and_eq_true, n1, n2]
    constructor
    · rintro ⟨r1, r2⟩; exact r1.trans r2
    · intro r
      rcases s1.blk.exit r (Nat.le_refl _) (by omega) with k | k
      · omega
      · exact k

/-! ### Repetitions -/

/-- The states of a repetition. -/
structure LaysRep (h : G) (t : Ast) (lo : Nat) (hi : Option Nat) (o r e T : Nat) : Prop where
  z : h.Z o
  ed : ∀ y, h.E o y ↔ (∃ j, j < r ∧ j ≤ hi.getD lo - lo ∧ y = o + 1 + j * states t) ∨ (lo = 0 ∧ y = e)
  copy : Lays h (o + 1) (copies (fun p => blk t p) (states t) r (o + 1))
  z2 : h.Z e
  ed2 : ∀ y, h.E e y ↔ y = T ∨ (hi = none ∧ y = o + 1 + (r - 1) * states t)

/-- The states of a repetition, with any last state. -/
theorem lays_rep_last {h : G} {t : Ast} {lo : Nat} {hi : Option Nat} {o T : Nat} {st : State} (hp : plain t = true)
    (f : Lays h o (⟨maskOf (heads (hi.getD lo - lo) (states t) (nCopies lo hi) 0 (o + 1) ++
      if lo = 0 then [o + 1 + nCopies lo hi * states t] else []), CharSet.empty, 0⟩ ::
        (copies (fun p => blk t p) (states t) (nCopies lo hi) (o + 1) ++ [st]))) (hc : st.cls = CharSet.empty)
    (hst : ∀ y, st.eps.testBit y = true ↔ y = T ∨ (hi = none ∧ y = o + 1 + (nCopies lo hi - 1) * states t)) :
    LaysRep h t lo hi o (nCopies lo hi) (o + 1 + nCopies lo hi * states t) T := by
  have f0 := f.head
  have f1 := f.tail.left
  have f2 := f.tail.right.head
  rw [copies_length (blk_length t hp)] at f2
  refine ⟨f0.z.2 rfl, fun y => ?_, f1, f2.z.2 hc, fun y => by rw [f2.e y, hst]⟩
  rw [f0.e y, testBit_maskOf, List.mem_append, mem_heads]
  constructor
  · rintro (⟨j, h1, h2, h3⟩ | k)
    · exact .inl ⟨j, h1, by omega, h3⟩
    · split at k
      · exact .inr ⟨by assumption, List.mem_singleton.1 k⟩
      · cases k
  · rintro (⟨j, h1, h2, h3⟩ | ⟨h1, h2⟩)
    · exact .inl ⟨j, h1, by omega, h3⟩
    · right; rw [if_pos h1]; simp [h2]

theorem rep_last_bits {hi : Option Nat} {a b y : Nat} : (maskOf (a :: if hi = none then [b] else [])).testBit y = true ↔
    y = a ∨ (hi = none ∧ y = b) := by
  rw [testBit_maskOf, List.mem_cons]
  by_cases hn : hi = none
  · simp [hn]
  · simp [hn]

theorem lays_rep {h : G} {t : Ast} {lo : Nat} {hi : Option Nat} {o : Nat} (hp : plain t = true)
    (f : Lays h o (repBlk (fun p => blk t p) (states t) lo hi o)) :
    LaysRep h t lo hi o (nCopies lo hi) (o + 1 + nCopies lo hi * states t) (o + 1 + nCopies lo hi * states t + 1) :=
  lays_rep_last hp f rfl fun _ => rep_last_bits

theorem lays_rep_to {h : G} {t : Ast} {lo : Nat} {hi : Option Nat} {o T : Nat} (hp : plain t = true)
    (hT : o + 1 + nCopies lo hi * states t < T) (f : Lays h o (repoint o T (repBlk (fun p => blk t p) (states t) lo hi o))) :
    LaysRep h t lo hi o (nCopies lo hi) (o + 1 + nCopies lo hi * states t) T := by
  unfold repBlk at f
  simp only [] at f
  rw [← List.cons_append, repoint_concat, List.cons_append] at f
  rw [List.length_cons, copies_length (blk_length t hp), show o + (nCopies lo hi * states t + 1) + 1 =
    o + 1 + nCopies lo hi * states t + 1 by omega] at f
  have hle : (nCopies lo hi - 1) * states t ≤ nCopies lo hi * states t := Nat.mul_le_mul_right _ (by omega)
  refine lays_rep_last hp f (retarget_cls _ _ _) fun y => ?_
  unfold retarget
  rw [if_pos (rep_last_bits.2 (.inl rfl))]
  simp only []
  rw [Nat.testBit_or, testBit_maskRemove, testBit_one_shift, Bool.or_eq_true, Bool.and_eq_true, rep_last_bits, decide_eq_true_eq,
    Bool.not_eq_true', decide_eq_false_iff_not]
  constructor
  · rintro (⟨h1 | h1, h2⟩ | h1)
    · exact absurd h1.symm h2
    · exact .inr h1
    · exact .inl h1.symm
  · rintro (h1 | h1)
    · exact .inr h1.symm
    · exact .inl ⟨.inr h1, by omega⟩

theorem lays_copy {h : G} {t : Ast} (hp : plain t = true) {p r : Nat}
    (f : Lays h p (copies (fun p => blk t p) (states t) r p)) {j : Nat} (hj : j < r) :
    Lays h (p + j * states t) (blk t (p + j * states t)) := by
  induction r generalizing p j with
  | zero => omega
  | succ r ih =>
    rw [copies] at f
    cases j with
    | zero => rw [Nat.zero_mul, Nat.add_zero]; exact f.left
    | succ j =>
      have f2 := f.right
      rw [blk_length t hp] at f2
      have := ih f2 (j := j) (by omega)
      rwa [show p + states t + j * states t = p + (j + 1) * states t by rw [Nat.succ_mul]; omega] at this

/-- Through empty copies. -/
theorem copies_rt {h : G} {p k : Nat} (r : Nat) (hc : ∀ j, j < r → h.Rt (p + j * k) (p + j * k + k)) : h.Rt p (p + r * k) := by
  induction r with
  | zero => rw [Nat.zero_mul, Nat.add_zero]
  | succ r ih =>
    rw [Nat.succ_mul, ← Nat.add_assoc]
    exact (ih fun j hj => hc j (by omega)).trans (hc r (by omega))

/-- Copies one after the other. -/
theorem copies_shape {h : G} {r' p k : Nat} (hk : 0 < k) (r : Nat)
    (hc : ∀ j, j < r → Shape h r' (p + j * k) (p + j * k + k) (p + j * k + k)) :
    Shape h r' p (p + r * k) (p + r * k) := by
  induction r with
  | zero => rw [Nat.zero_mul, Nat.add_zero]; exact .weak .empty (Nat.zero_le _)
  | succ r ih =>
    rw [Nat.succ_mul, ← Nat.add_assoc]
    exact .app (ih fun j hj => hc j (by omega)) (hc r (by omega))

/-- Copies and the last state of a bounded repetition. -/
theorem copies_row {h : G} {r' p k : Nat} (hr' : 1 ≤ r') (hk : 0 < k) (r : Nat)
    (hc : ∀ j, j < r → Shape h r' (p + j * k) (p + j * k + k) (p + j * k + k)) {e : Nat} (he : e = p + r * k) (hz : h.Z e)
    (hE : ∀ y, h.E e y ↔ y = e + 1) :
    ∃ cs, Row h r' true p (e + 1) cs ∧ cs.length = r + 1 ∧ ∀ y, y ∈ cs ↔ (∃ j, j < r ∧ y = p + j * k) ∨ y = e := by
  induction r generalizing p with
  | zero =>
    rw [Nat.zero_mul, Nat.add_zero] at he
    subst he
    exact ⟨[e], .final hr' hz hE, rfl, fun y => by simp⟩
  | succ r ih =>
    obtain ⟨cs, w, hlen, hm⟩ := ih (p := p + k) (fun j hj => by
      have := hc (j + 1) (by omega)
      rwa [show p + (j + 1) * k = p + k + j * k by rw [Nat.succ_mul]; omega] at this) (by rw [he, Nat.succ_mul]; omega)
    have h0 := hc 0 (by omega)
    rw [Nat.zero_mul, Nat.add_zero] at h0
    refine ⟨p :: cs, .cons h0 (by omega) (.inl rfl) (by omega) w, by rw [List.length_cons, hlen], fun y => ?_⟩
    rw [List.mem_cons, hm]
    constructor
    · rintro (rfl | ⟨j, h1, rfl⟩ | h1)
      · exact .inl ⟨0, by omega, by omega⟩
      · exact .inl ⟨j + 1, by omega, by rw [Nat.succ_mul]; omega⟩
      · exact .inr h1
    · rintro (⟨j, h1, rfl⟩ | h1)
      · cases j with
        | zero => left; omega
        | succ j => right; left; exact ⟨j, by omega, by rw [Nat.succ_mul]; omega⟩
      · exact .inr (.inr h1)

/-- Where the empty word is read in a repetition. -/
theorem LaysRep.null {h : G} {t : Ast} {lo : Nat} {hi : Option Nat} {o r : Nat}
    {T : Nat} (F : LaysRep h t lo hi o r (o + 1 + r * states t) T) (hT : o + 1 + r * states t < T) (hr : 0 < r)
    (hb : ∀ j, j < r → h.Blk (o + 1 + j * states t) (o + 1 + j * states t + states t) (o + 1 + j * states t + states t))
    (hn : lo ≠ 0 → ∀ j, j < r → (nullable t = true ↔ h.Rt (o + 1 + j * states t) (o + 1 + j * states t + states t))) :
    (decide (lo = 0) || nullable t) = true ↔ h.Rt o T := by
  have hfin := (F.ed2 _).2 (.inl rfl)
  by_cases h0 : lo = 0
  · simp only [h0, decide_true, Bool.true_or, true_iff]
    exact .head ((F.ed _).2 (.inr ⟨h0, rfl⟩)) (.single hfin)
  · simp only [h0, decide_false, Bool.false_or]
    constructor
    · intro k
      have r1 := copies_rt (h := h) (p := o + 1) r fun j hj => (hn h0 j hj).1 k
      exact .head ((F.ed (o + 1)).2 (.inl ⟨0, hr, Nat.zero_le _, by simp⟩)) (.tail r1 hfin)
    · intro g
      obtain ⟨y, ey, ry⟩ := rt_head g (by omega)
      rcases (F.ed y).1 ey with ⟨j, hj, _, rfl⟩ | ⟨k, _⟩
      · have hle : j * states t + states t ≤ r * states t := by
          rw [← Nat.succ_mul]; exact Nat.mul_le_mul_right _ hj
        rw [hn h0 j hj]
        rcases (hb j hj).exit ry (Nat.le_refl _) (by omega) with k | k
        · omega
        · exact k.1
      · exact absurd k h0

/-- An unbounded repetition, wherever it leads. -/
theorem rep_loop {t : Ast} {lo : Nat}
    (hr : (if lo = 0 then (tame t && rigid t && decide (0 < states t)) || anyClass t else tame t && !nullable t && calm t) = true)
    (ht : tame t = true → Tamed t) {h : G} {o T r : Nat} (hT : o + 1 + nCopies lo none * states t < T) (h1 : 1 ≤ r)
    (hr2 : T = o + 1 + nCopies lo none * states t + 1 ∨ r = 2)
    (F : LaysRep h t lo none o (nCopies lo none) (o + 1 + nCopies lo none * states t) T) :
    Shape h r o (o + 1 + nCopies lo none * states t + 1) T ∧ (nullable (.rep t lo none) = true ↔ h.Rt o T) := by
  have hpos := nCopies_pos lo none
  have hpl : plain t = true := by
    by_cases hlo : lo = 0
    · rw [if_pos hlo, Bool.or_eq_true, Bool.and_eq_true, Bool.and_eq_true] at hr
      rcases hr with k | k
      · exact tame_plain t k.1.1
      · cases t with
        | cls c => rw [plain]
        | _ => cases k
    · rw [if_neg hlo, Bool.and_eq_true, Bool.and_eq_true] at hr
      exact tame_plain t hr.1.1
  have fc : ∀ j, j < nCopies lo none → Lays h (o + 1 + j * states t) (blk t (o + 1 + j * states t)) :=
    fun j hj => lays_copy hpl F.copy hj
  have hblk : ∀ j, j < nCopies lo none →
      h.Blk (o + 1 + j * states t) (o + 1 + j * states t + states t) (o + 1 + j * states t + states t) := by
    intro j hj
    have fc := fc j hj
    by_cases hti : tame t = true
    · exact ((ht hti).shape 2 (.wild t) h _ fc).blk
    · by_cases hlo : lo = 0
      · rw [if_pos hlo, Bool.or_eq_true, Bool.and_eq_true, Bool.and_eq_true] at hr
        rcases hr with k | k
        · exact absurd k.1.1 hti
        · cases t with
          | cls c =>
            rw [blk] at fc
            have q := fc.head.quiet rfl
            exact .cls q (fc.head.nx (.inr q)) (by rw [states]; omega)
          | _ => cases k
      · rw [if_neg hlo, Bool.and_eq_true, Bool.and_eq_true] at hr
        exact absurd hr.1.1 hti
  refine ⟨?_, ?_⟩
  · have he0 : ∀ y, h.E o y ↔ y = o + 1 ∨ (lo = 0 ∧ y = o + 1 + nCopies lo none * states t) := fun y => by
      rw [F.ed y]
      refine or_congr ?_ Iff.rfl
      constructor
      · rintro ⟨j, _, h2, rfl⟩
        simp only [Option.getD_none, Nat.sub_self] at h2
        obtain rfl : j = 0 := by omega
        simp
      · rintro rfl
        exact ⟨0, hpos, Nat.zero_le _, by simp⟩
    have he2 : ∀ y, h.E (o + 1 + nCopies lo none * states t) y ↔ y = o + 1 + (nCopies lo none - 1) * states t ∨
        y = T := fun y => by
      rw [F.ed2 y]; simp; exact or_comm
    have hlast : o + 1 + (nCopies lo none - 1) * states t + states t = o + 1 + nCopies lo none * states t := by
      rw [Nat.add_assoc, ← Nat.succ_mul, Nat.succ_eq_add_one, Nat.sub_add_cancel hpos]
    have fl := fc (nCopies lo none - 1) (by omega)
    by_cases hlo : lo = 0
    · have bd : Body h (o + 1 + (nCopies lo none - 1) * states t) (o + 1 + nCopies lo none * states t) := by
        rw [← hlast]
        rw [if_pos hlo, Bool.or_eq_true, Bool.and_eq_true, Bool.and_eq_true, decide_eq_true_eq] at hr
        rcases hr with k | k
        · exact .shape ((ht k.1.1).shape 0 ⟨by omega, fun _ => k.1.2, by simp⟩ h _ fl) (by omega)
        · cases t with
          | cls c =>
            rw [blk] at fl
            have q := fl.head.quiet rfl
            exact .void q (fl.head.nx (.inr q))
          | _ => cases k
      have hc1 : nCopies lo none = 1 := by rw [hlo]; rfl
      rw [hc1] at he0 he2 bd F hT hr2 ⊢
      simp only [Nat.sub_self, Nat.zero_mul, Nat.add_zero] at he2 bd
      refine .star h1 F.z (fun y => ?_) F.z2 he2 hT hr2 bd
      rw [he0 y]; simp [hlo]
    · rw [if_neg hlo, Bool.and_eq_true, Bool.and_eq_true, Bool.not_eq_true'] at hr
      have K := ht hr.1.1
      have no := K.null h _ fl
      rw [hr.1.2, hlast] at no
      have hk : 0 < states t := by
        rcases Nat.eq_zero_or_pos (states t) with g | g
        · have := (K.null h _ fl).2 (by rw [g]; exact .refl)
          rw [hr.1.2] at this; cases this
        · exact g
      have ft : Levels 1 t := ⟨by omega, by simp, fun _ => hr.2⟩
      have s2 := K.shape 1 ft h _ fl
      rw [hlast] at s2
      refine .plus h1 F.z (fun y => ?_) ?_ s2 (by omega) (fun r => by have := no.2 r; cases this)
        F.z2 he2 hT hr2
      · rw [he0 y]; simp [hlo]
      · exact copies_shape hk _ fun j hj => K.shape 1 ft h _ (fc j (by omega))
  · rw [nullable]
    refine F.null hT hpos hblk fun hlo j hj => ?_
    have hti : tame t = true := by
      rw [if_neg hlo, Bool.and_eq_true, Bool.and_eq_true] at hr
      exact hr.1.1
    exact (ht hti).null h _ (fc j hj)

/-! ### Alternatives -/

/-- What is proved about the blocks of alternatives. -/
structure AltOk (h : G) (r : Nat) (a : Ast) (p T : Nat) : Prop where
  shape : Shape h r p (p + states a) T
  null : nullable a = true ↔ h.Rt p T
  pos : 0 < states a

theorem Tamed.alt {a : Ast} (t : Tamed a) {r : Nat} (hr : Levels r a) {h : G} {p : Nat} (f : Lays h p (blk a p)) (hs : 0 < states a) :
    AltOk h r a p (p + states a) :=
  ⟨t.shape r hr h p f, t.null h p f, hs⟩

/-- The last term of an alternative, with an exit elsewhere. -/
theorem last_end {z : Ast} (f : EndTerm z) (hz : tameEnd z = true) (ht : ∀ t lo hi, z = .rep t lo hi → tame t = true → Tamed t)
    {r : Nat} (hr : Levels r z) (hc : r ≤ 1 → endsClass z = true) {h : G} {p T : Nat} (hT : p + states z ≤ T)
    (hH : Lays h p (repoint p T (blk z p))) : Shape h r p (p + states z) T ∧ (nullable z = true ↔ h.Rt p T) := by
  rcases f with ⟨c, rfl, hne⟩ | ⟨t, lo, hi, rfl, h0, h1, hp⟩
  · rw [states] at hT ⊢
    have : repoint p T (blk (.cls c) p) = [⟨0, c, T⟩] := by
      rw [blk]
      have := repoint_concat p T [] ⟨0, c, p + 1⟩
      rw [List.nil_append] at this
      rw [this]
      unfold retarget
      simp
    rw [this] at hH
    have h2 := hH.head
    have hq := h2.quiet rfl
    have hz : ¬ h.Z p := fun hz => hne (h2.z.1 hz)
    refine ⟨.weak (.cls hq hz (h2.nx (.inl hz)) (by omega)) (Nat.zero_le _), ?_⟩
    rw [nullable]
    refine ⟨fun k => (by cases k), fun r => ?_⟩
    have := hq.rt r
    omega
  · rw [tameEnd, if_neg h1] at hz
    by_cases hn : hi = none
    · subst hn
      rw [if_pos rfl] at hz
      have hr2 : r = 2 := by
        have := hr.le
        by_contra hne
        have := hc (by omega)
        rw [endsClass] at this
        simp at this
      have hpt : plain t = true := by
        rw [plain, if_neg h0, Bool.and_eq_true] at hp; exact hp.2
      have hs : p + states (.rep t lo none) = p + 1 + nCopies lo none * states t + 1 := by
        rw [states, if_neg h0, if_neg h1]; unfold nCopies; omega
      rw [hs] at hT ⊢
      rw [blk, if_neg h0, if_neg h1] at hH
      exact rep_loop hz (ht t lo none rfl) (by omega) (by omega) (.inr hr2) (lays_rep_to hpt (by omega) hH)
    · rw [if_neg hn] at hz; cases hz

/-- An alternative that ends with a class or a loop. -/
theorem alt_end {a : Ast} {ini : List Ast} {z : Ast} (f : EndForm (blk a) (states a) ini z) {cl : Bool} {s : Nat}
    (k : EndKeeps (tameEnd a) (rigid a) (calm a) cl (nullable a) s ini z) (ha : tameEnd a = true)
    (ht : ∀ t, sizeOf t ≤ s → tame t = true → Tamed t) {r : Nat} (hr : Levels r a) (hc : r = 1 → cl = true) {h : G} {p T : Nat}
    (hT : p + states a ≤ T) (hH : Lays h p (repoint p T (blk a p))) : AltOk h r a p T := by
  have hs := f.size
  have hpos := endTerm_pos f.last
  obtain ⟨t1, t2⟩ := k.tame ha
  have hne : blk z (p + statesAll ini) ≠ [] := by
    rcases f.last with ⟨c, rfl, _⟩ | ⟨t, lo, hi, rfl, h0, h1, _⟩
    · rw [blk]; simp
    · rw [blk, if_neg h0, if_neg h1]; unfold repBlk; simp
  rw [f.blk, repoint_append _ _ _ _ hne, blkSeq_length ini f.plain] at hH
  have h2 := hH.right
  rw [blkSeq_length ini f.plain] at h2
  obtain ⟨s1, n1⟩ := tamed_seq (fun t hm => ht t (Nat.le_of_lt (k.ini t hm)) (tameAll_iff.1 t1 t hm)) f.plain (r := r)
    (fun t hm => ⟨hr.le, fun h0 => rigidAll_iff.1 (k.rigid (hr.rigid h0)).1 t hm,
      fun h0 => calmAll_iff.1 (k.calm (hr.calm h0)).1 t hm⟩) h p hH.left
  have hfz : Levels r z := ⟨hr.le, fun h0 => (k.rigid (hr.rigid h0)).2, fun h0 => (k.calm (hr.calm h0)).2⟩
  have hrc : r ≤ 1 → endsClass z = true := fun h1 => by
    rcases Nat.eq_zero_or_pos r with h0 | h0
    · have hg := hfz.rigid h0
      rcases f.last with ⟨c, rfl, _⟩ | ⟨t, lo, hi, rfl, h0, h1, _⟩
      · rw [endsClass]
      · rw [rigid, Bool.and_eq_true, Bool.and_eq_true, decide_eq_true_eq, decide_eq_true_eq] at hg
        exact absurd hg.1 h1
    · exact k.ends (hc (by omega))
  obtain ⟨s2, n2⟩ := last_end f.last t2 (fun t lo hi hz htm => ht t (by
    have := k.last
    rw [hz] at this
    simp at this
    omega) htm) hfz hrc (by omega) h2
  rw [Nat.add_assoc, ← hs] at s2
  refine ⟨.app s1 s2, ?_, by omega⟩
  rw [k.null, n1, n2]
  constructor
  · rintro ⟨r1, r2⟩; exact r1.trans r2
  · intro r
    rcases s1.blk.exit r (Nat.le_refl _) (by omega) with k | k
    · omega
    · exact k

/-- The level of merging of alternatives. -/
structure LevelsAlts (r : Nat) (l : List Ast) : Prop where
  le : r ≤ 2
  rigid : r = 0 → rigidAll l = true
  calm : r = 1 → calmAlts l = true

theorem LevelsAlts.head {r : Nat} {a : Ast} {l : List Ast} (f : LevelsAlts r (a :: l)) : Levels r a :=
  ⟨f.le, fun h => by have := f.rigid h; rw [rigidAll, Bool.and_eq_true] at this; exact this.1, fun h => by
    have := f.calm h
    cases l with
    | nil => rw [calmAlts] at this; exact this
    | cons b l => rw [calmAlts, Bool.and_eq_true, Bool.and_eq_true] at this; exact this.1.2⟩

theorem LevelsAlts.tail {r : Nat} {a : Ast} {l : List Ast} (f : LevelsAlts r (a :: l)) : LevelsAlts r l :=
  ⟨f.le, fun h => by have := f.rigid h; rw [rigidAll, Bool.and_eq_true] at this; exact this.2, fun h => by
    have := f.calm h
    cases l with
    | nil => rfl
    | cons b l => rw [calmAlts, Bool.and_eq_true] at this; exact this.2⟩

theorem LevelsAlts.ends {r : Nat} {a b : Ast} {l : List Ast} (f : LevelsAlts r (a :: b :: l)) (h : r = 1) : endsClass a = true := by
  have := f.calm h
  rw [calmAlts, Bool.and_eq_true, Bool.and_eq_true] at this
  exact this.1.1

theorem tamed_alts {l : List Ast} (hl : tameAlts l = true) (ht : ∀ t : Ast, sizeOf t < sizeOf l → tame t = true → Tamed t)
    {r : Nat} (hr : LevelsAlts r l) (h : G) (p N : Nat) (hN : N = p + statesAll l) (f : Lays h p (blkAlts l N p)) :
    ∀ l1 a l2, l = l1 ++ a :: l2 → AltOk h r a (p + statesAll l1) N := by
  induction l generalizing p with
  | nil => intro l1 a l2 h; cases l1 <;> cases h
  | cons b l ih =>
    have hpl := tameAlts_plain _ hl
    have hall := plainAlts_plain hpl
    rw [plainAll, Bool.and_eq_true] at hall
    rw [statesAll] at hN
    rw [blkAlts] at f
    have f2 := f.right
    rw [repoint_length, blk_length b hall.1] at f2
    have first : AltOk h r b p N := by
      cases l with
      | nil =>
        rw [tameAlts, Bool.and_eq_true, decide_eq_true_eq] at hl
        rw [statesAll, Nat.add_zero] at hN
        subst hN
        exact (ht b (by simp; omega) hl.1).alt hr.head (f.left.repoint hl.1 hl.2) hl.2
      | cons c l =>
        rw [tameAlts, Bool.and_eq_true] at hl
        obtain ⟨ini, z, e, k⟩ := plainEnd_form b (tameEnd_plainEnd b hl.1)
        exact alt_end e k hl.1 (fun t hs => ht t (by simp; omega)) hr.head hr.ends (by omega) f.left
    have rest : tameAlts l = true := by
      cases l with
      | nil => rfl
      | cons c l => rw [tameAlts, Bool.and_eq_true] at hl; exact hl.2
    intro l1 a l2 hl
    cases l1 with
    | nil =>
      cases hl
      rw [statesAll]; exact first
    | cons c l1 =>
      injection hl with e1 e2
      subst e1
      rw [statesAll, ← Nat.add_assoc]
      exact ih rest (fun t h1 h2 => ht t (by simp; omega) h2) hr.tail (p + states b) (by omega) f2 l1 a l2 e2

theorem row_alts {l : List Ast} {h : G} {r p N : Nat} (hN : N = p + statesAll l)
    (hl : ∀ l1 a l2, l = l1 ++ a :: l2 → AltOk h r a (p + statesAll l1) N) : Row h r false p N (starts l p) := by
  induction l generalizing p with
  | nil => rw [statesAll, Nat.add_zero] at hN; subst hN; exact .nil
  | cons a l ih =>
    have h1 := hl [] a l rfl
    rw [statesAll, Nat.add_zero] at h1
    rw [statesAll] at hN
    have hp := h1.pos
    rw [starts]
    refine .cons h1.shape (by omega) (.inr rfl) (fun _ => rfl) ?_
    exact ih (p := p + states a) (by omega) fun l1 b l2 hl' => by
      have := hl (a :: l1) b l2 (by rw [hl']; rfl)
      rwa [statesAll, ← Nat.add_assoc] at this

/-- The edges of the first state of alternatives. -/
theorem alts_first {l : List Ast} {h : G} {o : Nat} (f : Lays h o (blk (.alts l) o)) :
    h.Z o ∧ (∀ y, h.E o y ↔ y ∈ starts l (o + 1)) ∧ Lays h (o + 1) (blkAlts l (o + 1 + statesAll l) (o + 1)) := by
  rw [blk] at f
  refine ⟨f.head.z.2 rfl, fun y => ?_, f.tail⟩
  rw [f.head.e y, testBit_maskOf]

theorem Tamed.alts {l : List Ast} (hne : l ≠ []) (hl : tameAlts l = true)
    (ht : ∀ t : Ast, sizeOf t < sizeOf l → tame t = true → Tamed t) : Tamed (.alts l) := by
  have key : ∀ (r : Nat), LevelsAlts r l → ∀ (h : G) (o : Nat), Lays h o (blk (.alts l) o) →
      ∀ l1 a l2, l = l1 ++ a :: l2 → AltOk h r a (o + 1 + statesAll l1) (o + 1 + statesAll l) := fun r hr h o f =>
    tamed_alts hl ht hr h (o + 1) _ rfl (alts_first f).2.2
  refine ⟨fun r hr h o f => ?_, fun h o f => ?_⟩
  · have hra : LevelsAlts r l := ⟨hr.le, fun h0 => by
        have := hr.rigid h0
        rw [rigid, Bool.and_eq_true] at this
        exact this.2, fun h0 => by have := hr.calm h0; rw [calm] at this; exact this⟩
    have k := key r hra h o f
    obtain ⟨hz, he, hb⟩ := alts_first f
    rw [states, ← Nat.add_assoc]
    match l, hne, hl, ht, k, he, hb, hra, hr with
    | [a], _, hl, ht, k, he, hb, hra, hr =>
      rw [tameAlts, Bool.and_eq_true, decide_eq_true_eq] at hl
      simp only [starts, List.mem_singleton] at he
      simp only [statesAll, Nat.add_zero] at hb ⊢
      rw [blkAlts] at hb
      have s := (ht a (by simp; omega) hl.1).shape r hra.head h (o + 1) (hb.left.repoint hl.1 hl.2)
      have h1 : 1 ≤ r := by
        rcases Nat.eq_zero_or_pos r with h0 | h0
        · have := hr.rigid h0
          rw [rigid] at this
          simp at this
        · exact h0
      exact .dup (f := false) (l := []) h1 hz ((he _).2 rfl) (fun y ey => ⟨.inl ((he y).1 ey), by rw [(he y).1 ey]⟩)
        s (by omega) (fun k => by omega) .nil
    | a :: b :: l, _, hl, ht, k, he, hb, hra, hr =>
      have h1 := k [] a (b :: l) rfl
      have hp := h1.pos
      have w := row_alts (l := b :: l) (p := o + 1 + states a) (N := o + 1 + statesAll (a :: b :: l))
        (by rw [statesAll, ← Nat.add_assoc]) fun l1 c l2 hl' => by
          have := k (a :: l1) c l2 (by rw [hl']; rfl)
          rwa [statesAll, ← Nat.add_assoc] at this
      have hsh := h1.shape
      rw [statesAll, Nat.add_zero] at hsh
      refine .choose (l := starts (b :: l) (o + 1 + states a)) hz ((he _).2 (by simp [starts]))
        ((he _).2 (by simp [starts])) (by simp [starts]) (fun y ey => ?_) hsh (by omega) w
      have := (he y).1 ey
      rw [starts] at this
      exact List.mem_cons.1 this
  · have k := key 2 ⟨Nat.le_refl _, by simp, by simp⟩ h o f
    obtain ⟨hz, he, hb⟩ := alts_first f
    rw [states, ← Nat.add_assoc, nullable]
    have hany : ∀ l : List Ast, nullAny l = true ↔ ∃ a ∈ l, nullable a = true := by
      intro l
      induction l with
      | nil => simp [nullAny]
      | cons a l ih => rw [nullAny, Bool.or_eq_true, ih]; simp
    rw [hany]
    constructor
    · rintro ⟨a, ha, hn⟩
      obtain ⟨l1, l2, h1⟩ := List.append_of_mem ha
      exact .head ((he _).2 (mem_starts.2 ⟨l1, a, l2, h1, rfl⟩)) ((k l1 a l2 h1).null.1 hn)
    · intro r
      obtain ⟨y, ey, ry⟩ := rt_head r (by omega)
      obtain ⟨l1, a, l2, h1, rfl⟩ := mem_starts.1 ((he y).1 ey)
      exact ⟨a, by rw [h1]; simp, (k l1 a l2 h1).null.2 ry⟩

/-! ### Substring groups -/

theorem Tamed.substr {l : List Ast} (hlen : 2 ≤ l.length) (hl : l.all isClass = true) : Tamed (.substr l) := by
  have key : ∀ (h : G) (o : Nat), Lays h o (blk (.substr l) o) → h.Z o ∧
      (∀ y, h.E o y ↔ o + 1 ≤ y ∧ y < o + 1 + l.length) ∧ h.Quiet (o + 1) ∧
      (∀ x, o + 1 ≤ x → x < o + 1 + l.length → ¬ h.Z x ∧ h.nx x = x + 1) ∧
      (∀ x y, o + 1 ≤ x → x < o + 1 + l.length → (h.E x y ↔ o + 2 ≤ x ∧ y = o + 1 + l.length)) := by
    intro h o f
    rw [blk] at f
    have f0 := f.head
    have f1 := f.tail
    have hx : ∀ x, o + 1 ≤ x → x < o + 1 + l.length → ∃ c : CharSet, c ≠ CharSet.empty ∧
        LaysAt h x ⟨if x = o + 1 then 0 else 1 <<< (o + 1 + l.length), c, x + 1⟩ := by
      intro x h1 h2
      have hi : x - (o + 1) < l.length := by omega
      have hc := isClass_iff.1 (List.all_eq_true.1 hl _ (List.getElem_mem hi))
      obtain ⟨c, hc1, hc2⟩ := hc
      have g := blkSub_get (o + 1 + statesAll l) 0 l (o + 1) (x - (o + 1))
      rw [List.getElem?_eq_getElem hi] at g
      have := f1 _ _ g
      simp only [hc1, clsOf, statesAll_classes hl] at this
      rw [show o + 1 + (x - (o + 1)) = x by omega] at this
      refine ⟨c, hc2, ?_⟩
      by_cases hxo : x = o + 1
      · rw [if_pos hxo]; rwa [if_pos (by omega)] at this
      · rw [if_neg hxo]; rwa [if_neg (by omega)] at this
    have hed : ∀ x y, o + 1 ≤ x → x < o + 1 + l.length → (h.E x y ↔ o + 2 ≤ x ∧ y = o + 1 + l.length) := by
      intro x y h1 h2
      obtain ⟨c, _, g⟩ := hx x h1 h2
      rw [g.e y]
      by_cases hxo : x = o + 1
      · simp only [if_pos hxo]; simp; omega
      · simp only [if_neg hxo]; rw [testBit_one_shift, decide_eq_true_eq]; omega
    refine ⟨f0.z.2 rfl, fun y => ?_, fun y e => ?_, fun x h1 h2 => ?_, hed⟩
    · rw [f0.e y, testBit_maskOf, starts_classes hl]
    · have := (hed (o + 1) y (Nat.le_refl _) (by omega)).1 e
      omega
    · obtain ⟨c, hc, g⟩ := hx x h1 h2
      have hz : ¬ h.Z x := fun hz => hc (g.z.1 hz)
      exact ⟨hz, g.nx (.inl hz)⟩
  have hs : ∀ o, o + states (.substr l) = o + 1 + l.length := fun o => by rw [states, statesAll_classes hl]; omega
  refine ⟨fun r hr h o f => ?_, fun h o f => ?_⟩
  · obtain ⟨k1, k2, k3, k4, k5⟩ := key h o f
    rw [hs]
    have h1 : 1 ≤ r := by
      rcases Nat.eq_zero_or_pos r with h0 | h0
      · have := hr.rigid h0
        rw [rigid] at this
        cases this
      · exact h0
    refine .weak (r := 1) ?_ h1
    exact .sub hlen k1 k2 k3 k4 fun x y h1 h2 e => ((k5 x y h1 h2).1 e).2
  · obtain ⟨k1, k2, k3, k4, k5⟩ := key h o f
    rw [hs, nullable]
    refine ⟨fun _ => ?_, fun _ => rfl⟩
    exact .head ((k2 (o + 2)).2 (by omega)) (.single ((k5 (o + 2) _ (by omega) (by omega)).2 ⟨Nat.le_refl _, rfl⟩))

/-! ### Repetitions as terms -/

theorem Tamed.rep {t : Ast} {lo : Nat} {hi : Option Nat} (hr : tame (.rep t lo hi) = true)
    (ht : tame t = true → Tamed t) : Tamed (.rep t lo hi) := by
  have hpl := tame_plain _ hr
  rw [tame] at hr
  rw [plain] at hpl
  by_cases h0 : lo = 0 ∧ hi = some 0
  · obtain ⟨rfl, rfl⟩ := h0
    have hs : states (.rep t 0 (some 0)) = 0 := by rw [states]; simp
    refine ⟨fun r _ h o _ => ?_, fun h o _ => ?_⟩
    · rw [hs]; exact .weak .empty (Nat.zero_le _)
    · rw [hs, nullable]; simp; exact .refl
  rw [if_neg h0] at hr
  rw [if_neg h0, Bool.and_eq_true, decide_eq_true_eq] at hpl
  by_cases h1 : lo = 1 ∧ hi = some 1
  · rw [if_pos h1] at hr
    obtain ⟨rfl, rfl⟩ := h1
    have k := ht hr
    have hb : ∀ o, blk (.rep t 1 (some 1)) o = blk t o := fun o => by rw [blk]; simp
    have hs : states (.rep t 1 (some 1)) = states t := by rw [states]; simp
    have hg : rigid (.rep t 1 (some 1)) = rigid t := by rw [rigid]; simp
    have hu : nullable (.rep t 1 (some 1)) = nullable t := by rw [nullable]; simp
    refine ⟨fun r hr h o f => ?_, fun h o f => ?_⟩
    · rw [hb] at f
      rw [hs]
      exact k.shape r ⟨hr.le, fun h0 => by rw [← hg]; exact hr.rigid h0,
        fun h0 => by have := hr.calm h0; rw [calm] at this; exact this⟩ h o f
    · rw [hb] at f
      rw [hs, hu]
      exact k.null h o f
  rw [if_neg h1] at hr
  have hnr : rigid (.rep t lo hi) = false := by
    rw [rigid, Bool.and_eq_false_iff]
    left
    rw [Bool.and_eq_false_iff, decide_eq_false_iff_not, decide_eq_false_iff_not]
    by_cases k : lo = 1
    · exact .inr fun k' => h1 ⟨k, k'⟩
    · exact .inl k
  have hs : ∀ o, o + states (.rep t lo hi) = o + 1 + nCopies lo hi * states t + 1 := fun o => by
    rw [states, if_neg h0, if_neg h1]; unfold nCopies; omega
  have hF : ∀ (h : G) (o : Nat), Lays h o (blk (.rep t lo hi) o) →
      LaysRep h t lo hi o (nCopies lo hi) (o + 1 + nCopies lo hi * states t)
        (o + 1 + nCopies lo hi * states t + 1) := fun h o f => by
    rw [blk, if_neg h0, if_neg h1] at f
    exact lays_rep hpl.2 f
  have hpos := nCopies_pos lo hi
  have hcopy : ∀ (h : G) (o : Nat), Lays h o (blk (.rep t lo hi) o) → ∀ j, j < nCopies lo hi →
      Lays h (o + 1 + j * states t) (blk t (o + 1 + j * states t)) := fun h o f j hj => lays_copy hpl.2 (hF h o f).copy hj
  have hr1 : ∀ r, Levels r (.rep t lo hi) → 1 ≤ r := fun r hr => by
    rcases Nat.eq_zero_or_pos r with k | k
    · have := hr.rigid k; rw [hnr] at this; cases this
    · exact k
  have hrt : ∀ r, Levels r (.rep t lo hi) → Levels r t := fun r hr =>
    ⟨hr.le, fun k => by have := hr1 r hr; omega, fun k => by have := hr.calm k; rw [calm] at this; exact this⟩
  refine ⟨fun r hf h o f => ?_, fun h o f => ?_⟩
  · have F := hF h o f
    have fc := hcopy h o f
    have q1 := hr1 r hf
    have q2 := hrt r hf
    rw [hs]
    by_cases hn : hi = none
    · subst hn
      rw [if_pos rfl] at hr
      exact (rep_loop hr ht (by omega) q1 (.inl rfl) F).1
    · obtain ⟨m, rfl⟩ : ∃ m, hi = some m := by cases hi with | none => exact absurd rfl hn | some m => exact ⟨m, rfl⟩
      rw [if_neg hn] at hr
      rw [Bool.and_eq_true, Bool.and_eq_true, decide_eq_true_eq, decide_eq_true_eq, Option.getD_some] at hr
      obtain ⟨⟨hle, hti⟩, hk⟩ := hr
      have hm : 1 ≤ m := by
        rcases Nat.eq_zero_or_pos m with rfl | k
        · exact absurd ⟨by omega, rfl⟩ h0
        · exact k
      have hrm : nCopies lo (some m) = m := by
        show max 1 (max lo m) = m
        omega
      rw [hrm] at F fc ⊢
      have T := ht hti
      have sh : ∀ j, j < m → Shape h r (o + 1 + j * states t) (o + 1 + j * states t + states t)
          (o + 1 + j * states t + states t) := fun j hj => T.shape r q2 h _ (fc j hj)
      have s0 := sh 0 (by omega)
      rw [Nat.zero_mul, Nat.add_zero] at s0
      have he2 : ∀ y, h.E (o + 1 + m * states t) y ↔ y = o + 1 + m * states t + 1 := fun y => by rw [F.ed2 y]; simp
      obtain ⟨cs, w, hlen, hmem⟩ := copies_row (h := h) (p := o + 1 + states t) (k := states t) q1 hk (m - 1)
        (fun j hj => by
          have := sh (j + 1) (by omega)
          rwa [show o + 1 + (j + 1) * states t = o + 1 + states t + j * states t by rw [Nat.succ_mul]; omega] at this)
        (e := o + 1 + m * states t) (by
          obtain ⟨m, rfl⟩ : ∃ m', m = m' + 1 := ⟨m - 1, by omega⟩
          rw [Nat.succ_mul, Nat.add_sub_cancel]; omega) F.z2 he2
      have hed : ∀ y, h.E o y → y = o + 1 ∨ y ∈ cs := by
        intro y ey
        rcases (F.ed y).1 ey with ⟨j, hj, _, rfl⟩ | ⟨_, rfl⟩
        · cases j with
          | zero => left; simp
          | succ j => right; rw [hmem]; exact .inl ⟨j, by omega, by rw [Nat.succ_mul]; omega⟩
        · right; rw [hmem]; exact .inr rfl
      have e1 : h.E o (o + 1) := (F.ed _).2 (.inl ⟨0, by omega, Nat.zero_le _, by simp⟩)
      by_cases hd : nullable t = true ∨ lo = m
      · refine .dup q1 F.z e1 (fun y ey => ⟨hed y ey, ?_⟩) s0 (by omega) (fun _ => ?_) w
        rotate_left
        · rcases hd with hnt | hlm
          · left
            have f0 := fc 0 (by omega)
            rw [Nat.zero_mul, Nat.add_zero] at f0
            exact (T.null h _ f0).1 hnt
          · right
            rw [hlen]
            have : m ≠ 1 := by rintro rfl; exact h1 ⟨hlm, rfl⟩
            omega
        rcases hd with hnt | hlm
        · have hc : ∀ r, r ≤ m → h.Rt (o + 1) (o + 1 + r * states t) := fun r hr =>
            copies_rt r fun j hj => (T.null h _ (fc j (by omega))).1 hnt
          rcases (F.ed y).1 ey with ⟨j, hj, _, rfl⟩ | ⟨_, rfl⟩
          · exact hc j (by omega)
          · exact hc m (Nat.le_refl _)
        · rcases (F.ed y).1 ey with ⟨j, hj, h2, rfl⟩ | ⟨k, _⟩
          · rw [Option.getD_some] at h2
            obtain rfl : j = 0 := by omega
            rw [Nat.zero_mul, Nat.add_zero]
          · omega
      · have hnt : ¬ nullable t = true := fun k => hd (.inl k)
        have hlm : lo ≠ m := fun k => hd (.inr k)
        have hno : ¬ h.Rt (o + 1) (o + 1 + states t) := by
          have f0 := fc 0 (by omega)
          rw [Nat.zero_mul, Nat.add_zero] at f0
          rwa [← T.null h _ f0]
        have hz : ∃ z, h.E o z ∧ z ∈ cs := by
          by_cases h2 : 2 ≤ m
          · refine ⟨o + 1 + states t, (F.ed _).2 (.inl ⟨1, by omega, ?_, by omega⟩), (hmem _).2 (.inl ⟨0, by omega, by omega⟩)⟩
            rw [Option.getD_some]; omega
          · exact ⟨o + 1 + m * states t, (F.ed _).2 (.inr ⟨by omega, rfl⟩), (hmem _).2 (.inr rfl)⟩
        obtain ⟨z, ez, hzc⟩ := hz
        exact .split q1 F.z e1 ez hzc hed hno s0 (by omega) w
  · have F := hF h o f
    rw [hs]
    by_cases hn : hi = none
    · subst hn
      rw [if_pos rfl] at hr
      exact (rep_loop (r := 2) hr ht (by omega) (by omega) (.inl rfl) F).2
    · rw [if_neg hn, Bool.and_eq_true, Bool.and_eq_true] at hr
      rw [nullable]
      exact F.null (by omega) hpos (fun j hj => ((ht hr.1.2).shape 2 (.wild t) h _ (hcopy h o f j hj)).blk) fun _ j hj =>
        (ht hr.1.2).null h _ (hcopy h o f j hj)

/-! ### All expressions of the fragment -/

theorem tamed (a : Ast) (h : tame a = true) : Tamed a := by
  match a, h with
  | .cls c, h =>
    rw [tame, bne_iff_ne] at h
    refine ⟨fun r _ g o f => ?_, fun g o f => ?_⟩
    · rw [blk] at f
      have hz : ¬ g.Z o := fun k => h (f.head.z.1 k)
      exact .weak (.cls (f.head.quiet rfl) hz (f.head.nx (.inl hz)) (by rw [states]; omega)) (Nat.zero_le _)
    · rw [blk] at f
      rw [nullable, states]
      refine ⟨fun k => (by cases k), fun r => ?_⟩
      have := (f.head.quiet rfl).rt r
      omega
  | .alts l, h =>
    rw [tame, Bool.and_eq_true] at h
    refine Tamed.alts (by rintro rfl; simp at h) h.2 fun t hs hti => ?_
    have : sizeOf t < sizeOf (Ast.alts l) := by simp; omega
    exact tamed t hti
  | .seq l, h =>
    rw [tame] at h
    have hs : ∀ t ∈ l, Tamed t := fun t hm => tamed t (tameAll_iff.1 h t hm)
    refine ⟨fun r hr g o f => ?_, fun g o f => ?_⟩
    · rw [blk] at f
      rw [states]
      exact (tamed_seq hs (tameAll_plain l h) hr.seq g o f).1
    · rw [blk] at f
      rw [states, nullable]
      exact (tamed_seq hs (tameAll_plain l h) (r := 2) (fun t _ => .wild t) g o f).2
  | .substr l, h =>
    rw [tame, Bool.and_eq_true, decide_eq_true_eq] at h
    exact Tamed.substr h.1 h.2
  | .rep t lo hi, h => exact Tamed.rep h fun k => tamed t k
  | .anagram _ _, h => simp [tame] at h
termination_by sizeOf a
decreasing_by
  all_goals first
    | assumption
    | (have := List.sizeOf_lt_of_mem hm; simp; omega)
    | (simp; omega)

end Noodle
