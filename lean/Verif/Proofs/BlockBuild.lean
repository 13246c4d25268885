import Verif.Model.BlockCompile
import Verif.Proofs.BlockRep
import Verif.Proofs.OptimizeNfa
/-
The compiler over blocks does what the compiler over masks does: building the automaton.
-/
namespace Noodle.Blk
set_option autoImplicit false
open Noodle.Bits (Bits blockSize Mem)

theorem RelE.cases {α β : Type} {R : α → β → Prop} {x : Except Crash α} {y : Except Crash β} (h : RelE R x y) :
    (∃ e, x = .error e ∧ y = .error e) ∨ ∃ a b, x = .ok a ∧ y = .ok b ∧ R a b := by
  cases h with
  | error e => exact .inl ⟨e, rfl, rfl⟩
  | ok h => exact .inr ⟨_, _, rfl, rfl, h⟩

/-- The states hold the same sets, in bitsets allocated for `cap` elements. -/
def RState (cap : Nat) (s : State) (t : Noodle.State) : Prop :=
  Rep1 cap cap s.eps t.eps ∧ s.cls = t.cls ∧ s.next = t.next

def RS (cap : Nat) (bs : List State) (ss : List Noodle.State) : Prop := List.Forall₂ (RState cap) bs ss

theorem RS.len {cap : Nat} {bs : List State} {ss : List Noodle.State} (h : RS cap bs ss) : bs.length = ss.length :=
  List.Forall₂.length_eq h

theorem RS.get {cap : Nat} {bs : List State} {ss : List Noodle.State} (h : RS cap bs ss) (i : Nat) :
    (bs[i]? = none ∧ ss[i]? = none) ∨ ∃ s t, bs[i]? = some s ∧ ss[i]? = some t ∧ RState cap s t := by
  by_cases hi : i < bs.length
  · have hi' : i < ss.length := by rw [← h.len]; exact hi
    exact .inr ⟨bs[i], ss[i], List.getElem?_eq_getElem hi, List.getElem?_eq_getElem hi', List.Forall₂.get h hi hi'⟩
  · have hi' : ¬ i < ss.length := by rw [← h.len]; exact hi
    exact .inl ⟨List.getElem?_eq_none (by omega), List.getElem?_eq_none (by omega)⟩

theorem RS.set {cap : Nat} {bs : List State} {ss : List Noodle.State} (h : RS cap bs ss) (i : Nat) {s : State}
    {t : Noodle.State} (hs : RState cap s t) : RS cap (bs.set i s) (ss.set i t) := by
  unfold RS at *
  induction h generalizing i with
  | nil => exact .nil
  | cons h1 h2 ih =>
    cases i with
    | zero => exact .cons hs h2
    | succ i => exact .cons h1 (ih i)

theorem RS.snoc {cap : Nat} {bs : List State} {ss : List Noodle.State} (h : RS cap bs ss) {s : State}
    {t : Noodle.State} (hs : RState cap s t) : RS cap (bs ++ [s]) (ss ++ [t]) := by
  unfold RS at *
  induction h with
  | nil => exact .cons hs .nil
  | cons h1 _ ih => exact .cons h1 ih

/-! ### Sets of 16384 elements -/

theorem max_len {r : Bits} {m : Nat} (h : Rep1 maxSetSize maxSetSize r m) : r.length = 512 := by
  rw [h.len]; rfl

theorem insert_max {r : Bits} {m : Nat} (h : Rep1 maxSetSize maxSetSize r m) (b : Nat) :
    (maxSetSize ≤ b ∧ Bits.insert r b = none) ∨
      (b < maxSetSize ∧ ∃ r', Bits.insert r b = some r' ∧ Rep1 maxSetSize maxSetSize r' (m ||| 1 <<< b)) := by
  by_cases hb : b < maxSetSize
  · obtain ⟨r', h1, h2⟩ := h.insert hb
    exact .inr ⟨hb, r', h1, by rw [Nat.shiftLeft_eq, Nat.one_mul]; exact h2⟩
  · refine .inl ⟨by omega, ?_⟩
    have := max_len h
    unfold maxSetSize at hb
    rw [Bits.insert, if_neg (by omega)]

theorem contains_max {r : Bits} {m : Nat} (h : Rep1 maxSetSize maxSetSize r m) (b : Nat) :
    (maxSetSize ≤ b ∧ Bits.contains r b = none) ∨ (b < maxSetSize ∧ Bits.contains r b = some (m.testBit b)) := by
  by_cases hb : b < maxSetSize
  · exact .inr ⟨hb, h.contains hb⟩
  · refine .inl ⟨by omega, ?_⟩
    have := max_len h
    unfold maxSetSize at hb
    rw [Bits.contains, List.getElem?_eq_none (by omega)]; rfl

theorem Rep1.remove {cap bd : Nat} {r : Bits} {m : Nat} (h : Rep1 cap bd r m) {i : Nat} (hi : i < cap) :
    ∃ r', Bits.remove r i = some r' ∧ Rep1 cap bd r' (maskRemove m i) := by
  obtain ⟨r', h1, h2, h3⟩ := Bits.remove_spec r i (by have := Bits.blockSize_le cap; rw [h.len]; omega)
  refine ⟨r', h1, by rw [h2, h.len], fun j => ?_, ?_, h.le⟩
  · rw [h3, h.mem, testBit_maskRemove]
    by_cases e : j = i
    · subst e; simp
    · simp [e, show ¬ i = j from fun e1 => e e1.symm]
  · apply lt_of_bits
    intro j hj
    rw [testBit_maskRemove] at hj
    exact h.bit_lt (by simp at hj; exact hj.1)

abbrev RM := RS maxSetSize

theorem rel_transition (c : CharSet) (n : Nat) : RState maxSetSize (State.transition c n) ⟨0, c, n⟩ :=
  ⟨rep1_new _ _ (Nat.le_refl _), rfl, rfl⟩

theorem rel_fresh : RState maxSetSize State.fresh Noodle.State.fresh := rel_transition _ _

theorem insertEps_rel {bs : List State} {ss : List Noodle.State} (h : RM bs ss) (i b : Nat) :
    RelE RM (insertEps bs i b) (Noodle.insertEps ss i b) := by
  unfold insertEps Noodle.insertEps
  rcases h.get i with ⟨h1, h2⟩ | ⟨s, t, h1, h2, h3⟩
  · simp only [h1, h2]; exact .error _
  · simp only [h1, h2]
    rcases insert_max h3.1 b with ⟨hb, e⟩ | ⟨hb, r', e, hr⟩
    · rw [if_pos hb, e]; exact .error _
    · rw [if_neg (by omega), e]
      exact .ok (h.set i ⟨hr, h3.2⟩)

theorem repointAlt_rel {bs : List State} {ss : List Noodle.State} (h : RM bs ss) (n e : Nat) :
    RelE RM (repointAlt n bs e) (Noodle.repointAlt n ss e) := by
  unfold repointAlt Noodle.repointAlt
  rcases h.get e with ⟨h1, h2⟩ | ⟨s, t, h1, h2, h3⟩
  · simp only [h1, h2]; exact .error _
  · simp only [h1, h2]
    rcases contains_max h3.1 (e + 1) with ⟨hb, c⟩ | ⟨hb, c⟩
    · rw [if_pos hb, c]; exact .error _
    · rw [if_neg (by omega), c]
      simp only [ub_some, bind_ok]
      by_cases ht : t.eps.testBit (e + 1) = true
      · rw [if_pos ht, if_pos ht]
        obtain ⟨r1, e1, q1⟩ := h3.1.remove hb
        rw [e1]
        simp only [ub_some, bind_ok]
        rcases insert_max q1 n with ⟨hb, e⟩ | ⟨hb, r', e, hr⟩
        · rw [if_pos hb, e]; exact .error _
        · rw [if_neg (by omega), e]
          exact .ok (h.set _ ⟨hr, h3.2.1, rfl⟩)
      · rw [if_neg ht, if_neg ht]
        exact .ok (h.set _ ⟨h3.1, h3.2.1, rfl⟩)

theorem exitSub_rel {bs : List State} {ss : List Noodle.State} (h : RM bs ss) (n e : Nat) :
    RelE RM (exitSub n bs e) (Noodle.exitSub n ss e) := by
  unfold exitSub Noodle.exitSub
  rcases h.get e with ⟨h1, h2⟩ | ⟨s, t, h1, h2, h3⟩
  · simp only [h1, h2]; exact .error _
  · simp only [h1, h2]
    rcases contains_max h3.1 (e + 1) with ⟨hb, c⟩ | ⟨hb, c⟩
    · rw [if_pos hb, c]; exact .error _
    · rw [if_neg (by omega), c]
      simp only [ub_some, bind_ok]
      have hi : RelE RM (if t.eps.testBit (e + 1) = true then insertEps bs e n else .ok bs)
          (if t.eps.testBit (e + 1) = true then Noodle.insertEps ss e n else .ok ss) := by
        split
        · exact insertEps_rel h e n
        · exact .ok h
      rcases hi.cases with ⟨x, e1, e2⟩ | ⟨a, b, e1, e2, e3⟩
      · rw [e1, e2]; exact .error _
      · rw [e1, e2]
        simp only [bind_ok, h3.2.1, h3.2.2]
        split
        · exact .ok e3
        · split
          · exact .ok e3
          · exact insertEps_rel e3 _ _

theorem overEnds_rel {f : List State → Nat → Except Crash (List State)}
    {g : List Noodle.State → Nat → Except Crash (List Noodle.State)}
    (hf : ∀ bs ss e, RM bs ss → RelE RM (f bs e) (g ss e)) (es : List Nat) {bs : List State} {ss : List Noodle.State}
    (h : RM bs ss) : RelE RM (overEnds f bs es) (Noodle.overEnds g ss es) := by
  induction es generalizing bs ss with
  | nil => exact .ok h
  | cons e es ih =>
    unfold overEnds Noodle.overEnds
    rcases (hf bs ss e h).cases with ⟨x, e1, e2⟩ | ⟨a, b, e1, e2, e3⟩
    · simp only [e1, e2]; exact .error _
    · simp only [e1, e2]; exact ih e3

theorem repLoop_rel {f : List State → Except Crash (List State)}
    {g : List Noodle.State → Except Crash (List Noodle.State)}
    (hf : ∀ bs ss, RM bs ss → RelE RM (f bs) (g ss)) (start slack k i fin : Nat) {bs : List State} {ss : List Noodle.State}
    (h : RM bs ss) : RelE (fun p q => RM p.1 q.1 ∧ p.2 = q.2) (repLoop f start slack k i fin bs)
      (Noodle.repLoop g start slack k i fin ss) := by
  induction k generalizing i fin bs ss with
  | zero => exact .ok ⟨h, rfl⟩
  | succ k ih =>
    unfold repLoop Noodle.repLoop
    have hi : RelE RM (if i ≤ slack then insertEps bs start bs.length else .ok bs)
        (if i ≤ slack then Noodle.insertEps ss start ss.length else .ok ss) := by
      rw [h.len]
      split
      · exact insertEps_rel h _ _
      · exact .ok h
    rcases hi.cases with ⟨x, e1, e2⟩ | ⟨a, b, e1, e2, e3⟩
    · simp only [e1, e2]; exact .error _
    · simp only [e1, e2]
      rcases (hf a b e3).cases with ⟨x, f1, f2⟩ | ⟨a', b', f1, f2, f3⟩
      · simp only [f1, f2]; exact .error _
      · simp only [f1, f2, e3.len]; exact ih _ _ f3

theorem buildRep_rel {f : List State → Except Crash (List State)}
    {g : List Noodle.State → Except Crash (List Noodle.State)}
    (hf : ∀ bs ss, RM bs ss → RelE RM (f bs) (g ss)) (min : Nat) (max : Option Nat) {bs : List State} {ss : List Noodle.State}
    (h : RM bs ss) : RelE RM (buildRep f min max bs) (Noodle.buildRep g min max ss) := by
  unfold buildRep Noodle.buildRep
  simp only [h.len]
  split
  · exact .error _
  · rcases (repLoop_rel hf ss.length (max.getD min - min) (Nat.max 1 (Nat.max min (max.getD min))) 0 0
      (h.snoc rel_fresh)).cases with ⟨x, e1, e2⟩ | ⟨a, b, e1, e2, e3, e4⟩
    · simp only [e1, e2]; exact .error _
    · obtain ⟨a1, a2⟩ := a
      obtain ⟨b1, b2⟩ := b
      simp only at e3 e4
      subst e4
      simp only [e1, e2, e3.len]
      rcases (insertEps_rel (e3.snoc rel_fresh) b1.length (b1.length + 1)).cases with ⟨x, f1, f2⟩ | ⟨a, b, f1, f2, f3⟩
      · simp only [f1, f2]; exact .error _
      · simp only [f1, f2]
        have hi : RelE RM (if min = 0 then insertEps a ss.length b1.length else .ok a)
            (if min = 0 then Noodle.insertEps b ss.length b1.length else .ok b) := by
          split
          · exact insertEps_rel f3 _ _
          · exact .ok f3
        rcases hi.cases with ⟨x, g1, g2⟩ | ⟨a', b', g1, g2, g3⟩
        · simp only [g1, g2]; exact .error _
        · simp only [g1, g2]
          split
          · exact insertEps_rel g3 _ _
          · exact .ok g3

mutual
theorem build_rel (a : Ast) {bs : List State} {ss : List Noodle.State} (h : RM bs ss) :
    RelE RM (build a bs) (Noodle.build a ss) := by
  cases a with
  | cls c =>
    unfold build Noodle.build
    rw [h.len]
    exact .ok (h.snoc (rel_transition _ _))
  | alts l =>
    unfold build Noodle.build
    rw [h.len]
    rcases (buildTerms_rel l ss.length [] (h.snoc rel_fresh)).cases with ⟨x, e1, e2⟩ | ⟨p, q, e1, e2, e3, e4⟩
    · simp only [e1, e2]; exact .error _
    · obtain ⟨p1, p2⟩ := p
      obtain ⟨q1, q2⟩ := q
      simp only at e3 e4
      subst e4
      simp only [e1, e2, e3.len]
      exact overEnds_rel (fun _ _ e h => repointAlt_rel h _ e) _ e3
  | seq l =>
    unfold build Noodle.build
    exact buildSeq_rel l h
  | substr l =>
    unfold build Noodle.build
    rw [h.len]
    rcases (buildTerms_rel l ss.length [] (h.snoc rel_fresh)).cases with ⟨x, e1, e2⟩ | ⟨p, q, e1, e2, e3, e4⟩
    · simp only [e1, e2]; exact .error _
    · obtain ⟨p1, p2⟩ := p
      obtain ⟨q1, q2⟩ := q
      simp only at e3 e4
      subst e4
      simp only [e1, e2, e3.len]
      exact overEnds_rel (fun _ _ e h => exitSub_rel h _ e) _ e3
  | rep t min max =>
    unfold build Noodle.build
    split
    · exact .ok h
    · split
      · exact build_rel t h
      · exact buildRep_rel (fun _ _ h => build_rel t h) min max h
  | anagram k b => unfold build Noodle.build; exact .error _
theorem buildSeq_rel (l : List Ast) {bs : List State} {ss : List Noodle.State} (h : RM bs ss) :
    RelE RM (buildSeq l bs) (Noodle.buildSeq l ss) := by
  cases l with
  | nil => unfold buildSeq Noodle.buildSeq; exact .ok h
  | cons a l =>
    unfold buildSeq Noodle.buildSeq
    rcases (build_rel a h).cases with ⟨x, e1, e2⟩ | ⟨p, q, e1, e2, e3⟩
    · simp only [e1, e2]; exact .error _
    · simp only [e1, e2]; exact buildSeq_rel l e3
theorem buildTerms_rel (l : List Ast) (start : Nat) (ends : List Nat) {bs : List State} {ss : List Noodle.State}
    (h : RM bs ss) : RelE (fun p q => RM p.1 q.1 ∧ p.2 = q.2) (buildTerms l start bs ends)
      (Noodle.buildTerms l start ss ends) := by
  cases l with
  | nil => unfold buildTerms Noodle.buildTerms; exact .ok ⟨h, rfl⟩
  | cons a l =>
    unfold buildTerms Noodle.buildTerms
    rw [h.len]
    rcases (insertEps_rel h start ss.length).cases with ⟨x, e1, e2⟩ | ⟨p, q, e1, e2, e3⟩
    · simp only [e1, e2]; exact .error _
    · simp only [e1, e2]
      rcases (build_rel a e3).cases with ⟨x, f1, f2⟩ | ⟨p', q', f1, f2, f3⟩
      · simp only [f1, f2]; exact .error _
      · simp only [f1, f2, f3.len]; exact buildTerms_rel l start _ f3
end

theorem rawStates_rel (a : Ast) : RelE RM (rawStates a) (Noodle.rawStates a) := by
  unfold rawStates Noodle.rawStates
  rcases (build_rel a (bs := []) (ss := []) .nil).cases with ⟨x, e1, e2⟩ | ⟨p, q, e1, e2, e3⟩
  · simp only [e1, e2]; exact .error _
  · simp only [e1, e2, e3.len]; exact .ok (e3.snoc (rel_transition _ _))

end Noodle.Blk
