import Verif.Proofs.Chars
import Verif.Proofs.BuildEq
/-
The language of the unoptimised automaton of a plain expression.
-/
namespace Noodle
set_option autoImplicit false
open Spec

/-- `A` contains the block `b` at offset `o`. -/
def Has (A : Auto) (o : Nat) (b : List State) : Prop := ∀ (i : Nat) (st : State), b[i]? = some st → A (o + i) = some st

/-- The edges of the block stay between its first state and its exit. -/
def Stay (o : Nat) (b : List State) : Prop :=
  ∀ st ∈ b, (∀ y, st.eps.testBit y = true → o ≤ y ∧ y ≤ o + b.length) ∧
    (st.cls ≠ CharSet.empty → o ≤ st.next ∧ st.next ≤ o + b.length)

theorem autoAt_some {o : Nat} {b : List State} {x : Nat} {st : State} :
    autoAt o b x = some st ↔ ∃ i : Nat, x = o + i ∧ b[i]? = some st := by
  unfold autoAt
  constructor
  · intro h
    by_cases hx : o ≤ x
    · rw [if_pos hx] at h; exact ⟨x - o, by omega, h⟩
    · rw [if_neg hx] at h; cases h
  · rintro ⟨i, rfl, h⟩
    rw [if_pos (by omega), show o + i - o = i by omega, h]

theorem Has.self (o : Nat) (b : List State) : Has (autoAt o b) o b := fun i _ h => autoAt_some.2 ⟨i, rfl, h⟩

theorem Has.left {A : Auto} {o : Nat} {b1 b2 : List State} (h : Has A o (b1 ++ b2)) : Has A o b1 := by
  intro i st hi
  apply h
  rw [List.getElem?_append_left (List.getElem?_eq_some_iff.1 hi).1, hi]

theorem Has.right {A : Auto} {o : Nat} {b1 b2 : List State} (h : Has A o (b1 ++ b2)) : Has A (o + b1.length) b2 := by
  intro i st hi
  have := h (b1.length + i) st (by rw [List.getElem?_append_right (by omega), show b1.length + i - b1.length = i by omega, hi])
  rw [← this, Nat.add_assoc]

theorem Has.head {A : Auto} {o : Nat} {st : State} {b : List State} (h : Has A o (st :: b)) : A o = some st := by
  simpa using h 0 st rfl

theorem Has.tail {A : Auto} {o : Nat} {st : State} {b : List State} (h : Has A o (st :: b)) : Has A (o + 1) b :=
  Has.right (b1 := [st]) h

/-- What the block does, the automaton does. -/
theorem Has.lift {A : Auto} {o : Nat} {b : List State} (h : Has A o b) {x z : Nat} {w : List Ch}
    (g : Walk (autoAt o b) x w z) : Walk A x w z := by
  have key : ∀ x st, autoAt o b x = some st → A x = some st := by
    intro x st hx
    obtain ⟨i, rfl, hi⟩ := autoAt_some.1 hx
    exact h i st hi
  refine Walk.mono ?_ ?_ g
  · rintro x y ⟨st, h1, h2⟩; exact .single ⟨st, key _ _ h1, h2⟩
  · rintro x c y ⟨st, h1, h2⟩; exact ⟨st, key _ _ h1, h2⟩

theorem walk_none {A : Auto} {x z : Nat} {w : List Ch} (h : A x = none) (g : Walk A x w z) : w = [] ∧ z = x := by
  cases g with
  | nil => exact ⟨rfl, rfl⟩
  | eps e _ => obtain ⟨st, h1, _⟩ := e; rw [h] at h1; cases h1
  | chr e _ => obtain ⟨st, h1, _⟩ := e; rw [h] at h1; cases h1

theorem autoAt_exit (o : Nat) (b : List State) : autoAt o b (o + b.length) = none := by
  unfold autoAt
  rw [if_pos (by omega), show o + b.length - o = b.length by omega]
  simp

theorem Has.ed {A : Auto} {o : Nat} {b : List State} (h : Has A o b) (hs : Stay o b) {x y : Nat} (h1 : o ≤ x)
    (h2 : x < o + b.length) (e : Ed A x y) : Ed (autoAt o b) x y ∧ o ≤ y ∧ y ≤ o + b.length := by
  obtain ⟨st, k1, k2⟩ := e
  obtain ⟨s, hb⟩ : ∃ s, b[x - o]? = some s := ⟨_, List.getElem?_eq_getElem (by omega)⟩
  have := h (x - o) _ hb
  rw [show o + (x - o) = x by omega, k1] at this
  cases this
  exact ⟨⟨_, autoAt_some.2 ⟨x - o, by omega, hb⟩, k2⟩, (hs _ (List.mem_of_getElem? hb)).1 y k2⟩

theorem Has.ce {A : Auto} {o : Nat} {b : List State} (h : Has A o b) (hs : Stay o b) {x y : Nat} {c : Ch} (h1 : o ≤ x)
    (h2 : x < o + b.length) (e : Ce A x c y) : Ce (autoAt o b) x c y ∧ o ≤ y ∧ y ≤ o + b.length := by
  obtain ⟨st, k1, k2, k3⟩ := e
  obtain ⟨s, hb⟩ : ∃ s, b[x - o]? = some s := ⟨_, List.getElem?_eq_getElem (by omega)⟩
  have := h (x - o) _ hb
  rw [show o + (x - o) = x by omega, k1] at this
  cases this
  refine ⟨⟨_, autoAt_some.2 ⟨x - o, by omega, hb⟩, k2, k3⟩, ?_⟩
  rw [← k3]
  exact (hs _ (List.mem_of_getElem? hb)).2 (CharSet.contains_ne_empty k2)

/-- A walk that starts in a block and ends outside it passes its exit. -/
theorem Has.split {A : Auto} {o : Nat} {b : List State} (h : Has A o b) (hs : Stay o b) {x z : Nat} {w : List Ch}
    (g : Walk A x w z) (hz : z < o ∨ o + b.length ≤ z) (h1 : o ≤ x) (h2 : x ≤ o + b.length) :
    ∃ u v, w = u ++ v ∧ Walk (autoAt o b) x u (o + b.length) ∧ Walk A (o + b.length) v z := by
  induction g with
  | nil x =>
    obtain rfl : x = o + b.length := by omega
    exact ⟨[], [], rfl, .nil _, .nil _⟩
  | eps e g ih =>
    rename_i x y z w
    by_cases hx : x = o + b.length
    · subst hx; exact ⟨[], w, rfl, .nil _, .eps e g⟩
    · obtain ⟨k1, k2, k3⟩ := h.ed hs h1 (by omega) e
      obtain ⟨u, v, rfl, g1, g2⟩ := ih hz k2 k3
      exact ⟨u, v, rfl, .eps k1 g1, g2⟩
  | chr e g ih =>
    rename_i x y z c w
    by_cases hx : x = o + b.length
    · subst hx; exact ⟨[], c :: w, rfl, .nil _, .chr e g⟩
    · obtain ⟨k1, k2, k3⟩ := h.ce hs h1 (by omega) e
      obtain ⟨u, v, rfl, g1, g2⟩ := ih hz k2 k3
      exact ⟨c :: u, v, rfl, .chr k1 g1, g2⟩

/-- A family of blocks with a given size and language. -/
structure Good (b : Nat → List State) (k : Nat) (L : List Ch → Prop) : Prop where
  len : ∀ o, (b o).length = k
  stay : ∀ o, Stay o (b o)
  lang : ∀ o w, Walk (autoAt o (b o)) o w (o + k) ↔ L w

theorem Good.through {b : Nat → List State} {k : Nat} {L : List Ch → Prop} (g : Good b k L) {A : Auto} {o : Nat}
    (h : Has A o (b o)) {w : List Ch} {z : Nat} (hz : z < o ∨ o + k ≤ z) (hw : Walk A o w z) :
    ∃ u v, w = u ++ v ∧ L u ∧ Walk A (o + k) v z := by
  have hl := g.len o
  obtain ⟨u, v, rfl, h1, h2⟩ := h.split (g.stay o) hw (by omega) (Nat.le_refl _) (by omega)
  rw [hl] at h1 h2
  exact ⟨u, v, rfl, (g.lang o u).1 h1, h2⟩

theorem Good.enter {b : Nat → List State} {k : Nat} {L : List Ch → Prop} (g : Good b k L) {A : Auto} {o : Nat}
    (h : Has A o (b o)) {u v : List Ch} {z : Nat} (hu : L u) (hv : Walk A (o + k) v z) : Walk A o (u ++ v) z :=
  (h.lift ((g.lang o u).2 hu)).trans hv

theorem Stay.mono {o o' : Nat} {b b' : List State} (h : Stay o b) (h1 : o' ≤ o) (h2 : o + b.length ≤ o' + b'.length) :
    ∀ st ∈ b, (∀ y, st.eps.testBit y = true → o' ≤ y ∧ y ≤ o' + b'.length) ∧
      (st.cls ≠ CharSet.empty → o' ≤ st.next ∧ st.next ≤ o' + b'.length) := by
  intro st hst
  obtain ⟨k1, k2⟩ := h st hst
  refine ⟨fun y hy => ?_, fun hc => ?_⟩
  · have := k1 y hy; omega
  · have := k2 hc; omega

theorem Stay.append {o : Nat} {b1 b2 : List State} (h1 : Stay o b1) (h2 : Stay (o + b1.length) b2) :
    Stay o (b1 ++ b2) := by
  intro st hst
  rcases List.mem_append.1 hst with h | h
  · exact h1.mono (b' := b1 ++ b2) (Nat.le_refl _) (by simp) st h
  · exact h2.mono (b' := b1 ++ b2) (by omega) (by simp; omega) st h

theorem Good.nil : Good (fun _ => []) 0 (· = []) where
  len := fun _ => rfl
  stay := fun _ st h => by cases h
  lang := fun o w => by
    constructor
    · intro h; exact (walk_none (by unfold autoAt; simp) h).1
    · rintro rfl; exact .nil _

theorem Good.append {b1 b2 : Nat → List State} {k1 k2 : Nat} {L1 L2 : List Ch → Prop} (g1 : Good b1 k1 L1)
    (g2 : Good b2 k2 L2) :
    Good (fun o => b1 o ++ b2 (o + k1)) (k1 + k2) (fun w => ∃ u v, w = u ++ v ∧ L1 u ∧ L2 v) where
  len := fun o => by rw [List.length_append, g1.len, g2.len]
  stay := fun o => by
    have := g2.stay (o + (b1 o).length)
    rw [g1.len] at this
    refine (g1.stay o).append ?_
    rw [g1.len]; exact this
  lang := fun o w => by
    have hH := Has.self o (b1 o ++ b2 (o + k1))
    have h1 := hH.left
    have h2 := hH.right
    rw [g1.len] at h2
    have hend : autoAt o (b1 o ++ b2 (o + k1)) (o + k1 + k2) = none := by
      have := autoAt_exit o (b1 o ++ b2 (o + k1))
      rwa [List.length_append, g1.len, g2.len, ← Nat.add_assoc] at this
    rw [← Nat.add_assoc]
    constructor
    · intro hw
      obtain ⟨u, v, rfl, hu, hv⟩ := g1.through h1 (.inr (by omega)) hw
      obtain ⟨v1, v2, rfl, hv1, hv2⟩ := g2.through h2 (.inr (by omega)) hv
      obtain ⟨rfl, _⟩ := walk_none hend hv2
      exact ⟨u, v1, by simp, hu, hv1⟩
    · rintro ⟨u, v, rfl, hu, hv⟩
      refine g1.enter h1 hu ?_
      have := g2.enter h2 hv (.nil _)
      simpa using this

theorem Good.congr {b : Nat → List State} {k k' : Nat} {L L' : List Ch → Prop} (g : Good b k L) (hk : k = k')
    (hL : ∀ w, L w ↔ L' w) : Good b k' L' := by
  subst hk
  exact ⟨g.len, g.stay, fun o w => (g.lang o w).trans (hL w)⟩

theorem Good.seq {l : List Ast} (h : ∀ t ∈ l, Good (blk t) (states t) (Lang t)) :
    Good (blkSeq l) (statesAll l) (Lang (.seq l)) := by
  induction l with
  | nil =>
    have : blkSeq [] = fun _ => [] := by funext o; rw [blkSeq]
    rw [this]
    exact Good.nil.congr rfl (fun w => lang_seq_nil.symm)
  | cons a l ih =>
    have : blkSeq (a :: l) = fun o => blk a o ++ blkSeq l (o + states a) := by funext o; rw [blkSeq]
    rw [this]
    exact ((h a (by simp)).append (ih fun t ht => h t (by simp [ht]))).congr (by rw [statesAll])
      (fun w => lang_seq_cons.symm)

theorem Good.cls (c : CharSet) : Good (blk (.cls c)) (states (.cls c)) (Lang (.cls c)) where
  len := fun o => by rw [blk]; rfl
  stay := fun o st h => by
    rw [blk, List.mem_singleton] at h
    subst h
    refine ⟨by simp, fun _ => ?_⟩
    rw [blk]; simp
  lang := fun o w => by
    rw [blk, states, lang_cls]
    have h0 : autoAt o [(⟨0, c, o + 1⟩ : State)] o = some ⟨0, c, o + 1⟩ := (Has.self _ _).head
    have h1 : autoAt o [(⟨0, c, o + 1⟩ : State)] (o + 1) = none := autoAt_exit _ _
    generalize autoAt o [(⟨0, c, o + 1⟩ : State)] = A at h0 h1
    constructor
    · intro h
      generalize hz : o + 1 = z at h
      cases h with
      | nil => omega
      | eps e _ =>
        obtain ⟨st, k1, k2⟩ := e
        rw [h0] at k1; cases k1; simp at k2
      | chr e g =>
        obtain ⟨st, k1, k2, k3⟩ := e
        rw [h0] at k1; cases k1
        simp only [] at k2 k3
        subst k3
        obtain ⟨rfl, _⟩ := walk_none h1 g
        exact ⟨_, rfl, k2⟩
    · rintro ⟨x, rfl, hx⟩
      exact .chr ⟨_, h0, hx, rfl⟩ (.nil _)

/-! ### Alternatives -/

theorem mem_starts {l : List Ast} {p y : Nat} : y ∈ starts l p ↔ ∃ l1 a l2, l = l1 ++ a :: l2 ∧ y = p + statesAll l1 := by
  induction l generalizing p with
  | nil => simp [starts]
  | cons b l ih =>
    rw [starts, List.mem_cons, ih]
    constructor
    · rintro (rfl | ⟨l1, a, l2, rfl, rfl⟩)
      · exact ⟨[], b, l, rfl, by rw [statesAll]; rfl⟩
      · exact ⟨b :: l1, a, l2, rfl, by rw [statesAll]; omega⟩
    · rintro ⟨l1, a, l2, h, rfl⟩
      cases l1 with
      | nil => left; rw [statesAll]; rfl
      | cons b' l1 =>
        cases h
        right
        exact ⟨l1, a, l2, rfl, by rw [statesAll]; omega⟩

theorem statesAll_append (l l' : List Ast) : statesAll (l ++ l') = statesAll l + statesAll l' := by
  induction l with
  | nil => simp [statesAll]
  | cons a l ih => rw [List.cons_append, statesAll, ih, statesAll]; omega

theorem blkAlts_append (l l' : List Ast) (N p : Nat) :
    blkAlts (l ++ l') N p = blkAlts l N p ++ blkAlts l' N (p + statesAll l) := by
  induction l generalizing p with
  | nil => simp [blkAlts, statesAll]
  | cons a l ih => rw [List.cons_append, blkAlts, ih, blkAlts, statesAll, List.append_assoc, Nat.add_assoc]

/-- Only the last state of the block leads to its exit. -/
structure Funnel (o : Nat) (b : List State) : Prop where
  form : ∃ b' st, b = b' ++ [st] ∧
    (∀ s ∈ b', (∀ y, s.eps.testBit y = true → y ≤ o + b'.length) ∧ (s.cls ≠ CharSet.empty → s.next ≤ o + b'.length)) ∧
    (st.cls ≠ CharSet.empty → st.next = o + b'.length + 1)

theorem Funnel.prepend {o : Nat} {b c : List State} (hb : Stay o b) (h : Funnel (o + b.length) c) : Funnel o (b ++ c) := by
  obtain ⟨b', st, rfl, k1, k2⟩ := h.form
  refine ⟨b ++ b', st, by simp, fun s hs => ?_, fun hc => ?_⟩
  · rw [List.length_append, ← Nat.add_assoc]
    rcases List.mem_append.1 hs with hs | hs
    · obtain ⟨m1, m2⟩ := hb s hs
      exact ⟨fun y hy => by have := m1 y hy; omega, fun hc => by have := m2 hc; omega⟩
    · exact k1 s hs
  · rw [List.length_append, ← Nat.add_assoc]; exact k2 hc

/-- A block whose way on leads elsewhere does there what it did at its exit. -/
theorem Funnel.redirect {A : Auto} {o N : Nat} {b : List State} (f : Funnel o b) (hs : Stay o b)
    (hA : Has A o (repoint o N b)) (hN : A N = none) (hle : o + b.length ≤ N) (w : List Ch) :
    Walk A o w N ↔ Walk (autoAt o b) o w (o + b.length) := by
  obtain ⟨b', st, hb, k1, k2⟩ := f.form
  have hlen : b.length = b'.length + 1 := by rw [hb]; simp
  rw [hb, repoint_concat] at hA
  have hBx := autoAt_exit o b
  have hB0 := Has.self o b
  rw [hb] at hB0
  -- the states
  have inner : ∀ x, o ≤ x → x < o + b'.length → ∃ s, A x = some s ∧ autoAt o b x = some s ∧
      (∀ y, s.eps.testBit y = true → o ≤ y ∧ y < o + b.length) ∧ (s.cls ≠ CharSet.empty → o ≤ s.next ∧ s.next < o + b.length) := by
    intro x h1 h2
    have hi : x - o < b'.length := by omega
    have hg : b'[x - o]? = some b'[x - o] := List.getElem?_eq_getElem hi
    have hm : b'[x - o] ∈ b' := List.getElem_mem hi
    have e : o + (x - o) = x := by omega
    have a1 := hA.left _ _ hg
    have a2 := hB0.left _ _ hg
    rw [e] at a1 a2
    rw [← hb] at a2
    obtain ⟨m1, m2⟩ := k1 _ hm
    obtain ⟨n1, n2⟩ := hs _ (by rw [hb]; exact List.mem_append_left _ hm)
    exact ⟨_, a1, a2, fun y hy => by have := m1 y hy; have := n1 y hy; omega, fun hc => by have := m2 hc; have := n2 hc; omega⟩
  have last1 : A (o + b'.length) = some (retarget (o + b.length) N st) := by
    have := hA.right.head
    rwa [hlen, ← Nat.add_assoc]
  have last2 : autoAt o b (o + b'.length) = some st := by
    have := hB0.right.head
    rwa [← hb] at this
  have hst := (hs st (by rw [hb]; simp)).1
  have ret : ∀ y, (retarget (o + b.length) N st).eps.testBit y = true ↔
      (y ≠ o + b.length ∧ st.eps.testBit y = true) ∨ (y = N ∧ st.eps.testBit (o + b.length) = true) := by
    intro y
    unfold retarget
    by_cases ht : st.eps.testBit (o + b.length) = true
    · rw [if_pos ht]
      simp only []
      rw [Nat.testBit_or, testBit_maskRemove, testBit_one_shift, Bool.or_eq_true, Bool.and_eq_true, Bool.not_eq_true',
        decide_eq_true_eq, decide_eq_false_iff_not, ht]
      constructor
      · rintro (⟨h1, h2⟩ | rfl)
        · exact .inl ⟨fun k => h2 k.symm, h1⟩
        · exact .inr ⟨rfl, rfl⟩
      · rintro (⟨h1, h2⟩ | ⟨rfl, _⟩)
        · exact .inl ⟨h2, fun k => h1 k.symm⟩
        · exact .inr rfl
    · rw [if_neg ht]
      simp only []
      constructor
      · intro h; exact .inl ⟨by rintro rfl; exact ht h, h⟩
      · rintro (⟨_, h⟩ | ⟨_, h⟩)
        · exact h
        · exact absurd h ht
  have retc : (retarget (o + b.length) N st).cls = st.cls := by unfold retarget; split <;> rfl
  have retn : (retarget (o + b.length) N st).next = N := by unfold retarget; split <;> rfl
  -- forth
  have forth : ∀ {x z : Nat} {w : List Ch}, Walk A x w z → z = N →
      (x = N → w = []) ∧ (o ≤ x → x < o + b.length → Walk (autoAt o b) x w (o + b.length)) := by
    intro x z w g
    induction g with
    | nil x => rintro rfl; exact ⟨fun _ => rfl, fun h1 h2 => by omega⟩
    | eps e g ih =>
      rename_i x y z w
      intro hz
      obtain ⟨i1, i2⟩ := ih hz
      obtain ⟨s, s1, s2⟩ := e
      refine ⟨fun k => (by rw [k, hN] at s1; cases s1), fun h1 h2 => ?_⟩
      by_cases hx : x < o + b'.length
      · obtain ⟨s', a1, a2, a3, _⟩ := inner x h1 hx
        rw [s1] at a1; cases a1
        have := a3 y s2
        exact .eps ⟨_, a2, s2⟩ (i2 this.1 this.2)
      · obtain rfl : x = o + b'.length := by omega
        rw [last1] at s1; cases s1
        rcases (ret y).1 s2 with ⟨m1, m2⟩ | ⟨m1, m2⟩
        · have := hst y m2
          exact .eps ⟨_, last2, m2⟩ (i2 this.1 (by omega))
        · have := i1 m1
          subst this
          exact .eps ⟨_, last2, m2⟩ (.nil _)
    | chr e g ih =>
      rename_i x y z c w
      intro hz
      obtain ⟨i1, i2⟩ := ih hz
      obtain ⟨s, s1, s2, s3⟩ := e
      refine ⟨fun k => (by rw [k, hN] at s1; cases s1), fun h1 h2 => ?_⟩
      by_cases hx : x < o + b'.length
      · obtain ⟨s', a1, a2, _, a3⟩ := inner x h1 hx
        rw [s1] at a1; cases a1
        have := a3 (CharSet.contains_ne_empty s2)
        rw [s3] at this
        exact .chr ⟨_, a2, s2, s3⟩ (i2 this.1 this.2)
      · obtain rfl : x = o + b'.length := by omega
        rw [last1] at s1; cases s1
        rw [retc] at s2
        rw [retn] at s3
        have := i1 s3.symm
        subst this
        exact .chr ⟨_, last2, s2, (k2 (CharSet.contains_ne_empty s2)).trans (by omega)⟩ (.nil _)
  -- back
  have back : ∀ {x z : Nat} {w : List Ch}, Walk (autoAt o b) x w z → z = o + b.length →
      (x = o + b.length → w = []) ∧ (o ≤ x → x < o + b.length → Walk A x w N) := by
    intro x z w g
    induction g with
    | nil x => rintro rfl; exact ⟨fun _ => rfl, fun h1 h2 => by omega⟩
    | eps e g ih =>
      rename_i x y z w
      intro hz
      obtain ⟨i1, i2⟩ := ih hz
      obtain ⟨s, s1, s2⟩ := e
      refine ⟨fun k => (by rw [k, hBx] at s1; cases s1), fun h1 h2 => ?_⟩
      by_cases hx : x < o + b'.length
      · obtain ⟨s', a1, a2, a3, _⟩ := inner x h1 hx
        rw [s1] at a2; cases a2
        have := a3 y s2
        exact .eps ⟨_, a1, s2⟩ (i2 this.1 this.2)
      · obtain rfl : x = o + b'.length := by omega
        rw [last2] at s1; cases s1
        by_cases hy : y = o + b.length
        · have := i1 hy
          subst this
          exact .eps ⟨_, last1, (ret N).2 (.inr ⟨rfl, by rw [← hy]; exact s2⟩)⟩ (.nil _)
        · have := hst y s2
          exact .eps ⟨_, last1, (ret y).2 (.inl ⟨hy, s2⟩)⟩ (i2 this.1 (by omega))
    | chr e g ih =>
      rename_i x y z c w
      intro hz
      obtain ⟨i1, i2⟩ := ih hz
      obtain ⟨s, s1, s2, s3⟩ := e
      refine ⟨fun k => (by rw [k, hBx] at s1; cases s1), fun h1 h2 => ?_⟩
      by_cases hx : x < o + b'.length
      · obtain ⟨s', a1, a2, _, a3⟩ := inner x h1 hx
        rw [s1] at a2; cases a2
        have := a3 (CharSet.contains_ne_empty s2)
        rw [s3] at this
        exact .chr ⟨_, a1, s2, s3⟩ (i2 this.1 this.2)
      · obtain rfl : x = o + b'.length := by omega
        rw [last2] at s1; cases s1
        have := k2 (CharSet.contains_ne_empty s2)
        have := i1 (by omega)
        subst this
        exact .chr ⟨_, last1, by rw [retc]; exact s2, retn⟩ (.nil _)
  exact ⟨fun g => (forth g rfl).2 (Nat.le_refl _) (by omega), fun g => (back g rfl).2 (Nat.le_refl _) (by omega)⟩

/-- The last state of a term: it leads to the end, or it has no symbols (and edges, in the fragment). -/
structure LastOf (b : List State) (N : Nat) (tamed : Prop) : Prop where
  form : ∃ b' st, b = b' ++ [st] ∧ (st.next = N ∨ (st.cls = CharSet.empty ∧ (tamed → st.eps ≠ 0)))

theorem LastOf.prepend {b c : List State} {N : Nat} {P : Prop} (h : LastOf c N P) : LastOf (b ++ c) N P := by
  obtain ⟨b', st, rfl, k⟩ := h.form
  exact ⟨b ++ b', st, by simp, k⟩

theorem LastOf.mono {b : List State} {N : Nat} {P Q : Prop} (h : LastOf b N P) (hq : Q → P) : LastOf b N Q := by
  obtain ⟨b', st, hb, k⟩ := h.form
  exact ⟨b', st, hb, k.imp id fun ⟨k1, k2⟩ => ⟨k1, fun q => k2 (hq q)⟩⟩

theorem LastOf.repoint {b : List State} (hb : 0 < b.length) (p N : Nat) (P : Prop) : LastOf (Noodle.repoint p N b) N P := by
  obtain ⟨b', st, rfl⟩ : ∃ b' st, b = b' ++ [st] :=
    ⟨b.dropLast, b.getLast (by intro h; simp [h] at hb), (List.dropLast_concat_getLast _).symm⟩
  rw [repoint_concat]
  refine ⟨_, _, rfl, .inl ?_⟩
  unfold retarget; split <;> rfl

theorem blkAlts_last {P : Prop} : (l : List Ast) → plainAlts l = true → l ≠ [] → ∀ N p, LastOf (blkAlts l N p) N P
  | [], _, h, _, _ => absurd rfl h
  | [a], h, _, N, p => by
    rw [plainAlts, Bool.and_eq_true, decide_eq_true_eq] at h
    rw [blkAlts, blkAlts, List.append_nil]
    exact .repoint (by rw [blk_length a h.1]; exact h.2) _ _ _
  | a :: b :: l, h, _, N, p => by
    rw [plainAlts, Bool.and_eq_true] at h
    rw [blkAlts]
    exact (blkAlts_last (b :: l) h.2 (by simp) N _).prepend

theorem blkSub_last {P : Prop} (N : Nat) : (l : List Ast) → l ≠ [] → ∀ e p, LastOf (blkSub N e l p) (p + l.length) P
  | [], h, _, _ => absurd rfl h
  | [a], _, e, p => ⟨[], _, rfl, .inl rfl⟩
  | a :: b :: l, _, e, p => by
    rw [blkSub, List.length_cons, show p + ((b :: l).length + 1) = p + 1 + (b :: l).length by omega]
    exact (blkSub_last N (b :: l) (by simp) _ _).prepend (b := [_])

mutual
theorem blk_last : (a : Ast) → plain a = true → 0 < states a → ∀ o, LastOf (blk a o) (o + states a) (tame a = true)
  | .cls c, _, _, o => ⟨[], _, rfl, .inl rfl⟩
  | .alts l, h, _, o => by
    rw [plain] at h
    rw [blk, states]
    by_cases hl : l = []
    · subst hl
      rw [blkAlts]
      refine ⟨[], _, rfl, .inr ⟨rfl, fun ht => ?_⟩⟩
      rw [tame] at ht
      simp at ht
    · rw [show o + (1 + statesAll l) = o + 1 + statesAll l by omega]
      exact (blkAlts_last l h hl _ _).prepend (b := [_])
  | .seq l, h, hs, o => by
    rw [plain] at h
    rw [states] at hs
    rw [blk, states, tame]
    exact blkSeq_last l h hs o
  | .substr l, h, _, o => by
    rw [plain, Bool.and_eq_true, decide_eq_true_eq] at h
    rw [blk, states, statesAll_classes h.2, show o + (1 + l.length) = o + 1 + l.length by omega]
    exact (blkSub_last _ l (by rintro rfl; simp at h) _ _).prepend (b := [_])
  | .rep t lo hi, h, hs, o => by
    rw [plain] at h
    rw [states] at hs
    rw [blk, states, tame]
    by_cases h0 : lo = 0 ∧ hi = some 0
    · rw [if_pos h0] at hs; omega
    · rw [if_neg h0, Bool.and_eq_true] at h
      rw [if_neg h0] at hs ⊢
      rw [if_neg h0, if_neg h0]
      by_cases h1 : lo = 1 ∧ hi = some 1
      · rw [if_pos h1] at hs ⊢
        rw [if_pos h1, if_pos h1]
        exact blk_last t h.2 hs o
      · rw [if_neg h1, if_neg h1, if_neg h1]
        unfold repBlk
        simp only []
        rw [← List.cons_append]
        refine ⟨_, _, rfl, .inr ⟨rfl, fun _ => ?_⟩⟩
        intro h0
        have := (testBit_maskOf ((o + 1 + nCopies lo hi * states t + 1) :: if hi = none then
          [o + 1 + (nCopies lo hi - 1) * states t] else []) (o + 1 + nCopies lo hi * states t + 1)).2 (by simp)
        simp only [] at h0
        rw [h0] at this
        simp at this
  | .anagram _ _, h, _, o => by simp [plain] at h
theorem blkSeq_last : (l : List Ast) → plainAll l = true → 0 < statesAll l → ∀ o,
    LastOf (blkSeq l o) (o + statesAll l) (tameAll l = true)
  | [], _, hs, _ => by rw [statesAll] at hs; omega
  | a :: l, h, hs, o => by
    rw [plainAll, Bool.and_eq_true] at h
    rw [statesAll] at hs
    rw [blkSeq, statesAll, tameAll]
    by_cases hl : 0 < statesAll l
    · rw [← Nat.add_assoc]
      exact ((blkSeq_last l h.2 hl _).prepend).mono fun ht => by
        rw [Bool.and_eq_true] at ht; exact ht.2
    · have : blkSeq l (o + states a) = [] := List.length_eq_zero_iff.1 (by rw [blkSeq_length l h.2]; omega)
      rw [this, List.append_nil, show states a + statesAll l = states a by omega]
      exact (blk_last a h.1 (by omega) o).mono fun ht => by
        rw [Bool.and_eq_true] at ht; exact ht.1
end

/-- The automaton with one state replaced. -/
def swapAt (A : Auto) (e : Nat) (st : State) : Auto := fun x => if x = e then some st else A x

theorem walk_swap {A : Auto} {e : Nat} {st st' : State} (h : A e = some st) (he : st'.eps = st.eps) (hc : st'.cls = st.cls)
    (hn : st.cls ≠ CharSet.empty → st'.next = st.next) {x z : Nat} {w : List Ch} : Walk (swapAt A e st') x w z ↔ Walk A x w z := by
  have hed : ∀ x y, Ed (swapAt A e st') x y ↔ Ed A x y := by
    intro x y
    unfold Ed swapAt
    by_cases hx : x = e
    · subst hx; simp [h, he]
    · simp [hx]
  have hce : ∀ x c y, Ce (swapAt A e st') x c y ↔ Ce A x c y := by
    intro x c y
    unfold Ce swapAt
    by_cases hx : x = e
    · subst hx
      simp only [if_true, h, Option.some.injEq, exists_eq_left', hc]
      constructor
      · rintro ⟨k1, k2⟩; exact ⟨k1, by rw [← hn (CharSet.contains_ne_empty k1)]; exact k2⟩
      · rintro ⟨k1, k2⟩; exact ⟨k1, by rw [hn (CharSet.contains_ne_empty k1)]; exact k2⟩
    · simp [hx]
  constructor
  · intro g
    induction g with
    | nil => exact .nil _
    | eps e _ ih => exact .eps ((hed _ _).1 e) ih
    | chr e _ ih => exact .chr ((hce _ _ _).1 e) ih
  · intro g
    induction g with
    | nil => exact .nil _
    | eps e _ ih => exact .eps ((hed _ _).2 e) ih
    | chr e _ ih => exact .chr ((hce _ _ _).2 e) ih

theorem plainAll_left {l l' : List Ast} (h : plainAll (l ++ l') = true) : plainAll l = true := by
  induction l with
  | nil => rfl
  | cons b l ih =>
    rw [List.cons_append, plainAll, Bool.and_eq_true] at h
    rw [plainAll, h.1, ih h.2]; rfl

theorem plainAlts_tail {a : Ast} {l : List Ast} (h : plainAlts (a :: l) = true) : plainAlts l = true := by
  cases l with
  | nil => rfl
  | cons b l => rw [plainAlts, Bool.and_eq_true] at h; exact h.2

theorem plainAlts_right {l l' : List Ast} (h : plainAlts (l ++ l') = true) : plainAlts l' = true := by
  induction l with
  | nil => exact h
  | cons b l ih => exact ih (plainAlts_tail h)

theorem plainAlts_last {l : List Ast} {a : Ast} (h : plainAlts (l ++ [a]) = true) : plain a = true ∧ 0 < states a := by
  have := plainAlts_right h
  rw [plainAlts, Bool.and_eq_true, decide_eq_true_eq] at this
  exact this

theorem plainAlts_mid {l l' : List Ast} {a b : Ast} (h : plainAlts (l ++ a :: b :: l') = true) : plainEnd a = true := by
  have := plainAlts_right h
  rw [plainAlts, Bool.and_eq_true] at this
  exact this.1

/-- The alternatives: all but the last have their way on in their last state. -/
structure GoodAlts (l : List Ast) : Prop where
  plain : plainAlts l = true
  good : ∀ a ∈ l, Good (blk a) (states a) (Lang a)
  ends : ∀ l1 a b l2, l = l1 ++ a :: b :: l2 → ∀ p, Funnel p (blk a p)

theorem GoodAlts.tail {a b : Ast} {l : List Ast} (h : GoodAlts (a :: b :: l)) : GoodAlts (b :: l) where
  plain := by have := h.plain; rw [plainAlts, Bool.and_eq_true] at this; exact this.2
  good := fun t ht => h.good t (by simp only [List.mem_cons] at ht ⊢; exact .inr ht)
  ends := fun l1 c d l2 hl => h.ends (a :: l1) c d l2 (by rw [hl]; rfl)

theorem blkAlts_len {l : List Ast} (h : GoodAlts l) (N p : Nat) : (blkAlts l N p).length = statesAll l :=
  blkAlts_length l (plainAlts_plain h.plain) N p

/-- Where the states of the alternatives lead. -/
def StayTo (p N : Nat) (b : List State) : Prop := ∀ st ∈ b, (∀ y, st.eps.testBit y = true → p ≤ y ∧ y ≤ N) ∧
      (st.cls ≠ CharSet.empty → p ≤ st.next ∧ st.next ≤ N)

theorem StayTo.repoint {p N : Nat} {b : List State} (h : StayTo p N b) (hN : p ≤ N) : StayTo p N (repoint p N b) := by
  rcases List.eq_nil_or_concat b with rfl | ⟨b', st, rfl⟩
  · intro st hst; cases hst
  rw [List.concat_eq_append] at h ⊢
  rw [repoint_concat]
  intro s hs
  rcases List.mem_append.1 hs with hs | hs
  · exact h s (List.mem_append_left _ hs)
  · rw [List.mem_singleton] at hs
    subst hs
    have := h st (by simp)
    unfold retarget
    split
    · refine ⟨fun y hy => ?_, fun _ => ⟨hN, Nat.le_refl _⟩⟩
      simp only [] at hy
      rw [Nat.testBit_or, testBit_maskRemove, testBit_one_shift, Bool.or_eq_true, Bool.and_eq_true, decide_eq_true_eq] at hy
      rcases hy with hy | rfl
      · exact this.1 y hy.1
      · omega
    · exact ⟨this.1, fun _ => ⟨hN, Nat.le_refl _⟩⟩

theorem blkAlts_stay {l : List Ast} (h : ∀ a ∈ l, Good (blk a) (states a) (Lang a)) (N p : Nat) (hN : p + statesAll l ≤ N) :
    StayTo p N (blkAlts l N p) := by
  induction l generalizing p with
  | nil => intro st hst; rw [blkAlts] at hst; cases hst
  | cons a l ih =>
    rw [statesAll] at hN
    intro st hst
    rw [blkAlts, List.mem_append] at hst
    rcases hst with hst | hst
    · have g := h a (by simp)
      refine StayTo.repoint (b := blk a p) (fun st hst => ?_) (by omega) st hst
      obtain ⟨k1, k2⟩ := g.stay p st hst
      rw [g.len] at k1 k2
      refine ⟨fun y hy => ?_, fun hc => ?_⟩
      · have := k1 y hy; omega
      · have := k2 hc; omega
    · obtain ⟨k1, k2⟩ := ih (fun t ht => h t (by simp [ht])) (p + states a) (by omega) st hst
      refine ⟨fun y hy => ?_, fun hc => ?_⟩
      · have := k1 y hy; omega
      · have := k2 hc; omega

/-- The last alternative. -/
theorem Good.last {a : Ast} (g : Good (blk a) (states a) (Lang a)) (hp : plain a = true) (hs : 0 < states a) {A : Auto}
    {p : Nat} (hH : Has A p (repoint p (p + states a) (blk a p))) (hN : A (p + states a) = none) (w : List Ch) :
    Walk A p w (p + states a) ↔ Lang a w := by
  obtain ⟨b', st, hb, hl⟩ := (blk_last a hp hs p).form
  have hlen := blk_length a hp p
  rw [hb, List.length_append, List.length_singleton] at hlen
  have hr : repoint p (p + states a) (blk a p) = b' ++ [{ st with next := p + states a }] := by
    rw [hb, repoint_concat, ← retarget_self]
    congr 3; omega
  rw [hr] at hH
  have h1 := hH.right.head
  have hB : Has (swapAt A (p + b'.length) st) p (blk a p) := by
    intro i s hi
    unfold swapAt
    rw [hb] at hi
    by_cases hib : i < b'.length
    · rw [if_neg (by omega)]
      rw [List.getElem?_append_left hib] at hi
      exact hH.left i s hi
    · rw [List.getElem?_append_right (by omega)] at hi
      have hi0 : i - b'.length = 0 := by
        rw [List.getElem?_eq_some_iff] at hi
        obtain ⟨hlt, _⟩ := hi
        simp at hlt; omega
      rw [hi0] at hi
      rw [if_pos (by omega)]
      exact hi
  have hN' : swapAt A (p + b'.length) st (p + states a) = none := by
    unfold swapAt
    rw [if_neg (by omega)]; exact hN
  rw [← walk_swap (st' := st) h1 rfl rfl (fun hc => by
    rcases hl with hl | hl
    · exact hl
    · exact absurd hl.1 hc)]
  constructor
  · intro hw
    obtain ⟨u, v, rfl, hu, hv⟩ := g.through hB (.inr (by omega)) hw
    obtain ⟨rfl, _⟩ := walk_none hN' hv
    simpa using hu
  · intro hw
    simpa using g.enter hB hw (.nil _)

theorem Good.alts {l : List Ast} (h : GoodAlts l) : Good (blk (.alts l)) (states (.alts l)) (Lang (.alts l)) where
  len := fun o => by rw [blk, List.length_cons, blkAlts_len h, states, Nat.add_comm]
  stay := fun o st hst => by
    have hlen : (blk (.alts l) o).length = 1 + statesAll l := by rw [blk, List.length_cons, blkAlts_len h, Nat.add_comm]
    rw [hlen]
    rw [blk, List.mem_cons] at hst
    rcases hst with rfl | hst
    · refine ⟨fun y hy => ?_, fun hc => absurd rfl hc⟩
      rw [testBit_maskOf, mem_starts] at hy
      obtain ⟨l1, a, l2, rfl, rfl⟩ := hy
      rw [statesAll_append]
      omega
    · obtain ⟨k1, k2⟩ := blkAlts_stay h.good _ _ (Nat.le_refl _) st hst
      refine ⟨fun y hy => ?_, fun hc => ?_⟩
      · have := k1 y hy; omega
      · have := k2 hc; omega
  lang := fun o w => by
    have hlen : (blk (.alts l) o).length = states (.alts l) := by
      rw [blk, List.length_cons, blkAlts_len h, states, Nat.add_comm]
    have hN := autoAt_exit o (blk (.alts l) o)
    rw [hlen] at hN
    have hH := Has.self o (blk (.alts l) o)
    generalize autoAt o (blk (.alts l) o) = A at hN hH
    rw [blk] at hH
    have h0 := hH.head
    have hA := hH.tail
    have hNe : o + states (.alts l) = o + 1 + statesAll l := by rw [states]; omega
    rw [hNe] at hN ⊢
    have key : ∀ l1 a l2, l = l1 ++ a :: l2 → ∀ w, Walk A (o + 1 + statesAll l1) w (o + 1 + statesAll l) ↔ Lang a w := by
      intro l1 a l2 hl w
      have hpl := plainAlts_plain h.plain
      have hpl1 : plainAll l1 = true := by rw [hl] at hpl; exact plainAll_left hpl
      have hA1 := hA
      rw [hl, blkAlts_append] at hA1
      have hA2 := hA1.right
      rw [blkAlts_length l1 hpl1, blkAlts, ← hl] at hA2
      have hA' := hA2.left
      have hsz : statesAll l = statesAll l1 + (states a + statesAll l2) := by rw [hl, statesAll_append, statesAll]
      cases l2 with
      | nil =>
        rw [statesAll, Nat.add_zero] at hsz
        have hpa := plainAlts_last (l := l1) (a := a) (by rw [← hl]; exact h.plain)
        rw [hsz, ← Nat.add_assoc] at hA' hN ⊢
        exact (h.good a (by simp [hl])).last hpa.1 hpa.2 hA' hN w
      | cons b l2 =>
        have f := h.ends l1 a b l2 hl (o + 1 + statesAll l1)
        have g := h.good a (by simp [hl])
        have hlen := g.len (o + 1 + statesAll l1)
        rw [f.redirect (g.stay _) hA' hN (by omega), hlen]
        exact g.lang _ w
    rw [lang_alts]
    constructor
    · intro hw
      generalize hz : o + 1 + statesAll l = z at hw
      cases hw with
      | nil => omega
      | eps e gw =>
        obtain ⟨st, k1, k2⟩ := e
        rw [h0] at k1; cases k1
        rw [testBit_maskOf, mem_starts] at k2
        obtain ⟨l1, a, l2, hl, rfl⟩ := k2
        rw [← hz] at gw
        exact ⟨a, by simp [hl], (key l1 a l2 hl w).1 gw⟩
      | chr e _ =>
        obtain ⟨st, k1, k2, _⟩ := e
        rw [h0] at k1; cases k1
        exact absurd rfl (CharSet.contains_ne_empty k2)
    · rintro ⟨a, ha, hw⟩
      obtain ⟨l1, l2, hl⟩ := List.append_of_mem ha
      refine .eps ⟨_, h0, ?_⟩ ((key l1 a l2 hl w).2 hw)
      rw [testBit_maskOf, mem_starts]
      exact ⟨l1, a, l2, hl, rfl⟩

/-! ### Substring groups -/

theorem blkSub_get (N e : Nat) (l : List Ast) (p i : Nat) : (blkSub N e l p)[i]? =
    (l[i]?).map fun a => ⟨if i = 0 then e else 1 <<< N, clsOf a, p + i + 1⟩ := by
  induction l generalizing e p i with
  | nil => simp [blkSub]
  | cons a l ih =>
    cases i with
    | zero => simp [blkSub]
    | succ i =>
      rw [blkSub, List.getElem?_cons_succ, ih, List.getElem?_cons_succ]
      congr 1
      funext a
      rw [if_neg (by omega : ¬ i + 1 = 0)]
      congr 1
      · split <;> rfl
      · omega

theorem starts_classes {l : List Ast} (h : l.all isClass = true) (p y : Nat) : y ∈ starts l p ↔ p ≤ y ∧ y < p + l.length := by
  induction l generalizing p with
  | nil => simp [starts]
  | cons a l ih =>
    rw [List.all_cons, Bool.and_eq_true] at h
    obtain ⟨c, rfl, _⟩ := isClass_iff.1 h.1
    rw [starts, List.mem_cons, ih h.2, states, List.length_cons]
    omega

theorem Good.substr {l : List Ast} (hlen : 2 ≤ l.length) (h : l.all isClass = true) :
    Good (blk (.substr l)) (states (.substr l)) (Lang (.substr l)) where
  len := fun o => by rw [blk, List.length_cons, blkSub_length, states, statesAll_classes h, Nat.add_comm]
  stay := fun o st hst => by
    have hl : (blk (.substr l) o).length = 1 + l.length := by rw [blk, List.length_cons, blkSub_length, Nat.add_comm]
    rw [hl]
    rw [blk, List.mem_cons, statesAll_classes h] at hst
    rcases hst with rfl | hst
    · refine ⟨fun y hy => ?_, fun hc => absurd rfl hc⟩
      rw [testBit_maskOf, starts_classes h] at hy
      omega
    · obtain ⟨i, hi, rfl⟩ := List.mem_iff_getElem.1 hst
      have hg := List.getElem?_eq_getElem hi
      rw [blkSub_length] at hi
      rw [blkSub_get, List.getElem?_eq_getElem hi, Option.map_some] at hg
      rw [← Option.some.inj hg]
      refine ⟨fun y hy => ?_, fun _ => ?_⟩
      · simp only [] at hy
        split at hy
        · simp at hy
        · rw [testBit_one_shift, decide_eq_true_eq] at hy; omega
      · simp only []
        omega
  lang := fun o w => by
    have hl : (blk (.substr l) o).length = states (.substr l) := by
      rw [blk, List.length_cons, blkSub_length, states, statesAll_classes h, Nat.add_comm]
    have hN := autoAt_exit o (blk (.substr l) o)
    rw [hl] at hN
    have hH := Has.self o (blk (.substr l) o)
    generalize autoAt o (blk (.substr l) o) = A at hN hH
    rw [blk] at hH
    have h0 := hH.head
    have hA := hH.tail
    have hNe : o + states (.substr l) = o + 1 + l.length := by rw [states, statesAll_classes h]; omega
    rw [statesAll_classes h] at hA
    rw [hNe] at hN ⊢
    have hst : ∀ j c l2, l.drop j = .cls c :: l2 → j < l.length ∧
        A (o + 1 + j) = some ⟨if j = 0 then 0 else 1 <<< (o + 1 + l.length), c, o + 1 + j + 1⟩ := by
      intro j c l2 hd
      have hg : l[j]? = some (.cls c) := by
        have := congrArg List.head? hd
        rwa [List.head?_drop] at this
      refine ⟨(List.getElem?_eq_some_iff.1 hg).1, hA j _ ?_⟩
      rw [blkSub_get, hg]; rfl
    have hall : ∀ j a l2, l.drop j = a :: l2 → ∃ c, a = .cls c := by
      intro j a l2 hd
      rw [List.all_eq_true] at h
      have : a ∈ l := List.mem_of_mem_drop (i := j) (by rw [hd]; simp)
      obtain ⟨c, rfl, _⟩ := isClass_iff.1 (h a this)
      exact ⟨c, rfl⟩
    have key : ∀ rest j, l.drop j = rest → j ≤ l.length → ∀ w, Walk A (o + 1 + j) w (o + 1 + l.length) ↔
        ∃ mid post, rest = mid ++ post ∧ Lang (.seq mid) w ∧ (mid ≠ [] ∨ 0 < j) := by
      intro rest
      induction rest with
      | nil =>
        intro j hd hj w
        have : l.length ≤ j := by simpa using hd
        obtain rfl : j = l.length := by omega
        constructor
        · intro hw
          obtain ⟨rfl, _⟩ := walk_none hN hw
          exact ⟨[], [], rfl, .seqNil, .inr (by omega)⟩
        · rintro ⟨mid, post, hm, hl, _⟩
          have : mid = [] := by simpa using (List.append_eq_nil_iff.1 hm.symm).1
          subst this
          rw [lang_seq_nil] at hl
          subst hl; exact .nil _
      | cons a rest ih =>
        intro j hd hj w
        obtain ⟨c, rfl⟩ := hall j a rest hd
        obtain ⟨hjl, hs⟩ := hst j c rest hd
        have hd' : l.drop (j + 1) = rest := by rw [← List.drop_drop, hd]; rfl
        have ih := ih (j + 1) hd' hjl
        constructor
        · intro hw
          generalize hz : o + 1 + l.length = z at hw
          cases hw with
          | nil => omega
          | eps e gw =>
            obtain ⟨st, k1, k2⟩ := e
            rw [hs] at k1; cases k1
            simp only [] at k2
            by_cases hj0 : j = 0
            · rw [if_pos hj0] at k2; simp at k2
            · rw [if_neg hj0, testBit_one_shift, decide_eq_true_eq] at k2
              subst k2
              obtain ⟨rfl, _⟩ := walk_none hN gw
              exact ⟨[], _, rfl, .seqNil, .inr (by omega)⟩
          | chr e gw =>
            obtain ⟨st, k1, k2, k3⟩ := e
            rw [hs] at k1; cases k1
            simp only [] at k2 k3
            subst k3
            rw [← hz] at gw
            obtain ⟨mid, post, hm, hl, _⟩ := (ih _).1 (by rw [← Nat.add_assoc]; exact gw)
            refine ⟨.cls c :: mid, post, by rw [hm]; rfl, ?_, .inl (by simp)⟩
            exact Lang.seqCons (.cls k2) hl
        · rintro ⟨mid, post, hm, hl, hne⟩
          cases mid with
          | nil =>
            have hj0 : j ≠ 0 := by rcases hne with h | h; exact absurd rfl h; omega
            rw [lang_seq_nil] at hl
            subst hl
            refine .eps ⟨_, hs, ?_⟩ (.nil _)
            simp only []
            rw [if_neg hj0, testBit_one_shift]; simp
          | cons m mid =>
            rw [List.cons_append, List.cons.injEq] at hm
            obtain ⟨rfl, hm⟩ := hm
            obtain ⟨u, v, rfl, hu, hv⟩ := lang_seq_cons.1 hl
            obtain ⟨x, rfl, hx⟩ := lang_cls.1 hu
            refine .chr ⟨_, hs, hx, rfl⟩ ?_
            exact (ih _).2 ⟨mid, post, hm, hv, .inr (by omega)⟩
    rw [lang_substr]
    constructor
    · intro hw
      generalize hz : o + 1 + l.length = z at hw
      cases hw with
      | nil => omega
      | eps e gw =>
        obtain ⟨st, k1, k2⟩ := e
        rw [h0] at k1; cases k1
        rw [testBit_maskOf, starts_classes h] at k2
        rename_i y
        obtain ⟨j, rfl⟩ : ∃ j, y = o + 1 + j := ⟨y - (o + 1), by omega⟩
        rw [← hz] at gw
        obtain ⟨mid, post, hm, hl, _⟩ := (key _ j rfl (by omega) w).1 gw
        exact ⟨l.take j, mid, post, by rw [List.append_assoc, ← hm, List.take_append_drop], hl⟩
      | chr e _ =>
        obtain ⟨st, k1, k2, _⟩ := e
        rw [h0] at k1; cases k1
        exact absurd rfl (CharSet.contains_ne_empty k2)
    · rintro ⟨pre, mid, post, hl, hm⟩
      have hgo : ∀ j, j < l.length → Walk A (o + 1 + j) w (o + 1 + l.length) → Walk A o w (o + 1 + l.length) := by
        intro j hj hw
        refine .eps ⟨_, h0, ?_⟩ hw
        rw [testBit_maskOf, starts_classes h]; omega
      cases mid with
      | nil =>
        exact hgo 1 (by omega) ((key _ 1 rfl (by omega) w).2 ⟨[], _, rfl, hm, .inr (by omega)⟩)
      | cons m mid =>
        have hdrop : l.drop pre.length = (m :: mid) ++ post := by rw [hl, List.append_assoc, List.drop_left]
        have hpl : pre.length < l.length := by rw [hl]; simp
        exact hgo pre.length hpl ((key _ _ hdrop (by omega) w).2 ⟨m :: mid, post, rfl, hm, .inl (by simp)⟩)

/-! ### Repetitions -/

theorem Good.copies {f : Nat → List State} {k : Nat} {t : Ast} (g : Good f k (Lang t)) (r : Nat) :
    Good (copies f k r) (r * k) (Lang (.seq (List.replicate r t))) := by
  induction r with
  | zero =>
    have : Noodle.copies f k 0 = fun _ => [] := by funext o; rfl
    rw [this]
    exact Good.nil.congr (by simp) (fun w => lang_seq_nil.symm)
  | succ r ih =>
    have : Noodle.copies f k (r + 1) = fun o => f o ++ Noodle.copies f k r (o + k) := by funext o; rfl
    rw [this]
    exact (g.append ih).congr (by rw [Nat.add_mul]; omega) (fun w => lang_seq_cons.symm)

theorem copies_split (f : Nat → List State) (k i j p : Nat) :
    copies f k (i + j) p = copies f k i p ++ copies f k j (p + i * k) := by
  induction i generalizing p with
  | zero => simp [copies]
  | succ i ih =>
    rw [show i + 1 + j = (i + j) + 1 by omega, copies, ih, copies, List.append_assoc,
      show p + k + i * k = p + (i + 1) * k by rw [Nat.add_mul]; omega]

theorem mem_heads {slack k r i p y : Nat} :
    y ∈ heads slack k r i p ↔ ∃ j, j < r ∧ i + j ≤ slack ∧ y = p + j * k := by
  induction r generalizing i p with
  | zero => simp [heads]
  | succ r ih =>
    rw [heads, List.mem_append, ih]
    constructor
    · rintro (h | ⟨j, h1, h2, rfl⟩)
      · split at h
        · rw [List.mem_singleton] at h
          exact ⟨0, by omega, by omega, by omega⟩
        · cases h
      · exact ⟨j + 1, by omega, by omega, by rw [Nat.add_mul]; omega⟩
    · rintro ⟨j, h1, h2, rfl⟩
      cases j with
      | zero => left; rw [if_pos (by omega)]; simp
      | succ j => right; exact ⟨j, by omega, by omega, by rw [Nat.add_mul]; omega⟩

theorem lang_replicate_add {t : Ast} {i j : Nat} {u v : List Ch} (hu : Lang (.seq (List.replicate i t)) u)
    (hv : Lang (.seq (List.replicate j t)) v) : Lang (.seq (List.replicate (i + j) t)) (u ++ v) := by
  induction i generalizing u with
  | zero =>
    obtain rfl := lang_seq_nil.1 hu
    simpa using hv
  | succ i ih =>
    obtain ⟨a, b, rfl, ha, hb⟩ := lang_seq_cons.1 hu
    rw [show i + 1 + j = (i + j) + 1 by omega, List.replicate_succ, List.append_assoc]
    exact .seqCons ha (ih hb)

theorem lang_replicate_split {t : Ast} {i j : Nat} {w : List Ch} (h : Lang (.seq (List.replicate (i + j) t)) w) :
    ∃ u v, w = u ++ v ∧ Lang (.seq (List.replicate i t)) u ∧ Lang (.seq (List.replicate j t)) v := by
  induction i generalizing w with
  | zero => exact ⟨[], w, rfl, .seqNil, by simpa using h⟩
  | succ i ih =>
    rw [show i + 1 + j = (i + j) + 1 by omega, List.replicate_succ] at h
    obtain ⟨a, b, rfl, ha, hb⟩ := lang_seq_cons.1 h
    obtain ⟨u, v, rfl, hu, hv⟩ := ih hb
    exact ⟨a ++ u, v, by simp, .seqCons ha hu, hv⟩

/-- The states of a repetition, one by one. -/
structure RepBlk (A : Auto) (f : Nat → List State) (k lo : Nat) (hi : Option Nat) (o : Nat) : Prop where
  first : ∀ c y, ¬ Ce A o c y
  firstEd : ∀ y, Ed A o y ↔ (∃ j, j < nCopies lo hi ∧ j ≤ hi.getD lo - lo ∧ y = o + 1 + j * k) ∨
    (lo = 0 ∧ y = o + 1 + nCopies lo hi * k)
  copy : Has A (o + 1) (copies f k (nCopies lo hi) (o + 1))
  final : ∀ c y, ¬ Ce A (o + 1 + nCopies lo hi * k) c y
  finalEd : ∀ y, Ed A (o + 1 + nCopies lo hi * k) y ↔ y = o + 1 + nCopies lo hi * k + 1 ∨
    (hi = none ∧ y = o + 1 + (nCopies lo hi - 1) * k)

theorem repBlk_states {A : Auto} {f : Nat → List State} {k lo : Nat} {hi : Option Nat} {o : Nat}
    (hf : ∀ o, (f o).length = k) (h : Has A o (repBlk f k lo hi o)) : RepBlk A f k lo hi o := by
  unfold repBlk at h
  simp only [] at h
  have h0 := h.head
  have h1 := h.tail.left
  have h2 := h.tail.right.head
  rw [copies_length hf] at h2
  refine ⟨?_, ?_, h1, ?_, ?_⟩
  · rintro c y ⟨st, k1, k2, _⟩
    rw [h0] at k1; cases k1
    exact CharSet.contains_ne_empty k2 rfl
  · intro y
    constructor
    · rintro ⟨st, k1, k2⟩
      rw [h0] at k1; cases k1
      rw [testBit_maskOf, List.mem_append, mem_heads] at k2
      rcases k2 with ⟨j, h1, h2, h3⟩ | k2
      · exact .inl ⟨j, h1, by omega, h3⟩
      · split at k2
        · exact .inr ⟨by assumption, List.mem_singleton.1 k2⟩
        · cases k2
    · intro hy
      refine ⟨_, h0, ?_⟩
      rw [testBit_maskOf, List.mem_append, mem_heads]
      rcases hy with ⟨j, h1, h2, h3⟩ | ⟨h1, h2⟩
      · exact .inl ⟨j, h1, by omega, h3⟩
      · right; rw [if_pos h1, List.mem_singleton]; exact h2
  · rintro c y ⟨st, k1, k2, _⟩
    rw [h2] at k1; cases k1
    exact CharSet.contains_ne_empty k2 rfl
  · intro y
    constructor
    · rintro ⟨st, k1, k2⟩
      rw [h2] at k1; cases k1
      rw [testBit_maskOf, List.mem_cons] at k2
      rcases k2 with rfl | k2
      · exact .inl rfl
      · split at k2
        · exact .inr ⟨by assumption, List.mem_singleton.1 k2⟩
        · cases k2
    · intro hy
      refine ⟨_, h2, ?_⟩
      rw [testBit_maskOf, List.mem_cons]
      rcases hy with rfl | ⟨h1, h2⟩
      · exact .inl rfl
      · right; rw [if_pos h1, List.mem_singleton]; exact h2

theorem nCopies_pos (lo : Nat) (hi : Option Nat) : 0 < nCopies lo hi := by
  unfold nCopies
  have := Nat.le_max_left 1 (Nat.max lo (hi.getD lo))
  exact this

/-- The walks of the last state of a repetition. -/
theorem RepBlk.loop {A : Auto} {f : Nat → List State} {k lo : Nat} {hi : Option Nat} {o : Nat} {t : Ast}
    (g : Good f k (Lang t)) (h : RepBlk A f k lo hi o) (hN : A (o + 1 + nCopies lo hi * k + 1) = none) {w : List Ch}
    (hw : Walk A (o + 1 + nCopies lo hi * k) w (o + 1 + nCopies lo hi * k + 1)) :
    ∃ j, (hi ≠ none → j = 0) ∧ Lang (.seq (List.replicate j t)) w := by
  have hr := nCopies_pos lo hi
  have hfin : o + 1 + (nCopies lo hi - 1) * k + k = o + 1 + nCopies lo hi * k := by
    rw [Nat.add_assoc, ← Nat.succ_mul, show (nCopies lo hi - 1).succ = nCopies lo hi by omega]
  have hc : Has A (o + 1 + (nCopies lo hi - 1) * k) (f (o + 1 + (nCopies lo hi - 1) * k)) := by
    have := h.copy
    rw [show nCopies lo hi = (nCopies lo hi - 1) + 1 by omega, copies_split] at this
    have := this.right
    rw [(g.copies _).len, Noodle.copies] at this
    exact this.left
  have hst := g.stay (o + 1 + (nCopies lo hi - 1) * k)
  have hF := h.final
  have hE := h.finalEd
  generalize o + 1 + (nCopies lo hi - 1) * k = fin at hfin hc hst hE
  generalize o + 1 + nCopies lo hi * k = fnl at hfin hN hw hF hE
  have main : ∀ x z w, Walk A x w z → z = fnl + 1 → fin ≤ x → x ≤ fnl →
      ∃ u v j, w = u ++ v ∧ Walk (autoAt fin (f fin)) x u fnl ∧ (hi ≠ none → j = 0) ∧
        Lang (.seq (List.replicate j t)) v := by
    intro x z w gw
    induction gw with
    | nil x => intro h1 h2 h3; omega
    | eps e gw ih =>
      rename_i x y z w
      intro hz h1 h2
      by_cases hx : x = fnl
      · subst hx
        rcases (hE y).1 e with rfl | ⟨hn, rfl⟩
        · obtain ⟨rfl, _⟩ := walk_none hN gw
          exact ⟨[], [], 0, rfl, .nil _, fun _ => rfl, .seqNil⟩
        · obtain ⟨u, v, j, rfl, k1, k2, k3⟩ := ih hz (Nat.le_refl _) h1
          have : Lang t u := by
            rw [← g.lang y u, hfin]; exact k1
          refine ⟨[], u ++ v, j + 1, rfl, .nil _, fun hh => absurd hn hh, ?_⟩
          rw [List.replicate_succ]
          exact .seqCons this k3
      · have hlen := g.len fin
        obtain ⟨k1, k2, k3⟩ := hc.ed hst h1 (by omega) e
        obtain ⟨u, v, j, rfl, k4, k5, k6⟩ := ih hz k2 (by omega)
        exact ⟨u, v, j, rfl, .eps k1 k4, k5, k6⟩
    | chr e gw ih =>
      rename_i x y z c w
      intro hz h1 h2
      by_cases hx : x = fnl
      · subst hx; exact absurd e (hF _ _)
      · have hlen := g.len fin
        obtain ⟨k1, k2, k3⟩ := hc.ce hst h1 (by omega) e
        obtain ⟨u, v, j, rfl, k4, k5, k6⟩ := ih hz k2 (by omega)
        exact ⟨c :: u, v, j, rfl, .chr k1 k4, k5, k6⟩
  obtain ⟨u, v, j, rfl, k1, k2, k3⟩ := main _ _ _ hw rfl (by omega) (Nat.le_refl _)
  have hex := autoAt_exit fin (f fin)
  rw [g.len, hfin] at hex
  obtain ⟨rfl, _⟩ := walk_none hex k1
  exact ⟨j, k2, k3⟩

theorem RepBlk.again {A : Auto} {f : Nat → List State} {k lo : Nat} {hi : Option Nat} {o : Nat} {t : Ast}
    (g : Good f k (Lang t)) (h : RepBlk A f k lo hi o) {w : List Ch} {j : Nat} (hj : hi ≠ none → j = 0)
    (hw : Lang (.seq (List.replicate j t)) w) :
    Walk A (o + 1 + nCopies lo hi * k) w (o + 1 + nCopies lo hi * k + 1) := by
  have hr := nCopies_pos lo hi
  have hfin : o + 1 + (nCopies lo hi - 1) * k + k = o + 1 + nCopies lo hi * k := by
    rw [Nat.add_assoc, ← Nat.succ_mul, show (nCopies lo hi - 1).succ = nCopies lo hi by omega]
  have hc : Has A (o + 1 + (nCopies lo hi - 1) * k) (f (o + 1 + (nCopies lo hi - 1) * k)) := by
    have := h.copy
    rw [show nCopies lo hi = (nCopies lo hi - 1) + 1 by omega, copies_split] at this
    have := this.right
    rw [(g.copies _).len, Noodle.copies] at this
    exact this.left
  induction j generalizing w with
  | zero =>
    obtain rfl := lang_seq_nil.1 hw
    exact .eps ((h.finalEd _).2 (.inl rfl)) (.nil _)
  | succ j ih =>
    have hn : hi = none := by
      cases hi with
      | none => rfl
      | some m => have := hj (by simp); omega
    rw [List.replicate_succ] at hw
    obtain ⟨u, v, rfl, hu, hv⟩ := lang_seq_cons.1 hw
    have := ih (fun hh => absurd hn hh) hv
    refine .eps ((h.finalEd _).2 (.inr ⟨hn, rfl⟩)) (g.enter hc hu ?_)
    rw [hfin]; exact this

theorem Good.repBlk {f : Nat → List State} {k : Nat} {t : Ast} (g : Good f k (Lang t)) {lo : Nat} {hi : Option Nat}
    (hle : lo ≤ hi.getD lo) (h0 : ¬ (lo = 0 ∧ hi = some 0)) :
    Good (repBlk f k lo hi) (2 + nCopies lo hi * k) (Lang (.rep t lo hi)) where
  len := fun o => by
    unfold Noodle.repBlk
    simp only [List.length_cons, List.length_append, List.length_nil]
    rw [(g.copies _).len]; omega
  stay := fun o => by
    have hlen : (Noodle.repBlk f k lo hi o).length = 2 + nCopies lo hi * k := by
      unfold Noodle.repBlk
      simp only [List.length_cons, List.length_append, List.length_nil]
      rw [(g.copies _).len]; omega
    have hr := nCopies_pos lo hi
    have hmul : ∀ j, j < nCopies lo hi → j * k ≤ nCopies lo hi * k := fun j hj => Nat.mul_le_mul_right k (by omega)
    intro st hst
    rw [hlen]
    unfold Noodle.repBlk at hst
    simp only [List.mem_cons, List.mem_append, List.not_mem_nil, or_false] at hst
    rcases hst with rfl | hst | rfl
    · refine ⟨fun y hy => ?_, fun hc => absurd rfl hc⟩
      rw [testBit_maskOf, List.mem_append, mem_heads] at hy
      rcases hy with ⟨j, h1, _, rfl⟩ | hy
      · have := hmul j h1; omega
      · split at hy
        · rw [List.mem_singleton] at hy; omega
        · cases hy
    · obtain ⟨k1, k2⟩ := (g.copies _).stay (o + 1) st hst
      rw [(g.copies _).len] at k1 k2
      refine ⟨fun y hy => ?_, fun hc => ?_⟩
      · have := k1 y hy; omega
      · have := k2 hc; omega
    · refine ⟨fun y hy => ?_, fun hc => absurd rfl hc⟩
      rw [testBit_maskOf, List.mem_cons] at hy
      rcases hy with rfl | hy
      · omega
      · split at hy
        · have := hmul (nCopies lo hi - 1) (by omega)
          rw [List.mem_singleton] at hy; omega
        · cases hy
  lang := fun o w => by
    have hlen : (Noodle.repBlk f k lo hi o).length = 2 + nCopies lo hi * k := by
      unfold Noodle.repBlk
      simp only [List.length_cons, List.length_append, List.length_nil]
      rw [(g.copies _).len]; omega
    have hN := autoAt_exit o (Noodle.repBlk f k lo hi o)
    have hB := repBlk_states g.len (Has.self o (Noodle.repBlk f k lo hi o))
    rw [hlen, show o + (2 + nCopies lo hi * k) = o + 1 + nCopies lo hi * k + 1 by omega] at hN
    rw [show o + (2 + nCopies lo hi * k) = o + 1 + nCopies lo hi * k + 1 by omega]
    generalize autoAt o (Noodle.repBlk f k lo hi o) = A at hN hB ⊢
    have hr := nCopies_pos lo hi
    have hcopy : ∀ j, j < nCopies lo hi → Has A (o + 1 + j * k) (Noodle.copies f k (nCopies lo hi - j) (o + 1 + j * k)) ∧
        o + 1 + j * k + (nCopies lo hi - j) * k = o + 1 + nCopies lo hi * k := by
      intro j hj
      have := hB.copy
      rw [show nCopies lo hi = j + (nCopies lo hi - j) by omega, copies_split] at this
      have := this.right
      rw [(g.copies _).len] at this
      refine ⟨this, ?_⟩
      rw [Nat.add_assoc (o + 1), ← Nat.add_mul, show j + (nCopies lo hi - j) = nCopies lo hi by omega]
    have hrv : (hi = none ∧ nCopies lo hi = max 1 lo) ∨ (∃ m, hi = some m ∧ nCopies lo hi = m ∧ lo ≤ m ∧ 1 ≤ m) := by
      cases hi with
      | none => left; unfold nCopies; simp
      | some m =>
        right
        simp only [Option.getD_some] at hle
        have : m ≠ 0 := by rintro rfl; exact h0 ⟨by omega, rfl⟩
        refine ⟨m, rfl, ?_, hle, by omega⟩
        unfold nCopies
        simp only [Option.getD_some]
        show max 1 (max lo m) = m
        omega
    rw [lang_rep]
    constructor
    · intro hw
      generalize hz : o + 1 + nCopies lo hi * k + 1 = z at hw
      cases hw with
      | nil => omega
      | chr e _ => exact absurd e (hB.first _ _)
      | eps e gw =>
        rcases (hB.firstEd _).1 e with ⟨j, h1, h2, rfl⟩ | ⟨h1, rfl⟩
        · obtain ⟨hH, hEq⟩ := hcopy j h1
          obtain ⟨u, v, rfl, hu, hv⟩ := (g.copies _).through hH (.inr (by omega)) gw
          rw [hEq, ← hz] at hv
          obtain ⟨i, hi0, hv⟩ := hB.loop g hN hv
          refine ⟨nCopies lo hi - j + i, ?_, ?_, lang_replicate_add hu hv⟩
          · rcases hrv with ⟨hn, hr'⟩ | ⟨m, hm, hr', hlm, _⟩
            · rw [hn, Option.getD_none] at h2
              omega
            · rw [hm, Option.getD_some] at h2
              omega
          · intro m hm
            have hm : hi = some m := hm
            have : i = 0 := hi0 (by simp [hm])
            rcases hrv with ⟨hn, _⟩ | ⟨m', hm', hr', _, _⟩
            · rw [hn] at hm; cases hm
            · rw [hm'] at hm; cases hm; omega
        · rw [← hz] at gw
          obtain ⟨i, hi0, hv⟩ := hB.loop g hN gw
          refine ⟨i, by omega, ?_, hv⟩
          intro m hm
          have hm : hi = some m := hm
          have : i = 0 := hi0 (by simp [hm])
          omega
    · rintro ⟨n, h1, h2, h3⟩
      by_cases hn0 : n = 0
      · subst hn0
        refine .eps ((hB.firstEd _).2 (.inr ⟨by omega, rfl⟩)) (hB.again g (j := 0) (fun _ => rfl) h3)
      · rcases hrv with ⟨hn, hr'⟩ | ⟨m, hm, hr', hlm, _⟩
        · rw [show n = nCopies lo hi + (n - nCopies lo hi) by omega] at h3
          obtain ⟨u, v, rfl, hu, hv⟩ := lang_replicate_split h3
          refine .eps ((hB.firstEd _).2 (.inl ⟨0, by omega, by omega, rfl⟩)) ?_
          obtain ⟨hH, hEq⟩ := hcopy 0 (by omega)
          refine (g.copies _).enter hH hu ?_
          rw [hEq]
          exact hB.again g (fun hh => absurd hn hh) hv
        · have := h2 m hm
          refine .eps ((hB.firstEd _).2 (.inl ⟨m - n, by omega, by rw [hm, Option.getD_some]; omega, rfl⟩)) ?_
          obtain ⟨hH, hEq⟩ := hcopy (m - n) (by omega)
          rw [show n = nCopies lo hi - (m - n) by omega] at h3
          have := (g.copies _).enter hH h3 (v := []) (z := o + 1 + nCopies lo hi * k + 1) (by
            rw [hEq]; exact hB.again g (j := 0) (fun _ => rfl) .seqNil)
          simpa using this

/-- The last term of an alternative. -/
theorem Funnel.endTerm {z : Ast} (h : EndTerm z)
    (hg : ∀ t lo hi, z = .rep t lo hi → plain t = true → Good (blk t) (states t) (Lang t)) {o : Nat} : Funnel o (blk z o) := by
  rcases h with ⟨c, rfl, _⟩ | ⟨t, lo, hi, rfl, h0, h1, hp⟩
  · exact ⟨[], _, rfl, by simp, fun _ => rfl⟩
  · rw [plain, if_neg h0, Bool.and_eq_true] at hp
    have g := (hg t lo hi rfl hp.2).copies (nCopies lo hi)
    rw [blk, if_neg h0, if_neg h1]
    unfold repBlk
    simp only []
    rw [← List.cons_append]
    refine ⟨_, _, rfl, fun s hs => ?_, fun hc => absurd rfl hc⟩
    rw [List.length_cons, g.len]
    rcases List.mem_cons.1 hs with rfl | hs
    · refine ⟨fun y hy => ?_, fun hc => absurd rfl hc⟩
      simp only [] at hy
      rw [testBit_maskOf, List.mem_append, mem_heads] at hy
      rcases hy with ⟨j, h1, _, rfl⟩ | hy
      · have : j * states t ≤ nCopies lo hi * states t := Nat.mul_le_mul_right _ (by omega)
        omega
      · split at hy
        · rw [List.mem_singleton] at hy; omega
        · cases hy
    · obtain ⟨m1, m2⟩ := g.stay (o + 1) s hs
      rw [g.len] at m1 m2
      exact ⟨fun y hy => by have := m1 y hy; omega, fun hc => by have := m2 hc; omega⟩

/-- The unoptimised automaton of a plain expression has its language. -/
theorem good_plain : (a : Ast) → plain a = true → Good (blk a) (states a) (Lang a)
  | .cls c, _ => .cls c
  | .seq l, h => by
    rw [plain] at h
    have hb : blk (.seq l) = blkSeq l := by funext o; rw [blk]
    rw [hb, states]
    have hall : ∀ l : List Ast, plainAll l = true → ∀ t ∈ l, plain t = true := by
      intro l
      induction l with
      | nil => intro _ t ht; cases ht
      | cons b l ih =>
        intro h t ht
        rw [plainAll, Bool.and_eq_true] at h
        rcases List.mem_cons.1 ht with rfl | ht
        · exact h.1
        · exact ih h.2 t ht
    refine Good.seq fun t ht => ?_
    have : sizeOf t < sizeOf l := List.sizeOf_lt_of_mem ht
    exact good_plain t (hall l h t ht)
  | .substr l, h => by
    rw [plain, Bool.and_eq_true, decide_eq_true_eq] at h
    exact .substr h.1 h.2
  | .alts l, h => by
    rw [plain] at h
    have hall : ∀ l : List Ast, plainAll l = true → ∀ t ∈ l, plain t = true := by
      intro l
      induction l with
      | nil => intro _ t ht; cases ht
      | cons b l ih =>
        intro h t ht
        rw [plainAll, Bool.and_eq_true] at h
        rcases List.mem_cons.1 ht with rfl | ht
        · exact h.1
        · exact ih h.2 t ht
    refine .alts ⟨h, fun a ha => ?_, fun l1 a b l2 hl => ?_⟩
    · have : sizeOf a < sizeOf l := List.sizeOf_lt_of_mem ha
      exact good_plain a (hall l (plainAlts_plain h) a ha)
    · have hend : plainEnd a = true := plainAlts_mid (by rw [← hl]; exact h)
      obtain ⟨ini, z, f, k⟩ := plainEnd_form a hend
      have hsa : sizeOf a < sizeOf l := List.sizeOf_lt_of_mem (by rw [hl]; simp)
      have hsz := k.last
      intro p
      rw [f.blk]
      have gi : Good (blkSeq ini) (statesAll ini) (Lang (.seq ini)) := Good.seq fun t ht => by
        have : sizeOf t < sizeOf a := k.ini t ht
        exact good_plain t (hall ini f.plain t ht)
      refine Funnel.prepend (gi.stay p) ?_
      rw [gi.len]
      refine .endTerm f.last fun t lo hi hz hp => ?_
      subst hz
      have : sizeOf t < sizeOf (Ast.rep t lo hi) := by simp; omega
      exact good_plain t hp
  | .rep t lo hi, h => by
    rw [plain] at h
    by_cases h0 : lo = 0 ∧ hi = some 0
    · have hb : blk (.rep t lo hi) = fun _ => [] := by funext o; rw [blk, if_pos h0]
      rw [hb, states, if_pos h0]
      refine Good.nil.congr rfl (fun w => ?_)
      rw [h0.1, h0.2, lang_rep_none]
    · rw [if_neg h0, Bool.and_eq_true, decide_eq_true_eq] at h
      have ih := good_plain t h.2
      by_cases h1 : lo = 1 ∧ hi = some 1
      · have hb : blk (.rep t lo hi) = blk t := by funext o; rw [blk, if_neg h0, if_pos h1]
        rw [hb, states, if_neg h0, if_pos h1]
        refine ih.congr rfl (fun w => ?_)
        rw [h1.1, h1.2, lang_rep_once]
      · have hb : blk (.rep t lo hi) = repBlk (blk t) (states t) lo hi := by
          funext o; rw [blk, if_neg h0, if_neg h1]
        rw [hb, states, if_neg h0, if_neg h1]
        exact Good.repBlk ih h.1 h0
  | .anagram _ _, h => by simp [plain] at h
termination_by a => sizeOf a
decreasing_by
  all_goals simp_wf
  all_goals omega

/-- The unoptimised automaton. -/
def rawOf (a : Ast) : List State := blk a 0 ++ [⟨0, CharSet.ofCh Ch.wordEnd, states a⟩]

theorem contains_ofCh {c x : Ch} : (CharSet.ofCh c).contains x = true ↔ x = c := by
  rw [CharSet.contains_ofCh, decide_eq_true_eq]

/-- It accepts what the expression denotes. -/
theorem raw_accept {a : Ast} (h : plain a = true) (w : List Ch) : Accept (rawOf a) w ↔ Denotes a w := by
  have g := good_plain a h
  have hlen : (rawOf a).length - 1 = states a := by
    unfold rawOf
    rw [List.length_append, g.len]; rfl
  unfold Accept Denotes
  rw [hlen]
  have hH : Has (auto (rawOf a)) 0 (rawOf a) := fun i st hi => by simpa [auto] using hi
  generalize auto (rawOf a) = A at hH
  unfold rawOf at hH
  have h1 := hH.left
  have h2 := hH.right.head
  rw [g.len, Nat.zero_add] at h2
  have hloop : ∀ x z w, Walk A x w z → x = states a → ∃ n, w = List.replicate n Ch.wordEnd := by
    intro x z w gw
    induction gw with
    | nil => intro _; exact ⟨0, rfl⟩
    | eps e _ ih =>
      rintro rfl
      obtain ⟨st, k1, k2⟩ := e
      rw [h2] at k1; cases k1; simp at k2
    | chr e _ ih =>
      rintro rfl
      obtain ⟨st, k1, k2, k3⟩ := e
      rw [h2] at k1; cases k1
      obtain ⟨n, rfl⟩ := ih k3.symm
      simp only [] at k2
      rw [contains_ofCh] at k2
      exact ⟨n + 1, by rw [k2]; rfl⟩
  have hback : ∀ n, Walk A (states a) (List.replicate n Ch.wordEnd) (states a) := by
    intro n
    induction n with
    | zero => exact .nil _
    | succ n ih => exact .chr ⟨_, h2, contains_ofCh.2 rfl, rfl⟩ ih
  constructor
  · intro hw
    obtain ⟨u, v, rfl, hu, hv⟩ := g.through h1 (.inr (by omega)) hw
    rw [Nat.zero_add] at hv
    obtain ⟨n, rfl⟩ := hloop _ _ _ hv rfl
    exact ⟨u, n, hu, rfl⟩
  · rintro ⟨v, n, hv, rfl⟩
    refine g.enter h1 hv ?_
    rw [Nat.zero_add]; exact hback n

end Noodle
