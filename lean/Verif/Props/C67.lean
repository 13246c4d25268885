import Verif.Model.DebugText
import Verif.Spec.Log
import Verif.Props.C06
import Verif.Props.C36
import Verif.Props.C53
import Verif.Props.C62
import Verif.Proofs.Json
/-
C67: what is logged of an expression.
-/
namespace Noodle
open Spec
set_option autoImplicit false

/-! ### Classes -/

theorem named_toChar (c : Ch) : Named c.toChar c := by
  unfold Named
  revert c
  decide +kernel

theorem named_inj {x : Char} {c : Ch} (h : Named x c) : x = c.toChar := by
  have key : ∀ p ∈ "abcdefghijklmnopqrstuvwxyz'_".toList.zipIdx, ∀ c : Ch, c.val = p.2 → p.1 = c.toChar := by decide +kernel
  exact key _ h c rfl

theorem toChar_inj {c d : Ch} (h : c.toChar = d.toChar) : c = d := by
  rw [← ofChar_toChar c, ← ofChar_toChar d, h]

theorem plain_names (d : Ch) {x : Char} (h : x ∈ ".0-[ ]\n*".toList) : d.toChar ≠ x := by
  have key : ∀ x ∈ ".0-[ ]\n*".toList, ∀ d : Ch, d.toChar ≠ x := by decide +kernel
  exact key x h d

/-- What is printed for a class that is not empty. -/
theorem show_cases (s : CharSet) :
    (s = CharSet.letters ∧ s.show = ".".toList) ∨ (s = CharSet.all ∧ s.show = "[a-z_']".toList) ∨
      (s.countOnes = 0 ∧ s.show = "0".toList) ∨
      (s.countOnes = 1 ∧ s.show = s.symbols.map Ch.toChar) ∨
      (1 < s.countOnes ∧ s.show = '[' :: s.symbols.map Ch.toChar ++ [']']) := by
  unfold CharSet.show
  rw [CharSet.show_symbols]
  by_cases h1 : s = CharSet.letters
  · exact .inl ⟨h1, by rw [if_pos h1]; rfl⟩
  · by_cases h2 : s = CharSet.all
    · exact .inr (.inl ⟨h2, by rw [if_neg h1, if_pos h2]; rfl⟩)
    · by_cases h3 : s.countOnes = 0
      · exact .inr (.inr (.inl ⟨h3, by rw [if_neg h1, if_neg h2, if_pos h3]; rfl⟩))
      · rw [if_neg h1, if_neg h2, if_neg h3]
        by_cases h4 : 1 < s.countOnes
        · right; right; right; right
          exact ⟨h4, by simp [h4]⟩
        · right; right; right; left
          exact ⟨by omega, by simp [h4]⟩

theorem contains_of_zero {s : CharSet} (h : s.countOnes = 0) (c : Ch) : s.contains c = false := by
  rw [CharSet.contains_eq]
  cases hc : s.getLsbD c.val with
  | false => rfl
  | true =>
    have hm : c.val ∈ (List.range 32).filter fun i => s.getLsbD i :=
      List.mem_filter.2 ⟨List.mem_range.2 (by omega), hc⟩
    unfold CharSet.countOnes at h
    rw [List.length_eq_zero_iff.1 h] at hm
    cases hm

theorem symbols_of_one {s : CharSet} (h : s.countOnes = 1) {c : Ch} (hc : s.contains c = true) : s.symbols = [c] := by
  have hle : s.symbols.length ≤ 1 := by
    rw [← h]
    unfold CharSet.symbols CharSet.countOnes
    have e : ((List.finRange 28).map fun x => x.val) = List.range 28 := by decide
    have h2 : List.range 32 = List.range 28 ++ [28, 29, 30, 31] := by decide
    rw [h2, List.filter_append, List.length_append, ← e, List.filter_map, List.length_map]
    refine Nat.le_trans (Nat.le_of_eq ?_) (Nat.le_add_right ..)
    congr 1
    apply List.filter_congr
    intro x _
    simp [CharSet.contains_eq]
  have hm := (CharSet.mem_symbols s c).2 hc
  match hs : s.symbols, hm, hle with
  | [], hm, _ => cases hm
  | [x], hm, _ => rw [List.mem_singleton.1 hm]
  | x :: y :: l, _, hle => simp at hle

/-- A printed class says which symbols it has. -/
theorem show_says (s : CharSet) (c : Ch) : ClassSays s.show c ↔ s.contains c = true := by
  have hall : ∀ c : Ch, CharSet.all.contains c = true := by decide
  have hlet : ∀ c : Ch, CharSet.letters.contains c = decide (c.val < 26) := by decide
  have hlist : ∀ {x : Char} {c : Ch}, x ∈ s.symbols.map Ch.toChar → Named x c → s.contains c = true := by
    intro x c hx hn
    obtain ⟨d, hd, rfl⟩ := List.mem_map.1 hx
    rw [← toChar_inj (named_inj hn)]
    exact (CharSet.mem_symbols s d).1 hd
  rcases show_cases s with ⟨h1, h2⟩ | ⟨h1, h2⟩ | ⟨h1, h2⟩ | ⟨h1, h2⟩ | ⟨h1, h2⟩
  · rw [h2, h1, hlet]
    constructor
    · intro h
      generalize ht : ".".toList = t at h
      cases h with
      | letter h => simpa using h
      | any => cases ht
      | one h =>
        obtain rfl : '.' = _ := by simpa using ht
        exact absurd (named_inj h).symm (plain_names c (by decide))
      | among _ _ => simp at ht
    · intro h
      exact .letter (by simpa using h)
  · rw [h2, h1, hall]
    exact ⟨fun _ => rfl, fun _ => .any c⟩
  · rw [h2, contains_of_zero h1]
    constructor
    · intro h
      generalize ht : "0".toList = t at h
      cases h with
      | letter h => cases ht
      | any => cases ht
      | one h =>
        obtain rfl : '0' = _ := by simpa using ht
        exact absurd (named_inj h).symm (plain_names c (by decide))
      | among _ _ => simp at ht
    · intro h
      cases h
  · rw [h2]
    constructor
    · intro h
      generalize ht : s.symbols.map Ch.toChar = t at h
      cases h with
      | letter h =>
        obtain ⟨d, _, hd⟩ := List.mem_map.1 (show '.' ∈ s.symbols.map Ch.toChar by rw [ht]; simp)
        exact absurd hd (plain_names d (by decide))
      | any =>
        obtain ⟨d, _, hd⟩ := List.mem_map.1 (show '-' ∈ s.symbols.map Ch.toChar by rw [ht]; simp)
        exact absurd hd (plain_names d (by decide))
      | one h => exact hlist (by rw [ht]; simp) h
      | among h _ =>
        obtain ⟨d, _, hd⟩ := List.mem_map.1 (show '[' ∈ s.symbols.map Ch.toChar by rw [ht]; simp)
        exact absurd hd (plain_names d (by decide))
    · intro h
      rw [symbols_of_one h1 h]
      exact .one (named_toChar c)
  · rw [h2]
    constructor
    · intro h
      generalize ht : '[' :: s.symbols.map Ch.toChar ++ [']'] = t at h
      cases h with
      | letter h => simp at ht
      | any =>
        have : '-' ∈ '[' :: s.symbols.map Ch.toChar ++ [']'] := by rw [ht]; decide
        simp only [List.cons_append, List.mem_cons, List.mem_append, List.mem_map, List.not_mem_nil, or_false] at this
        rcases this with h | ⟨d, _, hd⟩ | h
        · cases h
        · exact absurd hd (plain_names d (by decide))
        · cases h
      | one h => simp at ht
      | among h h' =>
        have ht := List.append_cancel_right (List.cons.inj ht).2
        exact hlist (by rw [ht]; exact h) h'
    · intro h
      exact .among (List.mem_map_of_mem ((CharSet.mem_symbols s c).2 h)) (named_toChar c)

/-! ### Lines -/

theorem others_testBit (m i d : Nat) : (m ^^^ (m &&& 2 ^ i)).testBit d = (m.testBit d && decide (d ≠ i)) := by
  rw [Nat.testBit_xor, Nat.testBit_and, Nat.testBit_two_pow]
  by_cases h : i = d
  · subst h; cases m.testBit i <;> simp
  · have : ¬ d = i := fun e => h e.symm
    simp [h, this]

theorem ones_eq_nil {m : Nat} : ones m = [] ↔ m = 0 := by
  constructor
  · intro h
    apply Nat.eq_of_testBit_eq
    intro d
    have := mem_ones m d
    rw [h] at this
    simpa using this
  · rintro rfl
    decide

theorem ones_sorted (m : Nat) : (ones m).Pairwise (· < ·) :=
  List.Pairwise.filter _ List.pairwise_lt_range

theorem line_text (st : State) (i : Nat) : st.line i =
    lineText i (if st.cls = CharSet.empty then none else some (st.cls.show, st.next)) (ones (st.eps ^^^ (st.eps &&& 2 ^ i))) := by
  unfold State.line lineText
  simp only [shownVec_eq, shownNat]
  by_cases h1 : st.cls = CharSet.empty <;> by_cases h2 : (st.eps ^^^ (st.eps &&& 2 ^ i)) = 0 <;>
    simp only [h1, h2, ones_eq_nil, if_true, if_false, String.toList_append, List.append_assoc, List.append_nil, toString]

/-- C67: what is logged of an expression is true: it quotes the expression, and says which states the automaton has, which
symbols lead from where to where, and which states are reached without a symbol. -/
theorem C67_says {a : ExprAst} {e : Expr} (h : fromAst a = .ok e) : LogSays a.show (a.logged e) e := by
  have hwf := C06_closed h
  refine ⟨e.states.zipIdx.map fun p =>
    (if p.1.cls = CharSet.empty then none else some (p.1.cls.show, p.1.next), ones (p.1.eps ^^^ (p.1.eps &&& 2 ^ p.2))), ?_, ?_, ?_⟩
  · unfold ExprAst.logged Expr.debugText
    congr 1
    have : ∀ (l : List State) (k : Nat), ((l.zipIdx k).flatMap fun p => p.1.line p.2) =
        (((l.zipIdx k).map fun p => ((if p.1.cls = CharSet.empty then none else some (p.1.cls.show, p.1.next) :
          Option (List Char × Nat)), ones (p.1.eps ^^^ (p.1.eps &&& 2 ^ p.2)))).zipIdx k).flatMap
            fun p => lineText p.2 p.1.1 p.1.2 := by
      intro l
      induction l with
      | nil => intro k; rfl
      | cons st l ih =>
        intro k
        rw [List.zipIdx_cons, List.flatMap_cons, List.map_cons, List.zipIdx_cons, List.flatMap_cons, ih, line_text]
    exact this _ _
  · simp [Expr.len]
  · intro i x hx
    rw [List.getElem?_map] at hx
    obtain ⟨p, hp, rfl⟩ := Option.map_eq_some_iff.1 hx
    rw [List.getElem?_zipIdx] at hp
    obtain ⟨st, hst, rfl⟩ := Option.map_eq_some_iff.1 hp
    have hi : i < e.len := (List.getElem?_eq_some_iff.1 hst).1
    have heps : e.eps i = st.eps := by unfold Expr.eps; rw [hst]; rfl
    refine ⟨fun d => ?_, ?_, ones_sorted _, fun c d => ?_⟩
    · have hr := hwf.refl i hi
      rw [heps] at hr ⊢
      simp only [mem_ones, others_testBit, Nat.zero_add, Bool.and_eq_true, decide_eq_true_eq]
      by_cases hd : d = i
      · subst hd; simp [hr]
      · simp [hd]
    · simp only [mem_ones, others_testBit, Nat.zero_add]
      simp
    · by_cases h0 : st.cls = CharSet.empty
      · simp only [h0, if_true]
        constructor
        · rintro ⟨st', h1, h2, _⟩
          rw [hst] at h1
          obtain rfl := Option.some.inj h1
          rw [h0] at h2
          exact absurd h2 (by rw [CharSet.contains_empty]; simp)
        · rintro ⟨t, n, h1, _⟩
          cases h1
      · simp only [h0, if_false]
        constructor
        · rintro ⟨st', h1, h2, h3⟩
          rw [hst] at h1
          obtain rfl := Option.some.inj h1
          exact ⟨_, _, rfl, (show_says _ c).2 h2, h3⟩
        · rintro ⟨t, n, h1, h2, h3⟩
          obtain ⟨rfl, rfl⟩ := Prod.mk.inj (Option.some.inj h1)
          exact ⟨st, hst, (show_says _ c).1 h2, h3⟩

/-! ### The log determines the expression -/

theorem show_blank (s : CharSet) : ' ' ∉ s.show ∧ '\n' ∉ s.show ∧ s.show.head? ≠ some '*' := by
  have hb : ∀ {x : Char}, x ∈ ".0-[ ]\n*".toList → x ∉ s.symbols.map Ch.toChar := fun hx hm => by
    obtain ⟨d, _, hd⟩ := List.mem_map.1 hm
    exact plain_names d hx hd
  rcases show_cases s with ⟨_, h2⟩ | ⟨_, h2⟩ | ⟨_, h2⟩ | ⟨_, h2⟩ | ⟨_, h2⟩ <;> rw [h2]
  · decide
  · decide
  · decide
  · refine ⟨hb (by decide), hb (by decide), fun h => hb (x := '*') (by decide) (List.mem_of_mem_head? h)⟩
  · refine ⟨fun h => ?_, fun h => ?_, by simp⟩ <;>
    · simp only [List.cons_append, List.mem_cons, List.mem_append, List.not_mem_nil, or_false] at h
      rcases h with h | h | h
      · cases h
      · exact hb (by decide) h
      · cases h

theorem digits_notin (n : Nat) {c : Char} (hc : c.isDigit = false) : c ∉ shownNat n :=
  decimal_notin (decimal_toString n) hc

theorem shownNat_inj {n m : Nat} (h : shownNat n = shownNat m) : n = m := by
  have h1 := (decimal_iff.1 (decimal_toString n)).2.2
  have h2 := (decimal_iff.1 (decimal_toString m)).2.2
  unfold shownNat at h
  rw [h] at h1
  exact h1.symm.trans h2

theorem shownNat_ne (n : Nat) : shownNat n ≠ [] := (decimal_iff.1 (decimal_toString n)).1

theorem shownNat_ends {n m : Nat} {x : Char} (hx : x.isDigit = false) {r r' : List Char}
    (h : shownNat n ++ x :: r = shownNat m ++ x :: r') : n = m ∧ r = r' := by
  obtain ⟨h1, h2⟩ := split_at (digits_notin n hx) (digits_notin m hx) h
  exact ⟨shownNat_inj h1, h2⟩

theorem shownNat_split {n m : Nat} {x y : Char} (hx : x.isDigit = false) (hy : y.isDigit = false) {r r' : List Char}
    (h : shownNat n ++ x :: r = shownNat m ++ y :: r') : n = m ∧ x = y ∧ r = r' := by
  have t : ∀ (k : Nat) (z : Char) (t : List Char), z.isDigit = false →
      (shownNat k ++ z :: t).takeWhile Char.isDigit = shownNat k ∧ (shownNat k ++ z :: t).dropWhile Char.isDigit = z :: t := by
    intro k z t hz
    have hd : ∀ a ∈ shownNat k, Char.isDigit a = true := List.all_eq_true.1 (decimal_iff.1 (decimal_toString k)).2.1
    rw [List.takeWhile_append_of_pos hd, List.dropWhile_append_of_pos hd]
    simp [List.takeWhile_cons, List.dropWhile_cons, hz]
  have h1 := (t n x r hx).1
  have h2 := (t n x r hx).2
  rw [h] at h1 h2
  rw [(t m y r' hy).1] at h1
  rw [(t m y r' hy).2] at h2
  obtain ⟨rfl, rfl⟩ := List.cons.inj h2
  exact ⟨(shownNat_inj h1).symm, rfl, rfl⟩

theorem more_inj : ∀ {l l' : List Nat} {r r' : List Char}, shownVec.more l ++ r = shownVec.more l' ++ r' → l = l' ∧ r = r'
  | [], [], _, _, h => ⟨rfl, by simpa [shownVec.more] using h⟩
  | [], n :: l, _, _, h => by simp [shownVec.more] at h
  | n :: l, [], _, _, h => by simp [shownVec.more] at h
  | n :: l, m :: l', r, r', h => by
    simp only [shownVec.more, List.append_assoc] at h
    have h := List.append_cancel_left h
    have hd : ∀ (l : List Nat) (r : List Char), ∃ x t, shownVec.more l ++ r = x :: t ∧ x.isDigit = false := by
      intro l r
      cases l with
      | nil => exact ⟨']', r, rfl, by decide⟩
      | cons n l => exact ⟨',', ' ' :: (shownNat n ++ shownVec.more l) ++ r, by simp [shownVec.more], by decide⟩
    obtain ⟨x, t, e1, hx⟩ := hd l r
    obtain ⟨y, t', e2, hy⟩ := hd l' r'
    have h' := h
    rw [e1, e2] at h'
    obtain ⟨rfl, rfl, rfl⟩ := shownNat_split hx hy h'
    obtain ⟨rfl, rfl⟩ := more_inj (List.append_cancel_left h)
    exact ⟨rfl, rfl⟩

theorem shownVec_inj {l l' : List Nat} {r r' : List Char} (h : shownVec l ++ r = shownVec l' ++ r') (h0 : l ≠ []) (h0' : l' ≠ []) :
    l = l' ∧ r = r' := by
  match l, l', h0, h0' with
  | n :: l, m :: l', _, _ =>
    refine more_inj (l := n :: l) (l' := m :: l') (r := r) (r' := r') ?_
    have h := List.append_cancel_left (as := ['[']) (by simpa [shownVec] using h)
    simp only [shownVec.more, List.append_assoc]
    rw [h]

/-- What two states have in common if their lines are the same. -/
structure SameState (st st' : State) (i : Nat) : Prop where
  cls : ∀ c, st.cls.contains c = st'.cls.contains c
  next : st.cls ≠ CharSet.empty → st.next = st'.next
  empty : st.cls = CharSet.empty ↔ st'.cls = CharSet.empty
  eps : ∀ d, d ≠ i → st.eps.testBit d = st'.eps.testBit d

theorem tail_inj {o o' : Nat} {r r' : List Char}
    (h : (if o = 0 then [] else "* -> ".toList ++ shownVec (ones o) ++ "; ".toList) ++ '\n' :: r =
      (if o' = 0 then [] else "* -> ".toList ++ shownVec (ones o') ++ "; ".toList) ++ '\n' :: r') : o = o' ∧ r = r' := by
  by_cases h1 : o = 0 <;> by_cases h2 : o' = 0
  · subst h1 h2
    exact ⟨rfl, by simpa using h⟩
  · simp [h1, h2] at h
  · simp [h1, h2] at h
  · simp only [h1, h2, if_false, List.append_assoc] at h
    have h := List.append_cancel_left h
    obtain ⟨h3, h4⟩ := shownVec_inj h (fun e => h1 (ones_eq_nil.1 e)) (fun e => h2 (ones_eq_nil.1 e))
    refine ⟨?_, by simpa using h4⟩
    apply Nat.eq_of_testBit_eq
    intro d
    have e1 := mem_ones o d
    have e2 := mem_ones o' d
    rw [h3, e2] at e1
    cases ho : o.testBit d <;> cases ho' : o'.testBit d <;> simp_all

theorem line_inj {st st' : State} {i : Nat} {r r' : List Char} (h : st.line i ++ r = st'.line i ++ r') :
    SameState st st' i ∧ r = r' := by
  unfold State.line at h
  simp only [List.append_assoc] at h
  have h := List.append_cancel_left (List.append_cancel_left (List.append_cancel_left h))
  have hdone : ∀ {r r' : List Char} (o o' : Nat), o = st.eps ^^^ (st.eps &&& 2 ^ i) → o' = st'.eps ^^^ (st'.eps &&& 2 ^ i) →
      (if o = 0 then [] else "* -> ".toList ++ (shownVec (ones o) ++ "; ".toList)) ++ (['\n'] ++ r) =
      (if o' = 0 then [] else "* -> ".toList ++ (shownVec (ones o') ++ "; ".toList)) ++ (['\n'] ++ r') →
      (∀ d, d ≠ i → st.eps.testBit d = st'.eps.testBit d) ∧ r = r' := by
    intro r r' o o' ho ho' h
    obtain ⟨h1, h2⟩ := tail_inj (o := o) (o' := o') (r := r) (r' := r') (by simp only [List.append_assoc]; exact h)
    refine ⟨fun d hd => ?_, h2⟩
    have e1 := others_testBit st.eps i d
    have e2 := others_testBit st'.eps i d
    rw [← ho] at e1
    rw [← ho', ← h1, e1] at e2
    simpa [hd] using e2
  have hstar : ∀ (s : CharSet) (t : List Char) (o : Nat) (u : List Char), s.show ++ (" -> [".toList ++ t) ≠
      (if o = 0 then [] else "* -> ".toList ++ (shownVec (ones o) ++ "; ".toList)) ++ (['\n'] ++ u) := by
    intro s t o u e
    have hb := show_blank s
    by_cases ho : o = 0
    · simp only [ho, if_true, List.nil_append] at e
      cases hs : s.show with
      | nil => rw [hs] at e; simp at e
      | cons x l =>
        rw [hs] at e hb
        simp only [List.cons_append, List.cons.injEq] at e
        exact hb.2.1 (by rw [e.1]; simp)
    · simp only [ho, if_false] at e
      cases hs : s.show with
      | nil => rw [hs] at e; simp at e
      | cons x l =>
        rw [hs] at e hb
        have : x = '*' := by simpa using congrArg List.head? e
        exact hb.2.2 (by rw [this]; rfl)
  by_cases h1 : st.cls = CharSet.empty <;> by_cases h2 : st'.cls = CharSet.empty
  · simp only [h1, h2, if_true, List.nil_append] at h
    obtain ⟨h3, h4⟩ := hdone _ _ rfl rfl h
    exact ⟨⟨fun c => by rw [h1, h2], fun hn => absurd h1 hn, by simp [h1, h2], h3⟩, h4⟩
  · simp only [h1, h2, if_true, if_false, List.nil_append, List.append_assoc] at h
    exact absurd h.symm (hstar _ _ _ _)
  · simp only [h1, h2, if_true, if_false, List.nil_append, List.append_assoc] at h
    exact absurd h (hstar _ _ _ _)
  · simp only [h1, h2, if_false, List.append_assoc] at h
    obtain ⟨h3, h⟩ := split_at (x := ' ') (show_blank st.cls).1 (show_blank st'.cls).1 h
    have h := List.append_cancel_left (as := "-> [".toList) h
    obtain ⟨h4, h⟩ := shownNat_ends (x := ']') (by decide) h
    have h := List.append_cancel_left (as := "; ".toList) h
    obtain ⟨h5, h6⟩ := hdone _ _ rfl rfl h
    refine ⟨⟨fun c => ?_, fun _ => h4, by simp [h1, h2], h5⟩, h6⟩
    have e1 := show_says st.cls c
    rw [h3, show_says st'.cls c] at e1
    exact Bool.eq_iff_iff.2 e1.symm

theorem lines_inj : ∀ {l l' : List State} {k : Nat},
    ((l.zipIdx k).flatMap fun p => p.1.line p.2) = ((l'.zipIdx k).flatMap fun p => p.1.line p.2) →
    l.length = l'.length ∧ ∀ (i : Nat) (st st' : State), l[i]? = some st → l'[i]? = some st' → SameState st st' (k + i)
  | [], [], _, _ => ⟨rfl, fun i st st' h => by simp at h⟩
  | [], st :: l, k, h => by simp [State.line] at h
  | st :: l, [], k, h => by simp [State.line] at h
  | st :: l, st' :: l', k, h => by
    simp only [List.zipIdx_cons, List.flatMap_cons] at h
    obtain ⟨h1, h2⟩ := line_inj h
    obtain ⟨h3, h4⟩ := lines_inj h2
    refine ⟨by simp [h3], fun i x y hx hy => ?_⟩
    cases i with
    | zero =>
      obtain rfl : st = x := by simpa using hx
      obtain rfl : st' = y := by simpa using hy
      exact h1
    | succ i =>
      have := h4 i x y (by simpa using hx) (by simpa using hy)
      rwa [show k + 1 + i = k + (i + 1) from by omega] at this

/-- Characters that are not in the printed form of a tree. -/
def absent (l : List Char) : Bool := l.all fun c => c != ' ' && c != '\n'

theorem absent_append (l m : List Char) : absent (l ++ m) = (absent l && absent m) := by simp [absent, List.all_append]

theorem absent_nat (n : Nat) : absent (showNat n) = true := by
  unfold absent
  rw [List.all_eq_true]
  intro c hc
  have := List.all_eq_true.1 (decimal_iff.1 (decimal_toString n)).2.1 c hc
  have h1 : c ≠ ' ' := by rintro rfl; revert this; decide
  have h2 : c ≠ '\n' := by rintro rfl; revert this; decide
  simp [h1, h2]

theorem absent_set (s : CharSet) : absent s.show = true := by
  unfold absent
  rw [List.all_eq_true]
  intro c hc
  have h1 : c ≠ ' ' := by rintro rfl; exact (show_blank s).1 hc
  have h2 : c ≠ '\n' := by rintro rfl; exact (show_blank s).2.1 hc
  simp [h1, h2]

theorem absent_bounds : ∀ (lo : Nat) (hi : Option Nat), absent (showBounds lo hi) = true := by
  intro lo hi
  have h1 : ∀ c ∈ "*?+{},".toList, absent [c] = true := by decide
  unfold showBounds
  split
  · decide
  · decide
  · decide
  all_goals try split
  all_goals simp only [absent_append, absent_nat, Bool.and_true, Bool.true_and]
  all_goals decide

theorem absent_bank (b : List Ch) : absent (b.flatMap Ch.show) = true := by
  unfold absent
  rw [List.all_eq_true]
  intro c hc
  obtain ⟨d, _, hd⟩ := List.mem_flatMap.1 hc
  obtain rfl : c = d.toChar := by simpa [Ch.show] using hd
  have h1 := plain_names d (x := ' ') (by decide)
  have h2 := plain_names d (x := '\n') (by decide)
  simp [h1, h2]

theorem absent_kind (k : AnagramKind) : absent (showKind k) = true := by
  cases k <;> simp only [showKind, absent_append, absent_nat, Bool.and_true] <;> decide

mutual
theorem absent_show : ∀ a : Ast, absent a.show = true
  | .cls c => by
    rw [Ast.show]
    split
    · decide
    · exact absent_set c
  | .alts l => by
    cases l with
    | nil => simp only [Ast.show]; decide
    | cons a l =>
      simp only [Ast.show, absent_append, absent_show a, absent_bars l, Bool.and_true]
      decide
  | .seq l => by
    rw [Ast.show, absent_append, absent_append, absent_list l]
    split <;> decide
  | .substr l => by
    rw [Ast.show, absent_append, absent_append, absent_list l]
    split <;> decide
  | .rep t lo hi => by rw [Ast.show, absent_append, absent_show t, absent_bounds]; rfl
  | .anagram kind bank => by
    rw [Ast.show]
    simp only [absent_append, absent_bank, absent_kind, Bool.and_true]
    decide
theorem absent_list : ∀ l : List Ast, absent (showList l) = true
  | [] => by rw [showList]; decide
  | a :: l => by rw [showList, absent_append, absent_show a, absent_list l]; rfl
theorem absent_bars : ∀ l : List Ast, absent (showBars l) = true
  | [] => by rw [showBars]; decide
  | a :: l => by
    rw [showBars, absent_append, absent_append, absent_show a, absent_bars l]
    decide
end

/-- What follows the tree in the printed form of an expression. -/
def flagText (o : ExprOptions) : List Char :=
  (if o.explicitWB = some true then [' ', '!', '_'] else []) ++
  (if o.explicitPunct = some true then [' ', '!', '\''] else []) ++
  (match o.fuzz with
    | some n => [' ', '!'] ++ showNat n
    | none => [])

theorem show_flagText (a : ExprAst) : a.show = a.root.show ++ flagText a.options := by
  unfold ExprAst.show flagText
  simp only [List.append_assoc]
  cases a.options.fuzz <;> rfl

theorem flagText_line (o : ExprOptions) : '\n' ∉ flagText o := by
  intro h
  unfold flagText at h
  simp only [List.mem_append] at h
  rcases h with (h | h) | h
  · split at h <;> simp at h
  · split at h <;> simp at h
  · split at h
    · rename_i n _
      simp only [List.mem_append] at h
      rcases h with h | h
      · simp at h
      · exact digits_notin n (by decide) h
    · simp at h

theorem flagText_head (o : ExprOptions) : flagText o = [] ∨ ∃ t, flagText o = ' ' :: t := by
  unfold flagText
  by_cases h1 : o.explicitWB = some true <;> by_cases h2 : o.explicitPunct = some true <;> cases o.fuzz <;> simp [h1, h2]

theorem flagText_inj {o o' : ExprOptions} (h : flagText o = flagText o') :
    (o.explicitWB = some true ↔ o'.explicitWB = some true) ∧ (o.explicitPunct = some true ↔ o'.explicitPunct = some true) ∧
      o.fuzz = o'.fuzz := by
  have hd : ∀ (n : Nat) (c : Char) (t : List Char), c.isDigit = false → showNat n ≠ c :: t := by
    intro n c t hc e
    exact digits_notin n hc (show c ∈ showNat n by rw [e]; simp)
  have hd' : ∀ (n : Nat) (c : Char) (t : List Char), c.isDigit = false → c :: t ≠ showNat n := fun n c t hc e => hd n c t hc e.symm
  unfold flagText at h
  by_cases h1 : o.explicitWB = some true <;> by_cases h2 : o.explicitPunct = some true <;>
    by_cases h3 : o'.explicitWB = some true <;> by_cases h4 : o'.explicitPunct = some true <;>
    cases h5 : o.fuzz <;> cases h6 : o'.fuzz <;> rw [h5, h6] at h <;>
    simp only [h1, h2, h3, h4, if_true, if_false, List.append_nil, List.nil_append, List.cons_append, List.cons.injEq, true_and,
      reduceCtorEq, false_and, and_false, List.nil_eq, List.cons_ne_nil] at h ⊢ <;>
    first
    | exact ⟨Iff.rfl, Iff.rfl, rfl⟩
    | (obtain rfl := shownNat_inj h; exact ⟨Iff.rfl, Iff.rfl, rfl⟩)
    | (obtain rfl := shownNat_inj h; simp)
    | exact absurd h.1 (by decide)
    | exact absurd h (hd _ _ _ (by decide))
    | exact absurd h (hd' _ _ _ (by decide))
    | (exfalso; revert h; decide)

theorem show_split {a a' : ExprAst} {r r' : List Char} (h : a.show ++ '"' :: '\n' :: r = a'.show ++ '"' :: '\n' :: r') :
    a.show = a'.show ∧ r = r' := by
  have hn : ∀ a : ExprAst, '\n' ∉ a.show ++ ['"'] := by
    intro a h
    rw [show_flagText] at h
    simp only [List.mem_append] at h
    rcases h with (h | h) | h
    · have := List.all_eq_true.1 (absent_show a.root) _ h
      simp at this
    · exact flagText_line _ h
    · simp at h
  have := split_at (a := a.show ++ ['"']) (b := a'.show ++ ['"']) (r := r) (r' := r') (hn a) (hn a') (by simpa using h)
  exact ⟨List.append_cancel_right this.1, this.2⟩

theorem show_flags {a a' : ExprAst} (h : a.show = a'.show) : flagText a.options = flagText a'.options := by
  rw [show_flagText, show_flagText] at h
  have key : ∀ a : ExprAst, (a.root.show ++ flagText a.options).dropWhile (fun c => c != ' ') = flagText a.options := by
    intro a
    rw [List.dropWhile_append_of_pos]
    · rcases flagText_head a.options with h | ⟨t, h⟩ <;> rw [h] <;> simp
    · intro c hc
      have := List.all_eq_true.1 (absent_show a.root) _ hc
      simp only [Bool.and_eq_true] at this
      exact this.1
  rw [← key a, h, key a']

theorem reads_mono {e e' : Expr} (h : ∀ c s d, Step e c s d → Step e' c s d) {s d : Nat} {u : List Ch} (hr : Spec.Reads e s u d) :
    Spec.Reads e' s u d := by
  induction hr with
  | nil s => exact .nil s
  | cons h1 _ ih => exact .cons (h _ _ _ h1) ih

/-- C67: what is logged of an expression determines which phrases match it: expressions of which the same is logged have the
same states with the same steps between them, the same options, and match the same phrases. -/
theorem C67_same {a a' : ExprAst} {e e' : Expr} (h : fromAst a = .ok e) (h' : fromAst a' = .ok e')
    (hlog : a.logged e = a'.logged e') :
    e.len = e'.len ∧ e.fuzz = e'.fuzz ∧ e.ignWB = e'.ignWB ∧ e.ignPunct = e'.ignPunct ∧
      (∀ i, e.eps i = e'.eps i) ∧ (∀ c i d, Step e c i d ↔ Step e' c i d) ∧ ∀ w, Matches e w ↔ Matches e' w := by
  have hwf := C06_closed h
  have hwf' := C06_closed h'
  unfold ExprAst.logged Expr.debugText at hlog
  simp only [List.append_assoc] at hlog
  have hlog := List.append_cancel_left hlog
  obtain ⟨hshow, hlines⟩ := show_split (a := a) (a' := a') hlog
  obtain ⟨f1, f2, f3⟩ := flagText_inj (show_flags hshow)
  obtain ⟨hlen, hst⟩ := lines_inj hlines
  have hopts : e.fuzz = e'.fuzz ∧ e.ignWB = e'.ignWB ∧ e.ignPunct = e'.ignPunct := by
    have key : ∀ (x y : Option Bool), (x = some true ↔ y = some true) → (!(x.getD false)) = !(y.getD false) := by
      rintro (_ | _ | _) (_ | _ | _) <;> decide
    have hof : ∀ {a : ExprAst} {e : Expr}, fromAst a = .ok e → e.fuzz = a.options.fuzz.getD 0 ∧
        e.ignWB = !(a.options.explicitWB.getD false) ∧ e.ignPunct = !(a.options.explicitPunct.getD false) := by
      intro a e h
      unfold fromAst at h
      split at h
      · cases h
      · split at h
        · cases h
        · cases h
          exact ⟨rfl, rfl, rfl⟩
    obtain ⟨g1, g2, g3⟩ := hof h
    obtain ⟨k1, k2, k3⟩ := hof h'
    rw [g1, g2, g3, k1, k2, k3, f3, key _ _ f1, key _ _ f2]
    exact ⟨rfl, rfl, rfl⟩
  have hsome : ∀ {i : Nat} {st : State}, e.states[i]? = some st → ∃ st', e'.states[i]? = some st' ∧ SameState st st' i := by
    intro i st hi
    have : i < e'.states.length := by rw [← hlen]; exact (List.getElem?_eq_some_iff.1 hi).1
    refine ⟨e'.states[i], List.getElem?_eq_getElem this, ?_⟩
    have := hst i _ _ hi (List.getElem?_eq_getElem this)
    rwa [Nat.zero_add] at this
  have heps : ∀ i, e.eps i = e'.eps i := by
    intro i
    cases hi : e.states[i]? with
    | none =>
      have : e'.states[i]? = none := by
        rw [List.getElem?_eq_none_iff] at hi ⊢
        omega
      unfold Expr.eps
      rw [hi, this]
    | some st =>
      obtain ⟨st', hi', hs⟩ := hsome hi
      have e1 : e.eps i = st.eps := by unfold Expr.eps; rw [hi]; rfl
      have e2 : e'.eps i = st'.eps := by unfold Expr.eps; rw [hi']; rfl
      have r1 := hwf.refl i (List.getElem?_eq_some_iff.1 hi).1
      have r2 := hwf'.refl i (List.getElem?_eq_some_iff.1 hi').1
      apply Nat.eq_of_testBit_eq
      intro d
      by_cases hd : d = i
      · subst hd; rw [r1, r2]
      · rw [e1, e2]; exact hs.eps d hd
  have hstep : ∀ c i d, Step e c i d ↔ Step e' c i d := by
    intro c i d
    constructor
    · rintro ⟨st, h1, h2, h3⟩
      obtain ⟨st', h1', hs⟩ := hsome h1
      have hne : st.cls ≠ CharSet.empty := by
        intro e0
        rw [e0, CharSet.contains_empty] at h2
        cases h2
      exact ⟨st', h1', by rw [← hs.cls]; exact h2, by rw [← heps, ← hs.next hne]; exact h3⟩
    · rintro ⟨st', h1', h2, h3⟩
      have hi : i < e.states.length := by rw [hlen]; exact (List.getElem?_eq_some_iff.1 h1').1
      obtain ⟨st'', h1'', hs⟩ := hsome (List.getElem?_eq_getElem hi)
      rw [h1'] at h1''
      obtain rfl := Option.some.inj h1''
      have hc : (e.states[i]).cls.contains c = true := by rw [hs.cls]; exact h2
      have hne : (e.states[i]).cls ≠ CharSet.empty := by
        intro e0
        rw [e0, CharSet.contains_empty] at hc
        cases hc
      exact ⟨_, List.getElem?_eq_getElem hi, hc, by rw [heps, hs.next hne]; exact h3⟩
  refine ⟨hlen, hopts.1, hopts.2.1, hopts.2.2, heps, hstep, fun w => ?_⟩
  have hacc : ∀ u, Accepts e u ↔ Accepts e' u := by
    intro u
    unfold Accepts Expr.len
    rw [hlen, heps 0]
    constructor
    · rintro ⟨s, h1, h2⟩
      exact ⟨s, h1, reads_mono (fun c s d => (hstep c s d).1) h2⟩
    · rintro ⟨s, h1, h2⟩
      exact ⟨s, h1, reads_mono (fun c s d => (hstep c s d).2) h2⟩
  unfold Matches visible
  rw [hopts.1, hopts.2.1, hopts.2.2]
  simp only [hacc]

/-! ### Examples -/

/-- `.a*` with punctuation -/
def someExpr : ExprAst := { root := .seq [.cls CharSet.letters, .rep (.cls (CharSet.ofCh 0)) 0 none],
                            options := { explicitWB := none, explicitPunct := some true, fuzz := some 1 } }

example : ∃ e, fromAst someExpr = .ok e ∧ someExpr.logged e =
    "Expression: \"(.a*) !' !1\"\n    0: . -> [1]; \n    1: * -> [2, 3]; \n    2: a -> [1]; \n    3: _ -> [3]; \n".toList := by
  have : (fromAst someExpr).toOption.map (someExpr.logged ·) = some
    "Expression: \"(.a*) !' !1\"\n    0: . -> [1]; \n    1: * -> [2, 3]; \n    2: a -> [1]; \n    3: _ -> [3]; \n".toList := by decide +kernel
  cases h : fromAst someExpr with
  | error x => rw [h] at this; cases this
  | ok e =>
    rw [h] at this
    exact ⟨e, rfl, Option.some.inj this⟩

end Noodle
