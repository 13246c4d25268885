import Verif.Spec.ListGen
import Verif.Props.C03
/-
Lemmas about the preparation of word lists.
-/
namespace Noodle
set_option autoImplicit false
open Spec

/-! ### Trimming -/

/-- Without the elements at the ends for which `p` holds. -/
def trimEnds {α : Type} (p : α → Bool) (l : List α) : List α := ((l.dropWhile p).reverse.dropWhile p).reverse

theorem dropWhile_split {α : Type} (p : α → Bool) (l : List α) :
    ∃ a, l = a ++ l.dropWhile p ∧ (∀ x ∈ a, p x = true) ∧ ∀ x, (l.dropWhile p).head? = some x → p x = false := by
  induction l with
  | nil => exact ⟨[], rfl, by simp, by simp⟩
  | cons y l ih =>
    by_cases hy : p y = true
    · obtain ⟨a, h1, h2, h3⟩ := ih
      rw [List.dropWhile_cons_of_pos hy]
      refine ⟨y :: a, by rw [List.cons_append, ← h1], ?_, h3⟩
      intro x hx
      rcases List.mem_cons.1 hx with rfl | hx
      · exact hy
      · exact h2 x hx
    · rw [List.dropWhile_cons_of_neg hy]
      exact ⟨[], rfl, by simp, by intro x hx; cases hx; simpa using hy⟩

theorem dropWhile_run {α : Type} {p : α → Bool} : ∀ {a s : List α}, (∀ x ∈ a, p x = true) →
    (∀ x, s.head? = some x → p x = false) → (a ++ s).dropWhile p = s
  | [], [], _, _ => rfl
  | [], y :: s, _, h => by rw [List.nil_append, List.dropWhile_cons_of_neg (by simp [h y rfl])]
  | x :: a, s, ha, h => by
    rw [List.cons_append, List.dropWhile_cons_of_pos (ha x (by simp))]
    exact dropWhile_run (fun y hy => ha y (by simp [hy])) h

theorem trimEnds_spec {α : Type} (p : α → Bool) (l : List α) :
    ∃ a b, l = a ++ trimEnds p l ++ b ∧ (∀ x ∈ a ++ b, p x = true) ∧ (∀ x, (trimEnds p l).head? = some x → p x = false) ∧
      ∀ x, (trimEnds p l).getLast? = some x → p x = false := by
  obtain ⟨a, h1, h2, h3⟩ := dropWhile_split p l
  obtain ⟨b, g1, g2, g3⟩ := dropWhile_split p (l.dropWhile p).reverse
  have e : l.dropWhile p = trimEnds p l ++ b.reverse := by
    have := congrArg List.reverse g1
    rw [List.reverse_reverse, List.reverse_append] at this
    exact this
  refine ⟨a, b.reverse, by rw [List.append_assoc, ← e]; exact h1, ?_, ?_, ?_⟩
  · intro x hx
    rcases List.mem_append.1 hx with hx | hx
    · exact h2 x hx
    · exact g2 x (List.mem_reverse.1 hx)
  · intro x hx
    refine h3 x ?_
    rw [e, List.head?_append, hx]
    rfl
  · intro x hx
    refine g3 x ?_
    unfold trimEnds at hx
    rw [List.getLast?_reverse] at hx
    exact hx

theorem trimEnds_unique {α : Type} {p : α → Bool} {l a s b : List α} (h : l = a ++ s ++ b) (hp : ∀ x ∈ a ++ b, p x = true)
    (hh : ∀ x, s.head? = some x → p x = false) (hl : ∀ x, s.getLast? = some x → p x = false) : trimEnds p l = s := by
  have ha : ∀ x ∈ a, p x = true := fun x hx => hp x (by simp [hx])
  have hb : ∀ x ∈ b, p x = true := fun x hx => hp x (by simp [hx])
  cases s with
  | nil =>
    have : l.dropWhile p = [] := by
      have := dropWhile_run (s := []) (a := l) (p := p) (by rw [h]; simpa using hp) (by simp)
      simpa using this
    unfold trimEnds
    rw [this]
    rfl
  | cons y s =>
    have h1 : l.dropWhile p = (y :: s) ++ b := by
      rw [h, List.append_assoc]
      exact dropWhile_run ha (by intro x hx; exact hh x (by simpa using hx))
    have h2 : (((y :: s) ++ b).reverse).dropWhile p = (y :: s).reverse := by
      rw [List.reverse_append]
      refine dropWhile_run (by simpa using hb) ?_
      intro x hx
      rw [List.head?_reverse] at hx
      exact hl x hx
    unfold trimEnds
    rw [h1, h2, List.reverse_reverse]

/-! ### Canonical forms -/

theorem letter_iff (c : Char) : pyLetter c = true ↔ Letter c := by
  unfold pyLetter Letter
  simp

theorem notLetter_iff (c : Char) : (!pyLetter c) = true ↔ ¬ Letter c := by
  rw [← letter_iff]; simp

theorem notLetter_iff' (c : Char) : (!pyLetter c) = false ↔ Letter c := by
  rw [← letter_iff]; simp

theorem ligature_eq (c : Char) : ligature c = (match c with
    | 'æ' => ['a', 'e'] | 'Æ' => ['A', 'E'] | 'œ' => ['o', 'e'] | 'Œ' => ['O', 'E'] | c => [c]) := by
  unfold ligature
  split
  · next h => subst h; rfl
  · split
    · next h => subst h; rfl
    · split
      · next h => subst h; rfl
      · split
        · next h => subst h; rfl
        · split <;> simp_all

theorem folded_eq (P : Python) (word : List Char) :
    ((P.nfkd (word.flatMap ligature)).filter fun c => !P.combining c).flatMap P.casefold = folded P word := by
  unfold folded
  rw [funext ligature_eq]
  rfl

theorem canonicalize_spec (P : Python) (word : List Char) : Canonical P word (canonicalize P word) := by
  unfold canonicalize
  rw [folded_eq]
  dsimp only
  split
  · next h =>
    obtain ⟨c, h1, h2⟩ := List.any_eq_true.1 h
    exact .digit ⟨c, h1, by simpa [Digit] using h2⟩
  · next hd =>
    have hd : ∀ c ∈ word, ¬ Digit c := by
      intro c hc hD
      exact hd (List.any_eq_true.2 ⟨c, hc, by simpa [Digit] using hD⟩)
    split
    · next h =>
      obtain ⟨c, h1, h2⟩ := List.any_eq_true.1 h
      exact .foreign ⟨c, h1, by simpa using h2⟩
    · next hf =>
      have hf : ∀ c ∈ folded P word, c.toNat < 128 := by
        intro c hc
        refine Nat.lt_of_not_le fun h => hf (List.any_eq_true.2 ⟨c, hc, by simpa using h⟩)
      show Canonical P word (trimEnds (fun c => !pyLetter c) (folded P word))
      obtain ⟨a, b, h1, h2, h3, h4⟩ := trimEnds_spec (fun c => !pyLetter c) (folded P word)
      generalize trimEnds (fun c => !pyLetter c) (folded P word) = k at *
      cases hk : k with
      | nil =>
        subst hk
        refine .signs ?_
        rw [h1]
        intro c hc
        exact (notLetter_iff c).1 (h2 c (by simpa using hc))
      | cons x s =>
        rw [← hk]
        have hx : k.head? = some x := by rw [hk]; rfl
        obtain ⟨y, hy⟩ : ∃ y, k.getLast? = some y := by
          rw [hk, List.getLast?_cons]
          exact ⟨_, rfl⟩
        exact .form hd hf h1 (fun c hc => (notLetter_iff c).1 (h2 c hc)) hx hy ((notLetter_iff' x).1 (h3 x hx))
          ((notLetter_iff' y).1 (h4 y hy))

theorem canonical_unique {P : Python} {word k : List Char} (h : Canonical P word k) : k = canonicalize P word := by
  have h' := canonicalize_spec P word
  generalize canonicalize P word = k' at h'
  have hmem : ∀ {a k b : List Char} {x : Char}, folded P word = a ++ k ++ b → k.head? = some x → x ∈ folded P word := by
    intro a k b x h1 h2
    rw [h1]
    simp [List.mem_of_mem_head? (show x ∈ k.head? from h2)]
  cases h with
  | digit h =>
    obtain ⟨c, h1, h2⟩ := h
    cases h' with
    | form g => exact absurd h2 (g c h1)
    | _ => rfl
  | foreign h =>
    obtain ⟨c, h1, h2⟩ := h
    cases h' with
    | form _ g => exact absurd (g c h1) (by omega)
    | _ => rfl
  | signs h =>
    cases h' with
    | form _ _ g1 _ g2 _ g3 => exact absurd g3 (h _ (hmem g1 g2))
    | _ => rfl
  | form f1 f2 f3 f4 f5 f6 f7 f8 =>
    cases h' with
    | digit h =>
      obtain ⟨c, h1, h2⟩ := h
      exact absurd h2 (f1 c h1)
    | foreign h =>
      obtain ⟨c, h1, h2⟩ := h
      exact absurd (f2 c h1) (by omega)
    | signs h => exact absurd f7 (h _ (hmem f3 f5))
    | form g1 g2 g3 g4 g5 g6 g7 g8 =>
      have e1 := trimEnds_unique (p := fun c => !pyLetter c) f3 (fun c hc => (notLetter_iff c).2 (f4 c hc))
        (by intro x hx; rw [f5] at hx; cases hx; exact (notLetter_iff' _).2 f7)
        (by intro x hx; rw [f6] at hx; cases hx; exact (notLetter_iff' _).2 f8)
      have e2 := trimEnds_unique (p := fun c => !pyLetter c) g3 (fun c hc => (notLetter_iff c).2 (g4 c hc))
        (by intro x hx; rw [g5] at hx; cases hx; exact (notLetter_iff' _).2 g7)
        (by intro x hx; rw [g6] at hx; cases hx; exact (notLetter_iff' _).2 g8)
      rw [← e1, e2]

theorem canonical_iff {P : Python} {word k : List Char} : Canonical P word k ↔ canonicalize P word = k :=
  ⟨fun h => (canonical_unique h).symm, fun h => h ▸ canonicalize_spec P word⟩

/-! ### Dictionaries -/

theorem pyGet_set {α : Type} (d : PyDict α) (k : List Char) (v : α) (j : List Char) :
    (d.set k v).get j = if k = j then some v else d.get j := by
  induction d with
  | nil => rfl
  | cons x d ih =>
    obtain ⟨k', v'⟩ := x
    rw [PyDict.set]
    split
    · next h =>
      subst h
      rw [PyDict.get, PyDict.get]
      split <;> rfl
    · next h =>
      rw [PyDict.get, PyDict.get, ih]
      split
      · next h2 => subst h2; rw [if_neg (Ne.symm h)]
      · rfl

theorem pyKeys_set {α : Type} (d : PyDict α) (k : List Char) (v : α) (j : List Char) :
    j ∈ (d.set k v).map (·.1) ↔ j = k ∨ j ∈ d.map (·.1) := by
  induction d with
  | nil => simp [PyDict.set]
  | cons x d ih =>
    obtain ⟨k', v'⟩ := x
    rw [PyDict.set]
    split
    · next h => subst h; simp
    · rw [List.map_cons, List.mem_cons, ih, List.map_cons, List.mem_cons]
      constructor
      · rintro (h | h | h) <;> simp [h]
      · rintro (h | h | h) <;> simp [h]

theorem pyNodup_set {α : Type} {d : PyDict α} (h : (d.map (·.1)).Nodup) (k : List Char) (v : α) :
    ((d.set k v).map (·.1)).Nodup := by
  induction d with
  | nil => simp [PyDict.set]
  | cons x d ih =>
    obtain ⟨k', v'⟩ := x
    rw [List.map_cons, List.nodup_cons] at h
    rw [PyDict.set]
    split
    · next h2 => subst h2; rw [List.map_cons, List.nodup_cons]; exact h
    · next h2 =>
      rw [List.map_cons, List.nodup_cons]
      refine ⟨fun hm => ?_, ih h.2⟩
      rcases (pyKeys_set d k v k').1 hm with h3 | h3
      · exact h2 h3
      · exact h.1 h3

theorem pyMem_iff {α : Type} {d : PyDict α} (h : (d.map (·.1)).Nodup) (k : List Char) (v : α) :
    (k, v) ∈ d ↔ d.get k = some v := by
  induction d with
  | nil => simp [PyDict.get]
  | cons x d ih =>
    obtain ⟨k', v'⟩ := x
    rw [List.map_cons, List.nodup_cons] at h
    rw [List.mem_cons, PyDict.get, ih h.2]
    by_cases hk : k' = k
    · subst hk
      rw [if_pos rfl]
      constructor
      · rintro (e | e)
        · cases e; rfl
        · exact absurd (List.mem_map.2 ⟨_, (ih h.2).2 e, rfl⟩) h.1
      · intro e; cases e; exact .inl rfl
    · rw [if_neg hk]
      constructor
      · rintro (e | e)
        · cases e; exact absurd rfl hk
        · exact e
      · exact .inr

theorem pySet_new {α : Type} {d : PyDict α} {k : List Char} (v : α) (h : k ∉ d.map (·.1)) : d.set k v = d ++ [(k, v)] := by
  induction d with
  | nil => rfl
  | cons x d ih =>
    obtain ⟨k', v'⟩ := x
    simp only [List.map_cons, List.mem_cons, not_or] at h
    rw [PyDict.set, if_neg (Ne.symm h.1), ih h.2]
    rfl

/-! ### Points -/

theorem adjust_worth (P : Python) (count : Int) (k word : List Char) : Worth P count k word (adjust P count k word) := by
  have hc : ((word.flatMap P.casefold).filter pyLetter).length =
      (word.flatMap P.casefold).countP fun c => decide (Letter c) := by
    rw [List.countP_eq_length_filter]
    congr 1
    refine List.filter_congr fun c _ => ?_
    rw [Bool.eq_iff_iff, letter_iff]
    simp
  unfold adjust
  split
  · next h => rw [Int.mul_comm]; exact .same h.symm
  · next h1 =>
    split
    · next h => exact .capitals (Ne.symm h1) h.symm
    · next h2 =>
      split
      · next h => exact .shrunk (Ne.symm h1) (Ne.symm h2) h
      · next h3 =>
        unfold lowAlpha
        rw [hc]
        split
        · next h => exact .signs (Ne.symm h1) (Ne.symm h2) (by omega) (by simpa using h)
        · next h => exact .plain (Ne.symm h1) (Ne.symm h2) (by omega) (by simpa using h)

theorem worth_unique {P : Python} {count m : Int} {k word : List Char} (h : Worth P count k word m) :
    m = adjust P count k word := by
  have h' := adjust_worth P count k word
  generalize adjust P count k word = m' at h'
  cases h <;> cases h' <;> first | rfl | contradiction | (exfalso; omega)

/-- The points of a form, as a function. -/
def earned (P : Python) (k : List Char) (rows : List CountRow) : Int :=
  (rows.map fun r => if canonicalize P r.2 = k then adjust P r.1 k r.2 else 0).sum

theorem earned_spec (P : Python) (k : List Char) : ∀ rows : List CountRow, Earned P k rows (earned P k rows)
  | [] => .nil
  | r :: rows => by
    have ih := earned_spec P k rows
    unfold earned at ih ⊢
    rw [List.map_cons, List.sum_cons]
    split
    · next h => exact .hit (canonical_iff.2 h) (adjust_worth P _ _ _) ih
    · next h =>
      rw [Int.zero_add]
      exact .miss (fun hc => h (canonical_iff.1 hc)) ih

theorem earned_unique {P : Python} {k : List Char} {rows : List CountRow} {n : Int} (h : Earned P k rows n) :
    n = earned P k rows := by
  induction h with
  | nil => rfl
  | miss h1 _ ih =>
    rw [ih]
    unfold earned
    rw [List.map_cons, List.sum_cons, if_neg (fun hc => h1 (canonical_iff.2 hc)), Int.zero_add]
  | hit h1 h2 _ ih =>
    rw [ih, worth_unique h2]
    unfold earned
    rw [List.map_cons, List.sum_cons, if_pos (canonical_iff.1 h1)]

theorem earned_snoc (P : Python) (k : List Char) (rows : List CountRow) (r : CountRow) :
    earned P k (rows ++ [r]) = earned P k rows + if canonicalize P r.2 = k then adjust P r.1 k r.2 else 0 := by
  unfold earned
  simp

theorem earned_none {P : Python} {k : List Char} {rows : List CountRow} (h : ∀ r ∈ rows, canonicalize P r.2 ≠ k) :
    earned P k rows = 0 := by
  induction rows with
  | nil => rfl
  | cons r rows ih =>
    have := ih fun x hx => h x (by simp [hx])
    unfold earned at this ⊢
    rw [List.map_cons, List.sum_cons, if_neg (h r (by simp)), this]
    rfl

theorem last_snoc_hit {P : Python} {k w : List Char} {c : Int} (rows : List CountRow) (h : canonicalize P w = k) :
    LastForm P k (rows ++ [(c, w)]) w := ⟨rows, c, [], rfl, canonical_iff.2 h, by simp⟩

theorem last_snoc_miss {P : Python} {k w : List Char} {rows : List CountRow} {r : CountRow} (h : canonicalize P r.2 ≠ k)
    (hl : LastForm P k rows w) : LastForm P k (rows ++ [r]) w := by
  obtain ⟨a, c, b, rfl, h1, h2⟩ := hl
  refine ⟨a, c, b ++ [r], by simp, h1, ?_⟩
  intro x hx
  rcases List.mem_append.1 hx with hx | hx
  · exact h2 x hx
  · rw [List.mem_singleton] at hx
    subst hx
    exact fun hc => h (canonical_iff.1 hc)

theorem last_unique {P : Python} {k w w' : List Char} {rows : List CountRow} (h : LastForm P k rows w)
    (h' : LastForm P k rows w') : w = w' := by
  obtain ⟨a, c, b, e, h1, h2⟩ := h
  obtain ⟨a', c', b', e', h1', h2'⟩ := h'
  rw [e] at e'
  rcases List.append_eq_append_iff.1 e' with ⟨x, hx, hy⟩ | ⟨x, hx, hy⟩
  · cases x with
    | nil => simp at hy; exact hy.1.2
    | cons y x =>
      simp only [List.cons_append, List.cons.injEq] at hy
      exact absurd h1' (h2 (c', w') (by rw [hy.2]; simp))
  · cases x with
    | nil => simp at hy; exact hy.1.2.symm
    | cons y x =>
      simp only [List.cons_append, List.cons.injEq] at hy
      exact absurd h1 (h2' (c, w) (by rw [hy.2]; simp))

theorem last_exists {P : Python} {k : List Char} : ∀ {rows : List CountRow}, (∃ r ∈ rows, canonicalize P r.2 = k) →
    ∃ w, LastForm P k rows w
  | [], ⟨r, hr, _⟩ => by simp at hr
  | x :: rows, ⟨r, hr, e⟩ => by
    by_cases hx : ∃ r ∈ rows, canonicalize P r.2 = k
    · obtain ⟨w, a, c, b, rfl, h1, h2⟩ := last_exists hx
      exact ⟨w, x :: a, c, b, rfl, h1, h2⟩
    · rcases List.mem_cons.1 hr with rfl | hr
      · exact ⟨r.2, [], r.1, rows, rfl, canonical_iff.2 e, fun r' hr' hc => hx ⟨r', hr', canonical_iff.1 hc⟩⟩
      · exact absurd ⟨r, hr, e⟩ hx

/-- A form that gets points. -/
def Counted (k : List Char) : Prop := k ≠ [] ∧ k ∉ blocklist

/-- What has been gathered from some rows. -/
structure Gathered (P : Python) (rows : List CountRow) (st : Gather) : Prop where
  keys : (st.points.map (·.1)).Nodup
  points : ∀ k n, st.points.get k = some n ↔ Counted k ∧ (∃ r ∈ rows, canonicalize P r.2 = k) ∧ n = earned P k rows
  originals : ∀ k w, st.originals.get k = some w ↔ Counted k ∧ LastForm P k rows w
  tabs : ∀ r ∈ rows, '\t' ∉ r.2

theorem canonicalize_nil (P : Python) (h : P.nfkd [] = []) : canonicalize P [] = [] := by
  unfold canonicalize
  simp [h]

theorem gather_step {P : Python} {rows : List CountRow} {st st' : Gather} {c : Int} {w : List Char} {o : Option Int}
    (hs : Gathered P rows st) (hn : P.nfkd [] = []) (h : gather P st c w = .ok (st', o)) : Gathered P (rows ++ [(c, w)]) st' := by
  have skip : ∀ hw : ¬ Counted (canonicalize P w), '\t' ∉ w → Gathered P (rows ++ [(c, w)]) st := by
    intro hw ht
    refine ⟨hs.keys, fun k n => ?_, fun k v => ?_, ?_⟩
    · rw [hs.points]
      by_cases hk : Counted k
      · have hne : canonicalize P w ≠ k := fun e => hw (e ▸ hk)
        rw [earned_snoc, if_neg hne, Int.add_zero]
        constructor
        · rintro ⟨a, ⟨r, hr, e⟩, b⟩; exact ⟨a, ⟨r, by simp [hr], e⟩, b⟩
        · rintro ⟨a, ⟨r, hr, e⟩, b⟩
          rcases List.mem_append.1 hr with hr | hr
          · exact ⟨a, ⟨r, hr, e⟩, b⟩
          · rw [List.mem_singleton] at hr; subst hr; exact absurd e hne
      · constructor
        · rintro ⟨a, _⟩; exact absurd a hk
        · rintro ⟨a, _⟩; exact absurd a hk
    · rw [hs.originals]
      by_cases hk : Counted k
      · have hne : canonicalize P w ≠ k := fun e => hw (e ▸ hk)
        refine and_congr_right fun _ => ⟨last_snoc_miss (r := (c, w)) hne, ?_⟩
        rintro ⟨a, c', b, e, h1, h2⟩
        rcases List.eq_nil_or_concat b with rfl | ⟨b', x, rfl⟩
        · obtain ⟨e1, e2⟩ := List.append_inj' e rfl
          cases e2
          exact absurd (canonical_iff.1 h1) hne
        · rw [List.concat_eq_append, ← List.cons_append, ← List.append_assoc] at e
          obtain ⟨e1, e2⟩ := List.append_inj' e rfl
          exact ⟨a, c', b', e1, h1, fun r hr => h2 r (by simp [hr])⟩
      · constructor
        · rintro ⟨a, _⟩; exact absurd a hk
        · rintro ⟨a, _⟩; exact absurd a hk
    · intro r hr
      rcases List.mem_append.1 hr with hr | hr
      · exact hs.tabs r hr
      · rw [List.mem_singleton] at hr; subst hr; exact ht
  unfold gather at h
  split at h
  · next hw =>
    cases h
    refine skip ?_ (by simp [hw])
    rw [hw, canonicalize_nil P hn]
    exact fun hc => hc.1 rfl
  · split at h
    · cases h
    · next ht =>
      dsimp only at h
      split at h
      · next hw =>
        cases h
        refine skip (fun hc => ?_) ht
        rcases hw with hw | hw
        · exact hc.1 hw
        · exact hc.2 hw
      · next hw =>
        cases h
        have hw : Counted (canonicalize P w) := by simpa [Counted] using hw
        refine ⟨pyNodup_set hs.keys _ _, fun k n => ?_, fun k v => ?_, ?_⟩
        · rw [pyGet_set]
          split
          · next hk =>
            subst hk
            rw [earned_snoc, if_pos rfl]
            have hp : (st.points.get (canonicalize P w)).getD 0 = earned P (canonicalize P w) rows := by
              cases hg : st.points.get (canonicalize P w) with
              | some m => exact ((hs.points _ _).1 hg).2.2
              | none =>
                refine (earned_none fun r hr e => ?_).symm
                have := (hs.points _ _).2 ⟨hw, ⟨r, hr, e⟩, rfl⟩
                rw [hg] at this
                cases this
            rw [hp]
            constructor
            · intro e; cases e; exact ⟨hw, ⟨_, List.mem_append_right _ (List.mem_singleton.2 rfl), rfl⟩, rfl⟩
            · rintro ⟨_, _, e⟩; rw [e]
          · next hk =>
            rw [hs.points, earned_snoc, if_neg hk, Int.add_zero]
            constructor
            · rintro ⟨a, ⟨r, hr, e⟩, b⟩; exact ⟨a, ⟨r, by simp [hr], e⟩, b⟩
            · rintro ⟨a, ⟨r, hr, e⟩, b⟩
              rcases List.mem_append.1 hr with hr | hr
              · exact ⟨a, ⟨r, hr, e⟩, b⟩
              · rw [List.mem_singleton] at hr; subst hr; exact absurd e hk
        · rw [pyGet_set]
          split
          · next hk =>
            subst hk
            constructor
            · intro e; cases e; exact ⟨hw, last_snoc_hit rows rfl⟩
            · rintro ⟨_, hl⟩; rw [last_unique hl (last_snoc_hit rows rfl)]
          · next hne =>
            rw [hs.originals]
            refine and_congr_right fun _ => ⟨last_snoc_miss (r := (c, w)) hne, ?_⟩
            rintro ⟨a, c', b, e, h1, h2⟩
            rcases List.eq_nil_or_concat b with rfl | ⟨b', x, rfl⟩
            · obtain ⟨e1, e2⟩ := List.append_inj' e rfl
              cases e2
              exact absurd (canonical_iff.1 h1) hne
            · rw [List.concat_eq_append, ← List.cons_append, ← List.append_assoc] at e
              obtain ⟨e1, e2⟩ := List.append_inj' e rfl
              exact ⟨a, c', b', e1, h1, fun r hr => h2 r (by simp [hr])⟩
        · intro r hr
          rcases List.mem_append.1 hr with hr | hr
          · exact hs.tabs r hr
          · rw [List.mem_singleton] at hr; subst hr; exact ht

theorem gathered_nil (P : Python) : Gathered P [] {} :=
  ⟨by simp, by intro k n; simp [PyDict.get], by
    intro k w
    constructor
    · intro h; cases h
    · rintro ⟨_, a, c, b, e, _⟩
      simp at e, by simp⟩

theorem gatherList_spec {P : Python} (hn : P.nfkd [] = []) (factor : Int) : ∀ (rs : List CountRow) {rows : List CountRow} {st st' : Gather}
    {d d' : WordData}, Gathered P rows st → gatherList P factor st d rs = .ok (st', d') →
    Gathered P (rows ++ rs.map fun r => (factor * r.1, r.2)) st'
  | [], rows, st, st', d, d', hs, h => by
    rw [gatherList] at h
    cases h
    simpa using hs
  | (c, w) :: rs, rows, st, st', d, d', hs, h => by
    rw [gatherList] at h
    split at h
    · cases h
    · next st1 o h1 =>
      have := gatherList_spec hn factor rs (gather_step hs hn h1) h
      rw [Int.mul_comm] at this
      simpa using this

theorem gatherBody_spec {P : Python} (hn : P.nfkd [] = []) : ∀ (rs : List CountRow) {rows : List CountRow} {st st' : Gather},
    Gathered P rows st → gatherBody P st rs = .ok st' → Gathered P (rows ++ rs) st'
  | [], rows, st, st', hs, h => by
    rw [gatherBody] at h
    cases h
    simpa using hs
  | (c, w) :: rs, rows, st, st', hs, h => by
    rw [gatherBody] at h
    split at h
    · cases h
    · next st1 o h1 =>
      have := gatherBody_spec hn rs (gather_step hs hn h1) h
      simpa using this

/-- What a list of one file contains so far. -/
structure Collected (P : Python) (base rows : List CountRow) (d : WordData) : Prop where
  keys : (d.map (·.1)).Nodup
  entries : ∀ k n w, (∃ i, d.get k = some (n, i, w)) ↔ Counted k ∧ (∃ r ∈ rows, canonicalize P r.2 = k) ∧
    n = earned P k (base ++ rows) ∧ n ≠ 0 ∧ LastForm P k (base ++ rows) w

theorem earned_nonneg {P : Python} {k : List Char} {rows : List CountRow}
    (h : ∀ r ∈ rows, 0 ≤ adjust P r.1 (canonicalize P r.2) r.2) : 0 ≤ earned P k rows := by
  induction rows with
  | nil => exact Int.le_refl _
  | cons r rows ih =>
    have ih := ih fun x hx => h x (by simp [hx])
    have hr := h r (by simp)
    unfold earned at ih ⊢
    rw [List.map_cons, List.sum_cons]
    split
    · next e => rw [← e]; rw [← e] at ih; omega
    · omega

theorem last_snoc_miss_iff {P : Python} {k w : List Char} {rows : List CountRow} {r : CountRow} (hne : canonicalize P r.2 ≠ k) :
    LastForm P k (rows ++ [r]) w ↔ LastForm P k rows w := by
  refine ⟨?_, last_snoc_miss hne⟩
  rintro ⟨a, c', b, e, h1, h2⟩
  rcases List.eq_nil_or_concat b with rfl | ⟨b', x, rfl⟩
  · obtain ⟨e1, e2⟩ := List.append_inj' e rfl
    cases e2
    exact absurd (canonical_iff.1 h1) hne
  · rw [List.concat_eq_append, ← List.cons_append, ← List.append_assoc] at e
    obtain ⟨e1, e2⟩ := List.append_inj' e rfl
    exact ⟨a, c', b', e1, h1, fun r hr => h2 r (by simp [hr])⟩

theorem gather_some {P : Python} {rows : List CountRow} {st st' : Gather} {c : Int} {w : List Char} {o : Option Int}
    (hs : Gathered P rows st) (hn : P.nfkd [] = []) (h : gather P st c w = .ok (st', o)) :
    (o = none ∧ ¬ Counted (canonicalize P w)) ∨
    (o = some (earned P (canonicalize P w) (rows ++ [(c, w)])) ∧ Counted (canonicalize P w)) := by
  have h0 := h
  unfold gather at h
  split at h
  · next hw =>
    cases h
    left
    rw [hw, canonicalize_nil P hn]
    exact ⟨rfl, fun hc => hc.1 rfl⟩
  · split at h
    · cases h
    · dsimp only at h
      split at h
      · next hw =>
        cases h
        refine .inl ⟨rfl, fun hc => ?_⟩
        rcases hw with hw | hw
        · exact hc.1 hw
        · exact hc.2 hw
      · next hw =>
        have hw : Counted (canonicalize P w) := by simpa [Counted] using hw
        have hs' := gather_step hs hn h0
        cases h
        refine .inr ⟨?_, hw⟩
        have := (hs'.points (canonicalize P w) _).1 (by rw [pyGet_set, if_pos rfl])
        rw [this.2.2]

/-- What a row adds to the list of its file. -/
def collected1 (P : Python) (d : WordData) (w : List Char) : Option Int → WordData
  | some n => if n ≠ 0 then addCanonical d (canonicalize P w) w n else d
  | none => d

theorem collect_step {P : Python} {base rows : List CountRow} {st st' : Gather} {c : Int} {w : List Char} {o : Option Int}
    {d : WordData} (hs : Gathered P (base ++ rows) st) (hd : Collected P base rows d) (hn : P.nfkd [] = [])
    (hpos : ∀ r ∈ base ++ (rows ++ [(c, w)]), 0 ≤ adjust P r.1 (canonicalize P r.2) r.2)
    (h : gather P st c w = .ok (st', o)) :
    Collected P base (rows ++ [(c, w)]) (collected1 P d w o) := by
  have other : ∀ {k : List Char}, Counted k → canonicalize P w ≠ k → ∀ {n : Int} {v : List Char},
      ((∃ i, d.get k = some (n, i, v)) ↔ Counted k ∧ (∃ r ∈ rows ++ [(c, w)], canonicalize P r.2 = k) ∧
        n = earned P k (base ++ (rows ++ [(c, w)])) ∧ n ≠ 0 ∧ LastForm P k (base ++ (rows ++ [(c, w)])) v) := by
    intro k hk hne n v
    rw [hd.entries, ← List.append_assoc, earned_snoc, if_neg hne, Int.add_zero, last_snoc_miss_iff (r := (c, w)) hne]
    refine and_congr_right fun _ => and_congr_left fun _ => ?_
    constructor
    · rintro ⟨r, hr, e⟩; exact ⟨r, by simp [hr], e⟩
    · rintro ⟨r, hr, e⟩
      rcases List.mem_append.1 hr with hr | hr
      · exact ⟨r, hr, e⟩
      · rw [List.mem_singleton] at hr; subst hr; exact absurd e hne
  have uncounted : ∀ {k : List Char}, ¬ Counted k → ∀ {n : Int} {v : List Char} {A : Prop},
      ((∃ i, d.get k = some (n, i, v)) ↔ Counted k ∧ A) := by
    intro k hk n v A
    rw [hd.entries]
    constructor
    · rintro ⟨a, _⟩; exact absurd a hk
    · rintro ⟨a, _⟩; exact absurd a hk
  rcases gather_some hs hn h with ⟨rfl, hw⟩ | ⟨rfl, hw⟩
  · refine ⟨hd.keys, fun k n v => ?_⟩
    by_cases hk : Counted k
    · exact other hk (fun e => hw (e ▸ hk))
    · exact uncounted hk
  · rw [List.append_assoc]
    dsimp only [collected1]
    split
    · next h0 =>
      unfold addCanonical
      refine ⟨pyNodup_set hd.keys _ _, fun k n v => ?_⟩
      rw [pyGet_set]
      split
      · next hk =>
        subst hk
        constructor
        · rintro ⟨i, e⟩
          cases e
          refine ⟨hw, ⟨_, List.mem_append_right _ (List.mem_singleton.2 rfl), rfl⟩, rfl, h0, ?_⟩
          rw [← List.append_assoc]
          exact last_snoc_hit _ rfl
        · rintro ⟨_, _, rfl, _, hl⟩
          rw [← List.append_assoc] at hl
          rw [last_unique hl (last_snoc_hit _ rfl)]
          exact ⟨_, rfl⟩
      · next hne =>
        by_cases hk : Counted k
        · exact other hk hne
        · exact uncounted hk
    · next h0 =>
      have h0 : earned P (canonicalize P w) (base ++ (rows ++ [(c, w)])) = 0 := by simpa using h0
      refine ⟨hd.keys, fun k n v => ?_⟩
      by_cases hk : Counted k
      · by_cases hne : canonicalize P w = k
        · subst hne
          have hz : earned P (canonicalize P w) (base ++ rows) = 0 := by
            rw [← List.append_assoc, earned_snoc, if_pos rfl] at h0
            have h1 : 0 ≤ earned P (canonicalize P w) (base ++ rows) := earned_nonneg fun r hr => hpos r (by
              rcases List.mem_append.1 hr with hr | hr <;> simp [hr])
            have h2 := hpos (c, w) (by simp)
            dsimp only at h0 h2
            omega
          rw [hd.entries]
          constructor
          · rintro ⟨_, _, e, e2, _⟩; exact absurd (e.trans hz) e2
          · rintro ⟨_, _, e, e2, _⟩; exact absurd (e.trans h0) e2
        · exact other hk hne
      · exact uncounted hk

theorem gatherList_collects {P : Python} (hn : P.nfkd [] = []) (factor : Int) : ∀ (rs : List CountRow)
    {base rows : List CountRow} {st st' : Gather} {d d' : WordData}, Gathered P (base ++ rows) st → Collected P base rows d →
    (∀ r ∈ base ++ (rows ++ rs.map fun r => (factor * r.1, r.2)), 0 ≤ adjust P r.1 (canonicalize P r.2) r.2) →
    gatherList P factor st d rs = .ok (st', d') → Collected P base (rows ++ rs.map fun r => (factor * r.1, r.2)) d'
  | [], base, rows, st, st', d, d', hs, hd, hp, h => by
    rw [gatherList] at h
    cases h
    simpa using hd
  | (c, w) :: rs, base, rows, st, st', d, d', hs, hd, hp, h => by
    rw [gatherList] at h
    split at h
    · cases h
    · next st1 o h1 =>
      rw [Int.mul_comm] at h1
      change gatherList P factor st1 (collected1 P d w o) rs = _ at h
      have hp' : ∀ r ∈ base ++ ((rows ++ [(factor * c, w)]) ++ rs.map fun r => (factor * r.1, r.2)),
          0 ≤ adjust P r.1 (canonicalize P r.2) r.2 := by
        intro r hr
        exact hp r (by simpa using hr)
      have hs1 := gather_step hs hn h1
      rw [List.append_assoc] at hs1
      have := gatherList_collects hn factor rs hs1
        (collect_step hs hd hn (fun r hr => hp' r (by
          rw [← List.append_assoc, List.mem_append]
          exact .inl hr)) h1) hp' h
      simpa using this

theorem collected_nil (P : Python) (base : List CountRow) : Collected P base [] [] :=
  ⟨by simp, fun k n w => by simp [PyDict.get]⟩

/-! ### Reading -/

theorem pyLines_spec (cur text : List Char) : '\n' ∉ cur → '\r' ∉ cur → PyLines (cur ++ text) (pyLines cur text) := by
  induction cur, text using pyLines.induct with
  | case1 cur h =>
    intro h1 h2
    rw [pyLines, List.append_nil, if_pos h, List.isEmpty_iff.1 h]
    exact .nil
  | case2 cur h =>
    intro h1 h2
    rw [pyLines, List.append_nil, if_neg h]
    exact .last (fun e => h (by simp [e])) h1 h2
  | case3 cur cs ih =>
    intro h1 h2
    rw [pyLines]
    exact .crlf h1 h2 (by simpa using ih (by simp) (by simp))
  | case4 cur c cs hc hb ih =>
    intro h1 h2
    rw [pyLines.eq_def]
    split
    · next e => cases e
    · next e => cases e; exact absurd rfl (hc _ rfl)
    · next e =>
      cases e
      rw [if_pos hb]
      have ih := ih (by simp) (by simp)
      rw [List.nil_append] at ih
      rcases hb with rfl | rfl
      · exact .lf h1 h2 ih
      · refine .cr h1 h2 ?_ ih
        intro hh
        cases cs with
        | nil => cases hh
        | cons x cs => cases hh; exact hc _ rfl rfl
  | case5 cur c cs hc hb ih =>
    intro h1 h2
    rw [pyLines.eq_def]
    split
    · next e => cases e
    · next e => cases e; exact absurd rfl (hc _ rfl)
    · next e =>
      cases e
      rw [if_neg hb]
      simp only [not_or] at hb
      have := ih (by simp [h1, Ne.symm hb.1]) (by simp [h2, Ne.symm hb.2])
      simpa using this

theorem lines_clean {text : List Char} {ls : List (List Char)} (h : PyLines text ls) : ∀ l ∈ ls, '\n' ∉ l ∧ '\r' ∉ l := by
  induction h with
  | nil => simp
  | last _ h1 h2 => intro l hl; rw [List.mem_singleton] at hl; subst hl; exact ⟨h1, h2⟩
  | lf h1 h2 _ ih =>
    intro l hl
    rcases List.mem_cons.1 hl with rfl | hl
    · exact ⟨h1, h2⟩
    · exact ih l hl
  | crlf h1 h2 _ ih =>
    intro l hl
    rcases List.mem_cons.1 hl with rfl | hl
    · exact ⟨h1, h2⟩
    · exact ih l hl
  | cr h1 h2 _ _ ih =>
    intro l hl
    rcases List.mem_cons.1 hl with rfl | hl
    · exact ⟨h1, h2⟩
    · exact ih l hl

theorem pyStrip_spec (P : Python) (l : List Char) : Stripped P l (pyStrip P l) := trimEnds_spec P.space l

theorem rowOfThree_spec {P : Python} {l : List Char} {r : CountRow} (h : rowOfThree P l = .ok r) : RowOfThree P l r := by
  unfold rowOfThree at h
  split at h
  · cases h
  · next count rest h1 =>
    split at h
    · cases h
    · next form word h2 =>
      split at h
      · cases h
      · next ht =>
        split at h
        · cases h
        · next n h3 =>
          cases h
          obtain ⟨e1, f1⟩ := splitTab_some.1 h1
          obtain ⟨e2, f2⟩ := splitTab_some.1 h2
          refine ⟨count, form, ?_, f1, f2, ht, h3⟩
          rw [← e2, ← e1]
          exact pyStrip_spec P l

theorem splitTab_none {l : List Char} (h : splitTab l = none) : '\t' ∉ l := by
  intro hm
  obtain ⟨a, b, e, ha⟩ := List.eq_append_cons_of_mem hm
  rw [splitTab_some.2 ⟨e, ha⟩] at h
  cases h

theorem rowOfTwo_spec {P : Python} {l : List Char} {r : CountRow} (h : rowOfTwo P l = .ok r) : RowOfTwo P l r := by
  unfold rowOfTwo at h
  cases hs : splitTab (pyStrip P l) with
  | none =>
    rw [hs] at h
    dsimp only [Option.getD] at h
    split at h
    · cases h
    · next n h1 =>
      cases h
      exact ⟨_, splitTab_none hs, h1, .inr ⟨pyStrip_spec P l, rfl⟩⟩
  | some p =>
    obtain ⟨count, word⟩ := p
    rw [hs] at h
    dsimp only [Option.getD] at h
    obtain ⟨e, f⟩ := splitTab_some.1 hs
    split at h
    · cases h
    · next n h1 =>
      cases h
      refine ⟨count, f, h1, .inl ?_⟩
      rw [← e]
      exact pyStrip_spec P l

theorem mapM_rows {f : List Char → Except PyError CountRow} : ∀ {ls : List (List Char)} {rs : List CountRow},
    ls.mapM f = .ok rs → ls.length = rs.length ∧
      ∀ (i : Nat) (l : List Char) (r : CountRow), ls[i]? = some l → rs[i]? = some r → f l = .ok r
  | [], rs, h => by
    rw [List.mapM_nil] at h
    cases h
    exact ⟨rfl, by simp⟩
  | l :: ls, rs, h => by
    rw [List.mapM_cons] at h
    simp only [bind, Except.bind, pure, Except.pure] at h
    split at h
    · cases h
    · next r h1 =>
      split at h
      · cases h
      · next rs' h2 =>
        cases h
        obtain ⟨g1, g2⟩ := mapM_rows h2
        refine ⟨by simp [g1], fun i x y hx hy => ?_⟩
        cases i with
        | zero => cases hx; cases hy; exact h1
        | succ i => exact g2 i x y (by simpa using hx) (by simpa using hy)

theorem rows_of {f : List Char → Except PyError CountRow} {row : List Char → CountRow → Prop} {text : List Char}
    {rs : List CountRow} (hf : ∀ {l r}, f l = .ok r → row l r) (h : (pyLines [] text).mapM f = .ok rs) : RowsOf row text rs := by
  obtain ⟨h1, h2⟩ := mapM_rows h
  exact ⟨_, pyLines_spec [] text (by simp) (by simp), h1, fun i l r hl hr => hf (h2 i l r hl hr)⟩

theorem rows_clean {row : List Char → CountRow → Prop} {text : List Char} {rs : List CountRow} (h : RowsOf row text rs)
    (hr : ∀ {l r}, row l r → ∀ c ∈ r.2, c ∈ l) : ∀ r ∈ rs, '\n' ∉ r.2 ∧ '\r' ∉ r.2 := by
  obtain ⟨ls, h1, h2, h3⟩ := h
  intro r hm
  obtain ⟨i, hi, e⟩ := List.getElem_of_mem hm
  have hl : ls[i]? = some ls[i] := List.getElem?_eq_getElem (by omega)
  have := hr (h3 i _ _ hl (by rw [List.getElem?_eq_getElem hi, e]))
  obtain ⟨a, b⟩ := lines_clean h1 _ (List.mem_of_getElem? hl)
  exact ⟨fun hc => a (this _ hc), fun hc => b (this _ hc)⟩

theorem stripped_sub {P : Python} {l s : List Char} (h : Stripped P l s) : ∀ c ∈ s, c ∈ l := by
  obtain ⟨a, b, rfl, _⟩ := h
  intro c hc
  simp [hc]

theorem three_sub {P : Python} {l : List Char} {r : CountRow} (h : RowOfThree P l r) : ∀ c ∈ r.2, c ∈ l := by
  obtain ⟨x, y, h1, _⟩ := h
  exact fun c hc => stripped_sub h1 c (by simp [hc])

theorem two_sub {P : Python} {l : List Char} {r : CountRow} (h : RowOfTwo P l r) : ∀ c ∈ r.2, c ∈ l := by
  obtain ⟨x, _, _, h1 | ⟨_, h1⟩⟩ := h
  · exact fun c hc => stripped_sub h1 c (by simp [hc])
  · rw [h1]; simp

/-! ### The list -/

/-- The order of the output. -/
def before (x y : Int × List Char) : Prop := y.1 < x.1 ∨ (y.1 = x.1 ∧ y.2 ≤ x.2)

theorem outputWords_spec (cutoff : Int) {d : PyDict Int} (hd : (d.map (·.1)).Nodup) :
    (∀ n k, (n, k) ∈ outputWords cutoff d ↔ d.get k = some n ∧ cutoff ≤ n) ∧
    ((outputWords cutoff d).map (·.2)).Nodup ∧
    (outputWords cutoff d).Pairwise fun x y => y.1 < x.1 ∨ (y.1 = x.1 ∧ y.2 < x.2) := by
  have hperm : (outputWords cutoff d).Perm ((d.filter fun x => decide (cutoff ≤ x.2)).map fun x => (x.2, x.1)) :=
    List.mergeSort_perm _ _
  have hnd : ((outputWords cutoff d).map (·.2)).Nodup := by
    refine (List.Perm.nodup_iff (hperm.map _)).2 ?_
    rw [List.map_map]
    exact ((List.filter_sublist (l := d)).map _).nodup hd
  have hsort : (outputWords cutoff d).Pairwise before := by
    have := List.pairwise_mergeSort (le := fun x y : Int × List Char => decide (y.1 < x.1 ∨ (y.1 = x.1 ∧ y.2 ≤ x.2))) ?_ ?_
      ((d.filter fun x => decide (cutoff ≤ x.2)).map fun x => (x.2, x.1))
    · exact this.imp fun h => by simpa [before] using h
    · intro a b c h1 h2
      simp only [decide_eq_true_eq] at h1 h2 ⊢
      rcases h1 with h1 | ⟨h1, h1'⟩ <;> rcases h2 with h2 | ⟨h2, h2'⟩
      · left; omega
      · left; omega
      · left; omega
      · exact .inr ⟨by omega, List.le_trans h2' h1'⟩
    · intro a b
      simp only [Bool.or_eq_true, decide_eq_true_eq]
      rcases Int.lt_trichotomy a.1 b.1 with h | h | h
      · exact .inr (.inl h)
      · rcases List.le_total a.2 b.2 with h2 | h2
        · exact .inr (.inr ⟨h, h2⟩)
        · exact .inl (.inr ⟨h.symm, h2⟩)
      · exact .inl (.inl h)
  refine ⟨fun n k => ?_, hnd, ?_⟩
  · rw [hperm.mem_iff, List.mem_map]
    constructor
    · rintro ⟨⟨k', n'⟩, hm, e⟩
      cases e
      obtain ⟨h1, h2⟩ := List.mem_filter.1 hm
      exact ⟨(pyMem_iff hd _ _).1 h1, by simpa using h2⟩
    · rintro ⟨h1, h2⟩
      exact ⟨(k, n), List.mem_filter.2 ⟨(pyMem_iff hd _ _).2 h1, by simpa using h2⟩, rfl⟩
  · have hne : (outputWords cutoff d).Pairwise fun x y => x.2 ≠ y.2 := by
      rw [List.Nodup, List.pairwise_map] at hnd
      exact hnd
    refine (hsort.and hne).imp ?_
    rintro x y ⟨h1 | ⟨h1, h2⟩, h3⟩
    · exact .inl h1
    · refine .inr ⟨h1, ?_⟩
      exact Std.lt_of_le_of_ne h2 (Ne.symm h3)

/-- The columns of the list that matter. -/
def listedAs (x : List Char × Int × Nat × List Char) : ListEntry := ⟨x.1, x.2.1, x.2.2.2⟩

theorem finalList_spec (o : PyDict (List Char)) : ∀ (ws : List (Int × List Char)) (d : WordData), (ws.map (·.2)).Nodup →
    (∀ x ∈ ws, x.2 ∉ d.map (·.1)) →
    (finalList o d ws).map listedAs = d.map listedAs ++ ws.map fun x => ⟨x.2, x.1, (o.get x.2).getD []⟩
  | [], d, _, _ => by simp [finalList]
  | (n, k) :: ws, d, hn, hd => by
    rw [List.map_cons, List.nodup_cons] at hn
    have hk : k ∉ d.map (·.1) := hd (n, k) (by simp)
    rw [finalList]
    unfold addCanonical
    rw [pySet_new _ hk, finalList_spec o ws _ hn.2]
    · simp [listedAs]
    · intro x hx
      rw [List.map_append, List.mem_append, not_or]
      refine ⟨hd x (by simp [hx]), ?_⟩
      simp only [List.map_cons, List.map_nil, List.mem_singleton]
      intro e
      exact hn.1 (List.mem_map.2 ⟨x, hx, e⟩)

theorem dumpLines_spec {P : Python} {t m : Int} : ∀ {d : WordData} {text : List Char}, dumpLines P t m d = .ok text →
    (∀ e ∈ d.map listedAs, P.value t m e.points = some ((P.value t m e.points).getD 0)) ∧
    text = (d.map listedAs).flatMap fun e => (toString ((P.value t m e.points).getD 0)).toList ++ '\t' :: (e.word ++ ['\n'])
  | [], text, h => by
    rw [dumpLines] at h
    cases h
    simp
  | (k, n, i, w) :: d, text, h => by
    rw [dumpLines] at h
    split at h
    · cases h
    · next v hv =>
      cases hd : dumpLines P t m d with
      | error e => rw [hd] at h; cases h
      | ok s =>
        rw [hd] at h
        cases h
        obtain ⟨h1, h2⟩ := dumpLines_spec hd
        constructor
        · intro e he
          rcases List.mem_cons.1 he with rfl | he
          · show P.value t m n = _
            rw [hv]
            simp [listedAs, hv]
          · exact h1 e he
        · rw [h2]
          simp [listedAs, hv, pyInt]

end Noodle
