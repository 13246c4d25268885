import Verif.Proofs.ParseTotal
import Verif.Spec.Case
import Mathlib.Data.List.Forall2
/-
Upper and lower case: the parser treats texts that differ only in case alike.
-/
namespace Noodle
open Peg Spec
set_option autoImplicit false

/-- Equal up to case. -/
def EqC (c d : Char) : Prop := c.toLower = d.toLower

theorem char_ext {c d : Char} (h : c.toNat = d.toNat) : c = d := Char.toNat_inj.1 h

theorem toLower_val (c : Char) : c.toLower.toNat = if 65 ≤ c.toNat ∧ c.toNat ≤ 90 then c.toNat + 32 else c.toNat := by
  unfold Char.toLower
  have e1 : (c.val ≥ 'A'.val) ↔ 65 ≤ c.toNat := by
    rw [ge_iff_le, UInt32.le_iff_toNat_le]; exact Iff.rfl
  have e2 : (c.val ≤ 'Z'.val) ↔ c.toNat ≤ 90 := by
    rw [UInt32.le_iff_toNat_le]; exact Iff.rfl
  by_cases h : 65 ≤ c.toNat ∧ c.toNat ≤ 90
  · rw [dif_pos ⟨e1.2 h.1, e2.2 h.2⟩, if_pos h]
    show (c.val + ('a'.val - 'A'.val)).toNat = _
    rw [UInt32.toNat_add]
    show (c.toNat + 32) % 2 ^ 32 = _
    omega
  · rw [dif_neg (fun h' => h ⟨e1.1 h'.1, e2.1 h'.2⟩), if_neg h]

theorem isUpper_nat (c : Char) : c.isUpper = decide (65 ≤ c.toNat ∧ c.toNat ≤ 90) := by
  unfold Char.isUpper
  have e1 : (c.val ≥ 'A'.val) ↔ 65 ≤ c.toNat := by
    rw [ge_iff_le, UInt32.le_iff_toNat_le]; exact Iff.rfl
  have e2 : (c.val ≤ 'Z'.val) ↔ c.toNat ≤ 90 := by
    rw [UInt32.le_iff_toNat_le]; exact Iff.rfl
  simp only [e1, e2]

theorem isLower_nat (c : Char) : c.isLower = decide (97 ≤ c.toNat ∧ c.toNat ≤ 122) := by
  unfold Char.isLower
  have e1 : (c.val ≥ 'a'.val) ↔ 97 ≤ c.toNat := by
    rw [ge_iff_le, UInt32.le_iff_toNat_le]; exact Iff.rfl
  have e2 : (c.val ≤ 'z'.val) ↔ c.toNat ≤ 122 := by
    rw [UInt32.le_iff_toNat_le]; exact Iff.rfl
  simp only [e1, e2]
  rw [Bool.decide_and]

theorem isDigit_nat (c : Char) : c.isDigit = decide (48 ≤ c.toNat ∧ c.toNat ≤ 57) := by
  unfold Char.isDigit
  have e1 : (c.val ≥ '0'.val) ↔ 48 ≤ c.toNat := by
    rw [ge_iff_le, UInt32.le_iff_toNat_le]; exact Iff.rfl
  have e2 : (c.val ≤ '9'.val) ↔ c.toNat ≤ 57 := by
    rw [UInt32.le_iff_toNat_le]; exact Iff.rfl
  simp only [e1, e2]
  rw [Bool.decide_and]

theorem isAlpha_nat (c : Char) :
    c.isAlpha = decide ((65 ≤ c.toNat ∧ c.toNat ≤ 90) ∨ (97 ≤ c.toNat ∧ c.toNat ≤ 122)) := by
  unfold Char.isAlpha
  rw [isUpper_nat, isLower_nat, Bool.decide_or]

theorem EqC.nat {c d : Char} (h : EqC c d) : c.toNat = d.toNat ∨ (65 ≤ c.toNat ∧ c.toNat ≤ 90 ∧ d.toNat = c.toNat + 32) ∨
    (65 ≤ d.toNat ∧ d.toNat ≤ 90 ∧ c.toNat = d.toNat + 32) := by
  have := congrArg Char.toNat h
  rw [toLower_val, toLower_val] at this
  split at this <;> split at this <;> omega

theorem EqC.rfl' (c : Char) : EqC c c := rfl

theorem EqC.symm {c d : Char} (h : EqC c d) : EqC d c := Eq.symm h

theorem EqC.alpha {c d : Char} (h : EqC c d) : c.isAlpha = d.isAlpha := by
  rw [isAlpha_nat, isAlpha_nat, decide_eq_decide]
  have := h.nat
  omega

theorem EqC.eq {c d : Char} (h : EqC c d) (hc : c.isAlpha = false) : c = d := by
  rw [isAlpha_nat, decide_eq_false_iff_not] at hc
  apply char_ext
  have := h.nat
  omega

theorem EqC.digit {c d : Char} (h : EqC c d) : c.isDigit = d.isDigit := by
  rw [isDigit_nat, isDigit_nat, decide_eq_decide]
  have := h.nat
  omega

theorem digit_not_alpha {c : Char} (h : c.isDigit = true) : c.isAlpha = false := by
  rw [isDigit_nat, decide_eq_true_iff] at h
  rw [isAlpha_nat, decide_eq_false_iff_not]
  omega

theorem EqC.ch {c d : Char} (h : EqC c d) : chOfChar c = chOfChar d := by
  rcases h.nat with h1 | ⟨h1, h2, h3⟩ | ⟨h1, h2, h3⟩
  · rw [char_ext h1]
  · have a1 : 'A'.toNat ≤ c.toNat ∧ c.toNat ≤ 'Z'.toNat := ⟨h1, h2⟩
    have a2 : ¬ ('A'.toNat ≤ d.toNat ∧ d.toNat ≤ 'Z'.toNat) := by
      intro h'
      have := h'.2
      have e : 'Z'.toNat = 90 := rfl
      omega
    have a3 : 'a'.toNat ≤ d.toNat ∧ d.toNat ≤ 'z'.toNat := by
      have e : 'a'.toNat = 97 := rfl
      have e' : 'z'.toNat = 122 := rfl
      omega
    unfold chOfChar
    rw [if_pos a1, if_neg a2, if_pos a3]
    congr 1
    have e : 'a'.toNat = 97 := rfl
    have e' : 'A'.toNat = 65 := rfl
    omega
  · have a1 : 'A'.toNat ≤ d.toNat ∧ d.toNat ≤ 'Z'.toNat := ⟨h1, h2⟩
    have a2 : ¬ ('A'.toNat ≤ c.toNat ∧ c.toNat ≤ 'Z'.toNat) := by
      intro h'
      have := h'.2
      have e : 'Z'.toNat = 90 := rfl
      omega
    have a3 : 'a'.toNat ≤ c.toNat ∧ c.toNat ≤ 'z'.toNat := by
      have e : 'a'.toNat = 97 := rfl
      have e' : 'z'.toNat = 122 := rfl
      omega
    unfold chOfChar
    rw [if_pos a1, if_neg a2, if_pos a3]
    congr 1
    have e : 'a'.toNat = 97 := rfl
    have e' : 'A'.toNat = 65 := rfl
    omega

/-! ### Ranges -/

theorem range_shift : ∀ (n a : Nat) (x : CharSet), 65 ≤ a → a + n ≤ 91 →
    (List.range' a n).foldl (fun x n => x ||| CharSet.ofChar (Char.ofNat n)) x =
      (List.range' (a + 32) n).foldl (fun x n => x ||| CharSet.ofChar (Char.ofNat n)) x
  | 0, _, _, _, _ => rfl
  | n + 1, a, x, h1, h2 => by
    rw [List.range'_succ, List.range'_succ, List.foldl_cons, List.foldl_cons]
    have key : ∀ k : Fin 26, CharSet.ofChar (Char.ofNat (65 + k.val)) = CharSet.ofChar (Char.ofNat (65 + k.val + 32)) := by
      decide
    have := key ⟨a - 65, by omega⟩
    simp only [show 65 + (a - 65) = a by omega] at this
    rw [this, range_shift n (a + 1) _ (by omega) (by omega), show a + 1 + 32 = a + 32 + 1 by omega]

theorem fromRange_of_gt {lo hi : Char} (h : hi.toNat < lo.toNat) : CharSet.fromRange lo hi = CharSet.empty := by
  unfold CharSet.fromRange
  rw [show hi.toNat + 1 - lo.toNat = 0 by omega]
  rfl

theorem fromRange_up {lo hi lo' hi' : Char} (h1 : 65 ≤ lo.toNat) (h2 : lo.toNat ≤ 90) (h4 : hi.toNat ≤ 90)
    (h5 : lo'.toNat = lo.toNat + 32) (h6 : hi'.toNat = hi.toNat + 32) :
    CharSet.fromRange lo hi = CharSet.fromRange lo' hi' := by
  by_cases h : hi.toNat < lo.toNat
  · rw [fromRange_of_gt h, fromRange_of_gt (by omega)]
  unfold CharSet.fromRange
  rw [h5, h6, show hi.toNat + 32 + 1 - (lo.toNat + 32) = hi.toNat + 1 - lo.toNat by omega]
  exact range_shift _ _ _ h1 (by omega)

theorem fromRange_case {lo hi lo' hi' : Char} (h : EqC lo lo') (h' : EqC hi hi') (hlo : lo.isAlpha = true)
    (hhi : hi.isAlpha = true) (hu : lo.isUpper = hi.isUpper) (hu' : lo'.isUpper = hi'.isUpper) :
    CharSet.fromRange lo hi = CharSet.fromRange lo' hi' := by
  have a := h.alpha
  have a' := h'.alpha
  rw [hlo] at a
  rw [hhi] at a'
  rw [isAlpha_nat, decide_eq_true_iff] at hlo hhi
  have a := a.symm
  have a' := a'.symm
  rw [isAlpha_nat, decide_eq_true_iff] at a a'
  rw [isUpper_nat, isUpper_nat, decide_eq_decide] at hu hu'
  rcases h.nat with g | g | g <;> rcases h'.nat with g' | g' | g'
  · rw [char_ext g, char_ext g']
  all_goals first
    | exact fromRange_up (by omega) (by omega) (by omega) (by omega) (by omega)
    | exact (fromRange_up (by omega) (by omega) (by omega) (by omega) (by omega)).symm

/-! ### Texts -/

/-- Texts equal up to case, without ranges of mixed case. -/
structure Alike (l l' : List Char) : Prop where
  eqc : List.Forall₂ EqC l l'
  plain : PlainRanges l
  plain' : PlainRanges l'

theorem plain_infix {l m : List Char} (h : PlainRanges l) (hm : m <:+: l) : PlainRanges m :=
  fun x y hx => h x y (hx.trans hm)

theorem Alike.length {l l' : List Char} (h : Alike l l') : l.length = l'.length := h.eqc.length_eq

theorem Alike.tail {c d : Char} {l l' : List Char} (h : Alike (c :: l) (d :: l')) : Alike l l' :=
  ⟨(List.forall₂_cons.1 h.eqc).2, plain_infix h.plain (List.suffix_cons c l).isInfix, plain_infix h.plain' (List.suffix_cons d l').isInfix⟩

theorem Alike.head {c d : Char} {l l' : List Char} (h : Alike (c :: l) (d :: l')) : EqC c d := (List.forall₂_cons.1 h.eqc).1

theorem Alike.nil : Alike [] [] :=
  ⟨.nil, fun x y h => absurd (List.infix_nil.1 h) (by simp), fun x y h => absurd (List.infix_nil.1 h) (by simp)⟩

theorem Alike.take {l l' : List Char} (h : Alike l l') (n : Nat) : Alike (l.take n) (l'.take n) :=
  ⟨List.forall₂_take n h.eqc, plain_infix h.plain (List.take_prefix n l).isInfix, plain_infix h.plain' (List.take_prefix n l').isInfix⟩

theorem Alike.symm {l l' : List Char} (h : Alike l l') : Alike l' l :=
  ⟨h.eqc.flip.imp fun _ _ h => EqC.symm h, h.plain', h.plain⟩

/-! ### Parsing expressions that do not look at the case -/

def CaseFree : Exp → Prop
  | .chr p => ∀ c d, EqC c d → p c = p d
  | .str s => s.all (fun c => !c.isAlpha) = true
  | .istr _ => True
  | .soi => True
  | .eoi => True
  | .seq a b => CaseFree a ∧ CaseFree b
  | .alt a b => CaseFree a ∧ CaseFree b
  | .opt a => CaseFree a
  | .star a => CaseFree a
  | .more a => CaseFree a
  | .ref _ => True

theorem caseFree_alpha : CaseFree alphaChar := fun _ _ h => h.alpha
theorem caseFree_digit : CaseFree digitChar := fun _ _ h => h.digit

theorem grammar_caseFree (m : Name) : CaseFree (grammar m).2 := by
  have ha : ∀ c d, EqC c d → Char.isAlpha c = Char.isAlpha d := fun _ _ h => h.alpha
  have hd : ∀ c d, EqC c d → Char.isDigit c = Char.isDigit d := fun _ _ h => h.digit
  have hr : ∀ c d, EqC c d → (decide (' '.toNat ≤ c.toNat) && decide (c.toNat ≤ '~'.toNat)) =
      (decide (' '.toNat ≤ d.toNat) && decide (d.toNat ≤ '~'.toNat)) := by
    intro c d h
    have := h.nat
    rw [← Bool.decide_and, ← Bool.decide_and, decide_eq_decide]
    have e : ' '.toNat = 32 := rfl
    have e' : '~'.toNat = 126 := rfl
    omega
  cases m with
  | vis r => cases r <;> simp only [grammar, seqs, choices, lit, node, CaseFree, Exp.plus, alphaChar, digitChar] <;>
      repeat' first | exact ha | exact hd | exact hr | trivial | constructor
  | _ => simp only [grammar, seqs, choices, lit, node, CaseFree, Exp.plus, alphaChar, digitChar] <;>
      repeat' first | exact ha | exact hd | exact hr | trivial | constructor

/-! ### Nodes -/

/-- The ranges two texts of `letter_range` nodes stand for are the same. -/
def SameRange (t t' : List Char) : Prop :=
  ∀ lo hi lo' hi', t[0]? = some lo → t[2]? = some hi → t'[0]? = some lo' → t'[2]? = some hi' →
    CharSet.fromRange lo hi = CharSet.fromRange lo' hi'

mutual
/-- Nodes that mean the same. -/
inductive CasePair : Pair → Pair → Prop
  | mk (r : Rule) {t t' : List Char} {i i' : List Pair} (ht : Alike t t') (hr : r = .letterRange → SameRange t t')
    (hi : CasePairs i i') : CasePair (.mk r t i) (.mk r t' i')
inductive CasePairs : List Pair → List Pair → Prop
  | nil : CasePairs [] []
  | cons {p p' : Pair} {ps ps' : List Pair} (h : CasePair p p') (hs : CasePairs ps ps') : CasePairs (p :: ps) (p' :: ps')
end

theorem CasePairs.append : ∀ {a a' b b' : List Pair}, CasePairs a a' → CasePairs b b' → CasePairs (a ++ b) (a' ++ b')
  | _, _, _, _, .nil, h => h
  | _, _, _, _, .cons h hs, h' => .cons h (hs.append h')

/-- Results that mean the same. -/
inductive RunRel : Option Res → Option Res → Prop
  | fuel : RunRel none none
  | fail : RunRel (some none) (some none)
  | ok {ps ps' : List Pair} {l l' : List Char} (h : CasePairs ps ps') (hl : Alike l l') :
    RunRel (some (some (ps, l))) (some (some (ps', l')))

theorem strip_case {s : List Char} (hs : s.all (fun c => !c.isAlpha) = true) : ∀ {l l' : List Char}, Alike l l' →
    (stripPrefix (· == ·) s l = none ∧ stripPrefix (· == ·) s l' = none) ∨
      ∃ r r', stripPrefix (· == ·) s l = some r ∧ stripPrefix (· == ·) s l' = some r' ∧ Alike r r' := by
  induction s with
  | nil => intro l l' h; exact .inr ⟨l, l', by simp [stripPrefix], by simp [stripPrefix], h⟩
  | cons c s ih =>
    simp only [List.all_cons, Bool.and_eq_true, Bool.not_eq_true'] at hs
    intro l l' h
    have hl := h.length
    match l, l', h with
    | [], [], h => exact .inl ⟨rfl, rfl⟩
    | d :: l, d' :: l', h =>
      simp only [stripPrefix, beq_iff_eq]
      have e : c = d ↔ c = d' := by
        constructor
        · rintro rfl; exact h.head.eq hs.1
        · rintro rfl; exact (h.head.symm.eq hs.1)
      by_cases hc : c = d
      · rw [if_pos hc, if_pos (e.1 hc)]; exact ih hs.2 h.tail
      · rw [if_neg hc, if_neg (fun h' => hc (e.2 h'))]; exact .inl ⟨rfl, rfl⟩

theorem istrip_case : ∀ {s l l' : List Char}, Alike l l' →
    (stripPrefix (fun a b => a.toLower == b.toLower) s l = none ∧ stripPrefix (fun a b => a.toLower == b.toLower) s l' = none) ∨
      ∃ r r', stripPrefix (fun a b => a.toLower == b.toLower) s l = some r ∧
        stripPrefix (fun a b => a.toLower == b.toLower) s l' = some r' ∧ Alike r r' := by
  intro s
  induction s with
  | nil => intro l l' h; exact .inr ⟨l, l', by simp [stripPrefix], by simp [stripPrefix], h⟩
  | cons c s ih =>
    intro l l' h
    have hl := h.length
    match l, l', h with
    | [], [], h => exact .inl ⟨rfl, rfl⟩
    | d :: l, d' :: l', h =>
      simp only [stripPrefix, beq_iff_eq]
      have e : d.toLower = d'.toLower := h.head
      rw [← e]
      by_cases hc : c.toLower = d.toLower
      · rw [if_pos hc, if_pos hc]; exact ih h.tail
      · rw [if_neg hc, if_neg hc]; exact .inl ⟨rfl, rfl⟩

theorem blanks_case {l l' : List Char} (h : Alike l l') : Alike (l.dropWhile (· == ' ')) (l'.dropWhile (· == ' ')) := by
  induction l generalizing l' with
  | nil =>
    have := h.length
    cases l' with
    | nil => exact h
    | cons d l' => simp at this
  | cons c l ih =>
    have := h.length
    cases l' with
    | nil => simp at this
    | cons d l' =>
      have e : c = ' ' ↔ d = ' ' := by
        constructor
        · rintro rfl; exact (h.head.eq (by decide)).symm
        · rintro rfl; exact (h.head.symm.eq (by decide)).symm
      rw [List.dropWhile_cons, List.dropWhile_cons]
      by_cases hc : c = ' '
      · rw [if_pos (by simp [hc]), if_pos (by simp [e.1 hc])]; exact ih h.tail
      · rw [if_neg (by rw [beq_iff_eq]; exact hc), if_neg (by rw [beq_iff_eq]; exact fun h' => hc (e.2 h'))]; exact h

theorem comment_case {l l' : List Char} (h : Alike l l') :
    (comment l = none ∧ comment l' = none) ∨ (comment l = some [] ∧ comment l' = some []) := by
  have a1 : "//".toList.all (fun c => !c.isAlpha) = true := by decide
  have a2 : "--".toList.all (fun c => !c.isAlpha) = true := by decide
  unfold comment
  generalize "//".toList = s1 at a1 ⊢
  generalize "--".toList = s2 at a2 ⊢
  have key : ∀ {r r' : List Char}, Alike r r' →
      ((match some r with | some (_ :: _) => some [] | _ => none) = (none : Option (List Char)) ∧
        (match some r' with | some (_ :: _) => some [] | _ => none) = (none : Option (List Char))) ∨
      ((match some r with | some (_ :: _) => some [] | _ => none) = (some [] : Option (List Char)) ∧
        (match some r' with | some (_ :: _) => some [] | _ => none) = (some [] : Option (List Char))) := by
    intro r r' h
    have := h.length
    cases r <;> cases r' <;> simp at this <;> simp
  rcases strip_case a1 h with ⟨h1, h2⟩ | ⟨r, r', h1, h2, h3⟩
  · rw [h1, h2]
    rcases strip_case a2 h with ⟨h1, h2⟩ | ⟨r, r', h1, h2, h3⟩
    · refine .inl ⟨?_, ?_⟩ <;> simp [Option.orElse, h1, h2]
    · simp only [Option.orElse, h1, h2]; exact key h3
  · rw [h1, h2]; simp only [Option.orElse]; exact key h3

theorem skip_case {l l' : List Char} (h : Alike l l') : Alike (skip l) (skip l') := by
  unfold skip
  have hb := blanks_case h
  rcases comment_case hb with ⟨h1, h2⟩ | ⟨h1, h2⟩
  · simp only [h1, h2, Option.getD_none]; exact hb
  · simp only [h1, h2, Option.getD_some]; exact .nil

/-! ### Ranges in the text -/

theorem skip_blanksOnly (l : List Char) : skip l = [] ∨ ∃ w, (∀ c ∈ w, c = ' ') ∧ l = w ++ skip l := by
  unfold skip
  simp only
  cases h : comment (l.dropWhile (· == ' ')) with
  | none =>
    refine .inr ⟨l.takeWhile (· == ' '), fun c hc => ?_, by simp⟩
    have := List.all_takeWhile (p := (· == ' ')) (l := l)
    have := List.all_eq_true.1 this c hc
    simpa using this
  | some r => rw [comment_nil _ _ h]; exact .inl rfl

theorem run_seq_inv {total n : Nat} {at' : Bool} {a b : Exp} {l r : List Char} {ps : List Pair}
    (h : run grammar total n at' (.seq a b) l = some (some (ps, r))) :
    ∃ m ps1 l1 qs, run grammar total m at' a l = some (some (ps1, l1)) ∧
      run grammar total m at' b (if at' then l1 else skip l1) = some (some (qs, r)) := by
  cases n with
  | zero => simp [run] at h
  | succ n =>
    simp only [run] at h
    cases h1 : run grammar total n at' a l with
    | none => simp [h1] at h
    | some ra =>
      cases ra with
      | none => simp [h1] at h
      | some q =>
        obtain ⟨ps1, l1⟩ := q
        simp only [h1, Option.bind_some] at h
        cases h2 : run grammar total n at' b (if at' then l1 else skip l1) with
        | none => simp [h2] at h
        | some rb =>
          cases rb with
          | none => simp [h2] at h
          | some q =>
            obtain ⟨qs, r'⟩ := q
            simp only [h2, Option.map_some, Option.some.injEq, Prod.mk.injEq] at h
            exact ⟨n, ps1, l1, qs, h1, by rw [h2, h.2]⟩

theorem run_chr_inv {total n : Nat} {at' : Bool} {p : Char → Bool} {l r : List Char} {ps : List Pair}
    (h : run grammar total n at' (.chr p) l = some (some (ps, r))) : ∃ c, p c = true ∧ l = c :: r := by
  cases n with
  | zero => simp [run] at h
  | succ n =>
    cases l with
    | nil => simp [run] at h
    | cons c l =>
      simp only [run] at h
      split at h
      · next hp =>
        simp only [Option.some.injEq, Prod.mk.injEq] at h
        exact ⟨c, hp, by rw [h.2]⟩
      · simp at h

theorem run_str_inv {total n : Nat} {at' : Bool} {s l r : List Char} {ps : List Pair}
    (h : run grammar total n at' (.str s) l = some (some (ps, r))) : l = s ++ r := by
  cases n with
  | zero => simp [run] at h
  | succ n =>
    simp only [run, Option.some.injEq] at h
    cases h1 : stripPrefix (· == ·) s l with
    | none => simp [h1] at h
    | some r' =>
      simp only [h1, Option.map_some, Option.some.injEq, Prod.mk.injEq] at h
      rw [stripPrefix_eq _ _ _ h1, h.2]

/-- What `letter_range` takes. -/
theorem range_run {total n : Nat} {at' : Bool} {l r : List Char} {ps : List Pair}
    (h : run grammar total n at' (grammar (.vis .letterRange)).2 l = some (some (ps, r))) :
    ∃ a w w' b, a.isAlpha = true ∧ b.isAlpha = true ∧ (∀ c ∈ w, c = ' ') ∧ (∀ c ∈ w', c = ' ') ∧
      l = a :: (w ++ '-' :: (w' ++ b :: r)) := by
  have hsk : ∀ l1 : List Char, (if at' then l1 else skip l1) = [] ∨
      ∃ w, (∀ c ∈ w, c = ' ') ∧ l1 = w ++ (if at' then l1 else skip l1) := by
    intro l1
    cases at' with
    | true => exact .inr ⟨[], by simp, rfl⟩
    | false => exact skip_blanksOnly l1
  simp only [grammar, seqs, lit, alphaChar] at h
  obtain ⟨m, _, l1, _, h1, h2⟩ := run_seq_inv h
  obtain ⟨m', _, l2, _, h3, h4⟩ := run_seq_inv h2
  obtain ⟨a, ha, rfl⟩ := run_chr_inv h1
  have h3 := run_str_inv h3
  obtain ⟨b, hb, h4⟩ := run_chr_inv h4
  have e1 := hsk l1
  have e2 := hsk l2
  rw [h3] at e1
  rw [h4] at e2
  rcases e1 with e1 | ⟨w, hw, e1⟩
  · exact absurd e1 (by simp)
  rcases e2 with e2 | ⟨w', hw', e2⟩
  · exact absurd e2 (by simp)
  refine ⟨a, w, w', b, ha, hb, hw, hw', ?_⟩
  rw [e1, e2]
  rfl

theorem blank_val : ' '.toNat = 32 := rfl
theorem dash_val : '-'.toNat = 45 := rfl

/-- The text of a `letter_range` with anything but `-` in the middle stands for nothing. -/
theorem range_text {t : List Char} {a b : Char} {w w' : List Char} (ha : a.isAlpha = true) (hw : ∀ c ∈ w, c = ' ')
    (hw' : ∀ c ∈ w', c = ' ') (ht : t = a :: (w ++ '-' :: (w' ++ [b]))) :
    t = [a, '-', b] ∨ ∀ hi, t[2]? = some hi → CharSet.fromRange a hi = CharSet.empty := by
  have hgt : ∀ hi : Char, hi.toNat ≤ 45 → CharSet.fromRange a hi = CharSet.empty := by
    intro hi h
    rw [isAlpha_nat, decide_eq_true_iff] at ha
    exact fromRange_of_gt (by omega)
  subst ht
  cases w with
  | nil =>
    cases w' with
    | nil => exact .inl rfl
    | cons c w' =>
      refine .inr fun hi h => hgt hi ?_
      have := hw' c (by simp)
      simp at h
      rw [← h, this, blank_val]
      omega
  | cons c w =>
    refine .inr fun hi h => hgt hi ?_
    cases w with
    | nil =>
      simp at h
      rw [← h, dash_val]; exact Nat.le_refl _
    | cons d w =>
      have := hw d (by simp)
      simp at h
      rw [← h, this, blank_val]
      omega

theorem sameRange_of_run {total total' n n' : Nat} {at' : Bool} {l l' r r' : List Char} {ps ps' : List Pair}
    (h : run grammar total n at' (grammar (.vis .letterRange)).2 l = some (some (ps, r)))
    (h' : run grammar total' n' at' (grammar (.vis .letterRange)).2 l' = some (some (ps', r')))
    (ht : Alike (l.take (l.length - r.length)) (l'.take (l'.length - r'.length))) :
    SameRange (l.take (l.length - r.length)) (l'.take (l'.length - r'.length)) := by
  obtain ⟨a, w, v, b, ha, hb, hw, hv, rfl⟩ := range_run h
  obtain ⟨a', w', v', b', ha', hb', hw', hv', rfl⟩ := range_run h'
  have key : ∀ (a b : Char) (w v r : List Char),
      (a :: (w ++ '-' :: (v ++ b :: r))).take ((a :: (w ++ '-' :: (v ++ b :: r))).length - r.length) =
        a :: (w ++ '-' :: (v ++ [b])) := by
    intro a b w v r
    have e : a :: (w ++ '-' :: (v ++ b :: r)) = (a :: (w ++ '-' :: (v ++ [b]))) ++ r := by simp
    rw [e]
    generalize a :: (w ++ '-' :: (v ++ [b])) = x
    rw [List.length_append, Nat.add_sub_cancel, List.take_left]
  rw [key, key] at ht ⊢
  have d := range_text ha hw hv rfl (b := b)
  have d' := range_text ha' hw' hv' rfl (b := b')
  intro lo hi lo' hi' h1 h2 h3 h4
  have e1 : lo = a := by simpa using h1.symm
  have e3 : lo' = a' := by simpa using h3.symm
  subst e1 e3
  generalize lo :: (w ++ '-' :: (v ++ [b])) = t at *
  generalize lo' :: (w' ++ '-' :: (v' ++ [b'])) = t' at *
  -- both have `-` in the middle, or none has
  rcases d with rfl | d
  · have := ht.length
    match t', this, ht, d' with
    | [x, y, z], _, ht, d' =>
      have hx := ht.head
      have hy := ht.tail.head
      have hz := ht.tail.tail.head
      have : y = '-' := (hy.eq (by decide)).symm
      subst this
      have q1 : lo' = x := by simpa using h3.symm
      have q2 : hi' = z := by simpa using h4.symm
      have q3 : hi = b := by simpa using h2.symm
      subst q1 q2 q3
      have := hz.alpha
      rw [hb] at this
      exact fromRange_case hx hz ha hb (ht.plain _ _ List.infix_rfl ha hb) (ht.plain' _ _ List.infix_rfl ha' this.symm)
  · rcases d' with rfl | d'
    · have := ht.length
      match t, this, ht, d with
      | [x, y, z], _, ht, d =>
        have hx := ht.head
        have hy := ht.tail.head
        have hz := ht.tail.tail.head
        have : y = '-' := (hy.symm.eq (by decide)).symm
        subst this
        have q1 : lo = x := by simpa using h1.symm
        have q2 : hi = z := by simpa using h2.symm
        have q3 : hi' = b' := by simpa using h4.symm
        subst q1 q2 q3
        have := hz.alpha
        rw [hb'] at this
        exact fromRange_case hx hz ha this (ht.plain _ _ List.infix_rfl ha this) (ht.plain' _ _ List.infix_rfl ha' hb')
    · rw [d hi h2, d' hi' h4]

/-! ### The parser -/

theorem run_case (total : Nat) : ∀ (n : Nat) (at' : Bool) (e : Exp) (l l' : List Char), CaseFree e → Alike l l' →
    RunRel (run grammar total n at' e l) (run grammar total n at' e l') := by
  intro n
  induction n with
  | zero => intro at' e l l' _ _; exact .fuel
  | succ n ih =>
    intro at' e l l' he h
    have hsk : ∀ {l l' : List Char}, Alike l l' →
        Alike (if at' then l else skip l) (if at' then l' else skip l') := by
      intro l l' h
      cases at' with
      | true => exact h
      | false => exact skip_case h
    have hmap : ∀ {x x' : Option Res} {ps ps' : List Pair}, CasePairs ps ps' → RunRel x x' →
        RunRel (x.map fun rb => rb.map fun q => (ps ++ q.1, q.2)) (x'.map fun rb => rb.map fun q => (ps' ++ q.1, q.2)) := by
      intro x x' ps ps' hp hx
      cases hx with
      | fuel => exact .fuel
      | fail => exact .fail
      | ok h1 h2 => exact .ok (hp.append h1) h2
    cases e with
    | chr p =>
      have := h.length
      cases l with
      | nil =>
        cases l' with
        | nil => exact .fail
        | cons d l' => simp at this
      | cons c l =>
        cases l' with
        | nil => simp at this
        | cons d l' =>
          simp only [run]
          rw [← he c d h.head]
          split
          · exact .ok .nil h.tail
          · exact .fail
    | str s =>
      simp only [run]
      rcases strip_case he h with ⟨h1, h2⟩ | ⟨r, r', h1, h2, h3⟩
      · rw [h1, h2]; exact .fail
      · rw [h1, h2]; exact .ok .nil h3
    | istr s =>
      simp only [run]
      rcases istrip_case (s := s) h with ⟨h1, h2⟩ | ⟨r, r', h1, h2, h3⟩
      · rw [h1, h2]; exact .fail
      · rw [h1, h2]; exact .ok .nil h3
    | soi =>
      simp only [run, h.length]
      split
      · exact .ok .nil h
      · exact .fail
    | eoi =>
      have := h.length
      cases l with
      | nil =>
        cases l' with
        | nil => exact .ok (.cons (.mk _ .nil (fun h => by cases h) .nil) .nil) .nil
        | cons d l' => simp at this
      | cons c l =>
        cases l' with
        | nil => simp at this
        | cons d l' => exact .fail
    | seq a b =>
      simp only [run]
      have hb := ih at' a l l' he.1 h
      generalize run grammar total n at' a l = x at hb ⊢
      generalize run grammar total n at' a l' = x' at hb ⊢
      cases hb with
      | fuel => exact .fuel
      | fail => exact .fail
      | ok h1 h2 => exact hmap h1 (ih at' b _ _ he.2 (hsk h2))
    | alt a b =>
      simp only [run]
      have hb := ih at' a l l' he.1 h
      generalize run grammar total n at' a l = x at hb ⊢
      generalize run grammar total n at' a l' = x' at hb ⊢
      cases hb with
      | fuel => exact .fuel
      | fail => exact ih at' b l l' he.2 h
      | ok h1 h2 => exact .ok h1 h2
    | opt a =>
      simp only [run]
      have hb := ih at' a l l' he h
      generalize run grammar total n at' a l = x at hb ⊢
      generalize run grammar total n at' a l' = x' at hb ⊢
      cases hb with
      | fuel => exact .fuel
      | fail => exact .ok .nil h
      | ok h1 h2 => exact .ok h1 h2
    | star a =>
      simp only [run]
      have hb := ih at' a l l' he h
      generalize run grammar total n at' a l = x at hb ⊢
      generalize run grammar total n at' a l' = x' at hb ⊢
      cases hb with
      | fuel => exact .fuel
      | fail => exact .ok .nil h
      | ok h1 h2 => exact hmap h1 (ih at' (.more a) _ _ he h2)
    | more a =>
      simp only [run]
      have hb := ih at' a _ _ he (hsk h)
      generalize run grammar total n at' a (if at' then l else skip l) = x at hb ⊢
      generalize run grammar total n at' a (if at' then l' else skip l') = x' at hb ⊢
      cases hb with
      | fuel => exact .fuel
      | fail => exact .ok .nil h
      | ok h1 h2 => exact hmap h1 (ih at' (.more a) _ _ he h2)
    | ref m =>
      have hb := ih (at' || (grammar m).1) _ l l' (grammar_caseFree m) h
      simp only [run]
      cases m with
      | vis r =>
        generalize hx : run grammar total n (at' || (grammar (.vis r)).1) (grammar (.vis r)).2 l = x at hb ⊢
        generalize hx' : run grammar total n (at' || (grammar (.vis r)).1) (grammar (.vis r)).2 l' = x' at hb ⊢
        cases hb with
        | fuel => exact .fuel
        | fail => exact .fail
        | @ok ps ps' s s' h1 h2 =>
          have ht : Alike (l.take (l.length - s.length)) (l'.take (l'.length - s'.length)) := by
            rw [← h.length, ← h2.length]; exact h.take _
          refine .ok (.cons (.mk r ht (fun hr => ?_) ?_) .nil) h2
          · subst hr
            exact sameRange_of_run hx hx' ht
          · split
            · exact .nil
            · exact h1
      | _ =>
        revert hb
        generalize run grammar total n _ _ l = x
        generalize run grammar total n _ _ l' = x'
        intro hb
        cases hb with
        | fuel => exact .fuel
        | fail => exact .fail
        | ok h1 h2 => exact .ok h1 h2

theorem parse_case (r : Rule) {l l' : List Char} (h : Alike l l') :
    (parse r l = none ∧ parse r l' = none) ∨ (parse r l = some none ∧ parse r l' = some none) ∨
      ∃ p p', parse r l = some (some p) ∧ parse r l' = some (some p') ∧ CasePair p p' := by
  unfold parse fuelFor
  rw [← h.length]
  have hb := run_case l.length ((l.length + 1) * 100) false (node r) l l' trivial h
  generalize run grammar l.length ((l.length + 1) * 100) false (node r) l = x at hb ⊢
  generalize run grammar l.length ((l.length + 1) * 100) false (node r) l' = x' at hb ⊢
  cases hb with
  | fuel => exact .inl ⟨rfl, rfl⟩
  | fail => exact .inr (.inl ⟨rfl, rfl⟩)
  | ok h1 h2 =>
    cases h1 with
    | nil => exact .inr (.inl ⟨rfl, rfl⟩)
    | cons h hs => exact .inr (.inr ⟨_, _, rfl, rfl, h⟩)

end Noodle
