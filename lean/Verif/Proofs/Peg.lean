import Verif.Model.Grammar
/-
The parser model: more fuel never changes a result, the fuel given is enough, and the rules of the big-step
semantics `Yields`, which does not mention fuel.
-/
namespace Noodle.Peg
set_option autoImplicit false

theorem stripPrefix_length (eq : Char → Char → Bool) : ∀ (s l r : List Char), stripPrefix eq s l = some r →
    r.length + s.length = l.length
  | [], l, r, h => by simp [stripPrefix] at h; subst h; rfl
  | _ :: _, [], r, h => by simp [stripPrefix] at h
  | c :: cs, d :: ds, r, h => by
    unfold stripPrefix at h
    split at h
    · have := stripPrefix_length eq cs ds r h
      simp; omega
    · cases h

theorem comment_nil (l r : List Char) (h : comment l = some r) : r = [] := by
  unfold comment at h
  split at h
  · exact (Option.some.inj h).symm
  · cases h

theorem dropWhile_length_le {α : Type} (p : α → Bool) : ∀ l : List α, (l.dropWhile p).length ≤ l.length
  | [] => Nat.le_refl _
  | a :: l => by
    rw [List.dropWhile_cons]
    split
    · exact Nat.le_trans (dropWhile_length_le p l) (by simp)
    · exact Nat.le_refl _

theorem skip_length (l : List Char) : (skip l).length ≤ l.length := by
  unfold skip
  simp only []
  cases h : comment (List.dropWhile (fun x => x == ' ') l) with
  | none => exact dropWhile_length_le _ l
  | some r => rw [comment_nil _ _ h]; simp

/-! ### More fuel -/

theorem run_mono (body : Name → Bool × Exp) (total : Nat) : ∀ (n m : Nat) (at' : Bool) (e : Exp) (l : List Char) (r : Res),
    n ≤ m → run body total n at' e l = some r → run body total m at' e l = some r := by
  intro n
  induction n with
  | zero => intro m at' e l r _ h; cases h
  | succ n ih =>
    intro m at' e l r hm h
    obtain ⟨m, rfl⟩ : ∃ k, m = k + 1 := ⟨m - 1, by omega⟩
    have hm : n ≤ m := by omega
    cases e with
    | chr p => exact h
    | str s => exact h
    | istr s => exact h
    | soi => exact h
    | eoi => exact h
    | seq a b =>
      simp only [run] at h ⊢
      cases ha : run body total n at' a l with
      | none => simp [ha] at h
      | some ra =>
        rw [ih m _ _ _ _ hm ha]
        simp only [ha, Option.bind_some] at h ⊢
        cases ra with
        | none => exact h
        | some q =>
          simp only [] at h ⊢
          generalize hl : (if at' = true then q.2 else skip q.2) = l' at h ⊢
          cases hb : run body total n at' b l' with
          | none => simp [hb] at h
          | some rb =>
            rw [ih m _ _ _ _ hm hb]
            rw [hb] at h
            exact h
    | alt a b =>
      simp only [run] at h ⊢
      cases ha : run body total n at' a l with
      | none => simp [ha] at h
      | some ra =>
        rw [ih m _ _ _ _ hm ha]
        simp only [ha, Option.bind_some] at h ⊢
        cases ra with
        | none => exact ih m _ _ _ _ hm h
        | some q => exact h
    | opt a =>
      simp only [run] at h ⊢
      cases ha : run body total n at' a l with
      | none => simp [ha] at h
      | some ra =>
        rw [ih m _ _ _ _ hm ha]
        rw [ha] at h
        exact h
    | star a =>
      simp only [run] at h ⊢
      cases ha : run body total n at' a l with
      | none => simp [ha] at h
      | some ra =>
        rw [ih m _ _ _ _ hm ha]
        simp only [ha, Option.bind_some] at h ⊢
        cases ra with
        | none => exact h
        | some q =>
          simp only [] at h ⊢
          cases hb : run body total n at' (.more a) q.2 with
          | none => simp [hb] at h
          | some rb =>
            rw [ih m _ _ _ _ hm hb]
            rw [hb] at h
            exact h
    | more a =>
      simp only [run] at h ⊢
      generalize hl : (if at' = true then l else skip l) = l' at h ⊢
      cases ha : run body total n at' a l' with
      | none => simp [ha] at h
      | some ra =>
        rw [ih m _ _ _ _ hm ha]
        simp only [ha, Option.bind_some] at h ⊢
        cases ra with
        | none => exact h
        | some q =>
          simp only [] at h ⊢
          cases hb : run body total n at' (.more a) q.2 with
          | none => simp [hb] at h
          | some rb =>
            rw [ih m _ _ _ _ hm hb]
            rw [hb] at h
            exact h
    | ref nm =>
      simp only [run] at h ⊢
      cases ha : run body total n (at' || (body nm).1) (body nm).2 l with
      | none => simp [ha] at h
      | some ra =>
        rw [ih m _ _ _ _ hm ha]
        rw [ha] at h
        exact h

/-- The result of a parsing expression, whatever the fuel. -/
def Yields (body : Name → Bool × Exp) (total : Nat) (at' : Bool) (e : Exp) (l : List Char) (r : Res) : Prop :=
  ∃ n, run body total n at' e l = some r

theorem Yields.unique {body : Name → Bool × Exp} {total : Nat} {at' : Bool} {e : Exp} {l : List Char} {r s : Res}
    (h : Yields body total at' e l r) (k : Yields body total at' e l s) : r = s := by
  obtain ⟨n, hn⟩ := h
  obtain ⟨m, hm⟩ := k
  have a := run_mono body total n (max n m) at' e l r (Nat.le_max_left _ _) hn
  have b := run_mono body total m (max n m) at' e l s (Nat.le_max_right _ _) hm
  rw [a] at b
  exact Option.some.inj b

/-! ### Enough fuel -/

/-- May the expression succeed without reading anything? -/
def nullable (nul : Name → Bool) : Exp → Bool
  | .chr _ => false
  | .str s => s.isEmpty
  | .istr s => s.isEmpty
  | .soi => true
  | .eoi => true
  | .seq a b => nullable nul a && nullable nul b
  | .alt a b => nullable nul a || nullable nul b
  | .opt _ => true
  | .star _ => true
  | .more _ => true
  | .ref n => nul n

/-- How deep the evaluation can get before something is read. -/
def cost (nul : Name → Bool) (rank : Name → Nat) : Exp → Nat
  | .chr _ => 0
  | .str _ => 0
  | .istr _ => 0
  | .soi => 0
  | .eoi => 0
  | .seq a b => 1 + max (cost nul rank a) (if nullable nul a then cost nul rank b else 0)
  | .alt a b => 1 + max (cost nul rank a) (cost nul rank b)
  | .opt a => 1 + cost nul rank a
  | .star a => 1 + cost nul rank a
  | .more a => 1 + cost nul rank a
  | .ref n => rank n

/-- No part of the expression is deeper than the bound, and no repetition repeats something that may be empty. -/
def sane (nul : Name → Bool) (rank : Name → Nat) (K : Nat) : Exp → Bool
  | .seq a b => sane nul rank K a && sane nul rank K b && decide (cost nul rank (.seq a b) < K)
  | .alt a b => sane nul rank K a && sane nul rank K b && decide (cost nul rank (.alt a b) < K)
  | .opt a => sane nul rank K a && decide (cost nul rank a + 1 < K)
  | .star a => sane nul rank K a && decide (cost nul rank a + 1 < K) && !nullable nul a
  | .more a => sane nul rank K a && decide (cost nul rank a + 1 < K) && !nullable nul a
  | .ref n => decide (rank n < K)
  | _ => decide (0 < K)

theorem sane_cost (nul : Name → Bool) (rank : Name → Nat) (K : Nat) (e : Exp) (h : sane nul rank K e = true) :
    cost nul rank e < K := by
  cases e <;> simp only [sane, Bool.and_eq_true, decide_eq_true_eq] at h <;> simp only [cost] at h ⊢ <;> omega

/-- A grammar whose rules are sane and each of greater rank than its body. -/
structure Sane (body : Name → Bool × Exp) (nul : Name → Bool) (rank : Name → Nat) (K : Nat) : Prop where
  sane : ∀ n, sane nul rank K (body n).2 = true
  rank : ∀ n, cost nul rank (body n).2 < rank n
  nul : ∀ n, nullable nul (body n).2 = true → nul n = true

theorem run_total {body : Name → Bool × Exp} {nul : Name → Bool} {rank : Name → Nat} {K : Nat}
    (G : Sane body nul rank K) (total : Nat) : ∀ (n : Nat) (at' : Bool) (e : Exp) (l : List Char),
    sane nul rank K e = true → l.length * K + cost nul rank e < n →
    ∃ r, run body total n at' e l = some r ∧ ∀ ps l1, r = some (ps, l1) →
      l1.length ≤ l.length ∧ (nullable nul e = false → l1.length < l.length) := by
  intro n
  induction n with
  | zero => intro at' e l _ h; omega
  | succ n ih =>
    intro at' e l hs hn
    have hK := sane_cost nul rank K e hs
    -- a call on a shorter text always has enough fuel
    have short : ∀ (at' : Bool) (e' : Exp) (l' : List Char), sane nul rank K e' = true → l'.length < l.length →
        ∃ r, run body total n at' e' l' = some r ∧ ∀ ps l1, r = some (ps, l1) →
          l1.length ≤ l'.length ∧ (nullable nul e' = false → l1.length < l'.length) := by
      intro at' e' l' hs' hl'
      refine ih at' e' l' hs' ?_
      have h1 := sane_cost nul rank K e' hs'
      have h2 : (l'.length + 1) * K ≤ l.length * K := Nat.mul_le_mul_right K hl'
      rw [Nat.add_mul] at h2
      omega
    have same : ∀ (at' : Bool) (e' : Exp) (l' : List Char), sane nul rank K e' = true → l'.length ≤ l.length →
        cost nul rank e' < cost nul rank e →
        ∃ r, run body total n at' e' l' = some r ∧ ∀ ps l1, r = some (ps, l1) →
          l1.length ≤ l'.length ∧ (nullable nul e' = false → l1.length < l'.length) := by
      intro at' e' l' hs' hl' hc
      refine ih at' e' l' hs' ?_
      have h2 : l'.length * K ≤ l.length * K := Nat.mul_le_mul_right K hl'
      omega
    cases e with
    | chr p =>
      cases l with
      | nil => exact ⟨none, rfl, by intro ps l1 h; cases h⟩
      | cons c cs =>
        simp only [run]
        cases p c with
        | false => exact ⟨none, rfl, by intro ps l1 h; cases h⟩
        | true =>
          refine ⟨some ([], cs), rfl, ?_⟩
          intro ps l1 h; cases h; simp
    | str s =>
      refine ⟨_, rfl, ?_⟩
      intro ps l1 h
      cases hp : stripPrefix (· == ·) s l with
      | none => simp [hp] at h
      | some r =>
        simp only [hp, Option.map_some, Option.some.injEq, Prod.mk.injEq] at h
        have := stripPrefix_length _ _ _ _ hp
        rw [← h.2]
        refine ⟨by omega, ?_⟩
        intro hne
        cases s with
        | nil => simp [nullable] at hne
        | cons x xs => simp at this; omega
    | istr s =>
      refine ⟨_, rfl, ?_⟩
      intro ps l1 h
      cases hp : stripPrefix (fun a b => a.toLower == b.toLower) s l with
      | none => simp [hp] at h
      | some r =>
        simp only [hp, Option.map_some, Option.some.injEq, Prod.mk.injEq] at h
        have := stripPrefix_length _ _ _ _ hp
        rw [← h.2]
        refine ⟨by omega, ?_⟩
        intro hne
        cases s with
        | nil => simp [nullable] at hne
        | cons x xs => simp at this; omega
    | soi =>
      refine ⟨_, rfl, ?_⟩
      intro ps l1 h
      split at h
      · cases h; exact ⟨Nat.le_refl _, by simp [nullable]⟩
      · cases h
    | eoi =>
      refine ⟨_, rfl, ?_⟩
      intro ps l1 h
      split at h
      · cases h; exact ⟨Nat.le_refl _, by simp [nullable]⟩
      · cases h
    | seq a b =>
      simp only [sane, Bool.and_eq_true, decide_eq_true_eq] at hs
      obtain ⟨ra, ha, ha'⟩ := same at' a l hs.1.1 (Nat.le_refl _) (by simp only [cost]; omega)
      simp only [run, ha, Option.bind_some]
      cases ra with
      | none => exact ⟨none, rfl, by intro ps l1 h; cases h⟩
      | some q =>
        obtain ⟨ps, l1⟩ := q
        have h1 := ha' ps l1 rfl
        simp only []
        have hl' : (if at' = true then l1 else skip l1).length ≤ l1.length := by
          split
          · exact Nat.le_refl _
          · exact skip_length l1
        generalize (if at' = true then l1 else skip l1) = l' at hl'
        have hb : ∃ r, run body total n at' b l' = some r ∧ ∀ ps l1, r = some (ps, l1) →
            l1.length ≤ l'.length ∧ (nullable nul b = false → l1.length < l'.length) := by
          cases hna : nullable nul a with
          | false => exact short at' b l' hs.1.2 (by have := h1.2 hna; omega)
          | true => exact same at' b l' hs.1.2 (by omega) (by simp only [cost, hna, if_true]; omega)
        obtain ⟨rb, hb, hb'⟩ := hb
        rw [hb]
        refine ⟨_, rfl, ?_⟩
        intro ps2 l2 h2
        cases rb with
        | none => cases h2
        | some q2 =>
          obtain ⟨ps3, l3⟩ := q2
          simp only [Option.map_some, Option.some.injEq, Prod.mk.injEq] at h2
          have h3 := hb' ps3 l3 rfl
          rw [← h2.2]
          refine ⟨by omega, ?_⟩
          intro hne
          simp only [nullable, Bool.and_eq_false_iff] at hne
          rcases hne with hne | hne
          · have := h1.2 hne; omega
          · have := h3.2 hne; omega
    | alt a b =>
      simp only [sane, Bool.and_eq_true, decide_eq_true_eq] at hs
      obtain ⟨ra, ha, ha'⟩ := same at' a l hs.1.1 (Nat.le_refl _) (by simp only [cost]; omega)
      obtain ⟨rb, hb, hb'⟩ := same at' b l hs.1.2 (Nat.le_refl _) (by simp only [cost]; omega)
      simp only [run, ha, hb, Option.bind_some]
      cases ra with
      | none =>
        refine ⟨rb, rfl, ?_⟩
        intro ps l1 h
        have := hb' ps l1 h
        refine ⟨this.1, fun hne => this.2 ?_⟩
        simp only [nullable, Bool.or_eq_false_iff] at hne
        exact hne.2
      | some q =>
        refine ⟨some q, rfl, ?_⟩
        intro ps l1 h
        have := ha' ps l1 h
        refine ⟨this.1, fun hne => this.2 ?_⟩
        simp only [nullable, Bool.or_eq_false_iff] at hne
        exact hne.1
    | opt a =>
      simp only [sane, Bool.and_eq_true, decide_eq_true_eq] at hs
      obtain ⟨ra, ha, ha'⟩ := same at' a l hs.1 (Nat.le_refl _) (by simp only [cost]; omega)
      simp only [run, ha, Option.map_some]
      refine ⟨_, rfl, ?_⟩
      intro ps l1 h
      refine ⟨?_, by simp [nullable]⟩
      cases ra with
      | none => simp at h; rw [← h.2]; exact Nat.le_refl _
      | some q =>
        obtain ⟨p1, p2⟩ := q
        simp only [Option.getD_some, Option.some.injEq, Prod.mk.injEq] at h
        rw [← h.2]
        exact (ha' p1 p2 rfl).1
    | star a =>
      have hs0 : sane nul rank K (.more a) = true := hs
      simp only [sane, Bool.and_eq_true, decide_eq_true_eq, Bool.not_eq_true'] at hs
      obtain ⟨ra, ha, ha'⟩ := same at' a l hs.1.1 (Nat.le_refl _) (by simp only [cost]; omega)
      simp only [run, ha, Option.bind_some]
      cases ra with
      | none =>
        refine ⟨_, rfl, ?_⟩
        intro ps l1 h
        cases h
        exact ⟨Nat.le_refl _, by simp [nullable]⟩
      | some q =>
        obtain ⟨ps, l1⟩ := q
        have h1 := (ha' ps l1 rfl).2 hs.2
        simp only []
        obtain ⟨rb, hb, hb'⟩ := short at' (.more a) l1 hs0 h1
        rw [hb]
        refine ⟨_, rfl, ?_⟩
        intro ps2 l2 h2
        cases rb with
        | none => cases h2
        | some q2 =>
          obtain ⟨ps3, l3⟩ := q2
          simp only [Option.map_some, Option.some.injEq, Prod.mk.injEq] at h2
          have h3 := hb' ps3 l3 rfl
          rw [← h2.2]
          exact ⟨by omega, by simp [nullable]⟩
    | more a =>
      have hs0 := hs
      simp only [sane, Bool.and_eq_true, decide_eq_true_eq, Bool.not_eq_true'] at hs
      have hl' : (if at' = true then l else skip l).length ≤ l.length := by
        split
        · exact Nat.le_refl _
        · exact skip_length l
      simp only [run]
      generalize (if at' = true then l else skip l) = l' at hl'
      obtain ⟨ra, ha, ha'⟩ := same at' a l' hs.1.1 hl' (by simp only [cost]; omega)
      simp only [ha, Option.bind_some]
      cases ra with
      | none =>
        refine ⟨_, rfl, ?_⟩
        intro ps l1 h
        cases h
        exact ⟨Nat.le_refl _, by simp [nullable]⟩
      | some q =>
        obtain ⟨ps, l1⟩ := q
        have h1 := (ha' ps l1 rfl).2 hs.2
        simp only []
        obtain ⟨rb, hb, hb'⟩ := short at' (.more a) l1 hs0 (by omega)
        rw [hb]
        refine ⟨_, rfl, ?_⟩
        intro ps2 l2 h2
        cases rb with
        | none => cases h2
        | some q2 =>
          obtain ⟨ps3, l3⟩ := q2
          simp only [Option.map_some, Option.some.injEq, Prod.mk.injEq] at h2
          have h3 := hb' ps3 l3 rfl
          rw [← h2.2]
          exact ⟨by omega, by simp [nullable]⟩
    | ref nm =>
      obtain ⟨ra, ha, ha'⟩ := same (at' || (body nm).1) (body nm).2 l (G.sane nm) (Nat.le_refl _) (G.rank nm)
      simp only [run, ha, Option.map_some]
      refine ⟨_, rfl, ?_⟩
      intro ps l1 h
      have key : ∃ p, ra = some (p, l1) := by
        cases ra with
        | none => cases nm <;> cases h
        | some q =>
          obtain ⟨p1, p2⟩ := q
          cases nm <;> simp only [Option.map_some, Option.some.injEq, Prod.mk.injEq] at h <;>
            exact ⟨p1, by rw [h.2]⟩
      obtain ⟨p, hp⟩ := key
      have h1 := ha' p l1 hp
      refine ⟨h1.1, fun hne => h1.2 ?_⟩
      cases hb : nullable nul (body nm).2 with
      | false => rfl
      | true => exact absurd (G.nul nm hb) (by simpa [nullable] using hne)


/-! ### The grammar of noodle -/

/-- The rules that may match the empty text. -/
def mayBeEmpty : Name → Bool
  | .vis .macroValue => true
  | .emptyLine => true
  | .vis .query => true
  | .vis .eoi => true
  | _ => false

/-- How deep each rule can get before something is read. -/
def depth : Name → Nat
  | .vis .number => 2
  | .vis .dot => 1
  | .vis .character => 5
  | .vis .letterRange => 3
  | .vis .invert => 1
  | .vis .cls => 3
  | .vis .anagramBody => 3
  | .vis .anagram => 3
  | .vis .superanagram => 3
  | .vis .subanagram => 3
  | .vis .transadd => 3
  | .vis .transdelete => 3
  | .vis .substring => 3
  | .vis .subset => 3
  | .vis .superset => 3
  | .group => 3
  | .term => 20
  | .vis .repeatOptional => 24
  | .vis .repeatAny => 24
  | .vis .repeatOneormore => 24
  | .vis .repeatAtmost => 24
  | .vis .repeatExact => 24
  | .vis .repeatAtleast => 24
  | .vis .repeatRange => 24
  | .repeat => 32
  | .vis .sequence => 36
  | .vis .alternatives => 38
  | .subexpression => 40
  | .vis .optionWordBoundaries => 2
  | .vis .optionPunctuation => 2
  | .vis .optionFuzz => 2
  | .option => 5
  | .vis .expression => 44
  | .vis .macroName => 3
  | .vis .macroValue => 3
  | .vis .macroDefine => 8
  | .vis .pragmaWords => 3
  | .vis .pragmaDict => 4
  | .vis .pragmaLimit => 3
  | .vis .pragmaQuiet => 2
  | .vis .pragmaWordlist => 2
  | .pragma => 20
  | .emptyLine => 3
  | .vis .query => 60
  | .vis .eoi => 1

theorem grammar_sane : Sane grammar mayBeEmpty depth 100 := by
  refine ⟨?_, ?_, ?_⟩
  · intro n; cases n with
    | vis r => cases r <;> decide
    | _ => decide
  · intro n; cases n with
    | vis r => cases r <;> decide
    | _ => decide
  · intro n; cases n with
    | vis r => cases r <;> decide
    | _ => decide

/-- The fuel given is enough: parsing a text always ends, with a tree or with a syntax error. -/
theorem parse_ends (r : Rule) (l : List Char) : ∃ res, parse r l = some res := by
  obtain ⟨res, h, _⟩ := run_total grammar_sane l.length (fuelFor l) false (node r) l
    (by cases r <;> decide)
    (by
      have : cost mayBeEmpty depth (node r) < 100 := by cases r <;> decide
      unfold fuelFor
      rw [Nat.add_mul]
      omega)
  exact ⟨_, by unfold parse; rw [h]; rfl⟩

theorem parse_of_yields {r : Rule} {l : List Char} {res : Res}
    (h : Yields grammar l.length false (node r) l res) : parse r l = some (res.bind fun q => q.1.head?) := by
  obtain ⟨s, hs, _⟩ := run_total grammar_sane l.length (fuelFor l) false (node r) l
    (by cases r <;> decide)
    (by
      have : cost mayBeEmpty depth (node r) < 100 := by cases r <;> decide
      unfold fuelFor
      rw [Nat.add_mul]
      omega)
  have : s = res := Yields.unique ⟨_, hs⟩ h
  unfold parse
  rw [hs, this]
  rfl

theorem yields_total (r : Rule) (l : List Char) (total : Nat) : ∃ res, Yields grammar total false (node r) l res := by
  obtain ⟨res, h, _⟩ := run_total grammar_sane total (fuelFor l) false (node r) l
    (by cases r <;> decide)
    (by
      have : cost mayBeEmpty depth (node r) < 100 := by cases r <;> decide
      unfold fuelFor
      rw [Nat.add_mul]
      omega)
  exact ⟨_, _, h⟩

end Noodle.Peg
