import Verif.Proofs.Syntax
/-
Whole expressions, with their flags, and lines of a query.
-/
namespace Noodle
open Peg Spec
set_option autoImplicit false

/-! ### What is left is an end of the text -/

theorem Peg.stripPrefix_suffix (eq : Char → Char → Bool) : ∀ (s l r : List Char), stripPrefix eq s l = some r → r <:+ l
  | [], l, r, h => by simp [stripPrefix] at h; subst h; exact List.suffix_refl _
  | _ :: _, [], r, h => by simp [stripPrefix] at h
  | c :: cs, d :: ds, r, h => by
    unfold stripPrefix at h
    split at h
    · exact (stripPrefix_suffix eq cs ds r h).trans (List.suffix_cons d ds)
    · cases h

theorem Peg.skip_suffix (l : List Char) : skip l <:+ l := by
  unfold skip
  simp only []
  cases h : comment (List.dropWhile (fun x => x == ' ') l) with
  | none => exact List.dropWhile_suffix _
  | some r => rw [comment_nil _ _ h]; exact List.nil_suffix

theorem Peg.run_suffix (body : Name → Bool × Exp) (total : Nat) : ∀ (n : Nat) (at' : Bool) (e : Exp) (l : List Char)
    (ps : List Pair) (l1 : List Char), run body total n at' e l = some (some (ps, l1)) → l1 <:+ l := by
  intro n
  induction n with
  | zero => intro at' e l ps l1 h; cases h
  | succ n ih =>
    intro at' e l ps l1 h
    have hsk : ∀ l : List Char, (if at' = true then l else skip l) <:+ l := by
      intro l; split
      · exact List.suffix_refl _
      · exact skip_suffix l
    cases e with
    | chr p =>
      simp only [run] at h
      cases l with
      | nil => cases h
      | cons c cs =>
        simp only [] at h
        split at h
        · cases h; exact List.suffix_cons _ _
        · cases h
    | str s =>
      simp only [run, Option.some.injEq, Option.map_eq_some_iff, Prod.mk.injEq] at h
      obtain ⟨r, h1, _, h2⟩ := h
      subst h2
      exact stripPrefix_suffix _ _ _ _ h1
    | istr s =>
      simp only [run, Option.some.injEq, Option.map_eq_some_iff, Prod.mk.injEq] at h
      obtain ⟨r, h1, _, h2⟩ := h
      subst h2
      exact stripPrefix_suffix _ _ _ _ h1
    | soi =>
      simp only [run] at h
      split at h
      · cases h; exact List.suffix_refl _
      · cases h
    | eoi =>
      simp only [run] at h
      split at h
      · cases h; exact List.suffix_refl _
      · cases h
    | seq a b =>
      simp only [run] at h
      cases ha : run body total n at' a l with
      | none => simp [ha] at h
      | some ra =>
        simp only [ha, Option.bind_some] at h
        cases ra with
        | none => cases h
        | some q =>
          simp only [] at h
          cases hb : run body total n at' b (if at' = true then q.2 else skip q.2) with
          | none => simp [hb] at h
          | some rb =>
            rw [hb] at h
            cases rb with
            | none => cases h
            | some q2 =>
              simp only [Option.map_some, Option.some.injEq, Prod.mk.injEq] at h
              rw [← h.2]
              exact (ih _ _ _ _ _ hb).trans ((hsk _).trans (ih _ _ _ _ _ ha))
    | alt a b =>
      simp only [run] at h
      cases ha : run body total n at' a l with
      | none => simp [ha] at h
      | some ra =>
        simp only [ha, Option.bind_some] at h
        cases ra with
        | none => exact ih _ _ _ _ _ h
        | some q => simp only [Option.some.injEq] at h; subst h; exact ih _ _ _ _ _ ha
    | opt a =>
      simp only [run] at h
      cases ha : run body total n at' a l with
      | none => simp [ha] at h
      | some ra =>
        rw [ha] at h
        cases ra with
        | none => simp at h; rw [← h.2]; exact List.suffix_refl _
        | some q => simp at h; subst h; exact ih _ _ _ _ _ ha
    | star a =>
      simp only [run] at h
      cases ha : run body total n at' a l with
      | none => simp [ha] at h
      | some ra =>
        simp only [ha, Option.bind_some] at h
        cases ra with
        | none => cases h; exact List.suffix_refl _
        | some q =>
          simp only [] at h
          cases hb : run body total n at' (.more a) q.2 with
          | none => simp [hb] at h
          | some rb =>
            rw [hb] at h
            cases rb with
            | none => cases h
            | some q2 =>
              simp only [Option.map_some, Option.some.injEq, Prod.mk.injEq] at h
              rw [← h.2]
              exact (ih _ _ _ _ _ hb).trans (ih _ _ _ _ _ ha)
    | more a =>
      simp only [run] at h
      cases ha : run body total n at' a (if at' = true then l else skip l) with
      | none => simp [ha] at h
      | some ra =>
        simp only [ha, Option.bind_some] at h
        cases ra with
        | none => cases h; exact List.suffix_refl _
        | some q =>
          simp only [] at h
          cases hb : run body total n at' (.more a) q.2 with
          | none => simp [hb] at h
          | some rb =>
            rw [hb] at h
            cases rb with
            | none => cases h
            | some q2 =>
              simp only [Option.map_some, Option.some.injEq, Prod.mk.injEq] at h
              rw [← h.2]
              exact (ih _ _ _ _ _ hb).trans ((ih _ _ _ _ _ ha).trans (hsk _))
    | ref nm =>
      simp only [run] at h
      cases ha : run body total n (at' || (body nm).1) (body nm).2 l with
      | none => simp [ha] at h
      | some ra =>
        rw [ha] at h
        cases ra with
        | none => cases nm <;> cases h
        | some q =>
          have : q.2 = l1 := by
            cases nm <;> simp only [Option.map_some, Option.some.injEq, Prod.mk.injEq] at h
            · exact h.2
            all_goals (rw [h])
          rw [← this]
          exact ih _ _ _ _ _ ha

variable {T : Nat}

/-! ### Flags -/

def setFlag (o : ExprOptions) : Flag → ExprOptions
  | .boundaries => { o with explicitWB := some true }
  | .punctuation => { o with explicitPunct := some true }
  | .fuzz n => { o with fuzz := some n }

/-- The options a list of flags gives. -/
def flagOptions (fs : List (Flag × Nat)) : ExprOptions :=
  fs.foldl (fun o f => setFlag o f.1) {}

theorem option_ok (f : Flag) (hok : f.ok = true) (Z : List Char) (hZ : NoDigit Z) :
    ∃ p, Y T (.ref .option) (f.text ++ Z) (some ([p], Z)) ∧ ∀ o, parseOption o p = .ok (setFlag o f) := by
  cases f with
  | boundaries =>
    obtain ⟨x, hx⟩ := node_ok (T := T) (r := .optionWordBoundaries) rfl (lit_ok (t := ['!', '_']) rfl Z)
    exact ⟨_, y_option (y_alt_left hx), fun o => rfl⟩
  | punctuation =>
    have f1 := y_node_fail (r := .optionWordBoundaries) (at' := false)
      (second_ne (T := T) (s := "!_") (l := '\'' :: Z) (t := []) rfl ne_head)
    obtain ⟨x, hx⟩ := node_ok (T := T) (r := .optionPunctuation) rfl (lit_ok (t := ['!', '\'']) rfl Z)
    exact ⟨_, y_option (y_alt_right f1 (y_alt_left hx)), fun o => rfl⟩
  | fuzz n =>
    have hn : n < 2 ^ 64 := by simpa [Flag.ok] using hok
    have f1 := y_node_fail (r := .optionWordBoundaries) (at' := false)
      (second_ne (T := T) (s := "!_") (l := digits n ++ Z) (t := []) rfl (digits_ne_head n _ rfl))
    have f2 := y_node_fail (r := .optionPunctuation) (at' := false)
      (second_ne (T := T) (s := "!'") (l := digits n ++ Z) (t := []) rfl (digits_ne_head n _ rfl))
    obtain ⟨x, hx⟩ := node_ok (T := T) (r := .optionFuzz) rfl (then_ok (lit_ok (t := ['!']) rfl (digits n ++ Z))
      (skip_digits n _) (y_num n hZ))
    refine ⟨_, y_option (y_alt_right f1 (y_alt_right f2 hx)), fun o => ?_⟩
    simp [parseOption, Pair.rule, Pair.inner, parseNumbers_one n hn, setFlag]

theorem option_fails : Y T (.ref .option) [] none :=
  y_option (y_alt_right (y_node_fail (lit_ne (t := ['_']) rfl (by intro c hc; cases hc)))
    (y_alt_right (y_node_fail (lit_ne (t := ['\'']) rfl (by intro c hc; cases hc)))
      (y_node_fail (y_seq_fail (lit_ne (t := []) rfl (by intro c hc; cases hc))))))

theorem flagsText_head (fs : List (Flag × Nat)) : ∀ c, (flagsText fs).head? = some c → c = '!' := by
  cases fs with
  | nil => intro c hc; cases hc
  | cons f fs =>
    intro c hc
    obtain ⟨f, b⟩ := f
    cases f <;> simpa [flagsText, Flag.text] using hc.symm

theorem flags_closing (fs : List (Flag × Nat)) : Closing (flagsText fs) := by
  intro c hc; exact Or.inr (Or.inr (Or.inr (flagsText_head fs c hc)))

theorem flags_ok : ∀ (fs : List (Flag × Nat)), (fs.all fun f => f.1.ok) = true →
    ∃ ps R', Y T (.star (.ref .option)) (flagsText fs) (some (ps, R')) ∧ skip R' = [] ∧ (fs ≠ [] → ps ≠ []) ∧
      ∀ o, ps.foldlM parseOption o = .ok (fs.foldl (fun o f => setFlag o f.1) o)
  | [], _ => ⟨[], [], y_star_nil option_fails, rfl, fun h => absurd rfl h, fun o => rfl⟩
  | f :: fs, hok => by
    simp only [List.all_cons, Bool.and_eq_true] at hok
    have hnd : NoDigit (gap f.2 ++ flagsText fs) := by
      refine noDigit_gap _ _ ?_
      intro _ c hc
      rw [flagsText_head fs c hc]; rfl
    obtain ⟨p, h1, h2⟩ := option_ok (T := T) f.1 hok.1 (gap f.2 ++ flagsText fs) hnd
    obtain ⟨ps, R', h3, h4, h5, h6⟩ := flags_ok fs hok.2
    have e : flagsText (f :: fs) = f.1.text ++ (gap f.2 ++ flagsText fs) := by simp [flagsText]
    rw [e]
    have hsk : skip (gap f.2 ++ flagsText fs) = flagsText fs := by
      rw [skip_gap', skip_closing (flags_closing fs)]
    by_cases hfs : fs = []
    · subst hfs
      refine ⟨[p] ++ [], gap f.2 ++ flagsText [], y_star_cons h1 (y_more_nil ?_), hsk, by simp, ?_⟩
      · rw [between_false, hsk]; exact option_fails
      · intro o
        show (parseOption o p >>= fun s => [].foldlM parseOption s) = _
        rw [h2 o]
        rfl
    · refine ⟨[p] ++ ps, R', y_star_cons h1 (y_more_of_star (h5 hfs) ?_), h4, by simp, ?_⟩
      · rw [between_false, hsk]; exact h3
      · intro o
        show (parseOption o p >>= fun s => ps.foldlM parseOption s) = _
        rw [h2 o]
        exact h6 _

/-! ### Expressions -/

/-- What an expression is read as. -/
def exprOf (a : Alts) (fs : List (Flag × Nat)) : ExprAst :=
  { root := altsTree a, options := detectOptions (altsTree a) (flagOptions fs) }

/-- An `expression` node. -/
theorem expression_ok (b : Nat) (a : Alts) (fs : List (Flag × Nat)) (ha : a.ok = true)
    (hf : (fs.all fun f => f.1.ok) = true) (hT : (exprText b a fs).length = T) :
    ∃ p, Y T (node .expression) (exprText b a fs) (some ([p], [])) ∧ p.rule = .expression ∧
      parseExpression p = .ok (exprOf a fs) := by
  obtain ⟨p, R1, h1, h2, h3, h4⟩ := subexpression_ok (T := T) a ha (reads_alts a ha) (flags_closing fs)
    (fun c hc => by rw [flagsText_head fs c hc]; decide)
  obtain ⟨ps, R2, h5, h6, _, h7⟩ := flags_ok (T := T) fs hf
  obtain ⟨c, l, hc, hst⟩ := alts_start a ha
  have hsk : skip (exprText b a fs) = a.text ++ flagsText fs := by
    rw [exprText, List.append_assoc, skip_gap', hc]
    exact skip_start _ hst
  obtain ⟨x, hx⟩ := node_ok (T := T) (r := .expression) rfl (then_ok (ps := []) (y_soi hT) hsk (then_ok h1 h2
    (then_ok h5 h6 y_eoi)))
  refine ⟨_, hx, rfl, ?_⟩
  have ho : parseOptions (ps ++ [.mk .eoi [] []]) = .ok (flagOptions fs) := by
    unfold parseOptions
    rw [List.foldlM_append, h7]
    rfl
  simp only [parseExpression, Pair.rule, Pair.inner, List.nil_append, List.cons_append]
  have h3' : (p.rule = .sequence ∨ p.rule = .alternatives) := h3
  cases p with
  | mk pr pt pi =>
    simp only [Pair.rule] at h3'
    simp only [ne_eq, not_true_eq_false, if_false, h3', if_true, h4, Except.bind, ho, Except.map]
    rfl

theorem ofText_ok (b : Nat) (a : Alts) (fs : List (Flag × Nat)) (ha : a.ok = true)
    (hf : (fs.all fun f => f.1.ok) = true) : ExprAst.ofText (exprText b a fs) = .ok (some (exprOf a fs)) := by
  obtain ⟨p, h1, _, h2⟩ := expression_ok b a fs ha hf rfl
  have := parse_of_yields h1
  unfold ExprAst.ofText
  rw [this]
  simp [h2, Except.map]

end Noodle
