import Verif.Proofs.ParseTotal
import Verif.Proofs.ScriptLine
/-
Which characters a line can contain at all.
-/
namespace Noodle.Peg
open List Spec
set_option autoImplicit false

/-- Every character the expression takes itself has the property `P`, and the rules it refers to are among `S`. -/
def Takes (P : Char → Prop) (S : Name → Prop) : Exp → Prop
  | .chr p => ∀ c, p c = true → P c
  | .str s => ∀ c ∈ s, P c
  | .istr s => ∀ c : Char, c.toLower ∈ s.map Char.toLower → P c
  | .soi => True
  | .eoi => True
  | .seq a b => Takes P S a ∧ Takes P S b
  | .alt a b => Takes P S a ∧ Takes P S b
  | .opt a => Takes P S a
  | .star a => Takes P S a
  | .more a => Takes P S a
  | .ref m => S m

/-- No mark of a comment. -/
def Unmarked (u : List Char) : Prop := ¬ "//".toList <:+: u ∧ ¬ "--".toList <:+: u

theorem Unmarked.infix {u v : List Char} (h : Unmarked v) (hu : u <:+: v) : Unmarked u :=
  ⟨fun x => h.1 (x.trans hu), fun x => h.2 (x.trans hu)⟩

theorem Unmarked.blanks {w : List Char} (h : Unmarked w) (hs : Skipped w) : ∀ c ∈ w, c = ' ' := by
  rcases hs with hs | hs | hs
  · exact hs
  · exact absurd hs h.1
  · exact absurd hs h.2

theorem takes_all {P : Char → Prop} {S : Name → Prop} (hS : ∀ m, S m → Takes P S (grammar m).2) (hb : P ' ')
    {at' : Bool} {e : Exp} {u : List Char} {ps : List Pair} (h : Derives at' e u ps) :
    Takes P S e → Unmarked u → ∀ c ∈ u, P c := by
  induction h with
  | chr hp => intro ht _ c hc; rw [List.mem_singleton] at hc; subst hc; exact ht _ hp
  | str => intro ht _; exact ht
  | istr hu => intro ht _ c hc; exact ht c (hu ▸ List.mem_map_of_mem hc)
  | soi | eoi | optN | starN | moreN => intro _ _ c hc; cases hc
  | @seq _ _ _ u w v _ _ hw _ _ ih1 ih2 =>
    intro ht hu c hc
    have hw' := (hu.infix (u := w) ⟨u, v, rfl⟩).blanks hw.2
    rcases List.mem_append.1 hc with hc | hc
    · rcases List.mem_append.1 hc with hc | hc
      · exact ih1 ht.1 (hu.infix ⟨[], w ++ v, by simp⟩) c hc
      · rw [hw' c hc]; exact hb
    · exact ih2 ht.2 (hu.infix ⟨u ++ w, [], by simp⟩) c hc
  | altL _ ih => intro ht; exact ih ht.1
  | altR _ ih => intro ht; exact ih ht.2
  | optS _ ih => intro ht; exact ih ht
  | @starS _ _ u v _ _ _ _ ih1 ih2 =>
    intro ht hu c hc
    rcases List.mem_append.1 hc with hc | hc
    · exact ih1 ht (hu.infix ⟨[], v, by simp⟩) c hc
    · exact ih2 ht (hu.infix ⟨u, [], by simp⟩) c hc
  | @moreS _ _ w u v _ _ hw _ _ ih1 ih2 =>
    intro ht hu c hc
    have hw' := (hu.infix (u := w) ⟨[], u ++ v, by simp⟩).blanks hw.2
    rcases List.mem_append.1 hc with hc | hc
    · rcases List.mem_append.1 hc with hc | hc
      · rw [hw' c hc]; exact hb
      · exact ih1 ht (hu.infix ⟨w, v, by simp⟩) c hc
    · exact ih2 ht (hu.infix ⟨w ++ u, [], by simp⟩) c hc
  | node _ ih => intro ht; exact ih (hS _ ht)
  | silent _ _ ih => intro ht; exact ih (hS _ ht)

theorem Takes.mono {P Q : Char → Prop} {S : Name → Prop} (h : ∀ c, P c → Q c) : ∀ e, Takes P S e → Takes Q S e
  | .chr _, ht => fun c hc => h c (ht c hc)
  | .str _, ht => fun c hc => h c (ht c hc)
  | .istr _, ht => fun c hc => h c (ht c hc)
  | .soi, _ => trivial
  | .eoi, _ => trivial
  | .seq a b, ht => ⟨Takes.mono h a ht.1, Takes.mono h b ht.2⟩
  | .alt a b, ht => ⟨Takes.mono h a ht.1, Takes.mono h b ht.2⟩
  | .opt a, ht => Takes.mono h a ht
  | .star a, ht => Takes.mono h a ht
  | .more a, ht => Takes.mono h a ht
  | .ref _, ht => ht

/-! ### A query takes its whole line -/

/-- Where the expression succeeds nothing is left. -/
def Ends (e : Exp) : Prop :=
  ∀ T n at' l ps l', run grammar T n at' e l = some (some (ps, l')) → l' = []

theorem ends_eoi : Ends .eoi := by
  intro T n at' l ps l' h
  cases n with
  | zero => cases h
  | succ n =>
    simp only [run, Option.some.injEq] at h
    split at h
    · rename_i hl
      simp only [Option.some.injEq, Prod.mk.injEq] at h
      rw [← h.2]
      simpa using hl
    · cases h

theorem ends_seq {a b : Exp} (hb : Ends b) : Ends (.seq a b) := by
  intro T n at' l ps l' h
  cases n with
  | zero => cases h
  | succ n =>
    simp only [run] at h
    cases ha : run grammar T n at' a l with
    | none => simp [ha] at h
    | some ra =>
      cases ra with
      | none => simp [ha] at h
      | some q =>
        simp only [ha, Option.bind_some] at h
        cases hr : run grammar T n at' b (if at' then q.2 else skip q.2) with
        | none => simp [hr] at h
        | some rb =>
          cases rb with
          | none => simp [hr] at h
          | some q' =>
            simp only [hr, Option.map_some, Option.some.injEq, Prod.mk.injEq] at h
            rw [← h.2]
            exact hb T n at' _ q'.1 q'.2 hr

theorem ends_alt {a b : Exp} (ha : Ends a) (hb : Ends b) : Ends (.alt a b) := by
  intro T n at' l ps l' h
  cases n with
  | zero => cases h
  | succ n =>
    simp only [run] at h
    cases hr : run grammar T n at' a l with
    | none => simp [hr] at h
    | some ra =>
      cases ra with
      | none => simp only [hr, Option.bind_some] at h; exact hb _ _ _ _ _ _ h
      | some q =>
        simp only [hr, Option.bind_some, Option.some.injEq] at h
        subst h
        exact ha _ _ _ _ _ _ hr

theorem ends_ref {m : Name} (hm : Ends (grammar m).2) : Ends (.ref m) := by
  intro T n at' l ps l' h
  cases n with
  | zero => cases h
  | succ n =>
    simp only [run] at h
    cases hr : run grammar T n (at' || (grammar m).1) (grammar m).2 l with
    | none => simp [hr] at h
    | some ra =>
      cases ra with
      | none => cases m <;> simp [hr] at h
      | some q =>
        have hq := hm _ _ _ _ _ _ hr
        cases m <;> simp only [hr, Option.map_some, Option.some.injEq, Prod.mk.injEq] at h
        · rw [← h.2]; exact hq
        all_goals (subst h; exact hq)

theorem query_ends : Ends (node .query) :=
  ends_ref (ends_alt (ends_ref (ends_seq (ends_seq ends_eoi)))
    (ends_alt (ends_ref (ends_seq (ends_seq (ends_seq (ends_seq ends_eoi)))))
      (ends_alt (ends_ref (ends_seq (ends_seq (ends_seq ends_eoi)))) (ends_ref (ends_seq ends_eoi)))))

theorem query_derives {l : List Char} {p : Pair} (h : parse .query l = some (some p)) :
    Derives false (.ref (.vis .query)) l [p] := by
  obtain ⟨u, v, huv, hd⟩ := parse_derives h
  unfold parse at h
  cases hr : run grammar l.length (fuelFor l) false (node .query) l with
  | none => simp [hr] at h
  | some res =>
    cases res with
    | none => simp [hr] at h
    | some q =>
      obtain ⟨ps, l1⟩ := q
      have hl1 := query_ends _ _ _ _ _ _ hr
      obtain ⟨u', hu', hd'⟩ := run_derives _ _ _ _ _ _ _ hr
      rw [hl1, List.append_nil] at hu'
      subst hu'
      have hd2 := hd'
      unfold Peg.node at hd2
      simp only [hr, Option.map_some, Option.bind_some, Option.some.injEq] at h
      cases hd2 with
      | node hx =>
        simp only [List.head?_cons, Option.some.injEq] at h
        subst h
        exact hd'
      | silent hn _ => exact absurd rfl (hn _)

/-! ### The characters of the grammar -/

/-- A character that is used in expressions. -/
def exprChar (c : Char) : Bool :=
  c.isAlpha || c.isDigit || " '._[]^-|<>+(:){,}?*!".toList.contains c

/-- Rules of expressions. -/
def exprRule : Name → Bool
  | .vis .macroName | .vis .macroValue | .vis .macroDefine | .vis .pragmaWords | .vis .pragmaDict | .vis .pragmaLimit
  | .vis .pragmaQuiet | .vis .pragmaWordlist | .vis .query | .vis .eoi | .pragma | .emptyLine => false
  | _ => true

theorem alpha_exprChar (c : Char) (h : c.isAlpha = true) : exprChar c = true := by simp [exprChar, h]
theorem digit_exprChar (c : Char) (h : c.isDigit = true) : exprChar c = true := by simp [exprChar, h]
theorem lit_exprChar {s : String} (h : s.toList.all exprChar = true) : ∀ c ∈ s.toList, exprChar c = true :=
  List.all_eq_true.1 h

theorem expr_takes : ∀ m, exprRule m = true → Takes (fun c => exprChar c = true) (fun m => exprRule m = true) (grammar m).2 := by
  intro m hm
  rcases m with r | _ | _ | _ | _ | _ | _ | _
  · cases r <;> first | (cases hm; done) | skip
    all_goals
      simp only [grammar, seqs, choices, Exp.plus, Takes, lit, node, alphaChar, digitChar]
      repeat' constructor
      all_goals first | exact alpha_exprChar | exact digit_exprChar | exact lit_exprChar (by decide +kernel) | trivial
  all_goals first | (cases hm; done) | skip
  all_goals
    simp only [grammar, seqs, choices, Exp.plus, Takes, lit, node, alphaChar, digitChar]
    repeat' constructor
    all_goals first | exact alpha_exprChar | exact digit_exprChar | exact lit_exprChar (by decide +kernel) | trivial

end Noodle.Peg
