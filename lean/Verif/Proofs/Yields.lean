import Verif.Proofs.Peg
/-
The big-step rules of the parser model.
-/
namespace Noodle.Peg
set_option autoImplicit false

variable {body : Name → Bool × Exp} {T : Nat} {at' : Bool}

/-- What the parts of a sequence skip between them. -/
def between (at' : Bool) (l : List Char) : List Char := if at' then l else skip l

theorem Yields.both {at1 at2 : Bool} {a b : Exp} {l1 l2 : List Char} {r1 r2 : Res} (h : Yields body T at1 a l1 r1)
    (k : Yields body T at2 b l2 r2) : ∃ n, run body T n at1 a l1 = some r1 ∧ run body T n at2 b l2 = some r2 := by
  obtain ⟨n, hn⟩ := h
  obtain ⟨m, hm⟩ := k
  exact ⟨max n m, run_mono _ _ _ _ _ _ _ _ (Nat.le_max_left _ _) hn, run_mono _ _ _ _ _ _ _ _ (Nat.le_max_right _ _) hm⟩

theorem y_chr {p : Char → Bool} {c : Char} {l : List Char} (h : p c = true) :
    Yields body T at' (.chr p) (c :: l) (some ([], l)) := ⟨1, by simp [run, h]⟩

theorem y_chr_fail {p : Char → Bool} {l : List Char} (h : ∀ c, l.head? = some c → p c = false) :
    Yields body T at' (.chr p) l none := by
  refine ⟨1, ?_⟩
  cases l with
  | nil => rfl
  | cons c l => simp [run, h c rfl]

theorem stripPrefix_append (s l : List Char) : stripPrefix (· == ·) s (s ++ l) = some l := by
  induction s with
  | nil => rfl
  | cons c s ih => simp [stripPrefix, ih]

theorem y_str (s l : List Char) : Yields body T at' (.str s) (s ++ l) (some ([], l)) :=
  ⟨1, by simp [run, stripPrefix_append]⟩

theorem y_str_fail {s l : List Char} (h : stripPrefix (· == ·) s l = none) : Yields body T at' (.str s) l none :=
  ⟨1, by simp [run, h]⟩

theorem y_soi {l : List Char} (h : l.length = T) : Yields body T at' .soi l (some ([], l)) := ⟨1, by simp [run, h]⟩

theorem y_eoi : Yields body T at' .eoi [] (some ([.mk .eoi [] []], [])) := ⟨1, rfl⟩

theorem y_eoi_fail {l : List Char} (h : l ≠ []) : Yields body T at' .eoi l none :=
  ⟨1, by cases l with
    | nil => exact absurd rfl h
    | cons c l => rfl⟩

theorem y_seq {a b : Exp} {l l1 l2 : List Char} {ps qs : List Pair} (ha : Yields body T at' a l (some (ps, l1)))
    (hb : Yields body T at' b (between at' l1) (some (qs, l2))) :
    Yields body T at' (.seq a b) l (some (ps ++ qs, l2)) := by
  obtain ⟨n, h1, h2⟩ := ha.both hb
  exact ⟨n + 1, by unfold between at h2; simp [run, h1, h2]⟩

theorem y_seq_fail {a b : Exp} {l : List Char} (ha : Yields body T at' a l none) : Yields body T at' (.seq a b) l none := by
  obtain ⟨n, h1⟩ := ha
  exact ⟨n + 1, by simp [run, h1]⟩

theorem y_seq_fail2 {a b : Exp} {l l1 : List Char} {ps : List Pair} (ha : Yields body T at' a l (some (ps, l1)))
    (hb : Yields body T at' b (between at' l1) none) : Yields body T at' (.seq a b) l none := by
  obtain ⟨n, h1, h2⟩ := ha.both hb
  exact ⟨n + 1, by unfold between at h2; simp [run, h1, h2]⟩

theorem y_alt_left {a b : Exp} {l : List Char} {q : List Pair × List Char} (ha : Yields body T at' a l (some q)) :
    Yields body T at' (.alt a b) l (some q) := by
  obtain ⟨n, h1⟩ := ha
  exact ⟨n + 1, by simp [run, h1]⟩

theorem y_alt_right {a b : Exp} {l : List Char} {r : Res} (ha : Yields body T at' a l none)
    (hb : Yields body T at' b l r) : Yields body T at' (.alt a b) l r := by
  obtain ⟨n, h1, h2⟩ := ha.both hb
  exact ⟨n + 1, by simp [run, h1, h2]⟩

theorem y_opt {a : Exp} {l : List Char} {r : Res} (ha : Yields body T at' a l r) :
    Yields body T at' (.opt a) l (some (r.getD ([], l))) := by
  obtain ⟨n, h1⟩ := ha
  exact ⟨n + 1, by simp [run, h1]⟩

theorem y_star_nil {a : Exp} {l : List Char} (ha : Yields body T at' a l none) :
    Yields body T at' (.star a) l (some ([], l)) := by
  obtain ⟨n, h1⟩ := ha
  exact ⟨n + 1, by simp [run, h1]⟩

theorem y_star_cons {a : Exp} {l l1 l2 : List Char} {ps qs : List Pair} (ha : Yields body T at' a l (some (ps, l1)))
    (hb : Yields body T at' (.more a) l1 (some (qs, l2))) : Yields body T at' (.star a) l (some (ps ++ qs, l2)) := by
  obtain ⟨n, h1, h2⟩ := ha.both hb
  exact ⟨n + 1, by simp [run, h1, h2]⟩

theorem y_more_nil {a : Exp} {l : List Char} (ha : Yields body T at' a (between at' l) none) :
    Yields body T at' (.more a) l (some ([], l)) := by
  obtain ⟨n, h1⟩ := ha
  exact ⟨n + 1, by unfold between at h1; simp [run, h1]⟩

theorem y_more_cons {a : Exp} {l l1 l2 : List Char} {ps qs : List Pair}
    (ha : Yields body T at' a (between at' l) (some (ps, l1)))
    (hb : Yields body T at' (.more a) l1 (some (qs, l2))) : Yields body T at' (.more a) l (some (ps ++ qs, l2)) := by
  obtain ⟨n, h1, h2⟩ := ha.both hb
  exact ⟨n + 1, by unfold between at h1; simp [run, h1, h2]⟩

/-- Further rounds are like a repetition after skipping. -/
theorem y_more_of_star {a : Exp} {l l2 : List Char} {qs : List Pair} (hne : qs ≠ [])
    (hb : Yields body T at' (.star a) (between at' l) (some (qs, l2))) :
    Yields body T at' (.more a) l (some (qs, l2)) := by
  obtain ⟨n, h2⟩ := hb
  refine ⟨n, ?_⟩
  cases n with
  | zero => cases h2
  | succ n =>
    simp only [run] at h2 ⊢
    unfold between at h2
    cases h3 : run body T n at' a (if at' = true then l else skip l) with
    | none => simp [h3] at h2
    | some r =>
      simp only [h3, Option.bind_some] at h2 ⊢
      cases r with
      | none => simp at h2; exact absurd h2.1.symm (by simpa using hne)
      | some q => exact h2

theorem y_node {r : Rule} {l l1 : List Char} {ps : List Pair} (hat : (body (.vis r)).1 = false)
    (h : Yields body T false (body (.vis r)).2 l (some (ps, l1))) :
    Yields body T false (.ref (.vis r)) l (some ([.mk r (l.take (l.length - l1.length)) ps], l1)) := by
  obtain ⟨n, h1⟩ := h
  exact ⟨n + 1, by simp [run, hat, h1]⟩

theorem y_node_fail {r : Rule} {l : List Char} (h : Yields body T (at' || (body (.vis r)).1) (body (.vis r)).2 l none) :
    Yields body T at' (.ref (.vis r)) l none := by
  obtain ⟨n, h1⟩ := h
  exact ⟨n + 1, by simp [run, h1]⟩

theorem y_term {l : List Char} {r : Res} (h : Yields body T (at' || (body .term).1) (body .term).2 l r) :
    Yields body T at' (.ref .term) l r := by
  obtain ⟨n, h1⟩ := h
  exact ⟨n + 1, by simp [run, h1]⟩

theorem y_group {l : List Char} {r : Res} (h : Yields body T (at' || (body .group).1) (body .group).2 l r) :
    Yields body T at' (.ref .group) l r := by
  obtain ⟨n, h1⟩ := h
  exact ⟨n + 1, by simp [run, h1]⟩

theorem y_subexpression {l : List Char} {r : Res}
    (h : Yields body T (at' || (body .subexpression).1) (body .subexpression).2 l r) :
    Yields body T at' (.ref .subexpression) l r := by
  obtain ⟨n, h1⟩ := h
  exact ⟨n + 1, by simp [run, h1]⟩

theorem y_repeat {l : List Char} {r : Res} (h : Yields body T (at' || (body .repeat).1) (body .repeat).2 l r) :
    Yields body T at' (.ref .repeat) l r := by
  obtain ⟨n, h1⟩ := h
  exact ⟨n + 1, by simp [run, h1]⟩

theorem y_option {l : List Char} {r : Res} (h : Yields body T (at' || (body .option).1) (body .option).2 l r) :
    Yields body T at' (.ref .option) l r := by
  obtain ⟨n, h1⟩ := h
  exact ⟨n + 1, by simp [run, h1]⟩

theorem y_pragma {l : List Char} {r : Res} (h : Yields body T (at' || (body .pragma).1) (body .pragma).2 l r) :
    Yields body T at' (.ref .pragma) l r := by
  obtain ⟨n, h1⟩ := h
  exact ⟨n + 1, by simp [run, h1]⟩

theorem y_emptyLine {l : List Char} {r : Res} (h : Yields body T (at' || (body .emptyLine).1) (body .emptyLine).2 l r) :
    Yields body T at' (.ref .emptyLine) l r := by
  obtain ⟨n, h1⟩ := h
  exact ⟨n + 1, by simp [run, h1]⟩

/-! ### Skipping -/

theorem skip_nil : skip [] = [] := rfl

theorem skip_blank (l : List Char) : skip (' ' :: l) = skip l := by
  unfold skip
  simp

theorem skip_gap (n : Nat) (l : List Char) : skip (List.replicate n ' ' ++ l) = skip l := by
  induction n with
  | zero => rfl
  | succ n ih => rw [List.replicate_succ, List.cons_append, skip_blank, ih]

theorem skip_of_head {l : List Char} (h : ∀ c, l.head? = some c → c ≠ ' ' ∧ c ≠ '/' ∧ c ≠ '-') : skip l = l := by
  cases l with
  | nil => rfl
  | cons c l =>
    obtain ⟨h1, h2, h3⟩ := h c rfl
    unfold skip
    have : List.dropWhile (fun x => x == ' ') (c :: l) = c :: l := by
      rw [List.dropWhile_cons]; simp [h1]
    simp only [this]
    have hc : comment (c :: l) = none := by
      have e1 : ("//".toList : List Char) = ['/', '/'] := rfl
      have e2 : ("--".toList : List Char) = ['-', '-'] := rfl
      have h2' : ¬ '/' = c := fun h => h2 h.symm
      have h3' : ¬ '-' = c := fun h => h3 h.symm
      simp [comment, e1, e2, stripPrefix, h2', h3']
    rw [hc]
    rfl

theorem between_false (l : List Char) : between false l = skip l := rfl
theorem between_true (l : List Char) : between true l = l := rfl

/-! ### Numbers -/

/-- The text does not start with a digit. -/
def NoDigit (l : List Char) : Prop := ∀ c, l.head? = some c → c.isDigit = false

theorem y_digits (ds l : List Char) (h : ∀ c ∈ ds, c.isDigit = true) (hl : NoDigit l) :
    Yields body T true (.more digitChar) (ds ++ l) (some ([], l)) := by
  induction ds with
  | nil => exact y_more_nil (y_chr_fail hl)
  | cons c ds ih =>
    exact y_more_cons (ps := []) (qs := []) (y_chr (h c (by simp)))
      (ih fun d hd => h d (by simp [hd]))

theorem y_number (ds l : List Char) (h : ∀ c ∈ ds, c.isDigit = true) (hne : ds ≠ []) (hl : NoDigit l) :
    Yields grammar T false (node .number) (ds ++ l) (some ([.mk .number ds []], l)) := by
  have key : Yields grammar T true (grammar (.vis .number)).2 (ds ++ l) (some ([], l)) := by
    cases ds with
    | nil => exact absurd rfl hne
    | cons c ds =>
      refine y_seq (ps := []) (qs := []) (y_chr (h c (by simp))) ?_
      cases ds with
      | nil => exact y_star_nil (y_chr_fail hl)
      | cons d ds =>
        exact y_star_cons (ps := []) (qs := []) (y_chr (h d (by simp)))
          (y_digits ds l (fun e he => h e (by simp [he])) hl)
  obtain ⟨n, h1⟩ := key
  refine ⟨n + 1, ?_⟩
  simp only [node, run]
  have e : (false || (grammar (.vis .number)).1) = true := rfl
  rw [e, h1]
  simp [grammar]

theorem y_number_fail (l : List Char) (hl : NoDigit l) : Yields grammar T false (node .number) l none :=
  y_node_fail (y_seq_fail (y_chr_fail hl))

theorem y_lit (s : String) (l : List Char) : Yields body T at' (lit s) (s.toList ++ l) (some ([], l)) := y_str _ _

theorem y_lit_fail {s : String} {l : List Char} (h : stripPrefix (· == ·) s.toList l = none) :
    Yields body T at' (lit s) l none := y_str_fail h

end Noodle.Peg
