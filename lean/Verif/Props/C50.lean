import Verif.Proofs.ParseTotal
import Verif.Props.C03
import Verif.Props.C34
/-
C50: parsing never panics, for any text whatever, except on a numeral of 2^64 or more.
-/
namespace Noodle
open Spec List
set_option autoImplicit false

/-- The text has a numeral of `2^64` or more in it. -/
def HugeNumeral (l : List Char) : Prop := ∃ d n, d <:+: l ∧ Decimal d n ∧ 2 ^ 64 ≤ n

theorem noHuge_of {l : List Char} (h : ¬ HugeNumeral l) : NoHuge l := by
  intro d hd ha
  cases d with
  | nil => decide
  | cons c d =>
    by_contra hn
    exact h ⟨c :: d, decimal (c :: d), hd, decimal_iff.2 ⟨by simp, ha, rfl⟩, by omega⟩

/-- C50: an expression, for every text: it is parsed, or it is reported as an error; it can panic only if it has a numeral
of `2^64` or more in it. -/
theorem C50_expression {l : List Char} {c : Crash} (h : ExprAst.ofText l = .error c) : HugeNumeral l := by
  by_contra hn
  obtain ⟨r, hr⟩ := expression_total (noHuge_of hn)
  rw [hr] at h
  cases h

theorem lines_crash {U : Unicode} {text : List Char} {raw : List (List Char)} {c : Crash} (hl : Lines text raw)
    (h : QueryAst.ofText U text = .error (.crash c)) : parseLines U 0 raw {} = .error (.crash c) := by
  unfold QueryAst.ofText at h
  rw [splitLines_of_lines hl] at h
  revert h
  generalize parseLines U 0 raw {} = r
  cases r with
  | error e => intro h; simpa [Except.bind] using h
  | ok s =>
    intro h
    simp [Except.bind, expandExpressions_eq, orCrash, Except.map] at h

theorem ofText_macros {U : Unicode} {t : List Char} {raw : List (List Char)} {s : ParseState} (hl : Lines t raw)
    (h : parseLines U 0 raw {} = .ok s) : ∃ q, QueryAst.ofText U t = .ok q ∧ q.macros = s.macros := by
  unfold QueryAst.ofText
  rw [splitLines_of_lines hl, h]
  simp only [Except.bind, expandExpressions_eq, orCrash, Except.map]
  exact ⟨_, rfl, rfl⟩

/-- C50: a query, for every text: if parsing panics, then on a line that has, after the macros that the lines before it
define are replaced, a numeral of `2^64` or more in it; the lines before it are fine on their own. -/
theorem C50_query {U : Unicode} {text : List Char} {raw : List (List Char)} {c : Crash} (hl : Lines text raw)
    (h : QueryAst.ofText U text = .error (.crash c)) :
    ∃ before line after ms line', raw = before ++ line :: after ∧ (before = [] → ms = []) ∧
      (∀ t, Lines t before → ∃ q, QueryAst.ofText U t = .ok q ∧ q.macros = ms) ∧
      Expanded ms line line' ∧ HugeNumeral line' := by
  obtain ⟨a, r, b, s, h1, h2, h3⟩ := parseLines_crash raw 0 {} (lines_crash hl h)
  refine ⟨a, r, b, s.macros, applyMacros s.macros r, h1, ?_, fun t ht => ofText_macros ht h2, ?_, ?_⟩
  · rintro rfl
    cases h2
    rfl
  · exact (expanded_iff (parseLines_names a 0 {} s h2 (by intro m hm; cases hm))).2 rfl
  · by_contra hn
    exact line_total U s (0 + a.length) (fun _ => noHuge_of hn) h3

theorem lines_parts {text : List Char} {raw : List (List Char)} (h : Lines text raw) : ∀ l ∈ raw, l <:+: text := by
  induction h with
  | last _ _ => simp
  | @cons l t ls s _ _ _ _ ih =>
    intro m hm
    rcases List.mem_cons.1 hm with rfl | hm
    · exact ⟨[], s :: t, by simp⟩
    · exact (ih m hm).trans ⟨l ++ [s], [], by simp⟩

/-- C50: a text without macros and without numerals of `2^64` or more never makes the parser panic. -/
theorem C50_plain (U : Unicode) {text : List Char} (he : '=' ∉ text) (hn : ¬ HugeNumeral text) :
    (∃ q, QueryAst.ofText U text = .ok q) ∨ ∃ n, QueryAst.ofText U text = .error (.syntax n) := by
  cases h : QueryAst.ofText U text with
  | ok q => exact Or.inl ⟨q, rfl⟩
  | error e =>
    cases e with
    | «syntax» n => exact Or.inr ⟨n, rfl⟩
    | crash c =>
      exfalso
      have hl : Lines text (splitLines text) := lines_iff.2 rfl
      obtain ⟨a, r, b, s, h1, h2, h3⟩ := parseLines_crash _ 0 {} (lines_crash hl h)
      have hm : s.macros = [] := parseLines_no_macros a 0 {} s h2 rfl fun l hl' =>
        fun hc => he ((lines_parts hl l (by rw [h1]; simp [hl'])).subset hc)
      refine line_total U s (0 + a.length) (fun _ => ?_) h3
      rw [hm]
      exact (noHuge_of hn).infix (lines_parts hl r (by rw [h1]; simp))

theorem decimal_small {d : List Char} {n : Nat} (h : Decimal d n) : n < 10 ^ d.length := by
  induction h with
  | one h _ => simpa using h
  | @snoc l n c d _ hd _ ih =>
    simp only [List.length_append, List.length_singleton, Nat.pow_succ]
    omega

/-- C50: in particular, a text with no `=` and without twenty digits in a row. -/
theorem C50_digits (U : Unicode) {text : List Char} (he : '=' ∉ text)
    (hd : ∀ d, d <:+: text → d.all Char.isDigit = true → d.length < 20) :
    (∃ q, QueryAst.ofText U text = .ok q) ∨ ∃ n, QueryAst.ofText U text = .error (.syntax n) := by
  refine C50_plain U he ?_
  rintro ⟨d, n, h1, h2, h3⟩
  have h4 := hd d h1 (decimal_iff.1 h2).2.1
  have h5 := decimal_small h2
  have : 10 ^ d.length ≤ 10 ^ 19 := Nat.pow_le_pow_right (by decide) (by omega)
  have : (10 : Nat) ^ 19 < 2 ^ 64 := by decide
  omega

/-! ### Examples -/

/-- Nonsense without numerals: reported, or read, but no panic. -/
example (U : Unicode) : (∃ q, QueryAst.ofText U "((<a\n]{,}x|(b:^\n[^z-]!!".toList = .ok q) ∨
    ∃ n, QueryAst.ofText U "((<a\n]{,}x|(b:^\n[^z-]!!".toList = .error (.syntax n) :=
  C50_plain U (by decide +kernel) (by
    rintro ⟨d, n, h1, h2, h3⟩
    have h4 := (decimal_iff.1 h2)
    have : ∀ c ∈ "((<a\n]{,}x|(b:^\n[^z-]!!".toList, c.isDigit = false := by decide +kernel
    cases d with
    | nil => exact h4.1 rfl
    | cons c d =>
      have h5 := this c (h1.subset (by simp))
      simp [h5] at h4)

/-- Does this line, on its own, make the parser panic? -/
def panics (l : List Char) : Bool :=
  match Peg.parse .query l with
  | some (some (.mk _ _ (q :: _))) => match lineNode {} q with
    | .error _ => true
    | .ok _ => false
  | _ => false

theorem panics_iff (U : Unicode) {l : List Char} (hl : Lines l [l]) (h : panics l = true) :
    ∃ c, QueryAst.ofText U l = .error (.crash c) := by
  unfold QueryAst.ofText
  rw [splitLines_of_lines hl, parseLines, parseLine]
  unfold panics at h
  split at h
  · rename_i q _ hp
    have hm : applyMacros ({} : ParseState).macros l = l := rfl
    rw [hm, hp]
    show ∃ c, (((orCrash (lineNode {} q)).bind _).bind _ : Except ParseError QueryAst) = _
    revert h
    generalize lineNode {} q = r
    cases r with
    | ok s => intro h; cases h
    | error c => intro _; exact ⟨c, rfl⟩
  · cases h

/-- The exception is real: these queries panic. -/
theorem C50_counterexample (U : Unicode) :
    (∃ c, QueryAst.ofText U "a{18446744073709551616}".toList = .error (.crash c)) ∧
    (∃ c, QueryAst.ofText U "99999999999999999999".toList = .error (.crash c)) ∧
    (∃ c, QueryAst.ofText U "ab !18446744073709551616".toList = .error (.crash c)) ∧
    ∃ c, QueryAst.ofText U "<ab+18446744073709551616>".toList = .error (.crash c) :=
  ⟨panics_iff U (lines_iff.2 (by decide +kernel)) (by decide +kernel),
   panics_iff U (lines_iff.2 (by decide +kernel)) (by decide +kernel),
   panics_iff U (lines_iff.2 (by decide +kernel)) (by decide +kernel),
   panics_iff U (lines_iff.2 (by decide +kernel)) (by decide +kernel)⟩

/-- `C50_query` holds of the first: the line it blames is the line itself. -/
example (U : Unicode) : HugeNumeral "a{18446744073709551616}".toList := by
  obtain ⟨c, hc⟩ := (C50_counterexample U).1
  obtain ⟨b, r, a, ms, r', h1, h2, _, h4, h5⟩ := C50_query (raw := ["a{18446744073709551616}".toList])
    (lines_iff.2 (by decide +kernel)) hc
  cases b with
  | nil =>
    rw [h2 rfl] at h4
    cases h4
    rw [List.nil_append, List.cons.injEq] at h1
    rw [h1.1]
    exact h5
  | cons x xs => simp at h1

end Noodle
