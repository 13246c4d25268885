import Verif.Proofs.Yields
import Verif.Model.Parse
import Verif.Spec.Surface
/-
The parser reads what is written: for every surface expression, parsing its text gives the tree expected.
-/
namespace Noodle
open Peg Spec
set_option autoImplicit false

/-! ### The trees expected -/

def itemSet : Item → CharSet
  | .one c => CharSet.ofChar c
  | .range lo hi => CharSet.fromRange lo hi

def itemsSet (items : List Item) : CharSet := items.foldl (fun s i => s.union (itemSet i)) CharSet.empty

def suffixTree : Suffix → Ast → Ast
  | .none, t => t
  | .opt, t => .rep t 0 (some 1)
  | .star, t => .rep t 0 none
  | .plus, t => .rep t 1 none
  | .exact n, t => .rep t n (some n)
  | .atMost n, t => .rep t 0 (some n)
  | .atLeast n, t => .rep t n none
  | .range n m, t => .rep t n (some m)

def clampKind (len : Nat) : AnagramKind → AnagramKind
  | .transDelete n => .transDelete (if len < n then len else n)
  | k => k

def partTree : PartKind → List Ast → Ast
  | .substring, l => .substr l
  | .subset, l => .seq (l.map fun c => .rep c 0 (some 1))
  | .superset, l => .seq (supersetOf l)

mutual
def termTree : Term → Ast
  | .chr c => .cls (CharSet.ofChar c)
  | .dot => .cls CharSet.letters
  | .cls neg items => .cls (if neg then (itemsSet items).invert else itemsSet items)
  | .num n => .seq [.rep (.cls CharSet.letters) n (some n), .cls (CharSet.ofCh Ch.wordEnd)]
  | .group a => altsTree a
  | .bank kind letters => .anagram (clampKind letters.length kind) (letters.map chOfChar)
  | .part kind r => partTree kind (rowTrees r)
def rowTrees : Row → List Ast
  | .last t s _ => [suffixTree s (termTree t)]
  | .cons t s _ r => suffixTree s (termTree t) :: rowTrees r
def altsTrees : Alts → List Ast
  | .one r => [.seq (rowTrees r)]
  | .more r _ a => .seq (rowTrees r) :: altsTrees a
def altsTree : Alts → Ast
  | .one r => .seq (rowTrees r)
  | .more r _ a => .alts (.seq (rowTrees r) :: altsTrees a)
end

/-! ### First characters -/

/-- A character a term can start with. -/
def startChar (c : Char) : Bool :=
  c.isAlpha || c.isDigit || c == '\'' || c == '_' || c == '.' || c == '[' || c == '(' || c == '<'

theorem startChar_ne {c : Char} (h : startChar c = true) (d : Char) (hd : startChar d = false) : c ≠ d := by
  intro e; subst e; rw [h] at hd; cases hd

theorem plainChar_start {c : Char} (h : plainChar c = true) : startChar c = true := by
  unfold plainChar at h
  unfold startChar
  simp only [Bool.or_eq_true] at h ⊢
  rcases h with (h | h) | h
  · simp [h]
  · simp [h]
  · simp [h]

theorem digits_eq (n : Nat) : digits n = Nat.toDigits 10 n := by
  unfold digits
  exact Nat.toList_repr

theorem digits_digit (n : Nat) : ∀ c ∈ digits n, c.isDigit = true := by
  intro c hc
  rw [digits_eq] at hc
  exact Nat.isDigit_of_mem_toDigits (by decide) (by decide) hc

theorem digits_ne (n : Nat) : digits n ≠ [] := by
  rw [digits_eq]; exact Nat.toDigits_ne_nil

theorem decimal_digits (n : Nat) : decimal (digits n) = n := by
  rw [digits_eq]
  exact Nat.ofDigitChars_toDigits (b := 10) (by decide) (by decide)

theorem parseUsize_digits (n : Nat) (h : n < 2 ^ 64) : parseUsize (digits n) = some n := by
  unfold parseUsize
  rw [decimal_digits]
  have h1 : (digits n).isEmpty = false := by
    cases hd : digits n with
    | nil => exact absurd hd (digits_ne n)
    | cons => rfl
  have h2 : (digits n).all Char.isDigit = true := List.all_eq_true.2 (digits_digit n)
  simp only [h1, h2, h]
  rfl

theorem digits_start (n : Nat) : ∃ c l, digits n = c :: l ∧ c.isDigit = true := by
  cases hd : digits n with
  | nil => exact absurd hd (digits_ne n)
  | cons c l => exact ⟨c, l, rfl, digits_digit n c (by rw [hd]; simp)⟩

theorem term_start (t : Term) (h : t.ok = true) : ∃ c l, t.text = c :: l ∧ startChar c = true := by
  cases t with
  | chr c => exact ⟨c, [], rfl, plainChar_start (by simpa [Term.ok] using h)⟩
  | dot => exact ⟨'.', [], rfl, rfl⟩
  | cls neg items => exact ⟨'[', _, rfl, rfl⟩
  | num n =>
    obtain ⟨c, l, h1, h2⟩ := digits_start n
    exact ⟨c, l, h1, by unfold startChar; simp [h2]⟩
  | group a => exact ⟨'(', _, rfl, rfl⟩
  | bank kind letters => exact ⟨'<', _, rfl, rfl⟩
  | part kind r => exact ⟨'(', _, rfl, rfl⟩

theorem row_start (r : Row) (h : r.ok = true) : ∃ c l, r.text = c :: l ∧ startChar c = true := by
  cases r with
  | last t s b =>
    simp only [Row.ok, Bool.and_eq_true] at h
    obtain ⟨c, l, h1, h2⟩ := term_start t h.1
    exact ⟨c, l ++ s.text ++ gap b, by simp [Row.text, h1], h2⟩
  | cons t s b r =>
    simp only [Row.ok, Bool.and_eq_true] at h
    obtain ⟨c, l, h1, h2⟩ := term_start t h.1.1.1
    exact ⟨c, l ++ s.text ++ gap b ++ r.text, by simp [Row.text, h1], h2⟩

theorem alts_start (a : Alts) (h : a.ok = true) : ∃ c l, a.text = c :: l ∧ startChar c = true := by
  cases a with
  | one r =>
    simp only [Alts.ok] at h
    obtain ⟨c, l, h1, h2⟩ := row_start r h
    exact ⟨c, l, by simp [Alts.text, h1], h2⟩
  | more r b a =>
    simp only [Alts.ok, Bool.and_eq_true] at h
    obtain ⟨c, l, h1, h2⟩ := row_start r h.1
    exact ⟨c, l ++ ['|'] ++ gap b ++ a.text, by simp [Alts.text, h1], h2⟩

theorem skip_start {c : Char} (l : List Char) (h : startChar c = true) : skip (c :: l) = c :: l := by
  refine skip_of_head ?_
  intro d hd
  simp at hd; subst hd
  exact ⟨startChar_ne h _ rfl, startChar_ne h _ rfl, startChar_ne h _ rfl⟩

/-- What can follow a row. -/
def Closing (R : List Char) : Prop := ∀ c, R.head? = some c → c = '|' ∨ c = ')' ∨ c = ':' ∨ c = '!'

theorem skip_closing {R : List Char} (h : Closing R) : skip R = R := by
  refine skip_of_head ?_
  intro c hc
  rcases h c hc with rfl | rfl | rfl | rfl <;> decide

theorem skip_gap' (n : Nat) (l : List Char) : skip (gap n ++ l) = skip l := skip_gap n l

/-! ### Failures -/

variable {T : Nat}

abbrev Y (T : Nat) (e : Exp) (l : List Char) (r : Res) : Prop := Yields grammar T false e l r

theorem strip_ne {a c : Char} {s l : List Char} (h : c ≠ a) : stripPrefix (· == ·) (a :: s) (c :: l) = none := by
  unfold stripPrefix
  have : (a == c) = false := by simpa using fun e : a = c => h e.symm
  simp [this]

theorem strip_nil {a : Char} {s : List Char} : stripPrefix (· == ·) (a :: s) [] = none := rfl

/-- A literal fails on a text that starts differently. -/
theorem lit_ne {s : String} {a : Char} {t : List Char} (hs : s.toList = a :: t) {l : List Char}
    (h : ∀ c, l.head? = some c → c ≠ a) : Y T (lit s) l none := by
  refine y_lit_fail ?_
  rw [hs]
  cases l with
  | nil => rfl
  | cons c l => exact strip_ne (h c rfl)

theorem lit_ok {s : String} {t : List Char} (hs : s.toList = t) (l : List Char) : Y T (lit s) (t ++ l) (some ([], l)) := by
  subst hs; exact y_lit s l

/-- A rule that starts with a literal fails likewise. -/
theorem opener_fails {r : Rule} {s : String} {b : Exp} (hb : grammar (.vis r) = (false, .seq (lit s) b)) {a : Char}
    {t : List Char} (hs : s.toList = a :: t) {l : List Char} (h : ∀ c, l.head? = some c → c ≠ a) :
    Y T (node r) l none := by
  refine y_node_fail ?_
  rw [hb]
  exact y_seq_fail (lit_ne hs h)

theorem char_node_fails {l : List Char}
    (h : ∀ c, l.head? = some c → c.isAlpha = false ∧ c ≠ '.' ∧ c ≠ '\'' ∧ c ≠ '_') : Y T (node .character) l none := by
  refine y_node_fail ?_
  refine y_alt_right (y_chr_fail fun c hc => (h c hc).1) ?_
  refine y_alt_right (y_node_fail (lit_ne (a := '.') (t := []) rfl fun c hc => (h c hc).2.1)) ?_
  exact y_alt_right (lit_ne (a := '\'') (t := []) rfl fun c hc => (h c hc).2.2.1)
    (lit_ne (a := '_') (t := []) rfl fun c hc => (h c hc).2.2.2)

section openers
variable {l : List Char}
theorem f_cls (h : ∀ c, l.head? = some c → c ≠ '[') : Y T (node .cls) l none := opener_fails (t := []) rfl rfl h
theorem f_dot (h : ∀ c, l.head? = some c → c ≠ '.') : Y T (node .dot) l none := y_node_fail (lit_ne (t := []) rfl h)
theorem f_group (h : ∀ c, l.head? = some c → c ≠ '(') : Y T (.ref .group) l none :=
  y_group (y_seq_fail (lit_ne (t := []) rfl h))
theorem f_anagram (h : ∀ c, l.head? = some c → c ≠ '<') : Y T (node .anagram) l none := opener_fails (t := []) rfl rfl h
theorem f_super (h : ∀ c, l.head? = some c → c ≠ '<') : Y T (node .superanagram) l none := opener_fails (t := []) rfl rfl h
theorem f_sub (h : ∀ c, l.head? = some c → c ≠ '<') : Y T (node .subanagram) l none := opener_fails (t := []) rfl rfl h
theorem f_transadd (h : ∀ c, l.head? = some c → c ≠ '<') : Y T (node .transadd) l none := opener_fails (t := []) rfl rfl h
theorem f_transdelete (h : ∀ c, l.head? = some c → c ≠ '<') : Y T (node .transdelete) l none :=
  opener_fails (t := []) rfl rfl h
theorem f_substring (h : ∀ c, l.head? = some c → c ≠ '(') : Y T (node .substring) l none := opener_fails (t := []) rfl rfl h
theorem f_subset (h : ∀ c, l.head? = some c → c ≠ '(') : Y T (node .subset) l none := opener_fails (t := []) rfl rfl h
theorem f_superset (h : ∀ c, l.head? = some c → c ≠ '(') : Y T (node .superset) l none := opener_fails (t := []) rfl rfl h
end openers

/-- The alternatives of a term between `group` and `substring`. -/
theorem skip_banks {l : List Char} (h : ∀ c, l.head? = some c → c ≠ '<') {e : Exp} {r : Res} (k : Y T e l r) :
    Y T (.alt (node .anagram) (.alt (node .superanagram) (.alt (node .subanagram) (.alt (node .transadd)
      (.alt (node .transdelete) e))))) l r :=
  y_alt_right (f_anagram h) <| y_alt_right (f_super h) <| y_alt_right (f_sub h) <| y_alt_right (f_transadd h) <|
    y_alt_right (f_transdelete h) k

theorem skip_parts {l : List Char} (h : ∀ c, l.head? = some c → c ≠ '(') {e : Exp} {r : Res} (k : Y T e l r) :
    Y T (.alt (node .substring) (.alt (node .subset) (.alt (node .superset) e))) l r :=
  y_alt_right (f_substring h) <| y_alt_right (f_subset h) <| y_alt_right (f_superset h) k

theorem term_fails {R : List Char} (h : Closing R) : Y T (.ref .term) R none := by
  have key : ∀ d : Char, d ≠ '|' → d ≠ ')' → d ≠ ':' → d ≠ '!' → ∀ c, R.head? = some c → c ≠ d := by
    intro d h1 h2 h3 h4 c hc e
    subst e
    rcases h c hc with e | e | e | e
    · exact h1 e
    · exact h2 e
    · exact h3 e
    · exact h4 e
  refine y_term ?_
  refine y_alt_right (f_cls (key _ (by decide) (by decide) (by decide) (by decide))) ?_
  refine y_alt_right (f_dot (key _ (by decide) (by decide) (by decide) (by decide))) ?_
  refine y_alt_right (f_group (key _ (by decide) (by decide) (by decide) (by decide))) ?_
  refine skip_banks (key _ (by decide) (by decide) (by decide) (by decide)) ?_
  refine skip_parts (key _ (by decide) (by decide) (by decide) (by decide)) ?_
  refine y_alt_right (y_number_fail R ?_) ?_
  · intro c hc
    rcases h c hc with rfl | rfl | rfl | rfl <;> rfl
  · refine char_node_fails ?_
    intro c hc
    rcases h c hc with rfl | rfl | rfl | rfl <;> decide

/-- `(repeat | term)` -/
def pieceExp : Exp := .alt (.ref .repeat) (.ref .term)

theorem repeat_fails {R : List Char} (h : Y T (.ref .term) R none) : Y T (.ref .repeat) R none := by
  refine y_repeat ?_
  refine y_alt_right (y_node_fail (y_seq_fail h)) ?_
  refine y_alt_right (y_node_fail (y_seq_fail h)) ?_
  refine y_alt_right (y_node_fail (y_seq_fail h)) ?_
  refine y_alt_right (y_node_fail (y_seq_fail h)) ?_
  refine y_alt_right (y_node_fail (y_seq_fail h)) ?_
  refine y_alt_right (y_node_fail (y_seq_fail h)) ?_
  exact y_node_fail (y_seq_fail h)

theorem piece_fails {R : List Char} (h : Closing R) : Y T pieceExp R none :=
  y_alt_right (repeat_fails (term_fails h)) (term_fails h)

theorem take_app (s Z : List Char) : (s ++ Z).take ((s ++ Z).length - Z.length) = s := by
  have : (s ++ Z).length - Z.length = s.length := by simp
  rw [this, List.take_left]

/-! ### Repetitions -/

theorem sk {c : Char} (l : List Char) (h1 : c ≠ ' ' := by decide) (h2 : c ≠ '/' := by decide)
    (h3 : c ≠ '-' := by decide) : skip (c :: l) = c :: l :=
  skip_of_head fun d hd => by simp at hd; subst hd; exact ⟨h1, h2, h3⟩

theorem skip_digits (n : Nat) (l : List Char) : skip (digits n ++ l) = digits n ++ l := by
  obtain ⟨c, k, h1, h2⟩ := digits_start n
  rw [h1]
  exact skip_start (c := c) (k ++ l) (by unfold startChar; simp [h2])

theorem noDigit_cons {c : Char} (l : List Char) (h : c.isDigit = false := by decide) : NoDigit (c :: l) := by
  intro d hd; simp at hd; subst hd; exact h

theorem y_num (n : Nat) {Z : List Char} (h : NoDigit Z) :
    Y T (node .number) (digits n ++ Z) (some ([.mk .number (digits n) []], Z)) :=
  y_number (digits n) Z (digits_digit n) (digits_ne n) h

/-- `a ~ b`, with what is skipped between given. -/
theorem then_ok {a b : Exp} {l l1 l1' l2 : List Char} {ps qs : List Pair} (ha : Y T a l (some (ps, l1)))
    (hs : skip l1 = l1') (hb : Y T b l1' (some (qs, l2))) : Y T (.seq a b) l (some (ps ++ qs, l2)) :=
  y_seq ha (by rw [between_false, hs]; exact hb)

theorem then_fail {a b : Exp} {l l1 l1' : List Char} {ps : List Pair} (ha : Y T a l (some (ps, l1)))
    (hs : skip l1 = l1') (hb : Y T b l1' none) : Y T (.seq a b) l none :=
  y_seq_fail2 ha (by rw [between_false, hs]; exact hb)

theorem node_ok {r : Rule} {l l1 : List Char} {ps : List Pair} (hat : (grammar (.vis r)).1 = false)
    (h : Y T (grammar (.vis r)).2 l (some (ps, l1))) :
    ∃ t, Y T (node r) l (some ([.mk r t ps], l1)) := ⟨_, y_node hat h⟩

theorem parseNumbers_one (n : Nat) (h : n < 2 ^ 64) : parseNumbers [.mk .number (digits n) []] = [n] := by
  simp [parseNumbers, Pair.rule, Pair.text, parseUsize_digits n h]

theorem parseNumbers_two (n m : Nat) (h : n < 2 ^ 64) (k : m < 2 ^ 64) :
    parseNumbers [.mk .number (digits n) [], .mk .number (digits m) []] = [n, m] := by
  simp [parseNumbers, Pair.rule, Pair.text, parseUsize_digits n h, parseUsize_digits m k]

theorem ne_head {a c : Char} {l : List Char} (h : c ≠ a := by decide) : ∀ d, (c :: l).head? = some d → d ≠ a := by
  intro d hd; simp at hd; subst hd; exact h

theorem digits_ne_head {a : Char} (n : Nat) (l : List Char) (h : a.isDigit = false) :
    ∀ d, (digits n ++ l).head? = some d → d ≠ a := by
  obtain ⟨c, k, h1, h2⟩ := digits_start n
  rw [h1]
  intro d hd e
  simp at hd
  subst hd
  subst e
  rw [h2] at h
  cases h

theorem strip_eq {a : Char} {s l : List Char} : stripPrefix (· == ·) (a :: s) (a :: l) = stripPrefix (· == ·) s l := by
  rw [stripPrefix]; simp

theorem brace_comma_fails (n : Nat) (l : List Char) : Y T (lit "{,") ('{' :: (digits n ++ l)) none := by
  refine y_lit_fail ?_
  show stripPrefix _ ['{', ','] _ = none
  rw [strip_eq]
  obtain ⟨c, k, h1, h2⟩ := digits_start n
  rw [h1]
  refine strip_ne ?_
  intro e; subst e; cases h2

theorem comma_brace_fails (n : Nat) (l : List Char) : Y T (lit ",}") (',' :: (digits n ++ l)) none := by
  refine y_lit_fail ?_
  show stripPrefix _ [',', '}'] _ = none
  rw [strip_eq]
  obtain ⟨c, k, h1, h2⟩ := digits_start n
  rw [h1]
  refine strip_ne ?_
  intro e; subst e; cases h2

/-- A term followed by a suffix is read as a repetition. -/
theorem repeat_ok {t : Term} {tr : Ast} {p : Pair} (s : Suffix) (hs : s ≠ .none) (hok : s.ok = true) {Z : List Char}
    (hT : Y T (.ref .term) (t.text ++ (s.text ++ Z)) (some ([p], s.text ++ Z))) (hp : parseTerm p = .ok (some tr)) :
    ∃ q, Y T (.ref .repeat) (t.text ++ (s.text ++ Z)) (some ([q], Z)) ∧
      parseTerm q = .ok (some (suffixTree s tr)) := by
  cases s with
  | none => exact absurd rfl hs
  | opt =>
    obtain ⟨x, hx⟩ := node_ok (T := T) (r := .repeatOptional) rfl (then_ok hT (sk _) (lit_ok (t := ['?']) rfl Z))
    exact ⟨_, y_repeat (y_alt_left hx), by simp [parseTerm, parseRepeat, hp, repeatBounds, Except.bind, Except.map, suffixTree]⟩
  | star =>
    have f1 : Y T (node .repeatOptional) (t.text ++ (Suffix.star.text ++ Z)) none :=
      y_node_fail (then_fail hT (sk _) (lit_ne (a := '?') (t := []) rfl ne_head))
    obtain ⟨x, hx⟩ := node_ok (T := T) (r := .repeatAny) rfl (then_ok hT (sk _) (lit_ok (t := ['*']) rfl Z))
    exact ⟨_, y_repeat (y_alt_right f1 (y_alt_left hx)),
      by simp [parseTerm, parseRepeat, hp, repeatBounds, Except.bind, Except.map, suffixTree]⟩
  | plus =>
    have f1 : Y T (node .repeatOptional) (t.text ++ (Suffix.plus.text ++ Z)) none :=
      y_node_fail (then_fail hT (sk _) (lit_ne (a := '?') (t := []) rfl ne_head))
    have f2 : Y T (node .repeatAny) (t.text ++ (Suffix.plus.text ++ Z)) none :=
      y_node_fail (then_fail hT (sk _) (lit_ne (a := '*') (t := []) rfl ne_head))
    obtain ⟨x, hx⟩ := node_ok (T := T) (r := .repeatOneormore) rfl (then_ok hT (sk _) (lit_ok (t := ['+']) rfl Z))
    exact ⟨_, y_repeat (y_alt_right f1 (y_alt_right f2 (y_alt_left hx))),
      by simp [parseTerm, parseRepeat, hp, repeatBounds, Except.bind, Except.map, suffixTree]⟩
  | atMost n =>
    have hn : n < 2 ^ 64 := by simpa [Suffix.ok] using hok
    have e : (Suffix.atMost n).text ++ Z = '{' :: ',' :: (digits n ++ ('}' :: Z)) := by simp [Suffix.text]
    rw [e] at hT ⊢
    have f1 := y_node_fail (r := .repeatOptional) (at' := false)
      (then_fail hT (sk _) (lit_ne (a := '?') (t := []) rfl ne_head))
    have f2 := y_node_fail (r := .repeatAny) (at' := false)
      (then_fail hT (sk _) (lit_ne (a := '*') (t := []) rfl ne_head))
    have f3 := y_node_fail (r := .repeatOneormore) (at' := false)
      (then_fail hT (sk _) (lit_ne (a := '+') (t := []) rfl ne_head))
    obtain ⟨x, hx⟩ := node_ok (T := T) (r := .repeatAtmost) rfl (then_ok hT (sk _)
      (then_ok (lit_ok (t := ['{', ',']) rfl _) (skip_digits n _) (then_ok (y_num n (noDigit_cons _)) (sk _)
        (lit_ok (t := ['}']) rfl Z))))
    refine ⟨_, y_repeat (y_alt_right f1 (y_alt_right f2 (y_alt_right f3 (y_alt_left hx)))), ?_⟩
    simp [parseTerm, parseRepeat, hp, repeatBounds, Except.bind, Except.map, suffixTree, parseNumbers_one n hn]
  | exact n =>
    have hn : n < 2 ^ 64 := by simpa [Suffix.ok] using hok
    have e : (Suffix.exact n).text ++ Z = '{' :: (digits n ++ ('}' :: Z)) := by simp [Suffix.text]
    rw [e] at hT ⊢
    have f1 := y_node_fail (r := .repeatOptional) (at' := false)
      (then_fail hT (sk _) (lit_ne (a := '?') (t := []) rfl ne_head))
    have f2 := y_node_fail (r := .repeatAny) (at' := false)
      (then_fail hT (sk _) (lit_ne (a := '*') (t := []) rfl ne_head))
    have f3 := y_node_fail (r := .repeatOneormore) (at' := false)
      (then_fail hT (sk _) (lit_ne (a := '+') (t := []) rfl ne_head))
    have f4 := y_node_fail (r := .repeatAtmost) (at' := false)
      (then_fail hT (sk _) (y_seq_fail (brace_comma_fails (T := T) n _)))
    obtain ⟨x, hx⟩ := node_ok (T := T) (r := .repeatExact) rfl (then_ok hT (sk _)
      (then_ok (lit_ok (t := ['{']) rfl _) (skip_digits n _) (then_ok (y_num n (noDigit_cons _)) (sk _)
        (lit_ok (t := ['}']) rfl Z))))
    refine ⟨_, y_repeat (y_alt_right f1 (y_alt_right f2 (y_alt_right f3 (y_alt_right f4 (y_alt_left hx))))), ?_⟩
    simp [parseTerm, parseRepeat, hp, repeatBounds, Except.bind, Except.map, suffixTree, parseNumbers_one n hn]
  | atLeast n =>
    have hn : n < 2 ^ 64 := by simpa [Suffix.ok] using hok
    have e : (Suffix.atLeast n).text ++ Z = '{' :: (digits n ++ (',' :: '}' :: Z)) := by simp [Suffix.text]
    rw [e] at hT ⊢
    have f1 := y_node_fail (r := .repeatOptional) (at' := false)
      (then_fail hT (sk _) (lit_ne (a := '?') (t := []) rfl ne_head))
    have f2 := y_node_fail (r := .repeatAny) (at' := false)
      (then_fail hT (sk _) (lit_ne (a := '*') (t := []) rfl ne_head))
    have f3 := y_node_fail (r := .repeatOneormore) (at' := false)
      (then_fail hT (sk _) (lit_ne (a := '+') (t := []) rfl ne_head))
    have f4 := y_node_fail (r := .repeatAtmost) (at' := false)
      (then_fail hT (sk _) (y_seq_fail (brace_comma_fails (T := T) n _)))
    have f5 := y_node_fail (r := .repeatExact) (at' := false) (then_fail hT (sk _)
      (then_fail (lit_ok (t := ['{']) rfl _) (skip_digits n _) (then_fail (y_num n (noDigit_cons _)) (sk _)
        (lit_ne (a := '}') (t := []) rfl ne_head))))
    obtain ⟨x, hx⟩ := node_ok (T := T) (r := .repeatAtleast) rfl (then_ok hT (sk _)
      (then_ok (lit_ok (t := ['{']) rfl _) (skip_digits n _) (then_ok (y_num n (noDigit_cons _)) (sk _)
        (lit_ok (t := [',', '}']) rfl Z))))
    refine ⟨_, y_repeat (y_alt_right f1 (y_alt_right f2 (y_alt_right f3 (y_alt_right f4 (y_alt_right f5
      (y_alt_left hx)))))), ?_⟩
    simp [parseTerm, parseRepeat, hp, repeatBounds, Except.bind, Except.map, suffixTree, parseNumbers_one n hn]
  | range n m =>
    have hn : n < 2 ^ 64 ∧ m < 2 ^ 64 := by simpa [Suffix.ok] using hok
    have e : (Suffix.range n m).text ++ Z = '{' :: (digits n ++ (',' :: (digits m ++ ('}' :: Z)))) := by
      simp [Suffix.text]
    rw [e] at hT ⊢
    have f1 := y_node_fail (r := .repeatOptional) (at' := false)
      (then_fail hT (sk _) (lit_ne (a := '?') (t := []) rfl ne_head))
    have f2 := y_node_fail (r := .repeatAny) (at' := false)
      (then_fail hT (sk _) (lit_ne (a := '*') (t := []) rfl ne_head))
    have f3 := y_node_fail (r := .repeatOneormore) (at' := false)
      (then_fail hT (sk _) (lit_ne (a := '+') (t := []) rfl ne_head))
    have f4 := y_node_fail (r := .repeatAtmost) (at' := false)
      (then_fail hT (sk _) (y_seq_fail (brace_comma_fails (T := T) n _)))
    have f5 := y_node_fail (r := .repeatExact) (at' := false) (then_fail hT (sk _)
      (then_fail (lit_ok (t := ['{']) rfl _) (skip_digits n _) (then_fail (y_num n (noDigit_cons _)) (sk _)
        (lit_ne (a := '}') (t := []) rfl ne_head))))
    have f6 := y_node_fail (r := .repeatAtleast) (at' := false) (then_fail hT (sk _)
      (then_fail (lit_ok (t := ['{']) rfl _) (skip_digits n _) (then_fail (y_num n (noDigit_cons _)) (sk _)
        (comma_brace_fails (T := T) m _))))
    obtain ⟨x, hx⟩ := node_ok (T := T) (r := .repeatRange) rfl (then_ok hT (sk _)
      (then_ok (lit_ok (t := ['{']) rfl _) (skip_digits n _) (then_ok (y_num n (noDigit_cons _)) (sk _)
        (then_ok (lit_ok (t := [',']) rfl _) (skip_digits m _) (then_ok (y_num m (noDigit_cons _)) (sk _)
          (lit_ok (t := ['}']) rfl Z))))))
    refine ⟨_, y_repeat (y_alt_right f1 (y_alt_right f2 (y_alt_right f3 (y_alt_right f4 (y_alt_right f5
      (y_alt_right f6 hx)))))), ?_⟩
    simp [parseTerm, parseRepeat, hp, repeatBounds, Except.bind, Except.map, suffixTree,
      parseNumbers_two n m hn.1 hn.2]

/-! ### Terms in a row -/

/-- What may come after a term without a suffix. -/
def NoSuffix (X : List Char) : Prop := ∀ c, X.head? = some c → c ≠ '?' ∧ c ≠ '*' ∧ c ≠ '+' ∧ c ≠ '{'

theorem repeat_fails_after {l Z X : List Char} {p : Pair} (hT : Y T (.ref .term) l (some ([p], Z))) (hs : skip Z = X)
    (hX : NoSuffix X) : Y T (.ref .repeat) l none := by
  have hb := fun c hc => (hX c hc).2.2.2
  refine y_repeat ?_
  refine y_alt_right (y_node_fail (then_fail hT hs (lit_ne (a := '?') (t := []) rfl fun c hc => (hX c hc).1))) ?_
  refine y_alt_right (y_node_fail (then_fail hT hs (lit_ne (a := '*') (t := []) rfl fun c hc => (hX c hc).2.1))) ?_
  refine y_alt_right (y_node_fail (then_fail hT hs (lit_ne (a := '+') (t := []) rfl fun c hc => (hX c hc).2.2.1))) ?_
  refine y_alt_right (y_node_fail (then_fail hT hs (y_seq_fail (lit_ne (a := '{') (t := [',']) rfl hb)))) ?_
  refine y_alt_right (y_node_fail (then_fail hT hs (y_seq_fail (lit_ne (a := '{') (t := []) rfl hb)))) ?_
  refine y_alt_right (y_node_fail (then_fail hT hs (y_seq_fail (lit_ne (a := '{') (t := []) rfl hb)))) ?_
  exact y_node_fail (then_fail hT hs (y_seq_fail (lit_ne (a := '{') (t := []) rfl hb)))

/-- The term is read in every context (in which a number ends). -/
def Reads (T : Nat) (t : Term) : Prop := ∀ Z, (t.isNum = true → NoDigit Z) →
  ∃ p, Y T (.ref .term) (t.text ++ Z) (some ([p], Z)) ∧ parseTerm p = .ok (some (termTree t))

theorem noDigit_gap (b : Nat) (X : List Char) (h : b = 0 → NoDigit X) : NoDigit (gap b ++ X) := by
  cases b with
  | zero => exact h rfl
  | succ b => exact noDigit_cons _

theorem suffix_head (s : Suffix) (hs : s ≠ .none) (Z : List Char) : NoDigit (s.text ++ Z) := by
  cases s with
  | none => exact absurd rfl hs
  | _ => exact noDigit_cons _

theorem piece_ok {t : Term} (hT : Reads T t) (s : Suffix) (hok : s.ok = true) (b : Nat) (X : List Char)
    (hsk : skip X = X) (hX : NoSuffix X) (hnum : t.isNum = true → s = .none → b = 0 → NoDigit X) :
    ∃ q, Y T pieceExp (t.text ++ (s.text ++ (gap b ++ X))) (some ([q], gap b ++ X)) ∧
      parseTerm q = .ok (some (suffixTree s (termTree t))) := by
  by_cases hs : s = .none
  · subst hs
    obtain ⟨p, h1, h2⟩ := hT (gap b ++ X) (fun hn => noDigit_gap b X (hnum hn rfl))
    exact ⟨p, y_alt_right (repeat_fails_after h1 (by rw [skip_gap', hsk]) hX) h1, h2⟩
  · obtain ⟨p, h1, h2⟩ := hT (s.text ++ (gap b ++ X)) (fun _ => suffix_head s hs _)
    obtain ⟨q, h3, h4⟩ := repeat_ok s hs hok h1 h2
    exact ⟨q, y_alt_left h3, h4⟩

theorem bare_ok {t : Term} (hT : Reads T t) (b : Nat) (X : List Char) (hnum : t.isNum = true → b = 0 → NoDigit X) :
    ∃ q, Y T (.ref .term) (t.text ++ (gap b ++ X)) (some ([q], gap b ++ X)) ∧ parseTerm q = .ok (some (termTree t)) :=
  hT (gap b ++ X) fun hn => noDigit_gap b X (hnum hn)

/-- The expression reads the first term of the row, with its suffix, whatever follows the row. -/
def ReadsPiece (T : Nat) (e : Exp) (t : Term) (s : Suffix) : Prop := ∀ b X, skip X = X → NoSuffix X →
  (t.isNum = true → s = .none → b = 0 → NoDigit X) →
  ∃ q, Y T e (t.text ++ (s.text ++ (gap b ++ X))) (some ([q], gap b ++ X)) ∧
    parseTerm q = .ok (some (suffixTree s (termTree t)))

/-- Likewise for all terms of a row. -/
def ReadsPieces (T : Nat) (e : Exp) : Row → Prop
  | .last t s _ => ReadsPiece T e t s
  | .cons t s _ r => ReadsPiece T e t s ∧ ReadsPieces T e r

theorem parseTerms_append {ps qs : List Pair} {a b : List Ast} (h : parseTerms ps = .ok a) (k : parseTerms qs = .ok b) :
    parseTerms (ps ++ qs) = .ok (a ++ b) := by
  induction ps generalizing a with
  | nil => simp [parseTerms] at h; subst h; exact k
  | cons p ps ih =>
    simp only [parseTerms, List.cons_append] at h ⊢
    cases hp : parseTerm p with
    | error e => rw [hp] at h; cases h
    | ok r =>
      rw [hp] at h
      simp only [Except.bind] at h ⊢
      cases hq : parseTerms ps with
      | error e => rw [hq] at h; cases h
      | ok l =>
        rw [hq] at h
        rw [ih hq]
        cases r with
        | none => simp only [Except.map, Except.ok.injEq] at h ⊢; rw [h]
        | some x => simp only [Except.map, Except.ok.injEq] at h ⊢; rw [← h]; rfl

theorem parseTerms_one {p : Pair} {a : Ast} (h : parseTerm p = .ok (some a)) : parseTerms [p] = .ok [a] := by
  simp [parseTerms, h, Except.bind, Except.map]

theorem noSuffix_start {c : Char} (l : List Char) (h : startChar c = true) : NoSuffix (c :: l) := by
  intro d hd
  simp at hd; subst hd
  exact ⟨startChar_ne h _ rfl, startChar_ne h _ rfl, startChar_ne h _ rfl, startChar_ne h _ rfl⟩

theorem noSuffix_closing {R : List Char} (h : Closing R) : NoSuffix R := by
  intro c hc
  rcases h c hc with rfl | rfl | rfl | rfl <;> decide

theorem noDigit_closing {R : List Char} (h : Closing R) : NoDigit R := by
  intro c hc
  rcases h c hc with rfl | rfl | rfl | rfl <;> rfl

theorem startsNum_digit (r : Row) (h : r.ok = true) (hn : r.startsNum = false) (R : List Char) : NoDigit (r.text ++ R) := by
  have key : ∀ t : Term, t.ok = true → t.isNum = false → ∀ Z, NoDigit (t.text ++ Z) := by
    intro t ht hnt Z
    cases t with
    | chr c =>
      simp only [Term.ok] at ht
      refine noDigit_cons _ ?_
      unfold plainChar at ht
      simp only [Bool.or_eq_true, beq_iff_eq] at ht
      rcases ht with (ht | rfl) | rfl
      · cases hd : c.isDigit with
        | false => rfl
        | true =>
          simp only [Char.isAlpha, Char.isUpper, Char.isLower, Char.isDigit, Bool.or_eq_true, Bool.and_eq_true,
            decide_eq_true_eq, UInt32.le_iff_toNat_le] at ht hd
          simp at ht hd
          omega
      · rfl
      · rfl
    | num n => cases hnt
    | dot => exact noDigit_cons _
    | cls neg items => exact noDigit_cons _
    | group a => exact noDigit_cons _
    | bank kind letters => exact noDigit_cons _
    | part kind r => exact noDigit_cons _
  cases r with
  | last t s b =>
    simp only [Row.ok, Bool.and_eq_true] at h
    simp only [Row.text, List.append_assoc]
    exact key t h.1 hn _
  | cons t s b r =>
    simp only [Row.ok, Bool.and_eq_true] at h
    simp only [Row.text, List.append_assoc]
    exact key t h.1.1.1 hn _

theorem row_cons_num {t : Term} {s : Suffix} {b : Nat} {r : Row} (h : (Row.cons t s b r).ok = true) (R : List Char) :
    t.isNum = true → s = .none → b = 0 → NoDigit (r.text ++ R) := by
  intro h1 h2 h3
  simp only [Row.ok, Bool.and_eq_true] at h
  refine startsNum_digit r h.1.2 ?_ R
  have := h.2
  rw [h1, h2, h3] at this
  simpa using this

/-- A repetition reads a row. -/
theorem row_star {e : Exp} (r : Row) (hok : r.ok = true) (he : ReadsPieces T e r) {R : List Char} (hR : Closing R)
    (hf : Y T e R none) :
    ∃ ps R', Y T (.star e) (r.text ++ R) (some (ps, R')) ∧ skip R' = R ∧ ps ≠ [] ∧ parseTerms ps = .ok (rowTrees r) := by
  match r, hok, he with
  | .last t s b, hok, he =>
    obtain ⟨q, h1, h2⟩ := he b R (skip_closing hR) (noSuffix_closing hR) (fun _ _ _ => noDigit_closing hR)
    refine ⟨[q] ++ [], gap b ++ R, ?_, by rw [skip_gap', skip_closing hR], by simp, ?_⟩
    · simp only [Row.text, List.append_assoc]
      refine y_star_cons h1 (y_more_nil ?_)
      rw [between_false, skip_gap', skip_closing hR]
      exact hf
    · simpa [rowTrees] using parseTerms_one h2
  | .cons t s b r, hok, he =>
    have hr : r.ok = true := by simp only [Row.ok, Bool.and_eq_true] at hok; exact hok.1.2
    obtain ⟨c, l, hc, hst⟩ := row_start r hr
    have hX : r.text ++ R = c :: (l ++ R) := by rw [hc]; rfl
    have hsk : skip (r.text ++ R) = r.text ++ R := by rw [hX]; exact skip_start _ hst
    obtain ⟨q, h1, h2⟩ := he.1 b (r.text ++ R) hsk (by rw [hX]; exact noSuffix_start _ hst) (row_cons_num hok R)
    obtain ⟨ps, R', h3, h4, h5, h6⟩ := row_star r hr he.2 hR hf
    refine ⟨[q] ++ ps, R', ?_, h4, by simp, ?_⟩
    · simp only [Row.text, List.append_assoc]
      refine y_star_cons h1 (y_more_of_star h5 ?_)
      rw [between_false, skip_gap', hsk]
      exact h3
    · exact parseTerms_append (parseTerms_one h2) h6

/-- `e+` reads a row. -/
theorem row_plus {e : Exp} (r : Row) (hok : r.ok = true) (he : ReadsPieces T e r) {R : List Char} (hR : Closing R)
    (hf : Y T e R none) :
    ∃ ps R', Y T e.plus (r.text ++ R) (some (ps, R')) ∧ skip R' = R ∧ ps ≠ [] ∧ parseTerms ps = .ok (rowTrees r) := by
  match r, hok, he with
  | .last t s b, hok, he =>
    obtain ⟨q, h1, h2⟩ := he b R (skip_closing hR) (noSuffix_closing hR) (fun _ _ _ => noDigit_closing hR)
    refine ⟨[q] ++ [], R, ?_, skip_closing hR, by simp, ?_⟩
    · simp only [Row.text, List.append_assoc]
      refine y_seq h1 (l1 := gap b ++ R) ?_
      rw [between_false, skip_gap', skip_closing hR]
      exact y_star_nil hf
    · simpa [rowTrees] using parseTerms_one h2
  | .cons t s b r, hok, he =>
    have hr : r.ok = true := by simp only [Row.ok, Bool.and_eq_true] at hok; exact hok.1.2
    obtain ⟨c, l, hc, hst⟩ := row_start r hr
    have hX : r.text ++ R = c :: (l ++ R) := by rw [hc]; rfl
    have hsk : skip (r.text ++ R) = r.text ++ R := by rw [hX]; exact skip_start _ hst
    obtain ⟨q, h1, h2⟩ := he.1 b (r.text ++ R) hsk (by rw [hX]; exact noSuffix_start _ hst) (row_cons_num hok R)
    obtain ⟨ps, R', h3, h4, h5, h6⟩ := row_star r hr he.2 hR hf
    refine ⟨[q] ++ ps, R', ?_, h4, by simp, ?_⟩
    · simp only [Row.text, List.append_assoc]
      refine y_seq h1 ?_
      rw [between_false, skip_gap', hsk]
      exact h3
    · exact parseTerms_append (parseTerms_one h2) h6

/-- All terms of a row are read, by themselves. -/
def ReadsRow (T : Nat) : Row → Prop
  | .last t _ _ => Reads T t
  | .cons t _ _ r => Reads T t ∧ ReadsRow T r

theorem readsPieces_piece : ∀ (r : Row), r.ok = true → ReadsRow T r → ReadsPieces T pieceExp r
  | .last t s b, hok, h => by
    simp only [Row.ok, Bool.and_eq_true] at hok
    exact fun b X hsk hX hnum => piece_ok h s hok.2 b X hsk hX hnum
  | .cons t s b r, hok, h => by
    simp only [Row.ok, Bool.and_eq_true] at hok
    exact ⟨fun b X hsk hX hnum => piece_ok h.1 s hok.1.1.2 b X hsk hX hnum, readsPieces_piece r hok.1.2 h.2⟩

theorem readsPieces_bare : ∀ (r : Row), r.bare = true → ReadsRow T r → ReadsPieces T (.ref .term) r
  | .last t s b, hb, h => by
    have : s = .none := by simpa [Row.bare] using hb
    subst this
    exact fun b X _ _ hnum => bare_ok h b X fun hn => hnum hn rfl
  | .cons t s b r, hb, h => by
    have hb : s = .none ∧ r.bare = true := by simpa [Row.bare] using hb
    obtain ⟨h1, h2⟩ := hb
    subst h1
    exact ⟨fun b X _ _ hnum => bare_ok h.1 b X fun hn => hnum hn rfl, readsPieces_bare r h2 h.2⟩

/-- A `sequence` node reads a row. -/
theorem sequence_ok (r : Row) (hok : r.ok = true) (h : ReadsRow T r) {R : List Char} (hR : Closing R) :
    ∃ p R', Y T (node .sequence) (r.text ++ R) (some ([p], R')) ∧ skip R' = R ∧ p.rule = .sequence ∧
      parseTerm p = .ok (some (.seq (rowTrees r))) := by
  obtain ⟨ps, R', h1, h2, _, h4⟩ := row_plus r hok (readsPieces_piece r hok h) hR (piece_fails hR)
  obtain ⟨x, hx⟩ := node_ok (T := T) (r := .sequence) rfl h1
  refine ⟨_, R', hx, h2, rfl, ?_⟩
  simp [parseTerm, h4, Except.map]

/-! ### Alternatives -/

def ReadsAlts (T : Nat) : Alts → Prop
  | .one r => ReadsRow T r
  | .more r _ a => ReadsRow T r ∧ ReadsAlts T a

/-- `"|" ~ sequence` -/
def branchExp : Exp := .seq (lit "|") (node .sequence)

theorem closing_bar (l : List Char) : Closing ('|' :: l) := by
  intro c hc; simp at hc; subst hc; simp

theorem branch_fails {R : List Char} (h : ∀ c, R.head? = some c → c ≠ '|') : Y T branchExp R none :=
  y_seq_fail (lit_ne (t := []) rfl h)

theorem branch_ok (r : Row) (hok : r.ok = true) (h : ReadsRow T r) (b : Nat) {R : List Char} (hR : Closing R) :
    ∃ p R', Y T branchExp ('|' :: (gap b ++ (r.text ++ R))) (some ([p], R')) ∧ skip R' = R ∧
      parseTerm p = .ok (some (.seq (rowTrees r))) := by
  obtain ⟨p, R', h1, h2, _, h3⟩ := sequence_ok r hok h hR
  obtain ⟨c, l, hc, hst⟩ := row_start r hok
  refine ⟨p, R', ?_, h2, h3⟩
  refine then_ok (ps := []) (lit_ok (t := ['|']) rfl (gap b ++ (r.text ++ R))) (l1' := r.text ++ R) ?_ h1
  rw [skip_gap', hc]
  exact skip_start _ hst

theorem alts_star : ∀ (a : Alts) (_ : a.ok = true) (_ : ReadsAlts T a) (b : Nat) {R : List Char} (_ : Closing R)
    (_ : ∀ c, R.head? = some c → c ≠ '|'),
    ∃ ps R', Y T (.star branchExp) ('|' :: (gap b ++ (a.text ++ R))) (some (ps, R')) ∧ skip R' = R ∧ ps ≠ [] ∧
      parseTerms ps = .ok (altsTrees a)
  | .one r, hok, h, b, R, hR, hbar => by
    obtain ⟨p, R', h1, h2, h3⟩ := branch_ok r hok h b hR
    refine ⟨[p] ++ [], R', y_star_cons h1 (y_more_nil ?_), h2, by simp, by simpa [altsTrees] using parseTerms_one h3⟩
    rw [between_false, h2]
    exact branch_fails hbar
  | .more r b' a, hok, h, b, R, hR, hbar => by
    simp only [Alts.ok, Bool.and_eq_true] at hok
    obtain ⟨p, R1, h1, h2, h3⟩ := branch_ok r hok.1 h.1 b (closing_bar (gap b' ++ (a.text ++ R)))
    obtain ⟨ps, R', h4, h5, h6, h7⟩ := alts_star a hok.2 h.2 b' hR hbar
    refine ⟨[p] ++ ps, R', ?_, h5, by simp, parseTerms_append (parseTerms_one h3) h7⟩
    have e : (Alts.more r b' a).text ++ R = r.text ++ ('|' :: (gap b' ++ (a.text ++ R))) := by simp [Alts.text]
    rw [e]
    refine y_star_cons h1 (y_more_of_star h6 ?_)
    rw [between_false, h2]
    exact h4

/-- A `subexpression` reads alternatives. -/
theorem subexpression_ok : ∀ (a : Alts) (_ : a.ok = true) (_ : ReadsAlts T a) {R : List Char} (_ : Closing R)
    (_ : ∀ c, R.head? = some c → c ≠ '|'),
    ∃ p R', Y T (.ref .subexpression) (a.text ++ R) (some ([p], R')) ∧ skip R' = R ∧
      (p.rule = .sequence ∨ p.rule = .alternatives) ∧ parseTerm p = .ok (some (altsTree a))
  | .one r, hok, h, R, hR, hbar => by
    obtain ⟨p, R', h1, h2, h3, h4⟩ := sequence_ok r hok h hR
    refine ⟨p, R', ?_, h2, Or.inl h3, h4⟩
    refine y_subexpression (y_alt_right (y_node_fail (then_fail h1 h2 ?_)) h1)
    exact y_seq_fail (branch_fails hbar)
  | .more r b a, hok, h, R, hR, hbar => by
    simp only [Alts.ok, Bool.and_eq_true] at hok
    obtain ⟨p, R1, h1, h2, _, h4⟩ := sequence_ok r hok.1 h.1 (closing_bar (gap b ++ (a.text ++ R)))
    have e : (Alts.more r b a).text ++ R = r.text ++ ('|' :: (gap b ++ (a.text ++ R))) := by simp [Alts.text]
    rw [e]
    have key : ∃ ps R', Y T branchExp.plus ('|' :: (gap b ++ (a.text ++ R))) (some (ps, R')) ∧ skip R' = R ∧
        parseTerms ps = .ok (altsTrees a) := by
      match a, hok.2, h.2 with
      | .one r2, hok2, h2 =>
        obtain ⟨q, R', k1, k2, k3⟩ := branch_ok r2 hok2 h2 b hR
        refine ⟨[q] ++ [], R, ?_, skip_closing hR, by simpa [altsTrees] using parseTerms_one k3⟩
        refine then_ok k1 k2 (y_star_nil (branch_fails hbar))
      | .more r2 b2 a2, hok2, h2 =>
        simp only [Alts.ok, Bool.and_eq_true] at hok2
        obtain ⟨q, R2, k1, k2, k3⟩ := branch_ok r2 hok2.1 h2.1 b (closing_bar (gap b2 ++ (a2.text ++ R)))
        obtain ⟨ps, R', h4, h5, h6, h7⟩ := alts_star a2 hok2.2 h2.2 b2 hR hbar
        have e : (Alts.more r2 b2 a2).text ++ R = r2.text ++ ('|' :: (gap b2 ++ (a2.text ++ R))) := by simp [Alts.text]
        rw [e]
        exact ⟨[q] ++ ps, R', then_ok k1 k2 h4, h5, parseTerms_append (parseTerms_one k3) h7⟩
    obtain ⟨ps, R', k1, k2, k3⟩ := key
    obtain ⟨x, hx⟩ := node_ok (T := T) (r := .alternatives) rfl (then_ok h1 h2 k1)
    refine ⟨_, R', y_subexpression (y_alt_left hx), k2, Or.inr rfl, ?_⟩
    simp only [parseTerm]
    rw [parseTerms_append (parseTerms_one h4) k3]
    rfl

theorem closing_paren (l : List Char) : Closing (')' :: l) := by
  intro c hc; simp at hc; subst hc; simp

theorem closing_colon (l : List Char) : Closing (':' :: l) := by
  intro c hc; simp at hc; subst hc; simp

theorem group_ok (a : Alts) (hok : a.ok = true) (h : ReadsAlts T a) (Z : List Char) :
    ∃ p, Y T (.ref .group) ('(' :: (a.text ++ (')' :: Z))) (some ([p], Z)) ∧ parseTerm p = .ok (some (altsTree a)) := by
  obtain ⟨p, R', h1, h2, _, h4⟩ := subexpression_ok a hok h (closing_paren Z) ne_head
  obtain ⟨c, l, hc, hst⟩ := alts_start a hok
  refine ⟨p, y_group (then_ok (ps := []) (lit_ok (t := ['(']) rfl _) (l1' := a.text ++ (')' :: Z)) ?_
    (then_ok (qs := []) h1 h2 (lit_ok (t := [')']) rfl Z))), h4⟩
  rw [hc]; exact skip_start _ hst

/-- A group is not mistaken for something else when it ends with a colon. -/
theorem group_fails (r : Row) (hok : r.ok = true) (h : ReadsRow T r) (Z : List Char) :
    Y T (.ref .group) ('(' :: (r.text ++ (':' :: Z))) none := by
  obtain ⟨p, R', h1, h2, _, h4⟩ := subexpression_ok (.one r) hok h (closing_colon Z) ne_head
  obtain ⟨c, l, hc, hst⟩ := row_start r hok
  refine y_group (then_fail (ps := []) (lit_ok (t := ['(']) rfl _) (l1' := r.text ++ (':' :: Z)) ?_
    (then_fail h1 h2 (lit_ne (t := []) rfl ne_head)))
  rw [hc]; exact skip_start _ hst

theorem reads_group (a : Alts) (hok : a.ok = true) (h : ReadsAlts T a) : Reads T (.group a) := by
  intro Z _
  have e : (Term.group a).text ++ Z = '(' :: (a.text ++ (')' :: Z)) := by simp [Term.text]
  rw [e]
  obtain ⟨p, h1, h2⟩ := group_ok a hok h Z
  exact ⟨p, y_term (y_alt_right (f_cls ne_head) (y_alt_right (f_dot ne_head) (y_alt_left h1))), h2⟩

/-- The body of `substring`, `subset` and `superset`. -/
theorem part_ok (r : Row) (hok : r.ok = true) (hb : r.bare = true) (h : ReadsRow T r) (Z : List Char) {s : String}
    {t : List Char} (hs : s.toList = ':' :: t) :
    ∃ ps, Y T (.seq (lit "(") (.seq (Exp.ref .term).plus (lit s))) ('(' :: (r.text ++ (':' :: t ++ Z)))
      (some (ps, Z)) ∧ parseTerms ps = .ok (rowTrees r) := by
  obtain ⟨ps, R', h1, h2, _, h4⟩ := row_plus r hok (readsPieces_bare r hb h) (closing_colon (t ++ Z))
    (term_fails (closing_colon (t ++ Z)))
  obtain ⟨c, l, hc, hst⟩ := row_start r hok
  refine ⟨[] ++ (ps ++ []), then_ok (lit_ok (t := ['(']) rfl _) (l1' := r.text ++ (':' :: t ++ Z)) ?_
    (then_ok h1 h2 (lit_ok hs Z)), by simpa using h4⟩
  rw [hc]; exact skip_start _ hst

theorem part_fails (r : Row) (hok : r.ok = true) (hb : r.bare = true) (h : ReadsRow T r) (Z : List Char) {s : String}
    {a c : Char} {t : List Char} (hs : s.toList = ':' :: a :: t) (hne : c ≠ a) :
    Y T (.seq (lit "(") (.seq (Exp.ref .term).plus (lit s))) ('(' :: (r.text ++ (':' :: c :: Z))) none := by
  obtain ⟨ps, R', h1, h2, _, h4⟩ := row_plus r hok (readsPieces_bare r hb h) (closing_colon (c :: Z))
    (term_fails (closing_colon (c :: Z)))
  obtain ⟨d, l, hc, hst⟩ := row_start r hok
  refine then_fail (ps := []) (lit_ok (t := ['(']) rfl _) (l1' := r.text ++ (':' :: c :: Z)) ?_
    (then_fail h1 h2 (y_lit_fail ?_))
  · rw [hc]; exact skip_start _ hst
  · rw [hs, strip_eq]
    exact strip_ne hne

theorem reads_part (k : PartKind) (r : Row) (hok : r.ok = true) (hb : r.bare = true) (h : ReadsRow T r) :
    Reads T (.part k r) := by
  intro Z _
  cases k with
  | substring =>
    have e : (Term.part .substring r).text ++ Z = '(' :: (r.text ++ (':' :: ['^', ')'] ++ Z)) := by
      simp [Term.text, PartKind.text]
    rw [e]
    obtain ⟨ps, h1, h2⟩ := part_ok r hok hb h Z (s := ":^)") (t := ['^', ')']) rfl
    obtain ⟨x, hx⟩ := node_ok (T := T) (r := .substring) rfl h1
    refine ⟨_, y_term (y_alt_right (f_cls ne_head) (y_alt_right (f_dot ne_head) (y_alt_right (group_fails r hok h _)
      (skip_banks ne_head (y_alt_left hx))))), ?_⟩
    simp [parseTerm, h2, Except.map, termTree, partTree]
  | subset =>
    have e : (Term.part .subset r).text ++ Z = '(' :: (r.text ++ (':' :: ['-', ')'] ++ Z)) := by
      simp [Term.text, PartKind.text]
    rw [e]
    obtain ⟨ps, h1, h2⟩ := part_ok r hok hb h Z (s := ":-)") (t := ['-', ')']) rfl
    have f1 := y_node_fail (r := .substring) (at' := false)
      (part_fails r hok hb h ([')'] ++ Z) (s := ":^)") (a := '^') (c := '-') (t := [')']) rfl (by decide))
    obtain ⟨x, hx⟩ := node_ok (T := T) (r := .subset) rfl h1
    refine ⟨_, y_term (y_alt_right (f_cls ne_head) (y_alt_right (f_dot ne_head) (y_alt_right (group_fails r hok h _)
      (skip_banks ne_head (y_alt_right f1 (y_alt_left hx)))))), ?_⟩
    simp [parseTerm, h2, Except.map, termTree, partTree]
  | superset =>
    have e : (Term.part .superset r).text ++ Z = '(' :: (r.text ++ (':' :: ['+', ')'] ++ Z)) := by
      simp [Term.text, PartKind.text]
    rw [e]
    obtain ⟨ps, h1, h2⟩ := part_ok r hok hb h Z (s := ":+)") (t := ['+', ')']) rfl
    have f1 := y_node_fail (r := .substring) (at' := false)
      (part_fails r hok hb h ([')'] ++ Z) (s := ":^)") (a := '^') (c := '+') (t := [')']) rfl (by decide))
    have f2 := y_node_fail (r := .subset) (at' := false)
      (part_fails r hok hb h ([')'] ++ Z) (s := ":-)") (a := '-') (c := '+') (t := [')']) rfl (by decide))
    obtain ⟨x, hx⟩ := node_ok (T := T) (r := .superset) rfl h1
    refine ⟨_, y_term (y_alt_right (f_cls ne_head) (y_alt_right (f_dot ne_head) (y_alt_right (group_fails r hok h _)
      (skip_banks ne_head (y_alt_right f1 (y_alt_right f2 (y_alt_left hx))))))), ?_⟩
    simp [parseTerm, h2, Except.map, termTree, partTree]

/-! ### Characters, dots, numbers -/

theorem isAlpha_ne {c d : Char} (h : c.isAlpha = true) (hd : d.isAlpha = false := by decide) : c ≠ d := by
  intro e; subst e; rw [h] at hd; cases hd

theorem alpha_not_digit {c : Char} (ht : c.isAlpha = true) : c.isDigit = false := by
  cases hd : c.isDigit with
  | false => rfl
  | true =>
    simp only [Char.isAlpha, Char.isUpper, Char.isLower, Char.isDigit, Bool.or_eq_true, Bool.and_eq_true,
      decide_eq_true_eq, UInt32.le_iff_toNat_le] at ht hd
    simp at ht hd
    omega

/-- A `character` node. -/
theorem character_ok (c : Char) (h : (plainChar c || c == '.') = true) (Z : List Char) :
    ∃ ps, Y T (node .character) (c :: Z) (some ([.mk .character [c] ps], Z)) := by
  have key : ∃ ps, Y T (grammar (.vis .character)).2 (c :: Z) (some (ps, Z)) := by
    by_cases h1 : c.isAlpha = true
    · exact ⟨[], y_alt_left (y_chr h1)⟩
    · have h1 : c.isAlpha = false := by simpa using h1
      have f1 : Y T alphaChar (c :: Z) none := y_chr_fail fun d hd => by simp at hd; subst hd; exact h1
      simp only [plainChar, h1, Bool.false_or, Bool.or_eq_true, beq_iff_eq] at h
      rcases h with (rfl | rfl) | rfl
      · exact ⟨[], y_alt_right f1 (y_alt_right (f_dot ne_head) (y_alt_left (lit_ok (t := ['\'']) rfl Z)))⟩
      · exact ⟨[], y_alt_right f1 (y_alt_right (f_dot ne_head) (y_alt_right (lit_ne (a := '\'') (t := []) rfl ne_head)
          (lit_ok (t := ['_']) rfl Z)))⟩
      · obtain ⟨x, hx⟩ := node_ok (T := T) (r := .dot) rfl (lit_ok (t := ['.']) rfl Z)
        exact ⟨_, y_alt_right f1 (y_alt_left hx)⟩
  obtain ⟨ps, hps⟩ := key
  refine ⟨ps, ?_⟩
  have := y_node (r := .character) rfl hps
  rwa [show (c :: Z).take ((c :: Z).length - Z.length) = [c] from take_app [c] Z] at this

theorem reads_chr (c : Char) (h : plainChar c = true) : Reads T (.chr c) := by
  intro Z _
  obtain ⟨ps, hps⟩ := character_ok (T := T) c (by simp [h]) Z
  have hst := plainChar_start h
  have key : ∀ d, plainChar d = false → ∀ e, (c :: Z).head? = some e → e ≠ d := by
    intro d hd e he
    simp at he; subst he
    intro e; subst e; rw [h] at hd; cases hd
  refine ⟨_, y_term (y_alt_right (f_cls (key _ rfl)) (y_alt_right (f_dot (key _ rfl)) (y_alt_right
    (f_group (key _ rfl)) (skip_banks (key _ rfl) (skip_parts (key _ rfl) (y_alt_right (y_number_fail _ ?_) hps)))))),
    by simp [parseTerm, termTree]⟩
  refine noDigit_cons _ ?_
  unfold plainChar at h
  simp only [Bool.or_eq_true, beq_iff_eq] at h
  rcases h with (h | rfl) | rfl
  · exact alpha_not_digit h
  · rfl
  · rfl

theorem reads_dot : Reads T .dot := by
  intro Z _
  obtain ⟨x, hx⟩ := node_ok (T := T) (r := .dot) rfl (lit_ok (t := ['.']) rfl Z)
  exact ⟨_, y_term (y_alt_right (f_cls ne_head) (y_alt_left hx)), by simp [parseTerm, termTree]⟩

theorem reads_num (n : Nat) (h : n < 2 ^ 64) : Reads T (.num n) := by
  intro Z hZ
  have key : ∀ d, d.isDigit = false → ∀ e, (digits n ++ Z).head? = some e → e ≠ d :=
    fun d hd => digits_ne_head n Z hd
  refine ⟨_, y_term (y_alt_right (f_cls (key _ rfl)) (y_alt_right (f_dot (key _ rfl)) (y_alt_right
    (f_group (key _ rfl)) (skip_banks (key _ rfl) (skip_parts (key _ rfl) (y_alt_left (y_num n (hZ rfl)))))))), ?_⟩
  simp [parseTerm, termTree, parseUsize_digits n h]

/-! ### Classes -/

/-- `letter_range | character` -/
def itemExp : Exp := .alt (node .letterRange) (node .character)

theorem skip_dash (c : Char) (l : List Char) (h : c ≠ '-') : skip ('-' :: c :: l) = '-' :: c :: l := by
  unfold skip
  have : List.dropWhile (fun x => x == ' ') ('-' :: c :: l) = '-' :: c :: l := by
    rw [List.dropWhile_cons]; simp
  simp only [this]
  have hc : comment ('-' :: c :: l) = none := by
    have e1 : ("//".toList : List Char) = ['/', '/'] := rfl
    have e2 : ("--".toList : List Char) = ['-', '-'] := rfl
    have h3 : ¬ '-' = c := fun e => h e.symm
    simp [comment, e1, e2, stripPrefix, h3]
  rw [hc]; rfl

theorem alpha_start {c : Char} (h : c.isAlpha = true) : startChar c = true := by unfold startChar; simp [h]

/-- An item of a class, read in a context that does not start with `-`. -/
theorem item_ok (i : Item) (hok : i.ok = true) (Z : List Char) (hs : skip Z = Z) (hd : ∀ c, Z.head? = some c → c ≠ '-') :
    ∃ p, Y T itemExp (i.text ++ Z) (some ([p], Z)) ∧ p.rule ≠ .invert ∧
      ∀ st, classItem st p = .ok (st.1, st.2.union (itemSet i)) := by
  cases i with
  | one c =>
    obtain ⟨ps, hps⟩ := character_ok (T := T) c hok Z
    refine ⟨_, y_alt_right (y_node_fail ?_) hps, by simp [Pair.rule], by intro st; simp [classItem, Pair.rule, Pair.text, itemSet]⟩
    by_cases h1 : c.isAlpha = true
    · exact then_fail (y_chr h1) hs (y_seq_fail (lit_ne (t := []) rfl hd))
    · have h1 : c.isAlpha = false := by simpa using h1
      exact y_seq_fail (y_chr_fail fun d hd => by simp [Item.text] at hd; subst hd; exact h1)
  | range lo hi =>
    simp only [Item.ok, Bool.and_eq_true] at hok
    have key : Y T (grammar (.vis .letterRange)).2 (lo :: '-' :: hi :: Z) (some ([] ++ ([] ++ []), Z)) :=
      then_ok (y_chr hok.1) (skip_dash hi Z (isAlpha_ne hok.2)) (then_ok (lit_ok (t := ['-']) rfl (hi :: Z))
        (skip_start _ (alpha_start hok.2)) (y_chr hok.2))
    have := y_node (r := .letterRange) rfl key
    rw [show (lo :: '-' :: hi :: Z).take ((lo :: '-' :: hi :: Z).length - Z.length) = [lo, '-', hi] from
      take_app [lo, '-', hi] Z] at this
    exact ⟨_, y_alt_left this, by simp [Pair.rule], by intro st; simp [classItem, Pair.rule, Pair.text, itemSet]⟩

theorem item_start (i : Item) (hok : i.ok = true) : ∃ c l, i.text = c :: l ∧ startChar c = true := by
  cases i with
  | one c =>
    refine ⟨c, [], rfl, ?_⟩
    simp only [Item.ok, Bool.or_eq_true, beq_iff_eq] at hok
    rcases hok with h | rfl
    · exact plainChar_start h
    · rfl
  | range lo hi =>
    simp only [Item.ok, Bool.and_eq_true] at hok
    exact ⟨lo, _, rfl, alpha_start hok.1⟩

/-- The text after an item starts with another item or with the bracket. -/
theorem items_head (items : List Item) (hok : items.all Item.ok = true) (Z : List Char) :
    ∃ c l, items.flatMap Item.text ++ (']' :: Z) = c :: l ∧ skip (c :: l) = c :: l ∧ c ≠ '-' ∧ c ≠ '^' := by
  cases items with
  | nil => exact ⟨']', Z, rfl, sk _, by decide, by decide⟩
  | cons i items =>
    simp only [List.all_cons, Bool.and_eq_true] at hok
    obtain ⟨c, l, h1, h2⟩ := item_start i hok.1
    refine ⟨c, l ++ (items.flatMap Item.text ++ (']' :: Z)), by simp [h1], skip_start _ h2, startChar_ne h2 _ rfl,
      startChar_ne h2 _ rfl⟩

theorem item_fails (Z : List Char) : Y T itemExp (']' :: Z) none :=
  y_alt_right (y_node_fail (y_seq_fail (y_chr_fail fun c hc => by simp at hc; subst hc; rfl)))
    (char_node_fails fun c hc => by simp at hc; subst hc; decide)

theorem items_more : ∀ (items : List Item) (_ : items.all Item.ok = true) (Z : List Char),
    ∃ ps, Y T (.more itemExp) (items.flatMap Item.text ++ (']' :: Z)) (some (ps, ']' :: Z)) ∧
      ∀ st : Bool × CharSet, ps.foldlM classItem st =
        .ok (st.1, items.foldl (fun s i => s.union (itemSet i)) st.2)
  | [], _, Z => by
    refine ⟨[], y_more_nil ?_, fun st => rfl⟩
    rw [between_false]
    show Y T itemExp (skip (']' :: Z)) none
    rw [sk]
    exact item_fails Z
  | i :: items, hok, Z => by
    simp only [List.all_cons, Bool.and_eq_true] at hok
    obtain ⟨c, l, h1, h2, h3, _⟩ := items_head items hok.2 Z
    obtain ⟨p, h4, h5, h6⟩ := item_ok (T := T) i hok.1 (items.flatMap Item.text ++ (']' :: Z)) (by rw [h1, h2])
      (by rw [h1]; intro d hd; simp at hd; subst hd; exact h3)
    obtain ⟨ps, h7, h8⟩ := items_more items hok.2 Z
    obtain ⟨d, l', h9, h10⟩ := item_start i hok.1
    refine ⟨[p] ++ ps, ?_, ?_⟩
    · rw [List.flatMap_cons, List.append_assoc]
      refine y_more_cons ?_ h7
      rw [between_false, h9, List.cons_append, skip_start _ h10]
      rw [h9] at h4
      exact h4
    · intro st
      show (classItem st p >>= fun s => ps.foldlM classItem s) = _
      rw [h6 st]
      exact h8 _

theorem items_ok (items : List Item) (hne : items ≠ []) (hok : items.all Item.ok = true) (Z : List Char) :
    ∃ ps, Y T itemExp.plus (items.flatMap Item.text ++ (']' :: Z)) (some (ps, ']' :: Z)) ∧
      (∀ p, ps.head? = some p → p.rule ≠ .invert) ∧
      ∀ st : Bool × CharSet, ps.foldlM classItem st =
        .ok (st.1, items.foldl (fun s i => s.union (itemSet i)) st.2) := by
  cases items with
  | nil => exact absurd rfl hne
  | cons i items =>
    simp only [List.all_cons, Bool.and_eq_true] at hok
    obtain ⟨c, l, h1, h2, h3, _⟩ := items_head items hok.2 Z
    obtain ⟨p, h4, h5, h6⟩ := item_ok (T := T) i hok.1 (items.flatMap Item.text ++ (']' :: Z)) (by rw [h1, h2])
      (by rw [h1]; intro d hd; simp at hd; subst hd; exact h3)
    have hrest : ∃ ps, Y T (.star itemExp) (items.flatMap Item.text ++ (']' :: Z)) (some (ps, ']' :: Z)) ∧
        ∀ st : Bool × CharSet, ps.foldlM classItem st =
          .ok (st.1, items.foldl (fun s i => s.union (itemSet i)) st.2) := by
      cases items with
      | nil => exact ⟨[], y_star_nil (item_fails Z), fun st => rfl⟩
      | cons j items =>
        simp only [List.all_cons, Bool.and_eq_true] at hok
        obtain ⟨c, l, h1, h2, h3, _⟩ := items_head items hok.2.2 Z
        obtain ⟨p, h4, h5, h6⟩ := item_ok (T := T) j hok.2.1 (items.flatMap Item.text ++ (']' :: Z)) (by rw [h1, h2])
          (by rw [h1]; intro d hd; simp at hd; subst hd; exact h3)
        obtain ⟨ps, h7, h8⟩ := items_more items hok.2.2 Z
        refine ⟨[p] ++ ps, ?_, ?_⟩
        · rw [List.flatMap_cons, List.append_assoc]
          exact y_star_cons h4 h7
        · intro st
          show (classItem st p >>= fun s => ps.foldlM classItem s) = _
          rw [h6 st]
          exact h8 _
    obtain ⟨ps, h7, h8⟩ := hrest
    refine ⟨[p] ++ ps, ?_, ?_, ?_⟩
    · rw [List.flatMap_cons, List.append_assoc]
      exact then_ok h4 (by rw [h1, h2]) h7
    · intro q hq; simp at hq; subst hq; exact h5
    · intro st
      show (classItem st p >>= fun s => ps.foldlM classItem s) = _
      rw [h6 st]
      exact h8 _

theorem parseClass_plain {ps : List Pair} {items : List Item} (h2 : ∀ p, ps.head? = some p → p.rule ≠ .invert)
    (h3 : ∀ st : Bool × CharSet, ps.foldlM classItem st = .ok (st.1, items.foldl (fun s i => s.union (itemSet i)) st.2)) :
    parseClass ps = .ok (itemsSet items) := by
  cases ps with
  | nil => simp only [parseClass, h3]; rfl
  | cons p ps =>
    simp only [parseClass, h2 p rfl, if_false, h3]
    rfl

theorem reads_cls (neg : Bool) (items : List Item) (hne : items ≠ []) (hok : items.all Item.ok = true) :
    Reads T (.cls neg items) := by
  intro Z _
  obtain ⟨ps, h1, h2, h3⟩ := items_ok (T := T) items hne hok Z
  obtain ⟨c, l, h4, h5, h6, h7⟩ := items_head items hok Z
  cases neg with
  | false =>
    have e : (Term.cls false items).text ++ Z = '[' :: (items.flatMap Item.text ++ (']' :: Z)) := by simp [Term.text]
    rw [e]
    have hinv : Y T (.opt (node .invert)) (items.flatMap Item.text ++ (']' :: Z))
        (some ([], items.flatMap Item.text ++ (']' :: Z))) := by
      have := y_opt (body := grammar) (T := T) (at' := false) (a := node .invert) (r := none)
        (y_node_fail (lit_ne (T := T) (s := "^") (a := '^') (t := []) rfl
          (l := items.flatMap Item.text ++ (']' :: Z)) (by rw [h4]; exact ne_head h7)))
      exact this
    obtain ⟨x, hx⟩ := node_ok (T := T) (r := .cls) rfl (then_ok (lit_ok (t := ['[']) rfl (items.flatMap Item.text ++ (']' :: Z)))
      (by rw [h4, h5]) (then_ok hinv (by rw [h4, h5]) (then_ok h1 (sk _) (lit_ok (t := [']']) rfl Z))))
    refine ⟨_, y_term (y_alt_left hx), ?_⟩
    simp only [parseTerm, termTree, List.nil_append, List.append_nil]
    have := parseClass_plain h2 h3
    rw [this]
    rfl
  | true =>
    have e : (Term.cls true items).text ++ Z = '[' :: '^' :: (items.flatMap Item.text ++ (']' :: Z)) := by simp [Term.text]
    rw [e]
    obtain ⟨y, hy⟩ := node_ok (T := T) (r := .invert) rfl (lit_ok (t := ['^']) rfl (items.flatMap Item.text ++ (']' :: Z)))
    have hinv := y_opt hy
    obtain ⟨x, hx⟩ := node_ok (T := T) (r := .cls) rfl (then_ok (lit_ok (t := ['[']) rfl _)
      (sk _) (then_ok hinv (by rw [h4, h5]) (then_ok h1 (sk _) (lit_ok (t := [']']) rfl Z))))
    refine ⟨_, y_term (y_alt_left hx), ?_⟩
    simp only [parseTerm, termTree, List.nil_append, List.append_nil]
    have : parseClass ([Pair.mk .invert y []] ++ ps) = .ok (itemsSet items).invert := by
      unfold parseClass
      simp only [List.cons_append, List.nil_append, Pair.rule, if_true, h3]
      rfl
    rw [this]
    rfl

/-! ### Anagram blocks -/

theorem letters_more : ∀ (ls : List Char) (_ : ls.all Char.isAlpha = true) (Z : List Char) (_ : skip Z = Z)
    (_ : ∀ c, Z.head? = some c → c.isAlpha = false), Y T (.more alphaChar) (ls ++ Z) (some ([], Z))
  | [], _, Z, hs, hZ => by
    refine y_more_nil ?_
    rw [between_false]
    show Y T alphaChar (skip Z) none
    rw [hs]
    exact y_chr_fail hZ
  | c :: ls, hok, Z, hs, hZ => by
    simp only [List.all_cons, Bool.and_eq_true] at hok
    refine y_more_cons (ps := []) (qs := []) (l1 := ls ++ Z) ?_ (letters_more ls hok.2 Z hs hZ)
    rw [between_false, List.cons_append, skip_start _ (alpha_start hok.1)]
    exact y_chr hok.1

theorem body_ok (ls : List Char) (hne : ls ≠ []) (hok : ls.all Char.isAlpha = true) (Z : List Char) (hs : skip Z = Z)
    (hZ : ∀ c, Z.head? = some c → c.isAlpha = false) :
    Y T (node .anagramBody) (ls ++ Z) (some ([.mk .anagramBody ls []], Z)) := by
  have key : Y T (grammar (.vis .anagramBody)).2 (ls ++ Z) (some ([], Z)) := by
    match ls, hne, hok with
    | [c], _, hok =>
      simp only [List.all_cons, Bool.and_eq_true] at hok
      exact then_ok (ps := []) (qs := []) (y_chr hok.1) hs (y_star_nil (y_chr_fail hZ))
    | c :: d :: ls, _, hok =>
      simp only [List.all_cons, Bool.and_eq_true] at hok
      exact then_ok (ps := []) (qs := []) (y_chr hok.1) (skip_start _ (alpha_start hok.2.1))
        (y_star_cons (ps := []) (qs := []) (y_chr hok.2.1) (letters_more ls (by simpa using hok.2.2) Z hs hZ))
  have := y_node (r := .anagramBody) rfl key
  rwa [take_app] at this

theorem skip_letters (ls : List Char) (hne : ls ≠ []) (hok : ls.all Char.isAlpha = true) (Z : List Char) :
    skip (ls ++ Z) = ls ++ Z := by
  cases ls with
  | nil => exact absurd rfl hne
  | cons c ls =>
    simp only [List.all_cons, Bool.and_eq_true] at hok
    exact skip_start _ (alpha_start hok.1)

section banks
variable (ls : List Char) (hne : ls ≠ []) (hok : ls.all Char.isAlpha = true)
include hne hok

theorem bank_then {e : Exp} {X Z : List Char} {qs : List Pair} (hs : skip X = X)
    (hX : ∀ c, X.head? = some c → c.isAlpha = false) (h : Y T e X (some (qs, Z))) :
    Y T (.seq (lit "<") (.seq (node .anagramBody) e)) ('<' :: (ls ++ X)) (some ([.mk .anagramBody ls []] ++ qs, Z)) :=
  then_ok (ps := []) (lit_ok (t := ['<']) rfl _) (skip_letters ls hne hok X) (then_ok (body_ok ls hne hok X hs hX) hs h)

theorem bank_fail {e : Exp} {X : List Char} (hs : skip X = X)
    (hX : ∀ c, X.head? = some c → c.isAlpha = false) (h : Y T e X none) :
    Y T (.seq (lit "<") (.seq (node .anagramBody) e)) ('<' :: (ls ++ X)) none :=
  then_fail (ps := []) (lit_ok (t := ['<']) rfl _) (skip_letters ls hne hok X) (then_fail (body_ok ls hne hok X hs hX) hs h)
end banks

theorem skip_minus_digits (n : Nat) (Z : List Char) : skip ('-' :: (digits n ++ Z)) = '-' :: (digits n ++ Z) := by
  obtain ⟨c, k, h1, h2⟩ := digits_start n
  rw [h1]
  refine skip_dash c (k ++ Z) ?_
  intro e; subst e; cases h2

theorem second_ne {s : String} {a b : Char} {t : List Char} (hs : s.toList = a :: b :: t) {l : List Char}
    (h : ∀ c, l.head? = some c → c ≠ b) : Y T (lit s) (a :: l) none := by
  refine y_lit_fail ?_
  rw [hs, strip_eq]
  cases l with
  | nil => rfl
  | cons c l => exact strip_ne (h c rfl)

theorem reads_bank (k : AnagramKind) (ls : List Char) (hk : bankOk k = true) (hne : ls ≠ [])
    (hok : ls.all Char.isAlpha = true) : Reads T (.bank k ls) := by
  intro Z _
  have nal : ∀ (c : Char) (l : List Char), c.isAlpha = false → ∀ d, (c :: l).head? = some d → d.isAlpha = false := by
    intro c l hc d hd; simp at hd; subst hd; exact hc
  have enter : ∀ {X : List Char} {q : List Pair × List Char},
      Y T (.alt (node .anagram) (.alt (node .superanagram) (.alt (node .subanagram) (.alt (node .transadd)
        (.alt (node .transdelete) (.alt (node .substring) (.alt (node .subset) (.alt (node .superset)
          (.alt (node .number) (node .character))))))))))
        ('<' :: (ls ++ X)) (some q) → Y T (.ref .term) ('<' :: (ls ++ X)) (some q) := fun h =>
    y_term (y_alt_right (f_cls ne_head) (y_alt_right (f_dot ne_head) (y_alt_right (f_group ne_head) h)))
  cases k with
  | standard =>
    have e : (Term.bank .standard ls).text ++ Z = '<' :: (ls ++ ('>' :: Z)) := by simp [Term.text, bankText]
    rw [e]
    obtain ⟨x, hx⟩ := node_ok (T := T) (r := .anagram) rfl (bank_then ls hne hok (sk _) (nal '>' Z rfl)
      (lit_ok (t := ['>']) rfl Z))
    refine ⟨_, enter (y_alt_left hx), ?_⟩
    simp [parseTerm, parseAnagramTerm, parseAnagram, parseNumbers, Pair.rule, Pair.text, Except.bind, Except.map,
      termTree, clampKind]
  | super =>
    have e : (Term.bank .super ls).text ++ Z = '<' :: (ls ++ ('+' :: '>' :: Z)) := by simp [Term.text, bankText]
    rw [e]
    have f1 := y_node_fail (r := .anagram) (at' := false) (bank_fail ls hne hok (X := '+' :: '>' :: Z) (sk _) (nal '+' _ rfl)
      (lit_ne (T := T) (s := ">") (t := []) rfl ne_head))
    obtain ⟨x, hx⟩ := node_ok (T := T) (r := .superanagram) rfl (bank_then ls hne hok (sk _) (nal '+' _ rfl)
      (lit_ok (t := ['+', '>']) rfl Z))
    refine ⟨_, enter (y_alt_right f1 (y_alt_left hx)), ?_⟩
    simp [parseTerm, parseAnagramTerm, parseAnagram, parseNumbers, Pair.rule, Pair.text, Except.bind, Except.map,
      termTree, clampKind]
  | sub =>
    have e : (Term.bank .sub ls).text ++ Z = '<' :: (ls ++ ('-' :: '>' :: Z)) := by simp [Term.text, bankText]
    rw [e]
    have hs : skip ('-' :: '>' :: Z) = '-' :: '>' :: Z := skip_dash _ _ (by decide)
    have f1 := y_node_fail (r := .anagram) (at' := false) (bank_fail ls hne hok (X := '-' :: '>' :: Z) hs (nal '-' _ rfl)
      (lit_ne (T := T) (s := ">") (t := []) rfl ne_head))
    have f2 := y_node_fail (r := .superanagram) (at' := false) (bank_fail ls hne hok (X := '-' :: '>' :: Z) hs (nal '-' _ rfl)
      (lit_ne (T := T) (s := "+>") (t := ['>']) rfl ne_head))
    obtain ⟨x, hx⟩ := node_ok (T := T) (r := .subanagram) rfl (bank_then ls hne hok hs (nal '-' _ rfl)
      (lit_ok (t := ['-', '>']) rfl Z))
    refine ⟨_, enter (y_alt_right f1 (y_alt_right f2 (y_alt_left hx))), ?_⟩
    simp [parseTerm, parseAnagramTerm, parseAnagram, parseNumbers, Pair.rule, Pair.text, Except.bind, Except.map,
      termTree, clampKind]
  | transAdd n =>
    have hn : n < 2 ^ 64 := by simpa [bankOk] using hk
    have e : (Term.bank (.transAdd n) ls).text ++ Z = '<' :: (ls ++ ('+' :: (digits n ++ ('>' :: Z)))) := by
      simp [Term.text, bankText]
    rw [e]
    have f1 := y_node_fail (r := .anagram) (at' := false) (bank_fail ls hne hok (X := '+' :: (digits n ++ ('>' :: Z))) (sk _)
      (nal '+' _ rfl) (lit_ne (T := T) (s := ">") (t := []) rfl ne_head))
    have f2 := y_node_fail (r := .superanagram) (at' := false) (bank_fail ls hne hok (X := '+' :: (digits n ++ ('>' :: Z)))
      (sk _) (nal '+' _ rfl) (second_ne (T := T) (s := "+>") (t := []) rfl (digits_ne_head n _ rfl)))
    have f3 := y_node_fail (r := .subanagram) (at' := false) (bank_fail ls hne hok (X := '+' :: (digits n ++ ('>' :: Z)))
      (sk _) (nal '+' _ rfl) (lit_ne (T := T) (s := "->") (t := ['>']) rfl ne_head))
    obtain ⟨x, hx⟩ := node_ok (T := T) (r := .transadd) rfl (bank_then ls hne hok (sk _) (nal '+' _ rfl)
      (then_ok (lit_ok (t := ['+']) rfl (digits n ++ ('>' :: Z))) (skip_digits n _) (then_ok (y_num n (noDigit_cons _)) (sk _)
        (lit_ok (t := ['>']) rfl Z))))
    refine ⟨_, enter (y_alt_right f1 (y_alt_right f2 (y_alt_right f3 (y_alt_left hx)))), ?_⟩
    simp [parseTerm, parseAnagramTerm, parseAnagram, Pair.rule, Pair.text, Except.bind, Except.map,
      termTree, clampKind, parseNumbers_one n hn]
  | transDelete n =>
    have hn : n < 2 ^ 64 := by simpa [bankOk] using hk
    have e : (Term.bank (.transDelete n) ls).text ++ Z = '<' :: (ls ++ ('-' :: (digits n ++ ('>' :: Z)))) := by
      simp [Term.text, bankText]
    rw [e]
    have hs := skip_minus_digits n ('>' :: Z)
    have f1 := y_node_fail (r := .anagram) (at' := false) (bank_fail ls hne hok (X := '-' :: (digits n ++ ('>' :: Z))) hs
      (nal '-' _ rfl) (lit_ne (T := T) (s := ">") (t := []) rfl ne_head))
    have f2 := y_node_fail (r := .superanagram) (at' := false) (bank_fail ls hne hok (X := '-' :: (digits n ++ ('>' :: Z)))
      hs (nal '-' _ rfl) (lit_ne (T := T) (s := "+>") (t := ['>']) rfl ne_head))
    have f3 := y_node_fail (r := .subanagram) (at' := false) (bank_fail ls hne hok (X := '-' :: (digits n ++ ('>' :: Z)))
      hs (nal '-' _ rfl) (second_ne (T := T) (s := "->") (t := []) rfl (digits_ne_head n _ rfl)))
    have f4 := y_node_fail (r := .transadd) (at' := false) (bank_fail ls hne hok (X := '-' :: (digits n ++ ('>' :: Z)))
      hs (nal '-' _ rfl) (y_seq_fail (b := .seq (node .number) (lit ">")) (lit_ne (T := T) (s := "+") (t := []) rfl ne_head)))
    obtain ⟨x, hx⟩ := node_ok (T := T) (r := .transdelete) rfl (bank_then ls hne hok hs (nal '-' _ rfl)
      (then_ok (lit_ok (t := ['-']) rfl (digits n ++ ('>' :: Z))) (skip_digits n _) (then_ok (y_num n (noDigit_cons _)) (sk _)
        (lit_ok (t := ['>']) rfl Z))))
    refine ⟨_, enter (y_alt_right f1 (y_alt_right f2 (y_alt_right f3 (y_alt_right f4 (y_alt_left hx))))), ?_⟩
    simp [parseTerm, parseAnagramTerm, parseAnagram, Pair.rule, Pair.text, Except.bind, Except.map,
      termTree, clampKind, parseNumbers_one n hn]

/-! ### Everything -/

mutual
theorem reads_term : ∀ t : Term, t.ok = true → Reads T t
  | .chr c, h => reads_chr c (by simpa [Term.ok] using h)
  | .dot, _ => reads_dot
  | .cls neg items, h => by
    simp only [Term.ok, Bool.and_eq_true, Bool.not_eq_true', List.isEmpty_eq_false_iff] at h
    exact reads_cls neg items h.1 h.2
  | .num n, h => reads_num n (by simpa [Term.ok] using h)
  | .group a, h => reads_group a (by simpa [Term.ok] using h) (reads_alts a (by simpa [Term.ok] using h))
  | .bank k ls, h => by
    simp only [Term.ok, Bool.and_eq_true, Bool.not_eq_true', List.isEmpty_eq_false_iff] at h
    exact reads_bank k ls h.1.1 h.1.2 h.2
  | .part k r, h => by
    simp only [Term.ok, Bool.and_eq_true] at h
    exact reads_part k r h.1 h.2 (reads_row r h.1)
theorem reads_row : ∀ r : Row, r.ok = true → ReadsRow T r
  | .last t s b, h => by
    simp only [Row.ok, Bool.and_eq_true] at h
    exact reads_term t h.1
  | .cons t s b r, h => by
    simp only [Row.ok, Bool.and_eq_true] at h
    exact ⟨reads_term t h.1.1.1, reads_row r h.1.2⟩
theorem reads_alts : ∀ a : Alts, a.ok = true → ReadsAlts T a
  | .one r, h => reads_row r (by simpa [Alts.ok] using h)
  | .more r b a, h => by
    simp only [Alts.ok, Bool.and_eq_true] at h
    exact ⟨reads_row r h.1, reads_alts a h.2⟩
end

end Noodle
