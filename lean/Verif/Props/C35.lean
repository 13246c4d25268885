import Verif.Props.C46
import Mathlib.Tactic.Tauto
/-
C02 (character classes), C35 (enumerations), C37 (subset, superset, substring): what a query line of this kind matches.
-/
namespace Noodle
open Spec
set_option autoImplicit false

/-- The text `text` is an expression that is parsed, rewritten and compiled, and the compiled automata all match a phrase
(given by its symbols) exactly when `P` holds of it. -/
def Spec.TextMatches (text : List Char) (P : List Ch → Prop) : Prop :=
  ∃ e ex es, ExprAst.ofText text = .ok (some e) ∧ expandExpressions [e] = .ok ex ∧ ex.mapM fromAst = .ok es ∧
    ∀ w, (∀ x ∈ es, Matches x w) ↔ P w

theorem one_exact {b : Nat} {a : Alts} {fs : List (Flag × Nat)} (ha : a.ok = true) (hf : (fs.all fun f => f.1.ok) = true)
    (h : Handled (exprOf a fs)) : TextMatches (exprText b a fs) (NearlyDescribes a fs) := by
  obtain ⟨ex, es, h1, _, h3, h4⟩ := handled_near h
  exact ⟨_, ex, es, ofText_ok b a fs ha hf, h1, h3, fun w => by rw [h4 w, near_describes ha]⟩

/-- The same for an expression without fuzz. -/
theorem one_exact' {b : Nat} {a : Alts} {fs : List (Flag × Nat)} (ha : a.ok = true) (hf : (fs.all fun f => f.1.ok) = true)
    (h0 : (lastFuzz fs).getD 0 = 0) (h : Handled (exprOf a fs)) : TextMatches (exprText b a fs) (Describes a fs) := by
  obtain ⟨e, ex, es, h1, h2, h3, h4⟩ := one_exact (b := b) ha hf h
  exact ⟨e, ex, es, h1, h2, h3, fun w => by rw [h4 w, nearly_exact h0]⟩

/-! ### C02 -/

theorem empty_class : ∃ E, fromAst { root := .seq [.cls CharSet.empty], options := {} } = .ok E ∧ E.fuzz = 0 ∧
    ∀ u, ¬ Accepts E u := by
  refine ⟨{ states := [⟨1, CharSet.empty, 1⟩, ⟨2, CharSet.ofCh 27, 1⟩], ignWB := true, ignPunct := true, fuzz := 0 },
    by decide +kernel, rfl, ?_⟩
  rintro u ⟨s, h1, h2⟩
  have hs : s = 0 := by
    have h1 : Nat.testBit 1 s = true := h1
    cases s with
    | zero => rfl
    | succ s => simp [Nat.testBit_succ] at h1
  subst hs
  cases h2 with
  | cons h3 _ =>
    obtain ⟨st, h4, h5, _⟩ := h3
    simp only [List.getElem?_cons_zero, Option.some.injEq] at h4
    subst h4
    rw [CharSet.contains_empty] at h5
    cases h5

theorem handled_cls {c : CharSet} (hc : c ≠ CharSet.empty) {o : ExprOptions} :
    Handled { root := .seq [.cls c], options := o } := by
  refine .plain ?_ (by show 1 + 0 < 16384; decide)
  simp [tame, tameAll, hc]

theorem detect_fuzz (a : Ast) : ((detectOptions a (flagOptions [])).fuzz).getD 0 = 0 := by
  rw [(C33_tree a _).2.2]
  rfl

theorem class_line {t : Term} {c : CharSet} {b g : Nat} (ht : t.ok = true) (htree : termTree t = .cls c) :
    TextMatches (exprText b (.one (.last t .none g)) []) (Describes (.one (.last t .none g)) []) := by
  have ha : (Alts.one (.last t .none g)).ok = true := by simp [Alts.ok, Row.ok, Suffix.ok, ht]
  by_cases hc : c = CharSet.empty
  · obtain ⟨E, h1, h2, h3⟩ := empty_class
    have he : exprOf (.one (.last t .none g)) [] = { root := .seq [.cls CharSet.empty], options := {} } := by
      simp only [exprOf, altsTree, rowTrees, suffixTree, htree, hc]
      have : detectOptions (.seq [.cls CharSet.empty]) (flagOptions []) = {} := by decide +kernel
      rw [this]
    refine ⟨_, [exprOf (.one (.last t .none g)) []], [E], ofText_ok b _ _ ha rfl, ?_, ?_, fun w => ?_⟩
    · rw [he]
      rfl
    · rw [he, List.mapM_cons, h1]; rfl
    · rw [← denotes_describes ha, he]
      constructor
      · intro h
        have := (C12_matches h2 w).1 (h E (by simp))
        exact absurd this (h3 _)
      · rintro ⟨v, n, hv, _⟩
        obtain ⟨x, rfl, hx⟩ := (lang_cls_iff _ _).1 (lang_seq_one.1 hv)
        rw [CharSet.contains_empty] at hx
        cases hx
  · refine one_exact' ha rfl rfl ?_
    have : exprOf (.one (.last t .none g)) [] = { root := .seq [.cls c], options := detectOptions (.seq [.cls c]) (flagOptions []) } := by
      simp only [exprOf, altsTree, rowTrees, suffixTree, htree]
    rw [this]
    exact handled_cls hc

/-- C02: the query `[…]` or `[^…]`, for every list of characters and ranges (blanks before and after do not matter),
matches exactly the words whose significant symbols are one symbol of the class, possibly followed by word ends: one
that is listed, or, after `^`, a letter that is not listed (or a listed `_` or apostrophe). Word ends (punctuation) are
significant exactly when they belong to the class. -/
theorem C02_bracket (b g : Nat) (neg : Bool) (items : List Item) (hne : items ≠ []) (hok : items.all Item.ok = true) :
    TextMatches (gap b ++ (['['] ++ (if neg then ['^'] else []) ++ items.flatMap Item.text ++ [']']) ++ gap g) fun w =>
      ∃ u x n, Sifted (fun c => c.val < 26 ∨ (26 ≤ c.val ∧ Bracket neg items c)) w u ∧ Bracket neg items x ∧
        u = x :: List.replicate n Ch.wordEnd := by
  have ht : (Term.cls neg items).ok = true := by
    cases items with
    | nil => exact absurd rfl hne
    | cons => simpa [Term.ok] using hok
  obtain ⟨e, ex, es, h1, h2, h3, h4⟩ := class_line (b := b) (g := g) ht rfl
  refine ⟨e, ex, es, ?_, h2, h3, fun w => (h4 w).trans ?_⟩
  · rw [← h1]
    simp [exprText, Alts.text, Row.text, Term.text, Suffix.text, flagsText]
  · have hP : Significant (.one (.last (.cls neg items) .none g)) [] =
        fun c => c.val < 26 ∨ (26 ≤ c.val ∧ Bracket neg items c) := by
      funext c
      apply propext
      simp only [Significant, Alts.Mentions, Row.Mentions, Term.Mentions, List.not_mem_nil, false_and, exists_false, or_false]
      constructor
      · rintro (h | ⟨rfl, h⟩ | ⟨rfl, h⟩)
        · exact .inl h
        · exact .inr ⟨by decide, h⟩
        · exact .inr ⟨by decide, h⟩
      · rintro (h | ⟨h, h'⟩)
        · exact .inl h
        · have := c.isLt
          by_cases h27 : c.val = 27
          · have : c = Ch.wordEnd := Fin.ext h27
            subst this
            exact .inr (.inl ⟨rfl, h'⟩)
          · have : c = Ch.punct := Fin.ext (by show c.val = 26; omega)
            subst this
            exact .inr (.inr ⟨rfl, h'⟩)
    unfold Describes
    rw [hP]
    simp only [Alts.Means, Row.parts, concat_one, Suffix.Of, Suffix.Allows, exists_eq_left, List.replicate_one,
      Term.Means]
    constructor
    · rintro ⟨u, v, n, k1, ⟨x, rfl, k2⟩, rfl⟩; exact ⟨_, x, n, k1, k2, rfl⟩
    · rintro ⟨u, x, n, k1, k2, rfl⟩; exact ⟨_, [x], n, k1, ⟨x, rfl, k2⟩, rfl⟩

/-- The hypotheses hold of `[^b-dx_]` and of `[a-z]` (and of `[^a-z]`, which matches nothing). -/
example : ([.range 'b' 'd', .one 'x', .one '_'] : List Item).all Item.ok = true ∧
    ([.range 'a' 'z'] : List Item).all Item.ok = true := by decide +kernel

/-- C02: the query that is one character: a letter (in either case), `'` or `_`. -/
theorem C02_character (b g : Nat) (c : Char) (hc : plainChar c = true) :
    TextMatches (gap b ++ [c] ++ gap g) fun w =>
      ∃ u x n, Sifted (fun d => d.val < 26 ∨ Sym c d) w u ∧ Sym c x ∧ u = x :: List.replicate n Ch.wordEnd := by
  obtain ⟨e, ex, es, h1, h2, h3, h4⟩ := class_line (t := .chr c) (b := b) (g := g) hc rfl
  refine ⟨e, ex, es, ?_, h2, h3, fun w => (h4 w).trans ?_⟩
  · rw [← h1]
    simp [exprText, Alts.text, Row.text, Term.text, Suffix.text, flagsText]
  · have hP : Significant (.one (.last (.chr c) .none g)) [] = fun d => d.val < 26 ∨ Sym c d := by
      funext d
      apply propext
      simp only [Significant, Alts.Mentions, Row.Mentions, Term.Mentions, List.not_mem_nil, false_and, exists_false, or_false]
      constructor
      · rintro (h | ⟨rfl, h⟩ | ⟨rfl, h⟩)
        · exact .inl h
        · exact .inr h
        · exact .inr h
      · rintro (h | h')
        · exact .inl h
        · have := d.isLt
          by_cases h26 : d.val < 26
          · exact .inl h26
          by_cases h27 : d.val = 27
          · have : d = Ch.wordEnd := Fin.ext h27
            subst this
            exact .inr (.inl ⟨rfl, h'⟩)
          · have : d = Ch.punct := Fin.ext (by show d.val = 26; omega)
            subst this
            exact .inr (.inr ⟨rfl, h'⟩)
    unfold Describes
    rw [hP]
    simp only [Alts.Means, Row.parts, concat_one, Suffix.Of, Suffix.Allows, exists_eq_left, List.replicate_one,
      Term.Means]
    constructor
    · rintro ⟨u, v, n, k1, ⟨x, rfl, k2⟩, rfl⟩; exact ⟨_, x, n, k1, k2, rfl⟩
    · rintro ⟨u, x, n, k1, k2, rfl⟩; exact ⟨_, [x], n, k1, ⟨x, rfl, k2⟩, rfl⟩

/-- C02: the query `.` matches exactly the words with one letter. -/
theorem C02_dot (b g : Nat) : TextMatches (gap b ++ ['.'] ++ gap g) fun w => (lettersOf w).length = 1 := by
  obtain ⟨e, ex, es, h1, h2, h3, h4⟩ := class_line (t := .dot) (b := b) (g := g) rfl rfl
  refine ⟨e, ex, es, ?_, h2, h3, fun w => (h4 w).trans ?_⟩
  · rw [← h1]
    simp [exprText, Alts.text, Row.text, Term.text, Suffix.text, flagsText]
  · have hS : ∀ u, Sifted (Significant (.one (.last .dot .none g)) []) w u ↔ u = lettersOf w := by
      intro u
      apply sifted_iff
      intro c
      simp only [decide_eq_true_eq, Significant, Alts.Mentions, Row.Mentions, Term.Mentions, List.not_mem_nil, false_and,
        exists_false, or_false]
      constructor
      · exact .inl
      · rintro (h | ⟨_, h⟩ | ⟨_, h⟩)
        · exact h
        · exact absurd h (by decide)
        · exact absurd h (by decide)
    unfold Describes
    simp only [hS, Alts.Means, Row.parts, concat_one, Suffix.Of, Suffix.Allows, exists_eq_left, List.replicate_one,
      Term.Means]
    constructor
    · rintro ⟨u, v, n, rfl, ⟨x, rfl, hx⟩, h⟩
      cases n with
      | zero => rw [h]; rfl
      | succ n =>
        have : Ch.wordEnd ∈ lettersOf w := by rw [h]; simp [List.replicate_succ]
        exact absurd (mem_lettersOf this) (by decide)
    · intro h
      obtain ⟨x, hx⟩ := List.length_eq_one_iff.1 h
      refine ⟨_, [x], 0, rfl, ⟨x, rfl, mem_lettersOf (w := w) (by rw [hx]; simp)⟩, ?_⟩
      rw [hx]
      rfl

/-! ### C35 -/

/-- Numbers with one blank between them. -/
def Spec.numsRow : Nat → List Nat → Row
  | n, [] => .last (.num n) .none 0
  | n, m :: ms => .cons (.num n) .none 1 (numsRow m ms)

/-- A single word: its symbols are letters and punctuation, at least one letter, and then a word end. -/
def Spec.PlainWord (w : Word) : Prop :=
  ∃ l : List Ch, w.chars = l ++ [Ch.wordEnd] ∧ Ch.wordEnd ∉ l ∧ ∃ c ∈ l, c.val < 26

theorem numsRow_text : ∀ (n : Nat) (ns : List Nat),
    (numsRow n ns).text = List.intercalate [' '] ((n :: ns).map digits)
  | n, [] => by simp [numsRow, Row.text, Term.text, Suffix.text, gap, List.intercalate]
  | n, m :: ms => by
    rw [numsRow, Row.text, numsRow_text m ms]
    simp [Term.text, Suffix.text, gap, List.intercalate]

theorem numsRow_ok : ∀ (n : Nat) (ns : List Nat), (∀ m ∈ n :: ns, m < 2 ^ 64) → (numsRow n ns).ok = true
  | n, [], h => by simpa [numsRow, Row.ok, Term.ok, Suffix.ok] using h
  | n, m :: ms, h => by
    have := numsRow_ok m ms fun x hx => h x (by simp at hx ⊢; tauto)
    have hn := h n (by simp)
    simp only [numsRow, Row.ok, Term.ok, Suffix.ok, this]
    simp [hn]

theorem numsRow_trees : ∀ (n : Nat) (ns : List Nat),
    rowTrees (numsRow n ns) = (n :: ns).map fun m => termTree (.num m)
  | n, [] => rfl
  | n, m :: ms => by rw [numsRow, rowTrees, numsRow_trees m ms]; rfl

theorem numsRow_parts : ∀ (n : Nat) (ns : List Nat), ∀ v, Concat (numsRow n ns).parts v ↔
    Concat ((n :: ns).map fun m => Term.Means (.num m)) v
  | n, [], v => by
    simp only [numsRow, Row.parts, List.map_cons, List.map_nil, concat_one, Suffix.Of, Suffix.Allows, exists_eq_left,
      List.replicate_one]
  | n, m :: ms, v => by
    rw [numsRow, Row.parts, List.map_cons]
    simp only [Concat, numsRow_parts m ms, Suffix.Of, Suffix.Allows, exists_eq_left, List.replicate_one]
    simp only [List.append_nil, and_assoc, ↓existsAndEq, true_and]
    exact exists_comm

theorem tame_num (m : Nat) : tame (termTree (.num m)) = true := by
  have h1 : (CharSet.letters != CharSet.empty) = true := by decide
  have h2 : (CharSet.ofCh Ch.wordEnd != CharSet.empty) = true := by decide
  simp only [termTree, tame, tameAll, states, h1, h2]
  split
  · rfl
  · split <;> simp

theorem states_num (m : Nat) : states (termTree (.num m)) ≤ m + 3 := by
  simp only [termTree, states, statesAll]
  split
  · omega
  · split
    · omega
    · rename_i h0 _
      have hm : 1 ≤ m := by
        rcases Nat.eq_zero_or_pos m with rfl | h
        · exact absurd ⟨rfl, rfl⟩ h0
        · exact h
      have e1 : Nat.max m m = m := Nat.max_self m
      have e2 : Nat.max 1 m = m := Nat.max_eq_right hm
      simp only [Option.getD_some, Nat.mul_one, e1, e2]
      omega

theorem split_first {x : Ch} : ∀ {a b c d : List Ch}, x ∉ a → x ∉ b → a ++ x :: c = b ++ x :: d → a = b ∧ c = d
  | [], [], c, d, _, _, h => by simpa using h
  | [], y :: b, c, d, _, hb, h => by
    simp at h hb
    exact absurd h.1 hb.1
  | y :: a, [], c, d, ha, _, h => by
    simp at h ha
    exact absurd h.1.symm ha.1
  | y :: a, z :: b, c, d, ha, hb, h => by
    simp at h ha hb
    obtain ⟨rfl, h⟩ := h
    obtain ⟨rfl, rfl⟩ := split_first ha.2 hb.2 h
    exact ⟨rfl, rfl⟩

theorem wordEnd_not_letter {l : List Ch} (h : ∀ x ∈ l, x.val < 26) : Ch.wordEnd ∉ l :=
  fun hm => absurd (h _ hm) (by decide)

/-- The symbols that matter: letters and word ends. -/
theorem plain_sifted {w : Word} (h : PlainWord w) : ∃ l : List Ch, l ≠ [] ∧ (∀ x ∈ l, x.val < 26) ∧ lettersOf w.chars = l ∧
    (w.chars.filter fun c => decide (c.val < 26) || decide (c = Ch.wordEnd)) = l ++ [Ch.wordEnd] := by
  obtain ⟨l, h1, h2, c, hc, hc'⟩ := h
  refine ⟨lettersOf l, ?_, fun x hx => mem_lettersOf hx, ?_, ?_⟩
  · intro he
    have : c ∈ lettersOf l := List.mem_filter.2 ⟨hc, by simpa using hc'⟩
    rw [he] at this
    cases this
  · rw [h1, lettersOf, lettersOf, List.filter_append]
    have : (decide ((Ch.wordEnd).val < 26)) = false := by decide
    simp [this]
  · rw [h1, List.filter_append]
    congr 1
    · unfold lettersOf
      apply List.filter_congr
      intro x hx
      have : x ≠ Ch.wordEnd := fun e => h2 (e ▸ hx)
      simp [this]

theorem blocks_iff : ∀ (ns : List Nat) (ls : List (List Ch)), (∀ l ∈ ls, l ≠ [] ∧ ∀ x ∈ l, x.val < 26) →
    ((∃ v k, Concat (ns.map fun m => Term.Means (.num m)) v ∧
      ls.flatMap (fun l => l ++ [Ch.wordEnd]) = v ++ List.replicate k Ch.wordEnd) ↔ ls.map List.length = ns)
  | [], ls, h => by
    constructor
    · rintro ⟨v, k, rfl, hv⟩
      cases ls with
      | nil => rfl
      | cons l ls =>
        exfalso
        obtain ⟨h1, h2⟩ := h l (by simp)
        cases l with
        | nil => exact h1 rfl
        | cons x l =>
          simp only [List.flatMap_cons, List.cons_append, List.nil_append] at hv
          have : x ∈ List.replicate k Ch.wordEnd := by rw [← hv]; simp
          have := List.eq_of_mem_replicate this
          subst this
          exact wordEnd_not_letter h2 (by simp)
    · intro he
      cases ls with
      | nil => exact ⟨[], 0, rfl, rfl⟩
      | cons => simp at he
  | n :: ns, ls, h => by
    cases ls with
    | nil =>
      constructor
      · rintro ⟨v, k, ⟨a, b, rfl, ⟨c, rfl, _⟩, _⟩, hv⟩
        simp at hv
      · intro he; simp at he
    | cons l ls =>
      obtain ⟨h1, h2⟩ := h l (by simp)
      have ih := blocks_iff ns ls fun l hl => h l (by simp [hl])
      simp only [List.map_cons, List.cons.injEq, ← ih]
      constructor
      · rintro ⟨v, k, ⟨a, b, rfl, ⟨c, rfl, hc1, hc2⟩, hb⟩, hv⟩
        simp only [List.flatMap_cons, List.append_assoc, List.cons_append, List.nil_append] at hv
        obtain ⟨rfl, hv'⟩ := split_first (wordEnd_not_letter h2) (wordEnd_not_letter hc2) hv
        exact ⟨hc1, b, k, hb, hv'⟩
      · rintro ⟨rfl, v, k, hv, he⟩
        refine ⟨l ++ [Ch.wordEnd] ++ v, k, ⟨_, v, rfl, ⟨l, rfl, rfl, h2⟩, hv⟩, ?_⟩
        rw [List.flatMap_cons, he]
        simp

/-- C35: an enumeration, as `2 5` (numbers separated by a blank, for expressions of fewer than 16384 states): a phrase of
words matches exactly when its words have, one after the other, these numbers of letters. Punctuation does not count. -/
theorem C35_enumeration (n : Nat) (ns : List Nat) (hsz : ((n :: ns).map (· + 3)).sum < 16384) :
    ∃ e ex es, ExprAst.ofText (List.intercalate [' '] ((n :: ns).map digits)) = .ok (some e) ∧
      expandExpressions [e] = .ok ex ∧ ex.mapM fromAst = .ok es ∧
      ∀ ws : List Word, (∀ w ∈ ws, PlainWord w) →
        ((∀ x ∈ es, Matches x (charsOf ws)) ↔ ws.map (fun w => (lettersOf w.chars).length) = n :: ns) := by
  have hlt : ∀ m ∈ n :: ns, m < 2 ^ 64 := by
    intro m hm
    have key : ∀ l : List Nat, m ∈ l → m ≤ (l.map (· + 3)).sum := by
      intro l
      induction l with
      | nil => intro h; cases h
      | cons x l ih =>
        intro h
        rw [List.map_cons, List.sum_cons]
        rcases List.mem_cons.1 h with rfl | h
        · omega
        · have := ih h; omega
    have := key _ hm
    omega
  have ha : (Alts.one (numsRow n ns)).ok = true := by simpa [Alts.ok] using numsRow_ok n ns hlt
  have hh : Handled (exprOf (.one (numsRow n ns)) []) := by
    refine .plain ?_ ?_
    · show tame (altsTree (.one (numsRow n ns))) = true
      rw [altsTree, numsRow_trees]
      apply tame_seq
      intro t ht
      obtain ⟨m, _, rfl⟩ := List.mem_map.1 ht
      exact tame_num m
    · show states (altsTree (.one (numsRow n ns))) < 16384
      rw [altsTree, numsRow_trees, states]
      refine Nat.lt_of_le_of_lt ?_ hsz
      generalize n :: ns = l
      induction l with
      | nil => simp [statesAll]
      | cons m l ih =>
        have := states_num m
        simp only [List.map_cons, statesAll, List.sum_cons]
        omega
  obtain ⟨e, ex, es, h1, h2, h3, h4⟩ := one_exact' (b := 0) ha rfl rfl hh
  refine ⟨e, ex, es, ?_, h2, h3, fun ws hws => (h4 _).trans ?_⟩
  · rw [← h1, exprText, Alts.text, numsRow_text]
    simp [gap, flagsText]
  · have hw : (Alts.one (numsRow n ns)).Mentions Ch.wordEnd := by
      cases ns <;> simp [numsRow, Alts.Mentions, Row.Mentions, Term.Mentions]
    have hp : ¬ (Alts.one (numsRow n ns)).Mentions Ch.punct := by
      have : ∀ (n : Nat) (ns : List Nat), ¬ (numsRow n ns).Mentions Ch.punct := by
        intro n ns
        induction ns generalizing n with
        | nil => simp only [numsRow, Row.Mentions, Term.Mentions]; decide
        | cons m ms ih =>
          simp only [numsRow, Row.Mentions, Term.Mentions, not_or]
          exact ⟨by decide, ih m⟩
      exact this n ns
    have hS : ∀ w u, Sifted (Significant (.one (numsRow n ns)) []) w u ↔
        u = w.filter fun c => decide (c.val < 26) || decide (c = Ch.wordEnd) := by
      intro w u
      apply sifted_iff
      intro c
      simp [Significant, hw, hp]
    have hls : (charsOf ws).filter (fun c => decide (c.val < 26) || decide (c = Ch.wordEnd)) =
        (ws.map fun w => lettersOf w.chars).flatMap fun l => l ++ [Ch.wordEnd] := by
      clear h4
      induction ws with
      | nil => rfl
      | cons w ws ih =>
        obtain ⟨l, _, _, k1, k2⟩ := plain_sifted (hws w (by simp))
        have ih := ih fun w hw => hws w (by simp [hw])
        unfold charsOf at ih ⊢
        rw [List.flatMap_cons, List.filter_append, ih, k2, List.map_cons, List.flatMap_cons, k1]
    have hb := blocks_iff (n :: ns) (ws.map fun w => lettersOf w.chars) (by
      intro l hl
      obtain ⟨w, hw, rfl⟩ := List.mem_map.1 hl
      obtain ⟨l, k1, k2, k3, _⟩ := plain_sifted (hws w hw)
      rw [k3]; exact ⟨k1, k2⟩)
    rw [List.map_map] at hb
    refine Iff.trans ?_ hb
    unfold Describes
    simp only [hS, Alts.Means, numsRow_parts]
    constructor
    · rintro ⟨u, v, k, rfl, h5, h6⟩; exact ⟨v, k, h5, hls ▸ h6⟩
    · rintro ⟨v, k, h5, h6⟩; exact ⟨_, v, k, rfl, h5, hls ▸ h6⟩

/-- `2 5` and two words. -/
example : List.intercalate [' '] ([2, 5].map digits) = "2 5".toList := by decide +kernel
example : PlainWord (Word.new asciiUnicode "it's" 0 0) ∧ (lettersOf (Word.new asciiUnicode "it's" 0 0).chars).length = 3 := by
  refine ⟨⟨[8, 19, 26, 18], by decide +kernel, by decide, 8, by simp, by decide⟩, by decide +kernel⟩

end Noodle
