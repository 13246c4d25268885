import Verif.Proofs.ParseTotal
import Verif.Spec.Layout
import Verif.Proofs.ScriptLine
/-
Blanks at the beginning of a line do not matter.
-/
namespace Noodle
set_option autoImplicit false
open Peg Spec

/-! ### Where the beginning of the input is asked for -/

/-- The expression does not ask for the beginning of the input, nor do the rules it refers to. -/
def Peg.free (S : Name → Bool) : Exp → Bool
  | .soi => false
  | .seq a b => free S a && free S b
  | .alt a b => free S a && free S b
  | .opt a => free S a
  | .star a => free S a
  | .more a => free S a
  | .ref n => S n
  | _ => true

/-- Rules that do not ask for the beginning of the input. -/
def Peg.inLine : Name → Bool
  | .pragma => false
  | .emptyLine => false
  | .vis .query => false
  | .vis .expression => false
  | .vis .macroDefine => false
  | _ => true

theorem Peg.grammar_free : ∀ n, inLine n = true → free inLine (grammar n).2 = true := by
  intro n
  cases n with
  | vis r => cases r <;> decide
  | _ => decide

/-- The length of the whole input matters only for what asks for its beginning. -/
theorem Peg.run_free (t t' : Nat) : ∀ (n : Nat) (at' : Bool) (e : Exp) (l : List Char), free inLine e = true →
    run grammar t n at' e l = run grammar t' n at' e l
  | 0, _, _, _, _ => rfl
  | n + 1, at', e, l, h => by
    cases e with
    | chr p => rfl
    | str s => rfl
    | istr s => rfl
    | soi => cases h
    | eoi => rfl
    | seq a b =>
      simp only [free, Bool.and_eq_true] at h
      simp only [run, run_free t t' n at' _ _ h.1, run_free t t' n at' _ _ h.2]
    | alt a b =>
      simp only [free, Bool.and_eq_true] at h
      simp only [run, run_free t t' n at' _ _ h.1, run_free t t' n at' _ _ h.2]
    | opt a => simp only [run, run_free t t' n at' a _ h]
    | star a =>
      have h' : free inLine (.more a) = true := h
      simp only [run, run_free t t' n at' a _ h, run_free t t' n at' _ _ h']
    | more a => simp only [run, run_free t t' n at' a _ h, run_free t t' n at' _ _ (show free inLine (.more a) = true from h)]
    | ref m => simp only [run, run_free t t' n _ _ _ (grammar_free m h)]

/-! ### Lines that are the same after skipping -/

section
variable {X Z : List Char} (hs : skip X = skip Z)
include hs

theorem Peg.run_lead (n : Nat) {b : Exp} (hb : free inLine b = true) :
    run grammar X.length n false (.seq .soi b) X = run grammar Z.length n false (.seq .soi b) Z := by
  cases n with
  | zero => rfl
  | succ n =>
    cases n with
    | zero => rfl
    | succ n =>
      have e : ∀ W : List Char, run grammar W.length (n + 2) false (.seq .soi b) W =
          (run grammar W.length (n + 1) false b (skip W)).map fun rb => rb.map fun q => ([] ++ q.1, q.2) := by
        intro W
        have : run grammar W.length (n + 1) false .soi W = some (some ([], W)) := by simp [run]
        rw [run, this]
        rfl
      rw [e X, e Z, hs, run_free X.length Z.length (n + 1) false b _ hb]

theorem Peg.run_silent (n : Nat) {m : Name} {b : Exp} (hm : (∀ r, m ≠ .vis r)) (h : grammar m = (false, .seq .soi b))
    (hb : free inLine b = true) : run grammar X.length n false (.ref m) X = run grammar Z.length n false (.ref m) Z := by
  cases n with
  | zero => rfl
  | succ n =>
    cases m with
    | vis r => exact absurd rfl (hm r)
    | _ => simp only [run, h, Bool.or_false]; rw [run_lead hs n hb]

/-- The same nodes, except that the text of the one node may differ. -/
def Peg.SameNode (r : Rule) (a b : Option Res) : Prop :=
  a = b ∧ (a = none ∨ a = some none) ∨
    ∃ t t' ps R, a = some (some ([.mk r t ps], R)) ∧ b = some (some ([.mk r t' ps], R))

theorem Peg.run_node (n : Nat) {r : Rule} {b : Exp} (h : grammar (.vis r) = (false, .seq .soi b))
    (hb : free inLine b = true) :
    SameNode r (run grammar X.length n false (node r) X) (run grammar Z.length n false (node r) Z) := by
  cases n with
  | zero => exact .inl ⟨rfl, .inl rfl⟩
  | succ n =>
    unfold node
    simp only [run, h, Bool.or_false]
    rw [run_lead hs n hb]
    cases run grammar Z.length n false (.seq .soi b) Z with
    | none => exact .inl ⟨rfl, .inl rfl⟩
    | some q =>
      cases q with
      | none => exact .inl ⟨rfl, .inr rfl⟩
      | some q => exact .inr ⟨_, _, _, _, rfl, rfl⟩

/-- What the lines have in common: the first node, up to its text. -/
def Peg.SameTree (a b : Option Res) : Prop :=
  a = b ∨ ∃ r t t' ps R, (r = .macroDefine ∨ r = .expression) ∧ a = some (some ([.mk r t ps], R)) ∧
    b = some (some ([.mk r t' ps], R))

theorem Peg.run_query (n : Nat) :
    SameTree (run grammar X.length n false (grammar (.vis .query)).2 X) (run grammar Z.length n false (grammar (.vis .query)).2 Z) := by
  have h1 := fun n => run_silent hs n (m := .pragma) (by intro r h; cases h) rfl (by decide)
  have h2 := fun n => run_node hs n (r := .macroDefine) rfl (by decide)
  have h3 := fun n => run_node hs n (r := .expression) rfl (by decide)
  have h4 := fun n => run_silent hs n (m := .emptyLine) (by intro r h; cases h) rfl (by decide)
  show SameTree (run grammar X.length n false (.alt (.ref .pragma) (.alt (node .macroDefine) (.alt (node .expression)
    (.ref .emptyLine)))) X) (run grammar Z.length n false (.alt (.ref .pragma) (.alt (node .macroDefine) (.alt (node .expression)
    (.ref .emptyLine)))) Z)
  cases n with
  | zero => exact .inl rfl
  | succ n =>
    rw [run, run, h1 n]
    cases run grammar Z.length n false (.ref .pragma) Z with
    | none => exact .inl rfl
    | some q =>
      cases q with
      | some q => exact .inl rfl
      | none =>
        simp only [Option.bind_some]
        cases n with
        | zero => exact .inl rfl
        | succ n =>
          rw [run, run]
          rcases h2 n with ⟨e, e' | e'⟩ | ⟨t, t', ps, R, e, e'⟩
          · rw [← e, e']; exact .inl rfl
          · rw [← e, e']
            simp only [Option.bind_some]
            cases n with
            | zero => exact .inl rfl
            | succ n =>
              rw [run, run]
              rcases h3 n with ⟨e, e' | e'⟩ | ⟨t, t', ps, R, e, e'⟩
              · rw [← e, e']; exact .inl rfl
              · rw [← e, e']
                simp only [Option.bind_some]
                rw [h4 n]
                exact .inl rfl
              · rw [e, e']
                exact .inr ⟨_, t, t', ps, R, .inr rfl, rfl, rfl⟩
          · rw [e, e']
            exact .inr ⟨_, t, t', ps, R, .inl rfl, rfl, rfl⟩

end

/-- What a line does, given its tree. -/
def treeDoes (st : ParseState) (i : Nat) : Option (Option Pair) → Except ParseError ParseState
  | none => .error (.crash .fuel)
  | some none => .error (.syntax (i + 1))
  | some (some p) => match p.inner with
    | [] => .ok st
    | q :: _ => orCrash (lineNode st q)

theorem parseLine_tree {U : Unicode} {st : ParseState} (h : st.wordlist = none) (i : Nat) (line : List Char) :
    parseLine U st i line = treeDoes st i (parse .query (applyMacros st.macros line)) := by
  unfold parseLine treeDoes
  rw [h]
  rfl

theorem parse_at {r : Rule} {l : List Char} {n : Nat} (h : fuelFor l ≤ n) :
    parse r l = (run grammar l.length n false (node r) l).map fun res => res.bind fun q => q.1.head? := by
  obtain ⟨res, hr⟩ := parse_ends r l
  unfold parse at hr ⊢
  cases hn : run grammar l.length (fuelFor l) false (node r) l with
  | none => rw [hn] at hr; cases hr
  | some q => rw [run_mono _ _ _ _ _ _ _ _ h hn]

/-- Lines that are the same after skipping do the same. -/
theorem tree_same {X Z : List Char} (hs : skip X = skip Z) (st : ParseState) (i : Nat) :
    treeDoes st i (parse .query X) = treeDoes st i (parse .query Z) := by
  have hx := Nat.le_max_left (fuelFor X) (fuelFor Z)
  have hz := Nat.le_max_right (fuelFor X) (fuelFor Z)
  rw [parse_at (n := max (fuelFor X) (fuelFor Z) + 1) (by omega), parse_at (n := max (fuelFor X) (fuelFor Z) + 1) (by omega)]
  generalize max (fuelFor X) (fuelFor Z) = n
  unfold node
  rw [run, run]
  simp only [show (grammar (.vis .query)).1 = false from rfl, Bool.or_false]
  rcases run_query hs n with h | ⟨r, t, t', ps, R, hr, h, h'⟩
  · rw [h]
    cases run grammar Z.length n false (grammar (.vis .query)).2 Z with
    | none => rfl
    | some q =>
      cases q with
      | none => rfl
      | some q => rfl
  · rw [h, h']
    show orCrash (lineNode st (.mk r t ps)) = orCrash (lineNode st (.mk r t' ps))
    rcases hr with rfl | rfl <;> rfl

/-! ### Blanks before a line -/

theorem replaceAux_blank {pat rep : List Char} (hp : Lettered pat) (l : List Char) :
    replaceAll pat rep (' ' :: l) = ' ' :: replaceAll pat rep l := by
  obtain ⟨c, cs, rfl, hc⟩ := hp
  unfold replaceAll
  rw [replaceAux]
  rw [if_neg]
  intro h
  simp only [List.isPrefixOf, Bool.and_eq_true, beq_iff_eq] at h
  rw [h.1] at hc
  exact absurd hc (by decide)

theorem applyMacros_blank : ∀ {ms : List (List Char × List Char)}, (∀ m ∈ ms, Lettered m.1) → ∀ l,
    applyMacros ms (' ' :: l) = ' ' :: applyMacros ms l
  | [], _, _ => rfl
  | m :: ms, h, l => by
    unfold applyMacros
    rw [List.foldl_cons, List.foldl_cons, replaceAux_blank (h m (by simp))]
    exact applyMacros_blank (fun m hm => h m (by simp [hm])) _

theorem applyMacros_gap {ms : List (List Char × List Char)} (h : ∀ m ∈ ms, Lettered m.1) (l : List Char) : ∀ n,
    applyMacros ms (gap n ++ l) = gap n ++ applyMacros ms l
  | 0 => rfl
  | n + 1 => by
    show applyMacros ms (' ' :: (gap n ++ l)) = ' ' :: (gap n ++ applyMacros ms l)
    rw [applyMacros_blank h, applyMacros_gap h l n]

theorem trim_gap (l : List Char) : ∀ n, trim (gap n ++ l) = trim l
  | 0 => rfl
  | n + 1 => by
    rw [← trim_gap l n]
    show trim (' ' :: (gap n ++ l)) = trim (gap n ++ l)
    unfold trim
    rw [List.dropWhile_cons_of_pos (by decide)]

/-- Blanks before a line do not matter. -/
theorem parseLine_gap {U : Unicode} {st : ParseState} (hm : ∀ m ∈ st.macros, Lettered m.1) (i n : Nat) (line : List Char) :
    parseLine U st i (gap n ++ line) = parseLine U st i line := by
  cases h : st.wordlist with
  | none =>
    rw [parseLine_tree h, parseLine_tree h, applyMacros_gap hm]
    exact tree_same (skip_gap n _) st i
  | some wl =>
    unfold parseLine
    rw [h, trim_gap]

theorem parseLine_lettered {U : Unicode} {st st' : ParseState} {i : Nat} {line : List Char}
    (h : parseLine U st i line = .ok st') (hm : ∀ m ∈ st.macros, Lettered m.1) : ∀ m ∈ st'.macros, Lettered m.1 := by
  rcases parseLine_macros h with h1 | ⟨_, n, v, hn, h1⟩
  · rw [h1]; exact hm
  · rw [h1]; exact insertMacro_names hn hm

theorem parseLines_gap {U : Unicode} {raw raw' : List (List Char)}
    (h : Aligned raw raw') :
    ∀ (i : Nat) (st : ParseState), (∀ m ∈ st.macros, Lettered m.1) → parseLines U i raw st = parseLines U i raw' st := by
  induction h with
  | nil => intros; rfl
  | @cons n m c _ _ _ ih =>
    intro i st hm
    show (parseLine U st i (gap n ++ c)).bind _ = (parseLine U st i (gap m ++ c)).bind _
    rw [parseLine_gap hm, parseLine_gap hm]
    cases hp : parseLine U st i c with
    | error e => rfl
    | ok s => exact ih (i + 1) s (parseLine_lettered hp hm)

end Noodle
