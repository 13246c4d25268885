import Verif.Proofs.Means
import Verif.Props.C31
/-
C33, C43: what is written is what is parsed. `Spec/Surface.lean` gives the documented syntax and its meaning;
`ExprAst.ofText` is the model of `ExpressionAst::new_from_str`.
-/
namespace Noodle
open Spec
set_option autoImplicit false

/-! ### C33 -/

mutual
theorem detect_wb : ∀ (a : Ast) (o : ExprOptions), (detectOptions a o).fuzz = o.fuzz ∧
    ((detectOptions a o).explicitWB = some true ↔ Appears Ch.wordEnd a ∨ o.explicitWB = some true) ∧
    ((detectOptions a o).explicitPunct = some true ↔ Appears Ch.punct a ∨ o.explicitPunct = some true)
  | .cls c, o => by
    have h : ∀ x, Appears x (.cls c) ↔ c.contains x = true := fun x => ⟨fun h => by cases h; assumption, .cls⟩
    rw [h, h, detectOptions]
    cases h1 : c.contains Ch.wordEnd <;> cases h2 : c.contains Ch.punct <;> simp
  | .anagram k b, o => by
    have h : ∀ x, Appears x (.anagram k b) ↔ b.contains x = true := fun x =>
      ⟨fun h => by cases h; simpa using ‹_›, fun h => .bank (by simpa using h)⟩
    rw [h, h, detectOptions]
    cases h1 : b.contains Ch.wordEnd <;> cases h2 : b.contains Ch.punct <;> simp
  | .alts l, o => by
    have h : ∀ x, Appears x (.alts l) ↔ ∃ a ∈ l, Appears x a := fun x =>
      ⟨fun h => by cases h; exact ⟨_, ‹_›, ‹_›⟩, fun ⟨a, h, k⟩ => .alts h k⟩
    rw [h, h, detectOptions]; exact detect_all l o
  | .seq l, o => by
    have h : ∀ x, Appears x (.seq l) ↔ ∃ a ∈ l, Appears x a := fun x =>
      ⟨fun h => by cases h; exact ⟨_, ‹_›, ‹_›⟩, fun ⟨a, h, k⟩ => .seq h k⟩
    rw [h, h, detectOptions]; exact detect_all l o
  | .substr l, o => by
    have h : ∀ x, Appears x (.substr l) ↔ ∃ a ∈ l, Appears x a := fun x =>
      ⟨fun h => by cases h; exact ⟨_, ‹_›, ‹_›⟩, fun ⟨a, h, k⟩ => .substr h k⟩
    rw [h, h, detectOptions]; exact detect_all l o
  | .rep t lo hi, o => by
    have h : ∀ x, Appears x (.rep t lo hi) ↔ Appears x t := fun x => ⟨fun h => by cases h; assumption, .rep⟩
    rw [h, h, detectOptions]; exact detect_wb t o
theorem detect_all : ∀ (l : List Ast) (o : ExprOptions), (detectAll l o).fuzz = o.fuzz ∧
    ((detectAll l o).explicitWB = some true ↔ (∃ a ∈ l, Appears Ch.wordEnd a) ∨ o.explicitWB = some true) ∧
    ((detectAll l o).explicitPunct = some true ↔ (∃ a ∈ l, Appears Ch.punct a) ∨ o.explicitPunct = some true)
  | [], o => by simp [detectAll]
  | a :: l, o => by
    obtain ⟨h1, h2, h3⟩ := detect_wb a o
    obtain ⟨k1, k2, k3⟩ := detect_all l (detectOptions a o)
    rw [detectAll, k1, k2, k3, h1, h2, h3]
    simp only [List.mem_cons, exists_eq_or_imp, true_and]
    constructor <;> (rw [or_assoc]; exact or_left_comm)
end

/-- C33: for every syntax tree and every setting of the flags: word boundaries (punctuation) are significant exactly
when the flag was given or the symbol appears in a class or a bank; the fuzz is not touched. -/
theorem C33_tree (a : Ast) (o : ExprOptions) :
    ((detectOptions a o).explicitWB = some true ↔ Appears Ch.wordEnd a ∨ o.explicitWB = some true) ∧
    ((detectOptions a o).explicitPunct = some true ↔ Appears Ch.punct a ∨ o.explicitPunct = some true) ∧
    (detectOptions a o).fuzz = o.fuzz :=
  ⟨(detect_wb a o).2.1, (detect_wb a o).2.2, (detect_wb a o).1⟩

theorem appears_seq {x : Ch} {l : List Ast} : Appears x (.seq l) ↔ ∃ a ∈ l, Appears x a :=
  ⟨fun h => by cases h; exact ⟨_, ‹_›, ‹_›⟩, fun ⟨_, h, k⟩ => .seq h k⟩
theorem appears_alts {x : Ch} {l : List Ast} : Appears x (.alts l) ↔ ∃ a ∈ l, Appears x a :=
  ⟨fun h => by cases h; exact ⟨_, ‹_›, ‹_›⟩, fun ⟨_, h, k⟩ => .alts h k⟩
theorem appears_substr {x : Ch} {l : List Ast} : Appears x (.substr l) ↔ ∃ a ∈ l, Appears x a :=
  ⟨fun h => by cases h; exact ⟨_, ‹_›, ‹_›⟩, fun ⟨_, h, k⟩ => .substr h k⟩
theorem appears_cls {x : Ch} {c : CharSet} : Appears x (.cls c) ↔ c.contains x = true :=
  ⟨fun h => by cases h; assumption, .cls⟩
theorem appears_rep {x : Ch} {t : Ast} {lo : Nat} {hi : Option Nat} : Appears x (.rep t lo hi) ↔ Appears x t :=
  ⟨fun h => by cases h; assumption, .rep⟩
theorem appears_bank {x : Ch} {k : AnagramKind} {b : List Ch} : Appears x (.anagram k b) ↔ x ∈ b :=
  ⟨fun h => by cases h; assumption, .bank⟩

theorem appears_suffix {x : Ch} (s : Suffix) (t : Ast) : Appears x (suffixTree s t) ↔ Appears x t := by
  cases s <;> simp only [suffixTree, appears_rep]

mutual
theorem term_mentions (x : Ch) : ∀ t : Term, t.ok = true → (Appears x (termTree t) ↔ t.Mentions x)
  | .chr c, _ => by rw [termTree, appears_cls, contains_ofChar, Term.Mentions]
  | .dot, _ => by rw [termTree, appears_cls, CharSet.contains_letters, Term.Mentions, decide_eq_true_eq]
  | .cls neg items, h => by
    simp only [Term.ok, Bool.and_eq_true] at h
    rw [termTree, appears_cls, contains_bracket neg items h.2, Term.Mentions]
  | .num n, _ => by
    simp only [termTree, appears_seq, List.mem_cons, List.not_mem_nil, or_false, exists_eq_or_imp, exists_eq_left,
      appears_rep, appears_cls, CharSet.contains_letters, CharSet.contains_ofCh, decide_eq_true_eq, Term.Mentions]
    rw [or_comm]
  | .group a, h => by
    rw [termTree, Term.Mentions]
    exact alts_mentions x a (by simpa [Term.ok] using h)
  | .bank k ls, _ => by
    rw [termTree, appears_bank, Term.Mentions, List.mem_map]
    simp only [C01_symbol]
  | .part .superset r, _ => by
    rw [termTree, partTree, Term.Mentions]
    refine iff_of_true ?_ trivial
    exact .seq (a := .rep (.cls CharSet.all) 0 none) (by simp [supersetOf]) (.rep (.cls (CharSet.contains_all x)))
  | .part .subset r, h => by
    simp only [Term.ok, Bool.and_eq_true] at h
    rw [termTree, partTree, Term.Mentions, appears_seq, ← row_mentions x r h.1]
    simp only [List.mem_map, exists_exists_and_eq_and, appears_rep]
  | .part .substring r, h => by
    simp only [Term.ok, Bool.and_eq_true] at h
    rw [termTree, partTree, Term.Mentions, appears_substr, ← row_mentions x r h.1]
theorem row_mentions (x : Ch) : ∀ r : Row, r.ok = true → ((∃ a ∈ rowTrees r, Appears x a) ↔ r.Mentions x)
  | .last t s b, h => by
    simp only [Row.ok, Bool.and_eq_true] at h
    simp only [rowTrees, List.mem_singleton, exists_eq_left, appears_suffix, Row.Mentions, term_mentions x t h.1]
  | .cons t s b r, h => by
    simp only [Row.ok, Bool.and_eq_true] at h
    simp only [rowTrees, List.mem_cons, exists_eq_or_imp, appears_suffix, Row.Mentions, term_mentions x t h.1.1.1,
      row_mentions x r h.1.2]
theorem alts_mentions (x : Ch) : ∀ a : Alts, a.ok = true → (Appears x (altsTree a) ↔ a.Mentions x)
  | .one r, h => by
    simp only [Alts.ok] at h
    rw [altsTree, appears_seq, row_mentions x r h, Alts.Mentions]
  | .more r b a, h => by
    simp only [Alts.ok, Bool.and_eq_true] at h
    rw [altsTree, appears_alts]
    simp only [List.mem_cons, exists_eq_or_imp, appears_seq, row_mentions x r h.1, all_mentions x a h.2, Alts.Mentions]
theorem all_mentions (x : Ch) : ∀ a : Alts, a.ok = true → ((∃ t ∈ altsTrees a, Appears x t) ↔ a.Mentions x)
  | .one r, h => by
    simp only [Alts.ok] at h
    simp only [altsTrees, List.mem_singleton, exists_eq_left, appears_seq, row_mentions x r h, Alts.Mentions]
  | .more r b a, h => by
    simp only [Alts.ok, Bool.and_eq_true] at h
    simp only [altsTrees, List.mem_cons, exists_eq_or_imp, appears_seq, row_mentions x r h.1, all_mentions x a h.2,
      Alts.Mentions]
end

theorem flagOptions_aux (fs : List (Flag × Nat)) (o : ExprOptions) :
    let r := fs.foldl (fun o f => setFlag o f.1) o
    (r.explicitWB = some true ↔ (∃ f ∈ fs, f.1 = .boundaries) ∨ o.explicitWB = some true) ∧
    (r.explicitPunct = some true ↔ (∃ f ∈ fs, f.1 = .punctuation) ∨ o.explicitPunct = some true) ∧
    r.fuzz = (lastFuzz fs).or o.fuzz := by
  induction fs generalizing o with
  | nil => simp [lastFuzz]
  | cons f fs ih =>
    obtain ⟨f, n⟩ := f
    obtain ⟨h1, h2, h3⟩ := ih (setFlag o f)
    refine ⟨h1.trans ?_, h2.trans ?_, h3.trans ?_⟩
    · cases f <;> simp [setFlag]
    · cases f <;> simp [setFlag]
    · cases f <;> simp [setFlag, lastFuzz]

theorem flagOptions_spec (fs : List (Flag × Nat)) :
    ((flagOptions fs).explicitWB = some true ↔ ∃ f ∈ fs, f.1 = .boundaries) ∧
    ((flagOptions fs).explicitPunct = some true ↔ ∃ f ∈ fs, f.1 = .punctuation) ∧
    (flagOptions fs).fuzz = lastFuzz fs := by
  obtain ⟨h1, h2, h3⟩ := flagOptions_aux fs {}
  refine ⟨h1.trans (by simp), h2.trans (by simp), h3.trans (by simp)⟩

/-- C33, from the text: parsing an expression as documented gives one for which word boundaries (punctuation) are
significant exactly when it mentions the word end (an apostrophe) or has the flag `!_` (`!'`); its fuzz is that of the
last `!n`. -/
theorem C33_text (b : Nat) (a : Alts) (fs : List (Flag × Nat)) (ha : a.ok = true) (hf : (fs.all fun f => f.1.ok) = true) :
    ∃ e, ExprAst.ofText (exprText b a fs) = .ok (some e) ∧
      (e.options.explicitWB = some true ↔ a.Mentions Ch.wordEnd ∨ ∃ f ∈ fs, f.1 = .boundaries) ∧
      (e.options.explicitPunct = some true ↔ a.Mentions Ch.punct ∨ ∃ f ∈ fs, f.1 = .punctuation) ∧
      e.options.fuzz = lastFuzz fs := by
  refine ⟨_, ofText_ok b a fs ha hf, ?_⟩
  obtain ⟨h1, h2, h3⟩ := C33_tree (altsTree a) (flagOptions fs)
  obtain ⟨k1, k2, k3⟩ := flagOptions_spec fs
  rw [alts_mentions _ a ha, k1] at h1
  rw [alts_mentions _ a ha, k2] at h2
  exact ⟨h1, h2, h3.trans k3⟩

/-- The hypotheses hold of ` a[^b-d_]?|(.{2}'c:+)<cat+1> !3 !_ `, for instance. -/
def sampleAlts : Alts :=
  .more (.cons (.chr 'a') .none 0 (.last (.cls true [.range 'b' 'd', .one '_']) .opt 0)) 0
    (.one (.cons (.part .superset (.cons .dot .none 0 (.cons (.chr '\'') .none 0 (.last (.chr 'c') .none 0)))) .none 0
      (.last (.bank (.transAdd 1) ['c', 'a', 't']) .none 1)))
def sampleFlags : List (Flag × Nat) := [(.fuzz 3, 1), (.boundaries, 1)]
example : exprText 1 sampleAlts sampleFlags = " a[^b-d_]?|(.'c:+)<cat+1> !3 !_ ".toList := by decide +kernel
example : sampleAlts.ok = true ∧ (sampleFlags.all fun f => f.1.ok) = true := by decide +kernel
/-- Both outcomes occur: `abc` has neither, `a_` has word boundaries. -/
example : ¬ (Alts.one (.cons (.chr 'a') .none 0 (.last (.chr 'b') .none 0))).Mentions Ch.wordEnd := by
  simp only [Alts.Mentions, Row.Mentions, Term.Mentions, ← C01_symbol]
  decide
example : (Alts.one (.cons (.chr 'a') .none 0 (.last (.chr '_') .none 0))).Mentions Ch.wordEnd := by
  simp only [Alts.Mentions, Row.Mentions, Term.Mentions, ← C01_symbol]
  decide

/-! ### C43 -/

/-- C43: every expression written in the documented syntax is accepted, and the tree it is parsed to stands for exactly
the strings the documentation gives to what was written. -/
theorem C43_meaning (b : Nat) (a : Alts) (fs : List (Flag × Nat)) (ha : a.ok = true)
    (hf : (fs.all fun f => f.1.ok) = true) :
    ∃ e, ExprAst.ofText (exprText b a fs) = .ok (some e) ∧ ∀ u, Lang e.root u ↔ a.Means u :=
  ⟨_, ofText_ok b a fs ha hf, fun u => by show Lang (altsTree a) u ↔ _; rw [alts_means a ha]⟩

end Noodle
