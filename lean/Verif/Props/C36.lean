import Verif.Model.Display
import Verif.Spec.Display
import Verif.Props.C33
/-
C36: printing an expression and parsing what was printed.
-/
namespace Noodle
open Spec
set_option autoImplicit false

/-! ### What is printed, as surface syntax -/

def CharSet.symbols (s : CharSet) : List Ch := (List.finRange 28).filter fun x => s.contains x

def clsTerm (s : CharSet) : Term :=
  if s = CharSet.letters then .dot
  else if s = CharSet.all then .cls false [.range 'a' 'z', .one '_', .one '\'']
  else match s.symbols with
    | [x] => .chr x.toChar
    | xs => .cls false (xs.map fun x => .one x.toChar)

def boundsSuffix : Nat → Option Nat → Suffix
  | 0, none => .star
  | 0, some 1 => .opt
  | 1, none => .plus
  | 0, some max => .atMost max
  | min, none => .atLeast min
  | min, some max => if min = max then .exact min else .range min max

def rowOf : List (Term × Suffix) → Row
  | [] => .last .dot .none 0
  | [x] => .last x.1 x.2 0
  | x :: l => .cons x.1 x.2 0 (rowOf l)

def barsOf : List (Term × Suffix) → Alts
  | [] => .one (.last .dot .none 0)
  | [x] => .one (.last x.1 x.2 0)
  | x :: l => .more (.last x.1 x.2 0) 0 (barsOf l)

mutual
def written : Ast → Term × Suffix
  | .cls c => (clsTerm c, .none)
  | .alts l => (.group (barsOf (writtens l)), .none)
  | .seq l => match writtens l with
    | [x] => x
    | xs => (.group (.one (rowOf xs)), .none)
  | .substr l => (.part .substring (rowOf (writtens l)), .none)
  | .rep t lo hi => ((written t).1, boundsSuffix lo hi)
  | .anagram kind bank => (.bank kind (bank.map Ch.toChar), .none)
def writtens : List Ast → List (Term × Suffix)
  | [] => []
  | a :: l => written a :: writtens l
end

def treeOf (x : Term × Suffix) : Ast := suffixTree x.2 (termTree x.1)
def textOf (x : Term × Suffix) : List Char := x.1.text ++ x.2.text

theorem writtens_length : ∀ l, (writtens l).length = l.length
  | [] => rfl
  | _ :: l => by simp [writtens, writtens_length l]

theorem rowTrees_rowOf : ∀ l, l ≠ [] → rowTrees (rowOf l) = l.map treeOf
  | [], h => absurd rfl h
  | [x], _ => rfl
  | x :: y :: l, _ => by
    have := rowTrees_rowOf (y :: l) (by simp)
    rw [rowOf, rowTrees, this]
    · rfl
    · simp

theorem altsTrees_barsOf : ∀ l, l ≠ [] → altsTrees (barsOf l) = l.map fun x => .seq [treeOf x]
  | [], h => absurd rfl h
  | [x], _ => rfl
  | x :: y :: l, _ => by
    have := altsTrees_barsOf (y :: l) (by simp)
    rw [barsOf, altsTrees, this]
    · rfl
    · simp

theorem altsTree_barsOf (l : List (Term × Suffix)) (h : 2 ≤ l.length) :
    altsTree (barsOf l) = .alts (l.map fun x => .seq [treeOf x]) := by
  match l, h with
  | x :: y :: l, _ =>
    rw [barsOf, altsTree, altsTrees_barsOf _ (by simp)]
    · rfl
    · simp

theorem rowOf_text : ∀ l, l ≠ [] → (rowOf l).text = l.flatMap textOf
  | [], h => absurd rfl h
  | [x], _ => by simp [rowOf, Row.text, gap, textOf]
  | x :: y :: l, _ => by
    have := rowOf_text (y :: l) (by simp)
    rw [rowOf, Row.text, this]
    · simp [gap, textOf]
    · simp

def notNum (x : Term × Suffix) : Bool := !x.1.isNum

theorem rowOf_ok : ∀ l, l ≠ [] → (∀ x ∈ l, x.1.ok = true ∧ x.2.ok = true ∧ x.1.isNum = false) → (rowOf l).ok = true
  | [], h, _ => absurd rfl h
  | [x], _, h => by
    obtain ⟨h1, h2, _⟩ := h x (by simp)
    simp [rowOf, Row.ok, h1, h2]
  | x :: y :: l, _, h => by
    have := rowOf_ok (y :: l) (by simp) (fun z hz => h z (by simp [List.mem_cons.1 hz]))
    obtain ⟨h1, h2, h3⟩ := h x (by simp)
    rw [rowOf, Row.ok, this]
    · simp [h1, h2, h3]
    · simp

theorem barsOf_ok : ∀ l, l ≠ [] → (∀ x ∈ l, x.1.ok = true ∧ x.2.ok = true) → (barsOf l).ok = true
  | [], h, _ => absurd rfl h
  | [x], _, h => by
    obtain ⟨h1, h2⟩ := h x (by simp)
    simp [barsOf, Alts.ok, Row.ok, h1, h2]
  | x :: y :: l, _, h => by
    have := barsOf_ok (y :: l) (by simp) (fun z hz => h z (by simp [List.mem_cons.1 hz]))
    obtain ⟨h1, h2⟩ := h x (by simp)
    rw [barsOf, Alts.ok, this]
    · simp [Row.ok, h1, h2]
    · simp

theorem rowOf_bare : ∀ l, l ≠ [] → (∀ x ∈ l, x.2 = .none) → (rowOf l).bare = true
  | [], h, _ => absurd rfl h
  | [x], _, h => by simp [rowOf, Row.bare, h x (by simp)]
  | x :: y :: l, _, h => by
    have := rowOf_bare (y :: l) (by simp) (fun z hz => h z (by simp [List.mem_cons.1 hz]))
    rw [rowOf, Row.bare, this]
    · simp [h x (by simp)]
    · simp

theorem barsOf_text : ∀ x l, (barsOf (x :: l)).text = textOf x ++ l.flatMap fun y => '|' :: textOf y
  | x, [] => by simp [barsOf, Alts.text, Row.text, gap, textOf]
  | x, y :: l => by
    have := barsOf_text y l
    rw [barsOf, Alts.text, this]
    · simp [Row.text, gap, textOf]
    · simp

/-! ### Classes -/

theorem ofChar_toChar (x : Ch) : chOfChar x.toChar = x := by revert x; decide
theorem plain_toChar (x : Ch) : plainChar x.toChar = true := by revert x; decide
theorem alpha_toChar (x : Ch) (h : x.val < 26) : x.toChar.isAlpha = true := by revert x; decide

theorem CharSet.ext {s t : CharSet} (hs : s.WF) (ht : t.WF) (h : ∀ x, s.contains x = t.contains x) : s = t := by
  apply BitVec.eq_of_getLsbD_eq
  intro i _
  by_cases h28 : i < 28
  · have := h ⟨i, h28⟩
    rwa [CharSet.contains_eq, CharSet.contains_eq] at this
  · rw [hs i (by omega), ht i (by omega)]

theorem CharSet.wf_of_lt {s : CharSet} (h : s.toNat < 2 ^ 28) : s.WF := by
  intro i hi
  rw [BitVec.getLsbD]
  apply Nat.testBit_lt_two_pow
  exact Nat.lt_of_lt_of_le h (Nat.pow_le_pow_right (by decide) hi)

theorem CharSet.mem_symbols (s : CharSet) (x : Ch) : x ∈ s.symbols ↔ s.contains x = true := by
  simp [CharSet.symbols]

theorem CharSet.countOnes_eq (s : CharSet) (h : s.WF) : s.countOnes = s.symbols.length := by
  have e : ((List.finRange 28).map fun x => x.val) = List.range 28 := by decide
  have h2 : List.range 32 = List.range 28 ++ [28, 29, 30, 31] := by decide
  unfold CharSet.countOnes CharSet.symbols
  rw [h2, List.filter_append, ← e, List.filter_map]
  simp only [List.filter_cons, h 28 (by omega), h 29 (by omega), h 30 (by omega), h 31 (by omega), List.filter_nil]
  simp only [Bool.false_eq_true, if_false, List.append_nil, List.length_map]
  congr 1
  apply List.filter_congr
  intro x _
  simp [CharSet.contains_eq]

theorem CharSet.show_symbols (s : CharSet) :
    (List.finRange 28).flatMap (fun i => if CharSet.ofCh i &&& s != 0#32 then Ch.show i else []) =
      s.symbols.map Ch.toChar := by
  unfold CharSet.symbols
  generalize List.finRange 28 = l
  induction l with
  | nil => rfl
  | cons x l ih =>
    rw [List.flatMap_cons, ih]
    have : (CharSet.ofCh x &&& s != 0#32) = s.contains x := CharSet.ofCh_intersects s x
    rw [this, List.filter_cons]
    cases s.contains x <;> simp [Ch.show]

theorem symbols_ne (s : CharSet) (h0 : 0 < s.toNat) (h : s.WF) : s.symbols ≠ [] := by
  intro e
  have : s = 0#32 := (CharSet.eq_empty_iff s h).2 fun x => by
    cases hx : s.contains x
    · rfl
    · have := (CharSet.mem_symbols s x).2 hx
      rw [e] at this
      simp at this
  rw [this] at h0
  simp at h0

theorem itemsSet_ones (xs : List Ch) (s : CharSet) (x : Ch) :
    ((xs.map fun x => Item.one x.toChar).foldl (fun s i => s.union (itemSet i)) s).contains x =
      (s.contains x || decide (x ∈ xs)) := by
  induction xs generalizing s with
  | nil => simp
  | cons y xs ih =>
    rw [List.map_cons, List.foldl_cons, ih, CharSet.contains_union]
    simp only [itemSet, CharSet.ofChar, ofChar_toChar, CharSet.contains_ofCh]
    by_cases hy : x = y <;> simp [hy, Bool.or_comm]

theorem wf_union {s t : CharSet} (hs : s.WF) (ht : t.WF) : (s.union t).WF := by
  intro i hi
  simp [CharSet.union, hs i hi, ht i hi]
theorem wf_ofCh (x : Ch) : (CharSet.ofCh x).WF := by
  intro i hi
  rw [CharSet.getLsbD_ofCh]
  simp
  omega

theorem itemsSet_wf (xs : List Ch) (s : CharSet) (hs : s.WF) :
    CharSet.WF ((xs.map fun x => Item.one x.toChar).foldl (fun s i => s.union (itemSet i)) s) := by
  induction xs generalizing s with
  | nil => exact hs
  | cons y xs ih =>
    rw [List.map_cons, List.foldl_cons]
    exact ih _ (wf_union hs (wf_ofCh _))

theorem clsTerm_tree (s : CharSet) (h0 : 0 < s.toNat) (h : s.toNat < 2 ^ 28) : termTree (clsTerm s) = .cls s := by
  have hw := CharSet.wf_of_lt h
  unfold clsTerm
  split
  · next e => rw [termTree, e]
  split
  · next e =>
    rw [e, termTree]
    exact congrArg Ast.cls (by decide +kernel)
  split
  · next x hx =>
    rw [termTree, CharSet.ofChar, ofChar_toChar]
    congr 1
    apply CharSet.ext (wf_ofCh x) hw
    intro y
    rw [CharSet.contains_ofCh]
    have := CharSet.mem_symbols s y
    rw [hx] at this
    cases hy : s.contains y <;> simp_all
  · rw [termTree]
    simp only [Bool.false_eq_true, if_false]
    congr 1
    apply CharSet.ext (itemsSet_wf _ _ (by intro i _; simp [CharSet.empty])) hw
    intro y
    have e := itemsSet_ones s.symbols CharSet.empty y
    rw [CharSet.contains_empty] at e
    refine e.trans ?_
    have := CharSet.mem_symbols s y
    cases hy : s.contains y <;> simp_all

theorem clsTerm_text (s : CharSet) (h0 : 0 < s.toNat) (h : s.toNat < 2 ^ 28) :
    (clsTerm s).text = Ast.show (.cls s) := by
  have hw := CharSet.wf_of_lt h
  have hne := symbols_ne s h0 hw
  rw [Ast.show]
  unfold clsTerm CharSet.show
  split
  · rfl
  split
  · rfl
  rw [CharSet.countOnes_eq s hw, CharSet.show_symbols]
  split
  · next x hx => simp [hx, Term.text]
  · next h1 =>
    have h2 : 1 < s.symbols.length := by
      match e : s.symbols with
      | [] => exact absurd e hne
      | [x] => exact absurd e (h1 x)
      | _ :: _ :: _ => simp
    have h3 : ¬ s.symbols.length = 0 := by omega
    simp only [h2, h3, if_true, if_false, Term.text, Bool.false_eq_true]
    congr 2
    rw [List.flatMap_map]
    simp only [Item.text]
    generalize s.symbols = l
    induction l with
    | nil => rfl
    | cons x l ih => simp [ih]

theorem clsTerm_ok (s : CharSet) (h0 : 0 < s.toNat) (h : s.toNat < 2 ^ 28) :
    (clsTerm s).ok = true ∧ (clsTerm s).isNum = false := by
  have hne := symbols_ne s h0 (CharSet.wf_of_lt h)
  unfold clsTerm
  split
  · exact ⟨rfl, rfl⟩
  split
  · exact ⟨by decide, rfl⟩
  split
  · exact ⟨plain_toChar _, rfl⟩
  · refine ⟨?_, rfl⟩
    simp [Term.ok, Item.ok, plain_toChar, hne]

theorem showBounds_eq : ∀ (lo : Nat) (hi : Option Nat), (boundsSuffix lo hi).text = showBounds lo hi
  | 0, none => rfl
  | 1, none => rfl
  | _ + 2, none => rfl
  | 0, some 0 => rfl
  | 0, some 1 => rfl
  | 0, some (_ + 2) => rfl
  | n + 1, some m => by
    simp only [boundsSuffix, showBounds]
    split <;> rfl

theorem boundsSuffix_tree (lo : Nat) (hi : Option Nat) (t : Ast) : suffixTree (boundsSuffix lo hi) t = .rep t lo hi := by
  unfold boundsSuffix
  split <;> first | rfl | skip
  split
  · next h => subst h; rfl
  · rfl

theorem boundsSuffix_ok : ∀ (lo : Nat) (hi : Option Nat), lo < 2 ^ 64 → hi.all (fun m => decide (m < 2 ^ 64)) = true →
    (boundsSuffix lo hi).ok = true
  | 0, none, _, _ => rfl
  | 1, none, _, _ => rfl
  | _ + 2, none, h, _ => decide_eq_true h
  | 0, some 0, _, h => rfl
  | 0, some 1, _, _ => rfl
  | 0, some (_ + 2), _, h => h
  | n + 1, some m, h1, h2 => by
    have h2 : decide (m < 2 ^ 64) = true := h2
    simp only [boundsSuffix]
    split
    · exact decide_eq_true h1
    · simp only [Suffix.ok, h2, decide_eq_true h1]; rfl

theorem bank_show (b : List Ch) : b.flatMap Ch.show = b.map Ch.toChar := by
  induction b with
  | nil => rfl
  | cons x b ih => simp [Ch.show, ih]

theorem bankText_show (k : AnagramKind) : bankText k = showKind k ++ ['>'] := by
  cases k <;> simp [bankText, showKind] <;> rfl

/-! ### Trees -/

/-- What is written for a tree is what is printed, can be read, and has the same meaning, the same symbols and the
same print. -/
structure Faithful (a : Ast) (x : Term × Suffix) : Prop where
  text : textOf x = a.show
  okT : x.1.ok = true
  okS : x.2.ok = true
  notNum : x.1.isNum = false
  bare : Spec.bare a = true → x.2 = .none
  lang : ∀ u, Lang (treeOf x) u ↔ Lang a u
  appears : ∀ y, Appears y (treeOf x) ↔ Appears y a
  show_eq : (treeOf x).show = a.show

theorem lang_alts_iff (l : List Ast) (u : List Ch) : Lang (.alts l) u ↔ ∃ a ∈ l, Lang a u :=
  ⟨fun h => by cases h; exact ⟨_, ‹_›, ‹_›⟩, fun ⟨_, h, k⟩ => .alts h k⟩

theorem show_seq_one (a : Ast) : (Ast.seq [a]).show = a.show := by simp [Ast.show, showList]

theorem showList_eq (l : List Ast) : showList l = l.flatMap Ast.show := by
  induction l with
  | nil => simp [showList]
  | cons a l ih => simp [showList, ih]
theorem showBars_eq (l : List Ast) : showBars l = l.flatMap fun a => '|' :: a.show := by
  induction l with
  | nil => simp [showBars]
  | cons a l ih => simp [showBars, ih]

/-- Pointwise. -/
abbrev AllFaithful : List Ast → List (Term × Suffix) → Prop := List.Forall₂ Faithful

theorem AllFaithful.langs {l : List Ast} {xs : List (Term × Suffix)} (h : AllFaithful l xs) :
    (xs.map treeOf).map Lang = l.map Lang := by
  induction h with
  | nil => rfl
  | cons h _ ih => simp only [List.map_cons, ih]; congr 1; funext u; exact propext (h.lang u)

theorem AllFaithful.any {l : List Ast} {xs : List (Term × Suffix)} (h : AllFaithful l xs) {P Q : Ast → Prop}
    (hp : ∀ a x, Faithful a x → (Q (treeOf x) ↔ P a)) : (∃ t ∈ xs.map treeOf, Q t) ↔ ∃ a ∈ l, P a := by
  induction h with
  | nil => simp
  | cons h _ ih => simp only [List.map_cons, List.mem_cons, exists_eq_or_imp, ih, hp _ _ h]

theorem AllFaithful.shows {l : List Ast} {xs : List (Term × Suffix)} (h : AllFaithful l xs) :
    (xs.map treeOf).flatMap Ast.show = l.flatMap Ast.show := by
  induction h with
  | nil => rfl
  | cons h _ ih => simp only [List.map_cons, List.flatMap_cons, ih, h.show_eq]

theorem AllFaithful.texts {l : List Ast} {xs : List (Term × Suffix)} (h : AllFaithful l xs) :
    xs.flatMap textOf = l.flatMap Ast.show := by
  induction h with
  | nil => rfl
  | cons h _ ih => simp only [List.flatMap_cons, ih, h.text]

theorem AllFaithful.bars {l : List Ast} {xs : List (Term × Suffix)} (h : AllFaithful l xs) :
    (xs.flatMap fun x => '|' :: textOf x) = l.flatMap fun a => '|' :: a.show := by
  induction h with
  | nil => rfl
  | cons h _ ih => simp only [List.flatMap_cons, ih, h.text]

theorem AllFaithful.mem {l : List Ast} {xs : List (Term × Suffix)} (h : AllFaithful l xs) {x : Term × Suffix}
    (hx : x ∈ xs) : ∃ a ∈ l, Faithful a x := by
  induction h with
  | nil => simp at hx
  | cons h _ ih =>
    rcases List.mem_cons.1 hx with rfl | hx
    · exact ⟨_, List.mem_cons_self .., h⟩
    · obtain ⟨a, ha, hf⟩ := ih hx
      exact ⟨a, List.mem_cons_of_mem _ ha, hf⟩

theorem faithful_seq {l : List Ast} {xs : List (Term × Suffix)} (h : AllFaithful l xs) (h2 : 2 ≤ l.length) :
    Faithful (.seq l) (.group (.one (rowOf xs)), .none) := by
  have hl : l.length = xs.length := h.length_eq
  have hne : xs ≠ [] := by rintro rfl; rw [List.length_nil] at hl; omega
  have hk : 1 < l.length := h2
  have hx : 1 < xs.length := by omega
  have ht : treeOf (.group (.one (rowOf xs)), .none) = .seq (xs.map treeOf) := by
    show altsTree (.one (rowOf xs)) = _
    rw [altsTree, rowTrees_rowOf xs hne]
  refine ⟨?_, ?_, rfl, rfl, fun _ => rfl, fun u => ?_, fun y => ?_, ?_⟩
  · show (Term.group (.one (rowOf xs))).text ++ [] = _
    rw [List.append_nil, Term.text, Alts.text, rowOf_text xs hne, h.texts, Ast.show, showList_eq]
    simp only [hk, if_true]
  · show (Term.group (.one (rowOf xs))).ok = true
    rw [Term.ok, Alts.ok]
    refine rowOf_ok xs hne fun x hx => ?_
    obtain ⟨a, _, f⟩ := h.mem hx
    exact ⟨f.okT, f.okS, f.notNum⟩
  · rw [ht, lang_seq_concat, lang_seq_concat, h.langs]
  · rw [ht, appears_seq, appears_seq]
    exact h.any fun a x f => f.appears y
  · rw [ht, Ast.show, Ast.show, showList_eq, showList_eq, h.shows]
    simp only [List.length_map, hk, hx, if_true]

theorem faithful_substr {l : List Ast} {xs : List (Term × Suffix)} (h : AllFaithful l xs) (h2 : 2 ≤ l.length)
    (hb : l.all Spec.bare = true) : Faithful (.substr l) (.part .substring (rowOf xs), .none) := by
  have hl : l.length = xs.length := h.length_eq
  have hne : xs ≠ [] := by rintro rfl; rw [List.length_nil] at hl; omega
  have hk : 1 < l.length := h2
  have hx : 1 < xs.length := by omega
  have ht : treeOf (.part .substring (rowOf xs), .none) = .substr (xs.map treeOf) := by
    show partTree .substring (rowTrees (rowOf xs)) = _
    rw [partTree, rowTrees_rowOf xs hne]
  refine ⟨?_, ?_, rfl, rfl, fun _ => rfl, fun u => ?_, fun y => ?_, ?_⟩
  · show (Term.part .substring (rowOf xs)).text ++ [] = _
    rw [List.append_nil, Term.text, rowOf_text xs hne, h.texts, Ast.show, showList_eq]
    simp only [hk, if_true, PartKind.text]
  · show (Term.part .substring (rowOf xs)).ok = true
    rw [Term.ok, Bool.and_eq_true]
    refine ⟨rowOf_ok xs hne fun x hx => ?_, rowOf_bare xs hne fun x hx => ?_⟩
    · obtain ⟨a, _, f⟩ := h.mem hx
      exact ⟨f.okT, f.okS, f.notNum⟩
    · obtain ⟨a, ha, f⟩ := h.mem hx
      exact f.bare (List.all_eq_true.1 hb a ha)
  · rw [ht, lang_substr_iff, lang_substr_iff, h.langs]
  · rw [ht, appears_substr, appears_substr]
    exact h.any fun a x f => f.appears y
  · rw [ht, Ast.show, Ast.show, showList_eq, showList_eq, h.shows]
    simp only [List.length_map, hk, hx, if_true]

theorem faithful_alts {l : List Ast} {xs : List (Term × Suffix)} (h : AllFaithful l xs) (h2 : 2 ≤ l.length) :
    Faithful (.alts l) (.group (barsOf xs), .none) := by
  have hl : l.length = xs.length := h.length_eq
  have hne : xs ≠ [] := by rintro rfl; rw [List.length_nil] at hl; omega
  have ht : treeOf (.group (barsOf xs), .none) = .alts ((xs.map treeOf).map fun t => .seq [t]) := by
    show altsTree (barsOf xs) = _
    rw [altsTree_barsOf xs (by rw [← hl]; exact h2), List.map_map]
    rfl
  refine ⟨?_, ?_, rfl, rfl, fun _ => rfl, fun u => ?_, fun y => ?_, ?_⟩
  · show (Term.group (barsOf xs)).text ++ [] = _
    rw [List.append_nil, Term.text]
    cases h with
    | nil => simp at h2
    | cons f fs =>
      rw [barsOf_text, AllFaithful.bars fs, f.text, Ast.show, showBars_eq]
      simp
  · show (Term.group (barsOf xs)).ok = true
    rw [Term.ok]
    refine barsOf_ok xs hne fun x hx => ?_
    obtain ⟨a, _, f⟩ := h.mem hx
    exact ⟨f.okT, f.okS⟩
  · rw [ht, lang_alts_iff, lang_alts_iff]
    simp only [List.mem_map, exists_exists_and_eq_and, lang_seq_one]
    have := h.any (P := fun a => Lang a u) (Q := fun a => Lang a u) fun a x f => f.lang u
    simpa using this
  · rw [ht, appears_alts, appears_alts]
    have := h.any (P := fun a => Appears y a) (Q := fun a => Appears y a) fun a x f => f.appears y
    simpa [appears_seq] using this
  · rw [ht]
    cases h with
    | nil => simp at h2
    | @cons a x l xs f fs =>
      simp only [List.map_cons, Ast.show, showBars_eq, showList, List.length_cons, List.length_nil, f.show_eq]
      have : (((xs.map treeOf).map fun t => Ast.seq [t]).flatMap fun a => '|' :: a.show) = l.flatMap fun a => '|' :: a.show := by
        clear f ht hl hne h2
        induction fs with
        | nil => rfl
        | cons f _ ih => simp only [List.map_cons, List.flatMap_cons, ih, show_seq_one, f.show_eq]
      rw [this]
      simp

mutual
theorem written_faithful : ∀ a : Ast, printable a = true → Faithful a (written a)
  | .cls c, h => by
    simp only [printable, Bool.and_eq_true, decide_eq_true_eq] at h
    have e : treeOf (clsTerm c, .none) = .cls c := clsTerm_tree c h.1 h.2
    rw [written]
    exact ⟨by rw [← clsTerm_text c h.1 h.2]; simp [textOf, Suffix.text], (clsTerm_ok c h.1 h.2).1, rfl,
      (clsTerm_ok c h.1 h.2).2, fun _ => rfl, fun u => by rw [e], fun y => by rw [e], by rw [e]⟩
  | .alts l, h => by
    simp only [printable, Bool.and_eq_true, decide_eq_true_eq] at h
    rw [written]
    exact faithful_alts (writtens_faithful l h.2) h.1
  | .seq l, h => by
    simp only [printable, Bool.and_eq_true, decide_eq_true_eq] at h
    have hf := writtens_faithful l h.2
    have hl := writtens_length l
    rw [written]
    match l, h.1, hf, hl with
    | [a], _, hf, hl =>
      simp only [writtens]
      simp only [writtens] at hf
      have f : Faithful a (written a) := by cases hf; assumption
      exact ⟨by rw [f.text, show_seq_one], f.okT, f.okS, f.notNum, fun hb => f.bare (by simpa [Spec.bare] using hb),
        fun u => by rw [f.lang, lang_seq_one], fun y => by rw [f.appears, appears_seq]; simp,
        by rw [f.show_eq, show_seq_one]⟩
    | a :: b :: l, _, hf, hl =>
      have := faithful_seq hf (by simp)
      simpa only [writtens] using this
  | .substr l, h => by
    simp only [printable, Bool.and_eq_true, decide_eq_true_eq] at h
    rw [written]
    exact faithful_substr (writtens_faithful l h.1.2) h.1.1 h.2
  | .rep t lo hi, h => by
    simp only [printable, Bool.and_eq_true, decide_eq_true_eq] at h
    have f := written_faithful t h.1.1.1
    have hs := f.bare h.1.1.2
    have e : treeOf ((written t).1, boundsSuffix lo hi) = .rep (treeOf (written t)) lo hi := by
      show suffixTree (boundsSuffix lo hi) _ = _
      rw [boundsSuffix_tree, treeOf, hs]; rfl
    have hx : (written t).1.text = t.show := by
      have := f.text
      rw [textOf, hs] at this
      simpa [Suffix.text] using this
    rw [written]
    refine ⟨?_, f.okT, boundsSuffix_ok lo hi h.1.2 h.2, f.notNum, fun hb => by simp [Spec.bare] at hb,
      fun u => ?_, fun y => ?_, ?_⟩
    · rw [textOf, hx, showBounds_eq, Ast.show]
    · rw [e, lang_rep_iff, lang_rep_iff]
      have : Lang (treeOf (written t)) = Lang t := by funext u; exact propext (f.lang u)
      rw [this]
    · rw [e, appears_rep, appears_rep, f.appears]
    · rw [e, Ast.show, Ast.show, f.show_eq]
  | .anagram k b, h => by
    simp only [printable, Bool.and_eq_true] at h
    have hm : (b.map Ch.toChar).map chOfChar = b := by
      rw [List.map_map]
      conv => rhs; rw [← List.map_id b]
      apply List.map_congr_left
      intro x _
      exact ofChar_toChar x
    have hc : clampKind (b.map Ch.toChar).length k = k := by
      cases k <;> simp only [clampKind]
      next n =>
        simp only [bankFits, Bool.and_eq_true, decide_eq_true_eq] at h
        rw [List.length_map, if_neg (by omega)]
    have e : treeOf (.bank k (b.map Ch.toChar), .none) = .anagram k b := by
      show termTree _ = _
      rw [termTree, hm, hc]
    rw [written]
    refine ⟨?_, ?_, rfl, rfl, fun _ => rfl, fun u => by rw [e], fun y => by rw [e], by rw [e]⟩
    · simp [textOf, Term.text, Suffix.text, Ast.show, bank_show, bankText_show]
    · show (Term.bank k (b.map Ch.toChar)).ok = true
      rw [Term.ok, Bool.and_eq_true, Bool.and_eq_true]
      refine ⟨⟨?_, by simpa using h.1.2⟩, ?_⟩
      · have := h.1.1
        cases k <;> simp_all [bankFits, bankOk]
      · rw [List.all_eq_true] at h ⊢
        intro c hc
        obtain ⟨x, hx, rfl⟩ := List.mem_map.1 hc
        exact alpha_toChar x (of_decide_eq_true (h.2 x hx))
theorem writtens_faithful : ∀ l : List Ast, printables l = true → AllFaithful l (writtens l)
  | [], _ => by rw [writtens]; exact .nil
  | a :: l, h => by
    simp only [printables, Bool.and_eq_true] at h
    rw [writtens]
    exact .cons (written_faithful a h.1) (writtens_faithful l h.2)
end
/-! ### Expressions -/

def withGaps : List Flag → List (Flag × Nat)
  | [] => []
  | [f] => [(f, 0)]
  | f :: fs => (f, 1) :: withGaps fs

theorem withGaps_text : ∀ fs : List Flag,
    gap (if fs.isEmpty then 0 else 1) ++ flagsText (withGaps fs) = fs.flatMap fun f => ' ' :: f.text
  | [] => rfl
  | [f] => by simp [withGaps, flagsText, gap]
  | f :: g :: fs => by
    have := withGaps_text (g :: fs)
    rw [withGaps]
    · rw [flagsText, List.flatMap_cons, List.flatMap_cons, ← this]
      simp [flagsText, gap]
    · simp

theorem withGaps_mem : ∀ (fs : List Flag) (P : Flag → Prop), (∃ f ∈ withGaps fs, P f.1) ↔ ∃ f ∈ fs, P f
  | [], P => by simp [withGaps]
  | [f], P => by simp [withGaps]
  | f :: g :: fs, P => by
    have := withGaps_mem (g :: fs) P
    rw [withGaps]
    · rw [List.exists_mem_cons_iff, this, List.exists_mem_cons_iff (a := f)]
    · simp

theorem withGaps_all (fs : List Flag) (h : ∀ f ∈ fs, f.ok = true) : ((withGaps fs).all fun f => f.1.ok) = true := by
  rw [List.all_eq_true]
  intro f hf
  cases e : f.1.ok with
  | true => rfl
  | false =>
    obtain ⟨g, hg, hg'⟩ := (withGaps_mem fs fun f => f.ok = false).1 ⟨f, hf, e⟩
    rw [h g hg] at hg'
    cases hg'

theorem lastFuzz_withGaps : ∀ fs : List Flag, lastFuzz (withGaps fs) = lastFuzz (fs.map fun f => (f, 0))
  | [] => rfl
  | [f] => rfl
  | f :: g :: fs => by
    have := lastFuzz_withGaps (g :: fs)
    rw [withGaps]
    · rw [List.map_cons]
      cases f <;> simp only [lastFuzz, this]
    · simp

def flagsOf (o : ExprOptions) : List Flag :=
  (if o.explicitWB = some true then [.boundaries] else []) ++
  (if o.explicitPunct = some true then [.punctuation] else []) ++
  (match o.fuzz with
    | some n => [.fuzz n]
    | none => [])

theorem flagsOf_spec (o : ExprOptions) (hf : ∀ n ∈ o.fuzz, n < 2 ^ 64) :
    ((∃ f ∈ flagsOf o, f = .boundaries) ↔ o.explicitWB = some true) ∧
    ((∃ f ∈ flagsOf o, f = .punctuation) ↔ o.explicitPunct = some true) ∧
    lastFuzz ((flagsOf o).map fun f => (f, 0)) = o.fuzz ∧
    (∀ f ∈ flagsOf o, f.ok = true) ∧
    ((flagsOf o).flatMap fun f => ' ' :: f.text) =
      (if o.explicitWB = some true then [' ', '!', '_'] else []) ++
      (if o.explicitPunct = some true then [' ', '!', '\''] else []) ++
      (match o.fuzz with
        | some n => [' ', '!'] ++ showNat n
        | none => []) := by
  unfold flagsOf
  by_cases h1 : o.explicitWB = some true <;> by_cases h2 : o.explicitPunct = some true <;>
    cases h3 : o.fuzz <;>
    simp_all [lastFuzz, Flag.ok, Flag.text, showNat, digits]

/-- What is the same of two expressions: the strings they stand for, whether word boundaries and punctuation are
significant, the fuzz. -/
structure SameMeaning (e' e : ExprAst) : Prop where
  strings : ∀ u, Lang e'.root u ↔ Lang e.root u
  boundaries : e'.options.explicitWB = some true ↔ e.options.explicitWB = some true
  punctuation : e'.options.explicitPunct = some true ↔ e.options.explicitPunct = some true
  fuzz : e'.options.fuzz = e.options.fuzz

/-- C36: an expression that can be printed is parsed back to one of the same meaning, which prints the same. Its
options take into account the symbols that appear in it, as parsing ensures. -/
theorem C36_roundtrip_partial (e : ExprAst) (hp : printable e.root = true)
    (hw : Appears Ch.wordEnd e.root → e.options.explicitWB = some true)
    (hq : Appears Ch.punct e.root → e.options.explicitPunct = some true) (hf : ∀ n ∈ e.options.fuzz, n < 2 ^ 64) :
    ∃ e', ExprAst.ofText e.show = .ok (some e') ∧ SameMeaning e' e ∧ e'.show = e.show := by
  have f := written_faithful e.root hp
  obtain ⟨o1, o2, o3, o4, o5⟩ := flagsOf_spec e.options hf
  let b := if (flagsOf e.options).isEmpty then 0 else 1
  let a : Alts := .one (.last (written e.root).1 (written e.root).2 b)
  let fs := withGaps (flagsOf e.options)
  have htext : exprText 0 a fs = e.show := by
    have h1 := withGaps_text (flagsOf e.options)
    have h2 := f.text
    show gap 0 ++ (Row.last _ _ _).text ++ flagsText fs = _
    rw [Row.text, ExprAst.show, ← h2, textOf]
    rw [o5] at h1
    simp only [List.append_assoc] at h1 ⊢
    show _ ++ (_ ++ (_ ++ (gap b ++ flagsText fs))) = _
    rw [show gap b ++ flagsText fs = _ from h1]
    rfl
  have hok : a.ok = true := by
    show (Row.last _ _ _).ok = true
    rw [Row.ok, f.okT, f.okS]; rfl
  have hfs := withGaps_all _ o4
  have hroot : altsTree a = .seq [treeOf (written e.root)] := rfl
  have happ : ∀ y, Appears y (altsTree a) ↔ Appears y e.root := fun y => by
    rw [hroot, appears_seq]; simpa using f.appears y
  obtain ⟨h1, h2, h3⟩ := C33_tree (altsTree a) (flagOptions fs)
  obtain ⟨k1, k2, k3⟩ := flagOptions_spec fs
  have hsame : SameMeaning (exprOf a fs) e := by
    refine ⟨fun u => ?_, ?_, ?_, ?_⟩
    · show Lang (altsTree a) u ↔ _
      rw [hroot, lang_seq_one, f.lang]
    · refine h1.trans ?_
      rw [happ, k1, withGaps_mem _ fun f => f = .boundaries, o1]
      exact ⟨fun h => h.elim hw id, Or.inr⟩
    · refine h2.trans ?_
      rw [happ, k2, withGaps_mem _ fun f => f = .punctuation, o2]
      exact ⟨fun h => h.elim hq id, Or.inr⟩
    · refine h3.trans (k3.trans ?_)
      rw [lastFuzz_withGaps, o3]
  refine ⟨_, htext ▸ ofText_ok 0 a fs hok hfs, hsame, ?_⟩
  have hs : (exprOf a fs).root.show = e.root.show := by
    show (altsTree a).show = _
    rw [hroot, show_seq_one, f.show_eq]
  unfold ExprAst.show
  rw [hs, hsame.fuzz]
  simp only [hsame.boundaries, hsame.punctuation]

theorem parseUsize_lt {l : List Char} {n : Nat} (h : parseUsize l = some n) : n < 2 ^ 64 := by
  unfold parseUsize at h
  split at h
  · next h' =>
    simp only [Bool.and_eq_true, decide_eq_true_eq] at h'
    cases h
    exact h'.2
  · cases h

theorem parseNumbers_lt {ps : List Peg.Pair} {n : Nat} (h : n ∈ parseNumbers ps) : n < 2 ^ 64 := by
  unfold parseNumbers at h
  obtain ⟨p, _, hp⟩ := List.mem_filterMap.1 h
  split at hp
  · exact parseUsize_lt hp
  · cases hp

theorem parseOption_fuzz {o o' : ExprOptions} {p : Peg.Pair} (h : parseOption o p = .ok o')
    (ho : ∀ n ∈ o.fuzz, n < 2 ^ 64) : ∀ n ∈ o'.fuzz, n < 2 ^ 64 := by
  unfold parseOption at h
  split at h
  · cases h; exact ho
  · cases h; exact ho
  · split at h
    · next n hn =>
      cases h
      intro m hm
      cases hm
      exact parseNumbers_lt (List.mem_of_getElem? hn)
    · cases h
  · cases h; exact ho
  · cases h

theorem parseOptions_fuzz (ps : List Peg.Pair) (o o' : ExprOptions) (h : ps.foldlM parseOption o = .ok o')
    (ho : ∀ n ∈ o.fuzz, n < 2 ^ 64) : ∀ n ∈ o'.fuzz, n < 2 ^ 64 := by
  induction ps generalizing o with
  | nil => cases h; exact ho
  | cons p ps ih =>
    rw [List.foldlM_cons] at h
    cases h1 : parseOption o p with
    | error c => rw [h1] at h; cases h
    | ok o1 => rw [h1] at h; exact ih o1 h (parseOption_fuzz h1 ho)

/-- C36 for parsed expressions: whatever the text was, if parsing it succeeds and the tree can be printed, then parsing
the print gives an expression of the same meaning (and the same print). -/
theorem C36_parsed_partial (l : List Char) (e : ExprAst) (h : ExprAst.ofText l = .ok (some e)) (hp : printable e.root = true) :
    ∃ e', ExprAst.ofText e.show = .ok (some e') ∧ SameMeaning e' e ∧ e'.show = e.show := by
  have : ∃ (a : Ast) (o : ExprOptions), e = ⟨a, detectOptions a o⟩ ∧ ∀ n ∈ o.fuzz, n < 2 ^ 64 := by
    unfold ExprAst.ofText at h
    revert h
    generalize Peg.parse .expression l = r
    intro h
    match r, h with
    | some (some p), h =>
      simp only at h
      cases h1 : parseExpression p with
      | error c => rw [h1] at h; cases h
      | ok e1 =>
        rw [h1] at h
        cases h
        unfold parseExpression at h1
        split at h1
        · cases h1
        · split at h1
          · cases h1
          · next sub ps _ =>
            split at h1
            · cases h2 : parseTerm sub with
              | error c => rw [h2] at h1; cases h1
              | ok r =>
                rw [h2] at h1
                cases r with
                | none => cases h1
                | some a =>
                  cases h3 : parseOptions ps with
                  | error c => simp [Except.bind, h3, Except.map] at h1
                  | ok o =>
                    simp only [Except.bind, h3, Except.map, Except.ok.injEq] at h1
                    exact ⟨a, o, h1.symm, parseOptions_fuzz ps {} o h3 (by simp)⟩
            · cases h1
  obtain ⟨a, o, rfl, hf⟩ := this
  obtain ⟨h1, h2, h3⟩ := C33_tree a o
  refine C36_roundtrip_partial _ hp (fun h => h1.2 (.inl h)) (fun h => h2.2 (.inl h)) ?_
  intro n hn
  exact hf n (h3 ▸ hn)

/-- `(a[bc]*|<cat-1>d{2,5})?(ef:^)5 !2` -/
def sampleExpr : ExprAst where
  root := .seq [.rep (.alts [.seq [.cls (CharSet.ofChar 'a'), .rep (.cls (CharSet.fromRange 'b' 'c')) 0 none],
      .seq [.anagram (.transDelete 1) [2, 0, 19], .rep (.cls (CharSet.ofChar 'd')) 2 (some 5)]]) 0 (some 1),
    .substr [.cls (CharSet.ofChar 'e'), .cls (CharSet.ofChar 'f')],
    .seq [.rep (.cls CharSet.letters) 5 (some 5), .cls (CharSet.ofCh Ch.wordEnd)]]
  options := { explicitWB := some true, fuzz := some 2 }
example : printable sampleExpr.root = true := by decide +kernel
example : sampleExpr.show = "(((a[bc]*)|(<cat-1>d{2,5}))?(ef:^)(.{5}_)) !_ !2".toList := by decide +kernel

/-! ### Trees that are not printed faithfully -/

def unreadable (l : List Char) : Bool := match Peg.parse .expression l with
  | some none => true
  | _ => false
theorem unreadable_spec (l : List Char) (h : unreadable l = true) : ExprAst.ofText l = .ok none := by
  unfold unreadable at h
  unfold ExprAst.ofText
  revert h
  generalize Peg.parse .expression l = r
  intro h
  match r, h with
  | some none, _ => rfl

/-- The conditions are needed: the parser makes these trees, and what is printed means something else or nothing.
`(a*)*` prints `a**`, a syntax error; `[^a-z]`, which nothing matches, prints `0`, the empty word; `(a:^)`, which the
documentation lets match nothing, prints `a`. -/
theorem C36_counterexample :
    (∃ e, ExprAst.ofText "(a*)*".toList = .ok (some e) ∧ e.show = "a**".toList ∧
      ExprAst.ofText e.show = .ok none) ∧
    (∃ e e', ExprAst.ofText "[^a-z]".toList = .ok (some e) ∧ e.show = "0".toList ∧
      ExprAst.ofText e.show = .ok (some e') ∧ (∀ u, ¬ Lang e.root u) ∧ Lang e'.root [Ch.wordEnd]) ∧
    (∃ e e', ExprAst.ofText "(a:^)".toList = .ok (some e) ∧ e.show = "a".toList ∧
      ExprAst.ofText e.show = .ok (some e') ∧ Lang e.root [] ∧ ¬ Lang e'.root []) := by
  refine ⟨?_, ?_, ?_⟩
  · have hs : (exprOf (.one (.last (.group (.one (.last (.chr 'a') .star 0))) .star 0)) []).show = "a**".toList := by
      decide +kernel
    refine ⟨_, ofText_ok 0 (.one (.last (.group (.one (.last (.chr 'a') .star 0))) .star 0)) [] (by decide) rfl, hs, ?_⟩
    rw [hs]
    exact unreadable_spec _ (by decide +kernel)
  · refine ⟨_, exprOf (.one (.last (.num 0) .none 0)) [], ofText_ok 0 (.one (.last (.cls true [.range 'a' 'z']) .none 0)) [] (by decide) rfl,
      by decide +kernel, ?_, ?_, ?_⟩
    · have hs : (exprOf (.one (.last (.cls true [.range 'a' 'z']) .none 0)) []).show = "0".toList := by decide +kernel
      rw [hs]
      exact ofText_ok 0 (.one (.last (.num 0) .none 0)) [] (by decide) rfl
    · intro u h
      have h : Lang (.seq [.cls (CharSet.invert (itemsSet [.range 'a' 'z']))]) u := h
      rw [lang_seq_one, lang_cls_iff] at h
      obtain ⟨x, _, h⟩ := h
      have : ∀ x : Ch, (CharSet.invert (itemsSet [.range 'a' 'z'])).contains x = false := by decide +kernel
      rw [this] at h
      cases h
    · show Lang (.seq [.seq [.rep (.cls CharSet.letters) 0 (some 0), .cls (CharSet.ofCh Ch.wordEnd)]]) _
      rw [lang_seq_one]
      exact .seqCons (u := []) (.rep (k := 0) (Nat.le_refl _) (fun _ _ => Nat.zero_le _) .seqNil)
        (lang_seq_one.2 (.cls (by decide)))
  · refine ⟨_, exprOf (.one (.last (.chr 'a') .none 0)) [], ofText_ok 0 (.one (.last (.part .substring (.last (.chr 'a') .none 0)) .none 0)) [] (by decide) rfl,
      by decide +kernel, ?_, ?_, ?_⟩
    · have hs : (exprOf (.one (.last (.part .substring (.last (.chr 'a') .none 0)) .none 0)) []).show = "a".toList := by
        decide +kernel
      rw [hs]
      exact ofText_ok 0 (.one (.last (.chr 'a') .none 0)) [] (by decide) rfl
    · show Lang (.seq [.substr [.cls (CharSet.ofChar 'a')]]) []
      rw [lang_seq_one]
      exact Lang.substr (pre := []) (mid := []) .seqNil
    · intro h
      have h : Lang (.seq [.cls (CharSet.ofChar 'a')]) [] := h
      rw [lang_seq_one, lang_cls_iff] at h
      obtain ⟨x, hx, _⟩ := h
      cases hx

end Noodle
