import Verif.Proofs.SyntaxLine
import Verif.Props.C01
import Verif.Proofs.Chars
/-
The trees the parser builds stand for what the documented syntax means.
-/
namespace Noodle
open Peg Spec
set_option autoImplicit false

theorem lang_cls_iff (c : CharSet) (u : List Ch) : Lang (.cls c) u ↔ ∃ x, u = [x] ∧ c.contains x = true := by
  constructor
  · intro h; cases h; exact ⟨_, rfl, by assumption⟩
  · rintro ⟨x, rfl, h⟩; exact .cls h

theorem lang_seq_concat (l : List Ast) (u : List Ch) : Lang (.seq l) u ↔ Concat (l.map Lang) u := by
  induction l generalizing u with
  | nil =>
    constructor
    · intro h; cases h; rfl
    · intro h; cases h; exact .seqNil
  | cons a l ih =>
    constructor
    · intro h
      cases h with
      | seqCons h1 h2 => exact ⟨_, _, rfl, h1, (ih _).1 h2⟩
    · rintro ⟨v, w, rfl, h1, h2⟩
      exact .seqCons h1 ((ih _).2 h2)

theorem lang_rep_iff (t : Ast) (lo : Nat) (hi : Option Nat) (u : List Ch) : Lang (.rep t lo hi) u ↔
    ∃ k, lo ≤ k ∧ (∀ m ∈ hi, k ≤ m) ∧ Concat (List.replicate k (Lang t)) u := by
  constructor
  · intro h
    cases h with
    | @rep _ _ _ k _ h1 h2 h3 => exact ⟨k, h1, h2, by rw [lang_seq_concat, List.map_replicate] at h3; exact h3⟩
  · rintro ⟨k, h1, h2, h3⟩
    exact .rep h1 h2 (by rw [lang_seq_concat, List.map_replicate]; exact h3)

theorem concat_one (P : Strings) (u : List Ch) : Concat [P] u ↔ P u := by
  constructor
  · rintro ⟨v, w, rfl, h1, rfl⟩; simpa using h1
  · intro h; exact ⟨u, [], by simp, h, rfl⟩

theorem lang_suffix (s : Suffix) (t : Ast) : Lang (suffixTree s t) = s.Of (Lang t) := by
  funext u
  apply propext
  cases s with
  | none =>
    constructor
    · intro h; exact ⟨1, rfl, (concat_one _ _).2 h⟩
    · rintro ⟨k, rfl, h⟩; exact (concat_one _ _).1 h
  | opt =>
    rw [suffixTree, lang_rep_iff]
    constructor
    · rintro ⟨k, _, h, h'⟩; exact ⟨k, h 1 rfl, h'⟩
    · rintro ⟨k, h, h'⟩; exact ⟨k, Nat.zero_le _, fun m hm => (by cases hm; exact h), h'⟩
  | star =>
    rw [suffixTree, lang_rep_iff]
    constructor
    · rintro ⟨k, _, h, h'⟩; exact ⟨k, trivial, h'⟩
    · rintro ⟨k, h, h'⟩; exact ⟨k, Nat.zero_le _, fun m hm => (by cases hm), h'⟩
  | plus =>
    rw [suffixTree, lang_rep_iff]
    constructor
    · rintro ⟨k, h, _, h'⟩; exact ⟨k, h, h'⟩
    · rintro ⟨k, h, h'⟩; exact ⟨k, h, fun m hm => (by cases hm), h'⟩
  | exact n =>
    rw [suffixTree, lang_rep_iff]
    constructor
    · rintro ⟨k, h1, h2, h'⟩; exact ⟨k, Nat.le_antisymm (h2 n rfl) h1, h'⟩
    · rintro ⟨k, h, h'⟩; have h : k = n := h; subst h; exact ⟨k, Nat.le_refl _, fun m hm => (by cases hm; exact Nat.le_refl _), h'⟩
  | atMost n =>
    rw [suffixTree, lang_rep_iff]
    constructor
    · rintro ⟨k, _, h2, h'⟩; exact ⟨k, h2 n rfl, h'⟩
    · rintro ⟨k, h, h'⟩; exact ⟨k, Nat.zero_le _, fun m hm => (by cases hm; exact h), h'⟩
  | atLeast n =>
    rw [suffixTree, lang_rep_iff]
    constructor
    · rintro ⟨k, h, _, h'⟩; exact ⟨k, h, h'⟩
    · rintro ⟨k, h, h'⟩; exact ⟨k, h, fun m hm => (by cases hm), h'⟩
  | range n m =>
    rw [suffixTree, lang_rep_iff]
    constructor
    · rintro ⟨k, h, h2, h'⟩; exact ⟨k, ⟨h, h2 m rfl⟩, h'⟩
    · rintro ⟨k, h, h'⟩; exact ⟨k, h.1, fun m hm => (by cases hm; exact h.2), h'⟩

/-! ### Parts -/

theorem lang_substr_iff (l : List Ast) (u : List Ch) :
    Lang (.substr l) u ↔ ∃ mid, mid <:+: l.map Lang ∧ Concat mid u := by
  constructor
  · intro h
    cases h with
    | @substr pre mid post _ h =>
      exact ⟨mid.map Lang, ⟨pre.map Lang, post.map Lang, by simp⟩, (lang_seq_concat _ _).1 h⟩
  · rintro ⟨mid, ⟨pre, post, h⟩, hc⟩
    obtain ⟨x, post', rfl, hx, rfl⟩ := List.map_eq_append_iff.1 h.symm
    obtain ⟨pre', mid', rfl, rfl, rfl⟩ := List.map_eq_append_iff.1 hx
    exact .substr ((lang_seq_concat _ _).2 hc)

theorem lang_subset_iff (l : List Ast) (u : List Ch) :
    Lang (.seq (l.map fun c => .rep c 0 (some 1))) u ↔ ∃ s, s.Sublist (l.map Lang) ∧ Concat s u := by
  induction l generalizing u with
  | nil =>
    constructor
    · intro h; cases h; exact ⟨[], List.Sublist.slnil, rfl⟩
    · rintro ⟨s, hs, h⟩
      cases hs; cases h; exact .seqNil
  | cons a l ih =>
    constructor
    · intro h
      cases h with
      | @seqCons _ _ v w h1 h2 =>
        obtain ⟨s, hs, hc⟩ := (ih _).1 h2
        obtain ⟨k, _, hk, hv⟩ := (lang_rep_iff _ _ _ _).1 h1
        have hk := hk 1 rfl
        match k, hk, hv with
        | 0, _, hv =>
          cases hv
          exact ⟨s, hs.cons _, hc⟩
        | 1, _, hv =>
          exact ⟨Lang a :: s, hs.cons_cons _, _, _, rfl, (concat_one _ _).1 hv, hc⟩
    · rintro ⟨s, hs, h⟩
      cases hs with
      | cons _ hs =>
        have := (ih u).2 ⟨s, hs, h⟩
        have h0 : Lang (.rep a 0 (some 1)) [] :=
          (lang_rep_iff _ _ _ _).2 ⟨0, Nat.le_refl _, fun m hm => (by cases hm; exact Nat.zero_le _), rfl⟩
        exact .seqCons (u := []) h0 this
      | cons_cons _ hs =>
        obtain ⟨v, w, rfl, h1, h2⟩ := h
        have := (ih w).2 ⟨_, hs, h2⟩
        have h0 : Lang (.rep a 0 (some 1)) v :=
          (lang_rep_iff _ _ _ _).2 ⟨1, Nat.zero_le _, fun m hm => (by cases hm; exact Nat.le_refl _), (concat_one _ _).2 h1⟩
        exact .seqCons h0 this

theorem lang_anything (u : List Ch) : Lang (.rep (.cls CharSet.all) 0 none) u := by
  refine (lang_rep_iff _ _ _ _).2 ⟨u.length, Nat.zero_le _, fun m hm => (by cases hm), ?_⟩
  induction u with
  | nil => rfl
  | cons x u ih => exact ⟨[x], u, rfl, .cls (CharSet.contains_all x), ih⟩

theorem lang_superset_iff (l : List Ast) (u : List Ch) :
    Lang (.seq (supersetOf l)) u ↔ Around (l.map Lang) u := by
  induction l generalizing u with
  | nil =>
    constructor
    · intro _; trivial
    · intro _
      have := Lang.seqCons (lang_anything u) .seqNil
      rw [List.append_nil] at this
      exact this
  | cons a l ih =>
    have e : supersetOf (a :: l) = .rep (.cls CharSet.all) 0 none :: a :: supersetOf l := rfl
    rw [e]
    constructor
    · intro h
      cases h with
      | seqCons h1 h2 =>
        cases h2 with
        | seqCons h3 h4 => exact ⟨_, _, _, (List.append_assoc _ _ _).symm, h3, (ih _).1 h4⟩
    · rintro ⟨g, v, w, rfl, h1, h2⟩
      rw [List.append_assoc]
      exact .seqCons (lang_anything g) (.seqCons h1 ((ih w).2 h2))

theorem lang_part (k : PartKind) (l : List Ast) : Lang (partTree k l) = (match k with
    | .substring => fun u => ∃ mid, mid <:+: l.map Lang ∧ Concat mid u
    | .subset => fun u => ∃ s, s.Sublist (l.map Lang) ∧ Concat s u
    | .superset => Around (l.map Lang)) := by
  funext u
  apply propext
  cases k with
  | substring => exact lang_substr_iff l u
  | subset => exact lang_subset_iff l u
  | superset => exact lang_superset_iff l u

/-! ### Characters and classes -/

theorem contains_ofChar (c : Char) (x : Ch) : (CharSet.ofChar c).contains x = true ↔ Sym c x := by
  rw [CharSet.ofChar, CharSet.contains_ofCh, ← C01_symbol]
  constructor
  · intro h; exact (of_decide_eq_true h).symm
  · intro h; exact decide_eq_true h.symm

theorem foldl_or_contains (f : Nat → CharSet) (ns : List Nat) (s : CharSet) (x : Ch) :
    (ns.foldl (fun y n => y ||| f n) s).contains x = true ↔ s.contains x = true ∨ ∃ n ∈ ns, (f n).contains x = true := by
  induction ns generalizing s with
  | nil => simp
  | cons n ns ih =>
    rw [List.foldl_cons, ih, CharSet.contains_or]
    simp [or_assoc]

theorem contains_fromRange (lo hi : Char) (hh : hi.toNat < 128) (x : Ch) :
    (CharSet.fromRange lo hi).contains x = true ↔ ∃ d : Char, lo ≤ d ∧ d ≤ hi ∧ Sym d x := by
  unfold CharSet.fromRange
  rw [foldl_or_contains]
  have h0 : (CharSet.empty).contains x = false := CharSet.contains_empty x
  simp only [h0, Bool.false_eq_true, false_or, List.mem_range', contains_ofChar]
  constructor
  · rintro ⟨n, ⟨i, hi', rfl⟩, h⟩
    have hn : (lo.toNat + 1 * i).isValidChar := by left; omega
    have e : (Char.ofNat (lo.toNat + 1 * i)).toNat = lo.toNat + 1 * i := by
      simp only [Char.ofNat, hn, dif_pos]
      rfl
    refine ⟨_, ?_, ?_, h⟩
    · have : lo.toNat ≤ (Char.ofNat (lo.toNat + 1 * i)).toNat := by rw [e]; omega
      exact this
    · have : (Char.ofNat (lo.toNat + 1 * i)).toNat ≤ hi.toNat := by rw [e]; omega
      exact this
  · rintro ⟨d, h1, h2, h3⟩
    have h1 : lo.toNat ≤ d.toNat := h1
    have h2 : d.toNat ≤ hi.toNat := h2
    refine ⟨d.toNat, ⟨d.toNat - lo.toNat, by omega, by omega⟩, ?_⟩
    rw [Char.ofNat_toNat]
    exact h3

theorem alpha_ascii {c : Char} (h : c.isAlpha = true) : c.toNat < 128 := by
  rw [isAlpha_iff] at h
  omega

theorem contains_item (i : Item) (hok : i.ok = true) (x : Ch) : (itemSet i).contains x = true ↔ i.Lists x := by
  cases i with
  | one c => exact contains_ofChar c x
  | range lo hi =>
    simp only [Item.ok, Bool.and_eq_true] at hok
    exact contains_fromRange lo hi (alpha_ascii hok.2) x

theorem contains_items_aux (items : List Item) (hok : items.all Item.ok = true) (s : CharSet) (x : Ch) :
    (items.foldl (fun s i => s.union (itemSet i)) s).contains x = true ↔
      s.contains x = true ∨ ∃ i ∈ items, i.Lists x := by
  induction items generalizing s with
  | nil => simp
  | cons i items ih =>
    simp only [List.all_cons, Bool.and_eq_true] at hok
    rw [List.foldl_cons, ih hok.2, CharSet.contains_union, Bool.or_eq_true, contains_item i hok.1]
    simp [or_assoc]

theorem contains_items (items : List Item) (hok : items.all Item.ok = true) (x : Ch) :
    (itemsSet items).contains x = true ↔ ∃ i ∈ items, i.Lists x := by
  unfold itemsSet
  rw [contains_items_aux items hok, CharSet.contains_empty]
  simp

theorem contains_bracket (neg : Bool) (items : List Item) (hok : items.all Item.ok = true) (x : Ch) :
    (if neg then (itemsSet items).invert else itemsSet items).contains x = true ↔ Bracket neg items x := by
  unfold Bracket
  have h := contains_items items hok x
  cases neg with
  | false => simpa using h
  | true =>
    simp only [if_true, CharSet.contains_invert, true_and]
    by_cases hx : x.val < 26
    · simp only [hx, if_true]
      rw [← h]
      simp
    · simp only [hx, if_false]
      exact h

/-! ### Banks -/

theorem spelled_map : ∀ (ls : List Char) (b : List Ch), Spelled ls b ↔ b = ls.map chOfChar
  | [], b => by
    constructor
    · intro h; cases h; rfl
    · rintro rfl; exact .nil
  | c :: ls, b => by
    constructor
    · intro h
      cases h with
      | cons h1 h2 =>
        rw [(spelled_map ls _).1 h2, ← (C01_symbol c _).2 h1]
        rfl
    · rintro rfl
      exact .cons ((C01_symbol c _).1 rfl) ((spelled_map ls _).2 rfl)

theorem anagrams_clamp (k : AnagramKind) (b u : List Ch) : Anagrams (clampKind b.length k) b u ↔ Anagrams k b u := by
  cases k with
  | transDelete n =>
    simp only [clampKind, Anagrams]
    have : min (if b.length < n then b.length else n) b.length = min n b.length := by split <;> omega
    rw [this]
  | _ => exact Iff.rfl

theorem lang_anagram_iff (k : AnagramKind) (b u : List Ch) : Lang (.anagram k b) u ↔ Anagrams k b u := by
  constructor
  · intro h; cases h; assumption
  · exact .anagram

/-! ### Everything -/

theorem concat_letters (n : Nat) (v : List Ch) :
    Concat (List.replicate n (Lang (.cls CharSet.letters))) v ↔ v.length = n ∧ ∀ x ∈ v, x.val < 26 := by
  induction n generalizing v with
  | zero =>
    constructor
    · intro h; cases h; simp
    · rintro ⟨h, _⟩; exact List.length_eq_zero_iff.1 h
  | succ n ih =>
    rw [List.replicate_succ]
    constructor
    · rintro ⟨a, w, rfl, h1, h2⟩
      obtain ⟨x, rfl, hx⟩ := (lang_cls_iff _ _).1 h1
      obtain ⟨h3, h4⟩ := (ih w).1 h2
      rw [CharSet.contains_letters] at hx
      refine ⟨by simp [h3], ?_⟩
      intro y hy
      simp at hy
      rcases hy with rfl | hy
      · exact of_decide_eq_true hx
      · exact h4 y hy
    · rintro ⟨h1, h2⟩
      cases v with
      | nil => cases h1
      | cons x v =>
        refine ⟨[x], v, rfl, .cls ?_, (ih v).2 ⟨by simpa using h1, fun y hy => h2 y (by simp [hy])⟩⟩
        rw [CharSet.contains_letters]
        exact decide_eq_true (h2 x (by simp))

mutual
theorem term_means : ∀ t : Term, t.ok = true → Lang (termTree t) = t.Means
  | .chr c, _ => by
    funext u; apply propext
    rw [termTree, lang_cls_iff]
    simp only [contains_ofChar, Term.Means]
  | .dot, _ => by
    funext u; apply propext
    rw [termTree, lang_cls_iff]
    simp only [CharSet.contains_letters, decide_eq_true_eq, Term.Means]
  | .cls neg items, h => by
    simp only [Term.ok, Bool.and_eq_true] at h
    funext u; apply propext
    rw [termTree, lang_cls_iff]
    simp only [contains_bracket neg items h.2, Term.Means]
  | .num n, _ => by
    funext u; apply propext
    rw [termTree, lang_seq_concat]
    simp only [Term.Means, List.map_cons, List.map_nil]
    constructor
    · rintro ⟨v, w, rfl, h1, h2⟩
      obtain ⟨k, h3, h4, h5⟩ := (lang_rep_iff _ _ _ _).1 h1
      have hk : k = n := Nat.le_antisymm (h4 n rfl) h3
      subst hk
      obtain ⟨h6, h7⟩ := (concat_letters k v).1 h5
      obtain ⟨x, rfl, hx⟩ := (lang_cls_iff _ _).1 ((concat_one _ _).1 h2)
      rw [CharSet.contains_ofCh] at hx
      have hx := of_decide_eq_true hx
      exact ⟨v, by rw [hx], h6, h7⟩
    · rintro ⟨v, rfl, h1, h2⟩
      refine ⟨v, _, rfl, (lang_rep_iff _ _ _ _).2 ⟨n, Nat.le_refl _, fun m hm => (by cases hm; exact Nat.le_refl _),
        (concat_letters n v).2 ⟨h1, h2⟩⟩, (concat_one _ _).2 (.cls (by rw [CharSet.contains_ofCh]; simp))⟩
  | .group a, h => by
    rw [termTree, Term.Means]
    exact alts_means a (by simpa [Term.ok] using h)
  | .bank k ls, _ => by
    funext u; apply propext
    rw [termTree, lang_anagram_iff]
    simp only [Term.Means, spelled_map]
    have e : ls.length = (ls.map chOfChar).length := by simp
    rw [e, anagrams_clamp]
    constructor
    · intro h; exact ⟨_, rfl, h⟩
    · rintro ⟨b, rfl, h⟩; exact h
  | .part k r, h => by
    simp only [Term.ok, Bool.and_eq_true] at h
    rw [termTree, lang_part, row_means r h.1]
    cases k with
    | substring => simp only [Term.Means]
    | subset => simp only [Term.Means]
    | superset => simp only [Term.Means]
theorem row_means : ∀ r : Row, r.ok = true → (rowTrees r).map Lang = r.parts
  | .last t s b, h => by
    simp only [Row.ok, Bool.and_eq_true] at h
    simp only [rowTrees, Row.parts, List.map_cons, List.map_nil, lang_suffix, term_means t h.1]
  | .cons t s b r, h => by
    simp only [Row.ok, Bool.and_eq_true] at h
    simp only [rowTrees, Row.parts, List.map_cons, lang_suffix, term_means t h.1.1.1, row_means r h.1.2]
theorem alts_means : ∀ a : Alts, a.ok = true → Lang (altsTree a) = a.Means
  | .one r, h => by
    simp only [Alts.ok] at h
    funext u; apply propext
    rw [altsTree, lang_seq_concat, row_means r h, Alts.Means]
  | .more r b a, h => by
    simp only [Alts.ok, Bool.and_eq_true] at h
    funext u; apply propext
    have hr := row_means r h.1
    have ha := alts_all a h.2
    rw [altsTree]
    simp only [Alts.Means]
    constructor
    · intro hl
      cases hl with
      | alts hm hl =>
        rcases List.mem_cons.1 hm with rfl | hm
        · left; rw [← hr]; exact (lang_seq_concat _ _).1 hl
        · right; rw [← ha]; exact ⟨_, hm, hl⟩
    · rintro (hl | hl)
      · exact .alts (List.mem_cons_self ..) ((lang_seq_concat _ _).2 (by rw [hr]; exact hl))
      · rw [← ha] at hl
        obtain ⟨x, hx, hl⟩ := hl
        exact .alts (List.mem_cons_of_mem _ hx) hl
theorem alts_all : ∀ a : Alts, a.ok = true → (fun u => ∃ x ∈ altsTrees a, Lang x u) = a.Means
  | .one r, h => by
    simp only [Alts.ok] at h
    funext u; apply propext
    simp only [altsTrees, List.mem_singleton, exists_eq_left]
    rw [lang_seq_concat, row_means r h, Alts.Means]
  | .more r b a, h => by
    simp only [Alts.ok, Bool.and_eq_true] at h
    funext u; apply propext
    have ha := alts_all a h.2
    simp only [altsTrees, List.mem_cons, exists_eq_or_imp, Alts.Means]
    rw [lang_seq_concat, row_means r h.1, ← ha]
end

end Noodle
