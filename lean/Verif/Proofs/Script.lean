import Verif.Model.Parse
import Verif.Spec.Script
/-
Lines, macros and their replacement: the model does what `Spec/Script.lean` says.
-/
namespace Noodle
open Peg Spec
set_option autoImplicit false

/-! ### Splitting -/

theorem splitLines_ne : ∀ l : List Char, splitLines l ≠ []
  | [] => by simp [splitLines]
  | c :: cs => by
    rw [splitLines]
    split
    · simp
    · split <;> simp

theorem splitLines_plain {l : List Char} (h1 : '\n' ∉ l) (h2 : ';' ∉ l) : splitLines l = [l] := by
  induction l with
  | nil => rfl
  | cons c l ih =>
    simp only [List.mem_cons, not_or] at h1 h2
    rw [splitLines, if_neg (by rintro (rfl | rfl); exact h1.1 rfl; exact h2.1 rfl), ih h1.2 h2.2]

theorem splitLines_sep {l t : List Char} {s : Char} (h1 : '\n' ∉ l) (h2 : ';' ∉ l) (hs : s = '\n' ∨ s = ';') :
    splitLines (l ++ s :: t) = l :: splitLines t := by
  induction l with
  | nil => rw [List.nil_append, splitLines, if_pos hs]
  | cons c l ih =>
    simp only [List.mem_cons, not_or] at h1 h2
    rw [List.cons_append, splitLines, if_neg (by rintro (rfl | rfl); exact h1.1 rfl; exact h2.1 rfl), ih h1.2 h2.2]

theorem splitLines_of_lines {l : List Char} {ls : List (List Char)} (h : Lines l ls) : splitLines l = ls := by
  induction h with
  | last h1 h2 => exact splitLines_plain h1 h2
  | cons h1 h2 hs _ ih => rw [splitLines_sep h1 h2 hs, ih]

theorem lines_splitLines : ∀ l : List Char, Lines l (splitLines l)
  | [] => .last (by simp) (by simp)
  | c :: cs => by
    have ih := lines_splitLines cs
    rw [splitLines]
    split
    · rename_i h
      exact .cons (l := []) (by simp) (by simp) h ih
    · rename_i h
      have hc1 : ¬ '\n' = c := fun e => h (Or.inl e.symm)
      have hc2 : ¬ ';' = c := fun e => h (Or.inr e.symm)
      generalize splitLines cs = r at ih
      cases ih with
      | last k1 k2 => exact .last (by simp [hc1, k1]) (by simp [hc2, k2])
      | @cons l t ls s k1 k2 ks k => exact Lines.cons (l := c :: l) (by simp [hc1, k1]) (by simp [hc2, k2]) ks k

theorem lines_iff {l : List Char} {ls : List (List Char)} : Lines l ls ↔ splitLines l = ls :=
  ⟨splitLines_of_lines, fun h => h ▸ lines_splitLines l⟩

/-! ### Replacing -/

theorem replaceAux_skip (pat rep : List Char) : ∀ (x l : List Char), replaceAux pat rep x.length (x ++ l) = replaceAux pat rep 0 l
  | [], l => rfl
  | c :: x, l => by
    rw [List.cons_append, List.length_cons, replaceAux]
    exact replaceAux_skip pat rep x l

theorem replaceAll_of_replaced {pat rep l l' : List Char} (hp : pat ≠ []) (h : Replaced pat rep l l') :
    replaceAll pat rep l = l' := by
  unfold replaceAll
  induction h with
  | nil => rfl
  | @hit l l' _ ih =>
    cases pat with
    | nil => exact absurd rfl hp
    | cons c p =>
      rw [List.cons_append, replaceAux, if_pos]
      · rw [List.length_cons, Nat.add_sub_cancel, replaceAux_skip, ih]
      · rw [List.isPrefixOf_iff_prefix]; exact ⟨l, rfl⟩
  | @miss c l l' hn _ ih =>
    rw [replaceAux, if_neg, ih]
    rw [List.isPrefixOf_iff_prefix]; exact hn

theorem replaced_exists (pat rep : List Char) (hp : pat ≠ []) : ∀ (n : Nat) (l : List Char), l.length ≤ n → ∃ l', Replaced pat rep l l'
  | _, [], _ => ⟨[], .nil⟩
  | 0, _ :: _, h => by simp at h
  | n + 1, c :: l, h => by
    by_cases hpre : pat <+: c :: l
    · obtain ⟨t, ht⟩ := hpre
      have : 0 < pat.length := List.length_pos_iff.2 hp
      have hlen := congrArg List.length ht
      simp only [List.length_append, List.length_cons] at hlen h
      obtain ⟨t', ht'⟩ := replaced_exists pat rep hp n t (by omega)
      exact ⟨rep ++ t', ht ▸ .hit ht'⟩
    · obtain ⟨t', ht'⟩ := replaced_exists pat rep hp n l (by simpa using h)
      exact ⟨c :: t', .miss hpre ht'⟩

theorem replaced_iff {pat rep l l' : List Char} (hp : pat ≠ []) : Replaced pat rep l l' ↔ replaceAll pat rep l = l' := by
  refine ⟨replaceAll_of_replaced hp, ?_⟩
  rintro rfl
  obtain ⟨l', h⟩ := replaced_exists pat rep hp _ l (Nat.le_refl _)
  rw [replaceAll_of_replaced hp h]; exact h

theorem expanded_iff {ds : List (List Char × List Char)} (hd : ∀ d ∈ ds, d.1 ≠ []) {l l' : List Char} :
    Expanded ds l l' ↔ applyMacros ds l = l' := by
  induction ds generalizing l with
  | nil =>
    constructor
    · intro h; cases h; rfl
    · rintro rfl; exact .nil
  | cons d ds ih =>
    have h0 := hd d (by simp)
    have ih := fun {l : List Char} => ih (fun x hx => hd x (by simp [hx])) (l := l)
    constructor
    · intro h
      cases h with
      | cons h1 h2 =>
        have := (replaced_iff h0).1 h1
        show applyMacros ds (replaceAll _ _ l) = l'
        rw [this]; exact ih.1 h2
    · intro h
      exact .cons ((replaced_iff h0).2 rfl) (ih.2 h)

/-! ### Definitions -/

theorem lastSome_append {α β : Type} (f : α → Option β) (l : List α) (a : α) :
    lastSome f (l ++ [a]) = (f a).or (lastSome f l) := by
  induction l with
  | nil => simp [lastSome]
  | cons b l ih =>
    rw [List.cons_append, lastSome, ih, lastSome]
    cases f a <;> simp

theorem filterMap_same {α β : Type} {f g : α → Option β} : ∀ (l : List α), (∀ x ∈ l, f x = g x) → l.filterMap f = l.filterMap g
  | [], _ => rfl
  | a :: l, h => by
    rw [List.filterMap_cons, List.filterMap_cons, h a (by simp), filterMap_same l fun x hx => h x (by simp [hx])]

theorem insert_filterMap (m v : List Char) (V : List Char → Option (List Char)) : ∀ F : List (List Char), F.Nodup →
    (∀ n ∈ F, (V n).isSome) →
    insertMacro m v (F.filterMap fun n => (V n).map fun v => (n, v)) =
      (if m ∈ F then F else F ++ [m]).filterMap fun n => (if m = n then some v else V n).map fun v => (n, v)
  | [], _, _ => by simp [insertMacro]
  | n :: F, hn, hV => by
    obtain ⟨h1, h2⟩ := List.nodup_cons.1 hn
    have ih := insert_filterMap m v V F h2 fun x hx => hV x (by simp [hx])
    obtain ⟨x, hx⟩ := Option.isSome_iff_exists.1 (hV n (by simp))
    rw [List.filterMap_cons_some (b := (n, x)) (by simp [hx]), insertMacro]
    by_cases hm : n = m
    · subst hm
      rw [if_pos rfl, if_pos (by simp), List.filterMap_cons_some (b := (n, v)) (by simp)]
      congr 1
      apply filterMap_same
      intro k hk
      rw [if_neg]
      rintro rfl; exact h1 hk
    · have hm' : ¬ m = n := fun e => hm e.symm
      rw [if_neg hm, ih]
      by_cases hF : m ∈ F
      · rw [if_pos hF, if_pos (by simp [hF]), List.filterMap_cons_some (b := (n, x)) (by simp [hm', hx])]
      · rw [if_neg hF, if_neg (by simp [hF, hm']), List.cons_append,
          List.filterMap_cons_some (b := (n, x)) (by simp [hm', hx])]

open Classical in
theorem eraseDups_snoc {α : Type} [BEq α] [LawfulBEq α] (l : List α) (a : α) :
    (l ++ [a]).eraseDups = if a ∈ l.eraseDups then l.eraseDups else l.eraseDups ++ [a] := by
  rw [List.eraseDups_append]
  by_cases h : a ∈ l
  · rw [if_pos (List.mem_eraseDups.2 h)]
    simp [List.removeAll, h]
  · rw [if_neg (mt List.mem_eraseDups.1 h)]
    simp [List.removeAll, h, List.eraseDups_cons]

theorem nodup_eraseDups {α : Type} [BEq α] [LawfulBEq α] (l : List α) : l.eraseDups.Nodup := by
  have key : ∀ (n : Nat) (l : List α), l.length ≤ n → l.eraseDups.Nodup := by
    intro n
    induction n with
    | zero => intro l h; rw [List.length_eq_zero_iff.1 (Nat.le_zero.1 h)]; simp
    | succ n ih =>
      intro l h
      cases l with
      | nil => simp
      | cons a l =>
        rw [List.eraseDups_cons, List.nodup_cons]
        refine ⟨?_, ih _ (Nat.le_trans (List.length_filter_le _ _) (by simpa using h))⟩
        rw [List.mem_eraseDups]
        simp
  exact key _ l (Nat.le_refl _)

/-- The value a list of definitions gives to a name. -/
def valueIn (ds : List (List Char × List Char)) (n : List Char) : Option (List Char) :=
  lastSome (fun d : List Char × List Char => if d.1 = n then some d.2 else none) ds

theorem valueIn_isSome {ds : List (List Char × List Char)} {n : List Char} (h : n ∈ ds.map (·.1)) :
    (valueIn ds n).isSome := by
  unfold valueIn
  induction ds with
  | nil => simp at h
  | cons d ds ih =>
    rw [lastSome]
    rcases List.mem_cons.1 h with h | h
    · cases lastSome (fun d : List Char × List Char => if d.1 = n then some d.2 else none) ds <;> simp [h]
    · obtain ⟨x, hx⟩ := Option.isSome_iff_exists.1 (ih h)
      rw [hx]; rfl

theorem defsOf_eq (ls : List Line) : defsOf ls = ((ls.filterMap Line.defines).map (·.1)).eraseDups.filterMap fun n =>
    (valueIn (ls.filterMap Line.defines) n).map fun v => (n, v) := rfl

theorem defsOf_define (ls : List Line) (l : Line) (m v : List Char) (h : l.defines = some (m, v)) :
    defsOf (ls ++ [l]) = insertMacro m v (defsOf ls) := by
  rw [defsOf_eq, defsOf_eq, insert_filterMap _ _ _ _ (nodup_eraseDups _)
    (fun n hn => valueIn_isSome (List.mem_eraseDups.1 hn))]
  have e : (ls ++ [l]).filterMap Line.defines = ls.filterMap Line.defines ++ [(m, v)] := by simp [h]
  rw [e, List.map_append, List.map_singleton, eraseDups_snoc]
  apply filterMap_same
  intro n _
  unfold valueIn
  rw [lastSome_append]
  by_cases hm : m = n
  · subst hm; simp
  · simp [hm]

theorem defsOf_other (ls : List Line) (l : Line) (h : l.defines = none) : defsOf (ls ++ [l]) = defsOf ls := by
  rw [defsOf_eq, defsOf_eq]
  have e : (ls ++ [l]).filterMap Line.defines = ls.filterMap Line.defines := by simp [h]
  rw [e]

theorem defsOf_names {ls : List Line} (hok : ∀ l ∈ ls, l.ok = true) : ∀ d ∈ defsOf ls, d.1 ≠ [] := by
  intro d hd
  rw [defsOf_eq, List.mem_filterMap] at hd
  obtain ⟨n, hn, hv⟩ := hd
  rw [List.mem_eraseDups, List.mem_map] at hn
  obtain ⟨p, hp, rfl⟩ := hn
  obtain ⟨l, hl, hd⟩ := List.mem_filterMap.1 hp
  have hl := hok l hl
  obtain ⟨v, _, rfl⟩ := Option.map_eq_some_iff.1 hv
  cases l <;> simp only [Line.defines, reduceCtorEq, Option.some.injEq] at hd
  subst hd
  simp only [Line.ok, Bool.and_eq_true] at hl
  intro e
  have h2 := hl.1
  simp only at e
  rw [e] at h2
  cases h2

end Noodle
