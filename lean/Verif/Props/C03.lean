import Verif.Model.Load
import Verif.Spec.Load
import Verif.Proofs.Sort
import Verif.Props.C01
import Mathlib.Tactic.ByContra
/-
C03: loading a word list. `loadWordlist` is the model of `load_wordlist`; `Spec/Load.lean` says what a file means.
-/
namespace Noodle
open Spec
set_option autoImplicit false

theorem stripCR_dos (l : List Char) : stripCR (l ++ ['\r']) = l := by simp [stripCR]
theorem stripCR_unix {l : List Char} (h : l.getLast? ≠ some '\r') : stripCR l = l := by simp [stripCR, h]

theorem fileLines_run : ∀ (l : List Char) (cur t : List Char), '\n' ∉ l → fileLines cur (l ++ t) = fileLines (cur ++ l) t
  | [], cur, t, _ => by simp
  | c :: l, cur, t, h => by
    simp only [List.mem_cons, not_or] at h
    rw [List.cons_append, fileLines, if_neg (Ne.symm h.1), fileLines_run l _ _ h.2]
    simp

theorem fileLines_of {text : List Char} {ls : List (List Char)} (h : FileLines text ls) : fileLines [] text = ls := by
  induction h with
  | nil => rfl
  | @last l h1 h2 =>
    have := fileLines_run l [] [] h2
    rw [List.append_nil, List.nil_append] at this
    rw [this, fileLines]
    simp [h1]
  | @unix l t ls h1 h2 _ ih =>
    rw [fileLines_run l _ _ h1, fileLines, if_pos rfl, ih, List.nil_append, stripCR_unix h2]
  | @dos l t ls h1 _ ih =>
    have : l ++ '\r' :: '\n' :: t = (l ++ ['\r']) ++ '\n' :: t := by simp
    rw [this, fileLines_run (l ++ ['\r']) _ _ (by simp [h1]), fileLines, if_pos rfl, ih, List.nil_append, stripCR_dos]

theorem fileLines_exists : ∀ (n : Nat) (text : List Char), text.length ≤ n → ∃ ls, FileLines text ls
  | 0, text, h => ⟨[], by cases text with | nil => exact .nil | cons => simp at h⟩
  | n + 1, text, h => by
    by_cases hn : '\n' ∈ text
    · obtain ⟨l, t, rfl, hl⟩ := List.eq_append_cons_of_mem hn
      simp only [List.length_append, List.length_cons] at h
      obtain ⟨ls, hls⟩ := fileLines_exists n t (by omega)
      by_cases hr : l.getLast? = some '\r'
      · obtain ⟨l', rfl⟩ := List.getLast?_eq_some_iff.1 hr
        refine ⟨l' :: ls, ?_⟩
        have := FileLines.dos (l := l') (fun hm => hl (List.mem_append_left _ hm)) hls
        simpa using this
      · exact ⟨l :: ls, .unix hl hr hls⟩
    · by_cases he : text = []
      · subst he; exact ⟨[], .nil⟩
      · exact ⟨[text], .last he hn⟩


theorem fileLines_iff {text : List Char} {ls : List (List Char)} : FileLines text ls ↔ fileLines [] text = ls := by
  refine ⟨fileLines_of, fun h => ?_⟩
  obtain ⟨ls', h'⟩ := fileLines_exists _ text (Nat.le_refl _)
  rw [← h, fileLines_of h']
  exact h'

theorem isDigit_iff (c : Char) : c.isDigit = true ↔ ∃ d, d < 10 ∧ c.toNat = '0'.toNat + d := by
  have h0 : '0'.toNat = 48 := rfl
  have : c.isDigit = true ↔ 48 ≤ c.toNat ∧ c.toNat ≤ 57 := by
    simp only [Char.isDigit, Bool.and_eq_true, decide_eq_true_eq]
    exact Iff.rfl
  rw [this, h0]
  constructor
  · rintro ⟨h1, h2⟩; exact ⟨c.toNat - 48, by omega, by omega⟩
  · rintro ⟨d, h1, h2⟩; omega

theorem decimal_snoc (l : List Char) (c : Char) : decimal (l ++ [c]) = 10 * decimal l + (c.toNat - '0'.toNat) := by
  simp [decimal, List.foldl_append]

theorem decimal_of {l : List Char} {n : Nat} (h : Decimal l n) : l ≠ [] ∧ l.all Char.isDigit = true ∧ decimal l = n := by
  induction h with
  | @one c d h1 h2 => 
    refine ⟨by simp, ?_, ?_⟩
    · simpa using (isDigit_iff c).2 ⟨d, h1, h2⟩
    · show 10 * 0 + (c.toNat - '0'.toNat) = d
      omega
  | @snoc l n c d _ h1 h2 ih =>
    refine ⟨by simp, ?_, ?_⟩
    · rw [List.all_append, ih.2.1, List.all_cons, (isDigit_iff c).2 ⟨d, h1, h2⟩]; rfl
    · rw [decimal_snoc, ih.2.2]; omega

theorem decimal_to : ∀ (n : Nat) (l : List Char), l.length = n + 1 → l.all Char.isDigit = true → Decimal l (decimal l)
  | n, l, hn, h => by
    rcases List.eq_nil_or_concat l with rfl | ⟨l', c, rfl⟩
    · simp at hn
    · rw [List.concat_eq_append] at h hn ⊢
      rw [List.all_append, Bool.and_eq_true, List.all_cons, Bool.and_eq_true] at h
      obtain ⟨d, h1, h2⟩ := (isDigit_iff c).1 h.2.1
      have hd : c.toNat - '0'.toNat = d := by omega
      cases l' with
      | nil =>
        have := Decimal.one h1 h2
        have e : decimal ([] ++ [c]) = d := by
          show 10 * 0 + (c.toNat - '0'.toNat) = d
          omega
        rw [e]; exact this
      | cons x l' =>
        rw [decimal_snoc, hd]
        cases n with
        | zero => simp at hn
        | succ n => exact .snoc (decimal_to n (x :: l') (by simpa using hn) h.1) h1 h2

theorem decimal_iff {l : List Char} {n : Nat} : Decimal l n ↔ l ≠ [] ∧ l.all Char.isDigit = true ∧ decimal l = n := by
  refine ⟨decimal_of, fun ⟨h1, h2, h3⟩ => ?_⟩
  cases l with
  | nil => exact absurd rfl h1
  | cons c l => rw [← h3]; exact decimal_to l.length _ rfl h2

theorem parseU32_iff {l : List Char} {n : Nat} : parseU32 l = some n ↔ Counts l n := by
  have key : ∀ d : List Char, ((if !d.isEmpty && d.all Char.isDigit && decide (decimal d < 2 ^ 32) then
      some (decimal d) else none) = some n) ↔ Decimal d n ∧ n < 2 ^ 32 := by
    intro d
    rw [decimal_iff]
    by_cases hc : (!d.isEmpty && d.all Char.isDigit && decide (decimal d < 2 ^ 32)) = true
    · rw [if_pos hc]
      simp only [Bool.and_eq_true, decide_eq_true_eq, Bool.not_eq_true', List.isEmpty_eq_false_iff] at hc
      simp only [Option.some.injEq]
      constructor
      · rintro rfl; exact ⟨⟨hc.1.1, hc.1.2, rfl⟩, hc.2⟩
      · exact fun h => h.1.2.2
    · rw [if_neg hc]
      simp only [reduceCtorEq, false_iff]
      rintro ⟨⟨h1, h2, h3⟩, h4⟩
      apply hc
      simp only [Bool.and_eq_true, decide_eq_true_eq, Bool.not_eq_true', List.isEmpty_eq_false_iff]
      exact ⟨⟨h1, h2⟩, h3 ▸ h4⟩
  unfold parseU32 Counts
  split
  · rename_i ds
    rw [key]
    constructor
    · rintro ⟨h1, h2⟩; exact ⟨.inr ⟨ds, rfl, h1⟩, h2⟩
    · rintro ⟨h1 | ⟨m, h1, h2⟩, h3⟩
      · have := (decimal_of h1).2.1
        rw [List.all_cons, Bool.and_eq_true] at this
        exact absurd this.1 (by decide)
      · injection h1 with _ h1; subst h1; exact ⟨h2, h3⟩
  · rename_i hne
    rw [key]
    constructor
    · rintro ⟨h1, h2⟩; exact ⟨.inl h1, h2⟩
    · rintro ⟨h1 | ⟨m, h1, h2⟩, h3⟩
      · exact ⟨h1, h3⟩
      · exact absurd h1 (hne m)

theorem splitTab_some : ∀ {l a b : List Char}, splitTab l = some (a, b) ↔ l = a ++ '\t' :: b ∧ '\t' ∉ a
  | [], a, b => by simp [splitTab]
  | c :: l, a, b => by
    rw [splitTab]
    by_cases hc : c = '\t'
    · subst hc
      rw [if_pos rfl]
      constructor
      · intro h; injection h with h; injection h with h1 h2; subst h1; subst h2; simp
      · rintro ⟨h1, h2⟩
        cases a with
        | nil => simpa using h1
        | cons x a => injection h1 with h1 _; subst h1; simp at h2
    · rw [if_neg hc, Option.map_eq_some_iff]
      constructor
      · rintro ⟨⟨x, y⟩, h1, h2⟩
        rw [splitTab_some] at h1
        injection h2 with h2 h3
        subst h2; subst h3
        refine ⟨by rw [h1.1]; rfl, ?_⟩
        simp only [List.mem_cons, not_or]
        exact ⟨Ne.symm hc, h1.2⟩
      · rintro ⟨h1, h2⟩
        cases a with
        | nil => injection h1 with h1 _; exact absurd h1 hc
        | cons x a =>
          injection h1 with h1 h3
          subst h1
          simp only [List.mem_cons, not_or] at h2
          exact ⟨(a, b), splitTab_some.2 ⟨h3, h2.2⟩, rfl⟩

theorem columns_spec (l : List Char) : LineIs l (columns l).1 (columns l).2 := by
  have hb : byteLen l % 2 ^ 32 * 200 % 2 ^ 32 = 200 * (l.map Char.utf8Size).sum % 2 ^ 32 := by
    unfold byteLen
    rw [Nat.mod_mul_mod, Nat.mul_comm]
  unfold columns
  rw [hb]
  cases h : splitTab l with
  | none =>
    refine .plain ?_
    rintro ⟨col, text, n, h1, h2, _⟩
    rw [splitTab_some.2 ⟨h1, h2⟩] at h
    cases h
  | some p =>
    obtain ⟨a, b⟩ := p
    cases hp : parseU32 a with
    | none =>
      simp only
      rw [hp]
      refine .plain ?_
      rintro ⟨col, text, n, h1, h2, h3⟩
      rw [splitTab_some.2 ⟨h1, h2⟩] at h
      injection h with h
      injection h with h _
      subst h
      rw [parseU32_iff.2 h3] at hp
      cases hp
    | some n =>
      simp only
      rw [hp]
      obtain ⟨h1, h2⟩ := splitTab_some.1 h
      subst h1
      exact .counted h2 (parseU32_iff.1 hp)

theorem bump_spec (text : List Char) : (Lowercase text → bump text = 0) ∧ (¬ Lowercase text → bump text = 1) := by
  have : (text.all fun c => decide ('a' ≤ c) && decide (c ≤ 'z')) = true ↔ Lowercase text := by
    simp [Lowercase]
  constructor
  · intro h; rw [bump, if_pos (this.2 h)]
  · intro h; rw [bump, if_neg (fun k => h (this.1 k))]

/-- The counters after `k` kept words. -/
def CountersAt (k : Nat) (st : LoadState) : Prop :=
  st.size = trancheSize st.tranche ∧ k = trancheStart st.tranche + st.count ∧ st.count ≤ st.size

theorem countersAt_step {k : Nat} {st : LoadState} (h : CountersAt k st) :
    CountersAt (k + 1) (if st.size < st.count + 1 then
        { size := st.size + st.size / 2, count := 0, tranche := st.tranche + 1 }
      else { st with count := st.count + 1 }) := by
  obtain ⟨h1, h2, h3⟩ := h
  split
  · refine ⟨?_, ?_, Nat.zero_le _⟩
    · show st.size + st.size / 2 = trancheSize (st.tranche + 1)
      rw [trancheSize, h1]
    · show k + 1 = trancheStart (st.tranche + 1) + 0
      rw [trancheStart, h2]; omega
  · exact ⟨h1, by show k + 1 = trancheStart st.tranche + (st.count + 1); omega, by show st.count + 1 ≤ st.size; omega⟩

theorem loadLine_keep {U : Unicode} {st : LoadState} {k : Nat} {l : List Char} (h : CountersAt k st)
    (hk : Keeps U (columns l).1) : ∃ st' w, loadLine U st l = (st', some w) ∧ CountersAt (k + 1) st' ∧
      EntryWord U k (columns l) w := by
  obtain ⟨h1, h2⟩ := hk
  refine ⟨_, Word.new U (String.ofList (columns l).1) (st.tranche + bump (columns l).1) (columns l).2, ?_,
    countersAt_step h, ?_⟩
  · unfold loadLine
    simp only
    rw [if_neg, if_neg]
    · simp only [List.any_eq_true, not_exists, not_and, Bool.and_eq_true, decide_eq_true_eq]
      exact fun x hx h3 h4 => h2 x hx ⟨h3, h4⟩
    · rintro ⟨h3, h4, h5⟩
      rcases h1 with h1 | h1 | h1
      · simp only [Word.new, String.toList_ofList] at h3; omega
      · exact h4 h1
      · exact h5 h1
  · obtain ⟨c1, c2, c3⟩ := h
    refine ⟨st.tranche, by omega, by rw [trancheStart, ← c1]; omega, rfl, rfl, ?_, ?_, ?_⟩
    · simp [Word.new]
    · intro hl; show st.tranche + bump _ = _; rw [(bump_spec _).1 hl, Nat.add_zero]
    · intro hl; show st.tranche + bump _ = _; rw [(bump_spec _).2 hl]

theorem loadLine_skip {U : Unicode} {st : LoadState} {l : List Char} (hk : ¬ Keeps U (columns l).1) :
    loadLine U st l = (st, none) := by
  unfold loadLine
  simp only
  split
  · rfl
  · rename_i h1
    rw [if_pos]
    by_contra h2
    apply hk
    constructor
    · by_contra h3
      apply h1
      simp only [not_or] at h3
      refine ⟨?_, h3.2.1, h3.2.2⟩
      simp only [Word.new, String.toList_ofList]
      omega
    · intro c hc hd
      apply h2
      simp only [List.any_eq_true, Bool.and_eq_true, decide_eq_true_eq]
      exact ⟨c, hc, hd⟩

theorem loadLines_spec (U : Unicode) : ∀ (ls : List (List Char)) (st : LoadState) (k : Nat), CountersAt k st →
    ∃ es, Entries U ls es ∧ (loadLines U st ls).length = es.length ∧
      ∀ (j : Nat) (e : List Char × Nat), es[j]? = some e → ∃ w, (loadLines U st ls)[j]? = some w ∧ EntryWord U (k + j) e w
  | [], st, k, _ => ⟨[], .nil, rfl, by intro j e h; simp at h⟩
  | l :: ls, st, k, h => by
    by_cases hk : Keeps U (columns l).1
    · obtain ⟨st', w, h1, h2, h3⟩ := loadLine_keep h hk
      obtain ⟨es, k1, k2, k3⟩ := loadLines_spec U ls st' (k + 1) h2
      refine ⟨columns l :: es, .keep (columns_spec l) hk k1, ?_, ?_⟩
      · rw [loadLines, h1]; simp [k2]
      · intro j e hj
        rw [loadLines, h1]
        cases j with
        | zero => simp only [List.getElem?_cons_zero, Option.some.injEq] at hj; subst hj; exact ⟨w, rfl, h3⟩
        | succ j =>
          obtain ⟨x, hx, hx'⟩ := k3 j e (by simpa using hj)
          exact ⟨x, by simpa using hx, by rw [show k + (j + 1) = k + 1 + j by omega]; exact hx'⟩
    · obtain ⟨es, k1, k2, k3⟩ := loadLines_spec U ls st k h
      rw [loadLines, loadLine_skip hk]
      exact ⟨es, .skip (columns_spec l) hk k1, k2, k3⟩

/-- C03: the list that is loaded from a file is sorted (by tranche first) and consists of the words of the kept entries
of the lines of the file, each once, with the text and score the line gives it, and the tranche that follows from its
place among the kept entries. -/
theorem C03_load (U : Unicode) (text : List Char) :
    ∃ ls es ws, FileLines text ls ∧ Entries U ls es ∧ ws.length = es.length ∧
      (∀ (k : Nat) (e : List Char × Nat), es[k]? = some e → ∃ w, ws[k]? = some w ∧ EntryWord U k e w) ∧
      (loadWordlist U text).Perm ws ∧ (loadWordlist U text).Pairwise fun a b => Word.cmp a b ≠ .gt := by
  obtain ⟨es, h1, h2, h3⟩ := loadLines_spec U (fileLines [] text) {} 0 ⟨rfl, rfl, Nat.zero_le _⟩
  refine ⟨_, es, _, fileLines_iff.2 rfl, h1, h2, ?_, sortWords_perm _, sortWords_sorted _⟩
  intro k e hk
  have := h3 k e hk
  rwa [Nat.zero_add] at this

/-- C03: what the evaluator needs of a list (`Ready`): the tranches never decrease. -/
theorem C03_tranches (U : Unicode) (text : List Char) :
    (loadWordlist U text).Pairwise fun a b => a.tranche ≤ b.tranche :=
  (sortWords_sorted _).imp tranche_of_cmp

/-- A small file: lines with and without a count, with a bad count, too short, with a digit, not in small letters. -/
def sampleFile : List Char := "the\r\ncat\n+5\tdog\nI\nx\nab1\n-1\tow\nWe're".toList

example : ((loadWordlist asciiUnicode sampleFile).map (fun w => (w.text.toList, w.tranche, w.score))).Perm
    [("the".toList, 0, 600), ("cat".toList, 0, 600), ("dog".toList, 0, 5), ("I".toList, 1, 200),
     ("We're".toList, 1, 1000)] := by
  have h : (loadLines asciiUnicode {} (fileLines [] sampleFile)).map (fun w => (w.text.toList, w.tranche, w.score)) =
    [("the".toList, 0, 600), ("cat".toList, 0, 600), ("dog".toList, 0, 5), ("I".toList, 1, 200),
     ("We're".toList, 1, 1000)] := by decide +kernel
  rw [← h]
  exact (sortWords_perm _).map _

/-- Tranches may be missing: a list without words in small letters starts with tranche 1. -/
theorem C03_gap : (loadWordlist asciiUnicode "Ann\nBob".toList).map Word.tranche = [1, 1] := by
  have h : (loadLines asciiUnicode {} (fileLines [] "Ann\nBob".toList)).map Word.tranche = [1, 1] := by decide +kernel
  have h2 : ((loadWordlist asciiUnicode "Ann\nBob".toList).map Word.tranche).Perm [1, 1] := by
    rw [← h]; exact (sortWords_perm _).map _
  exact (List.perm_replicate (n := 2) (a := 1)).1 h2

end Noodle
