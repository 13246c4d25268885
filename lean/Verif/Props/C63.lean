import Verif.Model.File
import Verif.Spec.File
import Verif.Proofs.Utf8
import Verif.Props.C03
import Verif.Props.C58
/-
C63: reading word list files. `loadFile` is the model of `load_wordlist`, given the bytes of the file.
-/
namespace Noodle
open Spec
set_option autoImplicit false

/-! ### UTF-8 and line ends -/

theorem encode_small {c : Char} {b : UInt8} (hb : b.toNat < 128) (h : b ∈ String.utf8EncodeChar c) :
    c = Char.ofNat b.toNat ∧ String.utf8EncodeChar c = [b] := by
  have hc := char_cases c
  have hv : c.val.toNat = c.toNat := rfl
  have e := char_of_toNat c
  unfold String.utf8EncodeChar at h ⊢
  rw [hv] at h ⊢
  generalize c.toNat = n at *
  simp only at h ⊢
  have big : ∀ m, 128 ≤ m → m < 256 → b ≠ UInt8.ofNat m := by
    rintro m h1 h2 rfl
    rw [ofNat_toNat8 h2] at hb
    omega
  by_cases h1 : n ≤ 0x7f
  · rw [if_pos h1] at h ⊢
    simp only [List.mem_singleton] at h
    have hbn : b.toNat = n := by rw [h]; exact ofNat_toNat8 (by omega)
    exact ⟨by rw [hbn, e], by rw [h]⟩
  · exfalso
    rw [if_neg h1] at h
    by_cases h2 : n ≤ 0x7ff
    · rw [if_pos h2] at h
      simp only [List.mem_cons, List.not_mem_nil, or_false] at h
      rcases h with h | h <;> exact big _ (by omega) (by omega) h
    · rw [if_neg h2] at h
      by_cases h3 : n ≤ 0xffff
      · rw [if_pos h3] at h
        simp only [List.mem_cons, List.not_mem_nil, or_false] at h
        rcases h with h | h | h <;> exact big _ (by omega) (by omega) h
      · rw [if_neg h3] at h
        simp only [List.mem_cons, List.not_mem_nil, or_false] at h
        rcases h with h | h | h | h <;> exact big _ (by omega) (by omega) h

theorem utf8_append (s t : List Char) : utf8 (s ++ t) = utf8 s ++ utf8 t := List.flatMap_append
theorem utf8_newline : utf8 ['\n'] = [10] := by decide
theorem utf8_return : utf8 ['\r'] = [13] := by decide

theorem encode_ne (c : Char) : String.utf8EncodeChar c ≠ [] := by
  obtain ⟨b, m, h, _⟩ := head_of_encoded c []
  rw [h]
  exact List.cons_ne_nil _ _

theorem utf8_eq_nil {t : List Char} : utf8 t = [] ↔ t = [] := by
  cases t with
  | nil => exact ⟨fun _ => rfl, fun _ => rfl⟩
  | cons c t =>
    constructor
    · intro h
      rw [utf8, List.flatMap_cons, List.append_eq_nil_iff] at h
      exact absurd h.1 (encode_ne c)
    · intro h; cases h

theorem mem_utf8 {t : List Char} {b : UInt8} (hb : b.toNat < 128) : b ∈ utf8 t ↔ Char.ofNat b.toNat ∈ t := by
  rw [utf8, List.mem_flatMap]
  constructor
  · rintro ⟨c, hc, h⟩
    rw [← (encode_small hb h).1]
    exact hc
  · intro h
    refine ⟨_, h, ?_⟩
    have hn : (Char.ofNat b.toNat).toNat = b.toNat := toNat_ofNat_valid (.inl (by omega))
    rw [encode_ascii (by rw [hn]; exact hb), hn]
    simp

/-- A text whose encoding ends with a small byte ends with that character. -/
theorem utf8_snoc {t : List Char} {l : List UInt8} {b : UInt8} (hb : b.toNat < 128) (h : utf8 t = l ++ [b]) :
    ∃ s, t = s ++ [Char.ofNat b.toNat] ∧ utf8 s = l := by
  rcases List.eq_nil_or_concat t with rfl | ⟨s, c, rfl⟩
  · exact absurd h.symm (by simp [utf8])
  · rw [List.concat_eq_append] at h ⊢
    have hm : b ∈ String.utf8EncodeChar c := by
      have : (utf8 (s ++ [c])).getLast? = some b := by rw [h]; simp
      rw [utf8_append, List.getLast?_append] at this
      have hc : utf8 [c] = String.utf8EncodeChar c := by simp [utf8]
      rw [hc] at this
      cases hl : (String.utf8EncodeChar c).getLast? with
      | none => exact absurd (List.getLast?_eq_none_iff.1 hl) (encode_ne c)
      | some x =>
        rw [hl] at this
        injection this with this
        subst this
        exact List.mem_of_getLast? hl
    obtain ⟨h1, h2⟩ := encode_small hb hm
    refine ⟨s, by rw [h1], ?_⟩
    rw [utf8_append, show utf8 [c] = String.utf8EncodeChar c by simp [utf8], h2] at h
    exact List.append_cancel_right h

theorem fromUtf8_utf8 (t : List Char) : fromUtf8 (utf8 t) = some t := (fromUtf8_iff _ _).2 rfl

theorem fromUtf8_bad {l : List UInt8} (h : ¬ ∃ t, l = utf8 t) : fromUtf8 l = none := by
  cases hf : fromUtf8 l with
  | none => rfl
  | some t => exact absurd ⟨t, (fromUtf8_iff _ _).1 hf⟩ h

theorem bad_newline {l : List UInt8} (h : ¬ ∃ t, l = utf8 t) : ¬ ∃ t, l ++ [10] = utf8 t := by
  rintro ⟨t, ht⟩
  obtain ⟨s, _, hs⟩ := utf8_snoc (by decide) ht.symm
  exact h ⟨s, hs.symm⟩

theorem chopEnd_newline (t : List Char) : chopEnd (t ++ ['\n']) = stripCR t := by simp [chopEnd]

theorem utf8_last {t : List Char} : (utf8 t).getLast? = some 13 ↔ t.getLast? = some '\r' := by
  rw [List.getLast?_eq_some_iff, List.getLast?_eq_some_iff]
  constructor
  · rintro ⟨l, h⟩
    obtain ⟨s, hs, _⟩ := utf8_snoc (by decide) h
    exact ⟨s, hs⟩
  · rintro ⟨s, rfl⟩
    exact ⟨utf8 s, by rw [utf8_append, utf8_return]⟩

theorem chopEnd_last {t : List Char} (h : 10 ∉ utf8 t) : chopEnd t = t := by
  rw [chopEnd, if_neg]
  intro hl
  exact h ((mem_utf8 (by decide)).2 (List.mem_of_getLast? hl))

/-! ### The reader -/

theorem readUntil_run (k : Bool) : ∀ (l cur : List UInt8) (es : List (Option UInt8)), 10 ∉ l →
    readUntil k cur (l.map some ++ es) = readUntil k (cur ++ l) es
  | [], cur, es, _ => by simp
  | b :: l, cur, es, h => by
    simp only [List.mem_cons, not_or] at h
    rw [List.map_cons, List.cons_append, readUntil, if_neg (Ne.symm h.1), readUntil_run k l _ _ h.2]
    simp

theorem next_newline {k : Bool} {l : List UInt8} (h : 10 ∉ l) (es : List (Option UInt8)) :
    nextLine ⟨l.map some ++ some 10 :: es, k⟩ = (some ((fromUtf8 (l ++ [10])).map chopEnd), ⟨es, k⟩) := by
  rw [nextLine, readUntil_run k l _ _ h, readUntil, if_pos rfl]
  simp

theorem next_fail {k : Bool} {l : List UInt8} (h : 10 ∉ l) (es : List (Option UInt8)) :
    nextLine ⟨l.map some ++ none :: es, k⟩ = (some none, ⟨es, k⟩) := by
  rw [nextLine, readUntil_run k l _ _ h, readUntil]

theorem next_last {l : List UInt8} (h : 10 ∉ l) (hl : l ≠ []) :
    nextLine ⟨l.map some, false⟩ = (some ((fromUtf8 l).map chopEnd), ⟨[], false⟩) := by
  have := readUntil_run false l [] [] h
  rw [List.append_nil] at this
  rw [nextLine, this, readUntil]
  simp [hl]

theorem next_end : nextLine ⟨[], false⟩ = (none, ⟨[], false⟩) := rfl

theorem readAll_of {es : List (Option UInt8)} {ls : List (List Char)} (h : Readable es ls) :
    ∀ n, es.length < n → readAll n ⟨es, false⟩ = some ls := by
  induction h with
  | nil =>
    rintro (_ | n) hn
    · cases hn
    · rfl
  | @last t h1 h2 =>
    have h3 : utf8 t ≠ [] := fun h => h1 (utf8_eq_nil.1 h)
    intro n hn
    obtain ⟨n, rfl⟩ : ∃ k, n = k + 2 := ⟨n - 2, by
      have := List.length_pos_iff.2 h3; rw [List.length_map] at hn; omega⟩
    rw [readAll, next_last h2 h3, fromUtf8_utf8]
    show (readAll (n + 1) ⟨[], false⟩).map _ = _
    rw [readAll, next_end, chopEnd_last h2]
    rfl
  | @lastBad l h1 h2 =>
    have h3 : l ≠ [] := fun h => h2 ⟨[], by rw [h]; rfl⟩
    intro n hn
    obtain ⟨n, rfl⟩ : ∃ k, n = k + 2 := ⟨n - 2, by
      have := List.length_pos_iff.2 h3; rw [List.length_map] at hn; omega⟩
    rw [readAll, next_last h1 h3, fromUtf8_bad h2]
    rfl
  | @unix t es ls h1 h2 _ ih =>
    intro n hn
    rw [List.length_append, List.length_cons] at hn
    obtain ⟨n, rfl⟩ : ∃ k, n = k + 1 := ⟨n - 1, by omega⟩
    rw [readAll, next_newline h1, ← utf8_newline, ← utf8_append, fromUtf8_utf8]
    show (readAll n ⟨es, false⟩).map _ = _
    rw [ih n (by omega), chopEnd_newline, stripCR_unix (fun h => h2 (utf8_last.2 h))]
    rfl
  | @dos t es ls h1 _ ih =>
    intro n hn
    rw [List.length_append, List.length_cons, List.length_cons] at hn
    obtain ⟨n, rfl⟩ : ∃ k, n = k + 1 := ⟨n - 1, by omega⟩
    have e : (utf8 t).map some ++ some 13 :: some 10 :: es = (utf8 t ++ [13]).map some ++ some 10 :: es := by simp
    rw [readAll, e, next_newline (by simpa using h1), ← utf8_newline, ← utf8_return, ← utf8_append, ← utf8_append,
      fromUtf8_utf8]
    show (readAll n ⟨es, false⟩).map _ = _
    rw [ih n (by omega), chopEnd_newline, stripCR_dos]
    rfl
  | @bad l es ls h1 h2 _ ih =>
    intro n hn
    rw [List.length_append, List.length_cons] at hn
    obtain ⟨n, rfl⟩ : ∃ k, n = k + 1 := ⟨n - 1, by omega⟩
    rw [readAll, next_newline h1, fromUtf8_bad (bad_newline h2)]
    exact ih n (by omega)
  | @fail l es ls h1 _ ih =>
    intro n hn
    rw [List.length_append, List.length_cons] at hn
    obtain ⟨n, rfl⟩ : ∃ k, n = k + 1 := ⟨n - 1, by omega⟩
    rw [readAll, next_fail h1]
    exact ih n (by omega)

theorem events_cases : ∀ es : List (Option UInt8), ∃ l : List UInt8, 10 ∉ l ∧
    (es = l.map some ∨ (∃ r, es = l.map some ++ some 10 :: r) ∨ ∃ r, es = l.map some ++ none :: r)
  | [] => ⟨[], by simp, .inl rfl⟩
  | none :: r => ⟨[], by simp, .inr (.inr ⟨r, rfl⟩)⟩
  | some b :: r => by
    by_cases hb : b = 10
    · exact ⟨[], by simp, .inr (.inl ⟨r, by rw [hb]; rfl⟩)⟩
    · obtain ⟨l, h1, h2⟩ := events_cases r
      refine ⟨b :: l, by simp [Ne.symm hb, h1], ?_⟩
      rcases h2 with rfl | ⟨x, rfl⟩ | ⟨x, rfl⟩
      · exact .inl rfl
      · exact .inr (.inl ⟨x, rfl⟩)
      · exact .inr (.inr ⟨x, rfl⟩)

theorem reads_exists : ∀ (n : Nat) (es : List (Option UInt8)), es.length ≤ n → ∃ ls, Readable es ls
  | 0, es, h => ⟨[], by cases es with | nil => exact .nil | cons => simp at h⟩
  | n + 1, es, h => by
    obtain ⟨l, h1, rfl | ⟨r, rfl⟩ | ⟨r, rfl⟩⟩ := events_cases es
    · by_cases hd : ∃ t, l = utf8 t
      · obtain ⟨t, rfl⟩ := hd
        by_cases ht : t = []
        · subst ht; exact ⟨[], .nil⟩
        · exact ⟨[t], .last ht h1⟩
      · exact ⟨[], .lastBad h1 hd⟩
    · rw [List.length_append, List.length_cons] at h
      obtain ⟨ls, hls⟩ := reads_exists n r (by omega)
      by_cases hd : ∃ t, l = utf8 t
      · obtain ⟨t, rfl⟩ := hd
        by_cases hr : (utf8 t).getLast? = some 13
        · obtain ⟨l', hl'⟩ := List.getLast?_eq_some_iff.1 hr
          obtain ⟨s, rfl, hs⟩ := utf8_snoc (by decide) hl'
          refine ⟨s :: ls, ?_⟩
          have := Readable.dos (t := s) (fun hm => h1 (by rw [utf8_append]; exact List.mem_append_left _ hm)) hls
          rw [hl', ← hs]
          simpa using this
        · exact ⟨t :: ls, .unix h1 hr hls⟩
      · exact ⟨ls, .bad h1 hd hls⟩
    · rw [List.length_append, List.length_cons] at h
      obtain ⟨ls, hls⟩ := reads_exists n r (by omega)
      exact ⟨ls, .fail h1 hls⟩

/-- C63: what is read from a source that comes to its end: exactly the lines that can be read, in order. One call for
each event, and one more, are enough. -/
theorem C63_reads {es : List (Option UInt8)} {ls : List (List Char)} {n : Nat} (hn : es.length < n) :
    readAll n ⟨es, false⟩ = some ls ↔ Readable es ls := by
  refine ⟨fun h => ?_, fun h => readAll_of h n hn⟩
  obtain ⟨ls', h'⟩ := reads_exists _ es (Nat.le_refl _)
  have := (readAll_of h' n hn).symm.trans h
  injection this with this
  rw [← this]
  exact h'

/-- C63: the list that is loaded is sorted and consists of the words of the kept entries of the lines that can be read,
as in C03. -/
theorem C63_load (U : Unicode) {es : List (Option UInt8)} {n : Nat} (hn : es.length < n) :
    ∃ ls ens ws wl, Readable es ls ∧ Entries U ls ens ∧ ws.length = ens.length ∧
      (∀ (k : Nat) (e : List Char × Nat), ens[k]? = some e → ∃ w, ws[k]? = some w ∧ EntryWord U k e w) ∧
      loadFile U n ⟨es, false⟩ = some wl ∧ wl.Perm ws ∧ wl.Pairwise fun a b => Word.cmp a b ≠ .gt := by
  obtain ⟨ls, hls⟩ := reads_exists _ es (Nat.le_refl _)
  obtain ⟨ens, h1, h2, h3⟩ := loadLines_spec U ls {} 0 ⟨rfl, rfl, Nat.zero_le _⟩
  refine ⟨ls, ens, _, _, hls, h1, h2, ?_, by rw [loadFile, readAll_of hls n hn]; rfl, sortWords_perm _, sortWords_sorted _⟩
  intro k e hk
  have := h3 k e hk
  rwa [Nat.zero_add] at this

theorem reads_text {text : List Char} {ls : List (List Char)} (h : FileLines text ls) :
    Readable ((utf8 text).map some) ls := by
  have hn : ∀ {l : List Char}, '\n' ∉ l → 10 ∉ utf8 l := fun h hm => h ((mem_utf8 (by decide)).1 hm)
  induction h with
  | nil => exact .nil
  | @last l h1 h2 => exact .last h1 (hn h2)
  | @unix l t ls h1 h2 _ ih =>
    have e : (utf8 (l ++ '\n' :: t)).map some = (utf8 l).map some ++ some 10 :: (utf8 t).map some := by
      rw [utf8_append, show '\n' :: t = ['\n'] ++ t from rfl, utf8_append, utf8_newline]; simp
    rw [e]
    exact .unix (hn h1) (fun h => h2 (utf8_last.1 h)) ih
  | @dos l t ls h1 _ ih =>
    have e : (utf8 (l ++ '\r' :: '\n' :: t)).map some =
        (utf8 l).map some ++ some 13 :: some 10 :: (utf8 t).map some := by
      rw [utf8_append, show '\r' :: '\n' :: t = ['\r'] ++ (['\n'] ++ t) from rfl, utf8_append, utf8_append, utf8_newline,
        utf8_return]
      simp
    rw [e]
    exact .dos (hn h1) ih

/-- C63: a file that is UTF-8 throughout is read as its text; so C03 and all that is said of texts of word lists
(C39, C40, C44, C54) holds of it. -/
theorem C63_text (U : Unicode) (text : List Char) {n : Nat} (hn : (utf8 text).length < n) :
    loadFile U n ⟨(utf8 text).map some, false⟩ = some (loadWordlist U text) := by
  have h := reads_text (fileLines_iff.2 (rfl : fileLines [] text = _))
  rw [loadFile, readAll_of h n (by simpa using hn)]
  rfl

theorem text_of_reads {es : List (Option UInt8)} {ls : List (List Char)} (h : Readable es ls) :
    ∃ text, FileLines text ls := by
  have hn : ∀ {t : List Char}, 10 ∉ utf8 t → '\n' ∉ t := fun h hm => h ((mem_utf8 (by decide)).2 hm)
  induction h with
  | nil => exact ⟨[], .nil⟩
  | @last t h1 h2 => exact ⟨t, .last h1 (hn h2)⟩
  | lastBad => exact ⟨[], .nil⟩
  | unix h1 h2 _ ih => obtain ⟨x, hx⟩ := ih; exact ⟨_, .unix (hn h1) (fun h => h2 (utf8_last.2 h)) hx⟩
  | dos h1 _ ih => obtain ⟨x, hx⟩ := ih; exact ⟨_, .dos (hn h1) hx⟩
  | bad _ _ _ ih => exact ih
  | fail _ _ ih => exact ih

/-- C63: whatever a file contains, and whichever reads fail, the list that is loaded is that of some text: nothing that
is proved of all texts of word lists can fail for a damaged file. -/
theorem C63_some_text (U : Unicode) {s : Source} {n : Nat} {wl : List Word} (hs : s.stuck = false)
    (h : loadFile U n s = some wl) (hn : s.events.length < n) : ∃ text, wl = loadWordlist U text := by
  obtain ⟨es, k⟩ := s
  cases hs
  obtain ⟨ls, hls⟩ := reads_exists _ es (Nat.le_refl _)
  rw [loadFile, readAll_of hls n hn] at h
  obtain ⟨text, ht⟩ := text_of_reads hls
  refine ⟨text, ?_⟩
  injection h with h
  rw [← h, loadWordlist, fileLines_of ht]

/-- Complete lines. -/
theorem reads_append {a b : List (Option UInt8)} {la lb : List (List Char)} (ha : Readable a la) (hb : Readable b lb)
    (hend : a = [] ∨ a.getLast? = some (some 10) ∨ a.getLast? = some none) : Readable (a ++ b) (la ++ lb) := by
  have tail : ∀ {x : List (Option UInt8)} {o : Option UInt8} {es : List (Option UInt8)},
      (x ++ o :: es = [] ∨ (x ++ o :: es).getLast? = some (some 10) ∨ (x ++ o :: es).getLast? = some none) →
      (es = [] ∨ es.getLast? = some (some 10) ∨ es.getLast? = some none) := by
    intro x o es h
    cases es with
    | nil => exact .inl rfl
    | cons y es =>
      right
      rcases h with h | h | h
      · simp at h
      · left; simpa [List.getLast?_append] using h
      · right; simpa [List.getLast?_append] using h
  have nolast : ∀ {l : List UInt8}, 10 ∉ l → l.map some ≠ [] →
      ¬ (l.map some = [] ∨ (l.map some).getLast? = some (some (10 : UInt8)) ∨ (l.map some).getLast? = some none) := by
    rintro l h1 h2 (h | h | h)
    · exact h2 h
    · have := List.mem_of_getLast? h
      simp at this; exact h1 this
    · have := List.mem_of_getLast? h
      simp at this
  induction ha with
  | nil => exact hb
  | last h1 h2 => exact absurd hend (nolast h2 (fun h => h1 (utf8_eq_nil.1 (List.map_eq_nil_iff.1 h))))
  | @lastBad l h1 h2 => exact absurd hend (nolast h1 (fun h => h2 ⟨[], by rw [List.map_eq_nil_iff.1 h]; rfl⟩))
  | unix h1 h2 _ ih => rw [List.append_assoc]; exact .unix h1 h2 (ih (tail hend))
  | @dos t es ls h1 _ ih =>
    rw [List.append_assoc]
    refine .dos h1 (ih (tail (x := (utf8 t).map some ++ [some 13]) (o := some 10) ?_))
    simpa using hend
  | bad h1 h2 _ ih => rw [List.append_assoc]; exact .bad h1 h2 (ih (tail hend))
  | fail h1 _ ih => rw [List.append_assoc]; exact .fail h1 (ih (tail hend))

/-- C63: a line that is not UTF-8 is left out, and nothing else is: the list is that of the file without this line.
`a` is what comes before: empty, or ended by a `\n` or a read that failed. -/
theorem C63_bad_line (U : Unicode) {a b : List (Option UInt8)} {l : List UInt8} {n m : Nat}
    (ha : a = [] ∨ a.getLast? = some (some 10) ∨ a.getLast? = some none) (hl : 10 ∉ l) (hbad : ¬ ∃ t, l = utf8 t)
    (hn : (a ++ l.map some ++ some 10 :: b).length < n) (hm : (a ++ b).length < m) :
    loadFile U n ⟨a ++ l.map some ++ some 10 :: b, false⟩ = loadFile U m ⟨a ++ b, false⟩ := by
  obtain ⟨la, h1⟩ := reads_exists _ a (Nat.le_refl _)
  obtain ⟨lb, h2⟩ := reads_exists _ b (Nat.le_refl _)
  have h3 := reads_append h1 (Readable.bad hl hbad h2) ha
  rw [← List.append_assoc] at h3
  rw [loadFile, loadFile, readAll_of h3 n hn, readAll_of (reads_append h1 h2 ha) m hm]

/-- C63: a source that is stuck is never given up: the loading does not end. A program that is given a directory instead
of a file, or a damaged archive, hangs. -/
theorem C63_stuck (U : Unicode) {s : Source} (hs : s.stuck = true) (n : Nat) : loadFile U n s = none := by
  suffices h : readAll n s = none by rw [loadFile, h]; rfl
  obtain ⟨es, k⟩ := s
  cases hs
  induction n generalizing es with
  | zero => rfl
  | succ n ih =>
    rw [readAll]
    obtain ⟨l, h1, rfl | ⟨r, rfl⟩ | ⟨r, rfl⟩⟩ := events_cases es
    · have := readUntil_run true l [] [] h1
      rw [List.append_nil] at this
      rw [nextLine, this, readUntil]
      exact ih []
    · rw [next_newline h1]
      cases (fromUtf8 (l ++ [10])).map chopEnd with
      | none => exact ih r
      | some t => simp only; rw [ih r]; rfl
    · rw [next_fail h1]
      exact ih r

/-- C63: when a read fails in the middle of a line and the next ones do not, the rest of the line is taken for a line: a
word that is not in the file is loaded. -/
theorem C63_counterexample : (loadFile asciiUnicode 20 ⟨(utf8 "every".toList).map some ++ none ::
    (utf8 "body\n".toList).map some, false⟩).map (fun wl => wl.map fun w => w.text.toList) = some ["body".toList] := by
  have h : readAll 20 ⟨(utf8 "every".toList).map some ++ none :: (utf8 "body\n".toList).map some, false⟩ =
      some ["body".toList] := by decide +kernel
  rw [loadFile, h]
  have h2 : ((sortWords (loadLines asciiUnicode {} ["body".toList])).map fun w => w.text.toList).Perm ["body".toList] := by
    have h3 : (loadLines asciiUnicode {} ["body".toList]).map (fun w => w.text.toList) = ["body".toList] := by
      decide +kernel
    have := (sortWords_perm (loadLines asciiUnicode {} ["body".toList])).map fun w => w.text.toList
    rwa [h3] at this
  exact congrArg some (List.perm_singleton.1 h2)

/-- C63: the file that the server makes of a list can be loaded again (C54, for the bytes that are sent). -/
theorem C63_again {U : Unicode} {es : List (Option UInt8)} {n m : Nat} {wl : List Word} (hn : es.length < n)
    (h : loadFile U n ⟨es, false⟩ = some wl) (hr : ∀ w ∈ wl, w.text.toList.getLast? ≠ some '\r')
    (hm : (utf8 (listText wl)).length < m) : ∃ wl', loadFile U m ⟨(utf8 (listText wl)).map some, false⟩ = some wl' ∧
      (wl'.map fun w => (w.text, w.chars)).Perm (wl.map fun w => (w.text, w.chars)) := by
  obtain ⟨text, ht⟩ := C63_some_text U (s := ⟨es, false⟩) rfl h hn
  exact ⟨_, C63_text U _ hm, C54_again ht hr⟩

/-! ### Archives -/

theorem extension_iff (name ext : List Char) (hne : ext ≠ []) :
    extension name = some ext ↔ ∃ stem, stem ≠ [] ∧ name = stem ++ '.' :: ext ∧ '.' ∉ ext := by
  unfold extension
  have hspan := List.takeWhile_append_dropWhile (p := fun c : Char => decide (c ≠ '.')) (l := name.reverse)
  have hrev : name = (name.reverse.dropWhile fun c => decide (c ≠ '.')).reverse ++
      (name.reverse.takeWhile fun c => decide (c ≠ '.')).reverse := by
    rw [← List.reverse_append, hspan, List.reverse_reverse]
  constructor
  · intro h
    by_cases hd : name = ['.', '.']
    · rw [if_pos hd] at h; cases h
    rw [if_neg hd] at h
    cases hw : name.reverse.dropWhile (fun c => decide (c ≠ '.')) with
    | nil => rw [hw] at h; cases h
    | cons c before =>
      rw [hw] at h hrev
      have hc : c = '.' := by
        have := List.head?_dropWhile_not (fun c => decide (c ≠ '.')) name.reverse
        rw [hw] at this
        simpa using this
      simp only at h
      by_cases hb : before.isEmpty = true
      · rw [if_pos hb] at h; cases h
      · rw [if_neg hb] at h
        injection h with h
        refine ⟨before.reverse, by simpa using hb, ?_, ?_⟩
        · rw [hrev, h, List.reverse_cons, hc]; simp
        · rw [← h]
          intro hm
          rw [List.mem_reverse] at hm
          have := List.all_eq_true.1 List.all_takeWhile _ hm
          simp at this
  · rintro ⟨stem, h1, rfl, h2⟩
    have hr : (stem ++ '.' :: ext).reverse = ext.reverse ++ '.' :: stem.reverse := by simp
    rw [hr, List.dropWhile_append_of_pos, List.takeWhile_append_of_pos]
    · rw [if_neg]
      · simp [h1]
      · intro h
        cases stem with
        | nil => exact h1 rfl
        | cons a stem =>
          cases stem with
          | nil => injection h with _ h; injection h with _ h; exact hne h
          | cons b stem => injection h with _ h; injection h with _ h; simp at h
    all_goals
      intro c hc
      rw [List.mem_reverse] at hc
      simp only [ne_eq, decide_eq_true_eq]
      rintro rfl
      exact h2 hc

/-- C63: a file is decompressed exactly if its name ends with `.zst` and is not just that. -/
theorem C63_zst (name : List Char) (plain decoded : Source) :
    ((∃ stem, stem ≠ [] ∧ name = stem ++ ".zst".toList) → openList name plain decoded = decoded) ∧
    ((¬ ∃ stem, stem ≠ [] ∧ name = stem ++ ".zst".toList) → openList name plain decoded = plain) := by
  have hz : ".zst".toList = '.' :: ['z', 's', 't'] := rfl
  have key : extension name = some ['z', 's', 't'] ↔ ∃ stem, stem ≠ [] ∧ name = stem ++ ".zst".toList := by
    rw [extension_iff name _ (by simp), hz]
    constructor
    · rintro ⟨s, h1, h2, _⟩; exact ⟨s, h1, h2⟩
    · rintro ⟨s, h1, h2⟩; exact ⟨s, h1, h2, by decide⟩
  rw [← key]
  exact ⟨fun h => if_pos h, fun h => if_neg h⟩

example : extension "words.txt.zst".toList = some "zst".toList ∧ extension ".zst".toList = none ∧
    extension "words".toList = none ∧ extension "words.ZST".toList = some "ZST".toList := by decide +kernel

/-! ### Examples -/

/-- `the`, a line that is not UTF-8, `Ré` with a carriage return, and an end without `\n`. -/
def sampleBytes : List UInt8 := [116, 104, 101, 10, 97, 255, 98, 10, 82, 195, 169, 13, 10, 99, 97, 116]

example : Readable (sampleBytes.map some) ["the".toList, ['R', 'é'], "cat".toList] :=
  (C63_reads (n := 17) (by decide)).1 (by decide +kernel)

example : ¬ ∃ t, ([97, 255, 98] : List UInt8) = utf8 t := by
  rintro ⟨t, ht⟩
  have : fromUtf8 [97, 255, 98] = some t := (fromUtf8_iff _ _).2 ht
  have h2 : fromUtf8 [97, 255, 98] = none := by decide +kernel
  rw [h2] at this
  cases this

end Noodle
