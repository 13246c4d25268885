import Verif.Proofs.ListGen
import Verif.Props.C53
/-
C71: the preparation of word lists.
-/
namespace Noodle
set_option autoImplicit false
open Spec

theorem bind_some {α β : Type} {x : Except PyError α} {f : α → Except PyError β} {b : β} (h : (x >>= f) = .ok b) :
    ∃ a, x = .ok a ∧ f a = .ok b := by
  cases x with
  | error e => cases h
  | ok a => exact ⟨a, rfl, h⟩

/-- C71: the canonical form of a word, as it is computed, is the canonical form as it is defined, and there is exactly one. -/
theorem C71_canonical (P : Python) (word k : List Char) : canonicalize P word = k ↔ Canonical P word k := canonical_iff.symm

/-- What a list is written as. -/
theorem dumpFinal_spec {P : Python} {d : WordData} {text : List Char} (h : dumpFinal P d = .ok text)
    (hs : d.Pairwise fun x y => y.2.1 ≤ x.2.1) : ∃ values, Written P (d.map listedAs) values text := by
  unfold dumpFinal at h
  split at h
  · cases h
  · next least hl =>
    have hs' : d.Pairwise fun x y => decide (y.2.1 ≤ x.2.1) = true := hs.imp fun h => by simpa using h
    rw [List.mergeSort_of_pairwise hs'] at h
    obtain ⟨h1, h2⟩ := dumpLines_spec h
    have e : d.map (fun x => x.2.1) = (d.map listedAs).map ListEntry.points := by
      rw [List.map_map]; rfl
    rw [e] at h1 h2 hl
    obtain ⟨h3, h4⟩ := List.min?_eq_some_iff.1 hl
    obtain ⟨x, hx, rfl⟩ := List.mem_map.1 h3
    exact ⟨fun e => (P.value ((d.map listedAs).map ListEntry.points).sum x.points e.points).getD 0,
      ⟨x, hx, fun e he => h4 _ (List.mem_map.2 ⟨e, he, rfl⟩), h1⟩, h2⟩

/-- The list that is written at the end. -/
theorem final_list {P : Python} (cutoff : Int) {rows : List CountRow} {st : Gather} (g3 : Gathered P rows st) :
    ListOf P cutoff rows ((finalList st.originals [] (outputWords cutoff st.points)).map listedAs) := by
  obtain ⟨o1, o2, o3⟩ := outputWords_spec cutoff g3.keys
  have hfin := finalList_spec st.originals (outputWords cutoff st.points) [] o2 (by simp)
  rw [List.map_nil, List.nil_append] at hfin
  have hblock : ∀ k, Counted k ↔ k ≠ [] ∧ k ≠ ['a', 'e', 'o'] := by
    intro k; simp [Counted, blocklist]
  rw [hfin]
  refine ⟨fun k n w => ?_, ?_⟩
  · rw [List.mem_map]
    constructor
    · rintro ⟨⟨n', k'⟩, hm, e⟩
      rw [ListEntry.mk.injEq] at e
      obtain ⟨rfl, rfl, rfl⟩ := e
      dsimp only at *
      obtain ⟨m1, m2⟩ := (o1 _ _).1 hm
      obtain ⟨m3, ⟨r, m4, m5⟩, rfl⟩ := (g3.points _ _).1 m1
      refine ⟨((hblock _).1 m3).1, ((hblock _).1 m3).2, earned_spec P _ _, m2, ?_⟩
      obtain ⟨w, hw⟩ : ∃ w, LastForm P k' (rows) w := by
        exact last_exists ⟨r, m4, m5⟩
      rw [(g3.originals _ w).2 ⟨m3, hw⟩]
      exact hw
    · rintro ⟨m1, m2, m3, m4, m5⟩
      have hk := (hblock k).2 ⟨m1, m2⟩
      obtain ⟨a, c, b, e, m6, m7⟩ := id m5
      refine ⟨(n, k), (o1 n k).2 ⟨(g3.points k n).2 ⟨hk, ⟨(c, w), by rw [e]; simp, canonical_iff.1 m6⟩, earned_unique m3⟩, m4⟩, ?_⟩
      rw [(g3.originals k w).2 ⟨hk, m5⟩]
      rfl
  · rw [List.pairwise_map]
    exact o3

/-- C71: the word list that is written contains exactly the canonical forms of the words of the three files that have enough
points, each once, as its last word, those with most points first. -/
theorem C71_words {P : Python} (hP : Sane P) {cutoff : Int} {wiktionary titles body : List Char} {files : ListFiles}
    (h : createWordlist P cutoff wiktionary titles body = .ok files) :
    ∃ rows es values, AllRows P wiktionary titles body rows ∧ (∀ r ∈ rows, '\n' ∉ r.2 ∧ '\r' ∉ r.2 ∧ '\t' ∉ r.2) ∧
      ListOf P cutoff rows es ∧ Written P es values files.words := by
  unfold createWordlist at h
  obtain ⟨r1, h1, h⟩ := bind_some h
  obtain ⟨⟨st1, d1⟩, h2, h⟩ := bind_some h
  obtain ⟨f1, h3, h⟩ := bind_some h
  obtain ⟨r2, h4, h⟩ := bind_some h
  obtain ⟨⟨st2, d2⟩, h5, h⟩ := bind_some h
  obtain ⟨f2, h6, h⟩ := bind_some h
  obtain ⟨r3, h7, h⟩ := bind_some h
  obtain ⟨st, h8, h⟩ := bind_some h
  obtain ⟨text, h9, h⟩ := bind_some h
  have h : (⟨f1, f2, text⟩ : ListFiles) = files := by injection h
  subst h
  have g1 := gatherList_spec hP.nothing 1 r1 (gathered_nil P) h2
  have g2 := gatherList_spec hP.nothing 3 r2 g1 h5
  have g3 := gatherBody_spec hP.nothing r3 g2 h8
  rw [List.nil_append, show (r1.map fun r => (1 * r.1, r.2)) = r1 by simp] at g3
  have c1 := rows_of (f := rowOfThree P) (row := RowOfThree P) rowOfThree_spec h1
  have c2 := rows_of (f := rowOfTwo P) (row := RowOfTwo P) rowOfTwo_spec h4
  have c3 := rows_of (f := rowOfTwo P) (row := RowOfTwo P) rowOfTwo_spec h7
  have hlist := final_list cutoff g3
  have hsort : (finalList st.originals [] (outputWords cutoff st.points)).Pairwise fun x y => y.2.1 ≤ x.2.1 := by
    have := hlist.2
    rw [List.pairwise_map] at this
    refine this.imp ?_
    rintro x y (h | ⟨h, _⟩)
    · have h : y.2.1 < x.2.1 := h
      omega
    · have h : y.2.1 = x.2.1 := h
      omega
  obtain ⟨values, hw⟩ := dumpFinal_spec h9 hsort
  refine ⟨_, _, values, ⟨r1, r2, r3, c1, c2, c3, rfl⟩, ?_, hlist, hw⟩
  intro r hr
  have ht := g3.tabs r hr
  simp only [List.mem_append, List.mem_map] at hr
  rcases hr with (hr | ⟨r', hr, rfl⟩) | hr
  · obtain ⟨a, b⟩ := rows_clean c1 three_sub r hr
    exact ⟨a, b, ht⟩
  · obtain ⟨a, b⟩ := rows_clean c2 two_sub r' hr
    exact ⟨a, b, ht⟩
  · obtain ⟨a, b⟩ := rows_clean c3 two_sub r hr
    exact ⟨a, b, ht⟩

/-! ### The lists of the first two files -/

theorem perm_sum {l l' : List Int} (h : l.Perm l') : l.sum = l'.sum := by
  induction h with
  | nil => rfl
  | cons x _ ih => rw [List.sum_cons, List.sum_cons, ih]
  | swap x y l => rw [List.sum_cons, List.sum_cons, List.sum_cons, List.sum_cons]; omega
  | trans _ _ h1 h2 => rw [h1, h2]

/-- What a list is written as, whatever its order. -/
theorem dumpFinal_any {P : Python} {d : WordData} {text : List Char} (h : dumpFinal P d = .ok text) :
    ∃ d' : WordData, d'.Perm d ∧ (d'.Pairwise fun x y => y.2.1 ≤ x.2.1) ∧ ∃ values, Written P (d'.map listedAs) values text := by
  have hp : (d.mergeSort fun x y => decide (y.2.1 ≤ x.2.1)).Perm d := List.mergeSort_perm _ _
  have hs : (d.mergeSort fun x y => decide (y.2.1 ≤ x.2.1)).Pairwise fun x y => y.2.1 ≤ x.2.1 := by
    have := List.pairwise_mergeSort (le := fun x y : List Char × Int × Nat × List Char => decide (y.2.1 ≤ x.2.1))
      (by intro a b c; simp only [decide_eq_true_eq]; omega)
      (by intro a b; simp only [Bool.or_eq_true, decide_eq_true_eq]; omega) d
    exact this.imp fun h => by simpa using h
  refine ⟨_, hp, hs, ?_⟩
  unfold dumpFinal at h
  split at h
  · cases h
  · next least hl =>
    generalize (d.mergeSort fun x y => decide (y.2.1 ≤ x.2.1)) = d' at h hp hs
    obtain ⟨h1, h2⟩ := dumpLines_spec h
    have e : (d.map fun x => x.2.1).sum = ((d'.map listedAs).map ListEntry.points).sum := by
      rw [List.map_map]
      exact perm_sum (hp.map _).symm
    rw [e] at h1 h2
    obtain ⟨h3, h4⟩ := List.min?_eq_some_iff.1 hl
    obtain ⟨x, hx, rfl⟩ := List.mem_map.1 h3
    refine ⟨fun e => (P.value ((d'.map listedAs).map ListEntry.points).sum x.2.1 e.points).getD 0,
      ⟨listedAs x, List.mem_map.2 ⟨x, hp.mem_iff.2 hx, rfl⟩, ?_, h1⟩, h2⟩
    intro e he
    obtain ⟨y, hy, rfl⟩ := List.mem_map.1 he
    exact h4 _ (List.mem_map.2 ⟨y, hp.mem_iff.1 hy, rfl⟩)

theorem last_in {P : Python} {k w : List Char} {base rows : List CountRow} :
    ((∃ r ∈ rows, canonicalize P r.2 = k) ∧ LastForm P k (base ++ rows) w) ↔ LastForm P k rows w := by
  constructor
  · rintro ⟨⟨r, hr, e⟩, hl⟩
    obtain ⟨v, a, c, b, e1, h1, h2⟩ := last_exists ⟨r, hr, e⟩
    have : LastForm P k (base ++ rows) v := ⟨base ++ a, c, b, by rw [e1]; simp, h1, h2⟩
    rw [last_unique hl this]
    exact ⟨a, c, b, e1, h1, h2⟩
  · rintro ⟨a, c, b, e1, h1, h2⟩
    exact ⟨⟨(c, w), by rw [e1]; simp, canonical_iff.1 h1⟩, base ++ a, c, b, by rw [e1]; simp, h1, h2⟩

/-- What a list of one file has, whatever its order. -/
theorem collected_entries {P : Python} {base rows : List CountRow} {d d' : WordData} (hd : Collected P base rows d)
    (hp : d'.Perm d) :
    (∀ k n w, (⟨k, n, w⟩ : ListEntry) ∈ d'.map listedAs ↔ k ≠ [] ∧ k ≠ ['a', 'e', 'o'] ∧ Earned P k (base ++ rows) n ∧ n ≠ 0 ∧
      LastForm P k rows w) ∧ ((d'.map listedAs).map ListEntry.form).Nodup := by
  refine ⟨fun k n w => ?_, ?_⟩
  · have hb : Counted k ↔ k ≠ [] ∧ k ≠ ['a', 'e', 'o'] := by simp [Counted, blocklist]
    have hm : (⟨k, n, w⟩ : ListEntry) ∈ d'.map listedAs ↔ ∃ i, d.get k = some (n, i, w) := by
      rw [List.mem_map]
      constructor
      · rintro ⟨⟨k', n', i, w'⟩, hx, e⟩
        simp only [listedAs, ListEntry.mk.injEq] at e
        obtain ⟨rfl, rfl, rfl⟩ := e
        exact ⟨i, (pyMem_iff hd.keys _ _).1 (hp.mem_iff.1 hx)⟩
      · rintro ⟨i, e⟩
        exact ⟨(k, n, i, w), hp.mem_iff.2 ((pyMem_iff hd.keys _ _).2 e), rfl⟩
    rw [hm, hd.entries, hb]
    constructor
    · rintro ⟨⟨a, b⟩, c, rfl, e, f⟩
      exact ⟨a, b, earned_spec P _ _, e, last_in.1 ⟨c, f⟩⟩
    · rintro ⟨a, b, c, e, f⟩
      obtain ⟨f1, f2⟩ := (last_in (base := base)).2 f
      exact ⟨⟨a, b⟩, f1, earned_unique c, e, f2⟩
  · rw [List.map_map]
    exact ((hp.map (·.1)).nodup_iff).2 hd.keys

theorem collected_list {P : Python} {base rows : List CountRow} {d : WordData} {text : List Char}
    (hd : Collected P base rows d) (h : dumpFinal P d = .ok text) :
    ∃ es values, ListAfter P base rows es ∧ Written P es values text := by
  obtain ⟨d', hp, hs, values, hw⟩ := dumpFinal_any h
  obtain ⟨h1, h2⟩ := collected_entries hd hp
  exact ⟨_, values, ⟨h1, h2, by rw [List.pairwise_map]; exact hs⟩, hw⟩

/-- C71: the lists that are written for the first two files contain exactly the canonical forms of the words of this file, each
once, as its last word there, with the points that it has from this file and the one before it, those with most points first,
as long as no row takes points away. -/
theorem C71_lists {P : Python} (hP : Sane P) {cutoff : Int} {wiktionary titles body : List Char} {files : ListFiles}
    (h : createWordlist P cutoff wiktionary titles body = .ok files) :
    ∃ r1 r2 : List CountRow, RowsOf (RowOfThree P) wiktionary r1 ∧ RowsOf (RowOfTwo P) titles r2 ∧
      ((∀ r ∈ r1 ++ r2.map (fun r => (3 * r.1, r.2)), ∀ k n, Canonical P r.2 k → Worth P r.1 k r.2 n → 0 ≤ n) →
        (∃ es values, ListAfter P [] r1 es ∧ Written P es values files.wiktionary) ∧
        ∃ es values, ListAfter P r1 (r2.map fun r => (3 * r.1, r.2)) es ∧ Written P es values files.titles) := by
  unfold createWordlist at h
  obtain ⟨r1, h1, h⟩ := bind_some h
  obtain ⟨⟨st1, d1⟩, h2, h⟩ := bind_some h
  obtain ⟨f1, h3, h⟩ := bind_some h
  obtain ⟨r2, h4, h⟩ := bind_some h
  obtain ⟨⟨st2, d2⟩, h5, h⟩ := bind_some h
  obtain ⟨f2, h6, h⟩ := bind_some h
  obtain ⟨r3, h7, h⟩ := bind_some h
  obtain ⟨st, h8, h⟩ := bind_some h
  obtain ⟨text, h9, h⟩ := bind_some h
  have h : (⟨f1, f2, text⟩ : ListFiles) = files := by injection h
  subst h
  have c1 := rows_of (f := rowOfThree P) (row := RowOfThree P) rowOfThree_spec h1
  have c2 := rows_of (f := rowOfTwo P) (row := RowOfTwo P) rowOfTwo_spec h4
  refine ⟨r1, r2, c1, c2, fun hpos => ?_⟩
  have hadj : ∀ r ∈ r1 ++ r2.map (fun r => (3 * r.1, r.2)), 0 ≤ adjust P r.1 (canonicalize P r.2) r.2 :=
    fun r hr => hpos r hr _ _ (canonicalize_spec P r.2) (adjust_worth P _ _ _)
  have e1 : (r1.map fun r => (1 * r.1, r.2)) = r1 := by simp
  have k1 := gatherList_collects hP.nothing 1 r1 (base := []) (rows := []) (gathered_nil P) (collected_nil P [])
    (by rw [e1]; intro r hr; exact hadj r (by simpa using .inl hr)) h2
  have g1 := gatherList_spec hP.nothing 1 r1 (gathered_nil P) h2
  rw [List.nil_append, e1] at k1 g1
  have k2 := gatherList_collects hP.nothing 3 r2 (base := r1) (rows := []) (by simpa using g1) (collected_nil P r1)
    (by simpa using hadj) h5
  rw [List.nil_append] at k2
  exact ⟨collected_list k1 h3, collected_list k2 h6⟩

/-! ### Loading the list -/

/-- The lines of a list. -/
def listLine (e : ListEntry) (v : Nat) : List Char := digits v ++ '\t' :: e.word

theorem digits_plain (v : Nat) {c : Char} (h : c.isDigit = false) : c ∉ digits v := fun hm => by
  rw [digits_digit v c hm] at h
  cases h

theorem list_fileLines (f : ListEntry → Nat) : ∀ {es : List ListEntry}, (∀ e ∈ es, '\n' ∉ e.word ∧ '\r' ∉ e.word) →
    FileLines (es.flatMap fun e => digits (f e) ++ '\t' :: (e.word ++ ['\n'])) (es.map fun e => listLine e (f e))
  | [], _ => .nil
  | e :: es, h => by
    obtain ⟨h1, h2⟩ := h e (by simp)
    have := list_fileLines f fun x hx => h x (List.mem_cons_of_mem _ hx)
    rw [List.map_cons, List.flatMap_cons]
    have hn : '\n' ∉ listLine e (f e) := by
      unfold listLine
      simp [h1, digits_plain (f e) (show '\n'.isDigit = false by rfl)]
    have hr : (listLine e (f e)).getLast? ≠ some '\r' := by
      intro hl
      have := List.mem_of_getLast? hl
      unfold listLine at this
      simp [h2, digits_plain (f e) (show '\r'.isDigit = false by rfl)] at this
    have := FileLines.unix hn hr this
    unfold listLine at this ⊢
    simpa using this

open Classical in
theorem list_entries (U : Unicode) {f : ListEntry → Nat} : ∀ {es : List ListEntry}, (∀ e ∈ es, f e < 2 ^ 32) →
    Entries U (es.map fun e => listLine e (f e)) ((es.filter fun e => decide (Spec.Keeps U e.word)).map fun e => (e.word, f e))
  | [], _ => .nil
  | e :: es, h => by
    have ih := list_entries U (f := f) fun x hx => h x (List.mem_cons_of_mem _ hx)
    have hl : LineIs (listLine e (f e)) e.word (f e) :=
      .counted (digits_plain (f e) (by rfl)) ⟨.inl (decimal_toString (f e)), h e (by simp)⟩
    rw [List.map_cons]
    by_cases hk : Spec.Keeps U e.word
    · rw [List.filter_cons_of_pos (by simpa using hk), List.map_cons]
      exact .keep hl hk ih
    · rw [List.filter_cons_of_neg (by simpa using hk)]
      exact .skip hl hk ih

theorem points_le_sum {es : List ListEntry} (h : ∀ e ∈ es, 0 < e.points) : 0 ≤ (es.map ListEntry.points).sum ∧
    ∀ e ∈ es, e.points ≤ (es.map ListEntry.points).sum := by
  induction es with
  | nil => simp
  | cons x es ih =>
    obtain ⟨h1, h2⟩ := ih fun e he => h e (by simp [he])
    have hx := h x (by simp)
    rw [List.map_cons, List.sum_cons]
    refine ⟨by omega, fun e he => ?_⟩
    rcases List.mem_cons.1 he with rfl | he
    · omega
    · have := h2 e he
      omega

/-- C71: the word list that is written, with a positive threshold, has at least two words, and `load_wordlist` reads from it
each of these words that it keeps (longer than one letter, without digits), once, and nothing else, with the score that is
written: from 0 for a word with all points to a million for the least; more points never give a larger score. -/
theorem C71_loads {P : Python} (hP : Sane P) {cutoff : Int} (hc : 0 < cutoff) {wiktionary titles body : List Char}
    {files : ListFiles} (h : createWordlist P cutoff wiktionary titles body = .ok files) :
    ∃ (rows : List CountRow) (es : List ListEntry) (values : ListEntry → Int), AllRows P wiktionary titles body rows ∧
      ListOf P cutoff rows es ∧ Written P es values files.words ∧ 2 ≤ es.length ∧
      (∀ e ∈ es, 0 ≤ values e ∧ values e ≤ 1000000) ∧
      (∀ a ∈ es, ∀ b ∈ es, b.points ≤ a.points → values a ≤ values b) ∧
      ∀ U, (∀ w ∈ loadWordlist U files.words, ∃ e ∈ es, Spec.Keeps U e.word ∧ w.text = String.ofList e.word ∧ w.score = values e) ∧
        (∀ e ∈ es, Spec.Keeps U e.word → ∃ w ∈ loadWordlist U files.words, w.text = String.ofList e.word ∧ w.score = values e) ∧
        ((loadWordlist U files.words).map Word.text).Nodup := by
  classical
  obtain ⟨rows, es, values, h1, h2, h3, h4⟩ := C71_words hP h
  obtain ⟨⟨least, g1, g2, g3⟩, g4⟩ := id h4
  have hmem : ∀ e ∈ es, e.form ≠ [] ∧ e.form ≠ ['a', 'e', 'o'] ∧ Earned P e.form rows e.points ∧ cutoff ≤ e.points ∧
      LastForm P e.form rows e.word := fun e he => (h3.1 e.form e.points e.word).1 he
  have hpos : ∀ e ∈ es, 0 < e.points := fun e he => by
    have := (hmem e he).2.2.2.1
    omega
  obtain ⟨s1, s2⟩ := points_le_sum hpos
  have hlt : least.points < (es.map ListEntry.points).sum := by
    refine lt_of_le_of_ne (s2 least g1) fun e => ?_
    have := g3 least g1
    rw [← e, hP.one] at this
    cases this
  have hval : ∀ e ∈ es, ∃ v : Nat, values e = v ∧ v ≤ 1000000 := by
    intro e he
    obtain ⟨v, v1, v2⟩ := hP.range _ _ _ (hpos least g1) (g2 e he) (s2 e he) hlt
    have := g3 e he
    rw [v1] at this
    exact ⟨v, (Option.some.inj this).symm, v2⟩
  have hword : ∀ e ∈ es, '\n' ∉ e.word ∧ '\r' ∉ e.word := by
    intro e he
    obtain ⟨a, c, b, e1, _⟩ := (hmem e he).2.2.2.2
    obtain ⟨w1, w2, _⟩ := h2 (c, e.word) (by rw [e1]; simp)
    exact ⟨w1, w2⟩
  have hnat : ∀ e ∈ es, values e = ((values e).toNat : Int) ∧ (values e).toNat ≤ 1000000 := by
    intro e he
    obtain ⟨v, v1, v2⟩ := hval e he
    rw [v1]
    exact ⟨rfl, v2⟩
  refine ⟨rows, es, values, h1, h3, h4, ?_, ?_, ?_, fun U => ?_⟩
  · match es, g1, hlt with
    | [], g1, _ => simp at g1
    | [x], g1, hlt =>
      rw [List.mem_singleton] at g1
      subst g1
      simp at hlt
    | _ :: _ :: _, _, _ => simp
  · intro e he
    obtain ⟨v, v1, v2⟩ := hval e he
    rw [v1]
    omega
  · intro a ha b hb hab
    exact hP.down _ _ _ _ _ _ (hpos least g1) (g2 b hb) hab (s2 a ha) (g3 b hb) (g3 a ha)
  · have htext : files.words = es.flatMap fun e => digits (values e).toNat ++ '\t' :: (e.word ++ ['\n']) := by
      rw [g4]
      refine List.flatMap_congr fun e he => ?_
      rw [(hnat e he).1]
      rfl
    have hlines := list_fileLines (fun e => (values e).toNat) hword
    rw [← htext] at hlines
    have hent := list_entries U (f := fun e => (values e).toNat) (es := es) fun e he => by
      have := (hnat e he).2
      omega
    obtain ⟨ls, en, ws, k1, k2, k3, k4, k5, _⟩ := C03_load U files.words
    obtain rfl := (fileLines_iff.1 k1).symm.trans (fileLines_iff.1 hlines)
    obtain rfl := entries_unique k2 hent
    have hnodup : (es.map ListEntry.word).Nodup := by
      rw [List.Nodup, List.pairwise_map]
      refine (h3.2.imp_of_mem (S := fun a b => a.form ≠ b.form) ?_).imp_of_mem ?_
      · rintro a b ha hb (h | ⟨_, h⟩) e
        · have q1 := earned_unique (hmem a ha).2.2.1
          have q2 := earned_unique (hmem b hb).2.2.1
          rw [e] at q1
          omega
        · rw [e] at h
          exact absurd h (List.lt_irrefl _)
      · intro a b ha hb hf e
        obtain ⟨_, _, _, _, c1, _⟩ := (hmem a ha).2.2.2.2
        obtain ⟨_, _, _, _, c2, _⟩ := (hmem b hb).2.2.2.2
        rw [e] at c1
        exact hf ((canonical_iff.1 c1).symm.trans (canonical_iff.1 c2))
    have hword' : ∀ (i : Nat) (e : ListEntry), (es.filter fun e => decide (Spec.Keeps U e.word))[i]? = some e →
        ∃ w, ws[i]? = some w ∧ w.text = String.ofList e.word ∧ w.score = values e := by
      intro i e hi
      obtain ⟨w, w1, t, _, _, w2, w3, _⟩ := k4 i (e.word, (values e).toNat) (by rw [List.getElem?_map, hi]; rfl)
      refine ⟨w, w1, w2, ?_⟩
      rw [w3]
      exact (hnat e (List.mem_filter.1 (List.mem_of_getElem? hi)).1).1.symm
    rw [List.length_map] at k3
    refine ⟨fun w hw => ?_, fun e he hk => ?_, ?_⟩
    · obtain ⟨i, hi, rfl⟩ := List.getElem_of_mem (k5.mem_iff.1 hw)
      have he := List.getElem?_eq_getElem (show i < (es.filter fun e => decide (Spec.Keeps U e.word)).length by omega)
      obtain ⟨w, w1, w2, w3⟩ := hword' i _ he
      rw [List.getElem?_eq_getElem hi] at w1
      cases w1
      obtain ⟨m1, m2⟩ := List.mem_filter.1 (List.mem_of_getElem? he)
      exact ⟨_, m1, by simpa using m2, w2, w3⟩
    · obtain ⟨i, hi, e1⟩ := List.getElem_of_mem (List.mem_filter.2 ⟨he, by simpa using hk⟩ :
        e ∈ es.filter fun e => decide (Spec.Keeps U e.word))
      obtain ⟨w, w1, w2, w3⟩ := hword' i e (by rw [List.getElem?_eq_getElem hi, e1])
      exact ⟨w, k5.mem_iff.2 (List.mem_of_getElem? w1), w2, w3⟩
    · refine ((k5.map Word.text).nodup_iff).2 ?_
      have e : ws.map Word.text = (es.filter fun e => decide (Spec.Keeps U e.word)).map fun e => String.ofList e.word := by
        refine List.ext_getElem? fun i => ?_
        rw [List.getElem?_map, List.getElem?_map]
        cases hi : (es.filter fun e => decide (Spec.Keeps U e.word))[i]? with
        | none =>
          rw [List.getElem?_eq_none_iff] at hi
          rw [List.getElem?_eq_none (by omega)]
          rfl
        | some e =>
          obtain ⟨w, w1, w2, _⟩ := hword' i e hi
          rw [w1]
          simp [w2]
      rw [e]
      have := (List.filter_sublist (p := fun e => decide (Spec.Keeps U e.word)) (l := es)).map ListEntry.word |>.nodup hnodup
      rw [List.Nodup, List.pairwise_map] at this ⊢
      refine this.imp fun h1 h2 => h1 ?_
      exact String.ofList_injective h2

/-! ### An example -/

/-- Python, for plain letters, with simple values. -/
def plainPython : Python where
  nfkd l := l
  combining _ := false
  casefold c := [c.toLower]
  space c := c.isWhitespace
  int l := if !l.isEmpty && l.all Char.isDigit then some (decimal l) else none
  threeHalves n := (3 * n).tdiv 2
  fifth n := (n - 5).tdiv 5
  half n := (n - 2).tdiv 2
  value t m s := if m = t then none else some (1000000 * (t - s) / (t - m))

theorem plain_sane : Sane plainPython := by
  refine ⟨rfl, fun n s => by simp [plainPython], ?_, ?_⟩
  · intro t m s h1 h2 h3 h4
    have hd : 0 < t - m := by omega
    have a0 : 0 ≤ 1000000 * (t - s) / (t - m) := Int.ediv_nonneg (by omega) (by omega)
    have a1 : 1000000 * (t - s) / (t - m) ≤ 1000000 := Int.ediv_le_of_le_mul hd (by omega)
    refine ⟨(1000000 * (t - s) / (t - m)).toNat, ?_, by omega⟩
    have : ¬ m = t := by omega
    simp only [plainPython, if_neg this, Int.toNat_of_nonneg a0]
  · intro t m s s' v v' h1 h2 h3 h4 e1 e2
    simp only [plainPython] at e1 e2
    split at e1
    · cases e1
    · next hne =>
      rw [if_neg hne] at e2
      cases e1
      cases e2
      exact Int.ediv_le_ediv (by omega) (by omega)

/-- Three small files. -/
def sampleLists : List Char × List Char × List Char :=
  ("10\tcat\tcat\n5\tdog\tDog\n".toList, "3\tCat\n2\tant\n".toList, "4\tDog\r\n1\tx y\n".toList)

theorem dumpFinal_sorted {P : Python} {d : WordData} {n : Int} (hs : d.Pairwise fun x y => y.2.1 ≤ x.2.1)
    (hm : (d.map fun x => x.2.1).min? = some n) : dumpFinal P d = dumpLines P (d.map fun x => x.2.1).sum n d := by
  unfold dumpFinal
  rw [hm]
  dsimp only
  rw [List.mergeSort_of_pairwise (hs.imp fun h => by simpa using h)]

/-- Not trivial: a run with three files, where a word is spelled in two ways, and another has too few points. -/
theorem C71_sample : ∃ a b, createWordlist plainPython 9 sampleLists.1 sampleLists.2.1 sampleLists.2.2 =
    .ok ⟨a, b, "560000\tCat\n960000\tDog\n1000000\tant\n".toList⟩ := by
  have e1 : (pyLines [] sampleLists.1).mapM (rowOfThree plainPython) = .ok [(10, "cat".toList), (5, "Dog".toList)] := by
    decide +kernel
  have e2 : (pyLines [] sampleLists.2.1).mapM (rowOfTwo plainPython) = .ok [(3, "Cat".toList), (2, "ant".toList)] := by
    decide +kernel
  have e3 : (pyLines [] sampleLists.2.2).mapM (rowOfTwo plainPython) = .ok [(4, "Dog".toList), (1, "x y".toList)] := by
    decide +kernel
  have e4 : gatherList plainPython 1 {} [] [(10, "cat".toList), (5, "Dog".toList)] =
      .ok (⟨[("cat".toList, 21), ("dog".toList, 8)], [("cat".toList, "cat".toList), ("dog".toList, "Dog".toList)]⟩,
        [("cat".toList, 21, 0, "cat".toList), ("dog".toList, 8, 1, "Dog".toList)]) := by rfl
  have e5 : gatherList plainPython 3 ⟨[("cat".toList, 21), ("dog".toList, 8)],
      [("cat".toList, "cat".toList), ("dog".toList, "Dog".toList)]⟩ [] [(3, "Cat".toList), (2, "ant".toList)] =
      .ok (⟨[("cat".toList, 35), ("dog".toList, 8), ("ant".toList, 13)],
        [("cat".toList, "Cat".toList), ("dog".toList, "Dog".toList), ("ant".toList, "ant".toList)]⟩,
        [("cat".toList, 35, 0, "Cat".toList), ("ant".toList, 13, 1, "ant".toList)]) := by rfl
  have e6 : gatherBody plainPython ⟨[("cat".toList, 35), ("dog".toList, 8), ("ant".toList, 13)],
        [("cat".toList, "Cat".toList), ("dog".toList, "Dog".toList), ("ant".toList, "ant".toList)]⟩
        [(4, "Dog".toList), (1, "x y".toList)] =
      .ok ⟨[("cat".toList, 35), ("dog".toList, 15), ("ant".toList, 13), ("x y".toList, 3)],
        [("cat".toList, "Cat".toList), ("dog".toList, "Dog".toList), ("ant".toList, "ant".toList),
         ("x y".toList, "x y".toList)]⟩ := by decide +kernel
  have e7 : outputWords 9 [("cat".toList, 35), ("dog".toList, 15), ("ant".toList, 13), ("x y".toList, 3)] =
      [(35, "cat".toList), (15, "dog".toList), (13, "ant".toList)] := by
    unfold outputWords
    rw [List.mergeSort_of_pairwise (by decide +kernel)]
    decide +kernel
  have e8 : finalList [("cat".toList, "Cat".toList), ("dog".toList, "Dog".toList), ("ant".toList, "ant".toList),
      ("x y".toList, "x y".toList)] [] [(35, "cat".toList), (15, "dog".toList), (13, "ant".toList)] =
      [("cat".toList, 35, 0, "Cat".toList), ("dog".toList, 15, 1, "Dog".toList), ("ant".toList, 13, 2, "ant".toList)] := by
    decide +kernel
  have d1 : dumpFinal plainPython [("cat".toList, 21, 0, "cat".toList), ("dog".toList, 8, 1, "Dog".toList)] =
      .ok "380952\tcat\n1000000\tDog\n".toList := by
    rw [dumpFinal_sorted (n := 8) (by decide +kernel) (by decide +kernel)]
    decide +kernel
  have d2 : dumpFinal plainPython [("cat".toList, 35, 0, "Cat".toList), ("ant".toList, 13, 1, "ant".toList)] =
      .ok "371428\tCat\n1000000\tant\n".toList := by
    rw [dumpFinal_sorted (n := 13) (by decide +kernel) (by decide +kernel)]
    decide +kernel
  have d3 : dumpFinal plainPython [("cat".toList, 35, 0, "Cat".toList), ("dog".toList, 15, 1, "Dog".toList),
      ("ant".toList, 13, 2, "ant".toList)] = .ok "560000\tCat\n960000\tDog\n1000000\tant\n".toList := by
    rw [dumpFinal_sorted (n := 13) (by decide +kernel) (by decide +kernel)]
    decide +kernel
  unfold createWordlist
  rw [e1, e2, e3]
  simp only [bind, Except.bind, e4, d1, e5, d2, e6, e7, e8, d3]
  exact ⟨_, _, rfl⟩

/-- The rows of this example meet the condition of `C71_lists`. -/
example : ∀ r ∈ [(10, "cat".toList), (5, "Dog".toList)] ++ [(3, "Cat".toList), (2, "ant".toList)].map
    (fun r : CountRow => (3 * r.1, r.2)), ∀ k n, Canonical plainPython r.2 k → Worth plainPython r.1 k r.2 n → 0 ≤ n := by
  intro r hr k n hk hw
  have h : ∀ r ∈ [(10, "cat".toList), (5, "Dog".toList)] ++ [(3, "Cat".toList), (2, "ant".toList)].map
    (fun r : CountRow => (3 * r.1, r.2)), 0 ≤ adjust plainPython r.1 (canonicalize plainPython r.2) r.2 := by decide +kernel
  rw [worth_unique hw, canonical_unique hk]
  exact h r hr

end Noodle
