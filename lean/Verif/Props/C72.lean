import Verif.Proofs.ListCount
import Verif.Props.C71
/-
C72: the program that prepares word lists first adds up the counts of words in many files, into one file for titles and one
for bodies, where words with the same canonical form are one word, spelled like the canonical form itself if that was counted
often enough, and otherwise like the first word of this form. No count is lost, and none is counted twice.
-/
namespace Noodle
set_option autoImplicit false
open Spec

/-- Whenever the counting ends without an exception: the two files have one line for each canonical form of a word counted, with
everything that was counted for words of this form, and the spelling of the form, which is the same in both files. This is so
if no canonical form contains a digit (from superscripts, for example: the program discards words with digits). -/
theorem C72_merged {P : Python} (hP : PlainAscii P) {enough : Int → Int → Bool} {titles bodies : List (List Char)}
    {title body : List Char} (h : wordFrequency P enough titles bodies = .ok (title, body)) :
    ∃ rt rb, RowsOfAll P titles rt ∧ RowsOfAll P bodies rb ∧
      ((∀ r ∈ rt ++ rb, ∀ k, Canonical P r.2 k → ∀ c ∈ k, ¬ Digit c) →
        MergedFile P (Spelling P enough rt rb) rt title ∧ MergedFile P (Spelling P enough rt rb) rb body) :=
  wordFrequency_spec hP h

/-- The spelling of a form is unique: what a file should contain is determined, except for the order of the lines. -/
theorem C72_spelling {P : Python} {enough : Int → Int → Bool} {rt rb : List CountRow} {k v w : List Char}
    (hv : Spelling P enough rt rb k v) (hw : Spelling P enough rt rb k w) : v = w := by
  obtain ⟨v1, n1, a1, b1⟩ := hv
  obtain ⟨v2, n2, a2, b2⟩ := hw
  have key : v1 = v2 ∧ n1 = n2 := by
    rcases a1 with ⟨f1, e1⟩ | ⟨g1, f1, e1⟩ <;> rcases a2 with ⟨f2, e2⟩ | ⟨g2, f2, e2⟩
    · have := (firstForm_iff.1 f1).symm.trans (firstForm_iff.1 f2)
      cases this
      exact ⟨rfl, e1.trans e2.symm⟩
    · obtain ⟨a, c, b, rfl, hc, _⟩ := f1
      exact absurd hc (g2 (c, v1) (by simp))
    · obtain ⟨a, c, b, rfl, hc, _⟩ := f2
      exact absurd hc (g1 (c, v2) (by simp))
    · have := (firstForm_iff.1 f1).symm.trans (firstForm_iff.1 f2)
      cases this
      exact ⟨rfl, e1.trans e2.symm⟩
  obtain ⟨rfl, rfl⟩ := key
  rcases b1 with ⟨x1, y1⟩ | ⟨x1, y1⟩ <;> rcases b2 with ⟨x2, y2⟩ | ⟨x2, y2⟩
  · rw [y1, y2]
  · rw [x1] at x2; cases x2
  · rw [x1] at x2; cases x2
  · rw [y1, y2]

theorem totalOf_perm {p : List Char → Prop} {r1 r2 : List CountRow} (h : r1.Perm r2) : totalOf p r1 = totalOf p r2 := by
  unfold totalOf
  exact perm_sum ((h.filter _).map _)

/-- Adding up the lines, one for each form. -/
theorem sum_lines {P : Python} : ∀ (es : List CountRow) (rows : List CountRow), (es.map fun e => canonicalize P e.2).Nodup →
    (∀ e ∈ es, e.1 = totalOf (fun v => Canonical P v (canonicalize P e.2)) rows) →
    (∀ r ∈ rows, ∃ e ∈ es, canonicalize P e.2 = canonicalize P r.2) →
    (es.map fun e => e.1).sum = (rows.map fun r => r.1).sum := by
  intro es
  induction es with
  | nil =>
    intro rows _ _ h3
    cases rows with
    | nil => rfl
    | cons r rows => obtain ⟨e, he, _⟩ := h3 r (by simp); cases he
  | cons e es ih =>
    intro rows h1 h2 h3
    rw [List.map_cons, List.nodup_cons] at h1
    have hq : ∀ k v, hasForm P k v = true ↔ Canonical P v k := by
      intro k v; rw [canonical_iff]; simp [hasForm]
    -- the other rows
    have split : ∀ rows : List CountRow, (rows.map fun r => r.1).sum = tot (hasForm P (canonicalize P e.2)) rows +
        ((rows.filter fun r => !hasForm P (canonicalize P e.2) r.2).map fun r => r.1).sum := by
      intro rows
      induction rows with
      | nil => rfl
      | cons r rows ih =>
        rw [tot_cons, List.map_cons, List.sum_cons, ih, List.filter_cons]
        cases hasForm P (canonicalize P e.2) r.2 <;> simp <;> omega
    have h2e := h2 e (by simp)
    rw [totalOf_eq _ _ (hq _)] at h2e
    rw [List.map_cons, List.sum_cons, split rows, ← h2e]
    congr 1
    refine ih _ h1.2 ?_ ?_
    · intro e' he'
      have hne : canonicalize P e'.2 ≠ canonicalize P e.2 := fun hh => h1.1 (List.mem_map.2 ⟨e', he', hh⟩)
      rw [h2 e' (by simp [he']), totalOf_eq _ _ (hq _), totalOf_eq _ _ (hq _)]
      unfold tot
      rw [List.filter_filter]
      congr 2
      refine List.filter_congr fun r _ => ?_
      unfold hasForm
      by_cases hh : canonicalize P r.2 = canonicalize P e'.2
      · simp [hh, hne]
      · simp [hh]
    · intro r hr
      rw [List.mem_filter] at hr
      obtain ⟨e', he', hh⟩ := h3 r hr.1
      rcases List.mem_cons.1 he' with rfl | he'
      · have := hr.2
        simp [hasForm, hh] at this
      · exact ⟨e', he', hh⟩

theorem spelling_exists {P : Python} {enough : Int → Int → Bool} {rt rb : List CountRow} {k : List Char}
    (h : ∃ r ∈ rt ++ rb, Canonical P r.2 k) : ∃ w, Spelling P enough rt rb k w := by
  have mk : ∀ {w n}, ((FirstForm P k rt w ∧ n = totalOf (· = w) rt) ∨
      ((∀ r ∈ rt, ¬ Canonical P r.2 k) ∧ FirstForm P k rb w ∧ n = totalOf (· = w) rb)) → ∃ w, Spelling P enough rt rb k w := by
    intro w n hw
    cases he : enough (totalOf (· = k) rt + totalOf (· = k) rb) n with
    | true => exact ⟨k, w, n, hw, .inl ⟨he, rfl⟩⟩
    | false => exact ⟨w, w, n, hw, .inr ⟨he, rfl⟩⟩
  cases hf : (rt.map (·.2)).find? (hasForm P k) with
  | some w => exact mk (.inl ⟨firstForm_iff.2 hf, rfl⟩)
  | none =>
    have hno := noForm_iff.2 hf
    cases hg : (rb.map (·.2)).find? (hasForm P k) with
    | some w => exact mk (.inr ⟨hno, firstForm_iff.2 hg, rfl⟩)
    | none =>
      obtain ⟨r, hr, hc⟩ := h
      rcases List.mem_append.1 hr with hr | hr
      · exact absurd hc (hno r hr)
      · exact absurd hc (noForm_iff.2 hg r hr)

theorem spelling_form {P : Python} (hP : PlainAscii P) {enough : Int → Int → Bool} {rt rb : List CountRow} {k w : List Char}
    (hd : ∀ c ∈ k, ¬ Digit c) (h : Spelling P enough rt rb k w) : Canonical P w k := by
  obtain ⟨v, n, h1, h2⟩ := h
  have hv : Canonical P v k := by
    rcases h1 with ⟨⟨a, c, b, _, hc, _⟩, _⟩ | ⟨_, ⟨a, c, b, _, hc, _⟩, _⟩ <;> exact hc
  rcases h2 with ⟨_, rfl⟩ | ⟨_, rfl⟩
  · exact canonical_iff.2 (canon_idem hP hv hd)
  · exact hv

/-- No count is lost, and none is counted twice: the counts in a file add up to everything that was counted. -/
theorem C72_total {P : Python} (hP : PlainAscii P) {enough : Int → Int → Bool} {rt rb rows : List CountRow} {text : List Char}
    (hrows : ∀ r ∈ rows, r ∈ rt ++ rb) (hdig : ∀ r ∈ rows, ∀ k, Canonical P r.2 k → ∀ c ∈ k, ¬ Digit c)
    (h : MergedFile P (Spelling P enough rt rb) rows text) :
    ∃ es : List CountRow, text = es.flatMap (fun e => (toString e.1).toList ++ '\t' :: (e.2 ++ ['\n'])) ∧
      (es.map fun e => e.1).sum = (rows.map fun r => r.1).sum := by
  obtain ⟨es, h1, h2, h3, h4⟩ := h
  refine ⟨es, h1, sum_lines (P := P) es rows h3 ?_ ?_⟩
  · intro e he
    obtain ⟨k, ⟨r, hr, hk⟩, hs, hn⟩ := (h4 e.1 e.2).1 he
    rw [canonical_iff.1 (spelling_form hP (hdig r hr k hk) hs)]
    exact hn
  · intro r hr
    have hk : Canonical P r.2 (canonicalize P r.2) := canonical_iff.2 rfl
    obtain ⟨w, hw⟩ := spelling_exists (enough := enough) (P := P) (rt := rt) (rb := rb) ⟨r, hrows r hr, hk⟩
    refine ⟨(_, w), (h4 _ w).2 ⟨_, ⟨r, hr, hk⟩, hw, rfl⟩, ?_⟩
    exact canonical_iff.1 (spelling_form hP (hdig r hr _ hk) hw)

/-- It does not matter in which order the files are read, except for the spelling and the order of lines: with the same rows in
another order, there are the same counts for the same forms. -/
theorem C72_order {P : Python} (hP : PlainAscii P) {enough : Int → Int → Bool} {rt rb rt' rb' rows rows' : List CountRow}
    {text text' : List Char} (hr : rows.Perm rows') (hrows : ∀ r ∈ rows, r ∈ rt ++ rb) (hrows' : ∀ r ∈ rows', r ∈ rt' ++ rb')
    (hdig : ∀ r ∈ rows, ∀ k, Canonical P r.2 k → ∀ c ∈ k, ¬ Digit c)
    (h : MergedFile P (Spelling P enough rt rb) rows text) (h' : MergedFile P (Spelling P enough rt' rb') rows' text') :
    ∃ es es' : List CountRow, text = es.flatMap (fun e => (toString e.1).toList ++ '\t' :: (e.2 ++ ['\n'])) ∧
      text' = es'.flatMap (fun e => (toString e.1).toList ++ '\t' :: (e.2 ++ ['\n'])) ∧
      (es.map fun e => (e.1, canonicalize P e.2)).Perm (es'.map fun e => (e.1, canonicalize P e.2)) := by
  have hdig' : ∀ r ∈ rows', ∀ k, Canonical P r.2 k → ∀ c ∈ k, ¬ Digit c := fun r hr' => hdig r (hr.mem_iff.2 hr')
  have mem : ∀ {rt rb rows es : List CountRow}, (∀ r ∈ rows, r ∈ rt ++ rb) →
      (∀ r ∈ rows, ∀ k, Canonical P r.2 k → ∀ c ∈ k, ¬ Digit c) →
      (∀ n w, (n, w) ∈ es ↔ ∃ k, (∃ r ∈ rows, Canonical P r.2 k) ∧ Spelling P enough rt rb k w ∧
        n = totalOf (fun v => Canonical P v k) rows) →
      ∀ n k, (n, k) ∈ es.map (fun e => (e.1, canonicalize P e.2)) ↔
        (∃ r ∈ rows, Canonical P r.2 k) ∧ n = totalOf (fun v => Canonical P v k) rows := by
    intro rt rb rows es h1 h2 h3 n k
    rw [List.mem_map]
    constructor
    · rintro ⟨⟨m, w⟩, he, e⟩
      obtain ⟨k', ⟨r, hr, hk⟩, hs, hn⟩ := (h3 _ _).1 he
      have : canonicalize P w = k' := canonical_iff.1 (spelling_form hP (h2 r hr k' hk) hs)
      cases e
      dsimp only
      rw [this]
      exact ⟨⟨r, hr, hk⟩, hn⟩
    · rintro ⟨⟨r, hr, hk⟩, hn⟩
      obtain ⟨w, hw⟩ := spelling_exists (enough := enough) (P := P) (rt := rt) (rb := rb) ⟨r, h1 r hr, hk⟩
      refine ⟨(n, w), (h3 _ _).2 ⟨k, ⟨r, hr, hk⟩, hw, hn⟩, ?_⟩
      dsimp only
      rw [canonical_iff.1 (spelling_form hP (h2 r hr k hk) hw)]
  have nodup : ∀ {es : List CountRow}, (es.map fun e => canonicalize P e.2).Nodup →
      (es.map fun e => (e.1, canonicalize P e.2)).Nodup := by
    intro es h
    have : (es.map fun e => canonicalize P e.2) = (es.map fun e => (e.1, canonicalize P e.2)).map (·.2) := by
      rw [List.map_map]; rfl
    rw [this] at h
    exact h.of_map _ 
  obtain ⟨es, e1, _, n1, m1⟩ := h
  obtain ⟨es', e2, _, n2, m2⟩ := h'
  refine ⟨es, es', e1, e2, ?_⟩
  rw [List.perm_ext_iff_of_nodup (nodup n1) (nodup n2)]
  rintro ⟨n, k⟩
  rw [mem hrows hdig m1, mem hrows' hdig' m2, totalOf_perm hr]
  constructor
  · rintro ⟨⟨r, hr', hk⟩, hn⟩; exact ⟨⟨r, hr.mem_iff.1 hr', hk⟩, hn⟩
  · rintro ⟨⟨r, hr', hk⟩, hn⟩; exact ⟨⟨r, hr.mem_iff.2 hr', hk⟩, hn⟩

/-! ### Examples -/

theorem plain_ascii : PlainAscii plainPython := by
  refine ⟨fun _ _ => rfl, fun _ _ => rfl, ?_⟩
  intro c d hd _
  have : d = c.toLower := by simpa [plainPython] using hd
  subst this
  show [c.toLower.toLower] = [c.toLower]
  congr 1
  unfold Char.toLower
  split
  · next h =>
    split
    · next h' =>
      exfalso
      have h1 : (65 : UInt32) ≤ c.val := h.1
      have h2 : c.val ≤ 90 := h.2
      have h3 : c.val + 32 ≤ 90 := h'.2
      rw [UInt32.le_iff_toNat_le] at h1 h2 h3
      rw [UInt32.toNat_add] at h3
      simp at h1 h2 h3
      omega
    · rfl
  · next h => first | rfl | rw [dif_neg h] | rw [if_neg h]

/-- At least a hundredth. -/
def hundredth (c n : Int) : Bool := decide (n ≤ 100 * c)

/-- Not trivial: two files of titles and one of bodies. "cat" was counted often enough, "usa" was not. -/
theorem C72_sample : wordFrequency plainPython hundredth ["10\tCat\n2\tcat\n500\tUSA\n".toList, "3\tCat\n".toList]
    ["7\tcat\n1\tUsa\n4\tusa\n2\tDog".toList] =
    .ok ("15\tcat\n500\tUSA\n".toList, "7\tcat\n5\tUSA\n2\tDog\n".toList) := by decide +kernel

/-- The rows of this example meet the condition: their forms have no digits. -/
example : ∀ r ∈ [(10, "Cat".toList), (2, "cat".toList), (500, "USA".toList), (3, "Cat".toList), (7, "cat".toList),
    (1, "Usa".toList), (4, "usa".toList), ((2 : Int), "Dog".toList)], ∀ k, Canonical plainPython r.2 k → ∀ c ∈ k, ¬ Digit c := by
  intro r hr k hk
  rw [← canonical_iff.1 hk]
  have : ∀ r ∈ [(10, "Cat".toList), (2, "cat".toList), (500, "USA".toList), (3, "Cat".toList), (7, "cat".toList),
    (1, "Usa".toList), (4, "usa".toList), ((2 : Int), "Dog".toList)],
    (canonicalize plainPython r.2).all (fun c => !(decide ('0' ≤ c) && decide (c ≤ '9'))) = true := by decide +kernel
  intro c hc hd
  have := List.all_eq_true.1 (this r hr) c hc
  unfold Digit at hd
  simp [hd.1, hd.2] at this

/-- Superscript two, besides plain letters. -/
def superscripts : Python := { plainPython with nfkd := fun l => l.map fun c => if c = '²' then '2' else c }

theorem super_ascii : PlainAscii superscripts := by
  refine ⟨fun s hs => ?_, fun _ _ => rfl, plain_ascii.folds⟩
  refine Eq.trans (List.map_congr_left (g := id) fun c hc => ?_) (List.map_id s)
  have := hs c hc
  split
  · next e => subst e; exact absurd this (by decide)
  · rfl

/-- Two words, ten times each. -/
def superRows : List CountRow := [(10, "h²o".toList), (10, "h2o".toList)]

/-- With a superscript, the counts of two forms are mixed: the form of the first word is spelled like the second, which is
discarded because of its digit, and so has an empty form, spelled like itself. The file claims twenty. -/
theorem C72_counterexample : ∃ titles title, wordFrequency superscripts hundredth titles [] = .ok (title, []) ∧
    RowsOfAll superscripts titles superRows ∧
    ¬ MergedFile superscripts (Spelling superscripts hundredth superRows []) superRows title := by
  have hrun : wordFrequency superscripts hundredth ["10\th²o\n10\th2o\n".toList] [] = .ok ("20\th2o\n".toList, []) := by
    decide +kernel
  refine ⟨_, _, hrun, ?_, ?_⟩
  · have : RowsOf (RowOfShard superscripts) "10\th²o\n10\th2o\n".toList superRows :=
      rows_of (f := rowOfShard superscripts) (fun {l r} hl => rowOfShard_spec hl) (by decide +kernel)
    have := RowsOfAll.cons this .nil
    rwa [List.append_nil] at this
  · rintro ⟨es, h1, _, _, h4⟩
    cases es with
    | nil => exact absurd h1 (by decide)
    | cons e es =>
      obtain ⟨k, ⟨r, hr, hk⟩, _, hn⟩ := (h4 e.1 e.2).1 (by simp)
      have hten : e.1 = 10 := by
        rw [hn, totalOf_eq _ (hasForm superscripts k) (fun v => by rw [canonical_iff]; simp [hasForm]), ← canonical_iff.1 hk]
        have : ∀ r ∈ superRows, tot (hasForm superscripts (canonicalize superscripts r.2)) superRows = 10 := by
          decide +kernel
        exact this r hr
      rw [List.flatMap_cons, hten] at h1
      have := congrArg List.head? h1
      have e1 : (toString (10 : Int)).toList = ['1', '0'] := by decide +kernel
      rw [e1] at this
      revert this
      show "20\th2o\n".toList.head? ≠ some '1'
      decide

end Noodle
