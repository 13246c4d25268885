import Verif.Spec.WikiList
import Verif.Props.C76
/-
C77: the list of Wiktionary, the first of the three files that the word list is made from: each form of the words of English
entries, and of their plain forms, once; and how `create_wordlist` reads it.
-/
namespace Noodle
set_option autoImplicit false
open Spec

/-! ### Adding words -/

/-- What the dictionary contains. -/
structure Offers (P : Python) (rows : List CountRow) (d : WordData) : Prop where
  keys : (d.map (·.1)).Nodup
  all : ∀ r ∈ rows, ∃ x, d.get (canonicalize P r.2) = some x
  get : ∀ k n i w, d.get k = some (n, i, w) → FirstForm P k rows w ∧ BestOf P k rows n

theorem offers_nil (P : Python) : Offers P [] [] := ⟨by simp, by simp, fun _ _ _ _ h => by cases h⟩

theorem firstForm_snoc {P : Python} {k w : List Char} {rows : List CountRow} {r : CountRow} (h : FirstForm P k rows w) :
    FirstForm P k (rows ++ [r]) w := by
  obtain ⟨a, c, b, rfl, h1, h2⟩ := h
  exact ⟨a, c, b ++ [r], by simp, h1, h2⟩

theorem bestOf_miss {P : Python} {k : List Char} {n : Int} {rows : List CountRow} {r : CountRow} (h : BestOf P k rows n)
    (hr : ¬ Canonical P r.2 k) : BestOf P k (rows ++ [r]) n := by
  obtain ⟨⟨x, hx, h1⟩, h2⟩ := h
  refine ⟨⟨x, by simp [hx], h1⟩, fun y hy hk => ?_⟩
  rcases List.mem_append.1 hy with hy | hy
  · exact h2 y hy hk
  · rw [List.mem_singleton] at hy; subst hy; exact absurd hk hr

theorem offers_step {P : Python} {W : Char → Bool} {rows : List CountRow} {d : WordData} (h : Offers P rows d) {s : Int}
    {v : List Char} (hv : stripWord W v ≠ []) : Offers P (rows ++ [(s, stripWord W v)]) (addWord P W d (s, v)) := by
  unfold addWord
  dsimp only
  rw [if_neg hv]
  generalize stripWord W v = w
  have other : ∀ {k n i u}, k ≠ canonicalize P w → d.get k = some (n, i, u) →
      FirstForm P k (rows ++ [(s, w)]) u ∧ BestOf P k (rows ++ [(s, w)]) n := by
    intro k n i u hk hg
    obtain ⟨h1, h2⟩ := h.get k n i u hg
    exact ⟨firstForm_snoc h1, bestOf_miss h2 fun hc => hk (canonical_iff.1 hc).symm⟩
  cases hg : d.get (canonicalize P w) with
  | none =>
    have hno : ∀ r ∈ rows, ¬ Canonical P r.2 (canonicalize P w) := by
      intro r hr hc
      obtain ⟨x, hx⟩ := h.all r hr
      rw [canonical_iff.1 hc, hg] at hx
      cases hx
    refine ⟨pyNodup_set h.keys _ _, fun r hr => ?_, fun k n i u hk => ?_⟩
    · rw [pyGet_set]
      split
      · exact ⟨_, rfl⟩
      · next hne =>
        rcases List.mem_append.1 hr with hr | hr
        · exact h.all r hr
        · rw [List.mem_singleton] at hr; subst hr; exact absurd rfl hne
    · rw [pyGet_set] at hk
      split at hk
      · next e =>
        subst e
        cases hk
        refine ⟨⟨rows, s, [], rfl, canonicalize_spec P _, hno⟩, ⟨(s, w), by simp, canonicalize_spec P _, rfl⟩, fun r hr hc => ?_⟩
        rcases List.mem_append.1 hr with hr | hr
        · exact absurd hc (hno r hr)
        · rw [List.mem_singleton] at hr; subst hr; exact Int.le_refl _
      · next hne => exact other (Ne.symm hne) hk
  | some x =>
    obtain ⟨n0, i0, u0⟩ := x
    obtain ⟨h1, ⟨r0, hr0, hc0, e0⟩, h3⟩ := h.get _ _ _ _ hg
    refine ⟨pyNodup_set h.keys _ _, fun r hr => ?_, fun k n i u hk => ?_⟩
    · rw [pyGet_set]
      split
      · exact ⟨_, rfl⟩
      · next hne =>
        rcases List.mem_append.1 hr with hr | hr
        · exact h.all r hr
        · rw [List.mem_singleton] at hr; subst hr; exact absurd rfl hne
    · rw [pyGet_set] at hk
      split at hk
      · next e =>
        subst e
        cases hk
        refine ⟨firstForm_snoc h1, ?_, fun r hr hc => ?_⟩
        · by_cases hle : s ≤ n0
          · exact ⟨r0, by simp [hr0], hc0, by omega⟩
          · exact ⟨(s, w), by simp, canonicalize_spec P _, by dsimp only; omega⟩
        · rcases List.mem_append.1 hr with hr | hr
          · have := h3 r hr hc; omega
          · rw [List.mem_singleton] at hr; subst hr; dsimp only; omega
      · next hne => exact other (Ne.symm hne) hk

theorem offers_rows {P : Python} {W : Char → Bool} (hW : WordChars P W) (hR : ReadsBack P) : ∀ (rs : List CountRow)
    {rows : List CountRow} {d : WordData}, (∀ r ∈ rs, '\n' ∉ r.2) → Offers P rows d →
    ∃ rows', CleanRows W rs rows' ∧ Offers P (rows ++ rows') (rs.foldl (addWord P W) d)
  | [], rows, d, _, h => ⟨[], .nil, by simpa using h⟩
  | (s, v) :: rs, rows, d, hn, h => by
    have hc := C74_word hW hR (hn (s, v) (by simp))
    rw [List.foldl_cons]
    by_cases hv : stripWord W v = []
    · have : addWord P W d (s, v) = d := by unfold addWord; dsimp only; rw [if_pos hv]
      rw [this]
      obtain ⟨rows', h1, h2⟩ := offers_rows hW hR rs (fun r hr => hn r (List.mem_cons_of_mem _ hr)) h
      dsimp only at hc
      rw [hv] at hc
      exact ⟨rows', .skip hc h1, h2⟩
    · obtain ⟨rows', h1, h2⟩ := offers_rows hW hR rs (fun r hr => hn r (List.mem_cons_of_mem _ hr)) (offers_step h (s := s) hv)
      exact ⟨(s, stripWord W v) :: rows', .word hc hv h1, by simpa using h2⟩

theorem cleanRows_append {W : Char → Bool} {a b a' b' : List CountRow} (h : CleanRows W a a') (h' : CleanRows W b b') :
    CleanRows W (a ++ b) (a' ++ b') := by
  induction h with
  | nil => exact h'
  | word h1 h2 _ ih => exact .word h1 h2 ih
  | skip h1 _ ih => exact .skip h1 ih

theorem plainForms_spec (P : Python) : ∀ fs : List (List Char),
    PlainForms P fs (fs.filter fun f => !(f.contains ' ') && decide (canonicalize P f = f))
  | [] => .nil
  | f :: fs => by
    have ih := plainForms_spec P fs
    by_cases h : ' ' ∉ f ∧ canonicalize P f = f
    · rw [List.filter_cons_of_pos (by simpa using h)]
      exact .keep h.1 (canonical_iff.2 h.2) ih
    · rw [List.filter_cons_of_neg (by simpa using h)]
      refine .skip ?_ ih
      by_cases hb : ' ' ∈ f
      · exact .inl hb
      · exact .inr fun hc => h ⟨hb, canonical_iff.1 hc⟩

theorem offers_entries {P : Python} {W : Char → Bool} (hW : WordChars P W) (hR : ReadsBack P) : ∀ (entries : List WikiEntry)
    {rows : List CountRow} {d : WordData}, (∀ e ∈ entries, (∀ w, e.word = some w → '\n' ∉ w) ∧ ∀ f ∈ e.forms, '\n' ∉ f) →
    Offers P rows d → ∃ offered rows', Offered P entries offered ∧ CleanRows W offered rows' ∧
      Offers P (rows ++ rows') (entries.foldl (wikiStep P W) d)
  | [], rows, d, _, h => ⟨[], [], .nil, .nil, by simpa using h⟩
  | e :: entries, rows, d, hn, h => by
    have hn' := fun e he => hn e (List.mem_cons_of_mem _ he)
    rw [List.foldl_cons]
    unfold wikiStep
    by_cases hl : e.lang = some "en".toList
    · rw [if_neg (by simpa using hl)]
      cases hw : e.word with
      | none =>
        obtain ⟨o, rows', h1, h2, h3⟩ := offers_entries hW hR entries hn' h
        exact ⟨o, rows', .skip (.inr hw) h1, h2, h3⟩
      | some w =>
        obtain ⟨h4, h5⟩ := hn e (by simp)
        obtain ⟨r1, c1, g1⟩ := offers_rows hW hR ((1000, w) ::
          (e.forms.filter fun f => !(f.contains ' ') && decide (canonicalize P f = f)).map fun f => (50, f)) (by
            intro r hr
            rcases List.mem_cons.1 hr with rfl | hr
            · exact h4 w hw
            · obtain ⟨f, hf, rfl⟩ := List.mem_map.1 hr
              exact h5 f (List.mem_filter.1 hf).1) h
        obtain ⟨o, rows', h1, h2, h3⟩ := offers_entries hW hR entries hn' g1
        exact ⟨_, r1 ++ rows', .entry hl hw (plainForms_spec P e.forms) h1, cleanRows_append c1 h2, by
          rw [← List.append_assoc]; exact h3⟩
    · rw [if_pos (by simpa using hl)]
      obtain ⟨o, rows', h1, h2, h3⟩ := offers_entries hW hR entries hn' h
      exact ⟨o, rows', .skip (.inl hl) h1, h2, h3⟩

/-! ### The file -/

theorem bestOf_unique {P : Python} {k : List Char} {rows : List CountRow} {m n : Int} (h1 : BestOf P k rows m)
    (h2 : BestOf P k rows n) : m = n := by
  obtain ⟨⟨r, hr, hc, rfl⟩, a⟩ := h1
  obtain ⟨⟨r', hr', hc', rfl⟩, b⟩ := h2
  have := a _ hr' hc'
  have := b _ hr hc
  omega

/-- C77: the file has each form of a word offered by Wiktionary once, with its first word and the most it is worth. -/
theorem C77_list {P : Python} {W : Char → Bool} (hW : WordChars P W) (hR : ReadsBack P) {entries : List WikiEntry}
    (hn : ∀ e ∈ entries, (∀ w, e.word = some w → '\n' ∉ w) ∧ ∀ f ∈ e.forms, '\n' ∉ f) :
    ∃ offered rows es, Offered P entries offered ∧ CleanRows W offered rows ∧ BestList P rows es ∧
      ThreeColumns es (wikiFile P W entries) := by
  obtain ⟨offered, rows, h1, h2, h3⟩ := offers_entries hW hR entries hn (offers_nil P)
  rw [List.nil_append] at h3
  refine ⟨offered, rows, ((entries.foldl (wikiStep P W) []).mergeSort fun x y => decide (y.2.1 ≤ x.2.1)).map listedAs, h1, h2, ?_, ?_⟩
  · generalize entries.foldl (wikiStep P W) [] = d at h3
    have hp : (d.mergeSort fun x y => decide (y.2.1 ≤ x.2.1)).Perm d := List.mergeSort_perm _ _
    refine ⟨fun k n w => ?_, ?_, ?_⟩
    · rw [List.mem_map]
      constructor
      · rintro ⟨⟨k', n', i, w'⟩, hx, e⟩
        simp only [listedAs, ListEntry.mk.injEq] at e
        obtain ⟨rfl, rfl, rfl⟩ := e
        exact h3.get _ _ i _ ((pyMem_iff h3.keys _ _).1 (hp.mem_iff.1 hx))
      · rintro ⟨hf, hb⟩
        obtain ⟨a, c, b, e, hc, _⟩ := id hf
        obtain ⟨⟨n', i, w'⟩, hx⟩ := h3.all (c, w) (by rw [e]; simp)
        have hx : d.get k = some (n', i, w') := by rw [← canonical_iff.1 hc]; exact hx
        obtain ⟨g1, g2⟩ := h3.get _ _ _ _ hx
        obtain rfl := bestOf_unique hb g2
        rw [firstForm_iff] at hf g1
        rw [hf] at g1
        cases g1
        exact ⟨_, hp.mem_iff.2 ((pyMem_iff h3.keys _ _).2 hx), rfl⟩
    · rw [List.map_map]
      exact ((hp.map (·.1)).nodup_iff).2 h3.keys
    · rw [List.pairwise_map]
      have := List.pairwise_mergeSort (le := fun x y : List Char × Int × Nat × List Char => decide (y.2.1 ≤ x.2.1))
        (by intro a b c; simp only [decide_eq_true_eq]; omega)
        (by intro a b; simp only [Bool.or_eq_true, decide_eq_true_eq]; omega) d
      exact this.imp fun h => of_decide_eq_true h
  · unfold ThreeColumns wikiFile dumpList
    rw [List.flatMap_map]
    rfl

/-! ### Reading it -/

theorem offered_counts {P : Python} {entries : List WikiEntry} {rows : List CountRow} (h : Offered P entries rows) :
    ∀ r ∈ rows, r.1 = 1000 ∨ r.1 = 50 := by
  induction h with
  | nil => simp
  | skip _ _ ih => exact ih
  | entry _ _ _ _ ih =>
    intro r hr
    rcases List.mem_append.1 hr with hr | hr
    · rcases List.mem_cons.1 hr with rfl | hr
      · exact .inl rfl
      · obtain ⟨f, _, rfl⟩ := List.mem_map.1 hr
        exact .inr rfl
    · exact ih r hr

theorem cleanRows_mem {W : Char → Bool} {rs rows : List CountRow} (h : CleanRows W rs rows) :
    ∀ r ∈ rows, (∃ r0 ∈ rs, r0.1 = r.1) ∧ (∃ x, r.2.getLast? = some x ∧ W x = true) ∧
      ∀ c ∈ r.2, W c = true ∨ c ∈ "/-,.&'".toList := by
  induction h with
  | nil => simp
  | @word r w rs rows h1 h2 _ ih =>
    intro x hx
    rcases List.mem_cons.1 hx with rfl | hx
    · refine ⟨⟨r, by simp, rfl⟩, ?_⟩
      cases h1 with
      | none _ => exact absurd rfl h2
      | word hc hl =>
        obtain ⟨_, _, _, y, _, _, _, _, hy, hWy⟩ := hc
        exact ⟨⟨y, hy, hWy⟩, hl.signs⟩
    · obtain ⟨⟨r0, a, b⟩, c⟩ := ih x hx
      exact ⟨⟨r0, by simp [a], b⟩, c⟩
  | skip _ _ ih =>
    intro x hx
    obtain ⟨⟨r0, a, b⟩, c⟩ := ih x hx
    exact ⟨⟨r0, by simp [a], b⟩, c⟩

/-- A file with three columns is read as what was written. -/
theorem three_columns {P : Python} (hR : ReadsBack P) : ∀ (es : List ListEntry),
    (∀ e ∈ es, (∃ n : Nat, e.points = n) ∧ (∃ c, e.word.getLast? = some c) ∧ (∀ c ∈ e.word, P.space c = false) ∧
      ∀ c ∈ e.form, c ≠ '\t' ∧ c ≠ '\n' ∧ c ≠ '\r') →
    RowsOf (RowOfThree P) (es.flatMap fun e => (toString e.points).toList ++ '\t' :: (e.form ++ '\t' :: (e.word ++ ['\n'])))
      (es.map fun e => (e.points, e.word)) := by
  intro es
  induction es with
  | nil => intro _; exact ⟨[], .nil, rfl, by simp⟩
  | cons e es ih =>
    intro h
    obtain ⟨ls, a, b, c⟩ := ih fun e he => h e (by simp [he])
    obtain ⟨⟨n, hn⟩, ⟨z, hz⟩, hw, hf⟩ := h e (by simp)
    have hdig : ∀ c ∈ (toString e.points).toList, c.isDigit = true := fun c hc => pyInt_digits (n := e.points) (by omega) c hc
    have no : ∀ c : Char, c.isDigit = false → c ∉ (toString e.points).toList := fun c hc hm => by rw [hdig c hm] at hc; cases hc
    have now : ∀ c : Char, P.space c = true → c ∉ e.word := fun c hc hm => by rw [hw c hm] at hc; cases hc
    have hint : P.int (toString e.points).toList = some e.points := by
      rw [hn]
      exact hR.int n
    have hne : (toString e.points).toList ≠ [] := by
      rw [hn]
      show digits n ≠ []
      rw [digits_eq]
      exact Nat.toDigits_ne_nil
    have clean : ∀ x : Char, x.isDigit = false → x ≠ '\t' → P.space x = true → x ∉ e.form →
        x ∉ (toString e.points).toList ++ '\t' :: (e.form ++ '\t' :: e.word) := by
      intro x h1 h2 h3 h4 hm
      simp only [List.mem_append, List.mem_cons] at hm
      rcases hm with hm | hm | hm | hm | hm
      · exact no x h1 hm
      · exact h2 hm
      · exact h4 hm
      · exact h2 hm
      · exact now x h3 hm
    refine ⟨((toString e.points).toList ++ '\t' :: (e.form ++ '\t' :: e.word)) :: ls, ?_, by simpa using b, fun i l r hl hr => ?_⟩
    · have e1 : ((e :: es).flatMap fun e => (toString e.points).toList ++ '\t' :: (e.form ++ '\t' :: (e.word ++ ['\n']))) =
          ((toString e.points).toList ++ '\t' :: (e.form ++ '\t' :: e.word)) ++ '\n' ::
            es.flatMap fun e => (toString e.points).toList ++ '\t' :: (e.form ++ '\t' :: (e.word ++ ['\n'])) := by
        rw [List.flatMap_cons]; simp
      rw [e1]
      exact .lf (clean _ (by decide) (by decide) hR.lf fun hm => (hf _ hm).2.1 rfl)
        (clean _ (by decide) (by decide) hR.cr fun hm => (hf _ hm).2.2 rfl) a
    · cases i with
      | succ i => exact c i l r (by simpa using hl) (by simpa using hr)
      | zero =>
        cases hl
        cases hr
        refine ⟨_, e.form, ⟨[], [], by simp, by simp, fun c hc => ?_, fun c hc => ?_⟩, no _ (by decide), fun hm => (hf _ hm).1 rfl,
          now _ hR.tab, hint⟩
        · refine hR.digits c (hdig c ?_)
          cases hd : (toString e.points).toList with
          | nil => exact absurd hd hne
          | cons x s => rw [hd] at hc; cases hc; simp
        · refine hw c ?_
          have : (((toString e.points).toList ++ '\t' :: (e.form ++ '\t' :: e.word))).getLast? = some z := by
            rw [show (toString e.points).toList ++ '\t' :: (e.form ++ '\t' :: e.word) =
              ((toString e.points).toList ++ '\t' :: (e.form ++ ['\t'])) ++ e.word by simp, List.getLast?_append, hz]
            rfl
          rw [this] at hc
          cases hc
          exact List.mem_of_getLast? hz

theorem canonical_sub {P : Python} {w k : List Char} (h : Canonical P w k) : ∀ c ∈ k, c ∈ folded P w := by
  cases h with
  | digit _ => simp
  | foreign _ => simp
  | signs _ => simp
  | form _ _ e _ _ _ _ _ => intro c hc; rw [e]; simp [hc]

theorem cleaned_nospace {P : Python} {W : Char → Bool} (hW : WordChars P W) (hS : ∀ c ∈ "/-,.&'".toList, P.space c = false)
    {w : List Char} (h : ∀ c ∈ w, W c = true ∨ c ∈ "/-,.&'".toList) : ∀ c ∈ w, P.space c = false := by
  intro c hc
  rcases h c hc with h | h
  · cases hs : P.space c with
    | false => rfl
    | true => rw [hW.space c hs] at h; cases h
  · exact hS c h

/-- C77: `create_wordlist` reads from this file each word with what it is worth. -/
theorem C77_read {P : Python} {W : Char → Bool} (hW : WordChars P W) (hR : ReadsBack P) (hB : NoBreaks P)
    (hS : ∀ c ∈ "/-,.&'".toList, P.space c = false) {entries : List WikiEntry}
    (hn : ∀ e ∈ entries, (∀ w, e.word = some w → '\n' ∉ w) ∧ ∀ f ∈ e.forms, '\n' ∉ f) :
    ∃ offered rows es, Offered P entries offered ∧ CleanRows W offered rows ∧ BestList P rows es ∧
      RowsOf (RowOfThree P) (wikiFile P W entries) (es.map fun e => (e.points, e.word)) ∧
      ∀ e ∈ es, e.points = 1000 ∨ e.points = 50 := by
  obtain ⟨offered, rows, es, h1, h2, h3, h4⟩ := C77_list hW hR hn
  have hmem : ∀ e ∈ es, (e.points = 1000 ∨ e.points = 50) ∧ (∃ c, e.word.getLast? = some c) ∧ (∀ c ∈ e.word, P.space c = false) ∧
      ∀ c ∈ e.form, c ≠ '\t' ∧ c ≠ '\n' ∧ c ≠ '\r' := by
    intro e he
    obtain ⟨⟨a, c, b, e1, hc, _⟩, ⟨r, hr, _, e2⟩, _⟩ := (h3.1 e.form e.points e.word).1 he
    obtain ⟨_, ⟨x, hx, _⟩, hsig⟩ := cleanRows_mem h2 (c, e.word) (by rw [e1]; simp)
    obtain ⟨⟨r0, hr0, e3⟩, _⟩ := cleanRows_mem h2 r hr
    have hsp := cleaned_nospace hW hS hsig
    refine ⟨?_, ⟨x, hx⟩, hsp, fun c hc' => hB.plain _ hsp c (canonical_sub hc c hc')⟩
    rw [← e2, ← e3]
    exact offered_counts h1 r0 hr0
  refine ⟨offered, rows, es, h1, h2, h3, ?_, fun e he => (hmem e he).1⟩
  rw [h4]
  refine three_columns hR es fun e he => ?_
  obtain ⟨a, b, c, d⟩ := hmem e he
  refine ⟨?_, b, c, d⟩
  rcases a with a | a
  · exact ⟨1000, by rw [a]; rfl⟩
  · exact ⟨50, by rw [a]; rfl⟩

/-- C77: the whole preparation, from entries of Wiktionary and articles of Wikipedia, ends without an exception exactly if the
lists of Wiktionary and of the titles have two words, and two words have enough points. -/
theorem C77_prepare {P : Python} {W : Char → Bool} (hP : PlainAscii P) (hS : Sane P) (hN : NoDebt P) (hW : WordChars P W)
    (hR : ReadsBack P) (hB : NoBreaks P) (hs : ∀ c ∈ "/-,.&'".toList, P.space c = false) {enough : Int → Int → Bool}
    (he : ∀ n, 0 < n → enough 0 n = false) {cutoff : Int} (hc : 0 < cutoff) (shards : List (List Article))
    {entries : List WikiEntry} (hn : ∀ e ∈ entries, (∀ w, e.word = some w → '\n' ∉ w) ∧ ∀ f ∈ e.forms, '\n' ∉ f) :
    ∃ offered rows tw bw, Offered P entries offered ∧ CleanRows W offered rows ∧ Extracted P W shards.flatten tw bw ∧
      ((∀ w ∈ tw ++ bw, ∀ k, Canonical P w k → ∀ c ∈ k, ¬ Digit c) →
      ∃ e1 r2 r3, BestList P rows e1 ∧ Spec.Counted P tw (tw ++ bw) r2 ∧ Spec.Counted P bw (tw ++ bw) r3 ∧
      ∀ r1 : List CountRow, r1 = e1.map (fun e => (e.points, e.word)) →
      ((∃ files, prepare P enough cutoff (wikiFile P W entries) (shards.map fun s => (extractWords P W s).1)
          (shards.map fun s => (extractWords P W s).2) = .ok files) ↔
        (∃ es, ListAfter P [] r1 es ∧ 2 ≤ es.length) ∧
        (∃ es, ListAfter P r1 (r2.map fun r => (3 * r.1, r.2)) es ∧ 2 ≤ es.length) ∧
        ∃ es, ListOf P cutoff (r1 ++ r2.map (fun r => (3 * r.1, r.2)) ++ r3) es ∧ 2 ≤ es.length)) := by
  obtain ⟨offered, rows, es, h1, h2, h3, h4, h5⟩ := C77_read hW hR hB hs hn
  obtain ⟨tw, bw, g1, g2⟩ := C76_prepare hP hS hN hW hR he hc shards
  refine ⟨offered, rows, tw, bw, h1, h2, g1, fun hdig => ?_⟩
  obtain ⟨r2, r3, g3, g4, g5⟩ := g2 hdig
  refine ⟨es, r2, r3, h3, g3, g4, fun r1 hr1 => ?_⟩
  subst hr1
  refine g5 _ _ h4 fun r hr => ?_
  obtain ⟨e, he, rfl⟩ := List.mem_map.1 hr
  rcases h5 e he with h | h <;> · dsimp only; omega

/-! ### Examples -/

theorem plain_breaks : NoBreaks plainPython := by
  refine ⟨fun w h c hc => ?_⟩
  have hns : ∀ d ∈ w, d.isWhitespace = false := h
  have hns' : c.isWhitespace = false := by
    obtain ⟨d, hd, hc⟩ := List.mem_flatMap.1 hc
    obtain ⟨hd, _⟩ := List.mem_filter.1 hd
    have hd : d ∈ w.flatMap fun c => match c with
      | 'æ' => ['a', 'e'] | 'Æ' => ['A', 'E'] | 'œ' => ['o', 'e'] | 'Œ' => ['O', 'E'] | c => [c] := hd
    obtain ⟨x, hx, hd⟩ := List.mem_flatMap.1 hd
    have hd' : d.isWhitespace = false := by
      split at hd <;> simp only [List.mem_cons, List.not_mem_nil, or_false] at hd
      · rcases hd with rfl | rfl <;> decide
      · rcases hd with rfl | rfl <;> decide
      · rcases hd with rfl | rfl <;> decide
      · rcases hd with rfl | rfl <;> decide
      · rw [hd]; exact hns x hx
    have hc : c ∈ [d.toLower] := hc
    rw [List.mem_singleton] at hc
    subst hc
    unfold Char.toLower
    split
    · next h =>
      have h1 : (65 : UInt32) ≤ d.val := h.1
      have h2 : d.val ≤ 90 := h.2
      rw [UInt32.le_iff_toNat_le] at h1 h2
      cases hw : Char.isWhitespace _ with
      | false => rfl
      | true =>
        exfalso
        unfold Char.isWhitespace at hw
        simp only [Bool.or_eq_true, decide_eq_true_eq] at hw
        have num : ∀ {x y : Char}, x = y → x.val.toNat = y.val.toNat := fun e => by rw [e]
        rcases hw with ((hw | hw) | hw) | hw <;> · have := num hw; simp [UInt32.toNat_add] at this h1 h2; omega
    · exact hd'
  refine ⟨?_, ?_, ?_⟩ <;> rintro rfl <;> exact absurd hns' (by decide)


/-- Entries of Wiktionary. -/
def sampleEntries : List WikiEntry :=
  [⟨some "en".toList, some "dogs".toList, []⟩, ⟨some "de".toList, some "Hund".toList, []⟩,
   ⟨some "en".toList, some "Dog".toList, ["dogs".toList, "dog".toList, "Doggy".toList, "hot dog".toList, "doggies".toList]⟩,
   ⟨some "en".toList, some "ice cream".toList, []⟩, ⟨none, some "cat".toList, []⟩, ⟨some "en".toList, none, ["cat".toList]⟩]

/-- Not trivial: these entries give three rows. -/
theorem C77_sample : wikiFile plainPython plainSign sampleEntries =
    "1000\tdogs\tdogs\n1000\tdog\tDog\n50\tdoggies\tdoggies\n".toList := by
  have e : sampleEntries.foldl (wikiStep plainPython plainSign) [] =
      [("dogs".toList, 1000, 0, "dogs".toList), ("dog".toList, 1000, 1, "Dog".toList), ("doggies".toList, 50, 2, "doggies".toList)] := by
    decide +kernel
  unfold wikiFile dumpList
  rw [e, List.mergeSort_of_pairwise (by decide +kernel)]
  decide +kernel

/-- The conditions hold. -/
example : (∀ e ∈ sampleEntries, (∀ w, e.word = some w → '\n' ∉ w) ∧ ∀ f ∈ e.forms, '\n' ∉ f) ∧
    ∀ c ∈ "/-,.&'".toList, plainPython.space c = false := by
  refine ⟨?_, by decide +kernel⟩
  intro e he
  simp only [sampleEntries, List.mem_cons, List.not_mem_nil, or_false] at he
  rcases he with rfl | rfl | rfl | rfl | rfl | rfl <;> refine ⟨fun w hw => ?_, by decide +kernel⟩ <;> cases hw <;> decide +kernel

end Noodle
