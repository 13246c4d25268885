import Verif.Model.Prepare
import Verif.Props.C71
import Verif.Props.C74
/-
C75: the program that prepares word lists as a whole, from the articles to the word list that `load_wordlist` reads: the rows
that the list is made from are exactly the counts of the words of the articles.
-/
namespace Noodle
set_option autoImplicit false
open Spec

/-! ### What is read is determined -/

theorem pyLines_of {text : List Char} {ls : List (List Char)} (h : PyLines text ls) : pyLines [] text = ls := by
  have step : ∀ {l cur : List Char} (s : List Char), '\n' ∉ l → '\r' ∉ l → pyLines cur (l ++ s) = pyLines (cur ++ l) s := by
    intro l
    induction l with
    | nil => intro cur s _ _; simp
    | cons c l ih =>
      intro cur s h1 h2
      have hc1 : c ≠ '\n' := fun e => h1 (by simp [e])
      have hc2 : c ≠ '\r' := fun e => h2 (by simp [e])
      rw [List.cons_append, pyLines]
      · rw [if_neg (by simp [hc1, hc2]), ih s (fun h => h1 (by simp [h])) (fun h => h2 (by simp [h]))]
        simp
      · intro _ e; exact absurd e hc2
  induction h with
  | nil => rfl
  | @last l h1 h2 h3 =>
    have := step (cur := []) [] h2 h3
    rw [List.append_nil] at this
    rw [this, List.nil_append, pyLines, if_neg (by simpa using h1)]
  | @lf l t ls h1 h2 _ ih => rw [pyLines_line t h1 h2, ih]; rfl
  | @crlf l t ls h1 h2 _ ih => rw [step _ h1 h2, pyLines, ih]; rfl
  | @cr l t ls h1 h2 h3 _ ih =>
    rw [step _ h1 h2, pyLines]
    · rw [if_pos (.inr rfl), ih]; rfl
    · intro cs _ e
      rw [e] at h3
      exact h3 rfl

theorem stripped_of {P : Python} {l s : List Char} (h : Stripped P l s) : pyStrip P l = s := by
  obtain ⟨a, b, e, h1, h2, h3⟩ := h
  exact trimEnds_unique e h1 h2 h3

theorem rowOfTwo_of {P : Python} {l : List Char} {r : CountRow} (h : RowOfTwo P l r) : rowOfTwo P l = .ok r := by
  obtain ⟨count, hc, hi, h | ⟨h, e⟩⟩ := h
  · unfold rowOfTwo
    rw [stripped_of h, splitTab_some.2 ⟨rfl, hc⟩]
    dsimp only [Option.getD]
    rw [hi]
  · unfold rowOfTwo
    have : splitTab count = none := by
      cases hs : splitTab count with
      | none => rfl
      | some p =>
        obtain ⟨a, b⟩ := p
        obtain ⟨e, _⟩ := splitTab_some.1 hs
        exact absurd (by rw [e]; simp) hc
    rw [stripped_of h, this]
    dsimp only [Option.getD]
    rw [hi]
    rw [← e]

theorem mapM_of {f : List Char → Except PyError CountRow} : ∀ {ls : List (List Char)} {rs : List CountRow},
    ls.length = rs.length → (∀ (i : Nat) (l : List Char) (r : CountRow), ls[i]? = some l → rs[i]? = some r → f l = .ok r) →
    ls.mapM f = .ok rs
  | [], [], _, _ => rfl
  | l :: ls, r :: rs, h1, h2 => by
    rw [List.mapM_cons, h2 0 l r rfl rfl, mapM_of (by simpa using h1) fun i l r hl hr => h2 (i + 1) l r (by simpa using hl)
      (by simpa using hr)]
    rfl

/-- The rows of a file are determined. -/
theorem rows_unique {P : Python} {text : List Char} {r1 r2 : List CountRow} (h1 : RowsOf (RowOfTwo P) text r1)
    (h2 : RowsOf (RowOfTwo P) text r2) : r1 = r2 := by
  have key : ∀ {r : List CountRow}, RowsOf (RowOfTwo P) text r → (pyLines [] text).mapM (rowOfTwo P) = .ok r := by
    rintro r ⟨ls, a, b, c⟩
    rw [pyLines_of a]
    exact mapM_of b fun i l r hl hr => rowOfTwo_of (c i l r hl hr)
  have := (key h1).symm.trans (key h2)
  injection this

/-- The rows of a file that was written from rows with words without white space. -/
theorem rows_written {P : Python} (hR : ReadsBack P) : ∀ (es : List CountRow),
    (∀ e ∈ es, (∃ n : Nat, e.1 = n) ∧ ∀ c ∈ e.2, P.space c = false) →
    RowsOf (RowOfTwo P) (es.flatMap fun e => (toString e.1).toList ++ '\t' :: (e.2 ++ ['\n'])) es := by
  intro es
  induction es with
  | nil => intro _; exact ⟨[], .nil, rfl, by simp⟩
  | cons e es ih =>
    intro h
    obtain ⟨ls, a, b, c⟩ := ih fun e he => h e (by simp [he])
    obtain ⟨⟨n, hn⟩, hw⟩ := h e (by simp)
    have hdig : ∀ c ∈ (toString e.1).toList, c.isDigit = true := fun c hc => pyInt_digits (n := e.1) (by omega) c hc
    have no : ∀ c : Char, c.isDigit = false → c ∉ (toString e.1).toList := fun c hc hm => by rw [hdig c hm] at hc; cases hc
    have now : ∀ c : Char, P.space c = true → c ∉ e.2 := fun c hc hm => by rw [hw c hm] at hc; cases hc
    have hint : P.int (toString e.1).toList = some e.1 := by
      rw [hn]
      exact hR.int n
    have hne : (toString e.1).toList ≠ [] := by
      rw [hn]
      show digits n ≠ []
      rw [digits_eq]
      exact Nat.toDigits_ne_nil
    have hhead : ∀ c, ((toString e.1).toList).head? = some c → P.space c = false :=
      fun c hc => hR.digits c (hdig c (List.mem_of_mem_head? hc))
    refine ⟨((toString e.1).toList ++ '\t' :: e.2) :: ls, ?_, by simp [b], fun i l r hl hr => ?_⟩
    · have e1 : ((e :: es).flatMap fun e => (toString e.1).toList ++ '\t' :: (e.2 ++ ['\n'])) =
          ((toString e.1).toList ++ '\t' :: e.2) ++ '\n' :: es.flatMap fun e => (toString e.1).toList ++ '\t' :: (e.2 ++ ['\n']) := by
        rw [List.flatMap_cons]; simp
      rw [e1]
      refine .lf ?_ ?_ a
      · intro hm
        rcases List.mem_append.1 hm with hm | hm
        · exact no _ (by decide) hm
        · rcases List.mem_cons.1 hm with hm | hm
          · exact absurd hm (by decide)
          · exact now _ hR.lf hm
      · intro hm
        rcases List.mem_append.1 hm with hm | hm
        · exact no _ (by decide) hm
        · rcases List.mem_cons.1 hm with hm | hm
          · exact absurd hm (by decide)
          · exact now _ hR.cr hm
    · cases i with
      | succ i => exact c i l r (by simpa using hl) (by simpa using hr)
      | zero =>
        cases hl
        cases hr
        refine ⟨_, no _ (by decide), hint, ?_⟩
        by_cases hemp : e.2 = []
        · refine .inr ⟨⟨[], ['\t'], by rw [hemp]; simp, by simp [hR.tab], hhead, ?_⟩, hemp⟩
          exact fun c hc => hR.digits c (hdig c (List.mem_of_getLast? hc))
        · refine .inl ⟨[], [], by simp, by simp, fun c hc => hhead c ?_, fun c hc => ?_⟩
          · cases hd : (toString e.1).toList with
            | nil => exact absurd hd hne
            | cons x s => rw [hd] at hc; simpa using hc
          · refine hw c ?_
            rw [List.getLast?_append, List.getLast?_cons] at hc
            cases he2 : e.2.getLast? with
            | none => exact absurd (List.getLast?_eq_none_iff.1 he2) hemp
            | some d =>
              rw [he2] at hc
              simp at hc
              rw [← hc]
              exact List.mem_of_getLast? he2

/-! ### The program -/

/-- C75: when the preparation ends without an exception, whatever the articles are and however they are distributed over files,
the word list is made from the rows of the Wiktionary file, the counts of the words in titles, three times, and the counts of
the words in bodies; and `load_wordlist` reads from it each word it keeps, once, with the score that is written. -/
theorem C75_prepare {P : Python} {W : Char → Bool} (hP : PlainAscii P) (hS : Sane P) (hW : WordChars P W) (hR : ReadsBack P)
    {enough : Int → Int → Bool} (he : ∀ n, 0 < n → enough 0 n = false) {cutoff : Int} (hc : 0 < cutoff)
    (shards : List (List Article)) :
    ∃ tw bw, Extracted P W shards.flatten tw bw ∧ ((∀ w ∈ tw ++ bw, ∀ k, Canonical P w k → ∀ c ∈ k, ¬ Digit c) →
      ∀ (wiktionary : List Char) (files : ListFiles), prepare P enough cutoff wiktionary
        (shards.map fun s => (extractWords P W s).1) (shards.map fun s => (extractWords P W s).2) = .ok files →
      ∃ (r1 r2 r3 : List CountRow) (es : List ListEntry) (values : ListEntry → Int),
        RowsOf (RowOfThree P) wiktionary r1 ∧ Spec.Counted P tw (tw ++ bw) r2 ∧ Spec.Counted P bw (tw ++ bw) r3 ∧
        ListOf P cutoff (r1 ++ r2.map (fun r => (3 * r.1, r.2)) ++ r3) es ∧ Written P es values files.words ∧ 2 ≤ es.length ∧
        (∀ e ∈ es, 0 ≤ values e ∧ values e ≤ 1000000) ∧
        (∀ a ∈ es, ∀ b ∈ es, b.points ≤ a.points → values a ≤ values b) ∧
        ∀ U, (∀ w ∈ loadWordlist U files.words, ∃ e ∈ es, Spec.Keeps U e.word ∧ w.text = String.ofList e.word ∧ w.score = values e) ∧
          (∀ e ∈ es, Spec.Keeps U e.word → ∃ w ∈ loadWordlist U files.words, w.text = String.ofList e.word ∧ w.score = values e) ∧
          ((loadWordlist U files.words).map Word.text).Nodup) := by
  obtain ⟨title, body, tw, bw, h1, h2, h3⟩ := C74_merged hP hW hR he shards
  refine ⟨tw, bw, h2, fun hdig wiktionary files h => ?_⟩
  unfold prepare at h
  rw [h1] at h
  have h : createWordlist P cutoff wiktionary title body = .ok files := h
  obtain ⟨rows, es, values, ⟨r1, r2, r3, g1, g2, g3, rfl⟩, k2, k3, k4, k5, k6, k7⟩ := C71_loads hS hc h
  obtain ⟨⟨et, t1, t2⟩, ⟨eb, b1, b2⟩⟩ := h3 hdig
  have hsp := extracted_space h2
  have rows : ∀ {ws : List (List Char)} {es rs : List CountRow} {text : List Char}, Spec.Counted P ws (tw ++ bw) es →
      text = es.flatMap (fun e => (toString e.1).toList ++ '\t' :: (e.2 ++ ['\n'])) → RowsOf (RowOfTwo P) text rs → rs = es := by
    intro ws es rs text hcount htext hrows
    rw [htext] at hrows
    exact rows_unique hrows (rows_written hR es fun e he => ⟨⟨_, hcount.count e he⟩, hsp _ (hcount.spelled e he)⟩)
  obtain rfl := rows t2 t1 g2
  obtain rfl := rows b2 b1 g3
  exact ⟨r1, r2, r3, es, values, g1, t2, b2, k2, k3, k4, k5, k6, k7⟩

/-! ### An example -/

/-- Two files of articles. -/
def sampleShards : List (List Article) :=
  [[(some "Cat".toList, some "Dog (DOG".toList)], [(some "Cat ant".toList, some "Dog\nDog".toList), (none, some "Cat".toList),
    (some "Cat, ant".toList, some "x".toList)]]

/-- Not trivial: a run from articles to the list. -/
theorem C75_sample : ∃ a b, prepare plainPython hundredth 9 sampleLists.1 (sampleShards.map fun s => (extractWords plainPython plainSign s).1)
    (sampleShards.map fun s => (extractWords plainPython plainSign s).2) = .ok ⟨a, b, "560000\tCat\n960000\tDog\n1000000\tant\n".toList⟩ := by
  have e0 : wordFrequency plainPython hundredth (sampleShards.map fun s => (extractWords plainPython plainSign s).1)
      (sampleShards.map fun s => (extractWords plainPython plainSign s).2) = .ok ("3\tCat\n2\tant\n".toList, "4\tDog\n1\tx\n".toList) := by
    decide +kernel
  have e1 : (pyLines [] sampleLists.1).mapM (rowOfThree plainPython) = .ok [(10, "cat".toList), (5, "Dog".toList)] := by
    decide +kernel
  have e2 : (pyLines [] "3\tCat\n2\tant\n".toList).mapM (rowOfTwo plainPython) = .ok [(3, "Cat".toList), (2, "ant".toList)] := by
    decide +kernel
  have e3 : (pyLines [] "4\tDog\n1\tx\n".toList).mapM (rowOfTwo plainPython) = .ok [(4, "Dog".toList), (1, "x".toList)] := by
    decide +kernel
  have e4 : gatherList plainPython 1 {} [] [(10, "cat".toList), (5, "Dog".toList)] =
      .ok (⟨[("cat".toList, 21), ("dog".toList, 8)], [("cat".toList, "cat".toList), ("dog".toList, "Dog".toList)]⟩,
        [("cat".toList, 21, 0, "cat".toList), ("dog".toList, 8, 1, "Dog".toList)]) := by rfl
  have e5 : gatherList plainPython 3 ⟨[("cat".toList, 21), ("dog".toList, 8)],
      [("cat".toList, "cat".toList), ("dog".toList, "Dog".toList)]⟩ [] [(3, "Cat".toList), (2, "ant".toList)] =
      .ok (⟨[("cat".toList, 35), ("dog".toList, 8), ("ant".toList, 13)],
        [("cat".toList, "Cat".toList), ("dog".toList, "Dog".toList), ("ant".toList, "ant".toList)]⟩,
        [("cat".toList, 35, 0, "Cat".toList), ("ant".toList, 13, 1, "ant".toList)]) := by rfl
  have e6 : gatherBody plainPython ⟨[("cat".toList, 35), ("dog".toList, 8), ("ant".toList, 13)],
        [("cat".toList, "Cat".toList), ("dog".toList, "Dog".toList), ("ant".toList, "ant".toList)]⟩
        [(4, "Dog".toList), (1, "x".toList)] =
      .ok ⟨[("cat".toList, 35), ("dog".toList, 15), ("ant".toList, 13), ("x".toList, 3)],
        [("cat".toList, "Cat".toList), ("dog".toList, "Dog".toList), ("ant".toList, "ant".toList),
         ("x".toList, "x".toList)]⟩ := by decide +kernel
  have e7 : outputWords 9 [("cat".toList, 35), ("dog".toList, 15), ("ant".toList, 13), ("x".toList, 3)] =
      [(35, "cat".toList), (15, "dog".toList), (13, "ant".toList)] := by
    unfold outputWords
    rw [List.mergeSort_of_pairwise (by decide +kernel)]
    decide +kernel
  have e8 : finalList [("cat".toList, "Cat".toList), ("dog".toList, "Dog".toList), ("ant".toList, "ant".toList),
      ("x".toList, "x".toList)] [] [(35, "cat".toList), (15, "dog".toList), (13, "ant".toList)] =
      [("cat".toList, 35, 0, "Cat".toList), ("dog".toList, 15, 1, "Dog".toList), ("ant".toList, 13, 2, "ant".toList)] := by
    decide +kernel
  have d1 : dumpFinal plainPython [("cat".toList, 21, 0, "cat".toList), ("dog".toList, 8, 1, "Dog".toList)] =
      .ok "380952\tcat\n1000000\tDog\n".toList := by
    rw [dumpFinal_sorted (n := 8) (by decide +kernel) (by decide +kernel)]
    decide +kernel
  have d2 : dumpFinal plainPython [("cat".toList, 35, 0, "Cat".toList), ("ant".toList, 13, 1, "ant".toList)] =
      .ok "371428\tCat\n1000000\tant\n".toList := by
    rw [dumpFinal_sorted (n := 13) (by decide +kernel) (by decide +kernel)]
    decide +kernel
  have d3 : dumpFinal plainPython [("cat".toList, 35, 0, "Cat".toList), ("dog".toList, 15, 1, "Dog".toList),
      ("ant".toList, 13, 2, "ant".toList)] = .ok "560000\tCat\n960000\tDog\n1000000\tant\n".toList := by
    rw [dumpFinal_sorted (n := 13) (by decide +kernel) (by decide +kernel)]
    decide +kernel
  unfold prepare
  rw [e0]
  simp only [bind, Except.bind]
  unfold createWordlist
  rw [e1, e2, e3]
  simp only [bind, Except.bind, e4, d1, e5, d2, e6, e7, e8, d3]
  exact ⟨_, _, rfl⟩

end Noodle
