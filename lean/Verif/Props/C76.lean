import Verif.Props.C75
/-
C76: when the preparation of word lists ends without an exception: exactly if the rows of its files can be read, and each of the
three lists it writes has at least two words.
-/
namespace Noodle
set_option autoImplicit false
open Spec

/-! ### Writing a list -/

theorem dumpLines_ok {P : Python} {t m : Int} : ∀ {d : WordData}, (∀ x ∈ d, ∃ v, P.value t m x.2.1 = some v) →
    ∃ text, dumpLines P t m d = .ok text
  | [], _ => ⟨_, rfl⟩
  | (k, n, i, w) :: d, h => by
    obtain ⟨v, hv⟩ := h (k, n, i, w) (by simp)
    obtain ⟨s, hs⟩ := dumpLines_ok (P := P) (t := t) (m := m) fun x hx => h x (List.mem_cons_of_mem _ hx)
    dsimp only at hv
    rw [dumpLines, hv]
    dsimp only
    rw [hs]
    exact ⟨_, rfl⟩

/-- A list of words with points can be written exactly if it has two words. -/
theorem dumpFinal_ends {P : Python} (hP : Sane P) {d : WordData} (hpos : ∀ x ∈ d, 0 < x.2.1) :
    (∃ text, dumpFinal P d = .ok text) ↔ 2 ≤ d.length := by
  have hpos' : ∀ e ∈ d.map listedAs, 0 < e.points := by
    intro e he
    obtain ⟨x, hx, rfl⟩ := List.mem_map.1 he
    exact hpos x hx
  obtain ⟨s1, s2⟩ := points_le_sum hpos'
  have e : (d.map listedAs).map ListEntry.points = d.map fun x => x.2.1 := by rw [List.map_map]; rfl
  rw [e] at s1 s2
  have s2 : ∀ x ∈ d, x.2.1 ≤ (d.map fun x => x.2.1).sum := fun x hx => s2 _ (List.mem_map.2 ⟨x, hx, rfl⟩)
  unfold dumpFinal
  cases hl : (d.map fun x => x.2.1).min? with
  | none =>
    have : d = [] := by
      cases d with
      | nil => rfl
      | cons x d => simp at hl
    subst this
    constructor
    · rintro ⟨_, h⟩; cases h
    · intro h; simp at h
  | some least =>
    dsimp only
    obtain ⟨h1, h2⟩ := List.min?_eq_some_iff.1 hl
    obtain ⟨x, hx, rfl⟩ := List.mem_map.1 h1
    have h2 : ∀ y ∈ d, x.2.1 ≤ y.2.1 := fun y hy => h2 _ (List.mem_map.2 ⟨y, hy, rfl⟩)
    have hp : (d.mergeSort fun x y => decide (y.2.1 ≤ x.2.1)).Perm d := List.mergeSort_perm _ _
    constructor
    · rintro ⟨text, h⟩
      match d, hx, h with
      | [], hx, _ => cases hx
      | [y], hx, h =>
        rw [List.mem_singleton] at hx
        subst hx
        rw [List.mergeSort_singleton] at h
        obtain ⟨k, n, i, w⟩ := x
        rw [dumpLines] at h
        simp only [List.map_cons, List.map_nil, List.sum_cons, List.sum_nil, Int.add_zero, hP.one] at h
        cases h
      | _ :: _ :: _, _, _ => simp
    · intro hlen
      refine dumpLines_ok fun y hy => ?_
      have hy := hp.mem_iff.1 hy
      have hlt : x.2.1 < (d.map fun x => x.2.1).sum := by
        match d, hlen, h2, hpos, s2 with
        | a :: b :: d, _, h2, hpos, s2 =>
          have ha := h2 a (by simp)
          have hb := hpos b (by simp)
          have hd : 0 ≤ (d.map fun x => x.2.1).sum := by
            have := (points_le_sum (es := d.map listedAs) (fun e he => by
              obtain ⟨x, hx, rfl⟩ := List.mem_map.1 he
              exact hpos x (by simp [hx]))).1
            rwa [List.map_map] at this
          simp only [List.map_cons, List.sum_cons]
          omega
      obtain ⟨v, hv, _⟩ := hP.range _ _ _ (hpos x hx) (h2 y hy) (s2 y hy) hlt
      exact ⟨v, hv⟩

/-! ### Reading rows -/

theorem rowOfThree_of {P : Python} {l : List Char} {r : CountRow} (h : RowOfThree P l r) : rowOfThree P l = .ok r := by
  obtain ⟨count, form, h, hc, hf, hw, hi⟩ := h
  unfold rowOfThree
  rw [stripped_of h, splitTab_some.2 ⟨rfl, hc⟩]
  dsimp only
  rw [splitTab_some.2 ⟨rfl, hf⟩]
  dsimp only
  rw [if_neg hw, hi]

theorem rows_run {f : List Char → Except PyError CountRow} {row : List Char → CountRow → Prop} {text : List Char}
    {rs : List CountRow} (hf : ∀ {l r}, row l r → f l = .ok r) (h : RowsOf row text rs) : (pyLines [] text).mapM f = .ok rs := by
  obtain ⟨ls, a, b, c⟩ := h
  rw [pyLines_of a]
  exact mapM_of b fun i l r hl hr => hf (c i l r hl hr)

theorem gather_ok (P : Python) (st : Gather) (c : Int) {w : List Char} (h : '\t' ∉ w) : ∃ p, gather P st c w = .ok p := by
  unfold gather
  split
  · exact ⟨_, rfl⟩
  · dsimp only
    split <;> exact ⟨_, rfl⟩

theorem gatherList_ok (P : Python) (factor : Int) : ∀ (rs : List CountRow) (st : Gather) (d : WordData), (∀ r ∈ rs, '\t' ∉ r.2) →
    ∃ p, gatherList P factor st d rs = .ok p
  | [], _, _, _ => ⟨_, rfl⟩
  | (c, w) :: rs, st, d, h => by
    obtain ⟨⟨st', o⟩, h1⟩ := gather_ok P st (c * factor) (w := w) (h (c, w) (by simp))
    rw [gatherList, h1]
    dsimp only
    exact gatherList_ok P factor rs _ _ fun r hr => h r (List.mem_cons_of_mem _ hr)

theorem gatherBody_ok (P : Python) : ∀ (rs : List CountRow) (st : Gather), (∀ r ∈ rs, '\t' ∉ r.2) →
    ∃ st', gatherBody P st rs = .ok st'
  | [], _, _ => ⟨_, rfl⟩
  | (c, w) :: rs, st, h => by
    obtain ⟨⟨st', o⟩, h1⟩ := gather_ok P st c (w := w) (h (c, w) (by simp))
    rw [gatherBody, h1]
    dsimp only
    exact gatherBody_ok P rs _ fun r hr => h r (List.mem_cons_of_mem _ hr)

/-! ### The lists -/

theorem entries_perm {es es' : List ListEntry} (h : (es.map ListEntry.form).Nodup) (h' : (es'.map ListEntry.form).Nodup)
    (hm : ∀ e, e ∈ es ↔ e ∈ es') : es.length = es'.length := by
  have nd : ∀ {es : List ListEntry}, (es.map ListEntry.form).Nodup → es.Nodup := by
    intro es h
    rw [List.Nodup, List.pairwise_map] at h
    exact h.imp fun h e => h (by rw [e])
  exact ((List.perm_ext_iff_of_nodup (nd h) (nd h')).2 hm).length_eq

theorem listOf_forms {P : Python} {cutoff : Int} {rows : List CountRow} {es : List ListEntry} (h : ListOf P cutoff rows es) :
    (es.map ListEntry.form).Nodup := by
  rw [List.Nodup, List.pairwise_map]
  refine h.2.imp_of_mem ?_
  rintro a b ha hb (h1 | ⟨_, h1⟩) e
  · have q1 := earned_unique ((h.1 a.form a.points a.word).1 ha).2.2.1
    have q2 := earned_unique ((h.1 b.form b.points b.word).1 hb).2.2.1
    rw [e] at q1
    omega
  · rw [e] at h1
    exact absurd h1 (List.lt_irrefl _)

/-- The first two lists can be written exactly if they have two words. -/
theorem collected_ends {P : Python} (hP : Sane P) {base rows : List CountRow} {d : WordData} (hd : Collected P base rows d)
    (hpos : ∀ r ∈ base ++ rows, 0 ≤ adjust P r.1 (canonicalize P r.2) r.2) :
    (∃ text, dumpFinal P d = .ok text) ↔ ∃ es, ListAfter P base rows es ∧ 2 ≤ es.length := by
  obtain ⟨m, nd⟩ := collected_entries hd (.refl d)
  have pos : ∀ x ∈ d, 0 < x.2.1 := by
    intro x hx
    have := (m x.1 x.2.1 x.2.2.2).1 (List.mem_map.2 ⟨x, hx, rfl⟩)
    have h1 := earned_unique this.2.2.1
    have h2 := earned_nonneg (k := x.1) hpos
    have h3 := this.2.2.2.1
    omega
  constructor
  · rintro ⟨text, h⟩
    have hlen := (dumpFinal_ends hP pos).1 ⟨text, h⟩
    obtain ⟨es, _, h1, _⟩ := collected_list hd h
    refine ⟨es, h1, ?_⟩
    rw [entries_perm h1.2.1 nd fun e => (h1.1 e.form e.points e.word).trans (m e.form e.points e.word).symm, List.length_map]
    exact hlen
  · rintro ⟨es, h1, h2⟩
    rw [entries_perm h1.2.1 nd fun e => (h1.1 e.form e.points e.word).trans (m e.form e.points e.word).symm,
      List.length_map] at h2
    exact (dumpFinal_ends hP pos).2 h2

theorem final_ends {P : Python} (hP : Sane P) {cutoff : Int} (hc : 0 < cutoff) {rows : List CountRow} {st : Gather}
    (h : Gathered P rows st) : (∃ text, dumpFinal P (finalList st.originals [] (outputWords cutoff st.points)) = .ok text) ↔
      ∃ es, ListOf P cutoff rows es ∧ 2 ≤ es.length := by
  have hl := final_list cutoff h
  have pos : ∀ x ∈ finalList st.originals [] (outputWords cutoff st.points), 0 < x.2.1 := by
    intro x hx
    have := ((hl.1 x.1 x.2.1 x.2.2.2).1 (List.mem_map.2 ⟨x, hx, rfl⟩)).2.2.2.1
    omega
  rw [dumpFinal_ends hP pos, ← List.length_map (f := listedAs)]
  constructor
  · exact fun h => ⟨_, hl, h⟩
  · rintro ⟨es, h1, h2⟩
    rwa [entries_perm (listOf_forms h1) (listOf_forms hl) fun e =>
      (h1.1 e.form e.points e.word).trans (hl.1 e.form e.points e.word).symm] at h2

theorem bind_ok {α β : Type} {a : α} {x : Except PyError α} {f : α → Except PyError β} (h : x = .ok a) : (x >>= f) = f a := by
  rw [h]; rfl

/-- When the program that makes the word list ends without an exception, if its files can be read, no word in them has a tab,
and no row takes points away: exactly if each of the lists it writes has at least two words. -/
theorem C76_ends {P : Python} (hP : Sane P) {cutoff : Int} (hc : 0 < cutoff) {wiktionary titles body : List Char}
    {r1 r2 r3 : List CountRow} (h1 : RowsOf (RowOfThree P) wiktionary r1) (h2 : RowsOf (RowOfTwo P) titles r2)
    (h3 : RowsOf (RowOfTwo P) body r3) (ht : ∀ r ∈ r2 ++ r3, '\t' ∉ r.2)
    (hpos : ∀ r ∈ r1 ++ r2.map (fun r => (3 * r.1, r.2)), ∀ k n, Canonical P r.2 k → Worth P r.1 k r.2 n → 0 ≤ n) :
    (∃ files, createWordlist P cutoff wiktionary titles body = .ok files) ↔
      (∃ es, ListAfter P [] r1 es ∧ 2 ≤ es.length) ∧ (∃ es, ListAfter P r1 (r2.map fun r => (3 * r.1, r.2)) es ∧ 2 ≤ es.length) ∧
      ∃ es, ListOf P cutoff (r1 ++ r2.map (fun r => (3 * r.1, r.2)) ++ r3) es ∧ 2 ≤ es.length := by
  have hadj : ∀ r ∈ r1 ++ r2.map (fun r => (3 * r.1, r.2)), 0 ≤ adjust P r.1 (canonicalize P r.2) r.2 :=
    fun r hr => hpos r hr _ _ (canonicalize_spec P r.2) (adjust_worth P _ _ _)
  have ht1 : ∀ r ∈ r1, '\t' ∉ r.2 := by
    obtain ⟨ls, _, b, c⟩ := h1
    intro r hr
    obtain ⟨i, hi, e⟩ := List.getElem_of_mem hr
    obtain ⟨_, _, _, _, _, t, _⟩ := c i ls[i] r (List.getElem?_eq_getElem (by omega)) (by rw [List.getElem?_eq_getElem hi, e])
    exact t
  obtain ⟨⟨st1, d1⟩, k1⟩ := gatherList_ok P 1 r1 {} [] ht1
  obtain ⟨⟨st2, d2⟩, k2⟩ := gatherList_ok P 3 r2 st1 [] fun r hr => ht r (List.mem_append_left _ hr)
  obtain ⟨st, k3⟩ := gatherBody_ok P r3 st2 fun r hr => ht r (List.mem_append_right _ hr)
  have e1 : (r1.map fun r => (1 * r.1, r.2)) = r1 := by simp
  have g1 := gatherList_spec hP.nothing 1 r1 (gathered_nil P) k1
  have c1 := gatherList_collects hP.nothing 1 r1 (base := []) (rows := []) (gathered_nil P) (collected_nil P [])
    (by rw [e1]; intro r hr; exact hadj r (by simpa using .inl hr)) k1
  rw [List.nil_append, e1] at c1 g1
  have g2 := gatherList_spec hP.nothing 3 r2 g1 k2
  have c2 := gatherList_collects hP.nothing 3 r2 (base := r1) (rows := []) (by simpa using g1) (collected_nil P r1)
    (by simpa using hadj) k2
  rw [List.nil_append] at c2
  have g3 := gatherBody_spec hP.nothing r3 g2 k3
  rw [← collected_ends hP c1 (fun r hr => hadj r (by simpa using .inl hr)), ← collected_ends hP c2 hadj, ← final_ends hP hc g3]
  have l1 := rows_run (f := rowOfThree P) rowOfThree_of h1
  have l2 := rows_run (f := rowOfTwo P) rowOfTwo_of h2
  have l3 := rows_run (f := rowOfTwo P) rowOfTwo_of h3
  unfold createWordlist
  rw [bind_ok l1, bind_ok k1]
  dsimp only
  constructor
  · rintro ⟨files, h⟩
    obtain ⟨f1, a1, h⟩ := bind_some h
    rw [bind_ok l2, bind_ok k2] at h
    obtain ⟨f2, a2, h⟩ := bind_some h
    rw [bind_ok l3, bind_ok k3] at h
    obtain ⟨f3, a3, h⟩ := bind_some h
    exact ⟨⟨_, a1⟩, ⟨_, a2⟩, ⟨_, a3⟩⟩
  · rintro ⟨⟨f1, a1⟩, ⟨f2, a2⟩, ⟨f3, a3⟩⟩
    rw [bind_ok a1, bind_ok l2, bind_ok k2]
    dsimp only
    rw [bind_ok a2, bind_ok l3, bind_ok k3, bind_ok a3]
    exact ⟨_, rfl⟩

/-- What a count is worth is never negative, for positive counts. -/
structure NoDebt (P : Python) : Prop where
  threeHalves : ∀ n, 0 < n → 0 ≤ P.threeHalves n
  fifth : ∀ n, 0 < n → 0 ≤ P.fifth n
  half : ∀ n, 0 < n → 0 ≤ P.half n

theorem worth_nonneg {P : Python} (hN : NoDebt P) {c n : Int} {k w : List Char} (hc : 0 < c) (h : Worth P c k w n) : 0 ≤ n := by
  cases h with
  | same _ => omega
  | capitals _ _ => have := hN.threeHalves c hc; omega
  | shrunk _ _ _ => exact hN.fifth c hc
  | signs _ _ _ _ => exact hN.half c hc
  | plain _ _ _ _ => omega

theorem counted_pos {P : Python} {ws all : List (List Char)} {rows : List CountRow} (h : Spec.Counted P ws all rows) :
    ∀ r ∈ rows, 0 < r.1 := by
  intro r hr
  obtain ⟨w, hw, e⟩ := (h.forms _).1 ⟨r, hr, rfl⟩
  have : 0 < ws.countP fun w => canonicalize P w = canonicalize P r.2 :=
    List.countP_pos_iff.2 ⟨w, hw, by simpa using e⟩
  rw [h.count r hr]
  omega

/-- When the preparation ends without an exception, for any articles, if no form has a digit, and the Wiktionary file can be
read: exactly if there are two words in the list of the Wiktionary file, two in that of the titles, and two with enough points. -/
theorem C76_prepare {P : Python} {W : Char → Bool} (hP : PlainAscii P) (hS : Sane P) (hN : NoDebt P) (hW : WordChars P W)
    (hR : ReadsBack P) {enough : Int → Int → Bool} (he : ∀ n, 0 < n → enough 0 n = false) {cutoff : Int} (hc : 0 < cutoff)
    (shards : List (List Article)) :
    ∃ tw bw, Extracted P W shards.flatten tw bw ∧ ((∀ w ∈ tw ++ bw, ∀ k, Canonical P w k → ∀ c ∈ k, ¬ Digit c) →
      ∃ r2 r3, Spec.Counted P tw (tw ++ bw) r2 ∧ Spec.Counted P bw (tw ++ bw) r3 ∧
      ∀ (wiktionary : List Char) (r1 : List CountRow), RowsOf (RowOfThree P) wiktionary r1 → (∀ r ∈ r1, 0 < r.1) →
      ((∃ files, prepare P enough cutoff wiktionary (shards.map fun s => (extractWords P W s).1)
          (shards.map fun s => (extractWords P W s).2) = .ok files) ↔
        (∃ es, ListAfter P [] r1 es ∧ 2 ≤ es.length) ∧
        (∃ es, ListAfter P r1 (r2.map fun r => (3 * r.1, r.2)) es ∧ 2 ≤ es.length) ∧
        ∃ es, ListOf P cutoff (r1 ++ r2.map (fun r => (3 * r.1, r.2)) ++ r3) es ∧ 2 ≤ es.length)) := by
  obtain ⟨title, body, tw, bw, h1, h2, h3⟩ := C74_merged hP hW hR he shards
  refine ⟨tw, bw, h2, fun hdig => ?_⟩
  obtain ⟨⟨r2, t1, t2⟩, ⟨r3, b1, b2⟩⟩ := h3 hdig
  refine ⟨r2, r3, t2, b2, fun wiktionary r1 hr1 hp1 => ?_⟩
  have hsp := extracted_space h2
  have rows : ∀ {ws : List (List Char)} {es : List CountRow}, Spec.Counted P ws (tw ++ bw) es →
      RowsOf (RowOfTwo P) (es.flatMap fun e => (toString e.1).toList ++ '\t' :: (e.2 ++ ['\n'])) es :=
    fun h => rows_written hR _ fun e he => ⟨⟨_, h.count e he⟩, hsp _ (h.spelled e he)⟩
  have hrun : ∀ files, prepare P enough cutoff wiktionary (shards.map fun s => (extractWords P W s).1)
      (shards.map fun s => (extractWords P W s).2) = .ok files ↔ createWordlist P cutoff wiktionary title body = .ok files := by
    intro files
    unfold prepare
    rw [h1]
    exact Iff.rfl
  simp only [hrun]
  rw [t1, b1]
  refine C76_ends hS hc hr1 (rows t2) (rows b2) ?_ ?_
  · intro r hr ht
    have : r.2 ∈ tw ++ bw := by
      rcases List.mem_append.1 hr with hr | hr
      · exact t2.spelled r hr
      · exact b2.spelled r hr
    have := hsp _ this _ ht
    rw [hR.tab] at this
    cases this
  · intro r hr k n _ hw
    refine worth_nonneg hN ?_ hw
    rcases List.mem_append.1 hr with hr | hr
    · exact hp1 r hr
    · obtain ⟨r', hr', rfl⟩ := List.mem_map.1 hr
      have := counted_pos t2 r' hr'
      dsimp only
      omega

/-! ### Examples -/

theorem plain_debt : NoDebt plainPython := by
  refine ⟨fun n h => ?_, fun n h => ?_, fun n h => ?_⟩
  · exact Int.tdiv_nonneg (by omega) (by omega)
  · show 0 ≤ (n - 5).tdiv 5
    by_cases h5 : 5 ≤ n
    · exact Int.tdiv_nonneg (by omega) (by omega)
    · obtain rfl | rfl | rfl | rfl : n = 1 ∨ n = 2 ∨ n = 3 ∨ n = 4 := by omega
      all_goals decide
  · show 0 ≤ (n - 2).tdiv 2
    by_cases h2 : 2 ≤ n
    · exact Int.tdiv_nonneg (by omega) (by omega)
    · obtain rfl : n = 1 := by omega
      decide

/-- Nothing: an exception. -/
example : createWordlist plainPython 1 [] [] [] = .error .value := by rfl

/-- Not trivial: the conditions hold for three small files, and so do both sides. -/
example : ∃ r1 r2 r3 : List CountRow, RowsOf (RowOfThree plainPython) sampleLists.1 r1 ∧
    RowsOf (RowOfTwo plainPython) sampleLists.2.1 r2 ∧ RowsOf (RowOfTwo plainPython) sampleLists.2.2 r3 ∧
    (∀ r ∈ r2 ++ r3, '\t' ∉ r.2) ∧ (∀ r ∈ r1 ++ r2 ++ r3, 0 < r.1) ∧
    (∃ es, ListAfter plainPython [] r1 es ∧ 2 ≤ es.length) ∧
    (∃ es, ListAfter plainPython r1 (r2.map fun r => (3 * r.1, r.2)) es ∧ 2 ≤ es.length) ∧
    ∃ es, ListOf plainPython 9 (r1 ++ r2.map (fun r => (3 * r.1, r.2)) ++ r3) es ∧ 2 ≤ es.length := by
  have e1 : (pyLines [] sampleLists.1).mapM (rowOfThree plainPython) = .ok [(10, "cat".toList), (5, "Dog".toList)] := by
    decide +kernel
  have e2 : (pyLines [] sampleLists.2.1).mapM (rowOfTwo plainPython) = .ok [(3, "Cat".toList), (2, "ant".toList)] := by
    decide +kernel
  have e3 : (pyLines [] sampleLists.2.2).mapM (rowOfTwo plainPython) = .ok [(4, "Dog".toList), (1, "x y".toList)] := by
    decide +kernel
  have h1 := rows_of (f := rowOfThree plainPython) (row := RowOfThree plainPython) rowOfThree_spec e1
  have h2 := rows_of (f := rowOfTwo plainPython) (row := RowOfTwo plainPython) rowOfTwo_spec e2
  have h3 := rows_of (f := rowOfTwo plainPython) (row := RowOfTwo plainPython) rowOfTwo_spec e3
  have ht : ∀ r ∈ [(3, "Cat".toList), (2, "ant".toList)] ++ [(4, "Dog".toList), ((1 : Int), "x y".toList)], '\t' ∉ r.2 := by
    decide +kernel
  have hp : ∀ r ∈ [(10, "cat".toList), (5, "Dog".toList)] ++ [(3, "Cat".toList), (2, "ant".toList)].map
      (fun r : CountRow => (3 * r.1, r.2)), 0 < r.1 := by decide +kernel
  obtain ⟨a, b, hs⟩ := C71_sample
  exact ⟨_, _, _, h1, h2, h3, ht, by decide +kernel, (C76_ends plain_sane (by omega) h1 h2 h3 ht
    fun r hr k n _ hw => worth_nonneg plain_debt (hp r hr) hw).1 ⟨_, hs⟩⟩

end Noodle
