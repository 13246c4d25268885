import Verif.Proofs.Extract
import Verif.Props.C72
/-
C74: the program that prepares word lists counts in each article every part of the title between white space, and every part of
the body up to the second " Retrieved ", without the signs around it, or as the empty word when it is not like a word. What it
writes about any number of files of articles is read back without an exception, and the merged files count exactly these words.
-/
namespace Noodle
set_option autoImplicit false
open Spec

/-- What a part of a text is counted as. The text between blanks has no newline. -/
theorem C74_word {P : Python} {W : Char → Bool} (hW : WordChars P W) (hR : ReadsBack P) {word : List Char}
    (h : '\n' ∉ word) : Cleaned W word (stripWord W word) :=
  stripWord_spec hW.letters hW.dash (hW.space _ hR.lf) h

/-- The core of a word is unique. -/
theorem core_unique {W : Char → Bool} {word v w : List Char} (h1 : Core W word v) (h2 : Core W word w) : v = w := by
  obtain ⟨a, b, x, y, e, hab, hx, hWx, hy, hWy⟩ := h1
  obtain ⟨a', b', x', y', e', hab', hx', hWx', hy', hWy'⟩ := h2
  have key : ∀ {a a' s s' : List Char} {x x' : Char}, a ++ s = a' ++ s' → s.head? = some x → W x = true →
      (∀ c ∈ a', W c = false) → a.length ≤ a'.length → a = a' := by
    intro a a' s s' x x' e hx hWx h hl
    obtain ⟨d, rfl, rfl⟩ := prefix_short e hl
    cases d with
    | nil => simp
    | cons z d =>
      cases hx
      have := h x (by simp)
      rw [hWx] at this; cases this
  have hhead : ∀ {u v : List Char} {z : Char}, u.head? = some z → (u ++ v).head? = some z := by
    intro u v z h
    rw [List.head?_append, h]; rfl
  rw [List.append_assoc] at e e'
  have hee : a ++ (v ++ b) = a' ++ (w ++ b') := by rw [← e, ← e']
  have ha : a = a' := by
    rcases Nat.le_total a.length a'.length with hl | hl
    · exact key (x' := x) hee (hhead hx) hWx (fun c hc => hab' c (by simp [hc])) hl
    · exact (key (x' := x) hee.symm (hhead hx') hWx' (fun c hc => hab c (by simp [hc])) hl).symm
  rw [ha] at hee
  exact core_end (List.append_cancel_left hee) hy hWy hy' hWy' (fun c hc => hab c (by simp [hc]))
    fun c hc => hab' c (by simp [hc])

/-- What a part of a text is counted as is determined. -/
theorem C74_word_unique {W : Char → Bool} {word v w : List Char} (h1 : Cleaned W word v) (h2 : Cleaned W word w) : v = w := by
  cases h1 with
  | word c1 l1 => cases h2 with
    | word c2 _ => exact core_unique c1 c2
    | none n2 => exact absurd l1 (n2 _ c1)
  | none n1 => cases h2 with
    | word c2 l2 => exact absurd l2 (n1 _ c2)
    | none _ => rfl

/-- What is counted of a body, and that this is determined. -/
theorem C74_body (body r : List Char) : CutBody body r ↔ r = stripBody body := by
  refine ⟨fun h => ?_, fun h => h ▸ stripBody_spec body⟩
  have h' := stripBody_spec body
  generalize stripBody body = r' at h'
  cases h with
  | @cut a b c e hn ha hb =>
    cases h' with
    | @cut a' b' c' e' hn' ha' hb' =>
      have l1 := ha _ _ e'
      have l2 := ha' _ _ e
      have e2 := e
      rw [e', List.append_assoc a', List.append_assoc a] at e2
      obtain ⟨rfl, e3⟩ := List.append_inj e2 (by omega)
      have e4 := List.append_cancel_left e3
      have l3 := hb _ _ e4.symm
      have l4 := hb' _ _ e4
      rw [List.append_assoc b', List.append_assoc b] at e4
      obtain ⟨rfl, _⟩ := List.append_inj e4 (by omega)
      rfl
    | whole h' => exact absurd (h' _ _ _ e) hn
  | whole h =>
    cases h' with
    | cut e' hn' _ _ => exact absurd (h _ _ _ e') hn'
    | whole _ => rfl

/-- The program means to replace a dash by a hyphen, but it never does: a word with a dash between its letters is not counted
as a word at all. -/
theorem C74_dash {P : Python} {W : Char → Bool} (hW : WordChars P W) (hR : ReadsBack P) {a b : List Char} {x y : Char}
    (hx : x ∈ a) (hWx : W x = true) (hy : y ∈ b) (hWy : W y = true) (h : '\n' ∉ a ++ '–' :: b) :
    stripWord W (a ++ '–' :: b) = [] := by
  have hc := C74_word hW hR h
  generalize stripWord W (a ++ '–' :: b) = w at hc
  cases hc with
  | none _ => rfl
  | word hc hl =>
    obtain ⟨u, v, x', y', e, huv, hx', hWx', hy', hWy'⟩ := hc
    have : '–' ∈ w := by
      rw [List.append_assoc] at e
      -- the dash is neither before nor after the core
      rcases List.append_eq_append_iff.1 e with ⟨d, h1, h2⟩ | ⟨d, h1, h2⟩
      · have := huv x (by rw [h1]; simp [hx])
        rw [hWx] at this; cases this
      · rcases List.append_eq_append_iff.1 h2 with ⟨d', h3, h4⟩ | ⟨d', h3, h4⟩
        · have := huv y (by rw [h4]; simp [hy])
          rw [hWy] at this; cases this
        · cases d' with
          | nil =>
            rw [List.nil_append] at h4
            have := huv y (by rw [← h4]; simp [hy])
            rw [hWy] at this; cases this
          | cons z d' =>
            rw [List.cons_append] at h4
            obtain ⟨rfl, _⟩ := List.cons.inj h4
            rw [h3]; simp
    rcases hl.signs _ this with h | h
    · rw [hW.dash] at h; cases h
    · exact absurd h (by decide)

/-- The files about some articles: a line for each word, with the number of times it was counted. -/
theorem C74_counts {P : Python} {W : Char → Bool} (hW : WordChars P W) (hR : ReadsBack P) (articles : List Article) :
    ∃ tw bw, Extracted P W articles tw bw ∧ CountFile tw (extractWords P W articles).1 ∧
      CountFile bw (extractWords P W articles).2 := by
  obtain ⟨tw, bw, h1, h2, h3⟩ := extract_spec hW hR.lf articles (st := ([], [])) (t0 := []) (b0 := []) counts_nil counts_nil
  exact ⟨tw, bw, h1, count_file h2, count_file h3⟩

theorem extracted_append {P : Python} {W : Char → Bool} {ds ds' : List Article} {t b t' b' : List (List Char)}
    (h : Extracted P W ds t b) (h' : Extracted P W ds' t' b') : Extracted P W (ds ++ ds') (t ++ t') (b ++ b') := by
  induction h with
  | nil => exact h'
  | skip h _ ih => exact .skip h ih
  | cons h1 h2 h3 h4 h5 _ ih =>
    rw [List.append_assoc, List.append_assoc]
    exact .cons h1 h2 h3 h4 h5 ih

theorem tokens_of {P : Python} {s : List Char} {ts : List (List Char)} (h : Tokens P.space s ts) : pySplit P [] s = ts := by
  have step : ∀ {l cur : List Char} (s : List Char), (∀ c ∈ l, P.space c = false) → pySplit P cur (l ++ s) = pySplit P (cur ++ l) s := by
    intro l
    induction l with
    | nil => intro cur s _; simp
    | cons c l ih =>
      intro cur s h
      rw [List.cons_append, pySplit, h c (by simp), if_neg (by simp), ih s fun c hc => h c (by simp [hc])]
      simp
  induction h with
  | nil => rfl
  | blank hc _ ih => rw [pySplit, if_pos hc]; exact ih
  | @last t hne h =>
    have := step (cur := []) [] h
    rw [List.append_nil] at this
    rw [this, List.nil_append, pySplit, if_neg (by simpa using hne)]
  | @cons t c s ts hne h hc _ ih =>
    rw [step _ h, List.nil_append, pySplit, if_pos hc, if_neg (by simpa using hne), ih]

theorem cleaned_all_unique {W : Char → Bool} {ts ws vs : List (List Char)} (h1 : CleanedAll W ts ws) (h2 : CleanedAll W ts vs) :
    ws = vs := by
  refine List.ext_getElem (by rw [h1.1, h2.1]) fun i hi hj => ?_
  have ht : ts[i]? = some (ts[i]'(by rw [← h1.1]; exact hi)) := List.getElem?_eq_getElem _
  exact C74_word_unique (h1.2 i _ _ ht (List.getElem?_eq_getElem hi)) (h2.2 i _ _ ht (List.getElem?_eq_getElem hj))

/-- What is counted is determined by the articles. -/
theorem C74_determined {P : Python} {W : Char → Bool} {ds : List Article} {t b t' b' : List (List Char)}
    (h : Extracted P W ds t b) (h' : Extracted P W ds t' b') : t = t' ∧ b = b' := by
  induction h generalizing t' b' with
  | nil => cases h'; exact ⟨rfl, rfl⟩
  | skip hn _ ih =>
    cases h' with
    | skip _ h' => exact ih h'
    | cons => simp at hn
  | cons h1 h2 h3 h4 h5 _ ih =>
    cases h' with
    | skip hn _ => simp at hn
    | cons g1 g2 g3 g4 g5 g =>
      obtain rfl := (tokens_of h1).symm.trans (tokens_of g1)
      obtain rfl := ((C74_body _ _).1 h3).trans ((C74_body _ _).1 g3).symm
      obtain rfl := (tokens_of h4).symm.trans (tokens_of g4)
      obtain rfl := cleaned_all_unique h2 g2
      obtain rfl := cleaned_all_unique h5 g5
      obtain ⟨rfl, rfl⟩ := ih g
      exact ⟨rfl, rfl⟩

theorem extracted_space {P : Python} {W : Char → Bool} {ds : List Article} {t b : List (List Char)} (h : Extracted P W ds t b) :
    ∀ w ∈ t ++ b, ∀ c ∈ w, P.space c = false := by
  have sub : ∀ {s w : List Char}, Cleaned W s w → (∀ c ∈ s, P.space c = false) → ∀ c ∈ w, P.space c = false := by
    intro s w h hs c hc
    cases h with
    | none _ => cases hc
    | word hcore _ =>
      obtain ⟨a, b, x, y, rfl, _⟩ := hcore
      exact hs c (by simp [hc])
  have all : ∀ {s : List Char} {ts ws : List (List Char)}, Tokens P.space s ts → CleanedAll W ts ws →
      ∀ w ∈ ws, ∀ c ∈ w, P.space c = false := by
    intro s ts ws h1 h2 w hw
    obtain ⟨i, hi⟩ := List.mem_iff_getElem?.1 hw
    have hlt : i < ts.length := by
      rw [← h2.1]
      obtain ⟨hlt, _⟩ := List.getElem?_eq_some_iff.1 hi
      exact hlt
    exact sub (h2.2 i _ w (List.getElem?_eq_getElem hlt) hi) (tokens_space h1 _ (List.getElem_mem hlt))
  induction h with
  | nil => simp
  | skip _ _ ih => exact ih
  | cons h1 h2 _ h4 h5 _ ih =>
    intro w hw
    simp only [List.mem_append] at hw ih
    rcases hw with (hw | hw) | (hw | hw)
    · exact all h1 h2 w hw
    · exact ih w (.inl hw)
    · exact all h4 h5 w hw
    · exact ih w (.inr hw)

theorem plain_rows {P : Python} (hR : ReadsBack P) {ws : List (List Char)} (hs : ∀ w ∈ ws, ∀ c ∈ w, P.space c = false)
    {d : PyDict Int} (h : RightCounts (oneEach ws) d) : ∀ x ∈ d, RowFits P (x.2, x.1) := by
  rintro ⟨w, n⟩ hx
  have hget := h.getD w
  rw [(pyMem_iff h.nodup _ _).1 hx, totalOf_eq (· = w) (fun v => decide (v = w)) (by simp), tot_ones] at hget
  have hn : n = (ws.count w : Int) := hget
  obtain ⟨r, hr, e⟩ := (h.key w).1 (List.mem_map.2 ⟨_, hx, rfl⟩)
  have hw : w ∈ ws := by
    unfold oneEach at hr
    obtain ⟨v, hv, rfl⟩ := List.mem_map.1 hr
    exact e ▸ hv
  refine ⟨fun c hc => ?_, ?_, by dsimp only; omega⟩
  · have := hs w hw c hc
    refine ⟨?_, ?_, ?_⟩ <;> rintro rfl
    · rw [hR.tab] at this; cases this
    · rw [hR.lf] at this; cases this
    · rw [hR.cr] at this; cases this
  · dsimp only
    rw [hn]
    exact hR.int _

theorem read_all {P : Python} : ∀ (ds : List (PyDict Int)) (d : PyDict Int), (∀ e ∈ ds, ∀ x ∈ e, RowFits P (x.2, x.1)) →
    countShards P d (ds.map dumpCounts) = .ok ((ds.flatMap fun e => e.map fun x => (x.2, x.1)).foldl countRow d) := by
  intro ds
  induction ds with
  | nil => intros; rfl
  | cons e ds ih =>
    intro d h
    rw [List.map_cons, countShards, read_back e fun x hx => h e (by simp) x hx]
    dsimp only
    rw [ih _ fun e he => h e (by simp [he]), List.flatMap_cons, List.foldl_append]

theorem tot_swap (q : List Char → Bool) (d : PyDict Int) : tot q (d.map fun x => (x.2, x.1)) = sumD q d := by
  induction d with
  | nil => rfl
  | cons x d ih => rw [List.map_cons, tot_cons, sumD_cons, ih]

theorem tot_form {P : Python} (k : List Char) (ws : List (List Char)) :
    tot (hasForm P k) (oneEach ws) = (ws.countP (fun w => canonicalize P w = k) : Int) := by
  induction ws with
  | nil => rfl
  | cons v ws ih =>
    unfold oneEach at ih ⊢
    rw [List.map_cons, tot_cons, ih, List.countP_cons]
    unfold hasForm
    by_cases h : canonicalize P v = k
    · simp [h]; omega
    · simp [h]

/-- A form is spelled like a word that was counted, if words that were not counted at all are not frequent enough. -/
theorem spelling_word {P : Python} {enough : Int → Int → Bool} (he : ∀ n, 0 < n → enough 0 n = false) {rt rb : List CountRow}
    {tw bw : List (List Char)} (ht : ∀ q, tot q rt = tot q (oneEach tw)) (hb : ∀ q, tot q rb = tot q (oneEach bw))
    (kt : ∀ w, (∃ r ∈ rt, r.2 = w) ↔ w ∈ tw) (kb : ∀ w, (∃ r ∈ rb, r.2 = w) ↔ w ∈ bw) {k w : List Char}
    (h : Spelling P enough rt rb k w) : w ∈ tw ++ bw := by
  have count : ∀ {rows : List CountRow} {ws : List (List Char)} (v : List Char), (∀ q, tot q rows = tot q (oneEach ws)) →
      totalOf (· = v) rows = (ws.count v : Int) := by
    intro rows ws v h
    rw [totalOf_eq (· = v) (fun u => decide (u = v)) (by simp), h, tot_ones]
  obtain ⟨v, n, h1, h2⟩ := h
  have hv : v ∈ tw ++ bw ∧ 0 < n := by
    rcases h1 with ⟨⟨a, c, b, e, _, _⟩, hn⟩ | ⟨_, ⟨a, c, b, e, _, _⟩, hn⟩
    · have hm : v ∈ tw := (kt v).1 ⟨(c, v), by rw [e]; simp, rfl⟩
      have := List.count_pos_iff.2 hm
      rw [hn, count v ht]
      exact ⟨List.mem_append_left _ hm, by omega⟩
    · have hm : v ∈ bw := (kb v).1 ⟨(c, v), by rw [e]; simp, rfl⟩
      have := List.count_pos_iff.2 hm
      rw [hn, count v hb]
      exact ⟨List.mem_append_right _ hm, by omega⟩
  rcases h2 with ⟨h2, rfl⟩ | ⟨_, rfl⟩
  · refine Classical.byContradiction fun hn => ?_
    rw [count w ht, count w hb, List.count_eq_zero_of_not_mem (fun hm => hn (List.mem_append_left _ hm)),
      List.count_eq_zero_of_not_mem (fun hm => hn (List.mem_append_right _ hm))] at h2
    have := he n hv.2
    rw [show ((0 : Nat) : Int) + ((0 : Nat) : Int) = 0 from rfl, this] at h2
    cases h2
  · exact hv.1

theorem form_file {P : Python} (hP : PlainAscii P) {enough : Int → Int → Bool} {rt rb rows : List CountRow}
    {ws all : List (List Char)} {text : List Char} (hall : ∀ k w, Spelling P enough rt rb k w → w ∈ all) (hsum : ∀ q, tot q rows = tot q (oneEach ws))
    (hkey : ∀ w, (∃ r ∈ rows, r.2 = w) ↔ w ∈ ws) (hrows : ∀ r ∈ rows, r ∈ rt ++ rb)
    (hdig : ∀ r ∈ rows, ∀ k, Canonical P r.2 k → ∀ c ∈ k, ¬ Digit c)
    (h : MergedFile P (Spelling P enough rt rb) rows text) : FormFile P ws all text := by
  obtain ⟨es, h1, h2, h3, h4⟩ := h
  have hcount : ∀ k, totalOf (fun v => Canonical P v k) rows = (ws.countP (fun w => canonicalize P w = k) : Int) := by
    intro k
    rw [totalOf_eq _ (hasForm P k) fun v => by rw [canonical_iff]; simp [hasForm], hsum, tot_form]
  refine ⟨es, h1, h3, ?_, ?_, fun e he => ?_⟩
  · intro e he
    obtain ⟨k, ⟨r, hr, hk⟩, hs, hn⟩ := (h4 e.1 e.2).1 he
    rw [canonical_iff.1 (spelling_form hP (hdig r hr k hk) hs), hn, hcount]
  · intro k
    constructor
    · rintro ⟨e, he, hek⟩
      obtain ⟨k', ⟨r, hr, hk⟩, hs, hn⟩ := (h4 e.1 e.2).1 he
      have := canonical_iff.1 (spelling_form hP (hdig r hr k' hk) hs)
      refine ⟨r.2, (hkey _).1 ⟨r, hr, rfl⟩, ?_⟩
      rw [canonical_iff.1 hk, ← hek, this]
    · rintro ⟨w, hw, hwk⟩
      obtain ⟨r, hr, rfl⟩ := (hkey w).2 hw
      have hk : Canonical P r.2 k := canonical_iff.2 hwk
      obtain ⟨w, hw⟩ := spelling_exists (enough := enough) (P := P) (rt := rt) (rb := rb) ⟨r, hrows r hr, hk⟩
      exact ⟨(_, w), (h4 _ w).2 ⟨_, ⟨r, hr, hk⟩, hw, rfl⟩, canonical_iff.1 (spelling_form hP (hdig r hr _ hk) hw)⟩
  · obtain ⟨k, _, hs, _⟩ := (h4 e.1 e.2).1 he
    exact hall _ _ hs

/-- From articles to merged files: whatever the articles are, and however they are distributed over files, the files of counted
words are read without an exception, and the two files that result have one line for each canonical form of a word in them,
with the number of times that words of this form occur, and a word that was counted. -/
theorem C74_merged {P : Python} {W : Char → Bool} (hP : PlainAscii P) (hW : WordChars P W) (hR : ReadsBack P)
    {enough : Int → Int → Bool} (he : ∀ n, 0 < n → enough 0 n = false) (shards : List (List Article)) :
    ∃ title body tw bw, wordFrequency P enough (shards.map fun s => (extractWords P W s).1)
        (shards.map fun s => (extractWords P W s).2) = .ok (title, body) ∧
      Extracted P W shards.flatten tw bw ∧
      ((∀ w ∈ tw ++ bw, ∀ k, Canonical P w k → ∀ c ∈ k, ¬ Digit c) → FormFile P tw (tw ++ bw) title ∧ FormFile P bw (tw ++ bw) body) := by
  -- what each file has
  have hshards : ∀ shards : List (List Article), ∃ (dt db : List (PyDict Int)) (tw bw : List (List Char)),
      (shards.map fun s => (extractWords P W s).1) = dt.map dumpCounts ∧
      (shards.map fun s => (extractWords P W s).2) = db.map dumpCounts ∧ Extracted P W shards.flatten tw bw ∧
      (∀ e ∈ dt, ∀ x ∈ e, RowFits P (x.2, x.1)) ∧ (∀ e ∈ db, ∀ x ∈ e, RowFits P (x.2, x.1)) ∧
      (∀ q, tot q (dt.flatMap fun e => e.map fun x => (x.2, x.1)) = tot q (oneEach tw)) ∧
      (∀ q, tot q (db.flatMap fun e => e.map fun x => (x.2, x.1)) = tot q (oneEach bw)) ∧
      (∀ w, (∃ r ∈ dt.flatMap fun e => e.map fun x => ((x.2, x.1) : CountRow), r.2 = w) ↔ w ∈ tw) ∧
      (∀ w, (∃ r ∈ db.flatMap fun e => e.map fun x => ((x.2, x.1) : CountRow), r.2 = w) ↔ w ∈ bw) := by
    intro shards
    induction shards with
    | nil =>
      exact ⟨[], [], [], [], rfl, rfl, .nil, by simp, by simp, fun _ => rfl, fun _ => rfl, by simp, by simp⟩
    | cons s shards ih =>
      obtain ⟨dt, db, tw, bw, a1, a2, a3, a4, a5, a6, a7, a8, a9⟩ := ih
      obtain ⟨tw', bw', b1, b2, b3⟩ := extract_spec hW hR.lf s (st := ([], [])) (t0 := []) (b0 := []) counts_nil counts_nil
      rw [List.nil_append] at b2 b3
      have hsp := extracted_space b1
      have keys : ∀ {ws : List (List Char)} {d : PyDict Int}, RightCounts (oneEach ws) d → ∀ w, w ∈ d.map (·.1) ↔ w ∈ ws := by
        intro ws d h w
        rw [h.key]
        unfold oneEach
        simp
      have keys' : ∀ {ws vs : List (List Char)} {d : PyDict Int} {rs : List CountRow}, RightCounts (oneEach ws) d →
          (∀ w, (∃ r ∈ rs, r.2 = w) ↔ w ∈ vs) →
          ∀ w, (∃ r ∈ (d.map fun x => ((x.2, x.1) : CountRow)) ++ rs, r.2 = w) ↔ w ∈ ws ++ vs := by
        intro ws vs d rs h hr w
        rw [List.mem_append, ← keys h, ← hr w]
        constructor
        · rintro ⟨r, hm, rfl⟩
          rcases List.mem_append.1 hm with hm | hm
          · obtain ⟨x, hx, rfl⟩ := List.mem_map.1 hm
            exact .inl (List.mem_map.2 ⟨x, hx, rfl⟩)
          · exact .inr ⟨r, hm, rfl⟩
        · rintro (hm | ⟨r, hm, rfl⟩)
          · obtain ⟨x, hx, rfl⟩ := List.mem_map.1 hm
            exact ⟨_, List.mem_append_left _ (List.mem_map.2 ⟨x, hx, rfl⟩), rfl⟩
          · exact ⟨r, List.mem_append_right _ hm, rfl⟩
      have totals : ∀ {ws vs : List (List Char)} {d : PyDict Int} {rs : List CountRow}, RightCounts (oneEach ws) d →
          (∀ q, tot q rs = tot q (oneEach vs)) → ∀ q, tot q ((d.map fun x => (x.2, x.1)) ++ rs) = tot q (oneEach (ws ++ vs)) := by
        intro ws vs d rs h hr q
        rw [tot_append, tot_swap, h.sum, hr]
        unfold oneEach
        rw [List.map_append, tot_append]
      refine ⟨_ :: dt, _ :: db, tw' ++ tw, bw' ++ bw, by rw [List.map_cons, a1]; rfl, by rw [List.map_cons, a2]; rfl, ?_, ?_, ?_,
        ?_, ?_, ?_, ?_⟩
      · exact extracted_append b1 a3
      · intro e he
        rcases List.mem_cons.1 he with rfl | he
        · exact plain_rows hR (fun w hw => hsp w (by simp [hw])) b2
        · exact a4 e he
      · intro e he
        rcases List.mem_cons.1 he with rfl | he
        · exact plain_rows hR (fun w hw => hsp w (by simp [hw])) b3
        · exact a5 e he
      · rw [List.flatMap_cons]; exact totals b2 a6
      · rw [List.flatMap_cons]; exact totals b3 a7
      · rw [List.flatMap_cons]; exact keys' b2 a8
      · rw [List.flatMap_cons]; exact keys' b3 a9
  obtain ⟨dt, db, tw, bw, a1, a2, a3, a4, a5, a6, a7, a8, a9⟩ := hshards shards
  have ht := counts_rows counts_nil (dt.flatMap fun e => e.map fun x => ((x.2, x.1) : CountRow))
  have hb := counts_rows counts_nil (db.flatMap fun e => e.map fun x => ((x.2, x.1) : CountRow))
  rw [List.nil_append] at ht hb
  obtain ⟨t, b, h1, h2⟩ := wordFrequency_run (enough := enough) hP (read_all dt [] a4) (read_all db [] a5) ht hb
  refine ⟨t, b, tw, bw, by rw [a1, a2]; exact h1, a3, fun hdig => ?_⟩
  have dt' : ∀ r ∈ dt.flatMap (fun e => e.map fun x => ((x.2, x.1) : CountRow)), ∀ k, Canonical P r.2 k → ∀ c ∈ k, ¬ Digit c :=
    fun r hr => hdig r.2 (List.mem_append_left _ ((a8 _).1 ⟨r, hr, rfl⟩))
  have db' : ∀ r ∈ db.flatMap (fun e => e.map fun x => ((x.2, x.1) : CountRow)), ∀ k, Canonical P r.2 k → ∀ c ∈ k, ¬ Digit c :=
    fun r hr => hdig r.2 (List.mem_append_right _ ((a9 _).1 ⟨r, hr, rfl⟩))
  obtain ⟨m1, m2⟩ := h2 (fun r hr => by
    rcases List.mem_append.1 hr with hr | hr
    · exact dt' r hr
    · exact db' r hr)
  have hall : ∀ k w, Spelling P enough (dt.flatMap fun e => e.map fun x => (x.2, x.1)) (db.flatMap fun e => e.map fun x => (x.2, x.1)) k w →
      w ∈ tw ++ bw := fun k w h => spelling_word he a6 a7 a8 a9 h
  exact ⟨form_file hP hall a6 a8 (fun r hr => List.mem_append_left _ hr) dt' m1,
    form_file hP hall a7 a9 (fun r hr => List.mem_append_right _ hr) db' m2⟩

/-! ### Examples -/

/-- `\w`, for plain text. -/
def plainSign (c : Char) : Bool := c.isAlphanum || c == '_'

theorem plain_chars : WordChars plainPython plainSign := by
  refine ⟨fun c h => ?_, by decide, fun c h => ?_⟩
  · unfold plainSign Char.isAlphanum
    rw [h]; rfl
  · have h : c.isWhitespace = true := h
    unfold Char.isWhitespace at h
    simp only [Bool.or_eq_true, decide_eq_true_eq] at h
    rcases h with ((h | h) | h) | h <;> rw [h] <;> decide

theorem plain_reads : ReadsBack plainPython := by
  refine ⟨by decide, by decide, by decide, fun c h => ?_, fun n => ?_⟩
  · cases hs : plainPython.space c with
    | false => rfl
    | true =>
      have hs : c.isWhitespace = true := hs
      unfold Char.isWhitespace at hs
      simp only [Bool.or_eq_true, decide_eq_true_eq] at hs
      rcases hs with ((hs | hs) | hs) | hs <;> rw [hs] at h <;> exact absurd h (by decide)
  show (if !(digits n).isEmpty && (digits n).all Char.isDigit then some ((decimal (digits n) : Nat) : Int) else none) = some (n : Int)
  rw [decimal_digits, if_pos]
  rw [Bool.and_eq_true]
  refine ⟨?_, List.all_eq_true.2 (digits_digit n)⟩
  cases h : digits n with
  | nil =>
    have h1 : decimal (digits n) = n := decimal_digits n
    have h2 : decimal (digits 0) = 0 := decimal_digits 0
    have := Nat.toDigits_ne_nil (n := n) (b := 10)
    rw [digits_eq] at h
    exact absurd h this
  | cons _ _ => rfl

/-- An article: a title with a sign, and a body with several kinds of words, of which the rest is cut off. -/
def sampleArticle : Article :=
  (some "The cat (Cat)".toList,
   some "\"Don't\" www.x.de a_b 12 {b}2 x:y cat, cat. Retrieved 2020 Retrieved cat Retrieved cat".toList)

/-- Not trivial: this article, and one without a body. -/
theorem C74_sample : extractWords plainPython plainSign [sampleArticle, (some "cat".toList, none)] =
    ("1\tThe\n1\tcat\n1\tCat\n".toList, "1\tDon't\n6\t\n2\tcat\n1\tRetrieved\n".toList) := by decide +kernel

/-- Words that were not counted are not frequent. -/
example : ∀ n, 0 < n → hundredth 0 n = false := by
  intro n h
  simp [hundredth]
  omega

/-- And what is made of these files. -/
example : wordFrequency plainPython hundredth ["1\tThe\n1\tcat\n1\tCat\n".toList]
    ["1\tDon't\n6\t\n2\tcat\n1\tRetrieved\n".toList] =
    .ok ("1\tThe\n2\tcat\n".toList, "1\tDon't\n6\t\n2\tcat\n1\tRetrieved\n".toList) := by decide +kernel

/-- The forms of these words have no digits. -/
example : ∀ w ∈ ["The".toList, "cat".toList, "Cat".toList, "Don't".toList, [], "Retrieved".toList],
    ∀ k, Canonical plainPython w k → ∀ c ∈ k, ¬ Digit c := by
  intro w hw k hk
  rw [← canonical_iff.1 hk]
  have : ∀ w ∈ ["The".toList, "cat".toList, "Cat".toList, "Don't".toList, [], "Retrieved".toList],
    (canonicalize plainPython w).all (fun c => !(decide ('0' ≤ c) && decide (c ≤ '9'))) = true := by decide +kernel
  intro c hc hd
  have := List.all_eq_true.1 (this w hw) c hc
  unfold Digit at hd
  simp [hd.1, hd.2] at this

/-- A dash. -/
example : stripWord plainSign "north–south".toList = [] ∧ stripWord plainSign "north-south".toList = "north-south".toList ∧
    stripWord plainSign "–south".toList = "south".toList := by decide +kernel

end Noodle
