import Verif.Props.C18
/-
C24: no result twice. C47: the order of the results. C48: more expressions, other orders of expressions. C49: other word lists.
-/
namespace Noodle
open Spec List
set_option autoImplicit false

/-! ### C47 -/

private theorem sorted_rarity {wl : List Word} (h : TrSorted wl) {i j : Nat} (hij : i ≤ j) (hj : j < wl.length) :
    rarity wl [i] ≤ rarity wl [j] := by
  rw [rarity_eq wl [i] (by simpa using by omega), rarity_eq wl [j] (by simpa using hj)]
  have := h.trAt hij hj
  simpa [maxTr] using this

private theorem singles_positions {es : List Expr} {wl : List Word} (hs : TrSorted wl) :
    ∃ ps : List (List Nat), found es wl 1 = ps.map (phraseAt wl) ∧
      (∀ p ∈ ps, p.length = 1 ∧ ∀ i ∈ p, i < wl.length) ∧ ps.Nodup ∧ ps.Pairwise fun p p' => ¬ Due wl p' p := by
  classical
  let keep : Nat → Bool := fun i => decide (MatchesAll es (phraseAt wl [i]))
  refine ⟨((List.range wl.length).filter keep).map fun i => [i], ?_, ?_, ?_, ?_⟩
  · unfold found
    have h1 : phrases wl 1 = (List.range wl.length).map fun i => phraseAt wl [i] := by
      rw [phrases_one]
      apply List.ext_getElem
      · simp
      · intro i h1 h2
        simp at h1
        simp [phraseAt, List.getElem?_eq_getElem h1]
    rw [h1, List.filter_map, List.map_map]
    rfl
  · intro p hp
    obtain ⟨i, hi, rfl⟩ := List.mem_map.1 hp
    have := List.mem_range.1 (List.mem_filter.1 hi).1
    exact ⟨rfl, by simpa using this⟩
  · exact (List.nodup_range.filter _).map fun a b hab => by simpa using hab
  · rw [List.pairwise_map]
    refine List.Pairwise.imp_of_mem ?_ ((List.pairwise_lt_range (n := wl.length)).filter _)
    rintro i j hi hj hij (⟨_, h⟩ | ⟨_, h1, h2⟩)
    · simp at h
    · have hj' := List.mem_range.1 (List.mem_filter.1 hj).1
      have := sorted_rarity hs (Nat.le_of_lt hij) hj'
      rcases h2 with h2 | h2 | h2
      · simp at h2
      · omega
      · rw [List.cons_lt_cons_iff] at h2
        rcases h2 with h2 | ⟨_, h2⟩
        · omega
        · simp at h2

private theorem positions {es : List Expr} {wl : List Word} (h : Ready es wl) {depth : Nat}
    {limit : Option Nat} {clks : List Clock} {rs : List Resp} (hs : Session es wl depth limit clks rs) :
    ∃ ps : List (List Nat), reported rs = ps.map (phraseAt wl) ∧ (∀ p ∈ ps, p ≠ [] ∧ ∀ i ∈ p, i < wl.length) ∧
      ps.Nodup ∧ (depth < 2 ^ 32 → ps.Pairwise fun p q => ¬ Due wl q p) := by
  obtain ⟨L, g, n, _, _, _, _, hord, _, h6⟩ := history h.nonempty h.wf h.sorted depth
  obtain ⟨ps2, e2, r2, n2, o2⟩ := hord
  obtain ⟨ps1, e1, r1, n1, o1⟩ := singles_positions (es := es) h.sorted
  obtain ⟨q, q', s1, s2⟩ := hs
  obtain ⟨p, p1, p2, p3, _, p5⟩ := h6 limit
  obtain rfl : p = q := Except.ok.inj (p1.symm.trans s1)
  obtain ⟨p', rs', t1, t2⟩ := p5 clks
  obtain rfl : rs' = rs := congrArg Prod.snd (Except.ok.inj (t1.symm.trans s2))
  have hsub : reported rs' <+ (ps1 ++ ps2).map (phraseAt wl) := by
    rw [List.map_append, ← e1, ← e2]
    refine t2.pre.sublist.trans ?_
    rw [p3]
    cases p.resultsLimit with
    | none => exact List.Sublist.refl _
    | some l => exact List.take_sublist _ _
  obtain ⟨ps, h1, h2⟩ := List.sublist_map_iff.1 hsub
  refine ⟨ps, h2, ?_, ?_, fun hd => ?_⟩
  · intro x hx
    rcases List.mem_append.1 (h1.subset hx) with hx | hx
    · obtain ⟨a, b⟩ := r1 x hx
      exact ⟨by rintro rfl; simp at a, b⟩
    · obtain ⟨a, b⟩ := r2 x hx
      exact ⟨by rintro rfl; simp at a, b⟩
  · refine List.Nodup.sublist h1 ?_
    rw [List.nodup_append]
    refine ⟨n1, n2, ?_⟩
    rintro a ha b hb rfl
    have k1 := (r1 a ha).1
    have k2 := (r2 a hb).1
    omega
  · refine List.Pairwise.sublist h1 ?_
    rw [List.pairwise_append]
    refine ⟨o1, o2 hd, ?_⟩
    intro a ha b hb
    have k1 := (r1 a ha).1
    have k2 := (r2 b hb).1
    rintro (⟨k3, _⟩ | ⟨k3, _⟩) <;> omega

/-- C24: the matches are phrases at certain positions of the word list, and no sequence of positions comes twice. -/
theorem C24_positions {es : List Expr} {wl : List Word} (h : Ready es wl) {depth : Nat}
    {limit : Option Nat} {clks : List Clock} {rs : List Resp} (hs : Session es wl depth limit clks rs) :
    ∃ ps : List (List Nat), reported rs = ps.map (phraseAt wl) ∧ (∀ p ∈ ps, p ≠ [] ∧ ∀ i ∈ p, i < wl.length) ∧
      ps.Nodup := by
  obtain ⟨ps, h1, h2, h3, _⟩ := positions h hs
  exact ⟨ps, h1, h2, h3⟩

/-- C24: so, for lists with repeated entries, a phrase is reported at most once per sequence of list entries that
spells it. -/
theorem C24_count {es : List Expr} {wl : List Word} (h : Ready es wl) {depth : Nat}
    {limit : Option Nat} {clks : List Clock} {rs : List Resp} (hs : Session es wl depth limit clks rs) (ws : List Word) :
    (reported rs).count ws ≤ (phrases wl ws.length).count ws := by
  obtain ⟨ps, h1, h2, h3⟩ := C24_positions h hs
  have htw : (tups wl.length ws.length []).map (phraseAt wl) = phrases wl ws.length := by
    have := tups_words wl ws.length []
    show (tups wl.length ws.length []).map (wordsOf wl) = _
    rw [this]; simp [wordsOf]
  rw [h1, ← htw, List.count_eq_countP, List.count_eq_countP, List.countP_map, List.countP_map,
    List.countP_eq_length_filter, List.countP_eq_length_filter]
  refine (List.subperm_of_subset (h3.filter _) ?_).length_le
  intro p hp
  obtain ⟨hp1, hp2⟩ := List.mem_filter.1 hp
  refine List.mem_filter.2 ⟨?_, hp2⟩
  have hl : (phraseAt wl p).length = p.length := wordsOf_length wl p (h2 p hp1).2
  have he : phraseAt wl p = ws := by simpa using hp2
  rw [he] at hl
  exact (mem_tups _ _ _ _).2 ⟨p, hl.symm, (h2 p hp1).2, by simp⟩

/-- C47: the matches are reported in the documented order: they are phrases at certain positions of the word list,
and no phrase comes after one that it should precede (`Due`): single words first, in list order; then of two
phrases the one that is no longer and no rarer, and among equally long and equally rare phrases in list order. -/
theorem C47_order {es : List Expr} {wl : List Word} (h : Ready es wl) {depth : Nat} (hd : depth < 2 ^ 32)
    {limit : Option Nat} {clks : List Clock} {rs : List Resp} (hs : Session es wl depth limit clks rs) :
    ∃ ps : List (List Nat), reported rs = ps.map (phraseAt wl) ∧ (∀ p ∈ ps, p ≠ [] ∧ ∀ i ∈ p, i < wl.length) ∧
      ps.Pairwise fun p q => ¬ Due wl q p := by
  obtain ⟨ps, h1, h2, _, h3⟩ := positions h hs
  exact ⟨ps, h1, h2, h3 hd⟩

/-- C25 (partial: the full claim is false, see `C25_counterexample`): a completed session without a limit (unless it gave
up optimising several expressions) reports all matching words and then all matching longer phrases, once per sequence of
list entries and in the documented order, the only possible exception being the very last phrase, which then is the same
word repeated. -/
theorem C25_order_partial {es : List Expr} {wl : List Word} (h : Ready es wl) {depth : Nat} {clks : List Clock}
    {rs : List Resp} (hs : Session es wl depth none clks rs) (hc : Completed rs) (hg : ¬ Unsettled es rs) :
    ∃ ps : List (List Nat), ps.map (phraseAt wl) ~ longer es wl depth ∧
      (∀ p ∈ ps, 2 ≤ p.length ∧ ∀ i ∈ p, i < wl.length) ∧ ps.Nodup ∧
      (depth < 2 ^ 32 → ps.Pairwise fun p q => ¬ Due wl q p) ∧
      (reported rs = singles es wl ++ ps.map (phraseAt wl) ∨
        ∃ d w, reported rs ++ [List.replicate d w] = singles es wl ++ ps.map (phraseAt wl)) := by
  obtain ⟨L, g, n, _, _, _, _, _, hw, h6⟩ := history h.nonempty h.wf h.sorted depth
  obtain ⟨q, q', s1, s2⟩ := hs
  obtain ⟨p, p1, p2, p3, p4, p5⟩ := h6 none
  obtain rfl : p = q := Except.ok.inj (p1.symm.trans s1)
  obtain ⟨p', rs', t1, H⟩ := p5 clks
  obtain rfl : rs' = rs := congrArg Prod.snd (Except.ok.inj (t1.symm.trans s2))
  have hgf : g = false ∨ es.length = 1 := by
    rcases H.quiet p4 hc p2 with hx | hx
    · cases g with
      | false => exact Or.inl rfl
      | true => exact Or.inr (one_of_settled h.nonempty hg hx)
    · exact Or.inl hx
  have hR : reported rs' = singles es wl ++ L := by
    rw [reported_eq, H.complete hc, p2, ← singles_eq]; rfl
  obtain ⟨ps, k1, k2, k3, k4, k5⟩ := hw hgf
  refine ⟨ps, k1, k2, k3, k4, ?_⟩
  rcases k5 with k5 | ⟨d, w, k5⟩
  · left; rw [hR, k5]
  · right; exact ⟨d, w, by rw [hR, k5]; simp⟩

/-- C47: in a word list of one tranche (such as a word list in the query) the results come by length. -/
theorem C47_lengths {es : List Expr} {wl : List Word} (h : Ready es wl) (h1 : ∀ w ∈ wl, ∀ w' ∈ wl, w.tranche = w'.tranche)
    {depth : Nat} (hd : depth < 2 ^ 32)
    {limit : Option Nat} {clks : List Clock} {rs : List Resp} (hs : Session es wl depth limit clks rs) :
    (reported rs).Pairwise fun a b => a.length ≤ b.length := by
  obtain ⟨ps, e, r, o⟩ := C47_order h hd hs
  rw [e, List.pairwise_map]
  refine List.Pairwise.imp_of_mem ?_ o
  intro p q hp hq hpq
  obtain ⟨p1, p2⟩ := r p hp
  obtain ⟨q1, q2⟩ := r q hq
  have len : ∀ x : List Nat, (∀ i ∈ x, i < wl.length) → (phraseAt wl x).length = x.length := fun x hx => wordsOf_length wl x hx
  rw [len p p2, len q q2]
  by_contra hlt
  refine hpq (Or.inr ⟨by omega, ?_, Or.inl (by omega)⟩)
  rw [rarity_eq wl p p2, rarity_eq wl q q2]
  obtain ⟨i, hi, hit⟩ := maxTr_mem wl p p1
  obtain ⟨j, hj, hjt⟩ := maxTr_mem wl q q1
  rw [← hit, ← hjt]
  have hil := p2 i hi
  have hjl := q2 j hj
  simp only [trAt, List.getElem?_eq_getElem hil, List.getElem?_eq_getElem hjl, Option.map_some, Option.getD_some]
  exact Nat.le_of_eq (h1 _ (List.getElem_mem _) _ (List.getElem_mem _))

/-! ### C48 -/

/-- C48: which words are found does not depend on the order or the repetition of the expressions. -/
theorem C48_words {es es' : List Expr} {wl : List Word} (h : Ready es wl) (h' : Ready es' wl)
    (hes : ∀ e, e ∈ es ↔ e ∈ es') {depth depth' : Nat} {clks clks' : List Clock} {rs rs' : List Resp}
    (hs : Session es wl depth none clks rs) (hc : Completed rs)
    (hs' : Session es' wl depth' none clks' rs') (hc' : Completed rs') :
    (reported rs).filter (fun ws => ws.length == 1) = (reported rs').filter (fun ws => ws.length == 1) := by
  classical
  rw [C19_singles h hs hc, C19_singles h' hs' hc']
  unfold singles
  congr 1
  apply List.filter_congr
  intro w _
  exact decide_eq_decide.2 ⟨fun k e he => k e ((hes e).2 he), fun k e he => k e ((hes e).1 he)⟩

/-- C48: a further expression only removes words, and keeps the order of the others. -/
theorem C48_narrows {es es' : List Expr} {wl : List Word} (h : Ready es wl) (h' : Ready es' wl)
    (hes : ∀ e ∈ es, e ∈ es') {depth depth' : Nat} {clks clks' : List Clock} {rs rs' : List Resp}
    (hs : Session es wl depth none clks rs) (hc : Completed rs)
    (hs' : Session es' wl depth' none clks' rs') (hc' : Completed rs') :
    (reported rs').filter (fun ws => ws.length == 1) <+ (reported rs).filter (fun ws => ws.length == 1) := by
  classical
  rw [C19_singles h hs hc, C19_singles h' hs' hc']
  unfold singles
  apply List.Sublist.map
  apply List.monotone_filter_right
  intro w hw
  simp only [decide_eq_true_eq] at hw ⊢
  exact fun e he => hw e (hes e he)

/-- C48: a further expression only removes phrases, up to the phrase of one repeated word that a search may lose
(C25). -/
theorem C48_phrases_partial {es es' : List Expr} {wl : List Word} (h : Ready es wl) (h' : Ready es' wl)
    (hes : ∀ e ∈ es, e ∈ es') {depth depth' : Nat} (hd : depth' ≤ depth) {limit : Option Nat} {clks clks' : List Clock}
    {rs rs' : List Resp}
    (hs : Session es wl depth none clks rs) (hc : Completed rs) (hg : ¬ Unsettled es rs)
    (hs' : Session es' wl depth' limit clks' rs') (hg' : ¬ Unsettled es' rs') :
    ∃ d w, 2 ≤ d ∧ ∀ ws ∈ reported rs', ws ≠ List.replicate d w → ws ∈ reported rs := by
  have key : ∀ ws ∈ reported rs', Answer es wl depth ws := by
    intro ws hws
    obtain ⟨a, b, c, e⟩ := C23_sound_partial h' hs' hg' ws hws
    exact ⟨a, by omega, c, fun x hx => e x (hes x hx)⟩
  rcases C25_partial h hs hc hg with hx | ⟨d, w, hd, hx⟩
  · exact ⟨2, exA, by omega, fun ws hws _ => hx ws (key ws hws)⟩
  · exact ⟨d, w, hd, fun ws hws hne => hx ws (key ws hws) hne⟩

/-! ### C49 -/

/-- C49: whether a word is found does not depend on the other words of the list. -/
theorem C49_words {es : List Expr} {wl wl' : List Word} (h : Ready es wl) (h' : Ready es wl')
    {depth depth' : Nat} {clks clks' : List Clock} {rs rs' : List Resp}
    (hs : Session es wl depth none clks rs) (hc : Completed rs)
    (hs' : Session es wl' depth' none clks' rs') (hc' : Completed rs') (w : Word) (hw : w ∈ wl) (hw' : w ∈ wl') :
    [w] ∈ reported rs ↔ [w] ∈ reported rs' := by
  rw [C19_iff h hs hc, C19_iff h' hs' hc']
  simp [hw, hw']

/-- C49: words added to the list only add results; those already found come in the same order. -/
theorem C49_grows {es : List Expr} {wl wl' : List Word} (h : Ready es wl) (h' : Ready es wl') (hsub : wl <+ wl')
    {depth depth' : Nat} {clks clks' : List Clock} {rs rs' : List Resp}
    (hs : Session es wl depth none clks rs) (hc : Completed rs)
    (hs' : Session es wl' depth' none clks' rs') (hc' : Completed rs') :
    (reported rs).filter (fun ws => ws.length == 1) <+ (reported rs').filter (fun ws => ws.length == 1) := by
  rw [C19_singles h hs hc, C19_singles h' hs' hc']
  unfold singles
  exact (hsub.filter _).map _

/-- C49: the same for phrases, up to the phrase of one repeated word that a search may lose (C25). -/
theorem C49_phrases_partial {es : List Expr} {wl wl' : List Word} (h : Ready es wl) (h' : Ready es wl')
    (hsub : ∀ w ∈ wl, w ∈ wl') {depth depth' : Nat} (hd : depth ≤ depth') {limit : Option Nat} {clks clks' : List Clock}
    {rs rs' : List Resp} (hs : Session es wl depth limit clks rs) (hg : ¬ Unsettled es rs)
    (hs' : Session es wl' depth' none clks' rs') (hc' : Completed rs') (hg' : ¬ Unsettled es rs') :
    ∃ d w, 2 ≤ d ∧ ∀ ws ∈ reported rs, ws ≠ List.replicate d w → ws ∈ reported rs' := by
  have key : ∀ ws ∈ reported rs, Answer es wl' depth' ws := by
    intro ws hws
    obtain ⟨a, b, c, e⟩ := C23_sound_partial h hs hg ws hws
    exact ⟨a, by omega, fun w hw => hsub w (c w hw), e⟩
  rcases C25_partial h' hs' hc' hg' with hx | ⟨d, w, hd, hx⟩
  · exact ⟨2, exA, by omega, fun ws hws _ => hx ws (key ws hws)⟩
  · exact ⟨d, w, hd, fun ws hws hne => hx ws (key ws hws) hne⟩

/-! ### Concrete cases -/

/-- The automaton the compiler produces for the query line `..`. -/
def exDots : Expr :=
  { states := [⟨1, CharSet.letters, 1⟩, ⟨2, CharSet.letters, 2⟩, ⟨4, CharSet.ofCh 27, 2⟩]
    ignWB := true, ignPunct := true, fuzz := 0 }

def exC : Word := ⟨1, [2, 27], "c", 3⟩

theorem exDots_wf : WF exDots := wf_of_check (by decide) (by decide) (by decide) (by decide)

/-- Two tranches: phrases of common words come before phrases with a rare word. The hypotheses of C47 and of
`C25_order_partial` are met; the very last phrase, `c c`, is the one that is lost. -/
example : Ready [exDots] [exA, exB, exC] := ⟨by simp, by simpa using exDots_wf, by simp [exA, exB, exC]⟩
example : Session [exDots] [exA, exB, exC] 10 none (List.replicate 10 none)
    [.logs false, .matched [exA, exA], .matched [exA, exB], .matched [exB, exA], .matched [exB, exB],
      .matched [exA, exC], .matched [exB, exC], .matched [exC, exA], .matched [exC, exB], .complete] :=
  session_of_run (by decide +kernel)
/-- `b b` has to come before `a c`, and `a c` before `c a`. -/
example : Due [exA, exB, exC] [1, 1] [0, 2] ∧ Due [exA, exB, exC] [0, 2] [2, 0] ∧ ¬ Due [exA, exB, exC] [0, 2] [1, 1] := by
  unfold Due
  decide

/-- A further expression: the hypotheses of C48 are met by `..` and by `..`, `ab`. -/
example : Session [exAB, exDots] [exA, exB] 2 none [none, none, none]
    [.logs false, .matched [exA, exB], .complete] := session_of_run (by decide +kernel)
example : Ready [exAB, exDots] [exA, exB] := ⟨by simp, by simpa using ⟨exAB_wf, exDots_wf⟩, by simp [exA, exB]⟩
/-- A longer word list: the hypotheses of C49. -/
example : ([exA] : List Word) <+ [exA, exB] ∧ Ready [exDots] [exA, exB] :=
  ⟨by simp, by simp, by simpa using exDots_wf, by simp [exA, exB]⟩
example : Session [exDots] [exA, exB] 2 none (List.replicate 5 none)
    [.logs false, .matched [exA, exA], .matched [exA, exB], .matched [exB, exA], .complete] :=
  session_of_run (by decide +kernel)

end Noodle
