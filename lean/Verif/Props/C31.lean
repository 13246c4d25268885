import Verif.Proofs.Expand
import Verif.Props.C07
/-
C31, C32: anagram blocks. `expandExpressions` is the model of the rewriting of anagram blocks; `Anagrams` and `Lang`
(`Verif/Spec/Lang.lean`) say what a block stands for.
-/
namespace Noodle
open Spec Witness
set_option autoImplicit false

/-! ### C32 -/

/-- In every block that may add letters (`<bank+>`, `<bank+n>`), the bank holds letters only. -/
def LetterBanks (a : Ast) : Prop := ∀ p ∈ blocks a, p.1.adds = true → ∀ c ∈ p.2, c.val < 26

/-- C32: rewriting the anagram blocks of a list of expressions succeeds, keeps the options, and loses no string: what
an expression stands for, each of the expressions it is replaced with stands for, too. -/
theorem C32_no_loss (as : List ExprAst) : ∃ ex, expandExpressions as = .ok ex ∧
    ∀ e' ∈ ex, ∃ e ∈ as, e'.options = e.options ∧ (LetterBanks e.root → ∀ u, Denotes e.root u → Denotes e'.root u) := by
  refine ⟨_, expandExpressions_eq as, fun e' he' => ?_⟩
  obtain ⟨e, he, i, -, rfl⟩ := (mem_expand (expandExpressions_eq as)).1 he'
  refine ⟨e, he, rfl, fun hb u => ?_⟩
  rintro ⟨v, n, hv, rfl⟩
  exact ⟨v, n, lang_subst _ (fun p hp w hw => lang_replacement (fun ha => hb p hp ha) hw i) v hv, rfl⟩

/-- C32, end to end: if the rewritten expressions are in the fragment, a completed run reports every word of the list
that all the original expressions stand for up to the edits they allow (here without a limit). -/
theorem C32_words_partial {as : List ExprAst} (hne : as ≠ []) (hb : ∀ a ∈ as, LetterBanks a.root) {ex : List ExprAst}
    (hex : expandExpressions as = .ok ex)
    (ht : ∀ a ∈ ex, tame a.root = true ∧ states a.root < 16384) {wl : List Word}
    (hw : wl.Pairwise fun a b => a.tranche ≤ b.tranche) :
    ∃ es, ex.mapM fromAst = .ok es ∧ ∀ {depth : Nat} {clks : List Clock} {rs : List Resp},
      Session es wl depth none clks rs → Completed rs → ∀ w ∈ wl,
        (∀ a ∈ as, Near a w.chars) → [w] ∈ reported rs := by
  have hne' : ex ≠ [] := by
    cases as with
    | nil => exact absurd rfl hne
    | cons a as =>
      intro h0
      have : ∃ x, x ∈ ex := ⟨_, (mem_expand hex).2 ⟨a, by simp, 0, by omega, rfl⟩⟩
      rw [h0] at this
      simp at this
  obtain ⟨es, hes, hm⟩ := C07_words_partial hne' ht hw
  refine ⟨es, hes, fun hs hc w hwl h => (hm hs hc w).2 ⟨hwl, fun e' he' => ?_⟩⟩
  obtain ⟨ex', hex', hloss⟩ := C32_no_loss as
  rw [hex] at hex'; cases hex'
  obtain ⟨e, he, ho, hl⟩ := hloss e' he'
  obtain ⟨u, k, k1, k2, k3⟩ := h e he
  exact ⟨u, k, hl (hb e he) _ k1, by rw [ho]; exact k2, by rw [ho]; exact k3⟩

/-- Its hypotheses hold of the query `.?<cab>.*`. -/
example : ∃ ex, expandExpressions [expr (.seq [opt (.cls CharSet.letters), .anagram .standard [2, 0, 1], star (.cls CharSet.letters)])] = .ok ex ∧
    ∀ a ∈ ex, tame a.root = true ∧ states a.root < 16384 := by
  have : ∀ as : List ExprAst, (∀ x, expandExpressions as ≠ .error x) ∧ (match expandExpressions as with
      | .ok ex => ex.all fun a => tame a.root && decide (states a.root < 16384)
      | .error _ => false) = true → ∃ ex, expandExpressions as = .ok ex ∧
        ∀ a ∈ ex, tame a.root = true ∧ states a.root < 16384 := by
    intro as
    generalize expandExpressions as = r
    cases r with
    | error x => rintro ⟨h, _⟩; exact absurd rfl (h x)
    | ok ex =>
      rintro ⟨_, h⟩
      refine ⟨ex, rfl, fun a ha => ?_⟩
      have := List.all_eq_true.1 h a ha
      simpa [and_assoc] using this
  refine this _ ⟨?_, by decide +kernel⟩
  intro x
  rw [expandExpressions_eq]
  simp

/-- C32's condition on the banks is needed: `<a b+>` stands for `a_b`, but is replaced by expressions that do not all
stand for it (the length constraint allows letters only). -/
theorem C32_counterexample : ∃ ex, expandExpressions [expr (.seq [.anagram .super [0, 27, 1]])] = .ok ex ∧
    Denotes (.seq [.anagram .super [0, 27, 1]]) [0, 27, 1] ∧ ∃ e' ∈ ex, ¬ Denotes e'.root [0, 27, 1] := by
  refine ⟨_, expandExpressions_eq _, denotes_of (lang_seq_one.2 (.anagram ⟨[], by simp, by simp⟩)), ?_⟩
  refine ⟨_, (mem_expand (expandExpressions_eq _)).2 ⟨_, List.mem_singleton.2 rfl, 3, by decide +kernel, rfl⟩, ?_⟩
  rintro ⟨v, n, h1, h2⟩
  have h1 : Lang (.seq [astForAnagram .super (histogram [0, 27, 1]) 3]) v := h1
  rw [lang_seq_one, ast_of_ge (by decide +kernel), histogram_sum, lang_length] at h1
  obtain ⟨h3, h4⟩ := h1
  have h2' := congrArg List.length h2
  simp only [List.length_append, List.length_replicate, List.length_cons, List.length_nil] at h2' h3
  have hn : n = 0 := by omega
  subst hn
  rw [List.replicate_zero, List.append_nil] at h2
  have := h4 27 (by rw [← h2]; simp)
  exact absurd this (by decide)

/-! ### C31 -/

/-- The terms match strings of one length only, without word ends. -/
def Fixed (l : List Ast) : Prop := ∃ n, ∀ u, Lang (.seq l) u → u.length = n ∧ Ch.wordEnd ∉ u

theorem lang_around {pre post : List Ast} {t : Ast} {v : List Ch} : Lang (.seq (pre ++ t :: post)) v ↔
    ∃ p u q, v = p ++ u ++ q ∧ Lang (.seq pre) p ∧ Lang t u ∧ Lang (.seq post) q := by
  induction pre generalizing v with
  | nil =>
    rw [List.nil_append, lang_seq_cons]
    constructor
    · rintro ⟨u, q, rfl, h1, h2⟩; exact ⟨[], u, q, rfl, .seqNil, h1, h2⟩
    · rintro ⟨p, u, q, rfl, h1, h2, h3⟩
      rw [lang_seq_nil] at h1
      subst h1; exact ⟨u, q, rfl, h2, h3⟩
  | cons b l ih =>
    rw [List.cons_append, lang_seq_cons]
    constructor
    · rintro ⟨x, v, rfl, h1, h2⟩
      obtain ⟨p, u, q, rfl, h3, h4, h5⟩ := ih.1 h2
      exact ⟨x ++ p, u, q, by simp, .seqCons h1 h3, h4, h5⟩
    · rintro ⟨p, u, q, rfl, h1, h2, h3⟩
      obtain ⟨x, p, rfl, h4, h5⟩ := lang_seq_cons.1 h1
      exact ⟨x, p ++ u ++ q, by simp, h4, ih.2 ⟨p, u, q, rfl, h5, h2, h3⟩⟩

theorem constraint_letters {kind : AnagramKind} {bank : List Ch} (hb : ∀ c ∈ bank, c.val < 26) {i : Nat} {v : List Ch}
    (h : Lang (astForAnagram kind (histogram bank) i) v) : Ch.wordEnd ∉ v := by
  have key : ∀ x ∈ v, x.val < 26 := by
    by_cases hi : i < (histogram bank).length
    · obtain ⟨⟨c, n⟩, hcn⟩ : ∃ p, (histogram bank)[i]? = some p := ⟨_, List.getElem?_eq_getElem hi⟩
      obtain ⟨rfl, hc⟩ := mem_histogram.1 (List.mem_of_getElem? hcn)
      rw [ast_of_lt hcn, lang_count hc fun _ => hb c hc] at h
      cases kind <;> first | exact fun x hx => hb x (h.2 x hx) | exact h.2
    · rw [ast_of_ge (by omega), histogram_sum, lang_length] at h
      cases kind <;> first | exact fun x hx => hb x (h.2 x hx) | exact h.2
  intro hx
  exact absurd (key _ hx) (by decide)

/-- Strings without word ends are determined by what they are followed by word ends to. -/
theorem strip_ends {v v' : List Ch} {n n' : Nat} (h : Ch.wordEnd ∉ v) (h' : Ch.wordEnd ∉ v')
    (he : v ++ List.replicate n Ch.wordEnd = v' ++ List.replicate n' Ch.wordEnd) : v = v' := by
  have key : ∀ (v : List Ch) (n : Nat), Ch.wordEnd ∉ v →
      (v ++ List.replicate n Ch.wordEnd).filter (fun c => decide (c ≠ Ch.wordEnd)) = v := by
    intro v n hv
    rw [List.filter_append, List.filter_replicate, List.filter_eq_self.2]
    · simp
    · intro a ha
      simp only [ne_eq, decide_not, Bool.not_eq_true', decide_eq_false_iff_not]
      rintro rfl; exact hv ha
  rw [← key v n h, ← key v' n' h', he]

theorem blocks_around {pre post : List Ast} {kind : AnagramKind} {bank : List Ch} (h1 : blocksAll pre = [])
    (h2 : blocksAll post = []) : blocks (.seq (pre ++ .anagram kind bank :: post)) = [(kind, bank)] := by
  rw [blocks, blocksAll_append, h1, blocksAll, h2]; rfl

theorem subst_around {pre post : List Ast} {kind : AnagramKind} {bank : List Ch} (h1 : blocksAll pre = [])
    (h2 : blocksAll post = []) (f : AnagramKind → List Ch → Ast) :
    substBlocks f (.seq (pre ++ .anagram kind bank :: post)) = .seq (pre ++ f kind bank :: post) := by
  rw [substBlocks, substAll_eq, List.map_append, List.map_cons, ← substAll_eq, ← substAll_eq, substAll_none _ h1,
    substAll_none _ h2]
  rfl

theorem expand_around {pre post : List Ast} {kind : AnagramKind} {bank : List Ch} (h1 : blocksAll pre = [])
    (h2 : blocksAll post = []) (o : ExprOptions) :
    expandExpressions [{ root := .seq (pre ++ .anagram kind bank :: post), options := o }] =
      .ok ((List.range ((histogram bank).length + 1)).map fun i =>
        { root := .seq (pre ++ astForAnagram kind (histogram bank) i :: post), options := o }) := by
  rw [expandExpressions_eq]
  simp only [List.flatMap_cons, List.flatMap_nil, List.append_nil, variety, blocks_around h1 h2, subst_around h1 h2]
  rfl

theorem denotes_constraints {pre post : List Ast} (hpre : Fixed pre) (hpost : Fixed post)
    {kind : AnagramKind} {bank : List Ch} (hb : ∀ c ∈ bank, c.val < 26) (u : List Ch) :
    (∀ i ≤ (histogram bank).length, Denotes (.seq (pre ++ astForAnagram kind (histogram bank) i :: post)) u) ↔
      ∃ p v q n, Lang (.seq pre) p ∧ Anagrams kind bank v ∧ Lang (.seq post) q ∧
        u = p ++ v ++ q ++ List.replicate n Ch.wordEnd := by
  obtain ⟨n1, hpre⟩ := hpre
  obtain ⟨n2, hpost⟩ := hpost
  constructor
  · intro h
    obtain ⟨w, n, hw, hu⟩ := h 0 (by omega)
    obtain ⟨p, v, q, rfl, k1, k2, k3⟩ := lang_around.1 hw
    refine ⟨p, v, q, n, k1, (lang_all_replacements fun _ => hb).1 fun i hi => ?_, k3, hu⟩
    obtain ⟨w', n', hw', hu'⟩ := h i hi
    obtain ⟨p', v', q', rfl, k1', k2', k3'⟩ := lang_around.1 hw'
    have hw0 : Ch.wordEnd ∉ p ++ v ++ q := by
      simp only [List.mem_append]
      rintro ((hx | hx) | hx)
      · exact (hpre p k1).2 hx
      · exact constraint_letters hb k2 hx
      · exact (hpost q k3).2 hx
    have hw1 : Ch.wordEnd ∉ p' ++ v' ++ q' := by
      simp only [List.mem_append]
      rintro ((hx | hx) | hx)
      · exact (hpre p' k1').2 hx
      · exact constraint_letters hb k2' hx
      · exact (hpost q' k3').2 hx
    have heq := strip_ends hw0 hw1 (hu.symm.trans hu')
    rw [List.append_assoc, List.append_assoc] at heq
    obtain ⟨_, heq⟩ := List.append_inj heq ((hpre p k1).1.trans (hpre p' k1').1.symm)
    obtain ⟨heq, _⟩ := List.append_inj' heq ((hpost q k3).1.trans (hpost q' k3').1.symm)
    rw [heq]; exact k2'
  · rintro ⟨p, v, q, n, h1, h2, h3, rfl⟩ i _
    exact ⟨p ++ v ++ q, n, lang_around.2 ⟨p, v, q, rfl, h1, lang_replacement (fun _ => hb) h2 i, h3⟩, rfl⟩

/-- C31, the meaning of the rewriting: an anagram block with a bank of letters, between terms of a fixed length, is
replaced with expressions that together stand for exactly the strings that consist of `pre`, an anagram of the bank (in
the sense of its kind) and `post`. -/
theorem C31_rewriting {pre post : List Ast} (h1 : blocksAll pre = []) (h2 : blocksAll post = [])
    (hpre : Fixed pre) (hpost : Fixed post) {kind : AnagramKind} {bank : List Ch} (hb : ∀ c ∈ bank, c.val < 26)
    (o : ExprOptions) :
    ∃ ex, expandExpressions [{ root := .seq (pre ++ .anagram kind bank :: post), options := o }] = .ok ex ∧
      (∀ e ∈ ex, e.options = o) ∧
      ∀ u, (∀ e ∈ ex, Denotes e.root u) ↔
        ∃ p v q n, Lang (.seq pre) p ∧ Anagrams kind bank v ∧ Lang (.seq post) q ∧
          u = p ++ v ++ q ++ List.replicate n Ch.wordEnd := by
  refine ⟨_, expand_around h1 h2 o, ?_, fun u => ?_⟩
  · intro e he
    obtain ⟨i, _, rfl⟩ := List.mem_map.1 he
    rfl
  · rw [← denotes_constraints hpre hpost hb]
    constructor
    · intro h i hi
      exact h _ (List.mem_map.2 ⟨i, List.mem_range.2 (by omega), rfl⟩)
    · intro h e he
      obtain ⟨i, hi, rfl⟩ := List.mem_map.1 he
      rw [List.mem_range] at hi
      exact h i (by omega)

/-- C31, compiled: a query `pre <bank> post` (or another kind of block) whose bank has fewer than 2700 letters or so,
with `pre` and `post` in the compiler's fragment and of fixed length, is rewritten, compiles, and the compiled
expressions together match exactly the phrases that consist of `pre`, an anagram and `post`. -/
theorem C31_matches {pre post : List Ast} (t1 : tame (.seq pre) = true) (t2 : tame (.seq post) = true)
    (hpre : Fixed pre) (hpost : Fixed post) {kind : AnagramKind} {bank : List Ch} (hne : bank ≠ [])
    (hb : ∀ c ∈ bank, c.val < 26)
    (hsz : statesAll pre + statesAll post + 6 * bank.length + kind.extra + 3 < 16384)
    {o : ExprOptions} (ho : o.fuzz.getD 0 = 0) :
    ∃ ex es, expandExpressions [{ root := .seq (pre ++ .anagram kind bank :: post), options := o }] = .ok ex ∧
      ex ≠ [] ∧ ex.mapM fromAst = .ok es ∧ ∀ w, (∀ e ∈ es, Matches e w) ↔
        ∃ p v q n, Lang (.seq pre) p ∧ Anagrams kind bank v ∧ Lang (.seq post) q ∧
          looksAt o w = p ++ v ++ q ++ List.replicate n Ch.wordEnd := by
  rw [tame] at t1 t2
  have b1 := tameAll_blocks pre t1
  have b2 := tameAll_blocks post t2
  obtain ⟨ex, hex, hopt, hden⟩ := C31_rewriting b1 b2 hpre hpost hb (kind := kind) o
  have hex' := hex
  rw [expand_around b1 b2] at hex'
  cases hex'
  obtain ⟨es, hes, hm⟩ := compile_all ((List.range ((histogram bank).length + 1)).map fun i =>
        { root := .seq (pre ++ astForAnagram kind (histogram bank) i :: post), options := o }) (by
    intro a ha
    obtain ⟨i, _, rfl⟩ := List.mem_map.1 ha
    refine ⟨?_, ?_, ho⟩
    · rw [tame, tameAll_iff]
      intro t ht
      rcases List.mem_append.1 ht with ht | ht
      · exact tameAll_iff.1 t1 t ht
      · rcases List.mem_cons.1 ht with rfl | ht
        · exact tame_constraint hne i
        · exact tameAll_iff.1 t2 t ht
    · rw [states, statesAll_append, statesAll]
      have := states_constraint (kind := kind) (bank := bank) i
      omega)
  refine ⟨_, es, hex, by simp, hes, fun w => ?_⟩
  rw [hm w, ← hden]
  exact ⟨fun h a ha => by have := h a ha; rwa [hopt a ha] at this,
    fun h a ha => by rw [hopt a ha]; exact h a ha⟩

/-- C31, end to end: a completed run of such a query reports, as single words, exactly the words of the list that
consist of `pre`, an anagram and `post`; and every phrase reported does. -/
theorem C31_words {pre post : List Ast} (t1 : tame (.seq pre) = true) (t2 : tame (.seq post) = true)
    (hpre : Fixed pre) (hpost : Fixed post) {kind : AnagramKind} {bank : List Ch} (hne : bank ≠ [])
    (hb : ∀ c ∈ bank, c.val < 26)
    (hsz : statesAll pre + statesAll post + 6 * bank.length + kind.extra + 3 < 16384)
    {o : ExprOptions} (ho : o.fuzz.getD 0 = 0) {wl : List Word} (hw : wl.Pairwise fun a b => a.tranche ≤ b.tranche) :
    ∃ ex es, expandExpressions [{ root := .seq (pre ++ .anagram kind bank :: post), options := o }] = .ok ex ∧
      ex.mapM fromAst = .ok es ∧ ∀ {depth : Nat} {clks : List Clock} {rs : List Resp},
        Session es wl depth none clks rs →
          (Completed rs → ∀ w : Word, [w] ∈ reported rs ↔
            w ∈ wl ∧ ∃ p v q n, Lang (.seq pre) p ∧ Anagrams kind bank v ∧ Lang (.seq post) q ∧
              looksAt o w.chars = p ++ v ++ q ++ List.replicate n Ch.wordEnd) ∧
          (¬ Unsettled es rs → ∀ ws ∈ reported rs,
            (∀ w ∈ ws, w ∈ wl) ∧ ∃ p v q n, Lang (.seq pre) p ∧ Anagrams kind bank v ∧ Lang (.seq post) q ∧
              looksAt o (charsOf ws) = p ++ v ++ q ++ List.replicate n Ch.wordEnd) := by
  obtain ⟨ex, es, hex, h0, hes, hm⟩ := C31_matches t1 t2 hpre hpost hne hb hsz ho
  have hr := C06_ready h0 hes hw
  refine ⟨ex, es, hex, hes, fun hs => ⟨fun hc w => ?_, fun hg ws hws => ?_⟩⟩
  · rw [C19_iff hr hs hc, hm]
  · obtain ⟨_, _, h3, h4⟩ := C23_sound_partial hr hs hg ws hws
    exact ⟨h3, (hm _).1 h4⟩

theorem fixed_nil : Fixed [] := ⟨0, fun u hu => by rw [lang_seq_nil] at hu; subst hu; simp⟩

/-- A list of classes without the word end has a fixed length. -/
theorem fixed_classes {cs : List CharSet} (h : ∀ c ∈ cs, c.contains Ch.wordEnd = false) :
    Fixed (cs.map Ast.cls) := by
  refine ⟨cs.length, ?_⟩
  induction cs with
  | nil => intro u hu; rw [List.map_nil, lang_seq_nil] at hu; subst hu; simp
  | cons c cs ih =>
    intro u hu
    obtain ⟨v, w, rfl, h1, h2⟩ := lang_seq_cons.1 hu
    obtain ⟨x, rfl, hx⟩ := lang_cls.1 h1
    obtain ⟨k1, k2⟩ := ih (fun c hc => h c (by simp [hc])) w h2
    refine ⟨by simp [k1], ?_⟩
    simp only [List.cons_append, List.nil_append, List.mem_cons, not_or]
    refine ⟨?_, k2⟩
    rintro rfl
    rw [h c (by simp)] at hx; cases hx

/-- The letters of a word. -/
def lettersOf (w : List Ch) : List Ch := w.filter fun c => decide (c.val < 26)

theorem looksAt_default (w : List Ch) : looksAt {} w = lettersOf w := by
  unfold looksAt lettersOf
  apply List.filter_congr
  intro c _
  simp

theorem mem_lettersOf {w : List Ch} {c : Ch} (h : c ∈ lettersOf w) : c.val < 26 := by
  simpa using (List.mem_filter.1 h).2

/-- C31: the query `<bank>`, `<bank+>`, `<bank->`, `<bank+n>` or `<bank-n>`, for a bank of letters: a completed run
reports exactly the words of the list whose letters are an anagram in the sense of the block; and the letters of every
reported phrase are one. -/
theorem C31_lone {kind : AnagramKind} {bank : List Ch} (hne : bank ≠ []) (hb : ∀ c ∈ bank, c.val < 26)
    (hsz : 6 * bank.length + kind.extra + 3 < 16384) {wl : List Word}
    (hw : wl.Pairwise fun a b => a.tranche ≤ b.tranche) :
    ∃ ex es, expandExpressions [{ root := .seq [.anagram kind bank], options := {} }] = .ok ex ∧
      ex.mapM fromAst = .ok es ∧ ∀ {depth : Nat} {clks : List Clock} {rs : List Resp},
        Session es wl depth none clks rs →
          (Completed rs → ∀ w : Word, [w] ∈ reported rs ↔ w ∈ wl ∧ Anagrams kind bank (lettersOf w.chars)) ∧
          (¬ Unsettled es rs → ∀ ws ∈ reported rs, (∀ w ∈ ws, w ∈ wl) ∧ Anagrams kind bank (lettersOf (charsOf ws))) := by
  obtain ⟨ex, es, h1, h2, h3⟩ := C31_words (pre := []) (post := []) rfl rfl fixed_nil fixed_nil (kind := kind) hne hb
    (by simp only [statesAll]; omega) (o := {}) rfl hw
  have key : ∀ w : List Ch, (∃ p v q n, Lang (.seq []) p ∧ Anagrams kind bank v ∧ Lang (.seq []) q ∧
      looksAt {} w = p ++ v ++ q ++ List.replicate n Ch.wordEnd) ↔ Anagrams kind bank (lettersOf w) := by
    intro w
    rw [looksAt_default]
    constructor
    · rintro ⟨p, v, q, n, k1, k2, k3, k4⟩
      rw [lang_seq_nil] at k1 k3
      subst k1 k3
      rw [List.nil_append, List.append_nil] at k4
      cases n with
      | zero => rw [k4]; simpa using k2
      | succ n =>
        have : Ch.wordEnd ∈ lettersOf w := by rw [k4]; simp [List.replicate_succ]
        exact absurd (mem_lettersOf this) (by decide)
    · intro h
      exact ⟨[], _, [], 0, .seqNil, h, .seqNil, by simp⟩
  refine ⟨ex, es, h1, h2, fun hs => ⟨fun hc w => ?_, fun hg ws hws => ?_⟩⟩
  · rw [(h3 hs).1 hc w, key]
  · rw [← key]; exact (h3 hs).2 hg ws hws

/-- The hypotheses hold of `<pasta-1>led`. -/
example : tame (.seq ([] : List Ast)) = true ∧ tame (.seq ([CharSet.ofCh 11, CharSet.ofCh 4, CharSet.ofCh 3].map Ast.cls)) = true ∧
    Fixed ([] : List Ast) ∧ Fixed ([CharSet.ofCh 11, CharSet.ofCh 4, CharSet.ofCh 3].map Ast.cls) ∧
    (∀ c ∈ ([15, 0, 18, 19, 0] : List Ch), c.val < 26) := by
  refine ⟨rfl, by decide +kernel, fixed_nil, fixed_classes fun c hc => ?_, by decide +kernel⟩
  simp only [List.mem_cons, List.not_mem_nil, or_false] at hc
  rcases hc with rfl | rfl | rfl <;> decide +kernel

/-- The condition of a fixed length around the block is needed: the query `<ab><ab>` lets `aabb` through, which is not
an anagram of `ab` followed by an anagram of `ab`. -/
theorem C31_context_counterexample : ∃ ex,
    expandExpressions [expr (.seq [.anagram .standard [0, 1], .anagram .standard [0, 1]])] = .ok ex ∧
    (∀ e ∈ ex, Denotes e.root [0, 0, 1, 1]) ∧
    ¬ Denotes (.seq [.anagram .standard [0, 1], .anagram .standard [0, 1]]) [0, 0, 1, 1] := by
  refine ⟨_, expandExpressions_eq _, ?_, ?_⟩
  · intro e he
    obtain ⟨e0, h0, i, hi, rfl⟩ := (mem_expand (expandExpressions_eq _)).1 he
    rw [List.mem_singleton] at h0
    subst h0
    have hv : variety (expr (.seq [.anagram .standard [0, 1], .anagram .standard [0, 1]])).root = 2 := by decide +kernel
    rw [hv] at hi
    have hseq : ∀ i, substBlocks (fun k b => astForAnagram k (histogram b) i)
        (expr (.seq [.anagram .standard [0, 1], .anagram .standard [0, 1]])).root =
        .seq [astForAnagram .standard (histogram [0, 1]) i, astForAnagram .standard (histogram [0, 1]) i] := fun i => rfl
    have hh : histogram [0, 1] = [(0, 1), (1, 1)] := by decide +kernel
    show Denotes (substBlocks _ _) _
    rw [hseq]
    have go : ∀ u v : List Ch, Lang (astForAnagram .standard (histogram [0, 1]) i) u →
        Lang (astForAnagram .standard (histogram [0, 1]) i) v → [0, 0, 1, 1] = u ++ v →
        Denotes (.seq [astForAnagram .standard (histogram [0, 1]) i, astForAnagram .standard (histogram [0, 1]) i]) [0, 0, 1, 1] := by
      intro u v h1 h2 h3
      exact denotes_of (lang_seq_cons.2 ⟨u, v, h3, h1, lang_seq_one.2 h2⟩)
    match i, hi with
    | 0, _ =>
      have hast : astForAnagram .standard (histogram [0, 1]) 0 = _ := ast_of_lt (c := 0) (n := 1) (by rw [hh]; rfl)
      refine go [0] [0, 1, 1] ?_ ?_ rfl <;>
      · rw [hast]
        exact (lang_count (bank := [0, 1]) (by simp) (by simp [AnagramKind.adds])).2 ⟨by decide, by decide⟩
    | 1, _ =>
      have hast : astForAnagram .standard (histogram [0, 1]) 1 = _ := ast_of_lt (c := 1) (n := 1) (by rw [hh]; rfl)
      refine go [0, 0, 1] [1] ?_ ?_ rfl <;>
      · rw [hast]
        exact (lang_count (bank := [0, 1]) (by simp) (by simp [AnagramKind.adds])).2 ⟨by decide, by decide⟩
    | 2, _ =>
      have hast : astForAnagram .standard (histogram [0, 1]) 2 = _ := ast_of_ge (by rw [hh]; decide)
      refine go [0, 0] [1, 1] ?_ ?_ rfl <;>
      · rw [hast, histogram_sum]
        exact lang_length.2 ⟨by decide, by decide⟩
  · rintro ⟨v, n, h1, h2⟩
    obtain ⟨x, y, rfl, h3, h4⟩ := lang_seq_cons.1 h1
    rw [lang_seq_one] at h4
    cases h3 with
    | anagram h3 =>
      cases h4 with
      | anagram h4 =>
        have l3 := List.Perm.length_eq h3
        have m3 : (1 : Ch) ∈ x := (List.Perm.mem_iff h3).2 (by simp)
        match x, l3 with
        | [p, q], _ =>
          simp only [List.cons_append, List.cons.injEq] at h2
          obtain ⟨rfl, rfl, _⟩ := h2
          simp at m3

end Noodle
