import Verif.Spec.Answer
import Verif.Props.C33
import Verif.Props.C34
import Verif.Props.C44
/-
C46: from the text of a query to the words found. This puts the parser, the rewriting of anagrams, the compiler and the
evaluation together: the words reported are those that the text describes.
-/
namespace Noodle
open Spec
set_option autoImplicit false

/-- The expressions for which the whole way is proved exact: those in the compiler's fragment; and one anagram block of
letters between terms of a fixed length, without fuzz. (Below the size limits.) -/
inductive Spec.Handled : ExprAst → Prop
  | plain {e : ExprAst} : tame e.root = true → states e.root < 16384 → Handled e
  | block {e : ExprAst} {pre post : List Ast} {kind : AnagramKind} {bank : List Ch} :
      e.root = .seq (pre ++ .anagram kind bank :: post) → tame (.seq pre) = true → tame (.seq post) = true →
      Fixed pre → Fixed post → bank ≠ [] → (∀ c ∈ bank, c.val < 26) →
      statesAll pre + statesAll post + 6 * bank.length + kind.extra + 3 < 16384 → e.options.fuzz.getD 0 = 0 → Handled e

theorem handled_near {e : ExprAst} (h : Handled e) : ∃ ex es, expandExpressions [e] = .ok ex ∧ ex ≠ [] ∧
    ex.mapM fromAst = .ok es ∧ ∀ w, (∀ x ∈ es, Matches x w) ↔ Near e w := by
  cases h with
  | plain h1 h2 =>
    have hb := tame_blocks _ h1
    have hex : expandExpressions [e] = .ok [e] := by
      rw [expandExpressions_eq]
      simp [variety, hb, subst_none _ hb]
    obtain ⟨x, hx, hacc⟩ := C07_language_partial h1 h2
    refine ⟨[e], [x], hex, by simp, by rw [List.mapM_cons, hx]; rfl, fun w => ?_⟩
    obtain ⟨hv, hf⟩ := visible_fromAst hx w
    simp only [List.mem_singleton, forall_eq, Matches, Near, hacc, hv, hf]
  | @block pre post kind bank h0 t1 t2 f1 f2 hne hb hsz ho =>
    have hn := near_exact ho
    obtain ⟨r, o⟩ := e
    have h0 : r = _ := h0
    subst h0
    obtain ⟨ex, es, h1, h2, h3, h4⟩ := C31_matches t1 t2 f1 f2 hne hb hsz ho
    refine ⟨ex, es, h1, h2, h3, fun w => ?_⟩
    rw [h4 w, hn w]
    constructor
    · rintro ⟨p, v, q, n, k1, k2, k3, k4⟩
      exact ⟨p ++ v ++ q, n, lang_around.2 ⟨p, v, q, rfl, k1, .anagram k2, k3⟩, k4⟩
    · rintro ⟨x, n, hx, k4⟩
      obtain ⟨p, v, q, rfl, k1, k2, k3⟩ := lang_around.1 hx
      cases k2 with
      | anagram k2 => exact ⟨p, v, q, n, k1, k2, k3, k4⟩

theorem handled_exact {e : ExprAst} (h : Handled e) (hf : e.options.fuzz.getD 0 = 0) :
    ∃ ex es, expandExpressions [e] = .ok ex ∧ ex ≠ [] ∧
    ex.mapM fromAst = .ok es ∧ ∀ w, (∀ x ∈ es, Matches x w) ↔ Denotes e.root (looksAt e.options w) := by
  obtain ⟨ex, es, h1, h2, h3, h4⟩ := handled_near h
  exact ⟨ex, es, h1, h2, h3, fun w => by rw [h4 w, near_exact hf]⟩

theorem expand_cons {e : ExprAst} {l ex1 ex2 : List ExprAst} (h1 : expandExpressions [e] = .ok ex1)
    (h2 : expandExpressions l = .ok ex2) : expandExpressions (e :: l) = .ok (ex1 ++ ex2) := by
  rw [expandExpressions_eq] at h1 h2 ⊢
  cases h1
  cases h2
  simp

theorem handled_all : ∀ l : List ExprAst, (∀ e ∈ l, Handled e) → ∃ ex es, expandExpressions l = .ok ex ∧
    (l ≠ [] → ex ≠ []) ∧ ex.mapM fromAst = .ok es ∧
    ∀ w, (∀ x ∈ es, Matches x w) ↔ ∀ e ∈ l, Near e w
  | [], _ => ⟨[], [], rfl, by simp, rfl, by simp⟩
  | e :: l, h => by
    obtain ⟨ex1, es1, a1, a2, a3, a4⟩ := handled_near (h e (by simp))
    obtain ⟨ex2, es2, b1, b2, b3, b4⟩ := handled_all l fun x hx => h x (by simp [hx])
    refine ⟨ex1 ++ ex2, es1 ++ es2, expand_cons a1 b1, by simp [a2], ?_, fun w => ?_⟩
    · rw [List.mapM_append, a3, b3]; rfl
    · rw [List.forall_mem_cons, ← a4 w, ← b4 w]
      simp only [List.mem_append]
      constructor
      · intro h; exact ⟨fun x hx => h x (.inl hx), fun x hx => h x (.inr hx)⟩
      · rintro ⟨h1, h2⟩ x (hx | hx)
        · exact h1 x hx
        · exact h2 x hx

theorem sifted_iff {P : Ch → Prop} {f : Ch → Bool} (h : ∀ c, f c = true ↔ P c) :
    ∀ w u : List Ch, Sifted P w u ↔ u = w.filter f
  | [], u => by
    constructor
    · intro h; cases h; rfl
    · rintro rfl; exact .nil
  | c :: w, u => by
    by_cases hc : P c
    · rw [List.filter_cons_of_pos ((h c).2 hc)]
      constructor
      · intro hk
        cases hk with
        | keep _ hk => rw [(sifted_iff h w _).1 hk]
        | drop hn _ => exact absurd hc hn
      · rintro rfl; exact .keep hc ((sifted_iff h w _).2 rfl)
    · rw [List.filter_cons_of_neg (fun hf => hc ((h c).1 hf))]
      constructor
      · intro hk
        cases hk with
        | keep hp _ => exact absurd hp hc
        | drop _ hk => exact (sifted_iff h w _).1 hk
      · intro hu; exact .drop hc ((sifted_iff h w _).2 hu)

theorem getD_true (o : Option Bool) : o.getD false = true ↔ o = some true := by
  cases o with
  | none => simp
  | some b => simp

theorem looks_sifted {a : Alts} {fs : List (Flag × Nat)} (ha : a.ok = true) (w u : List Ch) :
    Sifted (Significant a fs) w u ↔ u = looksAt (exprOf a fs).options w := by
  obtain ⟨k1, k2, -⟩ := C33_tree (altsTree a) (flagOptions fs)
  obtain ⟨l1, l2, -⟩ := flagOptions_spec fs
  rw [alts_mentions _ a ha, l1] at k1
  rw [alts_mentions _ a ha, l2] at k2
  unfold looksAt
  apply sifted_iff
  intro c
  have e1 : (exprOf a fs).options.explicitWB.getD false = true ↔ _ := (getD_true _).trans k1
  have e2 : (exprOf a fs).options.explicitPunct.getD false = true ↔ _ := (getD_true _).trans k2
  have c1 : c.val = 27 ↔ c = Ch.wordEnd := ⟨fun h => Fin.ext h, fun h => congrArg Fin.val h⟩
  have c2 : c.val = 26 ↔ c = Ch.punct := ⟨fun h => Fin.ext h, fun h => congrArg Fin.val h⟩
  simp only [Bool.or_eq_true, Bool.and_eq_true, decide_eq_true_eq, e1, e2, c1, c2, Significant, or_assoc]
  rw [and_comm (b := c = Ch.wordEnd), and_comm (b := c = Ch.punct)]

/-- What the parsed expression matches (when compiled exactly) is what the text describes. -/
theorem denotes_describes {a : Alts} {fs : List (Flag × Nat)} (ha : a.ok = true) (w : List Ch) :
    Denotes (exprOf a fs).root (looksAt (exprOf a fs).options w) ↔ Describes a fs w := by
  have h1 : Lang (exprOf a fs).root = a.Means := alts_means a ha
  have hk := looks_sifted (fs := fs) ha w
  unfold Denotes Describes
  rw [h1]
  constructor
  · rintro ⟨v, n, h2, h3⟩; exact ⟨_, v, n, (hk _).2 rfl, h2, h3⟩
  · rintro ⟨u, v, n, h2, h3, h4⟩; exact ⟨v, n, h3, ((hk u).1 h2) ▸ h4⟩

theorem near_describes {a : Alts} {fs : List (Flag × Nat)} (ha : a.ok = true) (w : List Ch) :
    Near (exprOf a fs) w ↔ NearlyDescribes a fs w := by
  have h1 : Lang (exprOf a fs).root = a.Means := alts_means a ha
  have hk := looks_sifted (fs := fs) ha w
  have hf : (exprOf a fs).options.fuzz = lastFuzz fs := by
    rw [← (flagOptions_spec fs).2.2]
    exact (C33_tree (altsTree a) (flagOptions fs)).2.2
  unfold Near NearlyDescribes Denotes
  rw [h1, hf]
  constructor
  · rintro ⟨u, k, ⟨v, n, h2, h3⟩, h4, h5⟩
    exact ⟨_, u, v, n, k, (hk _).2 rfl, h5, h4, h2, h3⟩
  · rintro ⟨x, u, v, n, k, h2, h3, h4, h5, h6⟩
    exact ⟨u, k, ⟨v, n, h5, h6⟩, h4, ((hk x).1 h2) ▸ h3⟩

/-- Without a flag for it there is no fuzz. -/
theorem nearly_exact {a : Alts} {fs : List (Flag × Nat)} (h : (lastFuzz fs).getD 0 = 0) (w : List Ch) :
    NearlyDescribes a fs w ↔ Describes a fs w := by
  constructor
  · rintro ⟨x, u, v, n, k, h1, h2, h3, h4, h5⟩
    obtain rfl : k = 0 := by omega
    rw [edit_none h2] at h5
    exact ⟨x, v, n, h1, h4, h5⟩
  · rintro ⟨u, v, n, h1, h2, h3⟩
    exact ⟨u, u, v, n, 0, h1, edit_refl u, Nat.zero_le _, h2, h3⟩

/-- The lines of a query that are in the documented form, without a word list, and whose expressions (at least one), as
parsed one by one, are handled. -/
structure Spec.GoodQuery (text : List Char) (ls : List Line) : Prop where
  lines : ∃ raw, Lines text raw ∧ Script [] raw ls
  ok : ∀ l ∈ ls, l.ok = true
  nonempty : exprsOf ls ≠ []
  handled : ∀ x ∈ exprsOf ls, ∀ e, ExprAst.ofText (exprText 0 x.1 x.2) = .ok (some e) → Handled e

theorem good_exact {U : Unicode} {text : List Char} {ls : List Line} (h : GoodQuery text ls) :
    ∃ q es, QueryAst.ofText U text = .ok q ∧ q.expressions ≠ [] ∧ q.options.wordlist = none ∧
      q.expressions.mapM fromAst = .ok es ∧
      ∀ w, (∀ e ∈ es, Matches e w) ↔ ∀ x ∈ exprsOf ls, NearlyDescribes x.1 x.2 w := by
  obtain ⟨raw, hl, hs⟩ := h.lines
  obtain ⟨es0, q, h1, h2, h3, -, -, -, -, h4, -⟩ := C34_query (U := U) hl hs h.ok
  have hx : ∀ x ∈ exprsOf ls, x.1.ok = true ∧ (x.2.all fun f => f.1.ok) = true := by
    intro x hx
    obtain ⟨l, hl, he⟩ := List.mem_filterMap.1 hx
    have := h.ok l hl
    cases l <;> simp only [Line.givesExpr, reduceCtorEq, Option.some.injEq] at he
    subst he
    simpa [Line.ok] using this
  have he : es0 = (exprsOf ls).map fun x => exprOf x.1 x.2 := by
    have h2' := h2
    rw [parsed_exprs h.ok] at h2'
    have hinj : Function.Injective fun e : ExprAst => (Except.ok (some e) : Except Crash (Option ExprAst)) := by
      intro a b hab
      simpa using hab
    exact ((List.map_injective_iff.2 hinj) h2').symm
  obtain ⟨ex, es, k1, k2, k3, k4⟩ := handled_all es0 (by
    intro e hmem
    rw [he] at hmem
    obtain ⟨x, hx', rfl⟩ := List.mem_map.1 hmem
    exact h.handled x hx' _ (ofText_ok 0 _ _ (hx x hx').1 (hx x hx').2))
  obtain rfl := Except.ok.inj (k1.symm.trans h3)
  refine ⟨q, es, h1, k2 (by rw [he]; simpa using h.nonempty), h4, k3, fun w => ?_⟩
  rw [k4 w, he]
  simp only [List.mem_map, forall_exists_index, and_imp, forall_apply_eq_imp_iff₂]
  constructor
  · intro hd x hx'; exact (near_describes (hx x hx').1 w).1 (hd x hx')
  · intro hd x hx'; exact (near_describes (hx x hx').1 w).2 (hd x hx')

/-- C46: a query whose lines are in the documented form, without a word list, and whose expressions are handled, is
parsed and compiled; every session that completes without a limit reports, as single words, exactly those of the list
that every expression line describes, in the order of the list; and every phrase that a session reports (unless it gave
up optimising several expressions) consists of words of the list and is described by every expression line. -/
theorem C46_words_partial {U : Unicode} {text : List Char} {ls : List Line} (h : GoodQuery text ls) {wl : List Word}
    (hw : wl.Pairwise fun a b => a.tranche ≤ b.tranche) :
    ∃ q es, QueryAst.ofText U text = .ok q ∧ q.expressions.mapM fromAst = .ok es ∧
      ∀ {depth : Nat} {limit : Option Nat} {clks : List Clock} {rs : List Resp}, Session es wl depth limit clks rs →
        (limit = none → Completed rs → ∀ w : Word, [w] ∈ reported rs ↔
          w ∈ wl ∧ ∀ x ∈ exprsOf ls, NearlyDescribes x.1 x.2 w.chars) ∧
        (¬ Unsettled es rs → ∀ ws ∈ reported rs, (∀ w ∈ ws, w ∈ wl) ∧
          ∀ x ∈ exprsOf ls, NearlyDescribes x.1 x.2 (charsOf ws)) := by
  obtain ⟨q, es, h1, h2, h3, h4, h5⟩ := good_exact (U := U) h
  have hr := C06_ready h2 h4 hw
  refine ⟨q, es, h1, h4, fun hs => ⟨?_, fun hg ws hws => ?_⟩⟩
  · rintro rfl hc w
    rw [C19_iff hr hs hc, h5]
  · obtain ⟨_, _, k3, k4⟩ := C23_sound_partial hr hs hg ws hws
    exact ⟨k3, (h5 _).1 k4⟩

open Classical in
/-- C46, the whole program: the command line program, with `--phrase-length 1` and without `--count`, run on a word list
file and such a query, prints exactly the words of the file (as they are loaded: `C03_load`) that every line of the
query describes, one per line, in the order of the loaded list. -/
theorem C46_program_partial {U : Unicode} {text file : List Char} {ls : List Line} (h : GoodQuery text ls) :
    ∃ N, ∀ calls, N ≤ calls → cliRun U file none 1 text calls =
      .ok (some (((loadWordlist U file).filter fun w => decide (∀ x ∈ exprsOf ls, NearlyDescribes x.1 x.2 w.chars)).flatMap
        fun w => w.text.toList ++ ['\n'])) := by
  obtain ⟨q, es, h1, h2, h3, h4, h5⟩ := good_exact (U := U) h
  obtain ⟨N, clks, rs, -, hc, hs, hp⟩ := C44_prints (file := file) (count := none) (phraseLength := 1) h1 h2 h4
  rw [h3, Option.getD_none] at hs
  have hr := C06_ready h2 h4 (sortWords_tranche _ : (loadWordlist U file).Pairwise fun a b => a.tranche ≤ b.tranche)
  refine ⟨N, fun calls hcalls => ?_⟩
  rw [hp calls hcalls]
  have h6 := C19_singles hr hs hc
  rw [List.filter_eq_self.2 (by
    intro ws hws
    simpa using C26_single hr (Nat.le_refl 1) hs ws hws)] at h6
  rw [h6]
  unfold singles
  simp only [h5]
  rw [List.flatMap_map]
  congr 2
  apply congrArg (fun f => List.flatMap f _)
  funext w
  simp [printed]

/-- A query with a macro, a pragma, an expression in the fragment with
fuzz 1, and an anagram block followed by a fixed letter. -/
def Spec.goodText : List Char := "AB=[xy]\n#words 3;AB+(cat|d?o) !1\n<act-1>e".toList
def Spec.goodLines : List Line :=
  [.define 0 "AB".toList 0 "[xy]".toList 0, .words 0 "#words".toList 1 3 0,
   .expr 0 (.one (.cons (.cls false [.one 'x', .one 'y']) .plus 0 (.last (.group
     (.more (.cons (.chr 'c') .none 0 (.cons (.chr 'a') .none 0 (.last (.chr 't') .none 0))) 0
       (.one (.cons (.chr 'd') .opt 0 (.last (.chr 'o') .none 0))))) .none 1))) [(.fuzz 1, 0)],
   .expr 0 (.one (.cons (.bank (.transDelete 1) ['a', 'c', 't']) .none 0 (.last (.chr 'e') .none 0))) []]

/-- The hypotheses of C46 hold of it. -/
theorem goodQuery : GoodQuery goodText goodLines where
  lines := ⟨["AB=[xy]".toList, "#words 3".toList, "AB+(cat|d?o) !1".toList, "<act-1>e".toList],
    lines_iff.2 (by decide +kernel), script_of_scriptB _ _ _ (by simp) (by decide +kernel)⟩
  ok := List.all_eq_true.1 (by decide +kernel)
  nonempty := by simp [exprsOf, goodLines, Line.givesExpr]
  handled := by
    intro x hx e he
    simp only [exprsOf, goodLines, List.filterMap_cons, Line.givesExpr, List.filterMap_nil, List.mem_cons,
      List.not_mem_nil, or_false] at hx
    rcases hx with rfl | rfl
    · rw [ofText_ok 0 _ _ (by decide +kernel) rfl] at he
      obtain rfl := Option.some.inj (Except.ok.inj he)
      exact .plain (by decide +kernel) (by decide +kernel)
    · rw [ofText_ok 0 _ _ (by decide +kernel) rfl] at he
      obtain rfl := Option.some.inj (Except.ok.inj he)
      refine .block (pre := []) (post := [CharSet.ofChar 'e'].map Ast.cls) (kind := .transDelete 1) (bank := [0, 2, 19])
        ?_ rfl (by decide +kernel) fixed_nil (fixed_classes fun c hc => ?_) (by simp) (by decide +kernel)
        (by decide +kernel) (by decide +kernel)
      · have h1 : ['a', 'c', 't'].map chOfChar = [0, 2, 19] := by decide +kernel
        have h2 : clampKind 3 (.transDelete 1) = .transDelete 1 := by decide +kernel
        show Ast.seq [.anagram (clampKind 3 (.transDelete 1)) (['a', 'c', 't'].map chOfChar), .cls (CharSet.ofChar 'e')] = _
        rw [h1, h2]
        rfl
      · rw [List.mem_singleton] at hc
        subst hc
        decide +kernel

end Noodle
