import Verif.Props.C35
/-
C37: subset, superset and substring groups of single characters.
-/
namespace Noodle
open Spec Witness
set_option autoImplicit false

/-- A term that stands for one symbol: a character, `.` or brackets. -/
def Spec.Term.single : Term → Bool
  | .chr _ | .dot | .cls _ _ => true
  | _ => false

/-- Terms without suffixes and blanks. -/
def Spec.bareRow : Term → List Term → Row
  | t, [] => .last t .none 0
  | t, u :: us => .cons t .none 0 (bareRow u us)

/-- The symbols `u` are, one by one, what the terms stand for. -/
def Spec.Spells (ts : List Term) (u : List Ch) : Prop := List.Forall₂ (fun t x => t.Means [x]) ts u

/-- What a group stands for: `(…:-)` the spellings of some of the terms, in order; `(…:+)` the strings that contain
a spelling of the terms, in order but not necessarily together; `(…:^)` the spellings of neighbouring terms. -/
def Spec.PartOf : PartKind → List Term → List Ch → Prop
  | .subset, ts, v => ∃ s, s.Sublist ts ∧ Spells s v
  | .superset, ts, v => ∃ s, s.Sublist v ∧ Spells ts s
  | .substring, ts, v => ∃ s, s <:+: ts ∧ Spells s v

theorem single_tree {t : Term} (h : t.single = true) : ∃ c, termTree t = .cls c := by
  cases t <;> simp only [Term.single, Bool.false_eq_true] at h
  · exact ⟨_, rfl⟩
  · exact ⟨_, rfl⟩
  · exact ⟨_, rfl⟩

theorem single_means {t : Term} (h : t.single = true) (u : List Ch) : t.Means u ↔ ∃ x, u = [x] ∧ t.Means [x] := by
  constructor
  · intro hu
    cases t <;> simp only [Term.single, Bool.false_eq_true] at h <;>
      (simp only [Term.Means] at hu ⊢; obtain ⟨x, rfl, hx⟩ := hu; exact ⟨x, rfl, x, rfl, hx⟩)
  · rintro ⟨x, rfl, hx⟩; exact hx

theorem bareRow_parts : ∀ (t : Term) (ts : List Term), (bareRow t ts).parts = (t :: ts).map Term.Means
  | t, [] => by
    simp only [bareRow, Row.parts, List.map_cons, List.map_nil]
    congr 1
    funext u; apply propext
    simp only [Suffix.Of, Suffix.Allows, exists_eq_left, List.replicate_one, concat_one]
  | t, u :: us => by
    rw [bareRow, Row.parts, bareRow_parts u us, List.map_cons]
    congr 1
    funext u; apply propext
    simp only [Suffix.Of, Suffix.Allows, exists_eq_left, List.replicate_one, concat_one]

theorem bareRow_trees : ∀ (t : Term) (ts : List Term), rowTrees (bareRow t ts) = (t :: ts).map termTree
  | t, [] => rfl
  | t, u :: us => by rw [bareRow, rowTrees, bareRow_trees u us]; rfl

theorem bareRow_text : ∀ (t : Term) (ts : List Term), (bareRow t ts).text = (t :: ts).flatMap Term.text
  | t, [] => by simp [bareRow, Row.text, Suffix.text, gap]
  | t, u :: us => by
    rw [bareRow, Row.text, bareRow_text u us]
    simp [Suffix.text, gap]

theorem single_notNum {t : Term} (h : t.single = true) : t.isNum = false := by
  cases t <;> simp_all [Term.single, Term.isNum]

theorem bareRow_ok : ∀ (t : Term) (ts : List Term), (∀ x ∈ t :: ts, x.ok = true ∧ x.single = true) →
    (bareRow t ts).ok = true ∧ (bareRow t ts).bare = true
  | t, [], h => by
    have := (h t (by simp)).1
    simp [bareRow, Row.ok, Row.bare, Suffix.ok, this]
  | t, u :: us, h => by
    obtain ⟨h1, h2⟩ := bareRow_ok u us fun x hx => h x (List.mem_cons_of_mem _ hx)
    obtain ⟨h3, h4⟩ := h t (by simp)
    simp [bareRow, Row.ok, Row.bare, Suffix.ok, h1, h2, h3, single_notNum h4]

theorem concat_spells : ∀ (ts : List Term), (∀ t ∈ ts, t.single = true) → ∀ v,
    Concat (ts.map Term.Means) v ↔ Spells ts v
  | [], _, v => by
    constructor
    · intro h; cases h; exact .nil
    · intro h; cases h; rfl
  | t :: ts, h, v => by
    have ih := concat_spells ts fun x hx => h x (List.mem_cons_of_mem _ hx)
    have ht := single_means (h t (by simp))
    constructor
    · rintro ⟨a, b, rfl, h1, h2⟩
      obtain ⟨x, rfl, hx⟩ := (ht a).1 h1
      exact .cons hx ((ih b).1 h2)
    · intro hs
      cases hs with
      | cons hx hs => exact ⟨[_], _, rfl, hx, (ih _).2 hs⟩

theorem around_spells : ∀ (ts : List Term), (∀ t ∈ ts, t.single = true) → ∀ v,
    Around (ts.map Term.Means) v ↔ ∃ s, s.Sublist v ∧ Spells ts s
  | [], _, v => by
    constructor
    · intro _; exact ⟨[], List.nil_sublist _, .nil⟩
    · intro _; trivial
  | t :: ts, h, v => by
    have ih := around_spells ts fun x hx => h x (List.mem_cons_of_mem _ hx)
    have ht := single_means (h t (by simp))
    constructor
    · rintro ⟨g, a, b, rfl, h1, h2⟩
      obtain ⟨x, rfl, hx⟩ := (ht a).1 h1
      obtain ⟨s, hs1, hs2⟩ := (ih b).1 h2
      refine ⟨x :: s, ?_, .cons hx hs2⟩
      rw [List.append_assoc]
      exact (hs1.cons_cons x).trans (List.sublist_append_right g _)
    · rintro ⟨s, hs1, hs2⟩
      cases hs2 with
      | @cons _ x _ s hx hs2 =>
        obtain ⟨r1, r2, rfl, hr1, hr2⟩ := List.cons_sublist_iff.1 hs1
        obtain ⟨g, b, rfl⟩ := List.append_of_mem hr1
        refine ⟨g, [x], b ++ r2, by simp, hx, (ih _).2 ⟨s, hr2.trans (List.sublist_append_right _ _), hs2⟩⟩

theorem map_sublist_iff {s : List Strings} {ts : List Term} : s.Sublist (ts.map Term.Means) ↔
    ∃ r : List Term, r.Sublist ts ∧ s = r.map Term.Means := List.sublist_map_iff

theorem map_infix_iff {s : List Strings} {ts : List Term} : s <:+: ts.map Term.Means ↔
    ∃ r : List Term, r <:+: ts ∧ s = r.map Term.Means := by
  constructor
  · rintro ⟨a, b, h⟩
    obtain ⟨x, b', rfl, hx, rfl⟩ := List.map_eq_append_iff.1 h.symm
    obtain ⟨a', r, rfl, rfl, rfl⟩ := List.map_eq_append_iff.1 hx
    exact ⟨r, ⟨a', b', rfl⟩, rfl⟩
  · rintro ⟨r, ⟨a, b, rfl⟩, rfl⟩
    exact ⟨a.map Term.Means, b.map Term.Means, by simp⟩

theorem part_means (k : PartKind) (t : Term) (ts : List Term) (h : ∀ x ∈ t :: ts, x.single = true) (v : List Ch) :
    (Term.part k (bareRow t ts)).Means v ↔ PartOf k (t :: ts) v := by
  cases k with
  | subset =>
    simp only [Term.Means, bareRow_parts, PartOf, map_sublist_iff]
    constructor
    · rintro ⟨s, ⟨r, hr, rfl⟩, hc⟩
      exact ⟨r, hr, (concat_spells r (fun x hx => h x (hr.subset hx)) v).1 hc⟩
    · rintro ⟨r, hr, hc⟩
      exact ⟨_, ⟨r, hr, rfl⟩, (concat_spells r (fun x hx => h x (hr.subset hx)) v).2 hc⟩
  | substring =>
    simp only [Term.Means, bareRow_parts, PartOf, map_infix_iff]
    constructor
    · rintro ⟨s, ⟨r, hr, rfl⟩, hc⟩
      exact ⟨r, hr, (concat_spells r (fun x hx => h x (hr.subset hx)) v).1 hc⟩
    · rintro ⟨r, hr, hc⟩
      exact ⟨_, ⟨r, hr, rfl⟩, (concat_spells r (fun x hx => h x (hr.subset hx)) v).2 hc⟩
  | superset =>
    simp only [Term.Means, bareRow_parts, PartOf]
    exact around_spells _ h v

theorem tame_superset : ∀ {l : List Ast}, (l.all isClass) = true → ∀ t ∈ supersetOf l, tame t = true
  | [], _ => by intro t ht; rw [List.mem_singleton.1 ht]; decide
  | a :: l, h => by
    simp only [List.all_cons, Bool.and_eq_true] at h
    have e : supersetOf (a :: l) = .rep (.cls CharSet.all) 0 none :: a :: supersetOf l := rfl
    have ha : tame a = true := by
      cases a <;> simp only [isClass, Bool.false_eq_true, false_and] at h
      rw [tame]; exact h.1
    have h0 : tame (.rep (.cls CharSet.all) 0 none) = true := by decide
    intro t ht
    rw [e, List.mem_cons, List.mem_cons] at ht
    rcases ht with rfl | rfl | ht
    · exact h0
    · exact ha
    · exact tame_superset h.2 t ht

theorem tame_subset : ∀ {l : List Ast}, (l.all isClass) = true → ∀ t ∈ l.map (fun c => Ast.rep c 0 (some 1)), tame t = true
  | [], _ => by simp
  | a :: l, h => by
    simp only [List.all_cons, Bool.and_eq_true] at h
    have ha : tame (.rep a 0 (some 1)) = true := by
      cases a <;> simp only [isClass, Bool.false_eq_true, false_and] at h
      simp [tame, states, h.1]
    intro t ht
    rw [List.map_cons, List.mem_cons] at ht
    rcases ht with rfl | ht
    · exact ha
    · exact tame_subset h.2 t ht

theorem states_part (k : PartKind) (l : List Ast) (h : (l.all isClass) = true) :
    states (partTree k l) ≤ 4 * l.length + 3 := by
  have h1 : ∀ a : Ast, isClass a = true → states a = 1 := by
    intro a ha
    cases a <;> simp only [isClass, Bool.false_eq_true] at ha
    rfl
  have h2 : ∀ a : Ast, isClass a = true → states (.rep a 0 (some 1)) = 3 := by
    intro a ha
    simp [states, h1 a ha]
  have h3 : states (.rep (.cls CharSet.all) 0 none) = 3 := by simp [states]
  cases k with
  | substring =>
    rw [partTree, states]
    have : statesAll l = l.length := by
      induction l with
      | nil => rfl
      | cons a l ih =>
        simp only [List.all_cons, Bool.and_eq_true] at h
        rw [statesAll, h1 a h.1, ih h.2, List.length_cons]; omega
    omega
  | subset =>
    rw [partTree, states]
    have : statesAll (l.map fun c => .rep c 0 (some 1)) = 3 * l.length := by
      induction l with
      | nil => rfl
      | cons a l ih =>
        simp only [List.all_cons, Bool.and_eq_true] at h
        rw [List.map_cons, statesAll, h2 a h.1, ih h.2, List.length_cons]; omega
    omega
  | superset =>
    rw [partTree, states]
    have : statesAll (supersetOf l) = 4 * l.length + 3 := by
      induction l with
      | nil => rfl
      | cons a l ih =>
        simp only [List.all_cons, Bool.and_eq_true] at h
        have e : supersetOf (a :: l) = .rep (.cls CharSet.all) 0 none :: a :: supersetOf l := rfl
        rw [e, statesAll, statesAll, h1 a h.1, h3, ih h.2, List.length_cons]; omega
    omega

/-- C37: a group `(…:-)`, `(…:+)` or `(…:^)` of single characters, `.` and brackets (each of which stands for some symbol;
fewer than 4095 of them; two or more for `(…:^)`) matches exactly the words whose significant symbols are a subsequence,
a supersequence, a fragment of the terms (possibly followed by word ends). In `(…:+)` all symbols are significant, in the
others word ends and punctuation only if they are mentioned. Missing from the full property: other terms in the group
(for those `C43_meaning` gives the meaning of the tree, and `C46_words_partial` the words, if in the fragment), and
`(t:^)`, for which it is false (`C37_counterexample`). -/
theorem C37_parts_partial (k : PartKind) (t : Term) (ts : List Term)
    (hok : ∀ x ∈ t :: ts, x.ok = true ∧ x.single = true ∧ ∃ c, x.Means [c]) (hlen : ts.length < 4094)
    (htwo : k = .substring → ts ≠ []) :
    TextMatches (['('] ++ (t :: ts).flatMap Term.text ++ k.text) fun w =>
      ∃ u v n, Sifted (fun c => c.val < 26 ∨ k = .superset ∨ ∃ x ∈ t :: ts, x.Mentions c) w u ∧
        PartOf k (t :: ts) v ∧ u = v ++ List.replicate n Ch.wordEnd := by
  have hs : ∀ x ∈ t :: ts, x.single = true := fun x hx => (hok x hx).2.1
  obtain ⟨r1, r2⟩ := bareRow_ok t ts fun x hx => ⟨(hok x hx).1, hs x hx⟩
  have ha : (Alts.one (.last (.part k (bareRow t ts)) .none 0)).ok = true := by
    simp [Alts.ok, Row.ok, Term.ok, Suffix.ok, r1, r2]
  have hcls : ((t :: ts).map termTree).all isClass = true := by
    rw [List.all_eq_true]
    intro a haa
    obtain ⟨x, hx, rfl⟩ := List.mem_map.1 haa
    obtain ⟨h1, h2, c, h3⟩ := hok x hx
    obtain ⟨cs, hcs⟩ := single_tree h2
    rw [← term_means x h1, hcs] at h3
    rw [hcs, isClass]
    cases h3 with
    | cls h3 =>
      simp only [bne_iff_ne, ne_eq]
      rintro rfl
      rw [CharSet.contains_empty] at h3
      cases h3
  have hh : Handled (exprOf (.one (.last (.part k (bareRow t ts)) .none 0)) []) := by
    refine .plain ?_ ?_
    · show tame (altsTree (.one (.last (.part k (bareRow t ts)) .none 0))) = true
      rw [altsTree, rowTrees, suffixTree, termTree, bareRow_trees]
      refine tame_seq fun t ht => ?_
      rw [List.mem_singleton.1 ht]
      cases k with
      | subset => exact tame_seq (tame_subset hcls)
      | superset => exact tame_seq (tame_superset hcls)
      | substring =>
        rw [partTree, tame, hcls, Bool.and_true, decide_eq_true_eq]
        cases ts with
        | nil => exact absurd rfl (htwo rfl)
        | cons => simp
    · show states (altsTree (.one (.last (.part k (bareRow t ts)) .none 0))) < 16384
      rw [altsTree, rowTrees, suffixTree, termTree, bareRow_trees, states, statesAll, statesAll]
      have := states_part k _ hcls
      simp only [List.length_map, List.length_cons] at this
      omega
  obtain ⟨e, ex, es, h1, h2, h3, h4⟩ := one_exact' (b := 0) ha rfl rfl hh
  refine ⟨e, ex, es, ?_, h2, h3, fun w => (h4 w).trans ?_⟩
  · rw [← h1]
    simp [exprText, Alts.text, Row.text, Term.text, Suffix.text, flagsText, gap, bareRow_text]
  · have hm : ∀ c, (bareRow t ts).Mentions c ↔ ∃ x ∈ t :: ts, x.Mentions c := by
      intro c
      clear hok hlen htwo hs r1 r2 ha hcls hh h1 h4
      induction ts generalizing t with
      | nil => simp [bareRow, Row.Mentions]
      | cons u us ih => simp only [bareRow, Row.Mentions, ih u, List.mem_cons, exists_eq_or_imp]
    have hP : Significant (.one (.last (.part k (bareRow t ts)) .none 0)) [] =
        fun c => c.val < 26 ∨ k = .superset ∨ ∃ x ∈ t :: ts, x.Mentions c := by
      funext c
      apply propext
      have hc : c.val < 26 ∨ c = Ch.wordEnd ∨ c = Ch.punct := by
        have := c.isLt
        by_cases h27 : c.val = 27
        · exact .inr (.inl (Fin.ext h27))
        · by_cases h26 : c.val = 26
          · exact .inr (.inr (Fin.ext h26))
          · exact .inl (by omega)
      have hk : ∀ c, (Alts.one (.last (.part k (bareRow t ts)) .none 0)).Mentions c ↔
          k = .superset ∨ ∃ x ∈ t :: ts, x.Mentions c := by
        intro c
        rw [← hm]
        cases k <;> simp [Alts.Mentions, Row.Mentions, Term.Mentions]
      simp only [Significant, hk, List.not_mem_nil, false_and, exists_false, or_false]
      rcases hc with hc | rfl | rfl
      · simp [hc]
      · have : ¬ (Ch.wordEnd.val < 26) := by decide
        have h2 : Ch.wordEnd ≠ Ch.punct := by decide
        simp [this, h2]
      · have : ¬ (Ch.punct.val < 26) := by decide
        have h2 : Ch.punct ≠ Ch.wordEnd := by decide
        simp [this, h2]
    unfold Describes
    rw [hP]
    simp only [Alts.Means, Row.parts, concat_one, Suffix.Of, Suffix.Allows, exists_eq_left, List.replicate_one,
      part_means k t ts hs]

/-- The hypotheses hold of `(a[bc].:^)`, for instance. -/
example : ∀ x ∈ [Term.chr 'a', .cls false [.one 'b', .one 'c'], .dot], x.ok = true ∧ x.single = true ∧ ∃ c, x.Means [c] := by
  intro x hx
  simp only [List.mem_cons, List.not_mem_nil, or_false] at hx
  rcases hx with rfl | rfl | rfl
  · exact ⟨by decide +kernel, rfl, 0, 0, rfl, (C01_symbol _ _).1 (by decide +kernel)⟩
  · refine ⟨by decide +kernel, rfl, 1, 1, rfl, ?_⟩
    simp only [Bracket, Bool.false_eq_true, false_and, if_false]
    exact ⟨.one 'b', by simp, (C01_symbol _ _).1 (by decide +kernel)⟩
  · exact ⟨rfl, rfl, 0, 0, rfl, by decide⟩

/-- C37 is false of a group of one term: `b(a:^)` stands for `b`, but its compiled form does not accept `b`. -/
theorem C37_counterexample : ∃ (t : ExprAst) (e : Expr) (w : List Ch), ExprAst.ofText "b(a:^)".toList = .ok (some t) ∧
    fromAst t = .ok e ∧ Denotes t.root w ∧ ¬ Accepts e w := by
  have h := ofText_ok 0 (.one (.cons (.chr 'b') .none 0 (.last (.part .substring (.last (.chr 'a') .none 0)) .none 0))) []
    (by decide +kernel) rfl
  have e1 : exprText 0 (.one (.cons (.chr 'b') .none 0 (.last (.part .substring (.last (.chr 'a') .none 0)) .none 0))) [] =
    "b(a:^)".toList := by decide +kernel
  rw [e1] at h
  obtain ⟨e, he, hn⟩ := compiled_false (a := exprOf (.one (.cons (.chr 'b') .none 0
    (.last (.part .substring (.last (.chr 'a') .none 0)) .none 0))) []) (w := [1]) (by decide +kernel)
  refine ⟨_, e, _, h, he, ⟨[1], 0, ?_, rfl⟩, hn⟩
  show Lang (.seq [.cls (CharSet.ofChar 'b'), .substr [.cls (CharSet.ofChar 'a')]]) [1]
  refine .seqCons (u := [1]) (v := []) (.cls ((contains_ofChar _ _).2 ((C01_symbol _ _).1 (by decide +kernel)))) ?_
  exact .seqCons (u := []) (v := []) (Lang.substr (pre := []) (mid := []) (post := [_]) .seqNil) .seqNil

end Noodle
