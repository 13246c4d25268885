import Verif.Proofs.Anagram
import Verif.Spec.Fragment
/-
What `expand_expressions` makes of a tree: every anagram block (outside repetitions) replaced by its `i`-th constraint.
-/
namespace Noodle
open Spec
set_option autoImplicit false

mutual
/-- The anagram blocks of a tree, outside repetitions, from left to right. -/
def blocks : Ast → List (AnagramKind × List Ch)
  | .cls _ => []
  | .alts l => blocksAll l
  | .seq l => blocksAll l
  | .substr l => blocksAll l
  | .rep _ _ _ => []
  | .anagram k b => [(k, b)]
def blocksAll : List Ast → List (AnagramKind × List Ch)
  | [] => []
  | a :: l => blocks a ++ blocksAll l
end

mutual
/-- The tree with every block replaced. -/
def substBlocks (f : AnagramKind → List Ch → Ast) : Ast → Ast
  | .cls c => .cls c
  | .alts l => .alts (substAll f l)
  | .seq l => .seq (substAll f l)
  | .substr l => .substr (substAll f l)
  | .rep t lo hi => .rep t lo hi
  | .anagram k b => f k b
def substAll (f : AnagramKind → List Ch → Ast) : List Ast → List Ast
  | [] => []
  | a :: l => substBlocks f a :: substAll f l
end

theorem substAll_eq (f : AnagramKind → List Ch → Ast) : ∀ l : List Ast, substAll f l = l.map (substBlocks f)
  | [] => rfl
  | a :: l => by rw [substAll, substAll_eq f l]; rfl

mutual
theorem visit_collect : (a : Ast) → (s : List (AnagramKind × List Ch)) → visit collectAnagram a s = .ok (a, s ++ blocks a)
  | .cls c, s => by simp [visit, blocks]
  | .alts l, s => by rw [visit, visitAll_collect l s]; simp [blocks, Except.map]
  | .seq l, s => by rw [visit, visitAll_collect l s]; simp [blocks, Except.map]
  | .substr l, s => by rw [visit, visitAll_collect l s]; simp [blocks, Except.map]
  | .rep t lo hi, s => by simp [visit, blocks]
  | .anagram k b, s => by simp [visit, blocks, collectAnagram]
theorem visitAll_collect : (l : List Ast) → (s : List (AnagramKind × List Ch)) →
    visitAll collectAnagram l s = .ok (l, s ++ blocksAll l)
  | [], s => by simp [visitAll, blocksAll]
  | a :: l, s => by
    rw [visitAll, visit_collect a s]
    simp only [Except.bind]
    rw [visitAll_collect l]
    simp [Except.map, blocksAll]
end

mutual
theorem visit_replace {R : List (List Ast)} {i : Nat} {f : AnagramKind → List Ch → Ast} : (a : Ast) → (j : Nat) →
    (∀ n p, (blocks a)[n]? = some p → (R[j + n]?).bind (·[i]?) = some (f p.1 p.2)) →
    visit (replaceAnagram R i) a j = .ok (substBlocks f a, j + (blocks a).length)
  | .cls c, j, h => by simp [visit, blocks, substBlocks]
  | .alts l, j, h => by rw [visit, visitAll_replace l j h]; simp [blocks, substBlocks, Except.map]
  | .seq l, j, h => by rw [visit, visitAll_replace l j h]; simp [blocks, substBlocks, Except.map]
  | .substr l, j, h => by rw [visit, visitAll_replace l j h]; simp [blocks, substBlocks, Except.map]
  | .rep t lo hi, j, h => by simp [visit, blocks, substBlocks]
  | .anagram k b, j, h => by
    have := h 0 (k, b) rfl
    rw [Nat.add_zero] at this
    simp only [visit, replaceAnagram, this, substBlocks, blocks, List.length_singleton]
theorem visitAll_replace {R : List (List Ast)} {i : Nat} {f : AnagramKind → List Ch → Ast} : (l : List Ast) → (j : Nat) →
    (∀ n p, (blocksAll l)[n]? = some p → (R[j + n]?).bind (·[i]?) = some (f p.1 p.2)) →
    visitAll (replaceAnagram R i) l j = .ok (substAll f l, j + (blocksAll l).length)
  | [], j, h => by simp [visitAll, substAll, blocksAll]
  | a :: l, j, h => by
    rw [visitAll, visit_replace a j fun n p hp => h n p (by
      rw [blocksAll, List.getElem?_append_left (List.getElem?_eq_some_iff.1 hp).1]; exact hp)]
    simp only [Except.bind]
    rw [visitAll_replace l _ fun n p hp => by
      rw [Nat.add_assoc]
      exact h _ p (by rw [blocksAll, List.getElem?_append_right (by omega)]; simpa using hp)]
    simp [Except.map, substAll, blocksAll, Nat.add_assoc]
end

/-- The largest number of different symbols in a bank of the tree. -/
def variety (a : Ast) : Nat := (((blocks a).map fun p => (histogram p.2).length).max?).getD 0

theorem mapM_ok {α β : Type} {f : α → Except Crash β} {g : α → β} : ∀ {l : List α}, (∀ x ∈ l, f x = .ok (g x)) →
    l.mapM f = .ok (l.map g)
  | [], _ => rfl
  | x :: l, h => by
    rw [List.mapM_cons, h x (by simp), mapM_ok fun y hy => h y (by simp [hy])]; rfl

theorem expandOne_eq (e : ExprAst) : expandOne e = .ok ((List.range (variety e.root + 1)).map fun i =>
    { e with root := substBlocks (fun k b => astForAnagram k (histogram b) i) e.root }) := by
  unfold expandOne
  rw [visit_collect, List.nil_append]
  simp only [Except.bind]
  have hm : maxUnique ((blocks e.root).map fun p => (p.1, histogram p.2)) = variety e.root := by
    unfold maxUnique variety; rw [List.map_map]; rfl
  rw [hm]
  apply mapM_ok
  intro i hi
  rw [List.mem_range] at hi
  rw [visit_replace (f := fun k b => astForAnagram k (histogram b) i)]
  · rfl
  · intro n p hp
    unfold replacementsOf
    rw [hm, List.map_map, Nat.zero_add, List.getElem?_map, hp]
    simp [hi]

theorem expandExpressions_eq (es : List ExprAst) : expandExpressions es = .ok (es.flatMap fun e =>
    (List.range (variety e.root + 1)).map fun i =>
      { e with root := substBlocks (fun k b => astForAnagram k (histogram b) i) e.root }) := by
  unfold expandExpressions
  rw [mapM_ok fun x _ => expandOne_eq x]
  rfl

theorem mem_expand {es es' : List ExprAst} (h : expandExpressions es = .ok es') {e' : ExprAst} : e' ∈ es' ↔
    ∃ e ∈ es, ∃ i ≤ variety e.root, e' = { e with root := substBlocks (fun k b => astForAnagram k (histogram b) i) e.root } := by
  rw [expandExpressions_eq] at h
  cases h
  simp only [List.mem_flatMap, List.mem_map, List.mem_range, Nat.lt_succ_iff]
  constructor
  · rintro ⟨e, he, i, hi, rfl⟩; exact ⟨e, he, i, hi, rfl⟩
  · rintro ⟨e, he, i, hi, rfl⟩; exact ⟨e, he, i, hi, rfl⟩

/-! ### replacing never loses a string -/

mutual
theorem lang_subst {f : AnagramKind → List Ch → Ast} : (a : Ast) →
    (∀ p ∈ blocks a, ∀ u, Anagrams p.1 p.2 u → Lang (f p.1 p.2) u) → ∀ w, Lang a w → Lang (substBlocks f a) w
  | .cls c, _, w, h => h
  | .alts l, hf, w, h => by
    obtain ⟨b, hb, h⟩ := lang_alts.1 h
    rw [substBlocks]
    obtain ⟨b', hb', h'⟩ := lang_substAny l hf b hb w h
    exact .alts hb' h'
  | .seq l, hf, w, h => by
    rw [substBlocks]; exact lang_substSeq l hf w h
  | .substr l, hf, w, h => by
    obtain ⟨pre, mid, post, hl, hm⟩ := lang_substr.1 h
    rw [substBlocks, hl, substAll_eq, List.map_append, List.map_append]
    refine .substr ?_
    rw [← substAll_eq]
    have hsz : sizeOf mid ≤ sizeOf l := by
      rw [hl]
      have key : ∀ l m : List Ast, sizeOf (l ++ m) + 1 = sizeOf l + sizeOf m := by
        intro l m
        induction l with
        | nil => simp; omega
        | cons a l ih => simp at ih ⊢; omega
      have h1 := key (pre ++ mid) post
      have h2 := key pre mid
      have h3 : 1 ≤ sizeOf post := by cases post <;> simp; omega
      have h4 : 1 ≤ sizeOf pre := by cases pre <;> simp; omega
      omega
    have hmem : ∀ (l m : List Ast) p, p ∈ blocksAll (l ++ m) ↔ p ∈ blocksAll l ∨ p ∈ blocksAll m := by
      intro l m p
      induction l with
      | nil => simp [blocksAll]
      | cons a l ih => simp only [List.cons_append, blocksAll, List.mem_append, ih, or_assoc]
    exact lang_substSeq mid (fun p hp => hf p (by
      rw [blocks, hl, hmem, hmem]; exact .inl (.inr hp))) w hm
  | .rep t lo hi, _, w, h => by rw [substBlocks]; exact h
  | .anagram k b, hf, w, h => by
    cases h with
    | anagram h => exact hf (k, b) (by simp [blocks]) w h
termination_by a => sizeOf a
decreasing_by all_goals simp_wf; all_goals omega
theorem lang_substAny {f : AnagramKind → List Ch → Ast} : (l : List Ast) →
    (∀ p ∈ blocksAll l, ∀ u, Anagrams p.1 p.2 u → Lang (f p.1 p.2) u) → ∀ b ∈ l, ∀ w, Lang b w →
    ∃ b' ∈ substAll f l, Lang b' w
  | [], _, b, hb, _, _ => by simp at hb
  | a :: l, hf, b, hb, w, h => by
    rw [substAll]
    by_cases hba : b = a
    · subst hba
      exact ⟨_, by simp, lang_subst b (fun p hp => hf p (by rw [blocksAll]; simp [hp])) w h⟩
    · obtain ⟨b', h1, h2⟩ := lang_substAny l (fun p hp => hf p (by rw [blocksAll]; simp [hp])) b (by
        rcases List.mem_cons.1 hb with hb | hb
        · exact absurd hb hba
        · exact hb) w h
      exact ⟨b', by simp [h1], h2⟩
termination_by l => sizeOf l
decreasing_by all_goals simp_wf; all_goals (try subst_vars); all_goals (try simp); all_goals (try omega)
theorem lang_substSeq {f : AnagramKind → List Ch → Ast} : (l : List Ast) →
    (∀ p ∈ blocksAll l, ∀ u, Anagrams p.1 p.2 u → Lang (f p.1 p.2) u) → ∀ w, Lang (.seq l) w → Lang (.seq (substAll f l)) w
  | [], _, w, h => h
  | a :: l, hf, w, h => by
    obtain ⟨u, v, rfl, h1, h2⟩ := lang_seq_cons.1 h
    rw [substAll]
    exact .seqCons (lang_subst a (fun p hp => hf p (by rw [blocksAll]; simp [hp])) u h1)
      (lang_substSeq l (fun p hp => hf p (by rw [blocksAll]; simp [hp])) v h2)
termination_by l => sizeOf l
decreasing_by all_goals simp_wf; all_goals omega
end

/-! ### trees without blocks -/

mutual
theorem subst_none {f : AnagramKind → List Ch → Ast} : (a : Ast) → blocks a = [] → substBlocks f a = a
  | .cls c, _ => rfl
  | .alts l, h => by rw [substBlocks, substAll_none l h]
  | .seq l, h => by rw [substBlocks, substAll_none l h]
  | .substr l, h => by rw [substBlocks, substAll_none l h]
  | .rep t lo hi, h => rfl
  | .anagram k b, h => by simp [blocks] at h
theorem substAll_none {f : AnagramKind → List Ch → Ast} : (l : List Ast) → blocksAll l = [] → substAll f l = l
  | [], _ => rfl
  | a :: l, h => by
    rw [blocksAll, List.append_eq_nil_iff] at h
    rw [substAll, subst_none a h.1, substAll_none l h.2]
end

mutual
theorem tame_blocks : (a : Ast) → tame a = true → blocks a = []
  | .cls c, _ => rfl
  | .alts l, h => by
    rw [tame, Bool.and_eq_true] at h
    rw [blocks]; exact tameAlts_blocks l h.2
  | .seq l, h => by rw [blocks]; exact tameAll_blocks l (by rwa [tame] at h)
  | .substr l, h => by
    rw [tame, Bool.and_eq_true] at h
    rw [blocks]
    exact classes_blocks l h.2
  | .rep t lo hi, h => rfl
  | .anagram k b, h => by simp [tame] at h
theorem tameAll_blocks : (l : List Ast) → tameAll l = true → blocksAll l = []
  | [], _ => rfl
  | a :: l, h => by
    rw [tameAll, Bool.and_eq_true] at h
    rw [blocksAll, tame_blocks a h.1, tameAll_blocks l h.2]; rfl
theorem tameEnd_blocks : (a : Ast) → tameEnd a = true → blocks a = []
  | .cls c, _ => rfl
  | .alts l, h => by simp [tameEnd] at h
  | .seq l, h => by rw [blocks]; exact tameEndSeq_blocks l (by rwa [tameEnd] at h)
  | .substr l, h => by simp [tameEnd] at h
  | .rep t lo hi, h => rfl
  | .anagram k b, h => by simp [tameEnd] at h
theorem tameEndSeq_blocks : (l : List Ast) → tameEndSeq l = true → blocksAll l = []
  | [], _ => rfl
  | [a], h => by
    rw [blocksAll, tameEnd_blocks a (by rwa [tameEndSeq] at h)]; rfl
  | a :: b :: l, h => by
    rw [tameEndSeq, Bool.and_eq_true] at h
    rw [blocksAll, tame_blocks a h.1, tameEndSeq_blocks (b :: l) h.2]; rfl
theorem tameAlts_blocks : (l : List Ast) → tameAlts l = true → blocksAll l = []
  | [], _ => rfl
  | [a], h => by
    rw [tameAlts, Bool.and_eq_true] at h
    rw [blocksAll, tame_blocks a h.1]; rfl
  | a :: b :: l, h => by
    rw [tameAlts, Bool.and_eq_true] at h
    rw [blocksAll, tameEnd_blocks a h.1, tameAlts_blocks (b :: l) h.2]; rfl
theorem classes_blocks : (l : List Ast) → l.all isClass = true → blocksAll l = []
  | [], _ => rfl
  | a :: l, h => by
    rw [List.all_cons, Bool.and_eq_true] at h
    rw [blocksAll, classes_blocks l h.2]
    cases a <;> first | rfl | simp [isClass] at h
end

theorem blocksAll_append (l m : List Ast) : blocksAll (l ++ m) = blocksAll l ++ blocksAll m := by
  induction l with
  | nil => rfl
  | cons a l ih => rw [List.cons_append, blocksAll, ih, blocksAll, List.append_assoc]

/-! ### the generated constraints are in the fragment -/

theorem tame_constraint {kind : AnagramKind} {bank : List Ch} (hb : bank ≠ []) (i : Nat) :
    tame (astForAnagram kind (histogram bank) i) = true := by
  have hne : ∀ c : Ch, CharSet.ofCh c ≠ CharSet.empty := by
    intro c h
    have := CharSet.contains_ofCh c c
    rw [h, CharSet.contains_empty] at this
    simp at this
  have hbs : bankSet (histogram bank) ≠ CharSet.empty := by
    intro h
    cases bank with
    | nil => exact hb rfl
    | cons c l =>
      have := contains_bank (bank := c :: l) (x := c)
      rw [h, CharSet.contains_empty] at this
      simp at this
  have hlt : CharSet.letters ≠ CharSet.empty := by decide
  by_cases hi : i < (histogram bank).length
  · obtain ⟨⟨c, n⟩, hcn⟩ : ∃ p, (histogram bank)[i]? = some p := ⟨_, List.getElem?_eq_getElem hi⟩
    rw [ast_of_lt hcn]
    have h1 : tame (anagramFill kind (bankSet (histogram bank)) c) = true := by
      cases kind <;> simp [anagramFill, tame, anyClass]
    have h2 : tame (anagramChar kind c) = true := by
      cases kind <;> simp [anagramChar, tame, hne c, states]
    have key : ∀ l : List Ast, (∀ t ∈ l, tame t = true) → tameAll l = true := by
      intro l
      induction l with
      | nil => intro _; rfl
      | cons a l ih =>
        intro h
        rw [tameAll, h a (by simp), ih fun t ht => h t (by simp [ht])]; rfl
    unfold weave
    rw [tame]
    refine key _ fun t ht => ?_
    rw [List.mem_append, List.mem_flatten] at ht
    rcases ht with ⟨l, hl, ht⟩ | ht
    · rw [List.mem_replicate] at hl
      rw [hl.2] at ht
      simp only [List.mem_cons, List.not_mem_nil, or_false] at ht
      rcases ht with rfl | rfl
      · exact h1
      · exact h2
    · rw [List.mem_singleton.1 ht]; exact h1
  · rw [ast_of_ge (by omega)]
    cases kind <;> simp [anagramLength, tame, hbs, hlt, rigid, states, nullable, calm]

theorem statesAll_append (l m : List Ast) : statesAll (l ++ m) = statesAll l + statesAll m := by
  induction l with
  | nil => simp [statesAll]
  | cons a l ih => rw [List.cons_append, statesAll, ih, statesAll]; omega

/-- The number of letters a block adds. -/
def AnagramKind.extra : AnagramKind → Nat
  | .transAdd a => a
  | _ => 0

theorem states_constraint {kind : AnagramKind} {bank : List Ch} (i : Nat) :
    states (astForAnagram kind (histogram bank) i) ≤ 6 * bank.length + kind.extra + 3 := by
  by_cases hi : i < (histogram bank).length
  · obtain ⟨⟨c, n⟩, hcn⟩ : ∃ p, (histogram bank)[i]? = some p := ⟨_, List.getElem?_eq_getElem hi⟩
    obtain ⟨rfl, hc⟩ := mem_histogram.1 (List.mem_of_getElem? hcn)
    rw [ast_of_lt hcn]
    have h1 : states (anagramFill kind (bankSet (histogram bank)) c) = 3 := by
      cases kind <;> simp [anagramFill, states]
    have h2 : states (anagramChar kind c) ≤ 3 := by
      cases kind <;> simp [anagramChar, states]
    have key : ∀ k : Nat, statesAll (List.replicate k [anagramFill kind (bankSet (histogram bank)) c, anagramChar kind c]).flatten ≤ 6 * k := by
      intro k
      induction k with
      | zero => simp [statesAll]
      | succ k ih =>
        rw [List.replicate_succ, List.flatten_cons, statesAll_append]
        simp only [statesAll, h1]; omega
    unfold weave
    rw [states, statesAll_append]
    have h3 : bank.count c ≤ bank.length := List.count_le_length
    have h4 := key (bank.count c)
    simp only [statesAll, h1]
    omega
  · rw [ast_of_ge (by omega), histogram_sum]
    have hmax : ∀ a b : Nat, Nat.max a b = max a b := fun _ _ => rfl
    cases kind <;> simp only [anagramLength, AnagramKind.extra, states, Option.getD, hmax] <;> (repeat' split) <;> omega

end Noodle
