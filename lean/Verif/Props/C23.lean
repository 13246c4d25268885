import Verif.Proofs.GiveUp
import Verif.Props.C01
import Verif.Model.Parse
/-
C14, C23, C25: what happens when the planner gives up on a query of several expressions.
-/
namespace Noodle
open Spec List GiveUp
set_option autoImplicit false

/-- The word list: 202 words of the chain (`ab`, `ac`, ..., `ik`), `yz` and `zz`. -/
def giveUpWords : List Word := rest 1

theorem compile_query : ∃ E0 E1, query.mapM fromAst = .ok [E0, E1] ∧ Means 0 E0 ∧ Means 1 E1 := by
  obtain ⟨E0, h0, a0⟩ := C07_language_partial (a := ⟨root 0, {}⟩) tame_root.1 states_root.1
  obtain ⟨E1, h1, a1⟩ := C07_language_partial (a := ⟨root 1, {}⟩) tame_root.2 states_root.2
  refine ⟨E0, E1, ?_, ⟨C06_closed h0, (visible_fromAst h0 []).2, fun w => ?_⟩, C06_closed h1, (visible_fromAst h1 []).2, fun w => ?_⟩
  · rw [query, List.mapM_cons, List.mapM_cons, h0, h1]; rfl
  · rw [C12_matches (visible_fromAst h0 []).2, a0, (visible_fromAst h0 w).1]
  · rw [C12_matches (visible_fromAst h1 []).2, a1, (visible_fromAst h1 w).1]

theorem giveUp_sorted : TrSorted giveUpWords := by
  unfold TrSorted
  refine List.pairwise_of_forall_mem_list ?_
  intro a ha b hb
  have key : ∀ w ∈ giveUpWords, w.tranche = 0 := by
    intro w hw
    rcases mem_rest.1 hw with ⟨_, _, _, rfl⟩ | rfl | rfl <;> rfl
  rw [key a ha, key b hb]

/-- The plan for the query. -/
theorem giveUp_planned {E0 E1 : Expr} (h0 : Means 0 E0) (h1 : Means 1 E1) :
    ∃ L cL, Planned [E0, E1] giveUpWords 2 L true cL ∧ [zz, yz] ∈ L ∧ [yz, zz] ∉ L := by
  have hes : ∀ e ∈ [E0, E1], WF e := by
    intro e he
    simp only [List.mem_cons, List.not_mem_nil, or_false] at he
    rcases he with rfl | rfl
    · exact h0.1
    · exact h1.1
  have hpos : 0 < maxWordLen giveUpWords := by unfold maxWordLen; omega
  obtain ⟨ms, _, hsync⟩ := drainAll_sync (fun e he => (hes e he).nonempty)
    (chain_new false (maxWordLen giveUpWords) hpos [E0, E1] giveUpWords) (lt_maxWordLen giveUpWords)
  obtain ⟨hF, hlast, _⟩ := sync_last 2 [E0, E1] hes ms giveUpWords hsync
  have hall : giveUpWords.filter (aliveAll [E0, E1]) = rest 1 := by
    refine List.filter_eq_self.2 fun w hw => ?_
    have key : ∀ {e : Nat} (_ : e < 2) {ex : Expr}, Means e ex → aliveB ex false w.chars = true := by
      intro e he ex h
      obtain ⟨u, _, hm⟩ := h.useful he (i := 0) hw
      exact alive_of_phrase ex h.1 [u, w] (by simp) hm w (by simp)
    simp [aliveAll, key (by omega) h0, key (by omega) h1]
  rw [hall] at hF hlast
  obtain ⟨m, hm, hmal⟩ := hlast (by simp)
  obtain ⟨m0, m1, rfl⟩ : ∃ m0 m1, ms = [m0, m1] := by
    cases hF with
    | cons _ hF => cases hF with
      | cons _ hF => cases hF; exact ⟨_, _, rfl⟩
  obtain ⟨k0, k1⟩ : PInv 2 (rest 1) E0 m0 ∧ PInv 2 (rest 1) E1 m1 := by
    cases hF with
    | cons a hF => cases hF with
      | cons b hF => exact ⟨a, b⟩
  obtain ⟨m0', m1', ho, q0, q1, a0, a1⟩ := loop_gives_up h0 h1 100 (by omega) 1 m0 m1 rfl k0 k1
  have htr : dedup ((rest 1).map Word.tranche) = [0] := by decide +kernel
  have hq : initialQueue 2 (dedup ((rest 1).map Word.tranche)) = phases := by rw [htr]; rfl
  have hgave : planGaveUp [m0, m1] 2 = true := by
    unfold planGaveUp
    rw [hm]
    simp only
    rw [hmal, hq, ho]
  have hplan : plan [m0, m1] 2 = mkPhrase ⟨[m0', m1'], rest 203, phases, true⟩ := by
    unfold plan
    rw [hm]
    simp only
    rw [hmal, if_neg (by rw [htr]; decide), hq, ho]
  have q1' : QInv 2 (rest 203) E1 m1' :=
    ⟨⟨q1.1.1, by rw [a1, rest_cons (show 202 ≤ 202 by omega)]; exact List.sublist_cons_self _ _⟩, fun _ => q1.2 (rest_ne _)⟩
  have hsub : rest 203 = (rest 1).filter fun w => w == yz || w == zz := by decide +kernel
  rcases mkPhrase_spec (es := [E0, E1]) (A0 := rest 1) (depth := 2) (o := ⟨[m0', m1'], rest 203, phases, true⟩) giveUp_sorted
      (by simp [phases]) (.cons q0 (.cons q1' .nil)) _ hsub (fun _ => true) (by rw [hq]; rfl) with
    ⟨_, hc⟩ | ⟨hne, ps, c, ph, q, g1, g2, g3, g4, g5, _⟩
  · exact absurd hc (rest_ne _)
  obtain ⟨D, hD, hDR⟩ := delivers_exists g2.ok (by rw [g2.wl]; exact hne) _ g2.inv (Nat.lt_succ_self _)
  -- what each of the two matchers thinks of the two words
  have hwl : c.wl = [yz, zz] := g2.wl
  have hacc : ∀ i j : Nat, i < 2 → j < 2 → ([i, j] ∈ pendRes c ph q [0] ↔
      Matches E0 (charsOf (wordsOf (rest 203) [i, j])) ∧ Matches E1 (charsOf (wordsOf (rest 202) [i, j]))) := by
    intro i j hi hj
    rw [g5.mem_iff]
    have hr : List.range' 2 (2 - 1) = [2] := rfl
    simp only [hr, List.flatMap_cons, List.flatMap_nil, List.append_nil, if_true, List.mem_filter, mem_tups, List.nil_append]
    have ht : ∃ s : List Nat, s.length = 2 ∧ (∀ i ∈ s, i < (rest 203).length) ∧ [i, j] = s := by
      refine ⟨[i, j], rfl, ?_, rfl⟩
      have : (rest 203).length = 2 := rfl
      rw [this]
      simp [hi, hj]
    obtain ⟨T0, hT0⟩ := q0.1.1.body (by rw [a0]; exact rest_ne _)
    obtain ⟨T1, hT1⟩ := q1.1.1.body (by rw [a1]; exact rest_ne _)
    have e0 := success_iff hT0 c.fm (g4 m0' (by simp)) [i, j] (by
      rw [a0]; have : (rest 203).length = 2 := rfl
      rw [this]; simp [hi, hj]) (by simp) (Nat.le_refl 2)
    have e1 := success_iff hT1 c.fm (g4 m1' (by simp)) [i, j] (by
      rw [a1]; have : (rest 202).length = 3 := rfl
      rw [this]; simp only [List.mem_cons, List.not_mem_nil, or_false]; rintro x (rfl | rfl) <;> omega) (by simp) (Nat.le_refl 2)
    rw [a0] at e0
    rw [a1] at e1
    rw [← e0, ← e1, g3]
    constructor
    · rintro ⟨_, h⟩
      simpa [accB] using h
    · intro h
      exact ⟨ht, by simpa [accB] using h⟩
  have hin : [1, 0] ∈ pendRes c ph q [0] := by
    refine (hacc 1 0 (by omega) (by omega)).2 ⟨?_, ?_⟩
    · refine (h0.iff (by omega) (two_two 25 25) (two_two 24 25)).2 (Or.inr ?_)
      simp only [ltr_val]
      decide
    · refine (h1.iff (by omega) (two_two 24 25) (two_two 8 10)).2 (Or.inr ?_)
      simp only [ltr_val]
      omega
  have hout : [0, 1] ∉ pendRes c ph q [0] := by
    intro hc
    have := ((hacc 0 1 (by omega) (by omega)).1 hc).2
    rcases (h1.iff (by omega) (two_two 8 10) (two_two 24 25)).1 this with ⟨k, _, _, _, _, _, _, k4⟩ | ⟨k1, _⟩
    · have := ltr_inj (by omega) (by omega) k4
      omega
    · rw [ltr_val] at k1; omega
  have hwords : wordsOf c.wl [1, 0] = [zz, yz] := by rw [hwl]; rfl
  refine ⟨D, pendCost c ph q [0], ?_, ?_, ?_⟩
  · unfold Planned
    rw [if_neg (by omega)]
    intro ms' h'
    rw [h'.unique hsync]
    exact Or.inr ⟨ps, c, ph, q, hplan.trans g1, g2.ok, by rw [g2.wl]; exact hne, g2.inv, hD, Nat.le_refl _, hgave⟩
  · have hmem : [zz, yz] ∈ (pendRes c ph q [0]).map (wordsOf c.wl) := List.mem_map.2 ⟨_, hin, hwords⟩
    rcases hDR with hDR | ⟨d, w, hDR⟩
    · rw [← hDR]; exact hmem
    · rw [hDR] at hmem
      rcases List.mem_append.1 hmem with h | h
      · exact h
      · exfalso
        have h := List.mem_singleton.1 h
        have z1 : zz ∈ List.replicate d w := by rw [← h]; simp
        have z2 : yz ∈ List.replicate d w := by rw [← h]; simp
        have := (List.eq_of_mem_replicate z1).trans (List.eq_of_mem_replicate z2).symm
        exact absurd this (by decide)
  · intro hc
    have hmem : [yz, zz] ∈ (pendRes c ph q [0]).map (wordsOf c.wl) := by
      rcases hDR with hDR | ⟨d, w, hDR⟩ <;> rw [hDR]
      · exact hc
      · exact List.mem_append_left _ hc
    obtain ⟨p, hp, hpw⟩ := List.mem_map.1 hmem
    have hp2 := g5.subset hp
    simp only [List.mem_flatMap, if_true, List.mem_filter, mem_tups, List.nil_append] at hp2
    obtain ⟨d, hd, ⟨s, hs1, hs2, rfl⟩, _⟩ := hp2
    have : d = 2 := by
      have := List.mem_range'_1.1 hd
      omega
    subst this
    match p, hs1 with
    | [i, j], _ =>
      have hi := hs2 i (by simp)
      have hj := hs2 j (by simp)
      have hl : (rest 203).length = 2 := rfl
      rw [hl] at hi hj
      have hi' : i = 0 ∨ i = 1 := by omega
      have hj' : j = 0 ∨ j = 1 := by omega
      rw [hwl] at hpw
      rcases hi' with rfl | rfl <;> rcases hj' with rfl | rfl
      · exact absurd hpw (by decide)
      · exact hout hp
      · exact absurd hpw (by decide)
      · exact absurd hpw (by decide)

/-- C14, C23, C25: the exception in `C23_sound_partial`, `C14_close_partial` and `C25_partial` is needed. There is a query of
two expressions of the fragment and a word list of 204 words for which a run gives up optimising, says so in the log, and
then reports a phrase that the second expression rejects, and, though it completes and has no limit, does not report a
phrase both accept (which is not a word repeated). -/
theorem C23_counterexample : ∃ es, query.mapM fromAst = .ok es ∧ Ready es giveUpWords ∧ ∃ clks rs,
    Session es giveUpWords 2 none clks rs ∧ Completed rs ∧ GaveUp rs ∧
    [zz, yz] ∈ reported rs ∧ (∃ e ∈ es, e.fuzz = 0 ∧ ¬ Matches e (charsOf [zz, yz])) ∧
    Answer es giveUpWords 2 [yz, zz] ∧ [yz, zz] ∉ reported rs := by
  obtain ⟨E0, E1, hes, h0, h1⟩ := compile_query
  have hr : Ready [E0, E1] giveUpWords := C06_ready (by simp [query]) hes giveUp_sorted
  refine ⟨[E0, E1], hes, hr, ?_⟩
  obtain ⟨L, cL, hL, hin, hout⟩ := giveUp_planned h0 h1
  obtain ⟨q, hq⟩ : ∃ q, QState.new [E0, E1] giveUpWords 2 none = .ok q := by
    unfold QState.new; rw [if_neg (by simp)]; exact ⟨_, rfl⟩
  obtain ⟨k1, k2, k3, k4, k5, k6⟩ := new_inv L true cL hq
  obtain ⟨q', rs, r1, H⟩ := run_spec hr.wf (List.replicate (giveUpWords.length + 1 + cL + 1) none) q _ _ (by rw [k2]; exact hL) k1 k5
  have hc : Resp.complete ∈ rs := H.progress (by simp [List.countP_replicate])
  have hrep : reported rs = (giveUpWords.filter (allB [E0, E1])).map (fun w => [w]) ++ L := by
    rw [reported_eq, H.complete hc, k3]; rfl
  refine ⟨_, rs, ⟨q, q', hq, r1⟩, hc, ?_, ?_, ?_, ?_, ?_⟩
  · rcases H.quiet k6 hc k3 with h | h
    · exact h
    · cases h
  · rw [hrep]; exact List.mem_append_right _ hin
  · refine ⟨E1, by simp, h1.2.1, fun hall => ?_⟩
    rcases (h1.iff (by omega) (two_two 25 25) (two_two 24 25)).1 hall with ⟨k, _, _, _, k1, _, _, _⟩ | ⟨k1, _⟩
    · have := ltr_inj (by omega) (by omega) k1
      omega
    · rw [ltr_val] at k1; omega
  · refine ⟨by simp, Nat.le_refl 2, ?_, ?_⟩
    · intro w hw
      simp only [List.mem_cons, List.not_mem_nil, or_false] at hw
      rcases hw with rfl | rfl
      · exact mem_rest.2 (Or.inr (Or.inl rfl))
      · exact mem_rest.2 (Or.inr (Or.inr rfl))
    · intro e he
      simp only [List.mem_cons, List.not_mem_nil, or_false] at he
      rcases he with rfl | rfl
      · exact h0.yz (by omega) (two_two 25 25) (Or.inl (by rw [ltr_val]; omega))
      · exact h1.yz (by omega) (two_two 25 25) (Or.inl (by rw [ltr_val]; omega))
  · rw [hrep]
    intro hc
    rcases List.mem_append.1 hc with hc | hc
    · obtain ⟨w, _, hw⟩ := List.mem_map.1 hc
      simp at hw
    · exact hout hc

theorem lev_eq {u v : List Ch} (h : lev u v = 0) : u = v := by
  induction u generalizing v with
  | nil => cases v with
    | nil => rfl
    | cons b v => simp [lev] at h
  | cons a u ih => cases v with
    | nil => simp [lev] at h
    | cons b v =>
      rw [lev_cons] at h
      by_cases hab : a = b
      · rw [hab, ih (v := v) (by rw [if_pos hab] at h; omega)]
      · rw [if_neg hab] at h; omega

/-- C14: so a session may report a phrase that is not within the allowed distance of anything one of the expressions
accepts. -/
theorem C14_counterexample : ∃ es, query.mapM fromAst = .ok es ∧ Ready es giveUpWords ∧ ∃ clks rs,
    Session es giveUpWords 2 none clks rs ∧ Completed rs ∧
    ∃ ws ∈ reported rs, ∃ e ∈ es, ∀ u, Accepts e u → ¬ lev (visible e (charsOf ws)) u ≤ e.fuzz := by
  obtain ⟨es, h1, h2, clks, rs, h3, h4, _, h6, ⟨e, he, hf, hno⟩, _⟩ := C23_counterexample
  refine ⟨es, h1, h2, clks, rs, h3, h4, _, h6, e, he, fun u hu hl => hno ?_⟩
  rw [C12_matches hf, lev_eq (show lev (visible e (charsOf [zz, yz])) u = 0 by omega)]
  exact hu

/-! ### The query as text -/

mutual
/-- Are two trees of classes, sequences and alternatives the same? -/
def sameAst : Ast → Ast → Bool
  | .cls c, .cls d => c == d
  | .alts l, .alts r => sameAsts l r
  | .seq l, .seq r => sameAsts l r
  | _, _ => false
def sameAsts : List Ast → List Ast → Bool
  | [], [] => true
  | a :: l, b :: r => sameAst a b && sameAsts l r
  | _, _ => false
end
mutual
theorem sameAst_eq : ∀ a b : Ast, sameAst a b = true → a = b
  | .cls c, b => by cases b <;> simp [sameAst]
  | .alts l, b => by
    cases b <;> simp [sameAst]
    exact sameAsts_eq _ _
  | .seq l, b => by
    cases b <;> simp [sameAst]
    exact sameAsts_eq _ _
  | .substr l, b => by cases b <;> simp [sameAst]
  | .rep _ _ _, b => by cases b <;> simp [sameAst]
  | .anagram _ _, b => by cases b <;> simp [sameAst]
theorem sameAsts_eq : ∀ l r : List Ast, sameAsts l r = true → l = r
  | [], r => by cases r <;> simp [sameAsts]
  | a :: l, r => by
    cases r with
    | nil => simp [sameAsts]
    | cons b r =>
      simp only [sameAsts, Bool.and_eq_true, List.cons.injEq]
      exact fun h => ⟨sameAst_eq _ _ h.1, sameAsts_eq _ _ h.2⟩
end

/-- The letter number `n`. -/
def chr (n : Nat) : Char := Char.ofNat (97 + n)
/-- Two words of the chain, one after the other. -/
def pairText (k : Nat) : List Char := [chr ((k - 1) / 24), chr ((k - 1) % 24), chr (k / 24), chr (k % 24)]
/-- One line: `abac|adae|...|ijik|.[bdfhjlnprtvxyz].[bdfhjlnprtvxyz]` or
`aaab|acad|...|iiij|[^iz][acegikmoqsuwyz].[acegikmoqsuwyz]`. -/
def lineText (e : Nat) : List Char :=
  ((List.range' 1 202).filter fun k => k % 2 == e).flatMap (fun k => pairText k ++ ['|']) ++
    (if e = 0 then ".[bdfhjlnprtvxyz].[bdfhjlnprtvxyz]" else "[^iz][acegikmoqsuwyz].[acegikmoqsuwyz]").toList
/-- The query as a user types it: two lines, of about 550 characters each. -/
def queryText : List Char := lineText 0 ++ ['\n'] ++ lineText 1

/-- Was the query read as these expressions? -/
def readAs (es : List ExprAst) : Except ParseError QueryAst → Bool
  | .ok q => sameAsts (q.expressions.map ExprAst.root) (es.map ExprAst.root) &&
      q.expressions.map ExprAst.options == es.map ExprAst.options
  | .error _ => false

theorem readAs_eq {es : List ExprAst} {r : Except ParseError QueryAst} (h : readAs es r = true) :
    ∃ q, r = .ok q ∧ q.expressions = es := by
  cases r with
  | error x => cases h
  | ok q =>
    refine ⟨q, rfl, ?_⟩
    simp only [readAs, Bool.and_eq_true, beq_iff_eq] at h
    obtain ⟨h0, h2⟩ := h
    have h1 := sameAsts_eq _ _ h0
    clear h0
    generalize q.expressions = l at h1 h2
    induction l generalizing es with
    | nil => cases es with
      | nil => rfl
      | cons b r => simp at h1
    | cons a l ih => cases es with
      | nil => simp at h1
      | cons b r =>
        simp only [List.map_cons, List.cons.injEq] at h1 h2
        rw [ih h1.2 h2.2]
        congr 1
        cases a; cases b
        simp only [ExprAst.mk.injEq]
        exact ⟨h1.1, h2.1⟩

theorem queryText_read : readAs query (QueryAst.ofText asciiUnicode queryText) = true := by decide +kernel

/-- C23: the query of `C23_counterexample` is what the parser makes of a text. -/
theorem C23_query_text : ∃ q, QueryAst.ofText asciiUnicode queryText = .ok q ∧ q.expressions = query :=
  readAs_eq queryText_read

/-- The words are what the loader makes of their texts. -/
theorem giveUp_words : ∀ w ∈ giveUpWords, w = Word.new asciiUnicode w.text 0 1 := by decide +kernel

end Noodle
