import Verif.Proofs.Query
/-
Whole histories of calls.
-/
namespace Noodle
open Spec List

/-- The matches among the responses, in order. -/
def matchesOf (rs : List Resp) : List (List Word) :=
  rs.filterMap fun r => match r with | .matched ws => some ws | _ => none

/-- The first results up to a limit, of which `count` have been given already. -/
def cut (limit : Option Nat) (count : Nat) (R : List (List Word)) : List (List Word) :=
  match limit with
  | none => R
  | some l => R.take (l - count)

theorem cut_cons {limit : Option Nat} {count : Nat} (h : (limit.any fun l => decide (l ≤ count)) = false) (ws : List Word)
    (R : List (List Word)) : cut limit count (ws :: R) = ws :: cut limit (count + 1) R := by
  cases limit with
  | none => rfl
  | some l =>
    simp at h
    obtain ⟨k, hk⟩ : ∃ k, l - count = k + 1 := ⟨l - count - 1, by omega⟩
    simp only [cut, hk, List.take_succ_cons]
    congr 2
    omega

theorem cut_full {limit : Option Nat} {count : Nat} (h : (limit.any fun l => decide (l ≤ count)) = true)
    (R : List (List Word)) : cut limit count R = [] := by
  cases limit with
  | none => simp at h
  | some l =>
    simp at h
    have : l - count = 0 := by omega
    simp [cut, this]

theorem cut_nil (limit : Option Nat) (count : Nat) : cut limit count [] = [] := by
  cases limit <;> simp [cut]

theorem run_done (q : QState) (h : q.phase = .done) (clks : List Clock) :
    q.run clks = .ok (q, List.replicate clks.length .complete) := by
  induction clks with
  | nil => rfl
  | cons c cs ih =>
    have : q.next c = .ok (q, .complete) := by unfold QState.next; rw [h]
    simp only [QState.run, this, ih]
    rfl

theorem next_full (q : QState) (hd : q.isDone = false) (hf : q.full = true) (clk : Clock) :
    q.next clk = .ok ({ q with phase := .done }, .complete) := by
  obtain ⟨phase, depth, limit, count⟩ := q
  simp only [QState.full] at hf
  unfold QState.next
  cases phase with
  | done => simp [QState.isDone] at hd
  | word ms wl => simp only; rw [if_pos hf]
  | phrase ps => simp only; rw [if_pos hf]

theorem matchesOf_replicate (n : Nat) : matchesOf (List.replicate n .complete) = [] := by
  induction n with
  | zero => rfl
  | succ n _ => simp [matchesOf]

/-- What a history of calls looks like. -/
structure History (L : List (List Word)) (g : Bool) (q : QState) (R : List (List Word)) (n : Nat) (clks : List Clock)
    (rs : List Resp) : Prop where
  len : rs.length = clks.length
  pre : matchesOf rs <+: cut q.resultsLimit q.resultsCount R
  split : ∃ a k, rs = a ++ List.replicate k .complete ∧ .complete ∉ a
  complete : .complete ∈ rs → matchesOf rs = cut q.resultsLimit q.resultsCount R
  progress : n < clks.countP (fun c => c != some 0) → .complete ∈ rs
  deadline : ∀ i : Nat, clks[i]? = some none → rs[i]? ≠ some .timeout
  noLogs : q.isPhrase = true → .logs g ∉ rs
  logs : ∀ a b, rs = a ++ .logs g :: b → R = matchesOf a ++ L ∧ .logs g ∉ b
  flag : ∀ b, .logs b ∈ rs → b = g
  quiet : q.isPhrase = false → .complete ∈ rs → q.resultsLimit = none → .logs g ∈ rs ∨ g = false
  single : q.isPhrase = false → .logs g ∉ rs → ∃ S, R = matchesOf rs ++ S ++ L

theorem word_split {es : List Expr} {wl : List Word} {depth : Nat} {L : List (List Word)} {g : Bool} {cL : Nat} {q : QState}
    {R : List (List Word)} {n : Nat} (hq : PhaseInv es wl depth L g cL q.phase R n) (hd : q.isDone = false)
    (hp : q.isPhrase = false) : ∃ S, R = S ++ L := by
  obtain ⟨ph, _, _, _⟩ := q
  cases ph with
  | word ms wl' =>
    obtain ⟨_, _, _, _, _, _, _, _, _, _, _, _, hR, _⟩ := hq
    exact ⟨_, hR⟩
  | phrase ps => simp [QState.isPhrase] at hp
  | done => simp [QState.isDone] at hd

theorem run_spec {es : List Expr} (hes : ∀ e ∈ es, WF e) {wl : List Word} {L : List (List Word)} {g : Bool} {cL : Nat} (clks : List Clock) :
    ∀ (q : QState) (R : List (List Word)) (n : Nat), Planned es wl q.depthLimit L g cL →
      PhaseInv es wl q.depthLimit L g cL q.phase R n → q.isDone = false →
      ∃ q' rs, q.run clks = .ok (q', rs) ∧ History L g q R n clks rs := by
  induction clks with
  | nil =>
    intro q R n hL hq hd
    exact ⟨q, [], rfl, rfl, List.nil_prefix, ⟨[], 0, rfl, by simp⟩, by simp, by simp, by simp, by simp, by simp, by simp, by simp,
      fun hp _ => by obtain ⟨S, hS⟩ := word_split hq hd hp; exact ⟨S, by simpa [matchesOf] using hS⟩⟩
  | cons c cs ih =>
    intro q R n hL hq hd
    -- histories that end here
    have hend : ∀ q1 : QState, q.next c = .ok (q1, .complete) → q1.phase = .done →
        cut q.resultsLimit q.resultsCount R = [] →
        (q.isPhrase = false → q.resultsLimit = none → g = false) →
        ∃ q' rs, q.run (c :: cs) = .ok (q', rs) ∧ History L g q R n (c :: cs) rs := by
      intro q1 h1 h2 h3 hg
      have hall : ∀ r ∈ Resp.complete :: List.replicate cs.length Resp.complete, r = .complete := by
        intro r hr
        rcases List.mem_cons.1 hr with rfl | hr
        · rfl
        · exact List.eq_of_mem_replicate hr
      have hm : matchesOf (Resp.complete :: List.replicate cs.length Resp.complete) = [] := by
        rw [← List.replicate_succ]; exact matchesOf_replicate _
      refine ⟨q1, .complete :: List.replicate cs.length .complete, by simp only [QState.run, h1, run_done q1 h2], ?_⟩
      refine ⟨by simp, ?_, ⟨[], cs.length + 1, by rw [List.nil_append, List.replicate_succ], by simp⟩, ?_, ?_, ?_, ?_, ?_, ?_, fun h _ h' => Or.inr (hg h h'), ?_⟩
      · rw [hm]; exact List.nil_prefix
      · intro _
        rw [hm]
        exact h3.symm
      · intro _; simp
      · intro i _ hc
        have := hall _ (List.mem_of_getElem? hc)
        simp at this
      · intro _ hc
        have := hall _ hc
        simp at this
      · intro a b hab
        exfalso
        have := hall (.logs g) (by rw [hab]; simp)
        simp at this
      · intro b hb
        have := hall _ hb
        simp at this
      · intro hp _
        rw [hm]
        obtain ⟨S, hS⟩ := word_split hq hd hp
        exact ⟨S, by simpa using hS⟩
    by_cases hf : q.full = true
    · refine hend _ (next_full q hd hf c) rfl (cut_full hf R) fun _ h => ?_
      simp [QState.full, h] at hf
    · have hf' : q.full = false := by simpa using hf
      obtain ⟨q1, r, h1, h2, h3, h4⟩ := next_step hes q hL R n hq hd hf' c
      cases h4 with
      | empty e1 e2 e3 _ _ _ => exact hend q1 h1 e2 (by rw [e1]; exact cut_nil _ _) fun h _ => e3 h
      | matched ws R' n' e1 e2 e3 e4 e5 e6 =>
        obtain ⟨q2, rs, g1, g2⟩ := ih q1 R' n' (by rw [h2]; exact hL) (by rw [h2]; exact e2) e4
        refine ⟨q2, .matched ws :: rs, by simp only [QState.run, h1, g1], ?_⟩
        have hm : matchesOf (.matched ws :: rs) = ws :: matchesOf rs := rfl
        have hcut : cut q.resultsLimit q.resultsCount R = ws :: cut q1.resultsLimit q1.resultsCount R' := by
          rw [e1, cut_cons hf', h3, e6]
        refine ⟨by simp [g2.len], ?_, ?_, ?_, ?_, ?_, ?_, ?_, ?_, ?_, ?_⟩
        · rw [hm, hcut]
          exact (List.prefix_cons_inj ws).2 g2.pre
        · obtain ⟨a, k, p1, p2⟩ := g2.split
          exact ⟨.matched ws :: a, k, by rw [p1]; rfl, by simp [p2]⟩
        · intro hc
          rw [hm, hcut]
          rw [g2.complete (by simpa using hc)]
        · intro hc
          have : n' < cs.countP (fun c => c != some 0) := by
            rw [List.countP_cons] at hc; split at hc <;> omega
          simp [g2.progress this]
        · intro i hi
          cases i with
          | zero => simp
          | succ i => simpa using g2.deadline i (by simpa using hi)
        · intro hp
          simp [g2.noLogs (by rw [e5]; exact hp)]
        · intro a b hab
          cases a with
          | nil => simp at hab
          | cons x a =>
            simp only [List.cons_append, List.cons.injEq] at hab
            obtain ⟨rfl, hab⟩ := hab
            obtain ⟨p1, p2⟩ := g2.logs a b hab
            refine ⟨?_, p2⟩
            rw [e1, p1]; rfl
        · intro b hb
          exact g2.flag b (by simpa using hb)
        · intro hp hc hl
          rcases g2.quiet (by rw [e5]; exact hp) (by simpa using hc) (by rw [h3]; exact hl) with h | h
          · exact Or.inl (by simp [h])
          · exact Or.inr h
        · intro hp hl
          obtain ⟨S, hS⟩ := g2.single (by rw [e5]; exact hp) (by simpa using hl)
          exact ⟨S, by rw [e1, hS, hm]; rfl⟩
      | timeout n' e0 e2 e3 e3' e4 e5 e6 =>
        obtain ⟨q2, rs, g1, g2⟩ := ih q1 R n' (by rw [h2]; exact hL) (by rw [h2]; exact e2) e4
        refine ⟨q2, .timeout :: rs, by simp only [QState.run, h1, g1], ?_⟩
        have hm : matchesOf (.timeout :: rs) = matchesOf rs := rfl
        have hcut : cut q.resultsLimit q.resultsCount R = cut q1.resultsLimit q1.resultsCount R := by
          rw [h3, e6]
        refine ⟨by simp [g2.len], ?_, ?_, ?_, ?_, ?_, ?_, ?_, ?_, ?_, ?_⟩
        · rw [hm, hcut]; exact g2.pre
        · obtain ⟨a, k, p1, p2⟩ := g2.split
          exact ⟨.timeout :: a, k, by rw [p1]; rfl, by simp [p2]⟩
        · intro hc
          rw [hm, hcut]
          exact g2.complete (by simpa using hc)
        · intro hc
          have : n' < cs.countP (fun c => c != some 0) := by
            rw [List.countP_cons] at hc
            by_cases h0 : c = some 0
            · simp [h0] at hc; omega
            · have := e3' h0
              split at hc <;> omega
          simp [g2.progress this]
        · intro i hi
          cases i with
          | zero => simp at hi; exact absurd hi e0
          | succ i => simpa using g2.deadline i (by simpa using hi)
        · intro hp
          simp [g2.noLogs (by rw [e5]; exact hp)]
        · intro a b hab
          cases a with
          | nil => simp at hab
          | cons x a =>
            simp only [List.cons_append, List.cons.injEq] at hab
            obtain ⟨rfl, hab⟩ := hab
            exact g2.logs a b hab
        · intro b hb
          exact g2.flag b (by simpa using hb)
        · intro hp hc hl
          rcases g2.quiet (by rw [e5]; exact hp) (by simpa using hc) (by rw [h3]; exact hl) with h | h
          · exact Or.inl (by simp [h])
          · exact Or.inr h
        · intro hp hl
          rw [hm]
          exact g2.single (by rw [e5]; exact hp) (by simpa using hl)
      | logs n' e2 e3 e4 e5 e6 e7 e8 =>
        have hd1 : q1.isDone = false := by
          obtain ⟨ph1, _, _, _⟩ := q1
          cases ph1 <;> simp_all [QState.isPhrase, QState.isDone]
        obtain ⟨q2, rs, g1, g2⟩ := ih q1 R n' (by rw [h2]; exact hL) (by rw [h2]; exact e2) hd1
        refine ⟨q2, .logs g :: rs, by simp only [QState.run, h1, g1], ?_⟩
        have hm : matchesOf (.logs g :: rs) = matchesOf rs := rfl
        have hcut : cut q.resultsLimit q.resultsCount R = cut q1.resultsLimit q1.resultsCount R := by
          rw [h3, e7]
        refine ⟨by simp [g2.len], ?_, ?_, ?_, ?_, ?_, ?_, ?_, ?_, ?_, ?_⟩
        · rw [hm, hcut]; exact g2.pre
        · obtain ⟨a, k, p1, p2⟩ := g2.split
          exact ⟨.logs g :: a, k, by rw [p1]; rfl, by simp [p2]⟩
        · intro hc
          rw [hm, hcut]
          exact g2.complete (by simpa using hc)
        · intro hc
          have : n' < cs.countP (fun c => c != some 0) := by
            rw [List.countP_cons] at hc; split at hc <;> omega
          simp [g2.progress this]
        · intro i hi
          cases i with
          | zero => simp
          | succ i => simpa using g2.deadline i (by simpa using hi)
        · intro hp
          rw [e4] at hp; simp at hp
        · intro a b hab
          cases a with
          | nil =>
            simp only [List.nil_append, List.cons.injEq, true_and] at hab
            subst hab
            exact ⟨by rw [e6]; rfl, g2.noLogs e5⟩
          | cons x a =>
            simp only [List.cons_append, List.cons.injEq] at hab
            obtain ⟨rfl, hab⟩ := hab
            exact absurd (by rw [hab]; simp) (g2.noLogs e5)
        · intro b hb
          rcases List.mem_cons.1 hb with hb | hb
          · simpa using hb
          · exact g2.flag b hb
        · intro _ _ _
          exact Or.inl (by simp)
        · intro _ hl
          simp at hl

theorem phrases_one (wl : List Word) : phrases wl 1 = wl.map fun w => [w] := by
  simp only [phrases, List.map_cons, List.map_nil]
  induction wl with
  | nil => rfl
  | cons w wl ih => rw [List.flatMap_cons, ih]; rfl

theorem allB_iff (es : List Expr) (w : Word) : allB es w = true ↔ MatchesAll es [w] := by
  simp only [allB, List.all_eq_true, MatchesAll]
  have hc : charsOf [w] = w.chars := by simp [charsOf]
  rw [hc]
  exact forall₂_congr fun e _ => matchB_iff e w

/-- The whole history of a fresh evaluator. -/
theorem history {es : List Expr} (hne : es ≠ []) (hes : ∀ e ∈ es, WF e) {wl : List Word} (hsort : TrSorted wl)
    (depth : Nat) :
    ∃ L g n, (depth ≤ 1 → L = []) ∧
      (∀ ws ∈ L, 2 ≤ ws.length ∧ ws.length ≤ depth ∧ ∀ w ∈ ws, w ∈ wl) ∧ (wl.Nodup → L.Nodup) ∧
      ((es.map Expr.len).sum + depth ≤ 97 → g = false) ∧
      (∃ ps : List (List Nat), L = ps.map (phraseAt wl) ∧ (∀ p ∈ ps, 2 ≤ p.length ∧ ∀ i ∈ p, i < wl.length) ∧
        ps.Nodup ∧ (depth < 2 ^ 32 → ps.Pairwise fun p p' => ¬ Due wl p' p)) ∧
      (g = false ∨ es.length = 1 → Wanted es wl depth L) ∧
      ∀ limit, ∃ q, QState.new es wl depth limit = .ok q ∧ q.resultsLimit = limit ∧ q.resultsCount = 0 ∧
        q.isPhrase = false ∧
        ∀ clks, ∃ q' rs, q.run clks = .ok (q', rs) ∧ History L g q (found es wl 1 ++ L) n clks rs := by
  obtain ⟨L, g, cL, hL, hrange, hnd, hsmall, hord, hperm⟩ := planned_exists hne hes hsort depth
  have hs : (wl.filter (allB es)).map (fun w => [w]) = found es wl 1 := by
    unfold found
    rw [phrases_one, List.filter_map]
    congr 1
    apply List.filter_congr
    intro w _
    rw [Bool.eq_iff_iff, allB_iff]
    simp
  refine ⟨L, g, wl.length + 1 + cL, ?_, hrange, hnd, hsmall, hord, hperm, ?_⟩
  · intro hd
    unfold Planned at hL
    rw [if_pos hd] at hL
    exact hL.1
  · intro limit
    obtain ⟨q, hq⟩ : ∃ q, QState.new es wl depth limit = .ok q := by
      unfold QState.new; rw [if_neg hne]; exact ⟨_, rfl⟩
    obtain ⟨h1, h2, h3, h4, h5, h6⟩ := new_inv L g cL hq
    refine ⟨q, hq, h3, h4, h6, fun clks => ?_⟩
    rw [hs] at h1
    exact run_spec hes clks q _ _ (by rw [h2]; exact hL) h1 h5

end Noodle
