import Verif.Props.C52
import Verif.Props.C47
import Verif.Proofs.Logs
import Verif.Proofs.Exprs
/-
C62: what the log says.
-/
namespace Noodle
open Spec List
set_option autoImplicit false

theorem shownVec_eq (ns : List Nat) : shownVec ns = (numbers ns).toList := by
  have hgo : ∀ (l : List Nat) (n : Nat),
      ", ".toList.intercalate ((n :: l).map fun n => (toString n).toList) ++ "]".toList = shownNat n ++ shownVec.more l := by
    intro l
    induction l with
    | nil => intro n; simp [List.intercalate, shownVec.more, shownNat]
    | cons m l ih =>
      intro n
      have := ih m
      rw [List.map_cons] at this
      rw [List.map_cons, List.map_cons, List.intercalate_cons_cons, List.append_assoc, this]
      simp only [shownVec.more, shownNat, List.append_assoc]
  unfold numbers
  rw [String.toList_append, String.toList_append, String.toList_intercalate, List.map_map]
  cases ns with
  | nil => rfl
  | cons n ns =>
    rw [List.append_assoc]
    have := hgo ns n
    change _ = _ ++ (", ".toList.intercalate ((n :: ns).map fun n => (toString n).toList) ++ "]".toList)
    rw [this]
    simp only [shownVec, List.append_assoc]

/-- C62: every session has log texts. -/
theorem C62_noted {es : List Expr} {wl : List Word} {depth : Nat} {limit : Option Nat} {clks : List Clock} {rs : List Resp}
    (hs : Session es wl depth limit clks rs) (took : String) : ∃ ls, Noted es wl depth limit clks took rs ls := by
  obtain ⟨q, q', h1, h2⟩ := hs
  suffices ∀ (clks : List Clock) (q q' : QState) (rs : List Resp), q.run clks = .ok (q', rs) →
      ∃ ts, q.logTexts took.toList clks = .ok ts by
    obtain ⟨ts, h3⟩ := this clks q q' rs h2
    exact ⟨ts, q, q', h1, h2, h3⟩
  intro clks
  induction clks with
  | nil => exact fun _ _ _ _ => ⟨[], rfl⟩
  | cons c cs ih =>
    intro q q' rs h
    rw [QState.run] at h
    rw [QState.logTexts]
    revert h
    generalize q.next c = x
    intro h
    match x, h with
    | .error _, h => cases h
    | .ok (q1, r), h =>
      dsimp only at h ⊢
      revert h
      generalize hx : q1.run cs = x
      intro h
      match x, hx, h with
      | .error _, _, h => cases h
      | .ok (q2, rs2), hx, h =>
        obtain ⟨ts, ht⟩ := ih q1 q2 rs2 hx
        rw [ht]
        exact ⟨_, rfl⟩

theorem mkPhrase_wl {o : OptOut} {ps : PS} (h : mkPhrase o = .ok (some ps)) : ps.wl = o.alive ∧ o.alive ≠ [] := by
  unfold mkPhrase at h
  split at h
  · cases h
  · rename_i w0 _ hal
    split at h
    · cases h
    · simp only at h
      split at h
      · cases h
      · split at h
        · cases h
        · split at h
          · cases h
          · injection h with h; injection h with h; subst h
            exact ⟨rfl, by rw [hal]; simp⟩

/-- C62: a session without `Logs` has no log. One with it has one log, and it is true. -/
theorem C62_log {es : List Expr} {wl : List Word} (h : Ready es wl) {depth : Nat} {limit : Option Nat} {clks : List Clock}
    {took : String} {rs : List Resp} {ls : List (List (List Char))} (hn : Noted es wl depth limit clks took rs ls) :
    ((∀ b, .logs b ∉ rs) ∧ ls = []) ∨
    ∃ gave lines passes candidates kept sizes, ls = [lines] ∧ .logs gave ∈ rs ∧ (gave = true ↔ GaveUp rs) ∧
      LogOf es wl depth took rs gave lines passes candidates kept sizes := by
  obtain ⟨L, g, cL, hL, hrange, _⟩ := planned_exists h.nonempty h.wf h.sorted depth
  obtain ⟨q, q', h1, h2, h3⟩ := hn
  obtain ⟨i1, i2, i3, i4, i5, i6⟩ := new_inv L g cL h1
  rcases logTexts_spec h.wf took.toList clks q _ _ q' rs (by rw [i2]; exact hL) i1 i5 h2 with
    ⟨a, b⟩ | ⟨_, a, ms, ps, hd, hsync, hplan, hmem, ht⟩
  · refine .inl ⟨fun b hb => ?_, Except.ok.inj (h3.symm.trans b)⟩
    exact List.countP_eq_zero.1 a _ hb rfl
  · obtain rfl := Except.ok.inj (h3.symm.trans ht)
    rw [i2] at hd hplan hmem ⊢
    obtain ⟨q2, rs2, r1, H⟩ := run_spec h.wf clks q _ _ (by rw [i2]; exact hL) i1 i5
    rw [h2] at r1
    injection r1 with r1; injection r1 with _ r1
    subst r1
    unfold Planned at hL
    rw [if_neg hd] at hL
    obtain ⟨c, ph, qq, hc, hcne, hS, hD⟩ : ∃ c ph qq, CtxOk c ∧ c.wl ≠ [] ∧ SInv c ps ph qq [0] ∧ Delivers ps L := by
      rcases hL ms hsync with ⟨h5, _⟩ | ⟨ps', c, ph, qq, h5, h6, h7, h8, h9, _⟩
      · rw [hplan] at h5; cases h5
      · rw [hplan] at h5; injection h5 with h5; injection h5 with h5; subst h5
        exact ⟨c, ph, qq, h6, h7, h8, h9⟩
    -- the phrases it returns are made of its words
    have hLw : ∀ ws ∈ L, ∀ w ∈ ws, w ∈ ps.wl := by
      obtain ⟨D, hD', hR⟩ := delivers_exists hc hcne _ hS (Nat.lt_succ_self _)
      obtain rfl := hD.unique hD'
      have hsub : L ⊆ (pendRes c ph qq [0]).map (wordsOf c.wl) := by
        rcases hR with hR | ⟨d, w, hR⟩ <;> rw [hR]
        · exact fun _ h => h
        · exact fun _ h => by simp [h]
      intro ws hws w hw
      obtain ⟨p, _, rfl⟩ := List.mem_map.1 (hsub hws)
      obtain ⟨i, _, hi⟩ := List.mem_filterMap.1 hw
      rw [hS.wl]
      exact List.mem_of_getElem? hi
    -- the optimisation loop
    have hsl := sync_last 0 es h.wf ms wl hsync
    obtain ⟨m, hm, hmal⟩ := hsl.2.1 h.nonempty
    have hsz := hsl.2.2
    generalize hA0 : wl.filter (aliveAll es) = A0 at hmal
    generalize hq0 : initialQueue depth (dedup (A0.map Word.tranche)) = q0
    have hPI := (sync_last (maxDepth q0) es h.wf ms wl hsync).1
    rw [hA0] at hPI
    obtain ⟨hslim, hexpr⟩ := sync_slim es ms wl hsync
    obtain ⟨t1, t2, t3⟩ := tranches_spec A0 (by rw [← hA0]; exact List.Pairwise.filter _ h.sorted)
    let M : List Word → Prop := fun ws => 2 ≤ ws.length ∧ ws.length ≤ depth ∧ (∀ w ∈ ws, w ∈ wl) ∧ MatchesAll es ws
    have hfirst : ∀ ws : List Word, ws ≠ [] → (∀ w ∈ ws, w ∈ wl) → (∀ e ∈ es, Matches e (charsOf ws)) →
        ∀ w ∈ ws, w ∈ A0 := by
      intro ws k1 k2 k3 w hw
      rw [← hA0, List.mem_filter]
      refine ⟨k2 w hw, ?_⟩
      rw [aliveAll, List.all_eq_true]
      intro e he
      exact alive_of_phrase e (h.wf e he) ws k1 (k3 e he) w hw
    have hLI : LInv es M A0 q0 ms A0 q0 := by
      refine ⟨hPI, ⟨fun _ => true, (List.filter_eq_self.2 fun _ _ => rfl).symm⟩,
        ⟨fun _ => true, (List.filter_eq_self.2 fun _ _ => rfl).symm⟩, ?_⟩
      rintro ws ⟨k1, k2, k3, k4⟩
      have hal := hfirst ws (by rintro rfl; simp at k1) k3 k4
      refine ⟨hal, ?_⟩
      obtain ⟨w, hw⟩ := List.exists_mem_of_length_pos (show 0 < ws.length by omega)
      refine ⟨⟨ws.length, w.tranche, 0⟩, ?_, rfl⟩
      rw [← hq0, initialQueue, List.mem_flatMap]
      exact ⟨ws.length, List.mem_range'_1.2 (by omega), List.mem_map.2 ⟨_, t2 w (hal w hw), rfl⟩⟩
    obtain ⟨out, ho, hspec⟩ := optimizeLoop_spec (es := es) (M := M) (A0 := A0) (q0 := q0)
      (fun ws hws => ⟨by rintro rfl; have := hws.1; simp at this, hws.2.2.2⟩) 100 ms A0 q0 hLI
    have hgave : planGaveUp ms depth = match (generalizing := false) out with | some o => o.gaveUp | none => false := by
      unfold planGaveUp
      rw [hm]
      simp only
      rw [hmal, hq0, ho]
      cases out <;> rfl
    have hplan' : plan ms depth = match (generalizing := false) out with | none => .ok none | some o => mkPhrase o := by
      unfold plan
      rw [hm]
      simp only
      rw [hmal, if_neg (by simpa using t3), hq0, ho]
      cases out <;> rfl
    cases out with
    | none => rw [hplan] at hplan'; cases hplan'
    | some o =>
      dsimp only at hgave hplan' hspec
      rw [hplan] at hplan'
      obtain ⟨hwl, hne⟩ := mkPhrase_wl hplan'.symm
      obtain ⟨s1, s2, s3, s4, s5⟩ := hspec
      obtain ⟨l1, l2, l3, l4, l5, l6⟩ := optimizeLoop_logs (es := es) 100 ms A0 q0 hPI hslim o ho
      obtain ⟨keep, hkeep⟩ := s2.words
      have hexprs : o.ms.map (fun m => m.pm.expr.len) = es.map Expr.len := by
        have k1 := optimizeLoop_ex _ ho
        have k2 : ms.map (fun m => m.pm.expr.len) = es.map Expr.len := by
          clear * - hexpr
          induction hexpr with
          | nil => rfl
          | cons h _ ih => rw [List.map_cons, List.map_cons, ih, h]
        have k3 := congrArg (List.map Expr.len) k1
        rw [List.map_map, List.map_map] at k3
        exact k3.trans k2
      refine .inr ⟨o.gaveUp, _, optimizePasses 101 ms A0 q0, A0, o.alive, o.ms.map fun m => m.pm.statesLen, rfl,
        by rw [← hgave]; exact hmem, ?_, ?_⟩
      · rw [← hgave]
        constructor
        · intro hg; rw [hg] at hmem; exact hmem
        · intro hg
          exact (H.flag _ hg).symm ▸ (H.flag _ hmem)
      · refine ⟨?_, by rw [← hA0]; exact List.filter_sublist, by rw [hkeep]; exact List.filter_sublist, hne, hfirst, ?_, ?_, ?_,
          l3, l4, l5, ?_, ?_⟩
        · unfold logLines
          rw [hm]
          simp only
          rw [hmal, hq0, ho]
          simp only
          rw [hexprs, shownVec_eq, shownVec_eq]
          simp only [shownNat, String.toList_append, List.append_assoc]
          cases o.gaveUp <;> rfl
        · intro ws k1 k2
          exact (s2.all ws ⟨k1, by have := k2.2.1; omega, k2.2.2.1, k2.2.2.2⟩).1
        · intro ws k1 k2 w hw
          rw [← hwl]
          have hpre := H.pre.subset (by rw [reported_eq] at k1; exact k1)
          have hcut : cut q.resultsLimit q.resultsCount ((wl.filter (allB es)).map (fun w => [w]) ++ L) <+:
              (wl.filter (allB es)).map (fun w => [w]) ++ L := by
            unfold cut
            split
            · exact List.prefix_rfl
            · exact List.take_prefix _ _
          rcases List.mem_append.1 (hcut.subset hpre) with k | k
          · obtain ⟨w', _, rfl⟩ := List.mem_map.1 k
            simp at k2
          · exact hLw ws k w hw
        · intro hg e he hf w hw
          obtain ⟨us, vs, k1, k2⟩ := l2 hg e he hf w hw
          refine ⟨us ++ w :: vs, by simp, fun v hv => ?_, k2⟩
          rcases List.mem_append.1 hv with hv | hv
          · exact k1 v (by simp [hv])
          · rcases List.mem_cons.1 hv with rfl | hv
            · exact hw
            · exact k1 v (by simp [hv])
        · have := depths_initial depth (dedup (A0.map Word.tranche))
          rw [hq0] at this
          have := stage_le ms A0
          simp only [Nat.reduceAdd] at l6
          omega
        · have hb : ∀ e m, Slim e m → QInv (maxDepth o.queue) o.alive e m → 1 ≤ m.pm.statesLen ∧ m.pm.statesLen ≤ e.len := by
            intro e m k1 k2
            obtain ⟨w, hw⟩ := List.exists_mem_of_ne_nil _ hne
            obtain ⟨T, hT⟩ := k2.1.1.body (List.ne_nil_of_mem (k2.1.2.subset hw))
            exact ⟨hT.pos, k1⟩
          clear * - l1 s3 hb
          generalize o.ms = oms at l1 s3
          generalize o.alive = A at *
          generalize maxDepth o.queue = D at *
          induction l1 with
          | nil => exact Forall₂.nil
          | cons k1 k2 ih =>
            cases s3 with
            | cons k3 k4 => exact Forall₂.cons (hb _ _ k1 k3) (ih k4)

/-! ### Instances -/

theorem noted_of_run {es : List Expr} {wl : List Word} {depth : Nat} {limit : Option Nat} {clks : List Clock} {took : String}
    {rs : List Resp} {ls : List (List (List Char))}
    (h : ((QState.new es wl depth limit).toOption.bind fun q => (q.run clks).toOption.bind fun r =>
      (q.logTexts took.toList clks).toOption.map fun ls => (r.2, ls)) = some (rs, ls)) :
    Noted es wl depth limit clks took rs ls := by
  unfold Noted
  cases h1 : QState.new es wl depth limit with
  | error x => rw [h1] at h; simp [Except.toOption] at h
  | ok q =>
    rw [h1] at h
    simp only [Except.toOption, Option.bind_some] at h
    cases h2 : q.run clks with
    | error x => rw [h2] at h; simp at h
    | ok r =>
      cases h3 : q.logTexts took.toList clks with
      | error x => rw [h3] at h; simp at h
      | ok t =>
        rw [h2, h3] at h
        simp only [Option.bind_some, Option.map_some, Option.some.injEq, Prod.mk.injEq] at h
        exact ⟨q, r.1, rfl, by rw [h2, ← h.1], by rw [h3, h.2]⟩

/-- The query `ab` on the words `a`, `b`, `c`: `c` is dropped by the optimisation. -/
example : Noted [exAB] [exA, exB, exC] 10 none [none, none, none] "12.3µs" [.logs false, .matched [exA, exB], .complete]
    [["optimizing took 12.3µs in 2 passes, wordlist shrunk 3 -> 2".toList,
      "optimized state sizes: [3] -> [3]".toList]] := noted_of_run (by decide +kernel)

end Noodle
