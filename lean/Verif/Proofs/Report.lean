import Verif.Proofs.Run
import Verif.Model.Report
/-
What the evaluator says about itself: invariants.
-/
namespace Noodle
open Spec List
set_option autoImplicit false

/-- A call of the evaluator with its estimate is a call of the evaluator. -/
theorem Shown.next_q {F : Floats} {s s' : Shown} {clk : Clock} {r : Resp} (h : s.next F clk = .ok (s', r)) :
    s.q.next clk = .ok (s'.q, r) := by
  unfold Shown.next at h
  revert h
  generalize s.q.next clk = x
  intro h
  match x, h with
  | .error x, h => cases h
  | .ok (q', r'), h =>
    dsimp only at h
    split at h
    · split at h
      · cases h
      · injection h with h; injection h with h1 h2; subst h1 h2; rfl
    · injection h with h; injection h with h1 h2; subst h1 h2; rfl

theorem Shown.run_q {F : Floats} {clks : List Clock} : ∀ {s s' : Shown} {rs : List Resp}, s.run F clks = .ok (s', rs) →
    s.q.run clks = .ok (s'.q, rs) := by
  induction clks with
  | nil =>
    intro s s' rs h
    simp only [Shown.run, Except.ok.injEq, Prod.mk.injEq] at h
    obtain ⟨rfl, rfl⟩ := h
    rfl
  | cons c cs ih =>
    intro s s' rs h
    rw [Shown.run] at h
    split at h
    · cases h
    · rename_i s1 r h1
      split at h
      · cases h
      · rename_i s2 rs2 h2
        injection h with h; injection h with h3 h4; subst h3 h4
        rw [QState.run, Shown.next_q h1]
        simp only [ih h2]

/-- The state in the middle of a history. -/
theorem run_state {es : List Expr} (hes : ∀ e ∈ es, WF e) {wl : List Word} {L : List (List Word)} {g : Bool} {cL : Nat}
    (clks : List Clock) : ∀ (q : QState) (R : List (List Word)) (n : Nat) (q' : QState) (rs : List Resp),
      Planned es wl q.depthLimit L g cL → PhaseInv es wl q.depthLimit L g cL q.phase R n → q.isDone = false →
      q.run clks = .ok (q', rs) →
      (q'.isDone = true ∧ .complete ∈ rs) ∨
      (q'.isDone = false ∧ q'.depthLimit = q.depthLimit ∧ q'.resultsLimit = q.resultsLimit ∧
        q'.resultsCount = q.resultsCount + (matchesOf rs).length ∧ .complete ∉ rs ∧
        (q.isPhrase = false → (q'.isPhrase = true ↔ ∃ b, .logs b ∈ rs)) ∧ (q.isPhrase = true → q'.isPhrase = true) ∧
        ∃ R' n', PhaseInv es wl q.depthLimit L g cL q'.phase R' n' ∧ R = matchesOf rs ++ R' ∧ n' ≤ n) := by
  induction clks with
  | nil =>
    intro q R n q' rs hL hq hd h
    simp only [QState.run, Except.ok.injEq, Prod.mk.injEq] at h
    obtain ⟨rfl, rfl⟩ := h
    exact .inr ⟨hd, rfl, rfl, rfl, by simp, fun h => by simp [h], fun h => h, R, n, hq, rfl, Nat.le_refl _⟩
  | cons c cs ih =>
    intro q R n q' rs hL hq hd h
    have hend : ∀ q1 : QState, q.next c = .ok (q1, .complete) → q1.phase = .done →
        q'.isDone = true ∧ .complete ∈ rs := by
      intro q1 h1 h2
      simp only [QState.run, h1, run_done q1 h2, Except.ok.injEq, Prod.mk.injEq] at h
      obtain ⟨rfl, rfl⟩ := h
      exact ⟨by simp [QState.isDone, h2], by simp⟩
    by_cases hf : q.full = true
    · exact .inl (hend _ (next_full q hd hf c) rfl)
    · have hf' : q.full = false := by simpa using hf
      obtain ⟨q1, r, h1, h2, h3, h4⟩ := next_step hes q hL R n hq hd hf' c
      rw [QState.run, h1] at h
      dsimp only at h
      revert h
      generalize hcs : q1.run cs = x
      intro h
      match x, hcs, h with
      | .error x, _, h => cases h
      | .ok (q2, rs2), hcs, h =>
        injection h with h; injection h with h5 h6; subst h5 h6
        cases h4 with
        | empty e1 e2 e3 _ _ _ => exact .inl (hend q1 h1 e2)
        | matched ws R' n' e1 e2 e3 e4 e5 e6 =>
          rcases ih q1 R' n' q2 rs2 (by rw [h2]; exact hL) (by rw [h2]; exact e2) e4 hcs with
            ⟨a, b⟩ | ⟨a, b, b', c1, c2, c3, c3', R2, n2, c4, c5, c6⟩
          · exact .inl ⟨a, by simp [b]⟩
          · refine .inr ⟨a, b.trans h2, b'.trans h3, ?_, by simp [c2], ?_, ?_, R2, n2, by rw [← h2]; exact c4, ?_, by omega⟩
            · rw [c1, e6]
              show _ = _ + (ws :: matchesOf rs2).length
              simp; omega
            · intro hp; rw [c3 (by rw [e5]; exact hp)]; simp
            · intro hp; exact c3' (by rw [e5]; exact hp)
            · rw [e1, c5]; rfl
        | timeout n' e0 e2 e3 e3' e4 e5 e6 =>
          rcases ih q1 R n' q2 rs2 (by rw [h2]; exact hL) (by rw [h2]; exact e2) e4 hcs with
            ⟨a, b⟩ | ⟨a, b, b', c1, c2, c3, c3', R2, n2, c4, c5, c6⟩
          · exact .inl ⟨a, by simp [b]⟩
          · refine .inr ⟨a, b.trans h2, b'.trans h3, ?_, by simp [c2], ?_, ?_, R2, n2, by rw [← h2]; exact c4, ?_, by omega⟩
            · rw [c1, e6]; rfl
            · intro hp; rw [c3 (by rw [e5]; exact hp)]; simp
            · intro hp; exact c3' (by rw [e5]; exact hp)
            · exact c5
        | logs n' e2 e3 e4 e5 e6 e7 e8 =>
          have hd1 : q1.isDone = false := by
            obtain ⟨ph1, _, _, _⟩ := q1
            cases ph1 <;> simp_all [QState.isPhrase, QState.isDone]
          rcases ih q1 R n' q2 rs2 (by rw [h2]; exact hL) (by rw [h2]; exact e2) hd1 hcs with
            ⟨a, b⟩ | ⟨a, b, b', c1, c2, c3, c3', R2, n2, c4, c5, c6⟩
          · exact .inl ⟨a, by simp [b]⟩
          · refine .inr ⟨a, b.trans h2, b'.trans h3, ?_, by simp [c2], ?_, ?_, R2, n2, by rw [← h2]; exact c4, ?_, by omega⟩
            · rw [c1, e7]; rfl
            · intro hp
              exact iff_of_true (c3' e5) ⟨g, by simp⟩
            · intro hp; exact c3' e5
            · exact c5

/-! ### The queue shrinks -/

theorem endPhase_queue {ps ps' : PS} (h : endPhase ps = .next ps') : ps'.queue <+ ps.queue := by
  unfold endPhase at h
  split at h
  · cases h
  · rename_i ph q hq
    dsimp only at h
    generalize hg : (if ps.part = true then q else _) = q' at h
    split at h
    · cases h
    · injection h with h
      subst h
      rw [hq]
      refine List.Sublist.cons _ ?_
      show q' <+ q
      rw [← hg]
      split
      · exact List.Sublist.refl _
      · exact List.filter_sublist

theorem advance_queue (t : Nat) : ∀ (n : Nat) {ps ps' : PS}, advance ps t n = .next ps' → ps'.queue <+ ps.queue := by
  intro n
  induction n with
  | zero =>
    intro ps ps' h
    unfold advance at h
    dsimp only at h
    split at h
    · split at h
      · have := endPhase_queue h; exact this
      · injection h with h; subst h; exact List.Sublist.refl _
    · have := endPhase_queue h; exact this
  | succ n ih =>
    intro ps ps' h
    unfold advance at h
    dsimp only at h
    split at h
    · split at h
      · have := ih h; exact this
      · injection h with h; subst h; exact List.Sublist.refl _
    · have := ih h; exact this

theorem iter_queue {ps ps' : PS} {r : Option (List Word)} (h : ps.iter = .ok (.next ps', r)) : ps'.queue <+ ps.queue := by
  unfold PS.iter at h
  split at h
  · split at h
    · cases h
    · dsimp only at h
      split at h
      · cases h
      · split at h
        · injection h with h; injection h with h1 h2; injection h1 with h1; subst h1; exact List.Sublist.refl _
        · injection h with h; injection h with h1 h2; have := advance_queue _ _ h1; exact this
  · cases h

/-- The state a search loop leaves behind. -/
def Looped.left : Looped → Option PS
  | .found ps _ => some ps
  | .timeout ps => some ps
  | .finished _ => none

theorem loop_queue (n : Nat) : ∀ {ps ps' : PS} {clk clk' : Clock} {cnt : Nat} {out : Looped},
    PS.loop n ps clk cnt = .ok (out, clk') → out.left = some ps' → ps'.queue <+ ps.queue := by
  induction n with
  | zero => intro ps ps' clk clk' cnt out h; cases h
  | succ n ih =>
    intro ps ps' clk clk' cnt out h ho
    rw [PS.loop] at h
    revert h
    generalize hx : ps.iter = x
    intro h
    match x, hx, h with
    | .error x, _, h => cases h
    | .ok (.finished, r), _, h => injection h with h; injection h with h1 h2; subst h1; cases ho
    | .ok (.next ps1, some ws), hx, h =>
      injection h with h; injection h with h1 h2; subst h1
      injection ho with ho; subst ho; exact iter_queue hx
    | .ok (.next ps1, none), hx, h =>
      dsimp only at h
      generalize (if (cnt + 1) % 256 = 0 then clk.read else (false, clk)) = rd at h
      split at h
      · injection h with h; injection h with h1 h2; subst h1
        injection ho with ho; subst ho; exact iter_queue hx
      · exact (ih h ho).trans (iter_queue hx)

theorem next_queue {q q' : QState} {clk : Clock} {r : Resp} {ps ps' : PS} (h : q.next clk = .ok (q', r))
    (h1 : q.phase = .phrase ps) (h2 : q'.phase = .phrase ps') : ps'.queue <+ ps.queue := by
  unfold QState.next at h
  rw [h1] at h
  dsimp only at h
  split at h
  · injection h with h; injection h with h3 h4; subst h3; cases h2
  · split at h
    · cases h
    · split at h
      · cases h
      · injection h with h; injection h with h3 h4; subst h3; cases h2
      · rename_i hl
        injection h with h; injection h with h3 h4; subst h3; injection h2 with h2; subst h2
        exact loop_queue _ hl rfl
      · rename_i hl
        injection h with h; injection h with h3 h4; subst h3; injection h2 with h2; subst h2
        exact loop_queue _ hl rfl

theorem next_done {q q' : QState} {clk : Clock} {r : Resp} (h : q.next clk = .ok (q', r)) (h1 : q.phase = .done) :
    q' = q := by
  unfold QState.next at h
  rw [h1] at h
  injection h with h; injection h with h3 h4; exact h3.symm

theorem sum_sublist {l l' : List Nat} (h : l <+ l') : l.sum ≤ l'.sum := by
  induction h with
  | slnil => exact Nat.le_refl _
  | cons a _ ih => rw [List.sum_cons]; omega
  | cons_cons a _ ih => rw [List.sum_cons, List.sum_cons]; omega

theorem estimate_sublist {F : Floats} {q q0 : List SearchPhase} {e : Nat} (h : q <+ q0)
    (he : searchEstimate F q0 = .ok e) : ∃ now, searchEstimate F q = .ok now ∧ now ≤ e := by
  unfold searchEstimate at he ⊢
  dsimp only at he ⊢
  split at he
  · injection he with he
    have := sum_sublist (h.map fun p => F.size p.totalSize)
    rw [if_pos (by omega)]
    exact ⟨_, rfl, by omega⟩
  · cases he

/-! ### The queue of a plan -/

theorem filterLoop_sub (pm : PM) (tr : List Nat) (k : Nat) : ∀ {w : Nat} {cur : List Rows} {q q' : List SearchPhase},
    filterLoop pm tr k w cur q = .ok q' → q' <+ q := by
  induction k with
  | zero =>
    intro w cur q q' h
    injection h with h; subst h; exact List.Sublist.refl _
  | succ k ih =>
    intro w cur q q' h
    rw [filterLoop] at h
    split at h
    · cases h
    · dsimp only at h
      refine (ih h).trans ?_
      generalize tr.zipIdx = z
      clear h
      induction z generalizing q with
      | nil => exact List.Sublist.refl _
      | cons x z ihz =>
        rw [List.foldl_cons]
        refine ihz.trans ?_
        split
        · exact List.Sublist.refl _
        · exact List.filter_sublist

theorem filterPhases_sub {pm : PM} {q q' : List SearchPhase} (h : pm.filterPhases q = .ok q') : q' <+ q := by
  unfold PM.filterPhases at h
  split at h
  · injection h with h; subst h; exact List.Sublist.refl _
  · exact filterLoop_sub _ _ _ h

theorem filterAll_sub : ∀ {pms : List PM} {q q' : List SearchPhase}, filterAll pms q = .ok q' → q' <+ q := by
  intro pms
  unfold filterAll
  induction pms with
  | nil => intro q q' h; injection h with h; subst h; exact List.Sublist.refl _
  | cons pm pms ih =>
    intro q q' h
    rw [List.foldl_cons] at h
    dsimp only at h
    cases hq : pm.filterPhases q with
    | error x =>
      rw [hq] at h
      clear ih
      exfalso
      induction pms with
      | nil => cases h
      | cons _ _ ih => exact ih h
    | ok q1 =>
      rw [hq] at h
      exact (ih h).trans (filterPhases_sub hq)

theorem filterFix_sub {pms : List PM} : ∀ {n : Nat} {q q' : List SearchPhase} {b b' : Bool},
    filterFix pms n q b = .ok (q', b') → q' <+ q := by
  intro n
  induction n with
  | zero => intro q q' b b' h; cases h
  | succ n ih =>
    intro q q' b b' h
    rw [filterFix] at h
    split at h
    · cases h
    · rename_i q1 h1
      split at h
      · injection h with h; injection h with h2 h3; subst h2; exact filterAll_sub h1
      · split at h
        · exact (ih h).trans (filterAll_sub h1)
        · injection h with h; injection h with h2 h3; subst h2; exact filterAll_sub h1

theorem optimizeLoop_sub : ∀ {k : Nat} {ms : List WM} {alive : List Word} {q : List SearchPhase} {o : OptOut},
    optimizeLoop k ms alive q = .ok (some o) → o.queue <+ q := by
  intro k
  induction k with
  | zero => intro ms alive q o h; cases h
  | succ k ih =>
    intro ms alive q o h
    rw [optimizeLoop] at h
    split at h
    · cases h
    · rename_i q1 ch h1
      have hs := filterFix_sub h1
      split at h
      · cases h
      · split at h
        · cases h
        · split at h
          · injection h with h; injection h with h; subst h; exact hs
          · split at h
            · injection h with h; injection h with h; subst h; exact hs
            · exact (ih h).trans hs

theorem mkPhrase_queue {o : OptOut} {ps : PS} (h : mkPhrase o = .ok (some ps)) :
    ps.wl = o.alive ∧ ps.queue.length ≤ o.queue.length ∧
    ∀ p ∈ ps.queue, p.totalSize = totalSize ps.wl p ∧ p.totalSize ≠ 0 ∧ ∃ p' ∈ o.queue, p.depth = p'.depth := by
  unfold mkPhrase at h
  split at h
  · cases h
  · rename_i w0 A hA
    split at h
    · cases h
    · dsimp only at h
      split at h
      · cases h
      · split at h
        · cases h
        · split at h
          · cases h
          · injection h with h; injection h with h
            subst h
            refine ⟨rfl, ?_, ?_⟩
            · dsimp only
              rw [(sortPhases_perm _).length_eq]
              refine (List.length_filter_le _ _).trans ?_
              rw [List.length_map]
            · intro p hp
              dsimp only at hp ⊢
              have := (sortPhases_perm _).subset hp
              obtain ⟨h1, h2⟩ := List.mem_filter.1 this
              obtain ⟨p', hp', rfl⟩ := List.mem_map.1 h1
              exact ⟨rfl, by simpa using h2, p', hp', rfl⟩

theorem initialQueue_length (depth : Nat) (tr : List Nat) : (initialQueue depth tr).length = (depth - 1) * tr.length := by
  unfold initialQueue
  rw [List.length_flatMap]
  simp

theorem dedup_sub : ∀ (l : List Nat), ∀ x ∈ dedup l, x ∈ l
  | [], x, h => by simp [dedup] at h
  | a :: l, x, h => by
    rw [dedup] at h
    have ih := dedup_sub l
    split at h
    · simp at h; simp [h]
    · rename_i y ys hy
      rw [hy] at ih
      split at h
      · exact List.mem_cons_of_mem _ (ih x h)
      · rcases List.mem_cons.1 h with rfl | h
        · simp
        · exact List.mem_cons_of_mem _ (ih x h)

theorem length_le_of_lt {l : List Nat} (hn : l.Nodup) {k : Nat} (h : ∀ x ∈ l, x < k) : l.length ≤ k := by
  have : l <+~ List.range k := hn.subperm fun x hx => List.mem_range.2 (h x hx)
  simpa using this.length_le

theorem insSort_le (t : Nat) : ∀ {l : List Nat}, l.Pairwise (· ≤ ·) →
    (sortNat.insSort t l).Pairwise (· ≤ ·) ∧ ∀ x ∈ sortNat.insSort t l, x = t ∨ x ∈ l
  | [], _ => by simp [sortNat.insSort]
  | y :: l, h => by
    obtain ⟨h1, h2⟩ := List.pairwise_cons.1 h
    rw [sortNat.insSort]
    split
    · rename_i hty
      refine ⟨List.pairwise_cons.2 ⟨fun x hx => ?_, h⟩, fun x hx => by simpa using hx⟩
      rcases List.mem_cons.1 hx with rfl | hx
      · exact hty
      · exact hty.trans (h1 x hx)
    · obtain ⟨h3, h4⟩ := insSort_le t h2
      refine ⟨List.pairwise_cons.2 ⟨fun x hx => ?_, h3⟩, fun x hx => ?_⟩
      · rcases h4 x hx with rfl | hx
        · omega
        · exact h1 x hx
      · rcases List.mem_cons.1 hx with rfl | hx
        · simp
        · rcases h4 x hx with rfl | hx <;> simp [*]

theorem sortNat_le (l : List Nat) : (sortNat l).Pairwise (· ≤ ·) := by
  induction l with
  | nil => exact List.Pairwise.nil
  | cons x l ih => exact (insSort_le x ih).1

/-- The queue of a plan: its length, and the sizes of its phases. -/
theorem plan_queue {ms : List WM} {depth k : Nat} {ps : PS} (h : plan ms depth = .ok (some ps))
    (hk : ∀ m ∈ ms, ∀ w ∈ m.alive, w.tranche < k) :
    ps.queue.length ≤ (depth - 1) * k ∧
    ∀ p ∈ ps.queue, p.totalSize = totalSize ps.wl p ∧ p.totalSize ≠ 0 ∧ 2 ≤ p.depth ∧ p.depth ≤ depth := by
  unfold plan at h
  split at h
  · cases h
  · rename_i m hm
    dsimp only at h
    split at h
    · cases h
    · rename_i htr
      split at h
      · cases h
      · cases h
      · rename_i o ho
        obtain ⟨h1, h2, h3⟩ := mkPhrase_queue h
        have hsub := optimizeLoop_sub ho
        have hmm : m ∈ ms := List.mem_of_getLast? hm
        constructor
        · refine h2.trans (hsub.length_le.trans ?_)
          rw [initialQueue_length]
          refine Nat.mul_le_mul_left _ (length_le_of_lt ?_ ?_)
          · have := dedup_sorted (sortNat (dedup (m.alive.map Word.tranche))) ?_
            · rw [Classical.not_not.1 htr] at this
              exact this.1.imp fun h => by omega
            · exact sortNat_le _
          · intro x hx
            obtain ⟨w, hw, rfl⟩ := List.mem_map.1 (dedup_sub _ x hx)
            exact hk m hmm w hw
        · intro p hp
          obtain ⟨h4, h5, p', hp', h6⟩ := h3 p hp
          refine ⟨h4, h5, ?_⟩
          have := hsub.subset hp'
          unfold initialQueue at this
          obtain ⟨d, hd, hp2⟩ := List.mem_flatMap.1 this
          obtain ⟨t, _, rfl⟩ := List.mem_map.1 hp2
          have := List.mem_range'_1.1 hd
          dsimp only at h6
          omega

/-! ### The evaluator with its estimate -/

/-- The invariant: in the phrase phase the estimate is that of the queue of the plan, of which the present queue is a part. -/
structure Stands (F : Floats) (es : List Expr) (wl : List Word) (depth : Nat) (L : List (List Word)) (g : Bool) (cL : Nat)
    (s : Shown) : Prop where
  deep : s.q.depthLimit = depth
  inv : s.q.isDone = true ∨ ∃ R n, PhaseInv es wl depth L g cL s.q.phase R n
  plan : ∀ ps, s.q.phase = .phrase ps → ∃ ms ps0, Sync false (maxWordLen wl) es ms wl ∧ plan ms depth = .ok (some ps0) ∧
    searchEstimate F ps0.queue = .ok s.initial ∧ ps.queue <+ ps0.queue

/-- The estimate of a plan does not overflow. -/
def Small (F : Floats) (es : List Expr) (wl : List Word) (depth : Nat) : Prop :=
  ∀ ms ps, Sync false (maxWordLen wl) es ms wl → plan ms depth = .ok (some ps) → ∃ e, searchEstimate F ps.queue = .ok e

theorem phase_done {q : QState} (h : q.isDone = true) : q.phase = .done := by
  obtain ⟨ph, _, _, _⟩ := q
  cases ph <;> simp_all [QState.isDone]

theorem Stands.next {F : Floats} {es : List Expr} (hes : ∀ e ∈ es, WF e) {wl : List Word} {depth : Nat}
    {L : List (List Word)} {g : Bool} {cL : Nat} (hL : Planned es wl depth L g cL) (hF : Small F es wl depth) {s : Shown}
    (hs : Stands F es wl depth L g cL s) {clk : Clock} {q' : QState} {r : Resp} (h : s.q.next clk = .ok (q', r)) :
    ∃ s', s.next F clk = .ok (s', r) ∧ s'.q = q' ∧ Stands F es wl depth L g cL s' := by
  have hdone : q'.isDone = true → q'.depthLimit = depth →
      (∃ s', s.next F clk = .ok (s', r) ∧ s'.q = q' ∧ Stands F es wl depth L g cL s') := by
    intro hd hdep
    have hd' := phase_done hd
    refine ⟨⟨q', s.initial⟩, ?_, rfl, hdep, .inl hd, fun ps hp => ?_⟩
    · unfold Shown.next
      rw [h]
      dsimp only
      rw [hd']
      split
      · rename_i h2; cases h2
      · rfl
    · rw [hd'] at hp; cases hp
  obtain ⟨hdep, hinv, hplan⟩ := hs
  rcases hinv with hd | ⟨R, n, hR⟩
  · rw [next_done h (phase_done hd)] at *
    exact hdone hd hdep
  · by_cases hd : s.q.isDone = true
    · rw [next_done h (phase_done hd)] at *
      exact hdone hd hdep
    have hd' : s.q.isDone = false := by simpa using hd
    by_cases hf : s.q.full = true
    · rw [next_full s.q hd' hf clk] at h
      injection h with h; injection h with h1 h2
      refine hdone (by rw [← h1]; rfl) (by rw [← h1]; exact hdep)
    have hf' : s.q.full = false := by simpa using hf
    obtain ⟨q1, r1, h1, h2, h3, h4⟩ := next_step hes s.q (by rw [hdep]; exact hL) R n (by rw [hdep]; exact hR) hd' hf' clk
    rw [h1] at h
    injection h with h; injection h with h5 h6
    subst h5 h6
    -- a call that stays in its phase
    have hstay : q1.isPhrase = s.q.isPhrase → (∃ R n, PhaseInv es wl s.q.depthLimit L g cL q1.phase R n) →
        ∃ s', s.next F clk = .ok (s', r1) ∧ s'.q = q1 ∧ Stands F es wl depth L g cL s' := by
      intro hph hinv1
      rw [hdep] at hinv1
      refine ⟨⟨q1, s.initial⟩, ?_, rfl, h2.trans hdep, .inr hinv1, fun ps1 hp1 => ?_⟩
      · unfold Shown.next
        rw [h1]
        dsimp only
        split
        · rename_i hw hp
          simp only [QState.isPhrase, hw, hp] at hph
          cases hph
        · rfl
      · dsimp only at hp1
        have : s.q.isPhrase = true := by rw [← hph]; simp only [QState.isPhrase, hp1]
        cases hp : s.q.phase with
        | word _ _ => simp [QState.isPhrase, hp] at this
        | done => simp [QState.isPhrase, hp] at this
        | phrase ps =>
          obtain ⟨ms, ps0, a, b, c, d⟩ := hplan ps hp
          exact ⟨ms, ps0, a, b, c, (next_queue h1 hp hp1).trans d⟩
    cases h4 with
    | empty e1 e2 e3 _ _ _ => exact hdone (by simp [QState.isDone, e2]) (h2.trans hdep)
    | matched ws R' n' e1 e2 e3 e4 e5 e6 => exact hstay e5 ⟨R', n', e2⟩
    | timeout n' e0 e2 e3 e3' e4 e5 e6 => exact hstay e5 ⟨R, n', e2⟩
    | logs n' e2 e3 e4 e5 e6 e7 e8 =>
      obtain ⟨ms, ps, a, b, c⟩ := e8
      rw [hdep] at b e2
      obtain ⟨e, he⟩ := hF ms ps a b
      refine ⟨⟨q1, e⟩, ?_, rfl, h2.trans hdep, .inr ⟨R, n', e2⟩, fun ps1 hp1 => ?_⟩
      · unfold Shown.next
        rw [h1]
        dsimp only
        rw [c]
        cases hp : s.q.phase with
        | word _ _ => simp only [he]
        | phrase _ => simp [QState.isPhrase, hp] at e4
        | done => simp [QState.isDone, hp] at hd'
      · dsimp only at hp1
        rw [c] at hp1
        injection hp1 with hp1
        subst hp1
        exact ⟨ms, ps, a, b, he, List.Sublist.refl _⟩

theorem Stands.run {F : Floats} {es : List Expr} (hes : ∀ e ∈ es, WF e) {wl : List Word} {depth : Nat}
    {L : List (List Word)} {g : Bool} {cL : Nat} (hL : Planned es wl depth L g cL) (hF : Small F es wl depth)
    (clks : List Clock) : ∀ {s : Shown}, Stands F es wl depth L g cL s → ∀ {q' : QState} {rs : List Resp},
      s.q.run clks = .ok (q', rs) →
      ∃ s', s.run F clks = .ok (s', rs) ∧ s'.q = q' ∧ Stands F es wl depth L g cL s' := by
  induction clks with
  | nil =>
    intro s hs q' rs h
    simp only [QState.run, Except.ok.injEq, Prod.mk.injEq] at h
    obtain ⟨rfl, rfl⟩ := h
    exact ⟨s, rfl, rfl, hs⟩
  | cons c cs ih =>
    intro s hs q' rs h
    rw [QState.run] at h
    split at h
    · cases h
    · rename_i q1 r h1
      split at h
      · cases h
      · rename_i q2 rs2 h2
        injection h with h; injection h with h3 h4; subst h3 h4
        obtain ⟨s1, a, b, c1⟩ := hs.next hes hL hF h1
        subst b
        obtain ⟨s2, a2, b2, c2⟩ := ih c1 h2
        exact ⟨s2, by rw [Shown.run, a]; simp only [a2], b2, c2⟩

/-! ### Plans with a single word -/

theorem Delivers.unique {ps : PS} {D : List (List Word)} (h : Delivers ps D) : ∀ {D' : List (List Word)}, Delivers ps D' → D = D' := by
  induction h with
  | finished h1 =>
    intro D' h'
    cases h' with
    | finished _ => rfl
    | skip h2 _ => rw [h1] at h2; simp at h2
    | found h2 _ => rw [h1] at h2; simp at h2
  | skip h1 _ ih =>
    intro D' h'
    cases h' with
    | finished h2 => rw [h1] at h2; simp at h2
    | skip h2 h3 =>
      rw [h1] at h2
      simp only [Except.ok.injEq, Prod.mk.injEq, Moved.next.injEq, and_true] at h2
      subst h2; exact ih h3
    | found h2 _ => rw [h1] at h2; simp at h2
  | found h1 _ ih =>
    intro D' h'
    cases h' with
    | finished h2 => rw [h1] at h2; simp at h2
    | skip h2 _ => rw [h1] at h2; simp at h2
    | found h2 h3 =>
      rw [h1] at h2
      simp only [Except.ok.injEq, Prod.mk.injEq, Moved.next.injEq, Option.some.injEq] at h2
      obtain ⟨rfl, rfl⟩ := h2; rw [ih h3]

theorem totalSize_one {wl : List Word} {p : SearchPhase} (h : totalSize wl p ≤ 1) (h0 : totalSize wl p ≠ 0)
    (hd : 2 ≤ p.depth) (hd' : p.depth < 2 ^ 32) : trancheCum wl p.tranche = 1 := by
  unfold totalSize at h h0
  split at h
  · rename_i hc; rw [if_pos hc] at h0; exact absurd rfl h0
  · rename_i hc
    rw [if_neg hc] at h0
    rw [Nat.mod_eq_of_lt hd'] at h h0
    have h1 : trancheCum wl p.tranche ^ p.depth ≤ 1 := by
      have : (2 : Nat) ^ 64 - 1 > 1 := by decide
      omega
    have hne : trancheCum wl p.tranche ≠ 0 := by
      intro h2
      rw [h2, Nat.zero_pow (by omega)] at h0
      simp at h0
    by_contra hne1
    have h2 : 2 ≤ trancheCum wl p.tranche := by omega
    have h3 : trancheCum wl p.tranche ^ 1 < trancheCum wl p.tranche ^ p.depth := Nat.pow_lt_pow_right (by omega) (by omega)
    rw [Nat.pow_one] at h3
    omega

/-- If every phase of the plan has size one, the search finds only repetitions of one word. -/
theorem delivers_one {c : Ctx} (hc : CtxOk c) (hne : c.wl ≠ []) {ps : PS} {ph : SearchPhase} {q : List SearchPhase}
    (h : SInv c ps ph q [0]) {L : List (List Word)} (hL : Delivers ps L)
    (hone : ∀ p ∈ ps.queue, trancheCum c.wl p.tranche = 1) : ∃ w, ∀ ws ∈ L, ws = List.replicate ws.length w := by
  obtain ⟨w0, hw0⟩ : ∃ w, c.wl[0]? = some w := by
    cases hw : c.wl with
    | nil => exact absurd hw hne
    | cons w l => exact ⟨w, rfl⟩
  refine ⟨w0, ?_⟩
  obtain ⟨D, hD, hR⟩ := delivers_exists hc hne _ h (Nat.lt_succ_self _)
  obtain rfl := hL.unique hD
  have hsub : L ⊆ (pendRes c ph q [0]).map (wordsOf c.wl) := by
    rcases hR with hR | ⟨d, w, hR⟩ <;> rw [hR]
    · exact fun _ h => h
    · exact fun _ h => List.mem_append_left _ h
  intro ws hws
  obtain ⟨t, ht, rfl⟩ := List.mem_map.1 (hsub hws)
  have hz : ∀ i ∈ t, i = 0 := by
    have hpos : ∀ p ∈ ps.queue, ∀ u ∈ tups (trancheCum c.wl p.tranche) p.depth [], ∀ i ∈ u, i = 0 := by
      intro p hp u hu i hi
      rw [hone p hp] at hu
      obtain ⟨s, hs1, hs2, hs3⟩ := (mem_tups _ _ _ _).1 hu
      rw [List.nil_append] at hs3
      subst hs3
      have := hs2 i hi
      omega
    unfold pendRes at ht
    rcases List.mem_append.1 ht with ht | ht
    · have := (List.mem_filter.1 ht).1
      have hph : ph ∈ ps.queue := by rw [h.queue]; simp
      rw [pendT_start _ _ (by rw [hone ph hph]; decide) (h.depth ph hph).1] at this
      exact hpos ph hph t this
    · unfold queueRes at ht
      obtain ⟨p, hp, ht⟩ := List.mem_flatMap.1 ht
      unfold phaseRes at ht
      exact hpos p (by rw [h.queue]; simp [hp]) t (List.mem_filter.1 ht).1
  have : ∀ u : List Nat, (∀ i ∈ u, i = 0) → wordsOf c.wl u = List.replicate u.length w0 := by
    intro u
    induction u with
    | nil => intro _; rfl
    | cons i u ih =>
      intro hu
      obtain rfl := hu i (by simp)
      rw [wordsOf, List.filterMap_cons, hw0]
      dsimp only
      have := ih fun j hj => hu j (by simp [hj])
      rw [wordsOf] at this
      rw [this]; rfl
  rw [this t hz]
  simp

end Noodle
