import Verif.Proofs.Phrase
/-
The evaluator as a stream of results: every call takes the next result off the stream.
-/
namespace Noodle
open Spec List

/-- All words fit the tables. -/
theorem lt_maxWordLen (wl : List Word) : ∀ w ∈ wl, w.chars.length < maxWordLen wl := by
  have key : ∀ (l : List Word) (a : Nat), a ≤ l.foldl (fun m w => max m w.chars.length) a ∧
      ∀ w ∈ l, w.chars.length ≤ l.foldl (fun m w => max m w.chars.length) a := by
    intro l
    induction l with
    | nil => intro a; simp
    | cons x l ih =>
      intro a
      rw [List.foldl_cons]
      obtain ⟨h1, h2⟩ := ih (max a x.chars.length)
      refine ⟨by omega, ?_⟩
      intro w hw
      rcases List.mem_cons.1 hw with rfl | hw
      · omega
      · exact h2 w hw
  intro w hw
  have := (key wl 0).2 w hw
  unfold maxWordLen; omega

/-- The phrases a search returns from a state on, in order. -/
inductive Delivers : PS → List (List Word) → Prop
  | finished {ps : PS} {r} : ps.iter = .ok (.finished, r) → Delivers ps []
  | skip {ps ps' : PS} {D} : ps.iter = .ok (.next ps', none) → Delivers ps' D → Delivers ps D
  | found {ps ps' : PS} {ws D} : ps.iter = .ok (.next ps', some ws) → Delivers ps' D → Delivers ps (ws :: D)

theorem wordsOf_replicate (wl : List Word) (hne : wl ≠ []) (d j : Nat) : ∃ d' w, wordsOf wl (List.replicate d j) = List.replicate d' w := by
  obtain ⟨w0, _⟩ := List.exists_mem_of_ne_nil _ hne
  cases hj : wl[j]? with
  | some w =>
    refine ⟨d, w, ?_⟩
    induction d with
    | zero => rfl
    | succ d ih =>
      rw [List.replicate_succ, wordsOf, List.filterMap_cons, hj]
      simp only
      rw [wordsOf] at ih
      rw [ih]; rfl
  | none =>
    refine ⟨0, w0, ?_⟩
    induction d with
    | zero => rfl
    | succ d ih => rw [List.replicate_succ, wordsOf, List.filterMap_cons, hj]; exact ih

/-- A search returns its results, except possibly a last one that repeats one word. -/
theorem delivers_exists {c : Ctx} (hc : CtxOk c) (hne : c.wl ≠ []) (n : Nat) :
    ∀ {ps : PS} {ph : SearchPhase} {q : List SearchPhase} {rs : List Nat}, SInv c ps ph q rs → pendCost c ph q rs < n →
      ∃ D, Delivers ps D ∧ ((pendRes c ph q rs).map (wordsOf c.wl) = D ∨
        ∃ d w, (pendRes c ph q rs).map (wordsOf c.wl) = D ++ [List.replicate d w]) := by
  induction n with
  | zero => intro ps ph q rs _ h; omega
  | succ n ih =>
    intro ps ph q rs h hn
    obtain ⟨mv, res, h1, h2⟩ := iter_spec hc h
    cases mv with
    | finished =>
      refine ⟨[], Delivers.finished h1, ?_⟩
      cases res with
      | none => left; rw [show pendRes c ph q rs = [] from h2.1]; rfl
      | some ws =>
        obtain ⟨⟨p, a, _⟩, b⟩ := h2
        obtain ⟨d, j, hp⟩ := b p a
        obtain ⟨d', w, hw⟩ := wordsOf_replicate c.wl hne d j
        right
        exact ⟨d', w, by rw [a, hp]; simp [hw]⟩
    | next ps' =>
      obtain ⟨ph', q', rs', a, b, d⟩ := h2
      obtain ⟨D, h3, h4⟩ := ih a (by omega)
      cases res with
      | none =>
        have d : pendRes c ph q rs = pendRes c ph' q' rs' := d
        exact ⟨D, Delivers.skip h1 h3, by rw [d]; exact h4⟩
      | some ws =>
        obtain ⟨p, e1, e2⟩ := d
        refine ⟨ws :: D, Delivers.found h1 h3, ?_⟩
        rw [e1, List.map_cons, ← e2]
        rcases h4 with h4 | ⟨d, w, h4⟩
        · left; rw [h4]
        · right; exact ⟨d, w, by rw [h4]; rfl⟩

theorem loop_delivers (n : Nat) : ∀ {ps : PS} {D : List (List Word)} {clk clk' : Clock} {cnt : Nat} {out : Looped},
    Delivers ps D → PS.loop n ps clk cnt = .ok (out, clk') →
      match out with
      | .found ps' ws => ∃ D', D = ws :: D' ∧ Delivers ps' D'
      | .timeout ps' => Delivers ps' D
      | .finished _ => D = [] := by
  induction n with
  | zero => intro ps D clk clk' cnt out _ h; simp [PS.loop] at h
  | succ n ih =>
    intro ps D clk clk' cnt out hD h
    unfold PS.loop at h
    cases hD with
    | finished h1 =>
      rw [h1] at h
      simp only [Except.ok.injEq, Prod.mk.injEq] at h
      rw [← h.1]
    | found h1 h2 =>
      rw [h1] at h
      simp only [Except.ok.injEq, Prod.mk.injEq] at h
      rw [← h.1]
      exact ⟨_, rfl, h2⟩
    | skip h1 h2 =>
      rw [h1] at h
      simp only at h
      generalize (if (cnt + 1) % 256 = 0 then clk.read else (false, clk)) = rd at h
      split at h
      · simp only [Except.ok.injEq, Prod.mk.injEq] at h
        rw [← h.1]; exact h2
      · exact ih h2 h

/-- `L` is the list of phrases the phrase search will return, in order, and `cL` bounds its cost. -/
def Planned (es : List Expr) (wl : List Word) (depth : Nat) (L : List (List Word)) (g : Bool) (cL : Nat) : Prop :=
  if depth ≤ 1 then L = [] ∧ g = false else
  ∀ ms, Sync false (maxWordLen wl) es ms wl →
    (plan ms depth = .ok none ∧ L = [] ∧ g = false) ∨
    ∃ ps c ph q, plan ms depth = .ok (some ps) ∧ CtxOk c ∧ c.wl ≠ [] ∧ SInv c ps ph q [0] ∧
      Delivers ps L ∧ pendCost c ph q [0] ≤ cL ∧ planGaveUp ms depth = g

/-- The invariant of an evaluation: `R` is what is still to be returned, `n` bounds the calls needed. -/
def PhaseInv (es : List Expr) (wl : List Word) (depth : Nat) (L : List (List Word)) (g : Bool) (cL : Nat) :
    Phase → List (List Word) → Nat → Prop
  | .word ms wl', R, n => wl' = wl ∧ ∃ e es' m ms' P ws, es = e :: es' ∧ ms = m :: ms' ∧ wl = P ++ ws ∧
      WMAt e (decide (depth ≤ 1)) (maxWordLen wl) m P ∧
      Chain (decide (depth ≤ 1)) (maxWordLen wl) es' ms' m.alive ∧
      R = (ws.filter (allB es)).map (fun w => [w]) ++ L ∧ n = ws.length + 1 + cL
  | .phrase ps, R, n => ∃ c ph q rs, CtxOk c ∧ c.wl ≠ [] ∧ SInv c ps ph q rs ∧
      Delivers ps R ∧ n = pendCost c ph q rs
  | .done, R, _ => R = []

/-- Is the evaluator done? -/
def QState.isDone (q : QState) : Bool := match q.phase with | .done => true | _ => false

/-- Is it searching phrases? -/
def QState.isPhrase (q : QState) : Bool := match q.phase with | .phrase _ => true | _ => false

/-- Has the results limit been reached? -/
def QState.full (q : QState) : Bool := q.resultsLimit.any fun l => decide (l ≤ q.resultsCount)

/-- One call: what can happen. -/
inductive Called (es : List Expr) (wl : List Word) (L : List (List Word)) (g : Bool) (cL : Nat) (q q' : QState) (clk : Clock)
    (R : List (List Word)) (n : Nat) : Resp → Prop
  | matched (ws : List Word) (R' : List (List Word)) (n' : Nat) : R = ws :: R' →
      PhaseInv es wl q.depthLimit L g cL q'.phase R' n' → n' < n → q'.isDone = false → q'.isPhrase = q.isPhrase →
      q'.resultsCount = q.resultsCount + 1 → Called es wl L g cL q q' clk R n (.matched ws)
  | timeout (n' : Nat) : clk ≠ none → PhaseInv es wl q.depthLimit L g cL q'.phase R n' → n' ≤ n →
      (clk ≠ some 0 → n' < n) → q'.isDone = false → q'.isPhrase = q.isPhrase →
      q'.resultsCount = q.resultsCount → Called es wl L g cL q q' clk R n .timeout
  | logs (n' : Nat) : PhaseInv es wl q.depthLimit L g cL q'.phase R n' → n' < n → q.isPhrase = false → q'.isPhrase = true →
      R = L → q'.resultsCount = q.resultsCount →
      (∃ ms ps, Sync false (maxWordLen wl) es ms wl ∧ plan ms q.depthLimit = .ok (some ps) ∧ q'.phase = .phrase ps) →
      Called es wl L g cL q q' clk R n (.logs g)
  | empty : R = [] → q'.phase = .done → (q.isPhrase = false → g = false) →
      (q.isPhrase = false → ¬ q.depthLimit ≤ 1 → ∃ ms, Sync false (maxWordLen wl) es ms wl ∧ plan ms q.depthLimit = .ok none) →
      q'.depthLimit = q.depthLimit →
      (q'.resultsCount = q.resultsCount ∨ q.isPhrase = true ∧ q'.resultsCount = q.resultsCount + 1) →
      Called es wl L g cL q q' clk R n .complete

theorem wordLoop_nil (wl : List Word) (single : Bool) (n : Nat) (m : WM) (ms : List WM) (clk : Clock)
    (h : m.wordIndex = wl.length) : wordLoop wl single (n + 1) m ms clk = .ok (m, ms, none, clk) := by
  rw [wordLoop, WM.next, h, List.drop_length]
  rfl

theorem next_step {es : List Expr} (hes : ∀ e ∈ es, WF e) {wl : List Word}
    {L : List (List Word)} {g : Bool} {cL : Nat} (q : QState) (hL : Planned es wl q.depthLimit L g cL) (R : List (List Word)) (n : Nat)
    (hq : PhaseInv es wl q.depthLimit L g cL q.phase R n) (hd : q.isDone = false) (hf : q.full = false) (clk : Clock) :
    ∃ q' r, q.next clk = .ok (q', r) ∧ q'.depthLimit = q.depthLimit ∧ q'.resultsLimit = q.resultsLimit ∧
      Called es wl L g cL q q' clk R n r := by
  obtain ⟨phase, depth, limit, count⟩ := q
  simp only [QState.full] at hf
  simp only at hL hq
  unfold QState.next
  cases phase with
  | done => simp [QState.isDone] at hd
  | word ms wl' =>
    obtain ⟨rfl, e, es', m, ms', P, ws, rfl, rfl, hwl, hat, hch, hR, hn⟩ := hq
    simp only
    rw [if_neg (by simpa using hf)]
    have hes0 : ∀ e' ∈ es', 0 < e'.len := fun e' he' => (hes e' (by simp [he'])).nonempty
    have hidx : wl'.length - m.wordIndex + 1 = ws.length + 1 := by
      rw [hat.idx, hwl]; simp
    have hlt : ∀ w ∈ P ++ ws, w.chars.length < maxWordLen wl' := by rw [← hwl]; exact lt_maxWordLen wl'
    obtain ⟨m', ms'', out, clk', k, g1, g2, g3, g4, g5, g6⟩ := wordLoop_spec (hes e (by simp)).nonempty hes0
      (ws.length + 1) clk hat hch hlt (by omega)
    rw [← hwl] at g1
    rw [hidx, g1]
    have hsplit : wl' = (P ++ ws.take k) ++ ws.drop k := by
      rw [List.append_assoc, List.take_append_drop]; exact hwl
    cases out with
    | some w =>
      obtain ⟨hk, pre, a, b, c⟩ := g6
      refine ⟨_, _, rfl, rfl, rfl, ?_⟩
      refine Called.matched [w] (((ws.drop k).filter (allB (e :: es'))).map (fun w => [w]) ++ L)
        ((ws.drop k).length + 1 + cL) ?_ ?_ ?_ rfl rfl rfl
      · rw [hR]
        conv => lhs; rw [← List.take_append_drop k ws]
        rw [List.filter_append, a, List.filter_append, b]
        simp [c]
      · exact ⟨rfl, e, es', m', ms'', P ++ ws.take k, ws.drop k, rfl, rfl, hsplit, g4, g5, rfl, rfl⟩
      · rw [hn, List.length_drop]; omega
    | none =>
      obtain ⟨a, b, c⟩ := g6
      have hR' : R = ((ws.drop k).filter (allB (e :: es'))).map (fun w => [w]) ++ L := by
        rw [hR]
        conv => lhs; rw [← List.take_append_drop k ws]
        rw [List.filter_append, a]
        simp
      simp only
      by_cases hread : clk'.read.1 = true
      · rw [if_pos hread]
        have h0 := Clock.read_true hread
        refine ⟨_, _, rfl, rfl, rfl, ?_⟩
        refine Called.timeout ((ws.drop k).length + 1 + cL) ?_ ?_ ?_ ?_ rfl rfl rfl
        · rintro rfl
          have : clk' = none := g3
          rw [this] at h0; simp at h0
        · exact ⟨rfl, e, es', m', ms'', P ++ ws.take k, ws.drop k, rfl, rfl, hsplit, g4, g5, hR', rfl⟩
        · rw [hn, List.length_drop]; omega
        · intro hc0
          have hws : ws ≠ [] := by
            rintro rfl
            rw [List.length_nil, wordLoop_nil _ _ _ _ _ _ (by rw [hat.idx, hwl]; simp)] at g1
            simp only [Except.ok.injEq, Prod.mk.injEq] at g1
            rw [← g1.2.2.2] at h0
            exact hc0 h0.1
          have := c hc0 hws
          rw [hn, List.length_drop]
          have : 0 < ws.length := List.length_pos_of_ne_nil hws
          omega
      · rw [if_neg hread]
        have hk : k = ws.length := by
          rcases b with b | b
          · exact b
          · rw [b] at hread; exact absurd rfl hread
        subst hk
        rw [List.take_length, ← hwl] at g4
        rw [List.drop_length] at hR'
        simp only [List.filter_nil, List.map_nil, List.nil_append] at hR'
        by_cases hs : depth ≤ 1
        · rw [if_pos (by simpa using hs)]
          unfold Planned at hL
          rw [if_pos hs] at hL
          exact ⟨_, _, rfl, rfl, rfl, Called.empty (by rw [hR', hL.1]) rfl (fun _ => hL.2)
            (fun _ h => absurd hs h) rfl (.inl rfl)⟩
        · rw [if_neg (by simpa using hs)]
          have hsf : decide (depth ≤ 1) = false := by simpa using hs
          rw [hsf] at g4 g5
          obtain ⟨ms3, h1, h2⟩ := drainAll_sync hes0 g5
            (fun x hx => lt_maxWordLen wl' x (g4.alive_sub x hx))
          rw [h1]
          simp only
          unfold Planned at hL
          rw [if_neg hs] at hL
          rcases hL (m' :: ms3) ⟨g4, h2⟩ with ⟨h3, h4, hg⟩ | ⟨ps, c, ph, qq, h3, h4, h5, h6, h7, h8, hg⟩
          · rw [h3]
            exact ⟨_, _, rfl, rfl, rfl, Called.empty (by rw [hR', h4]) rfl (fun _ => hg)
              (fun _ _ => ⟨m' :: ms3, ⟨g4, h2⟩, h3⟩) rfl (.inl rfl)⟩
          · rw [h3]
            simp only [hg]
            refine ⟨_, _, rfl, rfl, rfl, Called.logs (pendCost c ph qq [0]) ?_ ?_ rfl rfl hR' rfl
              ⟨m' :: ms3, ps, ⟨g4, h2⟩, h3, rfl⟩⟩
            · exact ⟨c, ph, qq, [0], h4, h5, h6, by rw [hR']; exact h7, rfl⟩
            · rw [hn]; omega
  | phrase ps =>
    obtain ⟨c, ph, qq, rs, hc, hne, hS, hR, hn⟩ := hq
    simp only
    rw [if_neg (by simpa using hf), if_neg (by rw [hS.wl]; exact hne)]
    have hfuel : pendCost c ph qq rs < ps.fuel := by
      have h1 := pendC_le (trancheCum c.wl ph.tranche) ph.depth rs hS.idx (by rw [hS.len]; have := hS.lt; omega)
      have h2 := nodes_mono (cum_le c.wl ph.tranche) ph.depth
      unfold PS.fuel
      rw [hS.queue, hS.wl]
      simp only [pendCost, List.map_cons, List.sum_cons]
      omega
    obtain ⟨out, clk', g1, g2⟩ := ploop_spec hc ps.fuel clk 0 hS hfuel
    have g3 := loop_delivers ps.fuel hR g1
    rw [g1]
    cases out with
    | found ps' ws =>
      obtain ⟨ph', q', rs', p, a, b, _, _⟩ := g2
      obtain ⟨D', h1, h2⟩ := g3
      refine ⟨_, _, rfl, rfl, rfl, ?_⟩
      refine Called.matched ws D' (pendCost c ph' q' rs') h1 ?_ (by omega) rfl rfl rfl
      exact ⟨c, ph', q', rs', hc, hne, a, h2, rfl⟩
    | timeout ps' =>
      obtain ⟨a0, ph', q', rs', a, b, _⟩ := g2
      refine ⟨_, _, rfl, rfl, rfl, Called.timeout (pendCost c ph' q' rs') a0 ?_ (by omega) (fun _ => by omega) rfl rfl rfl⟩
      exact ⟨c, ph', q', rs', hc, hne, a, g3, rfl⟩
    | finished kk =>
      refine ⟨_, _, rfl, rfl, rfl, Called.empty g3 rfl (fun h => by simp [QState.isPhrase] at h)
        (fun h => by simp [QState.isPhrase] at h) rfl ?_⟩
      rcases g2 with ⟨hk, _⟩ | ⟨hk, _⟩
      · exact .inl (by rw [hk]; rfl)
      · exact .inr ⟨rfl, by rw [hk]⟩

theorem wordsOf_inj {wl : List Word} (hn : wl.Nodup) : ∀ {p p' : List Nat}, (∀ i ∈ p, i < wl.length) →
    (∀ i ∈ p', i < wl.length) → wordsOf wl p = wordsOf wl p' → p = p' := by
  intro p
  induction p with
  | nil =>
    intro p' _ h2 h
    have := wordsOf_length wl p' h2
    rw [← h] at this
    exact (List.length_eq_zero_iff.1 this.symm).symm
  | cons i p ih =>
    intro p' h1 h2 h
    have hi := h1 i (by simp)
    cases p' with
    | nil =>
      have := wordsOf_length wl (i :: p) h1
      rw [h] at this
      simp [wordsOf] at this
    | cons j p' =>
      have hj := h2 j (by simp)
      simp only [wordsOf, List.filterMap_cons, List.getElem?_eq_getElem hi, List.getElem?_eq_getElem hj,
        List.cons.injEq] at h
      rw [ih (fun x hx => h1 x (by simp [hx])) (fun x hx => h2 x (by simp [hx])) h.2]
      congr 1
      exact (List.Nodup.getElem_inj_iff hn).1 h.1

/-- All matching longer phrases in the documented order (as positions in the word list), of which `L` lacks at most the
last one, which then is one repeated word. -/
def Wanted (es : List Expr) (wl : List Word) (depth : Nat) (L : List (List Word)) : Prop :=
  ∃ ps : List (List Nat), ps.map (phraseAt wl) ~ longer es wl depth ∧
    (∀ p ∈ ps, 2 ≤ p.length ∧ ∀ i ∈ p, i < wl.length) ∧ ps.Nodup ∧
    (depth < 2 ^ 32 → ps.Pairwise fun p p' => ¬ Due wl p' p) ∧
    (ps.map (phraseAt wl) = L ∨ ∃ d w, ps.map (phraseAt wl) = L ++ [List.replicate d w])

theorem Wanted.perm {es : List Expr} {wl : List Word} {depth : Nat} {L : List (List Word)} (h : Wanted es wl depth L) :
    L ~ longer es wl depth ∨ ∃ d w, L ++ [List.replicate d w] ~ longer es wl depth := by
  obtain ⟨ps, h1, _, _, _, h2 | ⟨d, w, h2⟩⟩ := h
  · rw [h2] at h1; exact Or.inl h1
  · rw [h2] at h1; exact Or.inr ⟨d, w, h1⟩

/-- There is a plan, and unless the planner gives up it contains all matching phrases. -/
theorem planned_exists {es : List Expr} (hne : es ≠ []) (hes : ∀ e ∈ es, WF e) {wl : List Word} (hsort : TrSorted wl)
    (depth : Nat) :
    ∃ L g cL, Planned es wl depth L g cL ∧
      (∀ ws ∈ L, 2 ≤ ws.length ∧ ws.length ≤ depth ∧ ∀ w ∈ ws, w ∈ wl) ∧ (wl.Nodup → L.Nodup) ∧
      ((es.map Expr.len).sum + depth ≤ 97 → g = false) ∧
      (∃ ps : List (List Nat), L = ps.map (phraseAt wl) ∧ (∀ p ∈ ps, 2 ≤ p.length ∧ ∀ i ∈ p, i < wl.length) ∧
        ps.Nodup ∧ (depth < 2 ^ 32 → ps.Pairwise fun p p' => ¬ Due wl p' p)) ∧
      (g = false ∨ es.length = 1 → Wanted es wl depth L) := by
  by_cases hd : depth ≤ 1
  · refine ⟨[], false, 0, by unfold Planned; rw [if_pos hd]; exact ⟨rfl, rfl⟩, by simp, by simp, fun _ => rfl,
      ⟨[], rfl, by simp, by simp, by simp⟩, fun _ => ?_⟩
    have : depth - 1 = 0 := by omega
    unfold Wanted longer
    rw [this]; exact ⟨[], Perm.refl _, by simp, by simp, by simp, Or.inl rfl⟩
  · have hpos : 0 < maxWordLen wl := by unfold maxWordLen; omega
    obtain ⟨ms, _, hsync⟩ := drainAll_sync (fun e he => (hes e he).nonempty) (chain_new false (maxWordLen wl) hpos es wl)
      (lt_maxWordLen wl)
    have huniq : ∀ ms', Sync false (maxWordLen wl) es ms' wl → ms' = ms := fun ms' h => h.unique hsync
    rcases (plan_spec hne hes hsync hsort depth).2 with ⟨h1, h2⟩ | ⟨ps, c, ph, q, h1, h2, h3, hsub, h4, hin, hnd, hord, h5⟩
    · refine ⟨[], false, 0, ?_, by simp, by simp, fun _ => rfl,
        ⟨[], rfl, by simp, by simp, by simp⟩, fun _ => ⟨[], by rw [h2]; exact Perm.refl _, by simp, by simp, by simp, Or.inl rfl⟩⟩
      unfold Planned
      rw [if_neg hd]
      intro ms' h'
      rw [huniq ms' h']
      exact Or.inl ⟨h1, rfl, rfl⟩
    · obtain ⟨D, hD, hDR⟩ := delivers_exists h2 h3 _ h4 (Nat.lt_succ_self _)
      have hDsub : D <+ (pendRes c ph q [0]).map (wordsOf c.wl) := by
        rcases hDR with hDR | ⟨d, w, hDR⟩ <;> rw [hDR]
        exact List.sublist_append_left _ _
      refine ⟨D, planGaveUp ms depth, pendCost c ph q [0], ?_, ?_, ?_, (plan_spec hne hes hsync hsort depth).1, ?_,
        fun h => ?_⟩
      rotate_left
      · intro ws hws
        obtain ⟨p, hp, rfl⟩ := List.mem_map.1 (hDsub.subset hws)
        obtain ⟨a, b, d⟩ := hin p hp
        refine ⟨by rw [wordsOf_length _ _ d]; exact a, by rw [wordsOf_length _ _ d]; exact b, ?_⟩
        intro w hw
        obtain ⟨i, _, hi⟩ := List.mem_filterMap.1 hw
        exact hsub.subset (List.mem_of_getElem? hi)
      · intro hwn
        exact (hnd.map_on fun p hp p' hp' heq =>
          wordsOf_inj (hwn.sublist hsub) (hin p hp).2.2 (hin p' hp').2.2 heq).sublist hDsub
      · obtain ⟨ps0, hps0, rfl⟩ := List.sublist_map_iff.1 hDsub
        obtain ⟨ps', k1, k2, k3, k4, k5⟩ := lift_positions hsub ps0 (fun p hp => (hin p (hps0.subset hp)).2.2)
          (fun hlim => (hord hlim).sublist hps0) (hnd.sublist hps0)
        refine ⟨ps', k1, fun p hp => ⟨?_, k2 p hp⟩, k4, k5⟩
        obtain ⟨p0, hp0, hl⟩ := k3 p hp
        rw [hl]
        exact (hin p0 (hps0.subset hp0)).1
      · have := h5 h
        obtain ⟨ps', k1, k2, k3, k4, k5⟩ := lift_positions hsub (pendRes c ph q [0]) (fun p hp => (hin p hp).2.2) hord hnd
        have k1' : (pendRes c ph q [0]).map (wordsOf c.wl) = ps'.map (phraseAt wl) := k1
        rw [k1'] at this hDR
        refine ⟨ps', this, fun p hp => ⟨?_, k2 p hp⟩, k4, k5, hDR⟩
        obtain ⟨p0, hp0, hl⟩ := k3 p hp
        rw [hl]
        exact (hin p0 hp0).1
      unfold Planned
      rw [if_neg hd]
      intro ms' h'
      rw [huniq ms' h']
      exact Or.inr ⟨ps, c, ph, q, h1, h2, h3, h4, hD, Nat.le_refl _, rfl⟩

/-- A fresh evaluator. -/
theorem new_inv {es : List Expr} {wl : List Word} {depth : Nat} {limit : Option Nat} (L : List (List Word)) (g : Bool) (cL : Nat)
    {q : QState} (h : QState.new es wl depth limit = .ok q) :
    PhaseInv es wl q.depthLimit L g cL q.phase ((wl.filter (allB es)).map (fun w => [w]) ++ L) (wl.length + 1 + cL) ∧
    q.depthLimit = depth ∧ q.resultsLimit = limit ∧ q.resultsCount = 0 ∧ q.isDone = false ∧ q.isPhrase = false := by
  unfold QState.new at h
  cases es with
  | nil => simp at h
  | cons e es =>
    rw [if_neg (by simp)] at h
    obtain rfl := (Except.ok.inj h).symm
    have hpos : 0 < maxWordLen wl := by unfold maxWordLen; omega
    refine ⟨⟨rfl, e, es, _, _, [], wl, rfl, rfl, rfl, WMAt.new e _ _ hpos, chain_new _ _ hpos es _, rfl, rfl⟩, rfl, rfl, rfl, rfl, rfl⟩

end Noodle
