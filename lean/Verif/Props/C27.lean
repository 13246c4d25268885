import Verif.Props.C18
/-
C17, C27–C30: the word matcher's cache, and the phrase matchers under optimisation.
-/
namespace Noodle
open Spec List
set_option autoImplicit false

/-! ### C17 -/

theorem wmAfter_spec {e : Expr} (he : 0 < e.len) {single : Bool} {maxLen : Nat} (P : List Word) : ∀ {m : WM} {P0 : List Word},
    WMAt e single maxLen m P0 → (∀ w ∈ P, w.chars.length < maxLen) →
    ∃ m', wmAfter single m P = .ok m' ∧ WMAt e single maxLen m' (P0 ++ P) := by
  induction P with
  | nil => intro m P0 h _; exact ⟨m, rfl, by simpa using h⟩
  | cons w P ih =>
    intro m P0 h hl
    obtain ⟨m1, h1, h2⟩ := h.word he w (hl w (by simp))
    obtain ⟨m2, h3, h4⟩ := ih h2 (fun x hx => hl x (by simp [hx]))
    refine ⟨m2, by simp only [wmAfter, h1, h3], by simpa using h4⟩

/-- C17: whatever words the matcher processed before (and so whatever its prefix cache holds), processing a word
succeeds and the verdict is the match relation, which mentions only the expression and the word. -/
theorem C17_verdict {e : Expr} (he : 0 < e.len) (single : Bool) {maxLen : Nat} (P : List Word) (w : Word)
    (hP : ∀ v ∈ P, v.chars.length < maxLen) (hw : w.chars.length < maxLen) :
    ∃ m m' b, wmAfter single (WM.new e maxLen) P = .ok m ∧ m.word single w = .ok (m', b) ∧
      (b = true ↔ Matches e w.chars) := by
  obtain ⟨m, h1, h2⟩ := wmAfter_spec he P (WMAt.new e single maxLen (by omega)) hP
  obtain ⟨m', h3, _⟩ := h2.word he w hw
  exact ⟨m, m', _, h1, h3, matchB_iff e w⟩

/-- C17: the transition table recorded for a word (through its class) is a function of the expression and the word
alone: there is one assignment of tables that is right for every history `P`. -/
theorem C17_tables {e : Expr} (he : 0 < e.len) (maxLen : Nat) (hm : 0 < maxLen) :
    ∃ T : Word → Tbl, ∀ (P : List Word) (m : WM), (∀ v ∈ P, v.chars.length < maxLen) →
      wmAfter false (WM.new e maxLen) P = .ok m → m.pm.wordClasses.length = m.alive.length ∧
      ∀ (i : Nat) (w : Word), m.alive[i]? = some w →
        ∃ ci wc, m.pm.wordClasses[i]? = some ci ∧ m.pm.classes[ci]? = some (T w, wc) := by
  refine ⟨canonT e, fun P m hP h => ?_⟩
  obtain ⟨m', h1, h2⟩ := wmAfter_spec he P (WMAt.new e false maxLen hm) hP
  obtain rfl : m' = m := Except.ok.inj (h1.symm.trans h)
  have hinv := h2.toWMInv
  simp only [List.nil_append] at hinv
  have hfold := foldl_insert (e := e) (P.filter fun w => aliveB e false w.chars)
  rw [show (P.filter fun w => aliveB e false w.chars).foldl (fun pm w => pm.insertWord w (wordTbl e w.chars)) (PM.new e) =
    pmOf e P from rfl, ← hinv.pm rfl, ← hinv.alive] at hfold
  obtain ⟨_, _, _, _, k5, k6, _⟩ := hfold
  refine ⟨k5, fun i w hi => ?_⟩
  have hlt : i < m'.pm.wordClasses.length := by rw [k5]; exact (List.getElem?_eq_some_iff.1 hi).1
  have hz : (w, m'.pm.wordClasses[i]) ∈ m'.alive.zip m'.pm.wordClasses := by
    obtain ⟨hl, rfl⟩ := List.getElem?_eq_some_iff.1 hi
    rw [List.mem_iff_getElem]
    exact ⟨i, by rw [List.length_zip]; omega, by simp⟩
  obtain ⟨⟨wc, h⟩, _⟩ := k6 _ _ hz
  exact ⟨_, wc, List.getElem?_eq_getElem hlt, h⟩

/-! ### Phrases, word by word -/

/-- Step a phrase matcher through word indices, as the search does (query.rs:519-547). -/
def stepThrough (pm : PM) : List Nat → Rows → Except Crash Rows
  | [], r => .ok r
  | i :: p, r =>
    match pm.stepByWordIndex i r (r.map fun _ => 0) with
    | .error x => .error x
    | .ok r' => stepThrough pm p r'

/-- The matcher's verdict on a phrase given by word indices. -/
def phraseVerdict (pm : PM) (p : List Nat) : Except Crash Bool :=
  match stepThrough pm p (rowsOf pm.fuzzLimit pm.start) with
  | .error x => .error x
  | .ok r => .ok (pm.hasSuccess r)

/-- The matchers that occur while a query is planned: a matcher that processed the whole word list, then optimised
any number of times for any shorter word lists and search queues. `D` is the phrase length still in question. -/
inductive Reached (e : Expr) (wl : List Word) : Nat → WM → Prop
  | drained {m : WM} {last : Option Word} (D : Nat) :
      (WM.new e (maxWordLen wl)).drain wl false = .ok (m, last) → Reached e wl D m
  | optimized {D : Nat} {m m' : WM} {new : List Word} {queue : List SearchPhase} {did : Bool} :
      Reached e wl D m → new <+ m.alive → queue ≠ [] → maxDepth queue ≤ D →
      m.optimize new queue = .ok (m', did) → Reached e wl (maxDepth queue) m'

private theorem drained_at {e : Expr} (hw : WF e) {wl : List Word} {m : WM} {last : Option Word}
    (h : (WM.new e (maxWordLen wl)).drain wl false = .ok (m, last)) : WMAt e false (maxWordLen wl) m wl := by
  have hpos : 0 < maxWordLen wl := by unfold maxWordLen; omega
  obtain ⟨m', h1, h2⟩ := drain_spec hw.nonempty (WMAt.new e false (maxWordLen wl) hpos) (lt_maxWordLen wl)
  simp only [List.nil_append] at h1 h2
  rw [h] at h1
  obtain rfl : m = m' := congrArg Prod.fst (Except.ok.inj h1)
  exact h2

/-- A fresh matcher can always be drained. -/
theorem drain_ok {e : Expr} (hw : WF e) (wl : List Word) :
    ∃ m last, (WM.new e (maxWordLen wl)).drain wl false = .ok (m, last) := by
  have hpos : 0 < maxWordLen wl := by unfold maxWordLen; omega
  obtain ⟨m', h1, h2⟩ := drain_spec hw.nonempty (WMAt.new e false (maxWordLen wl) hpos) (lt_maxWordLen wl)
  simp only [List.nil_append] at h1 h2
  exact ⟨_, _, h1⟩

private theorem reached_inv {e : Expr} (hw : WF e) {wl : List Word} {D : Nat} {m : WM} (h : Reached e wl D m) :
    MInv e D m := by
  induction h with
  | drained D h => exact MInv.init hw (drained_at hw h).toWMInv D
  | optimized _ hs hq hD ho ih =>
    obtain ⟨m'', did', keep, h1, h2, _⟩ := optimize_spec ih _ hs _ hq hD
    rw [ho] at h1
    obtain rfl := congrArg Prod.fst (Except.ok.inj h1)
    exact h2

private theorem stepThrough_eq (pm : PM) {n : Nat} (hcls : ∀ i, i < n → ∃ ci t wc, pm.wordClasses[i]? = some ci ∧
    pm.classes[ci]? = some (t, wc)) (p : List Nat) : ∀ (r : Rows), r.length = pm.fuzzLimit → (∀ i ∈ p, i < n) →
    (stepThrough pm p r = .error .assert ∧ ∃ i ∈ p, pm.wordClasses[i]? = some 0) ∨
    ((∀ i ∈ p, pm.wordClasses[i]? ≠ some 0) ∧
      stepThrough pm p r = .ok (p.foldl (fun r i => stepInto pm.fuzzLimit (pmTbl pm i) r (List.replicate pm.fuzzLimit 0)) r)) := by
  induction p with
  | nil => intro r _ _; exact Or.inr ⟨by simp, rfl⟩
  | cons i p ih =>
    intro r hr hp
    obtain ⟨ci, t, wc, h1, h2⟩ := hcls i (hp i (by simp))
    by_cases h0 : ci = 0
    · left
      subst h0
      refine ⟨?_, i, by simp, h1⟩
      simp [stepThrough, PM.stepByWordIndex, h1]
    · have hmap : (r.map fun _ => 0) = List.replicate pm.fuzzLimit 0 := by rw [← hr]; simp
      have hstep : pm.stepByWordIndex i r (r.map fun _ => 0) = .ok (stepInto pm.fuzzLimit (pmTbl pm i) r (List.replicate pm.fuzzLimit 0)) := by
        simp [PM.stepByWordIndex, h1, h0, h2, pmTbl, hr]
      have hlen : (stepInto pm.fuzzLimit (pmTbl pm i) r (List.replicate pm.fuzzLimit 0)).length = pm.fuzzLimit := by
        rw [(stepInto_spec _ _ _ _ (by simp)).1]; simp
      rcases ih _ hlen (fun j hj => hp j (by simp [hj])) with ⟨a, j, hj, b⟩ | ⟨a, b⟩
      · left
        refine ⟨by simp only [stepThrough, hstep, a], j, by simp [hj], b⟩
      · right
        refine ⟨?_, by simp only [stepThrough, hstep, b, List.foldl_cons]⟩
        intro j hj
        rcases List.mem_cons.1 hj with rfl | hj
        · rw [h1]; simpa using h0
        · exact a j hj

private theorem words_idx {al : List Word} {p : List Nat} {ws : List Word}
    (h : p.map (fun i => al[i]?) = ws.map some) : (∀ i ∈ p, i < al.length) ∧ wordsOf al p = ws := by
  induction p generalizing ws with
  | nil => cases ws <;> simp_all [wordsOf]
  | cons i p ih =>
    cases ws with
    | nil => simp at h
    | cons w ws =>
      simp only [List.map_cons, List.cons.injEq] at h
      obtain ⟨h1, h2⟩ := h
      obtain ⟨a, b⟩ := ih h2
      refine ⟨?_, ?_⟩
      · intro j hj
        rcases List.mem_cons.1 hj with rfl | hj
        · exact (List.getElem?_eq_some_iff.1 h1).1
        · exact a j hj
      · have : wordsOf al (i :: p) = w :: wordsOf al p := by simp [wordsOf, h1]
        rw [this, b]

/-- A word in the empty class is in no matching phrase. -/
private theorem dead_class {e : Expr} (hw : WF e) {wl : List Word} {D : Nat} {m : WM} (h : Reached e wl D m)
    {i : Nat} {w : Word} (hi : m.alive[i]? = some w) (h0 : m.pm.wordClasses[i]? = some 0) (ws : List Word)
    (hlen : ws.length ≤ D) (hal : ∀ v ∈ ws, v ∈ m.alive) (hmem : w ∈ ws) : ¬ Matches e (charsOf ws) := by
  have hne : m.alive ≠ [] := by rintro hc; rw [hc] at hi; simp at hi
  obtain ⟨T, hT⟩ := (reached_inv hw h).body hne
  intro hM
  rw [← hT.acc ws (by rintro rfl; simp at hmem) hlen hal] at hM
  obtain ⟨s, k, h1, h2, h3⟩ := hM
  obtain ⟨a, b, rfl⟩ := List.append_of_mem hmem
  obtain ⟨m1, k1, k2, _, h5, _⟩ := (path_append _ _ _ _ _ _).1 h3
  have hz : (w, 0) ∈ m.alive.zip m.pm.wordClasses := by
    obtain ⟨hl, hw1⟩ := List.getElem?_eq_some_iff.1 hi
    obtain ⟨hl', hw2⟩ := List.getElem?_eq_some_iff.1 h0
    rw [List.mem_iff_getElem]
    exact ⟨i, by rw [List.length_zip]; omega, by simp [hw1, hw2]⟩
  have hTw := (hT.cls w 0 hz).2.1 rfl
  cases h5 with
  | @cons _ m' _ _ _ f k' hb _ =>
    rw [hTw, emptyTbl_row_at] at hb
    simp at hb

/-- C27, C30: whatever optimisations were applied, stepping the matcher through a phrase of at most `D` remaining
words gives exactly the match relation on the concatenated symbols of the phrase; if the matcher asserts instead, the
phrase contains a word of the empty class and does not match either. -/
theorem C27_verdict {e : Expr} (hw : WF e) {wl : List Word} {D : Nat} {m : WM} (h : Reached e wl D m)
    {p : List Nat} {ws : List Word} (hp : p.map (fun i => m.alive[i]?) = ws.map some) (hne : ws ≠ [])
    (hD : ws.length ≤ D) :
    (∃ b, phraseVerdict m.pm p = .ok b ∧ (b = true ↔ Matches e (charsOf ws))) ∨
    (phraseVerdict m.pm p = .error .assert ∧ (∃ i ∈ p, m.pm.wordClasses[i]? = some 0) ∧ ¬ Matches e (charsOf ws)) := by
  obtain ⟨hlt, hwords⟩ := words_idx hp
  have hplen : p.length = ws.length := by simpa using congrArg List.length hp
  have hpne : p ≠ [] := by rintro rfl; simp at hplen; exact hne (List.length_eq_zero_iff.1 hplen.symm)
  have hal : ∀ v ∈ ws, v ∈ m.alive := by
    intro v hv
    have : some v ∈ p.map (fun i => m.alive[i]?) := by rw [hp]; exact List.mem_map_of_mem hv
    obtain ⟨i, _, hi⟩ := List.mem_map.1 this
    exact List.mem_of_getElem? hi
  have hne' : m.alive ≠ [] := by
    obtain ⟨v, hv⟩ := List.exists_mem_of_ne_nil _ hne
    exact List.ne_nil_of_mem (hal v hv)
  obtain ⟨T, hT⟩ := (reached_inv hw h).body hne'
  have hcls : ∀ i, i < m.alive.length → ∃ ci t wc, m.pm.wordClasses[i]? = some ci ∧ m.pm.classes[ci]? = some (t, wc) := by
    intro i hi
    have hi' : i < m.pm.wordClasses.length := by rw [hT.wcl]; exact hi
    have hz : (m.alive[i], m.pm.wordClasses[i]) ∈ m.alive.zip m.pm.wordClasses := by
      rw [List.mem_iff_getElem]
      exact ⟨i, by rw [List.length_zip]; omega, by simp⟩
    obtain ⟨⟨wc, hc⟩, _⟩ := hT.cls _ _ hz
    exact ⟨_, _, wc, List.getElem?_eq_getElem hi', hc⟩
  rcases stepThrough_eq m.pm hcls p (rowsOf m.pm.fuzzLimit m.pm.start) (rowsOf_length _ _) hlt with ⟨a, i, hi, b⟩ | ⟨a, b⟩
  · right
    refine ⟨by simp only [phraseVerdict, a], ⟨i, hi, b⟩, ?_⟩
    have hi' := hlt i hi
    refine dead_class hw h (List.getElem?_eq_getElem hi') b ws hD hal ?_
    have : m.alive[i]? ∈ ws.map some := by rw [← hp]; exact List.mem_map_of_mem hi
    obtain ⟨v, hv, hve⟩ := List.mem_map.1 this
    rw [List.getElem?_eq_getElem hi'] at hve
    rw [← Option.some.inj hve]; exact hv
  · left
    refine ⟨_, by simp only [phraseVerdict, b]; rfl, ?_⟩
    have := success_iff hT m.pm.fuzzLimit (Nat.le_refl _) p hlt hpne (by omega)
    rw [hwords] at this
    exact this

/-- C27: optimising never fails (for a sub-list of the remaining words and a non-empty queue of depths still in
question), only removes words of the list it is given, and keeps every word that occurs in a matching phrase. -/
theorem C27_optimize {e : Expr} (hw : WF e) {wl : List Word} {D : Nat} {m : WM} (h : Reached e wl D m)
    {new : List Word} (hs : new <+ m.alive) {queue : List SearchPhase} (hq : queue ≠ []) (hD : maxDepth queue ≤ D) :
    ∃ m' did, m.optimize new queue = .ok (m', did) ∧ Reached e wl (maxDepth queue) m' ∧ m'.alive <+ new ∧
      ∀ ws : List Word, ws ≠ [] → ws.length ≤ maxDepth queue → (∀ w ∈ ws, w ∈ new) → Matches e (charsOf ws) →
        ∀ w ∈ ws, w ∈ m'.alive := by
  obtain ⟨m', did, keep, h1, h2, h3, h4, _⟩ := optimize_spec (reached_inv hw h) new hs queue hq hD
  refine ⟨m', did, h1, .optimized h hs hq hD h1, by rw [h3]; exact List.filter_sublist, ?_⟩
  intro ws w1 w2 w3 w4 w hw
  rw [h3, List.mem_filter]
  exact ⟨w3 w hw, h4 ws w1 w2 w3 w4 w hw⟩

/-- C27: after an optimisation that leaves any word, no remaining word is in the empty class, so that stepping never
asserts. -/
theorem C27_no_assert {e : Expr} (hw : WF e) {wl : List Word} {D : Nat} {m m' : WM} (h : Reached e wl D m)
    {new : List Word} (hs : new <+ m.alive) {queue : List SearchPhase} (hq : queue ≠ []) (hD : maxDepth queue ≤ D)
    {did : Bool} (ho : m.optimize new queue = .ok (m', did)) (hne : m'.alive ≠ []) : ∀ ci ∈ m'.pm.wordClasses, ci ≠ 0 := by
  obtain ⟨m'', did', keep, h1, _, _, _, h5, _⟩ := optimize_spec (reached_inv hw h) new hs queue hq hD
  rw [ho] at h1
  obtain rfl := congrArg Prod.fst (Except.ok.inj h1)
  exact h5 hne

/-! ### C28 -/

/-- C28: filtering the search phases never fails, only removes phases, and removes a phase (of a length still in
question) only if no phrase of that length over the remaining words matches. -/
theorem C28_safe {e : Expr} (hw : WF e) {wl : List Word} {D : Nat} {m : WM} (h : Reached e wl D m)
    (q : List SearchPhase) :
    ∃ q', m.pm.filterPhases q = .ok q' ∧ q' <+ q ∧
      ∀ ph ∈ q, ph ∉ q' → ph.depth ≤ D → ∀ ws : List Word, ws.length = ph.depth → (∀ w ∈ ws, w ∈ m.alive) →
        ¬ Matches e (charsOf ws) := by
  refine ⟨_, filterPhases_ok m.pm (reached_inv hw h).mt q, List.filter_sublist, ?_⟩
  intro ph hph hnot hD ws hlen hal hM
  apply hnot
  rw [List.mem_filter]
  refine ⟨hph, ?_⟩
  by_cases hws : ws = []
  · subst hws
    simp only [List.length_nil] at hlen
    simp [keepDepth, ← hlen]
  · have hne : m.alive ≠ [] := by
      obtain ⟨v, hv⟩ := List.exists_mem_of_ne_nil _ hws
      exact List.ne_nil_of_mem (hal v hv)
    obtain ⟨T, hT⟩ := (reached_inv hw h).body hne
    rw [← hlen]
    exact keepDepth_of_acc hT ws hal ((hT.acc ws hws (by omega) hal).2 hM)

/-! ### C29 -/

/-- C29: a word that is dropped while the tables are filled occurs in no phrase (of any words, of any length) that the
expression matches. -/
theorem C29_dropped {e : Expr} (hw : WF e) {wl : List Word} {m : WM} {last : Option Word}
    (h : (WM.new e (maxWordLen wl)).drain wl false = .ok (m, last)) {w : Word} (hin : w ∈ wl) (hout : w ∉ m.alive)
    (ws : List Word) (hmem : w ∈ ws) : ¬ Matches e (charsOf ws) := by
  intro hM
  apply hout
  rw [(drained_at hw h).alive, List.mem_filter]
  exact ⟨hin, alive_of_phrase e hw ws (by rintro rfl; simp at hmem) hM w hmem⟩

/-- C29: a remaining word that is in the dead class occurs in no matching phrase of remaining words (of a length still
in question). -/
theorem C29_dead_class {e : Expr} (hw : WF e) {wl : List Word} {D : Nat} {m : WM} (h : Reached e wl D m)
    {i : Nat} {w : Word} (hi : m.alive[i]? = some w) (h0 : m.pm.wordClasses[i]? = some 0) (ws : List Word)
    (hlen : ws.length ≤ D) (hal : ∀ v ∈ ws, v ∈ m.alive) (hmem : w ∈ ws) : ¬ Matches e (charsOf ws) :=
  dead_class hw h hi h0 ws hlen hal hmem

/-- C29, conversely: for an expression without fuzz, every word an optimisation keeps does occur in a phrase, made of the
words it was given, that the expression matches. -/
theorem C29_useful {e : Expr} (hw : WF e) (hf : e.fuzz = 0) {wl : List Word} {D : Nat} {m m' : WM} (h : Reached e wl D m)
    {new : List Word} (hs : new <+ m.alive) {queue : List SearchPhase} (hq : queue ≠ []) (hD : maxDepth queue ≤ D)
    {did : Bool} (ho : m.optimize new queue = .ok (m', did)) :
    ∀ w ∈ m'.alive, ∃ ws : List Word, w ∈ ws ∧ (∀ v ∈ ws, v ∈ new) ∧ Matches e (charsOf ws) := by
  obtain ⟨m'', did', keep, h1, _, h3, _, _, _, _, _, _, h10⟩ := optimize_spec (reached_inv hw h) new hs queue hq hD
  rw [ho] at h1
  obtain rfl := congrArg Prod.fst (Except.ok.inj h1)
  intro w hw
  obtain ⟨us, vs, k1, k2⟩ := h10 hf w hw
  refine ⟨us ++ w :: vs, by simp, fun v hv => ?_, k2⟩
  rcases List.mem_append.1 hv with hv | hv
  · exact k1 v (by simp [hv])
  · rcases List.mem_cons.1 hv with rfl | hv
    · rw [h3] at hw; exact (List.mem_filter.1 hw).1
    · exact k1 v (by simp [hv])

/-! ### C30 -/

/-- C30: for a matcher that has processed the word list, stepping through the words of a phrase of any length, one
at a time, gives the verdict on the concatenation of their symbols. -/
theorem C30_concat {e : Expr} (hw : WF e) {wl : List Word} {m : WM} {last : Option Word}
    (h : (WM.new e (maxWordLen wl)).drain wl false = .ok (m, last)) {p : List Nat} {ws : List Word}
    (hp : p.map (fun i => m.alive[i]?) = ws.map some) (hne : ws ≠ []) {b : Bool}
    (hb : phraseVerdict m.pm p = .ok b) : b = true ↔ Matches e (charsOf ws) := by
  rcases C27_verdict hw (Reached.drained ws.length h) hp hne (Nat.le_refl _) with ⟨b', h1, h2⟩ | ⟨h1, _⟩
  · rw [hb] at h1
    rw [Except.ok.inj h1]; exact h2
  · rw [hb] at h1; simp at h1

/-! ### Concrete cases -/

/-- The query `ab` over a, b, cc: both words survive, `cc` is dropped, `a b` is accepted, `b a` is not, before and
after an optimisation, which removes a state. -/
example :
    (match (WM.new exAB (maxWordLen [exA, exB, ⟨0, [2, 2, 27], "cc", 1⟩])).drain [exA, exB, ⟨0, [2, 2, 27], "cc", 1⟩] false with
      | .ok (m, _) =>
        decide (m.alive = [exA, exB]) &&
        (match phraseVerdict m.pm [0, 1], phraseVerdict m.pm [1, 0] with | .ok true, .ok false => true | _, _ => false) &&
        (match m.optimize [exA, exB] [⟨2, 0, 0⟩] with
          | .ok (m', _) => decide (m'.alive = [exA, exB]) &&
            (match phraseVerdict m'.pm [0, 1], phraseVerdict m'.pm [1, 0] with | .ok true, .ok false => true | _, _ => false) &&
            (match m'.pm.filterPhases [⟨2, 0, 0⟩, ⟨3, 0, 0⟩] with | .ok q => decide (q = [⟨2, 0, 0⟩]) | _ => false)
          | _ => false)
      | _ => false) = true := by decide +kernel

end Noodle
