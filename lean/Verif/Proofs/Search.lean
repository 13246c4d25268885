import Verif.Proofs.Step
/-
The phrase search: a depth-first search over index tuples, in lexicographic order.
-/
namespace Noodle

/-! ### Verdicts on index tuples -/

/-- The table the phrase matcher uses for word index `i`. -/
def pmTbl (pm : PM) (i : Nat) : Tbl :=
  match pm.wordClasses[i]? with
  | some ci => match pm.classes[ci]? with
    | some p => p.1
    | none => []
  | none => []

/-- The matcher is usable for word indices below `n`. -/
structure PMok (fm n : Nat) (pm : PM) : Prop where
  fuzz : pm.fuzzLimit ≤ fm
  cls : ∀ i, i < n → ∃ ci t wc, pm.wordClasses[i]? = some ci ∧ ci ≠ 0 ∧ pm.classes[ci]? = some (t, wc)

/-- The states reached after a tuple of words. -/
def idxRows (fm : Nat) (pm : PM) (p : List Nat) : Rows :=
  p.foldl (fun r i => stepInto pm.fuzzLimit (pmTbl pm i) r (List.replicate fm 0)) (rowsOf fm pm.start)

theorem idxRows_append (fm : Nat) (pm : PM) (p : List Nat) (i : Nat) :
    idxRows fm pm (p ++ [i]) = stepInto pm.fuzzLimit (pmTbl pm i) (idxRows fm pm p) (List.replicate fm 0) := by
  simp [idxRows]

theorem idxRows_length (fm : Nat) (pm : PM) (h : pm.fuzzLimit ≤ fm) (p : List Nat) :
    (idxRows fm pm p).length = fm := by
  rcases List.eq_nil_or_concat p with rfl | ⟨q, i, rfl⟩
  · simp [idxRows, rowsOf]
  · rw [List.concat_eq_append, idxRows_append, (stepInto_spec _ _ _ _ (by simpa using h)).1]; simp

/-- Every matcher accepts the tuple. -/
def accB (fm : Nat) (ms : List PM) (p : List Nat) : Bool := ms.all fun pm => pm.hasSuccess (idxRows fm pm p)
/-- No matcher is stuck after the tuple. -/
def liveB (fm : Nat) (ms : List PM) (p : List Nat) : Bool := ms.all fun pm => !rowsEmpty (idxRows fm pm p)

theorem not_empty_of_success (pm : PM) (r : Rows) (h : pm.hasSuccess r = true) : rowsEmpty r = false := by
  rw [← Bool.not_eq_true, rowsEmpty_iff]
  intro hc
  obtain ⟨f, _, hf⟩ := (hasSuccess_iff pm r).1 h
  rw [hc] at hf; simp at hf

theorem live_of_acc {fm : Nat} {ms : List PM} {p : List Nat} (h : accB fm ms p = true) : liveB fm ms p = true := by
  simp only [accB, liveB, List.all_eq_true] at h ⊢
  intro pm hpm
  rw [not_empty_of_success pm _ (h pm hpm)]; rfl

theorem empty_step {fm : Nat} {pm : PM} (hf : pm.fuzzLimit ≤ fm) {p : List Nat} (i : Nat)
    (h : rowsEmpty (idxRows fm pm p) = true) : rowsEmpty (idxRows fm pm (p ++ [i])) = true := by
  rw [rowsEmpty_iff] at h ⊢
  intro g d
  rw [idxRows_append, ← Bool.not_eq_true, (stepInto_spec _ _ _ _ (by simpa using hf)).2, at_replicate_zero]
  rintro (h1 | ⟨f, df, s, _, _, h2, _⟩)
  · simp at h1
  · rw [h] at h2; simp at h2

theorem live_prefix {fm : Nat} {ms : List PM} (hf : ∀ pm ∈ ms, pm.fuzzLimit ≤ fm) {p q : List Nat}
    (h : liveB fm ms (p ++ q) = true) : liveB fm ms p = true := by
  induction q generalizing p with
  | nil => simpa using h
  | cons i q ih =>
    have h1 : liveB fm ms (p ++ [i]) = true := ih (by simpa using h)
    simp only [liveB, List.all_eq_true] at h1 ⊢
    intro pm hpm
    have := h1 pm hpm
    cases hc : rowsEmpty (idxRows fm pm p) with
    | false => rfl
    | true => rw [empty_step (hf pm hpm) i hc] at this; simp at this

theorem stepByWordIndex_ok {fm n : Nat} {pm : PM} (h : PMok fm n pm) {i : Nat} (hi : i < n) (prev next : Rows) :
    pm.stepByWordIndex i prev next = .ok (stepInto pm.fuzzLimit (pmTbl pm i) prev next) := by
  obtain ⟨ci, t, wc, h1, h2, h3⟩ := h.cls i hi
  simp [PM.stepByWordIndex, pmTbl, h1, h2, h3]

theorem stepMatchers_spec {fm n : Nat} {i : Nat} (hi : i < n) (p : List Nat) (ms : List PM) :
    ∀ (next : List Rows), (∀ pm ∈ ms, PMok fm n pm) → next.length = ms.length → (∀ r ∈ next, r.length = fm) →
      ∃ tb, stepMatchers i ms (ms.map fun pm => idxRows fm pm p) next =
          .ok (tb, accB fm ms (p ++ [i]), liveB fm ms (p ++ [i])) ∧
        tb.length = ms.length ∧ (∀ r ∈ tb, r.length = fm) ∧
        (liveB fm ms (p ++ [i]) = true → tb = ms.map fun pm => idxRows fm pm (p ++ [i])) := by
  induction ms with
  | nil =>
    intro next _ hl _
    exact ⟨next, rfl, hl, by simpa, fun _ => by simpa using hl⟩
  | cons pm ms ih =>
    intro next hok hl hr
    cases next with
    | nil => simp at hl
    | cons nx next =>
      have hpm := hok pm (by simp)
      have hnx : nx.map (fun _ => 0) = List.replicate fm 0 := by
        rw [List.map_const', hr nx (by simp)]
      have hrow : (idxRows fm pm (p ++ [i])).length = fm := idxRows_length _ _ hpm.fuzz _
      obtain ⟨tb, h1, h2, h3, h4⟩ := ih next (fun x hx => hok x (by simp [hx])) (by simpa using hl)
        (fun r hx => hr r (by simp [hx]))
      simp only [List.map_cons, stepMatchers, stepByWordIndex_ok hpm hi, hnx]
      rw [← idxRows_append]
      by_cases he : rowsEmpty (idxRows fm pm (p ++ [i])) = true
      · have hlive : liveB fm (pm :: ms) (p ++ [i]) = false := by simp [liveB, he]
        have hacc : accB fm (pm :: ms) (p ++ [i]) = false := by
          cases h : accB fm (pm :: ms) (p ++ [i]) with
          | false => rfl
          | true => rw [live_of_acc h] at hlive; simp at hlive
        refine ⟨idxRows fm pm (p ++ [i]) :: next, by simp [he, hlive, hacc], by simpa using hl, ?_, by simp [hlive]⟩
        intro r hx
        rcases List.mem_cons.1 hx with rfl | hx
        · exact hrow
        · exact hr r (by simp [hx])
      · have he' : rowsEmpty (idxRows fm pm (p ++ [i])) = false := by simpa using he
        refine ⟨idxRows fm pm (p ++ [i]) :: tb, ?_, by simp [h2], ?_, ?_⟩
        · simp only [he', h1]
          simp [accB, liveB, he']
        · intro r hx
          rcases List.mem_cons.1 hx with rfl | hx
          · exact hrow
          · exact h3 r hx
        · intro hl
          have : liveB fm ms (p ++ [i]) = true := by
            simp only [liveB, List.all_cons, Bool.and_eq_true] at hl; exact hl.2
          rw [h4 this]

/-! ### Tuples -/

/-- All extensions of `p` by `k` indices below `N`, in lexicographic order. -/
def tups (N : Nat) : Nat → List Nat → List (List Nat)
  | 0, p => [p]
  | k + 1, p => (List.range N).flatMap fun i => tups N k (p ++ [i])

theorem mem_tups (N k : Nat) (p q : List Nat) :
    q ∈ tups N k p ↔ ∃ s, s.length = k ∧ (∀ i ∈ s, i < N) ∧ q = p ++ s := by
  induction k generalizing p with
  | zero =>
    simp only [tups, List.mem_singleton]
    constructor
    · rintro rfl; exact ⟨[], rfl, by simp, by simp⟩
    · rintro ⟨s, hs, _, rfl⟩
      rw [List.length_eq_zero_iff.1 hs]; simp
  | succ k ih =>
    simp only [tups, List.mem_flatMap, List.mem_range, ih]
    constructor
    · rintro ⟨i, hi, s, h1, h2, rfl⟩
      refine ⟨i :: s, by simp [h1], ?_, by simp⟩
      intro j hj
      rcases List.mem_cons.1 hj with rfl | hj
      · exact hi
      · exact h2 j hj
    · rintro ⟨s, h1, h2, rfl⟩
      cases s with
      | nil => simp at h1
      | cons i s =>
        exact ⟨i, h2 i (by simp), s, by simpa using h1, fun j hj => h2 j (by simp [hj]), by simp⟩

/-- What is left after the subtree of the current position (`rs` is the stack, innermost first). -/
def restT (N d : Nat) : List Nat → List (List Nat)
  | [] => []
  | i :: below =>
    (List.range' (i + 1) (N - (i + 1))).flatMap (fun j => tups N (d - (below.length + 1)) (below.reverse ++ [j]))
      ++ restT N d below

/-- What is left at the current position. -/
def pendT (N d : Nat) : List Nat → List (List Nat)
  | [] => []
  | i :: below => tups N (d - (below.length + 1)) (below.reverse ++ [i]) ++ restT N d (i :: below)

theorem pendT_zero (N d : Nat) (rs : List Nat) (hN : 0 < N) (k : Nat) (hk : d - rs.length = k + 1) :
    pendT N d (0 :: rs) = tups N (k + 1) rs.reverse ++ restT N d rs := by
  have : d - (rs.length + 1) = k := by omega
  simp only [pendT, restT, tups, this]
  rw [← List.append_assoc]
  congr 1
  obtain ⟨n, rfl⟩ : ∃ n, N = n + 1 := ⟨N - 1, by omega⟩
  rw [List.range_eq_range', List.range'_succ, List.flatMap_cons]
  simp

theorem pendT_start (N d : Nat) (hN : 0 < N) (hd : 0 < d) : pendT N d [0] = tups N d [] := by
  obtain ⟨k, rfl⟩ : ∃ k, d = k + 1 := ⟨d - 1, by omega⟩
  rw [pendT_zero N (k + 1) [] hN k (by simp)]
  simp [restT]

theorem restT_next (N d i : Nat) (rs : List Nat) (h : i + 1 < N) :
    restT N d (i :: rs) = pendT N d ((i + 1) :: rs) := by
  obtain ⟨n, hn⟩ : ∃ n, N - (i + 1) = n + 1 := ⟨N - (i + 1) - 1, by omega⟩
  have hn' : N - (i + 1 + 1) = n := by omega
  simp only [restT, pendT, hn, hn', List.range'_succ, List.flatMap_cons, List.append_assoc]

theorem restT_up (N d i : Nat) (rs : List Nat) (h : N ≤ i + 1) : restT N d (i :: rs) = restT N d rs := by
  have : N - (i + 1) = 0 := by omega
  simp [restT, this]

/-! ### Counting -/

def restC (N d : Nat) : List Nat → Nat
  | [] => 0
  | i :: below => (N - (i + 1)) * (1 + nodes N (d - (below.length + 1))) + restC N d below

def pendC (N d : Nat) : List Nat → Nat
  | [] => 0
  | i :: below => (1 + nodes N (d - (below.length + 1))) + restC N d (i :: below)

theorem pendC_zero (N d : Nat) (rs : List Nat) (hN : 0 < N) (k : Nat) (hk : d - rs.length = k + 1) :
    pendC N d (0 :: rs) = nodes N (k + 1) + restC N d rs := by
  have : d - (rs.length + 1) = k := by omega
  simp only [pendC, restC, nodes, this]
  obtain ⟨n, rfl⟩ : ∃ n, N = n + 1 := ⟨N - 1, by omega⟩
  simp only [Nat.zero_add, Nat.add_sub_cancel]
  rw [Nat.add_mul, Nat.one_mul]; omega

theorem restC_next (N d i : Nat) (rs : List Nat) (h : i + 1 < N) :
    restC N d (i :: rs) = pendC N d ((i + 1) :: rs) := by
  obtain ⟨n, hn⟩ : ∃ n, N - (i + 1) = n + 1 := ⟨N - (i + 1) - 1, by omega⟩
  have hn' : N - (i + 1 + 1) = n := by omega
  simp only [restC, pendC, hn, hn', Nat.add_mul, Nat.one_mul]; omega

theorem restC_up (N d i : Nat) (rs : List Nat) (h : N ≤ i + 1) : restC N d (i :: rs) = restC N d rs := by
  have : N - (i + 1) = 0 := by omega
  simp [restC, this]

theorem nodes_mono {N M : Nat} (h : N ≤ M) (k : Nat) : nodes N k ≤ nodes M k := by
  induction k with
  | zero => simp [nodes]
  | succ k ih => simp only [nodes]; exact Nat.mul_le_mul h (by omega)

theorem restC_le (N d : Nat) (rs : List Nat) (hr : ∀ i ∈ rs, i < N) (hd : rs.length ≤ d) :
    restC N d rs + rs.length + nodes N (d - rs.length) ≤ nodes N d := by
  induction rs with
  | nil => simp [restC]
  | cons i rs ih =>
    have h1 := ih (fun j hj => hr j (by simp [hj])) (by simp at hd; omega)
    have hi := hr i (by simp)
    simp only [List.length_cons] at hd ⊢
    obtain ⟨k, hk⟩ : ∃ k, d - rs.length = k + 1 := ⟨d - rs.length - 1, by omega⟩
    have hk' : d - (rs.length + 1) = k := by omega
    rw [hk] at h1
    simp only [restC, hk']
    simp only [nodes] at h1
    have : (N - (i + 1)) * (1 + nodes N k) + (1 + nodes N k) ≤ N * (1 + nodes N k) := by
      have h2 : (N - (i + 1)) * (1 + nodes N k) + (1 + nodes N k) = (N - (i + 1) + 1) * (1 + nodes N k) := by
        rw [Nat.add_mul]; omega
      rw [h2]
      exact Nat.mul_le_mul (by omega) (Nat.le_refl _)
    omega

theorem pendC_le (N d : Nat) (rs : List Nat) (hr : ∀ i ∈ rs, i < N) (hd : rs.length ≤ d) : pendC N d rs ≤ nodes N d := by
  cases rs with
  | nil => simp [pendC]
  | cons i rs =>
    have := restC_le N d (i :: rs) hr hd
    simp only [List.length_cons] at this hd
    simp only [pendC]
    have h2 : d - (rs.length + 1) = d - (rs.length + 1) := rfl
    omega

/-! ### Tranches of a sorted list -/

/-- The tranche of the word at an index. -/
def trAt (wl : List Word) (i : Nat) : Nat := ((wl[i]?).map Word.tranche).getD 0

/-- The highest tranche of a tuple. -/
def maxTr (wl : List Word) (p : List Nat) : Nat := p.foldr (fun i m => max (trAt wl i) m) 0

theorem maxTr_append (wl : List Word) (p : List Nat) (i : Nat) : maxTr wl (p ++ [i]) = max (maxTr wl p) (trAt wl i) := by
  induction p with
  | nil => simp [maxTr]
  | cons x p ih =>
    simp only [maxTr, List.cons_append, List.foldr_cons] at ih ⊢
    rw [ih]; omega

/-- The word list is sorted by tranche. -/
def TrSorted (wl : List Word) : Prop := wl.Pairwise fun a b => a.tranche ≤ b.tranche

theorem TrSorted.trAt {wl : List Word} (h : TrSorted wl) {i j : Nat} (hij : i ≤ j) (hj : j < wl.length) :
    trAt wl i ≤ trAt wl j := by
  rcases Nat.lt_or_eq_of_le hij with hlt | rfl
  · have := (List.pairwise_iff_getElem.1 h) i j (by omega) hj hlt
    simpa [Noodle.trAt, List.getElem?_eq_getElem hj, List.getElem?_eq_getElem (show i < wl.length by omega)] using this
  · exact Nat.le_refl _

theorem cum_iff {wl : List Word} (h : TrSorted wl) (t i : Nat) :
    i < trancheCum wl t ↔ i < wl.length ∧ trAt wl i ≤ t := by
  induction wl generalizing i with
  | nil => simp [trancheCum]
  | cons w wl ih =>
    have hs : TrSorted wl := (List.pairwise_cons.1 h).2
    have hw := (List.pairwise_cons.1 h).1
    unfold trancheCum at ih ⊢
    rw [List.countP_cons]
    by_cases hwt : w.tranche ≤ t
    · cases i with
      | zero => simp [Noodle.trAt, hwt]
      | succ i =>
        have := ih hs i
        simp only [hwt, decide_true, if_true, List.length_cons]
        rw [Nat.succ_lt_succ_iff, Nat.succ_lt_succ_iff, this]
        simp [Noodle.trAt]
    · have hz : wl.countP (fun w => decide (w.tranche ≤ t)) = 0 := by
        rw [List.countP_eq_zero]
        intro x hx
        have := hw x hx
        simp; omega
      rw [hz]
      simp only [hwt, decide_false]
      constructor
      · intro h; simp at h
      · rintro ⟨h1, h2⟩
        cases i with
        | zero => simp [Noodle.trAt] at h2; omega
        | succ i =>
          simp at h1
          simp [Noodle.trAt, List.getElem?_eq_getElem h1] at h2
          have := hw wl[i] (List.getElem_mem h1)
          omega

theorem cum_le (wl : List Word) (t : Nat) : trancheCum wl t ≤ wl.length := List.countP_le_length

theorem cum_mono (wl : List Word) {t t' : Nat} (h : t ≤ t') : trancheCum wl t ≤ trancheCum wl t' := by
  unfold trancheCum
  apply List.countP_mono_left
  intro x _ hx
  simp at hx ⊢; omega

/-! ### Search states -/

/-- The results of a phase: tuples of the phase's depth over words of tranche at most the phase's, accepted
by all matchers and with highest tranche exactly the phase's. -/
def goodB (fm : Nat) (ms : List PM) (wl : List Word) (t : Nat) (p : List Nat) : Bool :=
  accB fm ms p && maxTr wl p == t

def phaseRes (fm : Nat) (ms : List PM) (wl : List Word) (ph : SearchPhase) : List (List Nat) :=
  (tups (trancheCum wl ph.tranche) ph.depth []).filter (goodB fm ms wl ph.tranche)

/-- Everything the search must find from the start of the queue. -/
def queueRes (fm : Nat) (ms : List PM) (wl : List Word) (q : List SearchPhase) : List (List Nat) :=
  q.flatMap (phaseRes fm ms wl)

/-- Fixed data of a phrase search. -/
structure Ctx where
  fm : Nat
  ms : List PM
  wl : List Word

structure CtxOk (c : Ctx) : Prop where
  ok : ∀ pm ∈ c.ms, PMok c.fm c.wl.length pm
  sorted : TrSorted c.wl

/-- Invariant of the search: `rs` is the stack of word indices (innermost first), `ph` the current phase. -/
structure SInv (c : Ctx) (ps : PS) (ph : SearchPhase) (q : List SearchPhase) (rs : List Nat) : Prop where
  ms : ps.ms = c.ms
  wl : ps.wl = c.wl
  queue : ps.queue = ph :: q
  depth : ∀ p ∈ ps.queue, 0 < p.depth ∧ p.depth < ps.layers.length
  ne : ∀ p ∈ ps.queue, 0 < trancheCum c.wl p.tranche
  len : rs.length = ps.li + 1
  lt : ps.li < ph.depth
  idx : ∀ i ∈ rs, i < trancheCum c.wl ph.tranche
  shape : ∀ l ∈ ps.layers, l.table.length = c.ms.length ∧ ∀ r ∈ l.table, r.length = c.fm
  lay : ∀ (a b : List Nat) (i : Nat), rs.reverse = a ++ i :: b →
    ps.layers[a.length]? = some ⟨i, maxTr c.wl (a ++ [i]), c.ms.map fun pm => idxRows c.fm pm a⟩
  part : ps.part = false → ∀ p ∈ tups (trancheCum c.wl ph.tranche) ph.depth [],
    liveB c.fm c.ms p = true → p ∈ pendT (trancheCum c.wl ph.tranche) ph.depth rs

/-- The results still to come. -/
def pendRes (c : Ctx) (ph : SearchPhase) (q : List SearchPhase) (rs : List Nat) : List (List Nat) :=
  (pendT (trancheCum c.wl ph.tranche) ph.depth rs).filter (goodB c.fm c.ms c.wl ph.tranche) ++
    queueRes c.fm c.ms c.wl q

/-- The iterations still to come, at most. -/
def pendCost (c : Ctx) (ph : SearchPhase) (q : List SearchPhase) (rs : List Nat) : Nat :=
  pendC (trancheCum c.wl ph.tranche) ph.depth rs + (q.map fun p => nodes c.wl.length p.depth).sum

/-- The words of a tuple. -/
def wordsOf (wl : List Word) (p : List Nat) : List Word := p.filterMap fun i => wl[i]?

end Noodle
