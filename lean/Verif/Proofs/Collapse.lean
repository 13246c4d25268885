import Verif.Proofs.Prune
/-
`collapse_epsilon_char_pairs`: general facts, and the condition under which a collapse preserves the language.
-/
namespace Noodle
set_option autoImplicit false

/-- What `is_a_pair` tests. -/
structure IsPair (ss : List State) (E C : Nat) (es cs : State) : Prop where
  hes : ss[E]? = some es
  hcs : ss[C]? = some cs
  ne0 : C ≠ 0
  pure : es.cls = CharSet.empty
  nextE : cs.next ≠ E
  nextC : cs.next ≠ C
  only : ∀ y, Ed (auto ss) C y → y = C
  toC : Ed (auto ss) E C
  toN : Ed (auto ss) E cs.next
  sub : ∀ y, Ed (auto ss) E y → y = E ∨ y = C ∨ Ed (auto ss) cs.next y

theorem maskSubset_iff (a b : Nat) : maskSubset a b = true ↔ ∀ y, a.testBit y = true → b.testBit y = true := by
  unfold maskSubset
  rw [beq_iff_eq]
  constructor
  · intro h y hy; rw [← h, Nat.testBit_or, hy]; rfl
  · intro h
    apply Nat.eq_of_testBit_eq
    intro y
    rw [Nat.testBit_or]
    cases ha : a.testBit y with
    | false => simp
    | true => rw [h y ha]; rfl

theorem onlyContains_bits {e i : Nat} (h : onlyContains e i = true) (y : Nat) (hy : e.testBit y = true) : y = i := by
  unfold onlyContains at h
  rw [Bool.or_eq_true, beq_iff_eq, beq_iff_eq] at h
  rcases h with rfl | rfl
  · simp at hy
  · rw [testBit_one_shift, decide_eq_true_eq] at hy; exact hy.symm

theorem isPair_true {ss : List State} {E C : Nat} (h : isPair E C ss = some true) : ∃ es cs, IsPair ss E C es cs := by
  unfold isPair at h
  cases h1 : ss[E]? with
  | none => simp [h1] at h
  | some es =>
    cases h2 : ss[C]? with
    | none => simp [h1, h2] at h
    | some cs =>
      simp only [h1, h2] at h
      cases h3 : ss[cs.next]? with
      | none => simp [h3] at h
      | some ns =>
        simp only [h3, Option.some.injEq, Bool.and_eq_true, decide_eq_true_eq] at h
        obtain ⟨⟨⟨⟨⟨⟨⟨a1, a2⟩, a3⟩, a4⟩, a5⟩, a6⟩, a7⟩, a8⟩ := h
        refine ⟨es, cs, h1, h2, a1, a2, a3, a4, ?_, ⟨es, h1, a6⟩, ⟨es, h1, a7⟩, ?_⟩
        · rintro y ⟨st, hs, hy⟩
          have : some st = some cs := by rw [← hs]; exact h2
          cases this
          exact onlyContains_bits a5 y hy
        · rintro y ⟨st, hs, hy⟩
          have : some st = some es := by rw [← hs]; exact h1
          cases this
          have := (maskSubset_iff _ _).1 a8 y hy
          rw [Nat.testBit_or, testBit_or_shift, Bool.or_eq_true, Bool.or_eq_true, decide_eq_true_eq] at this
          rcases this with (hc | rfl) | hn
          · exact .inr (.inl (onlyContains_bits a5 y hc))
          · exact .inl rfl
          · exact .inr (.inr ⟨ns, h3, hn⟩)

theorem isPair_ne_none {ss : List State} (hr : InRange ss) {E C : Nat} (h1 : E < ss.length) (h2 : C < ss.length) :
    isPair E C ss ≠ none := by
  unfold isPair
  rw [List.getElem?_eq_getElem h1, List.getElem?_eq_getElem h2]
  have := (hr C _ (List.getElem?_eq_getElem h2)).1
  simp [List.getElem?_eq_getElem this]

theorem IsPair.ne {ss : List State} {E C : Nat} {es cs : State} (h : IsPair ss E C es cs) : E ≠ C := by
  rintro rfl
  exact h.nextC (h.only _ h.toN)

/-! ### Renumbering -/

theorem remap_ne {E C i : Nat} (h : i ≠ C) : remap E C i = if i < C then i else i - 1 := by
  unfold remap; rw [if_neg h]

theorem remap_C {E C : Nat} (h : E ≠ C) : remap E C C = remap E C E := by
  unfold remap
  rw [if_neg (Nat.lt_irrefl _), if_pos rfl]
  by_cases h1 : E < C
  · rw [if_pos h1, if_pos h1]
  · rw [if_neg h1, if_neg h1, if_neg h]

theorem remap_inj {E C i j : Nat} (hi : i ≠ C) (hj : j ≠ C) (h : remap E C i = remap E C j) : i = j := by
  rw [remap_ne hi, remap_ne hj] at h
  split at h <;> split at h <;> omega

theorem remap_lt {E C i n : Nat} (hE : E ≠ C) (hEn : E < n) (hC : C < n) (hi : i < n) : remap E C i < n - 1 := by
  unfold remap
  split
  · omega
  · split
    · split <;> omega
    · omega

theorem remap_last {E C n : Nat} (hC : C < n - 1) : remap E C (n - 1) = n - 1 - 1 := by
  rw [remap_ne (by omega), if_neg (by omega)]

theorem testBit_remapMask (n E C e y : Nat) :
    (mapMask ((List.range n).map (remap E C)) e).testBit y = true ↔
      ∃ x, x < n ∧ e.testBit x = true ∧ remap E C x = y := by
  rw [testBit_mapMask]
  constructor
  · rintro ⟨x, h1, h2⟩
    rw [List.getElem?_map, Option.map_eq_some_iff] at h1
    obtain ⟨x', h1, h3⟩ := h1
    rw [List.getElem?_eq_some_iff] at h1
    obtain ⟨h1, h4⟩ := h1
    rw [List.getElem_range] at h4
    subst h4
    exact ⟨x, by simpa using h1, h2, h3⟩
  · rintro ⟨x, h1, h2, h3⟩
    exact ⟨x, by rw [List.getElem?_map, List.getElem?_range h1, Option.map_some, h3], h2⟩

/-- The automaton after a collapse. -/
structure Collapsed (ss ss' : List State) (E C : Nat) : Prop where
  len : ss'.length = ss.length - 1
  get : ∀ i : Nat, i ≠ C → i < ss.length → ∃ st cs, ss[i]? = some st ∧ ss[C]? = some cs ∧
    ss'[remap E C i]? = some (remapState ss.length E C
      (if i = E then { st with cls := cs.cls, next := cs.next } else st))
  onto : ∀ q, q < ss'.length → ∃ i, i ≠ C ∧ i < ss.length ∧ remap E C i = q

theorem collapse_ok {ss : List State} {E C : Nat} (hE : E < ss.length) (hC : C < ss.length) (hne : E ≠ C) :
    ∃ ss', collapse E C ss = .ok ss' ∧ Collapsed ss ss' E C := by
  unfold collapse
  rw [if_neg hne, List.getElem?_eq_getElem hE, List.getElem?_eq_getElem hC]
  refine ⟨_, rfl, ?_, ?_, ?_⟩
  · rw [List.length_eraseIdx]; simp [hC]
  · intro i hi hlt
    refine ⟨ss[i], ss[C], List.getElem?_eq_getElem hlt, List.getElem?_eq_getElem hC, ?_⟩
    have hget : ((ss.set E { ss[E] with cls := ss[C].cls, next := ss[C].next }).map
        (remapState ss.length E C))[i]? = some (remapState ss.length E C
        (if i = E then { ss[i] with cls := ss[C].cls, next := ss[C].next } else ss[i])) := by
      rw [List.getElem?_map, List.getElem?_set]
      by_cases h : E = i
      · subst h; simp [hE]
      · rw [if_neg h, if_neg (fun h' => h h'.symm), List.getElem?_eq_getElem hlt]; rfl
    rw [List.getElem?_eraseIdx, remap_ne hi]
    by_cases h : i < C
    · rw [if_pos h, if_pos h]; exact hget
    · rw [if_neg h, if_neg (by omega), Nat.sub_add_cancel (by omega)]
      exact hget
  · intro q hq
    rw [List.length_eraseIdx] at hq
    simp only [List.length_map, List.length_set, hC, if_true] at hq
    by_cases h : q < C
    · exact ⟨q, by omega, by omega, by rw [remap_ne (by omega), if_pos h]⟩
    · exact ⟨q + 1, by omega, by omega, by rw [remap_ne (by omega), if_neg (by omega)]; omega⟩

theorem Collapsed.ed {ss ss' : List State} {E C : Nat} (h : Collapsed ss ss' E C) (hr : InRange ss) (q q' : Nat) :
    Ed (auto ss') q q' ↔ ∃ i j, i ≠ C ∧ q = remap E C i ∧ Ed (auto ss) i j ∧ q' = remap E C j := by
  constructor
  · intro e
    obtain ⟨i, h1, h2, rfl⟩ := h.onto q e.lt
    obtain ⟨st', hq, hb⟩ := e
    obtain ⟨st, cs, k1, k2, k3⟩ := h.get i h1 h2
    cases Option.some.inj (hq.symm.trans k3)
    simp only [remapState, testBit_remapMask] at hb
    obtain ⟨x, g1, g2, rfl⟩ := hb
    refine ⟨i, x, h1, rfl, ⟨st, k1, ?_⟩, rfl⟩
    split at g2 <;> exact g2
  · rintro ⟨i, j, h1, rfl, e, rfl⟩
    obtain ⟨st, cs, k1, k2, k3⟩ := h.get i h1 e.lt
    refine ⟨_, k3, ?_⟩
    simp only [remapState, testBit_remapMask]
    refine ⟨j, e.lt_right hr, ?_, rfl⟩
    obtain ⟨st2, k4, hb⟩ := e
    have : some st2 = some st := by rw [← k4]; exact k1
    cases this
    split <;> exact hb

theorem Collapsed.ce {ss ss' : List State} {E C : Nat} (h : Collapsed ss ss' E C) (hE : E ≠ C)
    (hEl : E < ss.length) (q : Nat) (c : Ch) (q' : Nat) :
    Ce (auto ss') q c q' ↔ ∃ n, q' = remap E C n ∧
      ((q = remap E C E ∧ Ce (auto ss) C c n) ∨ ∃ i, i ≠ C ∧ i ≠ E ∧ q = remap E C i ∧ Ce (auto ss) i c n) := by
  constructor
  · rintro ⟨st', hq, hb, rfl⟩
    have hlt : q < ss'.length := (List.getElem?_eq_some_iff.1 hq).1
    obtain ⟨i, h1, h2, rfl⟩ := h.onto q hlt
    obtain ⟨st, cs, k1, k2, k3⟩ := h.get i h1 h2
    cases Option.some.inj (hq.symm.trans k3)
    by_cases hi : i = E
    · subst hi
      simp only [remapState, if_true] at hb
      exact ⟨cs.next, by simp [remapState], .inl ⟨rfl, cs, k2, hb, rfl⟩⟩
    · simp only [if_neg hi] at hb ⊢
      exact ⟨st.next, rfl, .inr ⟨i, h1, hi, rfl, st, k1, hb, rfl⟩⟩
  · rintro ⟨n, rfl, ⟨rfl, cs', hc, hb, rfl⟩ | ⟨i, h1, h2, rfl, st', hc, hb, rfl⟩⟩
    · obtain ⟨st, cs, k1, k2, k3⟩ := h.get E hE hEl
      have : some cs' = some cs := by rw [← hc]; exact k2
      cases this
      refine ⟨_, k3, ?_, ?_⟩
      · simp only [if_true]; exact hb
      · simp only [if_true]; rfl
    · have hlt : i < ss.length := (List.getElem?_eq_some_iff.1 hc).1
      obtain ⟨st, cs, k1, k2, k3⟩ := h.get i h1 hlt
      have : some st' = some st := by rw [← hc]; exact k1
      cases this
      refine ⟨_, k3, ?_, ?_⟩
      · simp only [if_neg h2]; exact hb
      · simp only [if_neg h2]; rfl

theorem Collapsed.inRange {ss ss' : List State} {E C : Nat} (h : Collapsed ss ss' E C) (hE : E ≠ C)
    (hEl : E < ss.length) (hC : C < ss.length) (hr : InRange ss) : InRange ss' := by
  intro q st' hq
  have hlt : q < ss'.length := (List.getElem?_eq_some_iff.1 hq).1
  obtain ⟨i, h1, h2, rfl⟩ := h.onto q hlt
  obtain ⟨st, cs, k1, k2, k3⟩ := h.get i h1 h2
  cases Option.some.inj (hq.symm.trans k3)
  rw [h.len]
  constructor
  · simp only [remapState]
    apply remap_lt hE hEl hC
    split
    · exact (hr _ _ k2).1
    · exact (hr _ _ k1).1
  · intro y hy
    simp only [remapState, testBit_remapMask] at hy
    obtain ⟨x, g1, _, rfl⟩ := hy
    exact remap_lt hE hEl hC g1

/-- The first state and the targets of the symbol edges. -/
def Entered (ss : List State) (d : Nat) : Prop :=
  d = 0 ∨ ∃ (x : Nat) (st : State), ss[x]? = some st ∧ st.cls ≠ CharSet.empty ∧ st.next = d

/-- The condition under which a collapse is right: no symbol edge enters the collapsed state, and where it is reached
by epsilon edges from the start or from the target of a symbol edge, so is the target of its own symbol edge. -/
structure CollapseGood (ss : List State) (C : Nat) (cs : State) : Prop where
  noEdge : ∀ (x : Nat) (st : State), ss[x]? = some st → st.cls ≠ CharSet.empty → st.next ≠ C
  holders : ∀ d, Entered ss d → Reach (auto ss) d C → Reach (auto ss) d cs.next

theorem Collapsed.accept {ss ss' : List State} {E C : Nat} {es cs : State} (h : Collapsed ss ss' E C)
    (hp : IsPair ss E C es cs) (hr : InRange ss) (hg : CollapseGood ss C cs)
    (hl : ∃ st, ss[ss.length - 1]? = some st ∧ st.cls ≠ CharSet.empty) (hlC : C ≠ ss.length - 1) (w : List Ch) :
    Accept ss' w ↔ Accept ss w := by
  have hEl : E < ss.length := hp.toC.lt
  have hCl : C < ss.length := hp.toC.lt_right hr
  have hne := hp.ne
  have hElast : E ≠ ss.length - 1 := by
    rintro rfl
    obtain ⟨st, h1, h2⟩ := hl
    rw [hp.hes] at h1; cases h1
    exact h2 hp.pure
  have hlast : remap E C (ss.length - 1) = ss'.length - 1 := by
    rw [h.len]; exact remap_last (by omega)
  have h0 : remap E C 0 = 0 := by
    rw [remap_ne (Ne.symm hp.ne0), if_pos (Nat.pos_of_ne_zero hp.ne0)]
  constructor
  · intro hw
    let R : Nat → Nat → Prop := fun q x => Entered ss x ∧ ((∃ y, y ≠ C ∧ q = remap E C y ∧ Reach (auto ss) x y) ∨
      (q = remap E C E ∧ Reach (auto ss) x C ∧ Reach (auto ss) x cs.next))
    have he : ∀ q q' x, Ed (auto ss') q q' → R q x → ∃ x', Walk (auto ss) x [] x' ∧ R q' x' := by
      rintro q q' x e ⟨hx, hR⟩
      refine ⟨x, .nil _, hx, ?_⟩
      obtain ⟨i, j, h1, rfl, e', rfl⟩ := (h.ed hr _ _).1 e
      have go : Reach (auto ss) x j → (∃ y, y ≠ C ∧ remap E C j = remap E C y ∧ Reach (auto ss) x y) ∨
          (remap E C j = remap E C E ∧ Reach (auto ss) x C ∧ Reach (auto ss) x cs.next) := by
        intro k
        by_cases hj : j = C
        · subst hj
          exact .inr ⟨remap_C hne, k, hg.holders _ hx k⟩
        · exact .inl ⟨j, hj, rfl, k⟩
      rcases hR with ⟨y, hy, hq, hxy⟩ | ⟨hq, hx1, hx2⟩
      · have := remap_inj h1 hy hq
        subst this
        exact go (hxy.tail e')
      · have := remap_inj h1 hne hq
        subst this
        rcases hp.sub j e' with rfl | rfl | hk
        · exact .inr ⟨rfl, hx1, hx2⟩
        · exact .inr ⟨remap_C hne, hx1, hx2⟩
        · exact go (hx2.tail hk)
    have hch : ∀ q c q' x, Ce (auto ss') q c q' → R q x → ∃ x', Walk (auto ss) x [c] x' ∧ R q' x' := by
      rintro q c q' x e ⟨hx, hR⟩
      obtain ⟨n, rfl, h1⟩ := (h.ce hne hEl _ _ _).1 e
      have go : ∀ i, Reach (auto ss) x i → Ce (auto ss) i c n →
          ∃ x', Walk (auto ss) x [c] x' ∧ R (remap E C n) x' := by
        intro i k ce
        refine ⟨n, Walk.of_reach k (.chr ce (.nil _)), ?_⟩
        obtain ⟨st, k1, k2, rfl⟩ := ce
        have k1 : ss[i]? = some st := k1
        have hc := CharSet.contains_ne_empty k2
        exact ⟨.inr ⟨i, st, k1, hc, rfl⟩, .inl ⟨_, hg.noEdge _ st k1 hc, rfl, .refl⟩⟩
      rcases h1 with ⟨rfl, ce⟩ | ⟨i, h1, h2, rfl, ce⟩
      · rcases hR with ⟨y, hy, hq, hxy⟩ | ⟨hq, hx1, hx2⟩
        · have := remap_inj hne hy hq
          subst this
          exact go C (hxy.tail hp.toC) ce
        · exact go C hx1 ce
      · rcases hR with ⟨y, hy, hq, hxy⟩ | ⟨hq, hx1, hx2⟩
        · have := remap_inj h1 hy hq
          subst this
          exact go i hxy ce
        · exact absurd (remap_inj h1 hne hq) h2
    obtain ⟨x, hx, _, hR⟩ := Walk.sim R he hch hw 0 ⟨.inl rfl, .inl ⟨0, Ne.symm hp.ne0, h0.symm, .refl⟩⟩
    rw [← hlast] at hR
    rcases hR with ⟨y, hy, hq, hxy⟩ | ⟨hq, _⟩
    · have := remap_inj (Ne.symm hlC) hy hq
      subst this
      have := hx.trans (walk_nil_iff.2 hxy)
      rwa [List.append_nil] at this
    · exact absurd (remap_inj (Ne.symm hlC) hne hq) (Ne.symm hElast)
  · intro hw
    let R : Nat → Nat → Prop := fun x q => q = remap E C x
    have he : ∀ x x' q, Ed (auto ss) x x' → R x q → ∃ q', Walk (auto ss') q [] q' ∧ R x' q' := by
      rintro x x' q e rfl
      refine ⟨_, ?_, rfl⟩
      by_cases hx : x = C
      · subst hx
        rw [hp.only _ e]; exact .nil _
      · exact .eps ((h.ed hr _ _).2 ⟨x, x', hx, rfl, e, rfl⟩) (.nil _)
    have hch : ∀ x c x' q, Ce (auto ss) x c x' → R x q → ∃ q', Walk (auto ss') q [c] q' ∧ R x' q' := by
      rintro x c x' q e rfl
      refine ⟨_, ?_, rfl⟩
      refine .chr ((h.ce hne hEl _ _ _).2 ⟨x', rfl, ?_⟩) (.nil _)
      by_cases hx : x = C
      · subst hx
        exact .inl ⟨remap_C hne, e⟩
      · refine .inr ⟨x, hx, ?_, rfl, e⟩
        rintro rfl
        obtain ⟨st, k1, k2, _⟩ := e
        have : some st = some es := by rw [← k1]; exact hp.hes
        cases this
        exact CharSet.contains_ne_empty k2 hp.pure
    obtain ⟨q, hq, hR⟩ := Walk.sim R he hch hw 0 h0.symm
    have : q = ss'.length - 1 := by rw [← hlast]; exact hR
    rw [this] at hq
    exact hq

/-! ### The loop -/

theorem findPair_spec {ss : List State} (hr : InRange ss) {i : Nat} (hi : i < ss.length) (k j : Nat)
    (hk : j + k ≤ ss.length) :
    findPair ss i k j = .ok none ∨ ∃ E C, findPair ss i k j = .ok (some (E, C)) ∧ isPair E C ss = some true := by
  induction k generalizing j with
  | zero => exact .inl rfl
  | succ k ih =>
    simp only [findPair]
    have h1 := isPair_ne_none hr hi (show j < ss.length by omega)
    have h2 := isPair_ne_none hr (show j < ss.length by omega) hi
    cases e1 : isPair i j ss with
    | none => exact absurd e1 h1
    | some b =>
      cases b with
      | true => exact .inr ⟨i, j, rfl, e1⟩
      | false =>
        simp only []
        cases e2 : isPair j i ss with
        | none => exact absurd e2 h2
        | some b =>
          cases b with
          | true => exact .inr ⟨j, i, rfl, e2⟩
          | false => exact ih (j + 1) (by omega)

/-- The loop terminates without crashing and preserves whatever each collapse preserves. -/
theorem collapseLoop_spec (P : List State → Prop)
    (step : ∀ ss ss' E C es cs, P ss → InRange ss → IsPair ss E C es cs → Collapsed ss ss' E C → P ss')
    (n i : Nat) (ss : List State) (hr : InRange ss) (hP : P ss) (hn : 2 * ss.length + 1 ≤ n + i) (hi : i ≤ ss.length) :
    ∃ ss', collapseLoop n i ss = .ok ss' ∧ InRange ss' ∧ P ss' ∧ ss'.length ≤ ss.length ∧
      (0 < ss.length → 0 < ss'.length) ∧ (ss'.length = ss.length → ss' = ss) := by
  induction n generalizing i ss with
  | zero =>
    omega
  | succ n ih =>
    simp only [collapseLoop]
    by_cases hi' : i < ss.length
    · rw [if_pos hi']
      rcases findPair_spec hr hi' ss.length 0 (by omega) with h | ⟨E, C, h, hpair⟩
      · simp only [h]
        exact ih (i + 1) ss hr hP (by omega) (by omega)
      · simp only [h]
        obtain ⟨es, cs, hp⟩ := isPair_true hpair
        have hEl : E < ss.length := hp.toC.lt
        have hCl : C < ss.length := hp.toC.lt_right hr
        obtain ⟨ss1, h1, hcol⟩ := collapse_ok hEl hCl hp.ne
        simp only [h1]
        have hlen := hcol.len
        have hpos : C ≠ 0 := hp.ne0
        obtain ⟨ss2, g1, g2, g3, g4, g5, _⟩ := ih i ss1 (hcol.inRange hp.ne hEl hCl hr)
          (step _ _ _ _ _ _ hP hr hp hcol) (by omega) (by omega)
        exact ⟨ss2, g1, g2, g3, by omega, fun _ => g5 (by omega), fun h => by omega⟩
    · rw [if_neg hi']
      exact ⟨ss, rfl, hr, hP, Nat.le_refl _, fun h => h, fun _ => rfl⟩

end Noodle
