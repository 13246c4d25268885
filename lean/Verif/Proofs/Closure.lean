import Verif.Proofs.Auto
import Mathlib.Tactic.ByContra
/-
`epsilon_transitive_closure` computes reachability.
-/
namespace Noodle
set_option autoImplicit false

theorem testBit_or_shift (e b y : Nat) : (e ||| 1 <<< b).testBit y = (e.testBit y || decide (b = y)) := by
  rw [Nat.testBit_or, Nat.shiftLeft_eq, Nat.one_mul, Nat.testBit_two_pow]

theorem closeSweep_gen (L : List (State × Nat)) (b : Nat) :
    (∀ y, b.testBit y = true →
      (L.foldl (fun b p => if b.testBit p.2 then b ||| p.1.eps else b) b).testBit y = true) ∧
    (∀ p ∈ L, b.testBit p.2 = true → ∀ y, p.1.eps.testBit y = true →
      (L.foldl (fun b p => if b.testBit p.2 then b ||| p.1.eps else b) b).testBit y = true) ∧
    (∀ P : Nat → Prop, (∀ y, b.testBit y = true → P y) →
      (∀ p ∈ L, P p.2 → ∀ y, p.1.eps.testBit y = true → P y) →
      ∀ y, (L.foldl (fun b p => if b.testBit p.2 then b ||| p.1.eps else b) b).testBit y = true → P y) := by
  induction L generalizing b with
  | nil => simp +contextual
  | cons q L ih =>
    simp only [List.foldl_cons]
    obtain ⟨h1, h2, h3⟩ := ih (if b.testBit q.2 then b ||| q.1.eps else b)
    have hb : ∀ y, b.testBit y = true → (if b.testBit q.2 then b ||| q.1.eps else b).testBit y = true := by
      intro y hy; split
      · rw [Nat.testBit_or, hy]; rfl
      · exact hy
    refine ⟨fun y hy => h1 y (hb y hy), ?_, ?_⟩
    · intro p hp hbp y hy
      rcases List.mem_cons.1 hp with rfl | hp
      · apply h1
        rw [if_pos hbp, Nat.testBit_or, hy, Bool.or_true]
      · exact h2 p hp (hb _ hbp) y hy
    · intro P hP1 hP2 y hy
      refine h3 P ?_ (fun p hp => hP2 p (List.mem_cons_of_mem _ hp)) y hy
      intro z hz
      split at hz
      · rename_i hq
        rw [Nat.testBit_or, Bool.or_eq_true] at hz
        rcases hz with hz | hz
        · exact hP1 _ hz
        · exact hP2 q (List.mem_cons_self ..) (hP1 _ hq) z hz
      · exact hP1 _ hz

theorem mem_zipIdx_auto (ss : List State) (p : State × Nat) : p ∈ ss.zipIdx ↔ auto ss p.2 = some p.1 := by
  obtain ⟨st, i⟩ := p
  rw [List.mem_zipIdx_iff_getElem?]; rfl

theorem closeSweep_mono (ss : List State) (b y : Nat) (h : b.testBit y = true) :
    (closeSweep ss b).testBit y = true := (closeSweep_gen _ _).1 y h

theorem closeSweep_step (ss : List State) (b x y : Nat) (hx : b.testBit x = true) (he : Ed (auto ss) x y) :
    (closeSweep ss b).testBit y = true := by
  obtain ⟨st, h, hy⟩ := he
  exact (closeSweep_gen ss.zipIdx b).2.1 (st, x) ((mem_zipIdx_auto _ _).2 h) hx y hy

theorem closeSweep_sound (ss : List State) (b : Nat) (P : Nat → Prop) (h : ∀ y, b.testBit y = true → P y)
    (hs : ∀ x y, P x → Ed (auto ss) x y → P y) (y : Nat) (hy : (closeSweep ss b).testBit y = true) : P y := by
  refine (closeSweep_gen ss.zipIdx b).2.2 P h ?_ y hy
  intro p hp hP y hy
  exact hs _ _ hP ⟨p.1, (mem_zipIdx_auto _ _).1 hp, hy⟩

/-- The number of states in a set. -/
def cardB (n b : Nat) : Nat := ((List.range n).filter fun i => b.testBit i).length

theorem cardB_le (n b : Nat) : cardB n b ≤ n := by
  unfold cardB
  exact Nat.le_trans (List.length_filter_le _ _) (by simp)

theorem cardB_lt {n b b' : Nat} (h : ∀ y, b.testBit y = true → b'.testBit y = true)
    (hr : ∀ y, b'.testBit y = true → y < n) (hne : b ≠ b') : cardB n b < cardB n b' := by
  have : ∃ y, b.testBit y = false ∧ b'.testBit y = true := by
    by_contra hcon
    apply hne
    apply Nat.eq_of_testBit_eq
    intro y
    cases h1 : b.testBit y with
    | true => rw [h y h1]
    | false =>
      cases h2 : b'.testBit y with
      | false => rfl
      | true => exact absurd ⟨y, h1, h2⟩ hcon
  obtain ⟨y, h1, h2⟩ := this
  have hy := hr y h2
  unfold cardB
  have hsub : ((List.range n).filter fun i => b.testBit i) =
      (((List.range n).filter fun i => b'.testBit i).filter fun i => b.testBit i) := by
    rw [List.filter_filter]
    apply List.filter_congr
    intro i _
    cases hb : b.testBit i with
    | false => simp
    | true => simp [h i hb]
  rw [hsub]
  rw [← List.countP_eq_length_filter]
  rw [Nat.lt_iff_le_and_ne]
  refine ⟨List.countP_le_length, ?_⟩
  intro heq
  rw [List.countP_eq_length] at heq
  have := heq y (List.mem_filter.2 ⟨List.mem_range.2 hy, h2⟩)
  rw [h1] at this; cases this

/-- `ss` is `ss0` with epsilon sets grown within reachability. -/
structure Grown (ss0 ss : List State) : Prop where
  len : ss.length = ss0.length
  same : ∀ i : Nat, (ss[i]?).map (fun st => (st.cls, st.next)) = (ss0[i]?).map (fun st => (st.cls, st.next))
  up : ∀ x y, Ed (auto ss0) x y → Ed (auto ss) x y
  down : ∀ x y, Ed (auto ss) x y → Reach (auto ss0) x y

theorem Grown.refl (ss : List State) : Grown ss ss :=
  ⟨rfl, fun _ => rfl, fun _ _ h => h, fun _ _ h => .single h⟩

theorem Grown.reach_iff {ss0 ss : List State} (h : Grown ss0 ss) (x y : Nat) :
    Reach (auto ss) x y ↔ Reach (auto ss0) x y := by
  constructor
  · intro g
    induction g with
    | refl => exact .refl
    | tail _ e ih => exact ih.trans (h.down _ _ e)
  · intro g
    induction g with
    | refl => exact .refl
    | tail _ e ih => exact ih.tail (h.up _ _ e)

theorem Grown.trans {a b c : List State} (h : Grown a b) (g : Grown b c) : Grown a c where
  len := g.len.trans h.len
  same := fun i => (g.same i).trans (h.same i)
  up := fun x y e => g.up _ _ (h.up _ _ e)
  down := fun x y e => (h.reach_iff _ _).1 (g.down _ _ e)

theorem auto_set (ss : List State) (i x : Nat) (st : State) (hi : i < ss.length) :
    auto (ss.set i st) x = if x = i then some st else auto ss x := by
  unfold auto
  rw [List.getElem?_set]
  by_cases h : i = x
  · subst h; simp [hi]
  · rw [if_neg h, if_neg (fun h' => h h'.symm)]

theorem Ed_set (ss : List State) (i : Nat) (st : State) (hi : i < ss.length) (x y : Nat) :
    Ed (auto (ss.set i st)) x y ↔ (x = i ∧ st.eps.testBit y = true) ∨ (x ≠ i ∧ Ed (auto ss) x y) := by
  unfold Ed
  rw [auto_set ss i x st hi]
  by_cases h : x = i
  · subst h; simp
  · simp [h]

theorem Grown.set {ss : List State} {i : Nat} {st : State} (h : ss[i]? = some st) (b : Nat)
    (h1 : ∀ y, st.eps.testBit y = true → b.testBit y = true)
    (h2 : ∀ y, b.testBit y = true → Reach (auto ss) i y) :
    Grown ss (ss.set i { st with eps := b }) where
  len := by simp
  same := by
    intro x
    have hi := (List.getElem?_eq_some_iff.1 h).1
    rw [List.getElem?_set]
    by_cases hx : i = x
    · subst hx; rw [h]; simp [hi]
    · rw [if_neg hx]
  up := by
    have hi := (List.getElem?_eq_some_iff.1 h).1
    intro x y e
    rw [Ed_set _ _ _ hi]
    by_cases hx : x = i
    · left
      refine ⟨hx, ?_⟩
      subst hx
      obtain ⟨st', h', hy⟩ := e
      have : st' = st := by
        have : some st' = some st := by rw [← h']; exact h
        exact Option.some.inj this
      subst this
      exact h1 _ hy
    · exact .inr ⟨hx, e⟩
  down := by
    have hi := (List.getElem?_eq_some_iff.1 h).1
    intro x y e
    rcases (Ed_set _ _ _ hi _ _).1 e with ⟨rfl, hy⟩ | ⟨_, e⟩
    · exact h2 _ hy
    · exact .single e

theorem InRange.grown {ss0 ss : List State} (hr : InRange ss0) (h : Grown ss0 ss) : InRange ss := by
  intro i st hi
  have hs := h.same i
  rw [hi] at hs
  cases h0 : ss0[i]? with
  | none => rw [h0] at hs; simp at hs
  | some st0 =>
    rw [h0] at hs
    simp only [Option.map_some, Option.some.injEq, Prod.mk.injEq] at hs
    rw [h.len]
    refine ⟨hs.2 ▸ (hr _ _ h0).1, ?_⟩
    intro y hy
    have : Reach (auto ss0) i y := h.down _ _ ⟨st, hi, hy⟩
    have hlt : i < ss0.length := (List.getElem?_eq_some_iff.1 h0).1
    clear hs hy
    induction this with
    | refl => exact hlt
    | tail _ e _ => exact e.lt_right hr

theorem closeLoop_spec (i : Nat) (n : Nat) (ss : List State) (hr : InRange ss) (st : State)
    (h : ss[i]? = some st) (hn : ss.length + 1 ≤ n + cardB ss.length st.eps) :
    ∃ ss', closeLoop i n ss = .ok ss' ∧ Grown ss ss' ∧
      (∀ x y, Ed (auto ss') i x → Ed (auto ss') x y → Ed (auto ss') i y) := by
  induction n generalizing ss st with
  | zero => have := cardB_le ss.length st.eps; omega
  | succ n ih =>
    simp only [closeLoop, h]
    have hi := (List.getElem?_eq_some_iff.1 h).1
    by_cases hb : st.eps = closeSweep ss st.eps
    · rw [if_pos hb]
      refine ⟨ss, rfl, .refl _, ?_⟩
      rintro x y ⟨st', h', hx⟩ hy
      have : st' = st := by
        have : some st' = some st := by rw [← h']; exact h
        exact Option.some.inj this
      subst this
      refine ⟨st', h, ?_⟩
      rw [hb]
      exact closeSweep_step _ _ _ _ hx hy
    · rw [if_neg hb]
      have hg : Grown ss (ss.set i { st with eps := closeSweep ss st.eps }) := by
        apply Grown.set h
        · exact fun y hy => closeSweep_mono _ _ _ hy
        · apply closeSweep_sound
          · intro y hy; exact .single ⟨st, h, hy⟩
          · intro x y hx e; exact hx.tail e
      have hr' := hr.grown hg
      have hget : (ss.set i { st with eps := closeSweep ss st.eps })[i]? =
          some { st with eps := closeSweep ss st.eps } := by simp [hi]
      have hlt : cardB ss.length st.eps < cardB ss.length (closeSweep ss st.eps) := by
        apply cardB_lt (fun y hy => closeSweep_mono _ _ _ hy) _ hb
        intro y hy
        have := (hr' _ _ hget).2 y hy
        simpa using this
      obtain ⟨ss', h1, h2, h3⟩ := ih _ hr' _ hget (by simp only [List.length_set]; omega)
      exact ⟨ss', h1, hg.trans h2, h3⟩

theorem closeFrom_spec (k i : Nat) (ss : List State) (hr : InRange ss) (hk : i + k = ss.length) :
    ∃ ss', closeFrom k i ss = .ok ss' ∧ Grown ss ss' ∧
      ∀ x, i ≤ x → x < ss.length → Ed (auto ss') x x ∧
        ∀ y, Reach (auto ss) x y → Ed (auto ss') x y := by
  induction k generalizing i ss with
  | zero => exact ⟨ss, rfl, .refl _, fun x h1 h2 => by omega⟩
  | succ k ih =>
    have hi : i < ss.length := by omega
    obtain ⟨st, h⟩ : ∃ st, ss[i]? = some st := ⟨ss[i], List.getElem?_eq_getElem hi⟩
    simp only [closeFrom, h]
    have hg : Grown ss (ss.set i { st with eps := st.eps ||| 1 <<< i }) := by
      apply Grown.set h
      · intro y hy; rw [testBit_or_shift, hy]; rfl
      · intro y hy
        rw [testBit_or_shift, Bool.or_eq_true, decide_eq_true_eq] at hy
        rcases hy with hy | rfl
        · exact .single ⟨st, h, hy⟩
        · exact .refl
    have hr1 := hr.grown hg
    have hget : (ss.set i { st with eps := st.eps ||| 1 <<< i })[i]? =
        some { st with eps := st.eps ||| 1 <<< i } := by simp [hi]
    obtain ⟨ss1, e1, g1, c1⟩ := closeLoop_spec i (ss.length + 2) _ hr1 _ hget
      (by simp only [List.length_set]; omega)
    rw [e1]
    have hg1 := hg.trans g1
    have hr2 := hr.grown hg1
    have hself : Ed (auto ss1) i i := by
      apply g1.up
      refine ⟨_, hget, ?_⟩
      simp only []
      rw [testBit_or_shift]; simp
    have hfull : ∀ y, Reach (auto ss) i y → Ed (auto ss1) i y := by
      intro y hy
      have hy' := (hg1.reach_iff i y).2 hy
      clear hy
      induction hy' with
      | refl => exact hself
      | tail _ e ih' => exact c1 _ _ ih' e
    obtain ⟨ss2, e2, g2, c2⟩ := ih (i + 1) ss1 hr2 (by rw [hg1.len]; omega)
    simp only [e2]
    refine ⟨ss2, rfl, hg1.trans g2, ?_⟩
    intro x hx1 hx2
    by_cases hxi : x = i
    · subst hxi
      exact ⟨g2.up _ _ hself, fun y hy => g2.up _ _ (hfull y hy)⟩
    · obtain ⟨h1, h2⟩ := c2 x (by omega) (by rw [hg1.len]; exact hx2)
      exact ⟨h1, fun y hy => h2 y ((hg1.reach_iff _ _).2 hy)⟩

/-- What `epsilon_transitive_closure` computes: the same automaton with reachability sets. -/
structure IsClosure (ss ss' : List State) : Prop where
  len : ss'.length = ss.length
  same : ∀ i : Nat, (ss'[i]?).map (fun st => (st.cls, st.next)) = (ss[i]?).map (fun st => (st.cls, st.next))
  ed : ∀ x y, Ed (auto ss') x y ↔ x < ss.length ∧ Reach (auto ss) x y

theorem closure_spec (cap : Nat) (ss : List State) (hr : InRange ss) (hcap : ss.length ≤ cap) :
    ∃ ss', closure cap ss = .ok ss' ∧ IsClosure ss ss' := by
  obtain ⟨ss', h1, h2, h3⟩ := closeFrom_spec ss.length 0 ss hr (by omega)
  refine ⟨ss', ?_, h2.len, h2.same, ?_⟩
  · unfold closure
    rw [if_neg (by omega), h1]
  · intro x y
    constructor
    · intro h
      exact ⟨by have := h.lt; rw [h2.len] at this; exact this, h2.down _ _ h⟩
    · rintro ⟨h, g⟩
      exact (h3 x (by omega) h).2 y g

theorem IsClosure.ce {ss ss' : List State} (h : IsClosure ss ss') (x : Nat) (c : Ch) (y : Nat) :
    Ce (auto ss') x c y ↔ Ce (auto ss) x c y := by
  have hs := h.same x
  unfold Ce auto
  cases h1 : ss'[x]? with
  | none =>
    rw [h1] at hs
    cases h2 : ss[x]? with
    | none => simp
    | some st => rw [h2] at hs; simp at hs
  | some st' =>
    rw [h1] at hs
    cases h2 : ss[x]? with
    | none => rw [h2] at hs; simp at hs
    | some st =>
      rw [h2] at hs
      simp only [Option.map_some, Option.some.injEq, Prod.mk.injEq] at hs
      simp [hs.1, hs.2]

theorem IsClosure.closed {ss ss' : List State} (h : IsClosure ss ss') : Closed ss' where
  refl := fun i hi => (h.ed _ _).2 ⟨by rw [← h.len]; exact hi, .refl⟩
  trans := fun i j k e1 e2 => by
    rw [h.ed] at *
    exact ⟨e1.1, e1.2.trans e2.2⟩

theorem IsClosure.inRange {ss ss' : List State} (h : IsClosure ss ss') (hr : InRange ss) : InRange ss' := by
  refine hr.grown ⟨h.len, h.same, ?_, ?_⟩
  · intro x y e; exact (h.ed _ _).2 ⟨e.lt, .single e⟩
  · intro x y e; exact ((h.ed _ _).1 e).2

theorem IsClosure.walk_iff {ss ss' : List State} (h : IsClosure ss ss') (x : Nat) (w : List Ch) (z : Nat) :
    Walk (auto ss') x w z ↔ Walk (auto ss) x w z := by
  constructor
  · exact Walk.mono (fun x y e => ((h.ed _ _).1 e).2) (fun x c y => (h.ce _ _ _).1)
  · exact Walk.mono (fun x y e => .single ((h.ed _ _).2 ⟨e.lt, .single e⟩)) (fun x c y => (h.ce _ _ _).2)

theorem IsClosure.accept_iff {ss ss' : List State} (h : IsClosure ss ss') (w : List Ch) :
    Accept ss' w ↔ Accept ss w := by
  unfold Accept; rw [h.len, h.walk_iff]

/-- States are determined by their edges. -/
theorem states_ext {ss ss' : List State} (hl : ss'.length = ss.length)
    (hs : ∀ i : Nat, (ss'[i]?).map (fun st => (st.cls, st.next)) = (ss[i]?).map (fun st => (st.cls, st.next)))
    (he : ∀ x y, Ed (auto ss') x y ↔ Ed (auto ss) x y) : ss' = ss := by
  apply List.ext_getElem? 
  intro i
  have hs := hs i
  cases h1 : ss'[i]? with
  | none =>
    cases h2 : ss[i]? with
    | none => rfl
    | some st => rw [h1, h2] at hs; simp at hs
  | some st' =>
    cases h2 : ss[i]? with
    | none => rw [h1, h2] at hs; simp at hs
    | some st =>
      rw [h1, h2] at hs
      simp only [Option.map_some, Option.some.injEq, Prod.mk.injEq] at hs
      have : st'.eps = st.eps := by
        apply Nat.eq_of_testBit_eq
        intro y
        have := he i y
        unfold Ed auto at this
        rw [h1, h2] at this
        simp only [Option.some.injEq, exists_eq_left'] at this
        rw [Bool.eq_iff_iff]; exact this
      cases st; cases st'; simp_all

theorem IsClosure.eq_of_closed {ss ss' : List State} (h : IsClosure ss ss') (hc : Closed ss) : ss' = ss := by
  refine states_ext h.len h.same ?_
  intro x y
  rw [h.ed]
  exact ⟨fun ⟨a, b⟩ => hc.reach a b, fun e => ⟨e.lt, .single e⟩⟩

end Noodle
