import Verif.Proofs.Closure
import Verif.Proofs.Table
/-
`prune_epsilon_pairs`: general facts, and the condition under which it preserves the language.
-/
namespace Noodle
set_option autoImplicit false

theorem testBit_maskRemove (e b y : Nat) : (maskRemove e b).testBit y = (e.testBit y && !decide (b = y)) := by
  unfold maskRemove
  rw [testBit_diff, Nat.shiftLeft_eq, Nat.one_mul, Nat.testBit_two_pow]

theorem testBit_one_shift (b y : Nat) : (1 <<< b).testBit y = decide (b = y) := by
  rw [Nat.shiftLeft_eq, Nat.one_mul, Nat.testBit_two_pow]

theorem testBit_mapMask (m : List Nat) (e y : Nat) :
    (mapMask m e).testBit y = true ↔ ∃ x : Nat, m[x]? = some y ∧ e.testBit x = true := by
  unfold mapMask
  rw [testBit_foldl_or m.zipIdx (fun p => e.testBit p.2) (fun p => 1 <<< p.1) 0 y]
  simp only [Nat.zero_testBit, Bool.false_eq_true, false_or]
  constructor
  · rintro ⟨⟨v, x⟩, hp, h1, h2⟩
    rw [testBit_one_shift, decide_eq_true_eq] at h2
    subst h2
    exact ⟨x, by rw [List.mem_zipIdx_iff_getElem?] at hp; exact hp, h1⟩
  · rintro ⟨x, h1, h2⟩
    refine ⟨(y, x), by rw [List.mem_zipIdx_iff_getElem?]; exact h1, h2, ?_⟩
    rw [testBit_one_shift]; simp

theorem lt_two_pow_of_bits {n e : Nat} (h : ∀ y, e.testBit y = true → y < n) : e < 2 ^ n := by
  apply Nat.lt_pow_two_of_testBit
  intro i hi
  cases hb : e.testBit i with
  | false => rfl
  | true => have := h i hb; omega

theorem bits_lt_of_lt_two_pow {n e : Nat} (h : e < 2 ^ n) (y : Nat) (hy : e.testBit y = true) : y < n := by
  by_contra hc
  have : e < 2 ^ y := Nat.lt_of_lt_of_le h (Nat.pow_le_pow_right (by omega) (by omega))
  rw [Nat.testBit_lt_two_pow this] at hy
  cases hy

theorem mapMask_range {n e : Nat} (h : e < 2 ^ n) : mapMask (List.range n) e = e := by
  apply Nat.eq_of_testBit_eq
  intro y
  rw [Bool.eq_iff_iff, testBit_mapMask]
  constructor
  · rintro ⟨x, h1, h2⟩
    rw [List.getElem?_eq_some_iff] at h1
    obtain ⟨h1, h3⟩ := h1
    rw [List.getElem_range] at h3
    subst h3; exact h2
  · intro hy
    have := bits_lt_of_lt_two_pow h y hy
    exact ⟨y, by rw [List.getElem?_range this], hy⟩

theorem rebuild_ok (ss : List State) (m : List Nat) (src : List (Option Nat)) (r : List State)
    (h : rebuild ss m src = .ok r) :
    r.length = (src.filterMap id).length ∧
    ∀ (q f : Nat), (src.filterMap id)[q]? = some f → ∃ st nx, ss[f]? = some st ∧ m[st.next]? = some nx ∧
      st.eps < 2 ^ m.length ∧ r[q]? = some { eps := mapMask m st.eps, cls := st.cls, next := nx } := by
  induction src generalizing r with
  | nil => simp only [rebuild, Except.ok.injEq] at h; subst h; simp
  | cons s src ih =>
    cases s with
    | none => simpa [rebuild] using ih r h
    | some f =>
      simp only [rebuild] at h
      cases h1 : ss[f]? with
      | none => rw [h1] at h; cases h
      | some st =>
        simp only [h1] at h
        unfold renumber at h
        by_cases h2 : 2 ^ m.length ≤ st.eps
        · rw [if_pos h2] at h; cases h
        · rw [if_neg h2] at h
          cases h3 : m[st.next]? with
          | none => rw [h3] at h; cases h
          | some nx =>
            simp only [h3] at h
            cases h4 : rebuild ss m src with
            | error x => rw [h4] at h; cases h
            | ok r' =>
              simp only [h4, Except.ok.injEq] at h
              subst h
              obtain ⟨i1, i2⟩ := ih r' h4
              refine ⟨by simp [i1], ?_⟩
              intro q f' hq
              cases q with
              | zero =>
                simp at hq; subst hq
                exact ⟨st, nx, h1, h3, by omega, by simp⟩
              | succ q => simpa using i2 q f' (by simpa using hq)

theorem rebuild_exists (ss : List State) (m : List Nat) (src : List (Option Nat))
    (h : ∀ f, some f ∈ src → ∃ st nx, ss[f]? = some st ∧ m[st.next]? = some nx ∧ st.eps < 2 ^ m.length) :
    ∃ r, rebuild ss m src = .ok r := by
  induction src with
  | nil => exact ⟨[], rfl⟩
  | cons s src ih =>
    obtain ⟨r, hr⟩ := ih (fun f hf => h f (List.mem_cons_of_mem _ hf))
    cases s with
    | none => exact ⟨r, by simpa [rebuild] using hr⟩
    | some f =>
      obtain ⟨st, nx, h1, h2, h3⟩ := h f (List.mem_cons_self ..)
      refine ⟨{ eps := mapMask m st.eps, cls := st.cls, next := nx } :: r, ?_⟩
      simp only [rebuild, h1, renumber, if_neg (show ¬ 2 ^ m.length ≤ st.eps by omega), h2, hr]

theorem partner_spec {ss : List State} {i : Nat} {st : State} {j : Nat} (h : partner ss i st = some j) :
    i < j ∧ ∃ st2, ss[j]? = some st2 ∧ maskRemove st.eps i = st2.eps := by
  unfold partner at h
  rw [Option.map_eq_some_iff] at h
  obtain ⟨⟨st2, j'⟩, h1, rfl⟩ := h
  have h2 := List.find?_some h1
  have h3 := List.mem_of_find?_eq_some h1
  rw [List.mem_zipIdx_iff_getElem?] at h3
  simp only [Bool.and_eq_true, decide_eq_true_eq, beq_iff_eq] at h2
  exact ⟨h2.1, st2, h3, h2.2⟩

theorem countNone_set {src : List (Option Nat)} (i : Nat) :
    ((src.set i none).filter Option.isNone).length ≤ (src.filter Option.isNone).length + 1 := by
  induction src generalizing i with
  | nil => simp
  | cons a src ih =>
    cases i with
    | zero =>
      rw [List.set_cons_zero, List.filter_cons, List.filter_cons]
      cases a <;> simp
    | succ i =>
      have := ih i
      rw [List.set_cons_succ, List.filter_cons, List.filter_cons]
      cases a <;> simp at * <;> omega

/-- Facts about the loop state that hold whatever the automaton. -/
structure PruneInv (n : Nat) (acc : Prune) : Prop where
  mapLen : acc.map.length = n
  srcLen : acc.src.length = n
  nones : (acc.src.filter Option.isNone).length ≤ acc.del.length
  fresh : acc.del = [] → acc.map = List.range n ∧ acc.src = (List.range n).map some
  srcLt : ∀ f, some f ∈ acc.src → f < n
  zero : 0 < n → acc.src.head? ≠ some none
  delNone : acc.del ≠ [] → none ∈ acc.src

theorem pruneStep_inv {ss : List State} {acc acc' : Prune} {p : State × Nat} (hp : ss[p.2]? = some p.1)
    (h : pruneStep ss acc p = .ok acc') (inv : PruneInv ss.length acc) : PruneInv ss.length acc' := by
  have hi := (List.getElem?_eq_some_iff.1 hp).1
  unfold pruneStep at h
  cases h1 : acc.map[p.2]? with
  | none => simp [h1] at h
  | some m =>
    simp only [h1] at h
    by_cases h2 : m < (acc.del.filter (· < p.2)).length
    · rw [if_pos h2] at h; cases h
    · rw [if_neg h2] at h
      have inv1 : PruneInv ss.length
          { acc with map := acc.map.set p.2 (m - (acc.del.filter (· < p.2)).length) } := by
        refine ⟨by simp [inv.mapLen], inv.srcLen, inv.nones, ?_, inv.srcLt, inv.zero, inv.delNone⟩
        intro hd
        obtain ⟨g1, g2⟩ := inv.fresh hd
        refine ⟨?_, g2⟩
        have hd' : acc.del = [] := hd
        rw [hd']
        rw [g1] at h1
        show acc.map.set p.2 _ = _
        rw [g1]
        rw [List.getElem?_eq_some_iff] at h1
        obtain ⟨h1, h3⟩ := h1
        rw [List.getElem_range] at h3
        subst h3
        apply List.ext_getElem?
        intro x
        rw [List.getElem?_set]
        by_cases hx : p.2 = x
        · subst hx; simp [hi]
        · rw [if_neg hx]
      by_cases h3 : p.2 = 0
      · rw [if_pos h3] at h; cases h; exact inv1
      · rw [if_neg h3] at h
        by_cases h4 : p.1.cls ≠ CharSet.empty
        · rw [if_pos h4] at h; cases h; exact inv1
        · rw [if_neg h4] at h
          cases h5 : partner ss p.2 p.1 with
          | none => rw [h5] at h; cases h; exact inv1
          | some i2 =>
            simp only [h5, Except.ok.injEq] at h
            obtain ⟨g1, st2, g2, _⟩ := partner_spec h5
            have hi2 := (List.getElem?_eq_some_iff.1 g2).1
            subst h
            refine ⟨by simp [inv.mapLen], by simp [inv.srcLen], ?_, by simp, ?_, ?_, ?_⟩
            · have := countNone_set (src := acc.src) i2
              have hn := inv.nones
              rw [List.filter_map, List.length_map]
              have he : (Option.isNone ∘ fun s => if s = some p.2 then some i2 else s) =
                  (Option.isNone : Option Nat → Bool) := by
                funext s
                simp only [Function.comp]
                split
                · next h => rw [h]; rfl
                · rfl
              rw [he]
              simp only [List.length_append, List.length_singleton]
              omega
            · intro f hf
              simp only [List.mem_map] at hf
              obtain ⟨s, hs, he⟩ := hf
              split at he
              · cases he; exact hi2
              · subst he
                rcases List.mem_or_eq_of_mem_set hs with hs | hs
                · exact inv.srcLt f hs
                · cases hs
            · intro hn
              have := inv.zero hn
              cases hsrc : acc.src with
              | nil => simp
              | cons a l =>
                rw [hsrc] at this
                simp only [List.head?_cons, ne_eq, Option.some.injEq] at this
                have : i2 ≠ 0 := by omega
                obtain ⟨k, rfl⟩ : ∃ k, i2 = k + 1 := ⟨i2 - 1, by omega⟩
                simp only [List.set_cons_succ, List.map_cons, List.head?_cons, ne_eq, Option.some.injEq]
                split
                · simp
                · assumption
            · intro _
              rw [List.mem_map]
              refine ⟨none, ?_, by simp⟩
              have : i2 < acc.src.length := by rw [inv.srcLen]; exact hi2
              exact List.mem_set this none

theorem pruneLoop_inv {ss : List State} {ps : List (State × Nat)} {acc acc' : Prune}
    (hp : ∀ p ∈ ps, ss[p.2]? = some p.1) (h : pruneLoop ss acc ps = .ok acc')
    (inv : PruneInv ss.length acc) : PruneInv ss.length acc' := by
  induction ps generalizing acc with
  | nil => simp only [pruneLoop, Except.ok.injEq] at h; subst h; exact inv
  | cons p ps ih =>
    simp only [pruneLoop] at h
    cases h1 : pruneStep ss acc p with
    | error x => rw [h1] at h; cases h
    | ok acc1 =>
      simp only [h1] at h
      exact ih (fun q hq => hp q (List.mem_cons_of_mem _ hq)) h
        (pruneStep_inv (hp p (List.mem_cons_self ..)) h1 inv)

theorem pruneInv_init (n : Nat) :
    PruneInv n { map := List.range n, src := (List.range n).map some, del := [] } := by
  refine ⟨by simp, by simp, ?_, fun _ => ⟨rfl, rfl⟩, ?_, ?_, by simp⟩
  · simp [List.filter_map]
  · simp
  · intro hn
    obtain ⟨k, rfl⟩ : ∃ k, n = k + 1 := ⟨n - 1, by omega⟩
    simp [List.range_succ_eq_map]

/-- The loop state at the end of the pass. -/
def pruneAcc (ss : List State) : Except Crash Prune :=
  pruneLoop ss { map := List.range ss.length, src := (List.range ss.length).map some, del := [] } ss.zipIdx

theorem pruneAcc_inv {ss : List State} {acc : Prune} (h : pruneAcc ss = .ok acc) : PruneInv ss.length acc := by
  refine pruneLoop_inv ?_ h (pruneInv_init _)
  intro p hp
  exact (mem_zipIdx_auto _ _).1 hp

theorem filterMap_id_length {α : Type} (l : List (Option α)) :
    (l.filterMap id).length + (l.filter Option.isNone).length = l.length := by
  induction l with
  | nil => rfl
  | cons a l ih => cases a <;> simp <;> omega

/-- What a successful pass did. -/
theorem prune_ok {ss ss' : List State} {cap : Nat} (h : prune ss = .ok (ss', cap)) :
    ∃ acc, pruneAcc ss = .ok acc ∧ PruneInv ss.length acc ∧ rebuild ss acc.map acc.src = .ok ss' ∧
      acc.del.length ≤ ss.length ∧ cap = ss.length - acc.del.length ∧ ∀ s ∈ acc.map, s < cap := by
  unfold prune at h
  rw [show pruneLoop ss { map := List.range ss.length, src := (List.range ss.length).map some, del := [] }
    ss.zipIdx = pruneAcc ss from rfl] at h
  cases h1 : pruneAcc ss with
  | error x => rw [h1] at h; cases h
  | ok acc =>
    simp only [h1] at h
    by_cases h2 : ss.length < acc.del.length
    · rw [if_pos h2] at h; cases h
    · rw [if_neg h2] at h
      split at h
      · cases h
      · rename_i h3
        cases h4 : rebuild ss acc.map acc.src with
        | error x => rw [h4] at h; cases h
        | ok r =>
          simp only [h4, Except.ok.injEq, Prod.mk.injEq] at h
          obtain ⟨rfl, rfl⟩ := h
          refine ⟨acc, rfl, pruneAcc_inv h1, h4, by omega, rfl, ?_⟩
          intro s hs
          simp only [List.any_eq_true, decide_eq_true_eq, not_exists, not_and, Nat.not_le] at h3
          exact h3 s hs

theorem prune_facts {ss ss' : List State} {cap : Nat} (h : prune ss = .ok (ss', cap)) :
    ss'.length ≤ ss.length ∧ InRange ss' ∧ (0 < ss.length → 0 < ss'.length) ∧
      (ss'.length = ss.length → ss' = ss ∧ cap = ss.length) ∧ cap ≤ ss'.length := by
  obtain ⟨acc, h1, inv, h2, h3, rfl, h4⟩ := prune_ok h
  obtain ⟨g1, g2⟩ := rebuild_ok _ _ _ _ h2
  have hlen := filterMap_id_length acc.src
  rw [inv.srcLen] at hlen
  have hn := inv.nones
  refine ⟨by omega, ?_, ?_, ?_, by omega⟩
  · intro q st' hq
    have hql := (List.getElem?_eq_some_iff.1 hq).1
    obtain ⟨f, hf⟩ : ∃ f, (acc.src.filterMap id)[q]? = some f :=
      ⟨_, List.getElem?_eq_getElem (by omega)⟩
    obtain ⟨st, nx, _, k2, _, k4⟩ := g2 q f hf
    rw [hq] at k4
    cases k4
    refine ⟨?_, ?_⟩
    · have := h4 nx (List.mem_of_getElem? k2)
      simp only []; omega
    · intro y hy
      simp only [] at hy
      rw [testBit_mapMask] at hy
      obtain ⟨x, hx, _⟩ := hy
      have := h4 y (List.mem_of_getElem? hx)
      omega
  · intro hpos
    have hz := inv.zero hpos
    cases hs : acc.src with
    | nil => have := inv.srcLen; rw [hs] at this; simp at this; omega
    | cons a l =>
      rw [hs] at hz
      cases a with
      | none => simp at hz
      | some f => rw [g1, hs]; simp
  · intro heq
    have hz : (acc.src.filter Option.isNone).length = 0 := by omega
    have hd : acc.del = [] := by
      by_contra hd
      have hm := inv.delNone hd
      rw [List.length_eq_zero_iff, List.filter_eq_nil_iff] at hz
      exact absurd (hz _ hm) (by simp)
    obtain ⟨f1, f2⟩ := inv.fresh hd
    refine ⟨?_, by simp [hd]⟩
    apply List.ext_getElem?
    intro q
    by_cases hq : q < ss.length
    · have hsq : (acc.src.filterMap id)[q]? = some q := by
        rw [f2, List.filterMap_map]
        have : (List.range ss.length).filterMap (id ∘ some) = List.range ss.length := by
          simp [Function.comp_def]
        rw [this, List.getElem?_range hq]
      obtain ⟨st, nx, k1, k2, k3, k4⟩ := g2 q q hsq
      rw [k4, k1]
      rw [f1] at k2 k3 ⊢
      rw [List.getElem?_eq_some_iff] at k2
      obtain ⟨k2, k5⟩ := k2
      rw [List.getElem_range] at k5
      rw [List.length_range] at k3
      rw [mapMask_range k3, ← k5]
    · rw [List.getElem?_eq_none (by omega), List.getElem?_eq_none (by omega)]

/-- The condition under which the pass is right: `g` lists, for each new state, the old state it is a copy
of; `map` sends old states to new ones. -/
structure PruneGood (ss : List State) (map g : List Nat) : Prop where
  /-- every state reaches the state its image is a copy of -/
  keep : ∀ y q : Nat, map[y]? = some q → ∃ f : Nat, g[q]? = some f ∧ Ed (auto ss) y f
  /-- every epsilon edge survives -/
  eps : ∀ i j qi qj : Nat, Ed (auto ss) i j → map[i]? = some qi → map[j]? = some qj →
    qi = qj ∨ ∃ f y : Nat, g[qi]? = some f ∧ Ed (auto ss) f y ∧ map[y]? = some qj
  /-- states with a symbol edge are their own copies -/
  chr : ∀ (i : Nat) (st : State) (q : Nat), ss[i]? = some st → st.cls ≠ CharSet.empty → map[i]? = some q → g[q]? = some i
  first : map[0]? = some 0 ∧ g[0]? = some 0
  last : map[ss.length - 1]? = some (g.length - 1) ∧ g[g.length - 1]? = some (ss.length - 1)

theorem CharSet.contains_ne_empty {s : CharSet} {c : Ch} (h : s.contains c = true) : s ≠ CharSet.empty := by
  rintro rfl
  rw [CharSet.contains_empty] at h; cases h

theorem prune_accept {ss ss' : List State} {acc : Prune} (hr : InRange ss)
    (hml : acc.map.length = ss.length)
    (h2 : rebuild ss acc.map acc.src = .ok ss') (hg : PruneGood ss acc.map (acc.src.filterMap id)) (w : List Ch) :
    Accept ss' w ↔ Accept ss w := by
  obtain ⟨g1, g2⟩ := rebuild_ok _ _ _ _ h2
  have hnew : ∀ (q : Nat) (st' : State), ss'[q]? = some st' → ∃ (f : Nat) (st : State) (nx : Nat), (acc.src.filterMap id)[q]? = some f ∧ ss[f]? = some st ∧
      acc.map[st.next]? = some nx ∧ st' = { eps := mapMask acc.map st.eps, cls := st.cls, next := nx } := by
    intro q st' hq
    have hql := (List.getElem?_eq_some_iff.1 hq).1
    obtain ⟨f, hf⟩ : ∃ f, (acc.src.filterMap id)[q]? = some f :=
      ⟨_, List.getElem?_eq_getElem (by omega)⟩
    obtain ⟨st, nx, k1, k2, _, k4⟩ := g2 q f hf
    rw [hq] at k4
    cases k4
    exact ⟨f, st, nx, hf, k1, k2, rfl⟩
  have hmap : ∀ x, x < ss.length → ∃ q, acc.map[x]? = some q := fun x hx =>
    ⟨_, List.getElem?_eq_getElem (by omega)⟩
  constructor
  · intro h
    have he : ∀ q q' f : Nat, Ed (auto ss') q q' → (acc.src.filterMap id)[q]? = some f →
        ∃ f', Walk (auto ss) f [] f' ∧ (acc.src.filterMap id)[q']? = some f' := by
      rintro q q' f ⟨st', hq, hb⟩ hf
      obtain ⟨f', st, nx, k1, k2, k3, rfl⟩ := hnew q st' hq
      rw [hf] at k1; cases k1
      simp only [] at hb
      rw [testBit_mapMask] at hb
      obtain ⟨x, hx1, hx2⟩ := hb
      obtain ⟨f2, hf2, he⟩ := hg.keep x q' hx1
      exact ⟨f2, .eps ⟨st, k2, hx2⟩ (.eps he (.nil _)), hf2⟩
    have hc : ∀ (q : Nat) (c : Ch) (q' f : Nat), Ce (auto ss') q c q' → (acc.src.filterMap id)[q]? = some f →
        ∃ f', Walk (auto ss) f [c] f' ∧ (acc.src.filterMap id)[q']? = some f' := by
      rintro q c q' f ⟨st', hq, hb, rfl⟩ hf
      obtain ⟨f', st, nx, k1, k2, k3, rfl⟩ := hnew q st' hq
      rw [hf] at k1; cases k1
      obtain ⟨f2, hf2, he⟩ := hg.keep _ _ k3
      exact ⟨f2, .chr ⟨st, k2, hb, rfl⟩ (.eps he (.nil _)), hf2⟩
    obtain ⟨q, hq, hR⟩ := Walk.sim (A := auto ss') (B := auto ss)
      (fun q f => (acc.src.filterMap id)[q]? = some f) he hc h 0 hg.first.2
    have : (acc.src.filterMap id)[ss'.length - 1]? = some (ss.length - 1) := by rw [g1]; exact hg.last.2
    rw [this] at hR
    cases hR
    exact hq
  · intro h
    have he : ∀ i j q : Nat, Ed (auto ss) i j → acc.map[i]? = some q →
        ∃ q', Walk (auto ss') q [] q' ∧ acc.map[j]? = some q' := by
      intro i j q e hi
      obtain ⟨qj, hj⟩ := hmap j (e.lt_right hr)
      refine ⟨qj, ?_, hj⟩
      rcases hg.eps i j q qj e hi hj with rfl | ⟨f, y, hf, ⟨st, hy1, hy2⟩, hy⟩
      · exact .nil _
      · obtain ⟨st2, nx, k1, k2, _, k4⟩ := g2 q f hf
        have : some st2 = some st := by rw [← k1]; exact hy1
        cases this
        exact .eps ⟨_, k4, (testBit_mapMask _ _ _).2 ⟨y, hy, hy2⟩⟩ (.nil _)
    have hc : ∀ (i : Nat) (c : Ch) (j q : Nat), Ce (auto ss) i c j → acc.map[i]? = some q →
        ∃ q', Walk (auto ss') q [c] q' ∧ acc.map[j]? = some q' := by
      rintro i c j q ⟨st, hi', hb, rfl⟩ hi
      have hf := hg.chr i st q hi' (CharSet.contains_ne_empty hb) hi
      obtain ⟨st2, nx, k1, k2, _, k4⟩ := g2 q i hf
      have : some st2 = some st := by rw [← k1]; exact hi'
      cases this
      exact ⟨nx, .chr ⟨_, k4, hb, rfl⟩ (.nil _), k2⟩
    obtain ⟨q, hq, hR⟩ := Walk.sim (A := auto ss) (B := auto ss')
      (fun x q => acc.map[x]? = some q) he hc h 0 hg.first.1
    rw [hg.last.1] at hR
    cases hR
    unfold Accept
    rw [g1]; exact hq

end Noodle
