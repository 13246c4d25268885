import Verif.Proofs.Graph
/-
The automata on which `collapse_epsilon_pairs` is right ("settled" automata): stated on the pairs that the pass
can collapse, and kept by every collapse.
-/
namespace Noodle
set_option autoImplicit false
namespace G

/-- The renumbering of a collapse. -/
def rm (e c i : Nat) : Nat := if i < c then i else if i = c then (if e < c then e else e - 1) else i - 1

/-- `(e, c)` is a pair. -/
structure Pr (g : G) (e c : Nat) : Prop where
  c0 : c ≠ 0
  z : g.Z e
  ne : e ≠ c
  nxe : g.nx c ≠ e
  nxc : g.nx c ≠ c
  sing : g.Sing c
  ec : g.E e c
  en : g.E e (g.nx c)
  sub : ∀ y, g.E e y → y = e ∨ y = c ∨ g.E (g.nx c) y

/-- `g'` is `g` with `c` collapsed into `e`. -/
structure Coll (g g' : G) (e c : Nat) : Prop where
  n : g'.n = g.n - 1
  ed : ∀ q q', g'.E q q' ↔ ∃ x y, x ≠ c ∧ q = rm e c x ∧ g.E x y ∧ q' = rm e c y
  z : ∀ x, x ≠ c → x < g.n → (g'.Z (rm e c x) ↔ if x = e then g.Z c else g.Z x)
  nx : ∀ x, x ≠ c → x < g.n → g'.nx (rm e c x) = rm e c (if x = e then g.nx c else g.nx x)

/-- No symbol leads to `d`. -/
def Free (g : G) (d : Nat) : Prop := ∀ x, g.Acts x → g.nx x ≠ d

/-- What can be collapsed into the start and leaves a closed automaton. -/
structure Plain (g : G) (c : Nat) : Prop where
  skip : ∀ d, d ≠ c → g.E d c → g.E d (g.nx c)
  dead : g.Z c → g.E (g.nx c) c ∧ ∀ c', g.Pr 0 c' → c' = c

/-- The states before `d` that lead to `w` come before `w`, or are part of its loop. -/
def Behind (g : G) (d w : Nat) : Prop := ∀ x, x < d → g.E x w → x < w ∨ g.E w x

/-- What can be collapsed into the start, as the first symbol of a loop. -/
structure Turn (g : G) (c : Nat) : Prop where
  back : g.E (g.nx c) c
  all : ∀ c', g.Sing c' → c' ≠ 0 → g.E 0 c' → g.nx c' = g.nx c → ¬ g.Z c' ∧ g.Free c' ∧
    ∀ d, g.E d c' → d = c' ∨ d = 0 ∨ g.E d (g.nx c) ∨ (g.E 0 d ∧ g.Behind d (g.nx c) ∧ g.Free d)

/-- A settled automaton: no partners, and every pair can be collapsed. -/
structure Settled (g : G) : Prop extends Clos g where
  noPart : g.NoPart
  into0 : ∀ x, g.Acts x → x + 1 < g.n → g.nx x ≠ 0
  zero : ((∀ x y, g.E x y → g.E y x → x = y) ∧ ∀ d, g.E d 0 → d = 0) ∨ ∀ c, ¬ g.Pr 0 c
  back : ∀ e c, g.Pr e c → e ≠ 0 → ∀ d, g.E d c → d = c ∨ g.E d e
  enter : ∀ e c, g.Pr e c → ∀ x, g.Acts x → g.nx x ≠ c
  live : ∀ e c, g.Pr e c → e ≠ 0 → ¬ g.Z c
  ready : ∀ c, g.Pr 0 c → g.Plain c ∨ g.Turn c

variable {g g' : G} {e c : Nat}

/-! ### The renumbering -/

theorem rm_lt {x : Nat} (h : x < c) : rm e c x = x := by unfold rm; rw [if_pos h]

theorem rm_gt {x : Nat} (h : c < x) : rm e c x = x - 1 := by
  unfold rm; rw [if_neg (by omega), if_neg (by omega)]

theorem rm_c (h : e ≠ c) : rm e c c = rm e c e := by
  unfold rm
  rw [if_neg (by omega), if_pos rfl]
  by_cases h1 : e < c
  · rw [if_pos h1, if_pos h1]
  · rw [if_neg h1, if_neg h1, if_neg h]

theorem rm_lt_iff {x y : Nat} (hx : x ≠ c) (hy : y ≠ c) : rm e c x < rm e c y ↔ x < y := by
  rcases Nat.lt_or_gt_of_ne hx with h | h <;> rcases Nat.lt_or_gt_of_ne hy with h' | h'
  · rw [rm_lt h, rm_lt h']
  · rw [rm_lt h, rm_gt h']; omega
  · rw [rm_gt h, rm_lt h']; omega
  · rw [rm_gt h, rm_gt h']; omega

theorem rm_inj {x y : Nat} (hx : x ≠ c) (hy : y ≠ c) (h : rm e c x = rm e c y) : x = y := by
  have h1 := rm_lt_iff (e := e) hx hy
  have h2 := rm_lt_iff (e := e) hy hx
  omega

theorem rm_onto (q : Nat) : ∃ x, x ≠ c ∧ rm e c x = q ∧ (x = q ∨ x = q + 1) := by
  rcases Nat.lt_or_ge q c with h | h
  · exact ⟨q, by omega, rm_lt h, .inl rfl⟩
  · exact ⟨q + 1, by omega, by rw [rm_gt (by omega)]; omega, .inr rfl⟩

theorem rm_zero (hc : c ≠ 0) {x : Nat} (hx : x ≠ c) : rm e c x = 0 ↔ x = 0 := by
  rcases Nat.lt_or_gt_of_ne hx with h | h
  · rw [rm_lt h]
  · rw [rm_gt h]; omega

section
variable (hp : g.Pr e c)
include hp

theorem Pr.notSing : ¬ g.Sing e := fun hs => hp.nxe (hs _ hp.en)

theorem Pr.notLast (hf : g.Clos) : c + 1 < g.n := by
  have h1 := (hf.lt _ _ hp.ec).2
  have h2 := hf.lastNx
  by_contra hge
  rw [show g.n - 1 = c by omega] at h2
  exact hp.nxc h2

theorem Pr.acts (hf : g.Clos) : g.Acts c := ⟨(hf.lt _ _ hp.ec).2, .inr hp.sing⟩

end

section
variable (h : Coll g g' e c) (hs : g.Settled) (hp : g.Pr e c) (hk : e = 0 → g.Plain c)
include h hs hp hk

omit hs hk in
theorem Coll.e2 {x y : Nat} (hx : x ≠ c) (hy : y ≠ c) :
    g'.E (rm e c x) (rm e c y) ↔ g.E x y ∨ (y = e ∧ g.E x c) := by
  rw [h.ed]
  constructor
  · rintro ⟨x', y', h1, h2, h3, h4⟩
    have := rm_inj hx h1 h2
    subst this
    by_cases hyc : y' = c
    · subst hyc
      rw [rm_c hp.ne] at h4
      exact .inr ⟨rm_inj hy hp.ne h4, h3⟩
    · have := rm_inj hy hyc h4
      subst this
      exact .inl h3
  · rintro (h1 | ⟨h1, h2⟩)
    · exact ⟨x, y, hx, rfl, h1, rfl⟩
    · exact ⟨x, c, hx, rfl, h2, by rw [rm_c hp.ne, h1]⟩

omit hs hp hk in
theorem Coll.onto {q : Nat} (hq : q < g'.n) : ∃ x, x ≠ c ∧ x < g.n ∧ q = rm e c x := by
  have := h.n
  obtain ⟨x, h1, h2, h3⟩ := rm_onto (e := e) (c := c) q
  exact ⟨x, h1, by omega, h2.symm⟩

theorem Coll.rm_n {x : Nat} (hx : x < g.n) (hxc : x ≠ c) : rm e c x < g'.n := by
  have hn := h.n
  have hc := hp.notLast hs.toClos
  rcases Nat.lt_or_gt_of_ne hxc with h1 | h1
  · rw [rm_lt h1]; omega
  · rw [rm_gt h1]; omega

theorem Coll.n_rm {x : Nat} (hx : rm e c x < g'.n) (hxc : x ≠ c) : x < g.n := by
  have hn := h.n
  have hc := hp.notLast hs.toClos
  rcases Nat.lt_or_gt_of_ne hxc with h1 | h1
  · omega
  · rw [rm_gt h1] at hx; omega

omit h in
theorem nx_ne : g.nx c ≠ c := hp.nxc

omit h in
theorem skip (d : Nat) (hd : d ≠ c) (hE : g.E d c) : g.E d (g.nx c) := by
  by_cases h0 : e = 0
  · exact (hk h0).skip d hd hE
  · rcases hs.back _ _ hp h0 d hE with h1 | h1
    · exact absurd h1 hd
    · exact hs.trans _ _ _ h1 hp.en

theorem Coll.clos : g'.Clos := by
  have hn := h.n
  have hl := hp.notLast hs.toClos
  have hc0 := hp.c0
  have hlast : rm e c (g.n - 1) = g'.n - 1 := by rw [rm_gt (by omega)]; omega
  have hlc : g.n - 1 ≠ c := by omega
  have hle : g.n - 1 ≠ e := fun he => hp.notSing (he ▸ hs.lastSing)
  have hnx : ∀ x, x < g.n → rm e c x < g'.n := by
    intro x hx
    by_cases hxc : x = c
    · rw [hxc, rm_c hp.ne]; exact h.rm_n hs hp hk (hs.lt _ _ hp.ec).1 hp.ne
    · exact h.rm_n hs hp hk hx hxc
  refine ⟨?_, ?_, ?_, ?_, ?_, ?_, ?_, ?_⟩
  · intro q q' hq
    obtain ⟨x, y, h1, rfl, h2, rfl⟩ := (h.ed _ _).1 hq
    obtain ⟨h3, h4⟩ := hs.lt _ _ h2
    exact ⟨hnx _ h3, hnx _ h4⟩
  · intro q hq
    obtain ⟨x, h1, h2, rfl⟩ := h.onto hq
    exact (h.e2 hp h1 h1).2 (.inl (hs.refl _ h2))
  · intro a b d h1 h2
    rw [h.ed] at h1 h2 ⊢
    obtain ⟨i, j, k1, rfl, e1, rfl⟩ := h1
    obtain ⟨j', k, k2, hj, e2, rfl⟩ := h2
    by_cases hjC : j = c
    · subst hjC
      rw [rm_c hp.ne] at hj
      have := rm_inj hp.ne k2 hj
      subst this
      have hn := skip hs hp hk i k1 e1
      rcases hp.sub k e2 with rfl | rfl | hk
      · exact ⟨i, j, k1, rfl, e1, (rm_c hp.ne).symm⟩
      · exact ⟨i, k, k1, rfl, e1, rfl⟩
      · exact ⟨i, k, k1, rfl, hs.trans _ _ _ hn hk, rfl⟩
    · have := rm_inj hjC k2 hj
      subst this
      exact ⟨i, k, k1, rfl, hs.trans _ _ _ e1 e2, rfl⟩
  · intro q hq
    obtain ⟨x, h1, h2, rfl⟩ := h.onto hq
    rw [h.nx x h1 h2]
    apply hnx
    split
    · exact hs.nxlt _ (by omega)
    · exact hs.nxlt _ h2
  · omega
  · rw [← hlast, h.z _ hlc (by omega), if_neg hle]; exact hs.lastZ
  · intro w hw
    rw [← hlast] at hw ⊢
    obtain ⟨y, hy, hq', _⟩ := rm_onto (e := e) (c := c) w
    rw [← hq', h.e2 hp hlc hy] at hw
    rcases hw with hw | ⟨_, hw⟩
    · rw [← hq', hs.lastSing _ hw]
    · exact absurd (hs.lastSing _ hw) (by omega)
  · rw [← hlast, h.nx _ hlc (by omega), if_neg hle, hs.lastNx]

/-- Only the start can gain edges. -/
theorem Coll.gain {x : Nat} (hx : x ≠ c) (hxc : g.E x c) : g.E x e ∨ e = 0 := by
  by_cases he : e = 0
  · exact .inr he
  · rcases hs.back _ _ hp he x hxc with h1 | h1
    · exact absurd h1 hx
    · exact .inl h1

theorem Coll.sing_of {x : Nat} (hx : x ≠ c) (hS : g'.Sing (rm e c x)) : g.Sing x ∧ x ≠ e := by
  have hxe : x ≠ e := by
    rintro rfl
    have := hS _ ((h.e2 hp hx hp.nxc).2 (.inl hp.en))
    exact hp.nxe (rm_inj hp.nxc hx this)
  refine ⟨fun w hw => ?_, hxe⟩
  by_cases hwc : w = c
  · subst hwc
    exact absurd (rm_inj hp.ne hx (hS _ ((h.e2 hp hx hp.ne).2 (.inr ⟨rfl, hw⟩)))).symm hxe
  · exact rm_inj hwc hx (hS _ ((h.e2 hp hx hwc).2 (.inl hw)))

/-- What acts afterwards acted before: the state itself, or the collapsed one. -/
theorem Coll.acts_of {x : Nat} (hx : x ≠ c) (hA : g'.Acts (rm e c x)) :
    ∃ x0, g.Acts x0 ∧ g'.nx (rm e c x) = rm e c (g.nx x0) ∧ g.nx x0 ≠ c ∧ (x = e → x0 = c) ∧ (x ≠ e → x0 = x) := by
  have hxn := h.n_rm hs hp hk hA.1 hx
  have key : ∀ x0, g.Acts x0 → g.nx x0 ≠ c := fun x0 h0 => hs.enter _ _ hp x0 h0
  by_cases hxe : x = e
  · refine ⟨c, hp.acts hs.toClos, ?_, hp.nxc, fun _ => rfl, fun h => absurd hxe h⟩
    rw [h.nx x hx hxn, if_pos hxe]
  · have hA0 : g.Acts x := by
      refine ⟨hxn, ?_⟩
      rcases hA.2 with h1 | h1
      · left; rwa [h.z x hx hxn, if_neg hxe] at h1
      · exact .inr (h.sing_of hs hp hk hx h1).1
    refine ⟨x, hA0, ?_, key _ hA0, fun h => absurd h hxe, fun _ => rfl⟩
    rw [h.nx x hx hxn, if_neg hxe]

omit h in
theorem zero_case (h0 : e = 0) : (∀ x y, g.E x y → g.E y x → x = y) ∧ ∀ d, g.E d 0 → d = 0 := by
  rcases hs.zero with hz | hz
  · exact hz
  · exact absurd (h0 ▸ hp) (hz c)

/-- Every pair after a collapse was a pair before. -/
theorem Coll.pair {e' c' : Nat} (he : e' ≠ c) (hc : c' ≠ c) (P : g'.Pr (rm e c e') (rm e c c')) :
    g.Pr e' c' ∧ e' ≠ e ∧ c' ≠ e := by
  have hcl := h.clos hs hp hk
  obtain ⟨hS, hce⟩ := h.sing_of hs hp hk hc P.sing
  have hcn := h.n_rm hs hp hk (hcl.lt _ _ P.ec).2 hc
  have hen := h.n_rm hs hp hk (hcl.lt _ _ P.ec).1 he
  have hnl := P.notLast hcl
  have hA : g.Acts c' := ⟨hcn, .inr hS⟩
  have hN := hs.enter _ _ hp c' hA
  have hc'0 : c' ≠ 0 := fun h0 => P.c0 ((rm_zero hp.c0 hc).2 h0)
  have hnx : g'.nx (rm e c c') = rm e c (g.nx c') := by rw [h.nx _ hc hcn, if_neg hce]
  have hnl' : c' + 1 < g.n := by
    have := h.n
    have := hp.notLast hs.toClos
    rcases Nat.lt_or_gt_of_ne hc with h1 | h1
    · omega
    · rw [rm_gt h1] at hnl; omega
  have hnx0 := hs.into0 c' hA hnl'
  have hne : e' ≠ c' := fun h => P.ne (by rw [h])
  have hNe' : g.nx c' ≠ e' := fun h => P.nxe (by rw [hnx, h])
  have hNc' : g.nx c' ≠ c' := fun h => P.nxc (by rw [hnx, h])
  have hec : g.E e' c' := by
    rcases (h.e2 hp he hc).1 P.ec with h1 | ⟨h1, _⟩
    · exact h1
    · exact absurd h1 hce
  -- the two cases
  by_cases h0 : e = 0
  · obtain ⟨anti, d0⟩ := zero_case hs hp hk h0
    have hen' : g.E e' (g.nx c') := by
      have := P.en
      rw [hnx] at this
      rcases (h.e2 hp he hN).1 this with h1 | ⟨h1, _⟩
      · exact h1
      · exact absurd (h1.trans h0) hnx0
    have hsub : ∀ y, y ≠ c → y ≠ 0 → g.E e' y → y = e' ∨ y = c' ∨ g.E (g.nx c') y := by
      intro y hy hy0 hE
      have := P.sub _ ((h.e2 hp he hy).2 (.inl hE))
      rw [hnx] at this
      rcases this with h1 | h1 | h1
      · exact .inl (rm_inj hy he h1)
      · exact .inr (.inl (rm_inj hy hc h1))
      · rcases (h.e2 hp hN hy).1 h1 with h1 | ⟨h1, _⟩
        · exact .inr (.inr h1)
        · exact absurd (h1.trans h0) hy0
    by_cases he0 : e' = 0
    · exfalso
      have hz : g.Z c := by
        have := P.z
        rwa [h.z _ he hen, if_pos (he0.trans h0.symm)] at this
      subst h0 he0
      obtain ⟨hb, huniq⟩ := (hk rfl).dead hz
      -- nx c' = nx c
      have h1 : g.E (g.nx c') (g.nx c) := by
        rcases hsub _ hp.nxc hp.nxe hp.en with h1 | h1 | h1
        · exact absurd h1 hp.nxe
        · have h2 := huniq c'
          -- c' = nx c: then c' is singular but reaches c
          rw [← h1] at hS
          exact absurd (hS _ hb) (Ne.symm hp.nxc)
        · exact h1
      have h2 : g.E (g.nx c) (g.nx c') := by
        rcases hp.sub _ hen' with h2 | h2 | h2
        · exact absurd h2 hnx0
        · exact absurd h2 hN
        · exact h2
      have heq := anti _ _ h1 h2
      have : g.Pr 0 c' := by
        refine ⟨hc'0, hp.z, hne, hNe', hNc', hS, hec, hen', ?_⟩
        intro y hy
        by_cases hyc : y = c
        · rw [hyc, heq]; exact .inr (.inr hb)
        · by_cases hy0 : y = 0
          · exact .inl hy0
          · exact hsub y hyc hy0 hy
      exact hc (huniq _ this)
    · refine ⟨⟨hc'0, ?_, hne, hNe', hNc', hS, hec, hen', ?_⟩, fun h => he0 (h.trans h0), hce⟩
      · have := P.z
        rwa [h.z _ he hen, if_neg (fun h => he0 (h.trans h0))] at this
      · intro y hy
        by_cases hyc : y = c
        · subst hyc
          have := P.sub _ ((h.e2 hp he hp.ne).2 (.inr ⟨rfl, hy⟩))
          rw [hnx] at this
          rcases this with h1 | h1 | h1
          · exact absurd ((rm_inj hp.ne he h1).symm.trans h0) he0
          · exact absurd (rm_inj hp.ne hc h1).symm hce
          · rcases (h.e2 hp hN hp.ne).1 h1 with h1 | ⟨_, h1⟩
            · rw [h0] at h1; exact absurd (d0 _ h1) hnx0
            · exact .inr (.inr h1)
        · by_cases hy0 : y = 0
          · rw [hy0] at hy; exact absurd (d0 _ hy) he0
          · exact hsub y hyc hy0 hy
  · -- the restriction
    have res : ∀ x y, x ≠ c → y ≠ c → (g'.E (rm e c x) (rm e c y) ↔ g.E x y) := by
      intro x y hx hy
      rw [h.e2 hp hx hy]
      refine ⟨?_, .inl⟩
      rintro (h1 | ⟨h1, h2⟩)
      · exact h1
      · rw [h1]; exact (h.gain hs hp hk hx h2).resolve_right h0
    have hee : e' ≠ e := by
      intro hE
      have := P.z
      rw [h.z _ he hen, if_pos hE] at this
      exact hs.live _ _ hp h0 this
    have hen' : g.E e' (g.nx c') := by
      have := P.en
      rwa [hnx, res _ _ he hN] at this
    refine ⟨⟨hc'0, ?_, hne, hNe', hNc', hS, hec, hen', ?_⟩, hee, hce⟩
    · have := P.z
      rwa [h.z _ he hen, if_neg hee] at this
    · have key : ∀ y, y ≠ c → g.E e' y → y = e' ∨ y = c' ∨ g.E (g.nx c') y := by
        intro y hy hE
        have := P.sub _ ((res _ _ he hy).2 hE)
        rw [hnx] at this
        rcases this with h1 | h1 | h1
        · exact .inl (rm_inj hy he h1)
        · exact .inr (.inl (rm_inj hy hc h1))
        · exact .inr (.inr ((res _ _ hN hy).1 h1))
      intro y hy
      by_cases hyc : y = c
      · subst hyc
        have h1 := (h.gain hs hp hk he hy).resolve_right h0
        rcases key e hp.ne h1 with h2 | h2 | h2
        · exact absurd h2.symm hee
        · exact absurd h2.symm hce
        · exact .inr (.inr (hs.trans _ _ _ h2 hp.ec))
      · exact key y hyc hy

theorem Coll.pair' {q q' : Nat} (P : g'.Pr q q') : ∃ e' c', e' ≠ c ∧ c' ≠ c ∧ q = rm e c e' ∧ q' = rm e c c' ∧
    g.Pr e' c' ∧ e' ≠ e ∧ c' ≠ e := by
  have hcl := h.clos hs hp hk
  obtain ⟨h1, h2⟩ := hcl.lt _ _ P.ec
  obtain ⟨e', k1, k2, rfl⟩ := h.onto h1
  obtain ⟨c', k3, k4, rfl⟩ := h.onto h2
  exact ⟨e', c', k1, k3, rfl, rfl, h.pair hs hp hk k1 k3 P⟩

/-- A collapse keeps automata settled. -/
theorem Coll.settled : g'.Settled := by
  have hcl := h.clos hs hp hk
  have hn := h.n
  have hl := hp.notLast hs.toClos
  refine ⟨hcl, ?_, ?_, ?_, ?_, ?_, ?_, ?_⟩
  · -- noPart
    intro q k P
    obtain ⟨x, hx, hxn, rfl⟩ := h.onto (show q < g'.n by have := P.lt; have := P.kn; omega)
    obtain ⟨k, hkc, hkn, rfl⟩ := h.onto P.kn
    have hx0 : x ≠ 0 := fun h0 => by have := (rm_zero (e := e) hp.c0 hx).2 h0; have := P.pos; omega
    have hk0 : k ≠ 0 := fun h0 => by have := (rm_zero (e := e) hp.c0 hkc).2 h0; have := P.lt; omega
    have hlt := (rm_lt_iff (e := e) hx hkc).1 P.lt
    have hxe : x ≠ e := by
      intro hE
      have := P.z
      rw [h.z _ hx hxn, if_pos hE] at this
      exact hs.live _ _ hp (fun h0 => hx0 (hE.trans h0)) this
    refine hs.noPart x k ⟨by omega, ?_, hlt, hkn, ?_⟩
    · have := P.z
      rwa [h.z _ hx hxn, if_neg hxe] at this
    · have hne : ∀ {z}, z ≠ c → (rm e c z ≠ rm e c x ↔ z ≠ x) := by
        intro z hz
        exact not_congr ⟨fun h => rm_inj hz hx h, fun h => by rw [h]⟩
      have hiff : ∀ z, z ≠ c → ((g.E k z ∨ (z = e ∧ g.E k c)) ↔ (g.E x z ∨ (z = e ∧ g.E x c)) ∧ z ≠ x) := by
        intro z hz
        rw [← h.e2 hp hkc hz, ← h.e2 hp hx hz, ← hne hz]
        exact P.iff _
      by_cases h0 : e = 0
      · obtain ⟨_, d0⟩ := zero_case hs hp hk h0
        intro z
        by_cases hz : z = e
        · rw [hz, h0]
          exact ⟨fun h => absurd (d0 _ h) hk0, fun h => absurd (d0 _ h.1) hx0⟩
        · by_cases hzc : z = c
          · have := hiff e hp.ne
            subst hzc
            constructor
            · intro hE
              rcases (this.1 (.inr ⟨rfl, hE⟩)).1 with h1 | ⟨_, h1⟩
              · rw [h0] at h1; exact absurd (d0 _ h1) hx0
              · exact ⟨h1, Ne.symm hx⟩
            · rintro ⟨hE, _⟩
              rcases this.2 ⟨.inr ⟨rfl, hE⟩, Ne.symm hxe⟩ with h1 | ⟨_, h1⟩
              · rw [h0] at h1; exact absurd (d0 _ h1) hk0
              · exact h1
          · have := hiff z hzc
            constructor
            · intro hE
              rcases (this.1 (.inl hE)) with ⟨h1 | ⟨h1, _⟩, h2⟩
              · exact ⟨h1, h2⟩
              · exact absurd h1 hz
            · rintro ⟨hE, h1⟩
              rcases this.2 ⟨.inl hE, h1⟩ with h1 | ⟨h1, _⟩
              · exact h1
              · exact absurd h1 hz
      · have key : ∀ z, z ≠ c → (g.E k z ↔ g.E x z ∧ z ≠ x) := by
          intro z hz
          have := hiff z hz
          have a1 : ∀ y, y ≠ c → (g.E y z ∨ (z = e ∧ g.E y c) ↔ g.E y z) := by
            intro y hy
            refine ⟨?_, .inl⟩
            rintro (h1 | ⟨h1, h2⟩)
            · exact h1
            · rw [h1]; exact (h.gain hs hp hk hy h2).resolve_right h0
          rwa [a1 k hkc, a1 x hx] at this
        intro z
        by_cases hz : z = c
        · subst hz
          constructor
          · intro hE
            have h1 := (h.gain hs hp hk hkc hE).resolve_right h0
            exact ⟨hs.trans _ _ _ ((key e hp.ne).1 h1).1 hp.ec, Ne.symm hx⟩
          · rintro ⟨hE, _⟩
            have h1 := (h.gain hs hp hk hx hE).resolve_right h0
            exact hs.trans _ _ _ ((key e hp.ne).2 ⟨h1, Ne.symm hxe⟩) hp.ec
        · exact key z hz
  · -- into0
    intro q hA hq
    obtain ⟨x, hx, hxn, rfl⟩ := h.onto hA.1
    obtain ⟨x0, k1, k2, k3, k4, k5⟩ := h.acts_of hs hp hk hx hA
    rw [k2, Ne, rm_zero hp.c0 k3]
    apply hs.into0 x0 k1
    by_cases hxe : x = e
    · rw [k4 hxe]; exact hl
    · rw [k5 hxe]
      rcases Nat.lt_or_gt_of_ne hx with h1 | h1
      · omega
      · rw [rm_gt h1] at hq; omega
  · -- zero
    by_cases h0 : e = 0
    · right
      intro c' P
      obtain ⟨e', c'', k1, k2, k3, k4, k5, k6, k7⟩ := h.pair' hs hp hk P
      exact k6 (((rm_zero hp.c0 k1).1 k3.symm).trans h0.symm)
    · rcases hs.zero with ⟨anti, d0⟩ | hz
      · left
        constructor
        · intro q q' h1 h2
          obtain ⟨k1, k2⟩ := hcl.lt _ _ h1
          obtain ⟨x, hx, hxn, rfl⟩ := h.onto k1
          obtain ⟨y, hy, hyn, rfl⟩ := h.onto k2
          have res : ∀ x y, x ≠ c → y ≠ c → g'.E (rm e c x) (rm e c y) → g.E x y := by
            intro x y hx hy hE
            rcases (h.e2 hp hx hy).1 hE with h1 | ⟨h1, h2⟩
            · exact h1
            · rw [h1]; exact (h.gain hs hp hk hx h2).resolve_right h0
          rw [anti _ _ (res _ _ hx hy h1) (res _ _ hy hx h2)]
        · intro q h1
          obtain ⟨k1, k2⟩ := hcl.lt _ _ h1
          obtain ⟨x, hx, hxn, rfl⟩ := h.onto k1
          have hc0 := hp.c0
          rw [rm_zero hp.c0 hx]
          have : rm e c 0 = 0 := rm_lt (by omega)
          rw [← this, h.e2 hp hx (Ne.symm hc0)] at h1
          rcases h1 with h1 | ⟨h1, _⟩
          · exact d0 _ h1
          · exact absurd h1.symm h0
      · right
        intro c' P
        obtain ⟨e', c'', k1, k2, k3, k4, k5, k6, k7⟩ := h.pair' hs hp hk P
        have := (rm_zero hp.c0 k1).1 k3.symm
        rw [this] at k5
        exact hz _ k5
  · -- back
    intro q q' P hq0 d hd
    obtain ⟨e', c', k1, k2, rfl, rfl, k5, k6, k7⟩ := h.pair' hs hp hk P
    obtain ⟨d, hdc, hdn, rfl⟩ := h.onto (hcl.lt _ _ hd).1
    have he0 : e' ≠ 0 := fun h0 => hq0 ((rm_zero hp.c0 k1).2 h0)
    rcases (h.e2 hp hdc k2).1 hd with h1 | ⟨h1, _⟩
    · rcases hs.back _ _ k5 he0 _ h1 with h2 | h2
      · left; rw [h2]
      · exact .inr ((h.e2 hp hdc k1).2 (.inl h2))
    · exact absurd h1 k7
  · -- enter
    intro q q' P x hA
    obtain ⟨e', c', k1, k2, rfl, rfl, k5, k6, k7⟩ := h.pair' hs hp hk P
    obtain ⟨x, hx, hxn, rfl⟩ := h.onto hA.1
    obtain ⟨x0, j1, j2, j3, j4, j5⟩ := h.acts_of hs hp hk hx hA
    rw [j2]
    intro he
    exact hs.enter _ _ k5 x0 j1 (rm_inj j3 k2 he)
  · -- live
    intro q q' P hq0
    obtain ⟨e', c', k1, k2, rfl, rfl, k5, k6, k7⟩ := h.pair' hs hp hk P
    have he0 : e' ≠ 0 := fun h0 => hq0 ((rm_zero hp.c0 k1).2 h0)
    rw [h.z _ k2 (hs.lt _ _ k5.ec).2, if_neg k7]
    exact hs.live _ _ k5 he0
  · -- ready
    intro q' P
    obtain ⟨e', c', k1, k2, k3, rfl, k5, k6, k7⟩ := h.pair' hs hp hk P
    have he0 := (rm_zero hp.c0 k1).1 k3.symm
    subst he0
    have h0 : e ≠ 0 := fun h0 => k6 h0.symm
    have hcn := (hs.lt _ _ k5.ec).2
    have hN := hs.enter _ _ hp _ (k5.acts hs.toClos)
    have hc0 := hp.c0
    have z0 : rm e c 0 = 0 := rm_lt (by omega)
    have res : ∀ x y, x ≠ c → y ≠ c → (g'.E (rm e c x) (rm e c y) ↔ g.E x y) := by
      intro x y hx hy
      rw [h.e2 hp hx hy]
      refine ⟨?_, .inl⟩
      rintro (h1 | ⟨h1, h2⟩)
      · exact h1
      · rw [h1]; exact (h.gain hs hp hk hx h2).resolve_right h0
    have hnx : g'.nx (rm e c c') = rm e c (g.nx c') := by rw [h.nx _ k2 hcn, if_neg k7]
    rcases hs.ready _ k5 with pl | tn
    · left
      refine ⟨?_, ?_⟩
      · intro d hd hE
        obtain ⟨d, hdc, hdn, rfl⟩ := h.onto (hcl.lt _ _ hE).1
        rw [hnx]
        exact (res _ _ hdc hN).2 (pl.skip d (fun h => hd (by rw [h])) ((res _ _ hdc k2).1 hE))
      · intro hz
        rw [h.z _ k2 hcn, if_neg k7] at hz
        obtain ⟨h1, h2⟩ := pl.dead hz
        rw [hnx]
        refine ⟨(res _ _ hN k2).2 h1, ?_⟩
        intro q P'
        obtain ⟨e', c'', j1, j2, j3, rfl, j5, j6, j7⟩ := h.pair' hs hp hk P'
        have he0 := (rm_zero hp.c0 j1).1 j3.symm
        subst he0
        rw [h2 _ j5]
    · right
      have free : ∀ d, d ≠ c → g.Free d → g'.Free (rm e c d) := by
        intro d hd hf q hA
        obtain ⟨x, hx, hxn, rfl⟩ := h.onto hA.1
        obtain ⟨x0, j1, j2, j3, _, _⟩ := h.acts_of hs hp hk hx hA
        rw [j2]
        exact fun he => hf x0 j1 (rm_inj j3 hd he)
      refine ⟨by rw [hnx]; exact (res _ _ hN k2).2 tn.back, ?_⟩
      intro q hS hq0 hE hnq
      obtain ⟨c1, hc1, hc1n, rfl⟩ := h.onto (hcl.lt _ _ hE).2
      obtain ⟨hS1, hc1e⟩ := h.sing_of hs hp hk hc1 hS
      have hA1 : g.Acts c1 := ⟨hc1n, .inr hS1⟩
      have hN1 := hs.enter _ _ hp _ hA1
      rw [h.nx _ hc1 hc1n, if_neg hc1e, hnx] at hnq
      rw [← z0, res _ _ (Ne.symm hc0) hc1] at hE
      obtain ⟨j1, j2, j3⟩ := tn.all c1 hS1 (fun h => hq0 ((rm_zero hp.c0 hc1).2 h)) hE (rm_inj hN1 hN hnq)
      refine ⟨by rw [h.z _ hc1 hc1n, if_neg hc1e]; exact j1, free _ hc1 j2, ?_⟩
      intro q hd
      obtain ⟨d, hdc, hdn, rfl⟩ := h.onto (hcl.lt _ _ hd).1
      rw [hnx]
      rcases j3 d ((res _ _ hdc hc1).1 hd) with g1 | g1 | g1 | ⟨g1, g2, g3⟩
      · left; rw [g1]
      · right; left; rw [g1, z0]
      · right; right; left; exact (res _ _ hdc hN).2 g1
      · right; right; right
        refine ⟨by rw [← z0]; exact (res _ _ (Ne.symm hc0) hdc).2 g1, ?_, free _ hdc g3⟩
        intro q hq hE'
        obtain ⟨x, hx, hxn, rfl⟩ := h.onto (hcl.lt _ _ hE').1
        rcases g2 x ((rm_lt_iff hx hdc).1 hq) ((res _ _ hx hN).1 hE') with m | m
        · exact .inl ((rm_lt_iff hx hN).2 m)
        · exact .inr ((res _ _ hN hx).2 m)

end
end G
end Noodle
