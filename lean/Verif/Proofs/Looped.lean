import Verif.Proofs.Settle
/-
Automata in which the first state has become part of a loop: the pairs that can be collapsed in them, and that
every collapse leaves such an automaton. The automata need not be closed: the conditions are on the closure.
-/
namespace Noodle
set_option autoImplicit false
namespace G

/-- `g'` is the closure of `g` with `c` collapsed into `e`. -/
structure Merged (g g' : G) (e c : Nat) : Prop where
  n : g'.n = g.n - 1
  lt : ∀ q q', g'.E q q' → q < g'.n ∧ q' < g'.n
  e2 : ∀ x y, x ≠ c → y ≠ c → (g'.E (rm e c x) (rm e c y) ↔ g.E x y ∨ (g.E x c ∧ g.E e y))
  z : ∀ x, x ≠ c → x < g.n → (g'.Z (rm e c x) ↔ if x = e then g.Z c else g.Z x)
  nx : ∀ x, x ≠ c → x < g.n → g'.nx (rm e c x) = rm e c (if x = e then g.nx c else g.nx x)

/-- A closed automaton without partners whose first state reads a symbol and may be part of a loop. -/
structure Looped (g : G) : Prop extends Clos g where
  noPart : g.NoPart
  into0 : ∀ x, g.Acts x → x + 1 < g.n → g.nx x ≠ 0
  live0 : ¬ g.Z 0
  loop : ∀ c, g.Sing c → c ≠ 0 → g.E 0 c → g.E 0 (g.nx c) → g.E (g.nx c) 0 → ¬ g.Z c ∧ g.Free c ∧
    ∀ d, g.E d c → d = c ∨ g.E d 0 ∨ (g.E 0 d ∧ g.Behind d (g.nx c) ∧ g.Free d)
  old : ∀ e c, g.Pr e c → ¬ (g.E 0 e ∧ g.E e 0) → ¬ g.Z c ∧ g.Free c ∧ ∀ d, g.E d c → d = c ∨ g.E d e

variable {g g' : G} {e c : Nat}

/-! ### Collapsing and closing -/

section
variable (h : Merged g g' e c) (hs : g.Clos) (hp : g.Pr e c)
include h hs hp

omit hs hp in
theorem Merged.onto {q : Nat} (hq : q < g'.n) : ∃ x, x ≠ c ∧ x < g.n ∧ q = rm e c x := by
  have := h.n
  obtain ⟨x, h1, h2, h3⟩ := rm_onto (e := e) (c := c) q
  exact ⟨x, h1, by omega, h2.symm⟩

theorem Merged.rm_n {x : Nat} (hx : x < g.n) (hxc : x ≠ c) : rm e c x < g'.n := by
  have hn := h.n
  have hc := hp.notLast hs
  rcases Nat.lt_or_gt_of_ne hxc with h1 | h1
  · rw [rm_lt h1]; omega
  · rw [rm_gt h1]; omega

theorem Merged.n_rm {x : Nat} (hx : rm e c x < g'.n) (hxc : x ≠ c) : x < g.n := by
  have hn := h.n
  have hc := hp.notLast hs
  rcases Nat.lt_or_gt_of_ne hxc with h1 | h1
  · omega
  · rw [rm_gt h1] at hx; omega

theorem Merged.clos : g'.Clos := by
  have hn := h.n
  have hl := hp.notLast hs
  have hc0 := hp.c0
  have hlast : rm e c (g.n - 1) = g'.n - 1 := by rw [rm_gt (by omega)]; omega
  have hlc : g.n - 1 ≠ c := by omega
  have hle : g.n - 1 ≠ e := fun he => hp.notSing (he ▸ hs.lastSing)
  have hnx : ∀ x, x < g.n → rm e c x < g'.n := by
    intro x hx
    by_cases hxc : x = c
    · rw [hxc, rm_c hp.ne]; exact h.rm_n hs hp (hs.lt _ _ hp.ec).1 hp.ne
    · exact h.rm_n hs hp hx hxc
  refine ⟨h.lt, ?_, ?_, ?_, ?_, ?_, ?_, ?_⟩
  · intro q hq
    obtain ⟨x, h1, h2, rfl⟩ := h.onto hq
    exact (h.e2 _ _ h1 h1).2 (.inl (hs.refl _ h2))
  · intro a b d h1 h2
    obtain ⟨ha, hb⟩ := h.lt _ _ h1
    obtain ⟨_, hd⟩ := h.lt _ _ h2
    obtain ⟨a, ha', _, rfl⟩ := h.onto ha
    obtain ⟨b, hb', _, rfl⟩ := h.onto hb
    obtain ⟨d, hd', _, rfl⟩ := h.onto hd
    rw [h.e2 _ _ ha' hb'] at h1
    rw [h.e2 _ _ hb' hd'] at h2
    rw [h.e2 _ _ ha' hd']
    rcases h1 with h1 | ⟨h1, h1'⟩ <;> rcases h2 with h2 | ⟨h2, h2'⟩
    · exact .inl (hs.trans _ _ _ h1 h2)
    · exact .inr ⟨hs.trans _ _ _ h1 h2, h2'⟩
    · exact .inr ⟨h1, hs.trans _ _ _ h1' h2⟩
    · exact .inr ⟨h1, h2'⟩
  · intro q hq
    obtain ⟨x, h1, h2, rfl⟩ := h.onto hq
    rw [h.nx x h1 h2]
    apply hnx
    split
    · exact hs.nxlt _ (by omega)
    · exact hs.nxlt _ h2
  · omega
  · rw [← hlast, h.z _ hlc (by omega), if_neg hle]; exact hs.lastZ
  · intro w hw
    obtain ⟨_, hw'⟩ := h.lt _ _ hw
    rw [← hlast] at hw ⊢
    obtain ⟨y, hy, _, rfl⟩ := h.onto hw'
    rw [h.e2 _ _ hlc hy] at hw
    rcases hw with hw | ⟨hw, _⟩
    · rw [hs.lastSing _ hw]
    · exact absurd (hs.lastSing _ hw) (by omega)
  · rw [← hlast, h.nx _ hlc (by omega), if_neg hle, hs.lastNx]

theorem Merged.sing_of {x : Nat} (hx : x ≠ c) (hS : g'.Sing (rm e c x)) : g.Sing x ∧ x ≠ e ∧ ¬ g.E x c := by
  have hxe : x ≠ e := by
    rintro rfl
    have := hS _ ((h.e2 _ _ hx hp.nxc).2 (.inl hp.en))
    exact hp.nxe (rm_inj hp.nxc hx this)
  have hxc : ¬ g.E x c := fun hw =>
    hxe (rm_inj hp.ne hx (hS _ ((h.e2 _ _ hx hp.ne).2 (.inr ⟨hw, hs.refl _ (hs.lt _ _ hp.ec).1⟩)))).symm
  refine ⟨fun w hw => ?_, hxe, hxc⟩
  by_cases hwc : w = c
  · subst hwc
    exact absurd hw hxc
  · exact rm_inj hwc hx (hS _ ((h.e2 _ _ hx hwc).2 (.inl hw)))

/-- What acts afterwards acted before: the state itself, or the collapsed one. -/
theorem Merged.acts_of (hf : g.Free c) {x : Nat} (hx : x ≠ c) (hA : g'.Acts (rm e c x)) :
    ∃ x0, g.Acts x0 ∧ g'.nx (rm e c x) = rm e c (g.nx x0) ∧ g.nx x0 ≠ c ∧ (x = e → x0 = c) ∧ (x ≠ e → x0 = x) := by
  have hxn := h.n_rm hs hp hA.1 hx
  by_cases hxe : x = e
  · refine ⟨c, hp.acts hs, ?_, hp.nxc, fun _ => rfl, fun h => absurd hxe h⟩
    rw [h.nx x hx hxn, if_pos hxe]
  · have hA0 : g.Acts x := by
      refine ⟨hxn, ?_⟩
      rcases hA.2 with h1 | h1
      · left; rwa [h.z x hx hxn, if_neg hxe] at h1
      · exact .inr (h.sing_of hs hp hx h1).1
    refine ⟨x, hA0, ?_, hf _ hA0, fun h => absurd h hxe, fun _ => rfl⟩
    rw [h.nx x hx hxn, if_neg hxe]

theorem Merged.free (hf : g.Free c) {d : Nat} (hd : d ≠ c) (hfd : g.Free d) : g'.Free (rm e c d) := by
  intro q hA
  obtain ⟨x, hx, hxn, rfl⟩ := h.onto hA.1
  obtain ⟨x0, j1, j2, j3, _, _⟩ := h.acts_of hs hp hf hx hA
  rw [j2]
  exact fun he => hfd x0 j1 (rm_inj j3 hd he)

theorem Merged.into0 (hf : g.Free c) (h0 : ∀ x, g.Acts x → x + 1 < g.n → g.nx x ≠ 0) (q : Nat) (hA : g'.Acts q)
    (hq : q + 1 < g'.n) : g'.nx q ≠ 0 := by
  have hn := h.n
  have hl := hp.notLast hs
  obtain ⟨x, hx, hxn, rfl⟩ := h.onto hA.1
  obtain ⟨x0, k1, k2, k3, k4, k5⟩ := h.acts_of hs hp hf hx hA
  rw [k2, Ne, rm_zero hp.c0 k3]
  apply h0 x0 k1
  by_cases hxe : x = e
  · rw [k4 hxe]; exact hl
  · rw [k5 hxe]
    rcases Nat.lt_or_gt_of_ne hx with h1 | h1
    · omega
    · rw [rm_gt h1] at hq; omega

/-- A state of the new automaton without outgoing edges. -/
theorem Merged.single (hf : g.Free c) {q : Nat} (hq : q < g'.n) (hS : g'.Sing q) (h0 : ∀ x, g.Acts x → x + 1 < g.n → g.nx x ≠ 0)
    (hq0 : q ≠ 0) : ∃ x, q = rm e c x ∧ x ≠ c ∧ x < g.n ∧ x ≠ 0 ∧ g.Sing x ∧ x ≠ e ∧ ¬ g.E x c ∧ g.nx x ≠ c ∧ g.nx x ≠ 0 ∧
      g.nx x < g.n ∧ g'.nx q = rm e c (g.nx x) ∧ (g'.Z q ↔ g.Z x) ∧ g.Acts x := by
  obtain ⟨x, hx, hxn, rfl⟩ := h.onto hq
  obtain ⟨k1, k2, k3⟩ := h.sing_of hs hp hx hS
  have hA : g.Acts x := ⟨hxn, .inr k1⟩
  have hx0 : x ≠ 0 := fun h => hq0 ((rm_zero hp.c0 hx).2 h)
  refine ⟨x, rfl, hx, hxn, hx0, k1, k2, k3, hf _ hA, ?_, hs.nxlt _ hxn, ?_, ?_, hA⟩
  · intro hz
    by_cases hl : x + 1 < g.n
    · exact h0 x hA hl hz
    · have := hs.lastNx
      rw [show g.n - 1 = x by omega] at this
      omega
  · rw [h.nx _ hx hxn, if_neg k2]
  · rw [h.z _ hx hxn, if_neg k2]

end

/-! ### Within the loop -/

section
variable (h : Merged g g' e c) (hs : g.Looped) (hp : g.Pr e c)
include h hs hp

omit h in
/-- What reaches `c` reaches `e`, or starts like the loop. -/
theorem Looped.pair : ¬ g.Z c ∧ g.Free c ∧ ∀ d, d ≠ c → g.E d c → g.E d e ∨
    (g.E 0 e ∧ g.E e 0 ∧ g.E (g.nx c) 0 ∧ g.E 0 d ∧ g.Behind d (g.nx c) ∧ g.Free d) := by
  by_cases hl : g.E 0 e ∧ g.E e 0
  · have h1 : g.E (g.nx c) 0 := by
      rcases hp.sub 0 hl.2 with h1 | h1 | h1
      · exact absurd (h1 ▸ hp.z) hs.live0
      · exact absurd h1.symm hp.c0
      · exact h1
    obtain ⟨k1, k2, k3⟩ := hs.loop c hp.sing hp.c0 (hs.trans _ _ _ hl.1 hp.ec) (hs.trans _ _ _ hl.1 hp.en) h1
    refine ⟨k1, k2, fun d hd hE => ?_⟩
    rcases k3 d hE with k | k | ⟨k4, k5, k6⟩
    · exact absurd k hd
    · exact .inl (hs.trans _ _ _ k hl.1)
    · exact .inr ⟨hl.1, hl.2, h1, k4, k5, k6⟩
  · obtain ⟨k1, k2, k3⟩ := hs.old e c hp hl
    exact ⟨k1, k2, fun d hd hE => .inl ((k3 d hE).resolve_left hd)⟩

theorem Merged.looped : g'.Looped := by
  have hcl := h.clos hs.toClos hp
  have hn := h.n
  have hl := hp.notLast hs.toClos
  obtain ⟨hzc, hfc, hto⟩ := hs.pair hp
  have hc0 := hp.c0
  have z0 : rm e c 0 = 0 := rm_lt (by omega)
  have he0 : e ≠ 0 := fun h => hs.live0 (h ▸ hp.z)
  have h00 : g.E 0 0 := hs.refl _ hs.pos
  -- the states that gain edges
  have hX : ∀ x, x ≠ c → (∀ y, y ≠ c → (g'.E (rm e c x) (rm e c y) ↔ g.E x y)) ∧ (g.E x c → g.E x e) ∨
      (g.E 0 e ∧ g.E e 0 ∧ g.E (g.nx c) 0 ∧ g.E 0 x ∧ g.Behind x (g.nx c) ∧ g.Free x ∧ x ≠ 0 ∧
        ∀ y, y ≠ c → (g'.E (rm e c x) (rm e c y) ↔ g.E 0 y)) := by
    intro x hx
    by_cases hxc : g.E x c
    · by_cases hxe : g.E x e
      · left
        refine ⟨fun y hy => ?_, fun _ => hxe⟩
        rw [h.e2 _ _ hx hy]
        exact ⟨fun k => k.elim id fun k => hs.trans _ _ _ hxe k.2, .inl⟩
      · right
        obtain ⟨k1, k2, k3, k4, k5, k6⟩ := (hto x hx hxc).resolve_left hxe
        refine ⟨k1, k2, k3, k4, k5, k6, fun h => hxe (h ▸ k1), fun y hy => ?_⟩
        rw [h.e2 _ _ hx hy]
        constructor
        · rintro (k | ⟨_, k⟩)
          · exact hs.trans _ _ _ k4 k
          · exact hs.trans _ _ _ k1 k
        · exact fun k => .inr ⟨hxc, hs.trans _ _ _ k2 k⟩
    · left
      refine ⟨fun y hy => ?_, fun k => absurd k hxc⟩
      rw [h.e2 _ _ hx hy]
      exact ⟨fun k => k.elim id fun k => absurd k.1 hxc, .inl⟩
  have hX0 : ∀ y, y ≠ c → (g'.E 0 (rm e c y) ↔ g.E 0 y) := by
    rcases hX 0 (Ne.symm hc0) with ⟨k, _⟩ | ⟨_, _, _, _, _, _, k, _⟩
    · rwa [z0] at k
    · exact absurd rfl k
  refine ⟨hcl, ?_, h.into0 hs.toClos hp hfc hs.into0, ?_, ?_, ?_⟩
  · -- noPart
    intro q k P
    obtain ⟨x, hx, hxn, rfl⟩ := h.onto (show q < g'.n by have := P.lt; have := P.kn; omega)
    obtain ⟨k, hk, hkn, rfl⟩ := h.onto P.kn
    have hx0 : x ≠ 0 := fun h0 => by have := (rm_zero (e := e) hp.c0 hx).2 h0; have := P.pos; omega
    have hlt := (rm_lt_iff (e := e) hx hk).1 P.lt
    have hxe : x ≠ e := by
      intro hE
      have := P.z
      rw [h.z _ hx hxn, if_pos hE] at this
      exact hzc this
    have hzx : g.Z x := by
      have := P.z
      rwa [h.z _ hx hxn, if_neg hxe] at this
    have hne : ∀ {z}, z ≠ c → (rm e c z ≠ rm e c x ↔ z ≠ x) := by
      intro z hz
      exact not_congr ⟨fun h => rm_inj hz hx h, fun h => by rw [h]⟩
    have hiff : ∀ z, z ≠ c → (g'.E (rm e c k) (rm e c z) ↔ g'.E (rm e c x) (rm e c z) ∧ z ≠ x) := by
      intro z hz
      rw [← hne hz]
      exact P.iff _
    rcases hX x hx with ⟨ex, exc⟩ | ⟨_, _, _, k4, _, _, _, ex⟩
    · rcases hX k hk with ⟨ek, ekc⟩ | ⟨m1, m2, m3, m4, m5, m6, m7, ek⟩
      · refine hs.noPart x k ⟨by omega, hzx, hlt, hkn, fun z => ?_⟩
        by_cases hz : z = c
        · subst hz
          have key := hiff e hp.ne
          rw [ex _ hp.ne, ek _ hp.ne] at key
          constructor
          · intro hE
            exact ⟨hs.trans _ _ _ (key.1 (ekc hE)).1 hp.ec, Ne.symm hx⟩
          · rintro ⟨hE, _⟩
            exact hs.trans _ _ _ (key.2 ⟨exc hE, Ne.symm hxe⟩) hp.ec
        · have key := hiff z hz
          rwa [ex _ hz, ek _ hz] at key
      · have key : ∀ z, z ≠ c → (g.E 0 z ↔ g.E x z ∧ z ≠ x) := by
          intro z hz
          have key := hiff z hz
          rwa [ex _ hz, ek _ hz] at key
        have hN : g.E 0 (g.nx c) := hs.trans _ _ _ m1 hp.en
        have hxN := (key _ hp.nxc).1 hN
        have hlt' : x < g.nx c := (m5 x hlt hxN.1).resolve_right fun k =>
          ((key x hx).1 (hs.trans _ _ _ hN k)).2 rfl
        refine hs.noPart x (g.nx c) ⟨by omega, hzx, hlt', (hs.lt _ _ hN).2, fun z => ?_⟩
        have hNz : g.E (g.nx c) z ↔ g.E 0 z := ⟨hs.trans _ _ _ hN, hs.trans _ _ _ m3⟩
        rw [hNz]
        by_cases hz : z = c
        · subst hz
          have h0c : g.E 0 z := hs.trans _ _ _ m1 hp.ec
          have hx0 := (key 0 (Ne.symm hc0)).1 h00
          exact ⟨fun _ => ⟨hs.trans _ _ _ hx0.1 h0c, Ne.symm hx⟩, fun _ => h0c⟩
        · exact key z hz
    · have h1 : g'.E (rm e c k) (rm e c 0) :=
        (hiff 0 (Ne.symm hc0)).2 ⟨(ex _ (Ne.symm hc0)).2 h00, Ne.symm hx0⟩
      have h2 : g'.E (rm e c 0) (rm e c x) := by rw [z0]; exact (hX0 _ hx).2 k4
      exact ((hiff x hx).1 (hcl.trans _ _ _ h1 h2)).2 rfl
  · -- live0
    rw [← z0, h.z _ (Ne.symm hc0) hs.pos, if_neg (Ne.symm he0)]
    exact hs.live0
  · -- loop
    intro q hS hq0 hE hN hN0
    obtain ⟨c1, rfl, hc1, hc1n, hc10, hS1, hc1e, hc1c, hN1, hN10, hNn, hnx, hz1, hA1⟩ :=
      h.single hs.toClos hp hfc (hcl.lt _ _ hE).2 hS hs.into0 hq0
    rw [hnx] at hN hN0 ⊢
    rw [hX0 _ hc1] at hE
    rw [hX0 _ hN1] at hN
    have hN0' : g.E (g.nx c1) 0 := by
      rw [← z0] at hN0
      rcases hX (g.nx c1) hN1 with ⟨k, _⟩ | ⟨_, _, _, _, _, k, _, _⟩
      · exact (k _ (Ne.symm hc0)).1 hN0
      · exact absurd rfl (k c1 hA1)
    obtain ⟨j1, j2, j3⟩ := hs.loop c1 hS1 hc10 hE hN hN0'
    refine ⟨fun h => j1 (hz1.1 h), h.free hs.toClos hp hfc hc1 j2, ?_⟩
    intro q hd
    obtain ⟨d, hdc, hdn, rfl⟩ := h.onto (hcl.lt _ _ hd).1
    rcases hX d hdc with ⟨k, _⟩ | ⟨_, _, _, _, _, _, _, k⟩
    · rcases j3 d ((k _ hc1).1 hd) with g1 | g1 | ⟨g1, g2, g3⟩
      · left; rw [g1]
      · right; left; rw [← z0]; exact (k _ (Ne.symm hc0)).2 g1
      · right; right
        refine ⟨(hX0 _ hdc).2 g1, ?_, h.free hs.toClos hp hfc hdc g3⟩
        intro q hq hE'
        obtain ⟨x, hx, hxn, rfl⟩ := h.onto (hcl.lt _ _ hE').1
        rcases hX x hx with ⟨m, _⟩ | ⟨_, _, _, m, _⟩
        · rcases g2 x ((rm_lt_iff hx hdc).1 hq) ((m _ hN1).1 hE') with n | n
          · exact .inl ((rm_lt_iff hx hN1).2 n)
          · exact .inr ((h.e2 _ _ hN1 hx).2 (.inl n))
        · exact .inr ((h.e2 _ _ hN1 hx).2 (.inl (hs.trans _ _ _ hN0' m)))
    · right; left; rw [← z0]; exact (k _ (Ne.symm hc0)).2 h00
  · -- old
    intro q q' P hno
    obtain ⟨c1, rfl, hc1, hc1n, hc10, hS1, hc1e, hc1c, hN1, hN10, hNn, hnx, hz1, hA1⟩ :=
      h.single hs.toClos hp hfc (hcl.lt _ _ P.ec).2 P.sing hs.into0 P.c0
    obtain ⟨e1, he1, he1n, rfl⟩ := h.onto (hcl.lt _ _ P.ec).1
    have hee : e1 ≠ e := by
      intro hE
      have := P.z
      rw [h.z _ he1 he1n, if_pos hE] at this
      exact hzc this
    have ee : (∀ y, y ≠ c → (g'.E (rm e c e1) (rm e c y) ↔ g.E e1 y)) ∧ (g.E e1 c → g.E e1 e) := by
      rcases hX e1 he1 with k | ⟨_, _, _, k4, _, _, _, k⟩
      · exact k
      · refine absurd ⟨(hX0 _ he1).2 k4, ?_⟩ hno
        rw [← z0]; exact (k _ (Ne.symm hc0)).2 h00
    have eN : ∀ y, y ≠ c → (g'.E (rm e c (g.nx c1)) (rm e c y) ↔ g.E (g.nx c1) y) := by
      rcases hX (g.nx c1) hN1 with ⟨k, _⟩ | ⟨_, _, _, _, _, k, _, _⟩
      · exact k
      · exact absurd rfl (k c1 hA1)
    have P1 : g.Pr e1 c1 := by
      refine ⟨hc10, ?_, fun h => P.ne (by rw [h]), fun h => P.nxe (by rw [hnx, h]), fun h => P.nxc (by rw [hnx, h]), hS1,
        (ee.1 _ hc1).1 P.ec, ?_, ?_⟩
      · have := P.z
        rwa [h.z _ he1 he1n, if_neg hee] at this
      · have := P.en
        rwa [hnx, ee.1 _ hN1] at this
      · have key : ∀ y, y ≠ c → g.E e1 y → y = e1 ∨ y = c1 ∨ g.E (g.nx c1) y := by
          intro y hy hE
          have := P.sub _ ((ee.1 _ hy).2 hE)
          rw [hnx] at this
          rcases this with k | k | k
          · exact .inl (rm_inj hy he1 k)
          · exact .inr (.inl (rm_inj hy hc1 k))
          · exact .inr (.inr ((eN _ hy).1 k))
        intro y hE
        by_cases hy : y = c
        · subst hy
          rcases key e hp.ne (ee.2 hE) with k | k | k
          · exact absurd k.symm hee
          · exact absurd k.symm hc1e
          · exact .inr (.inr (hs.trans _ _ _ k hp.ec))
        · exact key y hy hE
    obtain ⟨j1, j2, j3⟩ := hs.old e1 c1 P1 fun k => hno ⟨(hX0 _ he1).2 k.1, by rw [← z0]; exact (ee.1 _ (Ne.symm hc0)).2 k.2⟩
    refine ⟨fun h => j1 (hz1.1 h), h.free hs.toClos hp hfc hc1 j2, ?_⟩
    intro q hd
    obtain ⟨d, hdc, hdn, rfl⟩ := h.onto (hcl.lt _ _ hd).1
    rcases hX d hdc with ⟨k, _⟩ | ⟨_, _, _, _, _, _, _, k⟩
    · rcases j3 d ((k _ hc1).1 hd) with g1 | g1
      · left; rw [g1]
      · right; exact (k _ he1).2 g1
    · rcases j3 0 ((k _ hc1).1 hd) with g1 | g1
      · exact absurd g1.symm hc10
      · right; exact (k _ he1).2 g1

end

/-! ### Entering the loop -/

section
variable (h : Merged g g' 0 c) (hs : g.Settled) (hp : g.Pr 0 c) (ht : g.Turn c)
include h hs hp ht

theorem Merged.turn : g'.Looped := by
  have hcl := h.clos hs.toClos hp
  have hn := h.n
  have hl := hp.notLast hs.toClos
  have hc0 := hp.c0
  have z0 : rm 0 c 0 = 0 := rm_lt (by omega)
  obtain ⟨anti, d0⟩ : (∀ x y, g.E x y → g.E y x → x = y) ∧ ∀ d, g.E d 0 → d = 0 := by
    rcases hs.zero with k | k
    · exact k
    · exact absurd hp (k c)
  obtain ⟨hzc, hfc, hto⟩ := ht.all c hp.sing hc0 hp.ec rfl
  have h00 : g.E 0 0 := hs.refl _ hs.pos
  have hw0 : g.nx c ≠ 0 := hp.nxe
  have hwc := hp.nxc
  have hback := ht.back
  have e0 : ∀ y, g.E 0 y → y = 0 ∨ g.E (g.nx c) y := by
    intro y hy
    rcases hp.sub y hy with k | k | k
    · exact .inl k
    · rw [k]; exact .inr hback
    · exact .inr k
  -- what becomes of the edges
  have hX0 : ∀ y, y ≠ c → (g'.E 0 (rm 0 c y) ↔ g.E 0 y) := by
    intro y hy
    have := h.e2 0 y (Ne.symm hc0) hy
    rw [z0] at this
    rw [this]
    exact ⟨fun k => k.elim id (·.2), .inl⟩
  have hX : ∀ x, x ≠ c → x ≠ 0 →
      (¬ g.E x c ∧ ∀ y, y ≠ c → (g'.E (rm 0 c x) (rm 0 c y) ↔ g.E x y)) ∨
      (g.E x c ∧ g.E x (g.nx c) ∧ ∀ y, y ≠ c → (g'.E (rm 0 c x) (rm 0 c y) ↔ g.E x y ∨ y = 0)) ∨
      (g.E x c ∧ g.E 0 x ∧ g.Behind x (g.nx c) ∧ g.Free x ∧ ∀ y, y ≠ c → (g'.E (rm 0 c x) (rm 0 c y) ↔ g.E 0 y)) := by
    intro x hx hx0
    by_cases hxc : g.E x c
    · right
      by_cases hxw : g.E x (g.nx c)
      · left
        refine ⟨hxc, hxw, fun y hy => ?_⟩
        rw [h.e2 _ _ hx hy]
        constructor
        · rintro (k | ⟨_, k⟩)
          · exact .inl k
          · rcases e0 y k with k | k
            · exact .inr k
            · exact .inl (hs.trans _ _ _ hxw k)
        · rintro (k | k)
          · exact .inl k
          · rw [k]; exact .inr ⟨hxc, h00⟩
      · right
        rcases hto x hxc with k | k | k | ⟨k1, k2, k3⟩
        · exact absurd k hx
        · exact absurd k hx0
        · exact absurd k hxw
        · refine ⟨hxc, k1, k2, k3, fun y hy => ?_⟩
          rw [h.e2 _ _ hx hy]
          exact ⟨fun k => k.elim (hs.trans _ _ _ k1) (·.2), fun k => .inr ⟨hxc, k⟩⟩
    · left
      refine ⟨hxc, fun y hy => ?_⟩
      rw [h.e2 _ _ hx hy]
      exact ⟨fun k => k.elim id fun k => absurd k.1 hxc, .inl⟩
  have gain : ∀ x y, x ≠ c → y ≠ c → g.E x c → g.E 0 y → g'.E (rm 0 c x) (rm 0 c y) := fun x y hx hy k k' =>
    (h.e2 _ _ hx hy).2 (.inr ⟨k, k'⟩)
  have keep : ∀ x y, x ≠ c → y ≠ c → g.E x y → g'.E (rm 0 c x) (rm 0 c y) := fun x y hx hy k =>
    (h.e2 _ _ hx hy).2 (.inl k)
  -- edges to the start
  have to0 : ∀ x, x ≠ c → x ≠ 0 → g'.E (rm 0 c x) 0 → g.E x c := by
    intro x hx hx0 hE
    have hE' : g'.E (rm 0 c x) (rm 0 c 0) := by rw [z0]; exact hE
    rw [h.e2 _ _ hx (Ne.symm hc0)] at hE'
    rcases hE' with k | k
    · exact absurd (d0 _ k) hx0
    · exact k.1
  refine ⟨hcl, ?_, h.into0 hs.toClos hp hfc hs.into0, ?_, ?_, ?_⟩
  · -- noPart
    intro q k P
    obtain ⟨x, hx, hxn, rfl⟩ := h.onto (show q < g'.n by have := P.lt; have := P.kn; omega)
    obtain ⟨k, hk, hkn, rfl⟩ := h.onto P.kn
    have hx0 : x ≠ 0 := fun h0 => by have := (rm_zero (e := 0) hp.c0 hx).2 h0; have := P.pos; omega
    have hk0 : k ≠ 0 := fun h0 => by have := (rm_zero (e := 0) hp.c0 hk).2 h0; have := P.lt; omega
    have hlt := (rm_lt_iff (e := 0) hx hk).1 P.lt
    have hzx : g.Z x := by
      have := P.z
      rwa [h.z _ hx hxn, if_neg hx0] at this
    have hne : ∀ {z}, z ≠ c → (rm 0 c z ≠ rm 0 c x ↔ z ≠ x) := by
      intro z hz
      exact not_congr ⟨fun h => rm_inj hz hx h, fun h => by rw [h]⟩
    have hiff : ∀ z, z ≠ c → (g'.E (rm 0 c k) (rm 0 c z) ↔ g'.E (rm 0 c x) (rm 0 c z) ∧ z ≠ x) := by
      intro z hz
      rw [← hne hz]
      exact P.iff _
    have hxc' := Ne.symm hx
    have h0c := Ne.symm hc0
    rcases hX x hx hx0 with ⟨x1, ex⟩ | ⟨x1, x2, ex⟩ | ⟨x1, x2, _, _, ex⟩
    · have k1 : ¬ g.E k c := by
        intro hE
        have := ((hiff 0 h0c).1 (gain _ _ hk h0c hE h00)).1
        rw [ex _ h0c] at this
        exact hx0 (d0 _ this)
      have ek : ∀ y, y ≠ c → (g'.E (rm 0 c k) (rm 0 c y) ↔ g.E k y) := by
        intro y hy
        rw [h.e2 _ _ hk hy]
        exact ⟨fun m => m.elim id fun m => absurd m.1 k1, .inl⟩
      refine hs.noPart x k ⟨by omega, hzx, hlt, hkn, fun z => ?_⟩
      by_cases hz : z = c
      · rw [hz]
        exact ⟨fun m => absurd m k1, fun m => absurd m.1 x1⟩
      · have key := hiff z hz
        rwa [ex _ hz, ek _ hz] at key
    · have k0 : g'.E (rm 0 c k) (rm 0 c 0) := (hiff 0 h0c).2 ⟨(ex _ h0c).2 (.inr rfl), Ne.symm hx0⟩
      have k1 : g.E k c := to0 k hk hk0 (by rwa [z0] at k0)
      rcases hX k hk hk0 with ⟨m, _⟩ | ⟨m1, m2, ek⟩ | ⟨m1, m2, m3, m4, ek⟩
      · exact absurd k1 m
      · refine hs.noPart x k ⟨by omega, hzx, hlt, hkn, fun z => ?_⟩
        by_cases hz : z = c
        · rw [hz]; exact ⟨fun _ => ⟨x1, hxc'⟩, fun _ => m1⟩
        · by_cases hz0 : z = 0
          · rw [hz0]; exact ⟨fun m => absurd (d0 _ m) hk0, fun m => absurd (d0 _ m.1) hx0⟩
          · have key := hiff z hz
            rw [ex _ hz, ek _ hz] at key
            simpa [hz0] using key
      · have hlt' : x < g.nx c := by
          refine (m3 x hlt x2).resolve_right fun n => ?_
          have := anti _ _ x2 n
          have hk := (hiff x hx).1 ((ek x hx).2 (this ▸ hp.en))
          exact hk.2 rfl
        refine hs.noPart x (g.nx c) ⟨by omega, hzx, hlt', (hs.lt _ _ hp.en).2, fun z => ?_⟩
        by_cases hz : z = c
        · rw [hz]; exact ⟨fun _ => ⟨x1, hxc'⟩, fun _ => hback⟩
        · by_cases hz0 : z = 0
          · rw [hz0]; exact ⟨fun m => absurd (d0 _ m) hw0, fun m => absurd (d0 _ m.1) hx0⟩
          · have key := hiff z hz
            rw [ex _ hz, ek _ hz] at key
            have hw : g.E (g.nx c) z ↔ g.E 0 z :=
              ⟨hs.trans _ _ _ hp.en, fun m => (e0 z m).resolve_left hz0⟩
            rw [hw]
            simpa [hz0] using key
    · have h1 : g'.E (rm 0 c k) (rm 0 c 0) := (hiff 0 h0c).2 ⟨(ex _ h0c).2 h00, Ne.symm hx0⟩
      have h2 : g'.E (rm 0 c 0) (rm 0 c x) := by rw [z0]; exact (hX0 _ hx).2 x2
      exact ((hiff x hx).1 (hcl.trans _ _ _ h1 h2)).2 rfl
  · -- live0
    rw [← z0, h.z _ (Ne.symm hc0) hs.pos, if_pos rfl]
    exact hzc
  · -- loop
    intro q hS hq0 hE hN hN0
    obtain ⟨c1, rfl, hc1, hc1n, hc10, hS1, hc1e, hc1c, hN1, hN10, hNn, hnx, hz1, hA1⟩ :=
      h.single hs.toClos hp hfc (hcl.lt _ _ hE).2 hS hs.into0 hq0
    rw [hnx] at hN hN0 ⊢
    rw [hX0 _ hc1] at hE
    rw [hX0 _ hN1] at hN
    have hNw : g.nx c1 = g.nx c := by
      have k := to0 _ hN1 hN10 hN0
      rcases hX _ hN1 hN10 with ⟨m, _⟩ | ⟨_, m, _⟩ | ⟨_, _, _, m, _⟩
      · exact absurd k m
      · exact anti _ _ m ((e0 _ hN).resolve_left hN10)
      · exact absurd rfl (m c1 hA1)
    obtain ⟨j1, j2, j3⟩ := ht.all c1 hS1 hc10 hE hNw
    refine ⟨fun h => j1 (hz1.1 h), h.free hs.toClos hp hfc hc1 j2, ?_⟩
    intro q hd
    obtain ⟨d, hdc, hdn, rfl⟩ := h.onto (hcl.lt _ _ hd).1
    by_cases hdcE : g.E d c
    · right; left
      have := gain _ _ hdc (Ne.symm hc0) hdcE h00
      rwa [z0] at this
    · have : g.E d c1 := by
        rw [h.e2 _ _ hdc hc1] at hd
        exact hd.elim id fun k => absurd k.1 hdcE
      rcases j3 d this with g1 | g1 | g1 | ⟨g1, g2, g3⟩
      · left; rw [g1]
      · exact absurd (g1 ▸ hp.ec) hdcE
      · exact absurd (hs.trans _ _ _ g1 hback) hdcE
      · right; right
        refine ⟨(hX0 _ hdc).2 g1, ?_, h.free hs.toClos hp hfc hdc g3⟩
        intro q hq hE'
        obtain ⟨x, hx, hxn, rfl⟩ := h.onto (hcl.lt _ _ hE').1
        rw [hNw] at hE' ⊢
        rcases (h.e2 _ _ hx hp.nxc).1 hE' with m | ⟨m, _⟩
        · rcases g2 x ((rm_lt_iff hx hdc).1 hq) m with n | n
          · exact .inl ((rm_lt_iff hx hp.nxc).2 n)
          · exact .inr ((h.e2 _ _ hp.nxc hx).2 (.inl n))
        · by_cases hx0 : x = 0
          · left
            rw [hx0]
            exact (rm_lt_iff (Ne.symm hc0) hp.nxc).2 (by omega)
          · rcases hX x hx hx0 with ⟨n, _⟩ | ⟨_, n, _⟩ | ⟨_, n, _⟩
            · exact absurd m n
            · rcases g2 x ((rm_lt_iff hx hdc).1 hq) n with n | n
              · exact .inl ((rm_lt_iff hx hp.nxc).2 n)
              · exact .inr ((h.e2 _ _ hp.nxc hx).2 (.inl n))
            · exact .inr ((h.e2 _ _ hp.nxc hx).2 (.inl ((e0 x n).resolve_left hx0)))
  · -- old
    intro q q' P hno
    obtain ⟨c1, rfl, hc1, hc1n, hc10, hS1, hc1e, hc1c, hN1, hN10, hNn, hnx, hz1, hA1⟩ :=
      h.single hs.toClos hp hfc (hcl.lt _ _ P.ec).2 P.sing hs.into0 P.c0
    obtain ⟨e1, he1, he1n, rfl⟩ := h.onto (hcl.lt _ _ P.ec).1
    have h0c := Ne.symm hc0
    have he10 : e1 ≠ 0 := by
      intro k
      rw [k, z0] at hno
      have := hcl.refl 0 hcl.pos
      exact hno ⟨this, this⟩
    -- `e1` gains at most the edge to the start
    have ee : ∀ y, y ≠ c → y ≠ 0 → (g'.E (rm 0 c e1) (rm 0 c y) ↔ g.E e1 y) := by
      intro y hy hy0
      rcases hX e1 he1 he10 with ⟨_, k⟩ | ⟨_, _, k⟩ | ⟨_, k2, _, _, k⟩
      · exact k y hy
      · rw [k y hy]; exact ⟨fun m => m.resolve_right hy0, .inl⟩
      · refine absurd ⟨(hX0 _ he1).2 k2, ?_⟩ hno
        have := (k 0 h0c).2 h00
        rwa [z0] at this
    have eN : ∀ y, y ≠ c → y ≠ 0 → (g'.E (rm 0 c (g.nx c1)) (rm 0 c y) ↔ g.E (g.nx c1) y) := by
      intro y hy hy0
      rcases hX _ hN1 hN10 with ⟨_, k⟩ | ⟨_, _, k⟩ | ⟨_, _, _, k, _⟩
      · exact k y hy
      · rw [k y hy]; exact ⟨fun m => m.resolve_right hy0, .inl⟩
      · exact absurd rfl (k c1 hA1)
    have P1 : g.Pr e1 c1 := by
      refine ⟨hc10, ?_, fun h => P.ne (by rw [h]), fun h => P.nxe (by rw [hnx, h]), fun h => P.nxc (by rw [hnx, h]), hS1,
        (ee _ hc1 hc10).1 P.ec, ?_, ?_⟩
      · have := P.z
        rwa [h.z _ he1 he1n, if_neg he10] at this
      · have := P.en
        rwa [hnx, ee _ hN1 hN10] at this
      · intro y hE
        by_cases hy : y = c
        · subst hy
          have := P.sub _ (gain _ _ he1 h0c hE h00)
          rw [hnx] at this
          rcases this with k | k | k
          · exact absurd (rm_inj h0c he1 k).symm he10
          · exact absurd (rm_inj h0c hc1 k).symm hc10
          · rw [z0] at k
            exact .inr (.inr (to0 _ hN1 hN10 k))
        · have hy0 : y ≠ 0 := fun k => he10 (d0 _ (k ▸ hE))
          have := P.sub _ ((ee _ hy hy0).2 hE)
          rw [hnx] at this
          rcases this with k | k | k
          · exact .inl (rm_inj hy he1 k)
          · exact .inr (.inl (rm_inj hy hc1 k))
          · exact .inr (.inr ((eN _ hy hy0).1 k))
    refine ⟨fun h => hs.live _ _ P1 he10 (hz1.1 h), h.free hs.toClos hp hfc hc1 (hs.enter _ _ P1), ?_⟩
    intro q hd
    obtain ⟨d, hdc, hdn, rfl⟩ := h.onto (hcl.lt _ _ hd).1
    rcases (h.e2 _ _ hdc hc1).1 hd with k | ⟨k1, k2⟩
    · rcases hs.back _ _ P1 he10 d k with g1 | g1
      · left; rw [g1]
      · right; exact keep _ _ hdc he1 g1
    · rcases hs.back _ _ P1 he10 0 k2 with g1 | g1
      · exact absurd g1.symm hc10
      · right; exact gain _ _ hdc he1 k1 g1

end

/-! ### Collapsing before closing -/

theorem Pr.rt_sing (hp : g.Pr e c) {w : Nat} (hr : g.Rt c w) : w = c := by
  induction hr with
  | refl => rfl
  | tail _ k ih => rw [ih] at k; exact hp.sing _ k

theorem Pr.cl (hp : g.Pr e c) (hlt : ∀ x y, g.E x y → x < g.n ∧ y < g.n) : g.cl.Pr e c := by
  have he := (hlt _ _ hp.ec).1
  have hN := (hlt _ _ hp.en).2
  refine ⟨hp.c0, hp.z, hp.ne, hp.nxe, hp.nxc, fun w k => hp.rt_sing k.2, ⟨he, .single hp.ec⟩, ⟨he, .single hp.en⟩, ?_⟩
  rintro y ⟨_, k⟩
  have key : ∀ x, g.Rt x y → x = e → y = e ∨ y = c ∨ g.Rt (g.nx c) y := by
    intro x k
    induction k using Relation.ReflTransGen.head_induction_on with
    | refl => exact .inl
    | head k1 k2 ih =>
      rintro rfl
      rcases hp.sub _ k1 with k | k | k
      · exact ih k
      · rw [k] at k2; exact .inr (.inl (hp.rt_sing k2))
      · exact .inr (.inr (.head k k2))
  rcases key e k rfl with k | k | k
  · exact .inl k
  · exact .inr (.inl k)
  · exact .inr (.inr ⟨hN, k⟩)

theorem Coll.merged (h : Coll g g' e c) (hp : g.Pr e c) (hlt : ∀ x y, g.E x y → x < g.n ∧ y < g.n) (hs : g.cl.Clos) :
    Merged g.cl g'.cl e c := by
  have hp' := hp.cl hlt
  have hl : c + 1 < g.n := hp'.notLast hs
  have hn := h.n
  have hen : e < g.n := (hlt _ _ hp.ec).1
  have hne := hp.ne
  have rml : ∀ x, x < g.n → rm e c x < g'.n := by
    intro x hx
    unfold rm
    split
    · omega
    · split
      · split <;> omega
      · omega
  have lmr : ∀ x, x ≠ c → rm e c x < g'.n → x < g.n := by
    intro x hx k
    unfold rm at k
    split at k
    · omega
    · try rw [if_neg hx] at k
      omega
  have hom : ∀ x y, g.Rt x y → g'.Rt (rm e c x) (rm e c y) := by
    intro x y k
    induction k with
    | refl => exact .refl
    | tail _ k ih =>
      rename_i a b _
      by_cases ha : a = c
      · subst ha; rw [hp.sing _ k]; exact ih
      · exact ih.tail ((h.ed _ _).2 ⟨a, b, ha, rfl, k, rfl⟩)
  refine ⟨h.n, ?_, ?_, h.z, h.nx⟩
  · rintro q q' ⟨k1, k2⟩
    refine ⟨k1, ?_⟩
    show q' < g'.n
    induction k2 with
    | refl => exact k1
    | tail _ k _ =>
      obtain ⟨x, y, _, _, k', rfl⟩ := (h.ed _ _).1 k
      exact rml _ (hlt _ _ k').2
  · intro x y hx hy
    constructor
    · rintro ⟨k1, k2⟩
      have hxn := lmr _ hx k1
      have key : ∀ q, g'.Rt q (rm e c y) → ∀ x, x ≠ c → q = rm e c x → g.Rt x y ∨ (g.Rt x c ∧ g.Rt e y) := by
        intro q k
        induction k using Relation.ReflTransGen.head_induction_on with
        | refl =>
          intro x hx hq
          rw [rm_inj hy hx hq]; exact .inl .refl
        | head k1 _ ih =>
          intro x hx hq
          obtain ⟨x', y', m1, m2, m3, m4⟩ := (h.ed _ _).1 k1
          obtain rfl := rm_inj hx m1 (hq.symm.trans m2)
          by_cases hy' : y' = c
          · subst hy'
            rw [rm_c hp.ne] at m4
            refine .inr ⟨.single m3, ?_⟩
            rcases ih e hp.ne m4 with k | k
            · exact k
            · exact k.2
          · rcases ih y' hy' m4 with k | k
            · exact .inl (.head m3 k)
            · exact .inr ⟨.head m3 k.1, k.2⟩
      rcases key _ k2 x hx rfl with k | k
      · exact .inl ⟨hxn, k⟩
      · exact .inr ⟨⟨hxn, k.1⟩, ⟨hen, k.2⟩⟩
    · rintro (⟨k1, k2⟩ | ⟨⟨k1, k2⟩, ⟨_, k3⟩⟩)
      · exact ⟨rml _ k1, hom _ _ k2⟩
      · refine ⟨rml _ k1, (hom _ _ k2).trans ?_⟩
        rw [rm_c hp.ne]
        exact hom _ _ k3

/-- A closed automaton is its own closure. -/
theorem Clos.cl_eq (hs : g.Clos) : g.cl = g := by
  have : g.cl.E = g.E := by
    funext x y
    refine propext ⟨?_, fun k => ⟨(hs.lt _ _ k).1, .single k⟩⟩
    rintro ⟨k1, k2⟩
    induction k2 with
    | refl => exact hs.refl _ k1
    | tail _ k ih => exact hs.trans _ _ _ ih k
  unfold G.cl at this ⊢
  cases g
  simp only [G.mk.injEq, true_and, and_true]
  exact this

/-- What the collapses keep: a settled automaton, or one whose closure is looped. -/
def Fit (g : G) : Prop := g.Settled ∨ g.cl.Looped

theorem Fit.clos (h : g.Fit) : g.cl.Clos := by
  rcases h with h | h
  · rw [h.toClos.cl_eq]; exact h.toClos
  · exact h.toClos

theorem Coll.fit (h : Coll g g' e c) (hp : g.Pr e c) (hlt : ∀ x y, g.E x y → x < g.n ∧ y < g.n) (hf : g.Fit) :
    g'.Fit := by
  have hm := h.merged hp hlt hf.clos
  rcases hf with hs | hs
  · by_cases h0 : e = 0
    · subst h0
      rcases hs.ready _ hp with k | k
      · exact .inl (h.settled hs hp fun _ => k)
      · rw [hs.toClos.cl_eq] at hm
        exact .inr (hm.turn hs hp k)
    · exact .inl (h.settled hs hp fun k => absurd k h0)
  · exact .inr (hm.looped hs (hp.cl hlt))

/-- What a collapse needs to be right: no symbol leads to the collapsed state, and from the start and from where symbols
lead, whoever reaches the collapsed state reaches what comes after it. -/
theorem Fit.collapse (hf : g.Fit) (hp : g.Pr e c) (hlt : ∀ x y, g.E x y → x < g.n ∧ y < g.n) :
    (∀ x, g.cl.Acts x → g.nx x ≠ c) ∧
    ∀ d, d < g.n → d ≠ c → (d = 0 ∨ ∃ x, g.cl.Acts x ∧ g.nx x = d) → g.Rt d c → g.Rt d (g.nx c) := by
  rcases hf with hs | hs
  · have hcl := hs.toClos.cl_eq
    have hE : ∀ {x y}, x < g.n → g.Rt x y → g.E x y := by
      intro x y hx k
      have : g.cl.E x y := ⟨hx, k⟩
      rwa [hcl] at this
    rw [hcl]
    refine ⟨hs.enter _ _ hp, ?_⟩
    intro d hdn hd hin hr
    have hr := hE hdn hr
    by_cases h0 : e = 0
    · subst h0
      rcases hs.ready _ hp with k | k
      · exact .single (k.skip _ hd hr)
      · rcases (k.all c hp.sing hp.c0 hp.ec rfl).2.2 d hr with m | m | m | ⟨_, _, m⟩
        · exact absurd m hd
        · rw [m]; exact .single hp.en
        · exact .single m
        · rcases hin with k | ⟨x, k1, k2⟩
          · rw [k]; exact .single hp.en
          · exact absurd k2 (m x k1)
    · exact .single (hs.trans _ _ _ ((hs.back _ _ hp h0 d hr).resolve_left hd) hp.en)
  · have hp' := hp.cl hlt
    obtain ⟨k1, k2, k3⟩ := hs.pair hp'
    refine ⟨k2, ?_⟩
    intro d hdn hd hin hr
    rcases k3 d hd ⟨hdn, hr⟩ with m | ⟨m1, _, _, _, _, m⟩
    · exact m.2.tail hp.en
    · rcases hin with k | ⟨x, k1, k2⟩
      · rw [k]; exact m1.2.tail hp.en
      · exact absurd k2 (m x k1)

end G
end Noodle
