import Verif.Proofs.Graph
/-
Merging every state with its partner (what `prune_epsilon_pairs` does to a prunable automaton).
-/
namespace Noodle
set_option autoImplicit false
namespace G

/-- `g'` is `g` with each chain of partners merged: `φ` maps old to new numbers, `f` gives the old state that a
new state is a copy of. -/
structure Quot (g g' : G) (φ f : Nat → Nat) : Prop where
  phi_lt : ∀ x, x < g.n → φ x < g'.n
  mono : ∀ r r', ¬ g.Del r → ¬ g.Del r' → r < r' → r' < g.n → φ r < φ r'
  part : ∀ x y, g.Part x y → φ x = φ y
  step : ∀ r m, ¬ g.Del r → ¬ g.Del m → r < m → m < g.n → (∀ z, r < z → z < m → g.Del z) → φ m = φ r + 1
  top : ∀ r, ¬ g.Del r → r < g.n → (∀ z, r < z → z < g.n → g.Del z) → φ r + 1 = g'.n
  zero : φ 0 = 0
  f_lt : ∀ q, q < g'.n → f q < g.n
  phi_f : ∀ q, q < g'.n → φ (f q) = q
  f_end : ∀ q k, q < g'.n → ¬ g.Part (f q) k
  e : ∀ q q', g'.E q q' ↔ ∃ y, q < g'.n ∧ g.E (f q) y ∧ φ y = q'
  z : ∀ q, q < g'.n → (g'.Z q ↔ g.Z (f q))
  nx : ∀ q, q < g'.n → g'.nx q = φ (g.nx (f q))

variable {g g' : G} {φ f : Nat → Nat}

theorem Quot.chain (h : Quot g g' φ f) {x y : Nat} (hc : g.Chain x y) : φ x = φ y := by
  induction hc with
  | refl => rfl
  | tail _ e ih => exact ih.trans (h.part _ _ e)

theorem not_del_zero : ¬ g.Del 0 := fun ⟨_, h⟩ => by have := h.lt; omega

theorem not_del_one : ¬ g.Del 1 := fun ⟨_, h⟩ => by have := h.lt; have := h.pos; omega

section
variable (h : Quot g g' φ f) (hf : g.Prunable)
include h hf

omit hf in
/-- Equal numbers come from the same root. -/
theorem Quot.same_root {x y r r' : Nat} (hx : x < g.n) (hy : y < g.n) (hr : ¬ g.Del r) (hr' : ¬ g.Del r')
    (c : g.Chain r x) (c' : g.Chain r' y) (he : φ x = φ y) : r = r' := by
  have h1 := h.chain c
  have h2 := h.chain c'
  have := c.le
  have := c'.le
  rcases Nat.lt_trichotomy r r' with hl | hl | hl
  · have := h.mono r r' hr hr' hl (by omega); omega
  · exact hl
  · have := h.mono r' r hr' hr hl (by omega); omega

theorem Quot.to_end {x : Nat} (hx : x < g.n) : g.Chain x (f (φ x)) := by
  obtain ⟨y, hc, he⟩ := exists_end (g := g) x
  have hy : y < g.n := (hf.lt _ _ (hc.edge hf.toClos hx)).2
  obtain ⟨r, hr, hrx⟩ := exists_root (g := g) x
  obtain ⟨r', hr', hc'⟩ := exists_root (g := g) (f (φ x))
  have hq := h.phi_lt x hx
  have : r = r' := h.same_root hx (h.f_lt _ hq) hr hr' hrx hc' (h.phi_f _ hq).symm
  subst this
  have := end_unique hf (hrx.trans hc) he hc' (fun k => h.f_end _ k hq)
  rw [← this]; exact hc

theorem Quot.f_phi {x : Nat} (hx : x < g.n) (he : ∀ k, ¬ g.Part x k) : f (φ x) = x :=
  (end_unique hf .refl he (h.to_end hf hx) (fun k => h.f_end _ k (h.phi_lt x hx))).symm

theorem Quot.f_phi_sing {x : Nat} (hx : x < g.n) (hs : g.Sing x) : f (φ x) = x :=
  h.f_phi hf hx (fun _ hk => hk.notSing hf.toClos hs)

theorem Quot.f_zero : f 0 = 0 := by
  have := h.f_phi hf hf.pos (fun k hk => absurd hk.pos (Nat.lt_irrefl 0))
  rwa [h.zero] at this

theorem Quot.ff {x : Nat} (hx : x < g.n) : g.E x (f (φ x)) := (h.to_end hf hx).edge hf.toClos hx

theorem Quot.e' {q q' : Nat} (hq : q < g'.n) (hq' : q' < g'.n) : g'.E q q' ↔ g.E (f q) (f q') := by
  rw [h.e]
  constructor
  · rintro ⟨y, _, e, rfl⟩
    exact hf.trans _ _ _ e (h.ff hf (hf.lt _ _ e).2)
  · intro e
    exact ⟨f q', hq, e, h.phi_f _ hq'⟩

theorem Quot.lt' {q q' : Nat} (e : g'.E q q') : q < g'.n ∧ q' < g'.n := by
  obtain ⟨y, h1, h2, rfl⟩ := (h.e _ _).1 e
  exact ⟨h1, h.phi_lt y (hf.lt _ _ h2).2⟩

theorem Quot.of_e' {q q' : Nat} (e : g'.E q q') : g.E (f q) (f q') :=
  (h.e' hf (h.lt' hf e).1 (h.lt' hf e).2).1 e

theorem Quot.image {x y : Nat} (e : g.E x y) : g'.E (φ x) (φ y) := by
  obtain ⟨hx, hy⟩ := hf.lt _ _ e
  have hq := h.phi_lt x hx
  by_cases hne : φ x = φ y
  · rw [← hne, h.e' hf hq hq]
    exact hf.refl _ (h.f_lt _ hq)
  · rw [h.e]
    refine ⟨y, hq, ?_, rfl⟩
    have key : ∀ z, g.Chain x z → g.E z y := by
      intro z hc
      induction hc with
      | refl => exact e
      | tail c p ih =>
        refine (p.iff _).2 ⟨ih, ?_⟩
        rintro rfl
        exact hne (h.chain c)
    exact key _ (h.to_end hf hx)

theorem Quot.sing' {x : Nat} (hx : x < g.n) (hs : g.Sing x) : g'.Sing (φ x) := by
  intro w e
  have := h.of_e' hf e
  rw [h.f_phi_sing hf hx hs] at this
  rw [← hs _ this, h.phi_f _ (h.lt' hf e).2]

theorem Quot.sing_of {q : Nat} (hq : q < g'.n) (hs : g'.Sing q) {w : Nat} (e : g.E (f q) w) : φ w = q := by
  have := h.image hf e
  rw [h.phi_f _ hq] at this
  exact hs _ this

theorem Quot.last : φ (g.n - 1) + 1 = g'.n := by
  have hpos := hf.pos
  by_cases hd : g.Del (g.n - 1)
  · obtain ⟨x, p⟩ := hd
    have hx := hf.lastPart x p
    obtain ⟨r, hr, hc⟩ := exists_root (g := g) x
    have hle := hc.le
    rw [← h.part _ _ p, ← h.chain hc]
    refine h.top r hr (by omega) (fun z h1 h2 => ?_)
    by_cases hz : z = g.n - 1
    · rw [hz]; exact ⟨x, p⟩
    · exact Chain.consec hf hc p z h1 (by omega)
  · exact h.top _ hd (by omega) (fun z h1 h2 => by omega)

theorem Quot.f_last : f (φ (g.n - 1)) = g.n - 1 := by
  have hpos := hf.pos
  exact h.f_phi_sing hf (by omega) hf.lastSing

theorem Quot.clos : g'.Clos where
  lt := fun x y e => h.lt' hf e
  refl := fun x hx => (h.e' hf hx hx).2 (hf.refl _ (h.f_lt _ hx))
  trans := fun x y z e1 e2 => by
    have h1 := h.lt' hf e1
    have h2 := h.lt' hf e2
    rw [h.e' hf h1.1 h2.2]
    exact hf.trans _ _ _ (h.of_e' hf e1) (h.of_e' hf e2)
  nxlt := fun x hx => by
    rw [h.nx x hx]
    exact h.phi_lt _ (hf.nxlt _ (h.f_lt _ hx))
  pos := by have := h.phi_lt _ hf.pos; omega
  lastZ := by
    have h1 := h.last hf
    have : g'.n - 1 = φ (g.n - 1) := by omega
    rw [this, h.z _ (by omega), h.f_last hf]
    exact hf.lastZ
  lastSing := by
    have h1 := h.last hf
    have : g'.n - 1 = φ (g.n - 1) := by omega
    have hpos := hf.pos
    rw [this]
    exact h.sing' hf (by omega) hf.lastSing
  lastNx := by
    have h1 := h.last hf
    have : g'.n - 1 = φ (g.n - 1) := by omega
    rw [this, h.nx _ (by omega), h.f_last hf, hf.lastNx]

end
end G
end Noodle
