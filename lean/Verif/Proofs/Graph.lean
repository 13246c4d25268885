import Mathlib.Logic.Relation
import Mathlib.Tactic.ByContra
/-
Automata reduced to the bare relations that the optimisation passes look at: number of states, epsilon edges,
states without symbols, targets. `Prunable` is what `prune_epsilon_pairs` needs to number the states correctly.
-/
namespace Noodle
set_option autoImplicit false

/-- An automaton reduced to what the passes look at: `E` epsilon edges, `Z` states that read no symbol,
`nx` targets of the symbol edges. -/
structure G where
  n : Nat
  E : Nat → Nat → Prop
  Z : Nat → Prop
  nx : Nat → Nat

namespace G

/-- Reachability by epsilon edges. -/
abbrev Rt (h : G) : Nat → Nat → Prop := Relation.ReflTransGen h.E

/-- The closure of an automaton. -/
def cl (h : G) : G where
  n := h.n
  E := fun x y => x < h.n ∧ h.Rt x y
  Z := h.Z
  nx := h.nx

/-- Only a self edge. -/
def Sing (g : G) (y : Nat) : Prop := ∀ w, g.E y w → w = y

/-- States whose target the passes look at. -/
def Acts (g : G) (x : Nat) : Prop := x < g.n ∧ (¬ g.Z x ∨ g.Sing x)

/-- `k` is the partner of `x`: its edges are those of `x` but the self edge. -/
structure Part (g : G) (x k : Nat) : Prop where
  pos : 0 < x
  z : g.Z x
  lt : x < k
  kn : k < g.n
  iff : ∀ z, g.E k z ↔ g.E x z ∧ z ≠ x

/-- No state has a partner. -/
def NoPart (g : G) : Prop := ∀ x k, ¬ g.Part x k

/-- Being a partner. -/
def Del (g : G) (d : Nat) : Prop := ∃ x, g.Part x d

/-- The edges are closed and in range; the last state is the only final one. -/
structure Clos (g : G) : Prop where
  lt : ∀ x y, g.E x y → x < g.n ∧ y < g.n
  refl : ∀ x, x < g.n → g.E x x
  trans : ∀ x y z, g.E x y → g.E y z → g.E x z
  nxlt : ∀ x, x < g.n → g.nx x < g.n
  pos : 0 < g.n
  lastZ : ¬ g.Z (g.n - 1)
  lastSing : g.Sing (g.n - 1)
  lastNx : g.nx (g.n - 1) = g.n - 1

/-- What `prune_epsilon_pairs` needs. -/
structure Prunable (g : G) : Prop extends Clos g where
  uniq : ∀ x k k', g.Part x k → g.Part x k' → k = k'
  one : ∀ x x' k, g.Part x k → g.Part x' k → x = x'
  notDel : ∀ x k z, g.Part x k → x < z → z < k → ¬ g.Del z
  adj : ∀ x y k, g.Part x y → g.Part y k → y = x + 1
  lastPart : ∀ x, g.Part x (g.n - 1) → x + 2 = g.n

variable {g : G}

theorem Part.edge (hf : g.Clos) {x k : Nat} (h : g.Part x k) : g.E x k := ((h.iff k).1 (hf.refl k h.kn)).1

theorem Part.to {x k : Nat} (h : g.Part x k) {z : Nat} (hz : g.E k z) : g.E x z := ((h.iff z).1 hz).1

theorem Part.notSing (hf : g.Clos) {x k : Nat} (h : g.Part x k) : ¬ g.Sing x := by
  intro hs
  have := hs k (h.edge hf)
  have := h.lt
  omega

theorem Part.unique (hf : g.Prunable) {x k k' : Nat} (h : g.Part x k) (h' : g.Part x k') : k = k' := hf.uniq x k k' h h'

theorem Part.inj (hf : g.Prunable) {x x' k : Nat} (h : g.Part x k) (h' : g.Part x' k) : x = x' := hf.one x x' k h h'

theorem Part.notDel (hf : g.Prunable) {x k z : Nat} (h : g.Part x k) (h1 : x < z) (h2 : z < k) : ¬ g.Del z :=
  hf.notDel x k z h h1 h2

theorem Part.chain (hf : g.Prunable) {x y k : Nat} (h : g.Part x y) (h' : g.Part y k) : y = x + 1 := hf.adj x y k h h'

/-- Without partners there is nothing to number. -/
theorem Clos.prunable (hf : g.Clos) (h : g.NoPart) : g.Prunable where
  toClos := hf
  uniq := fun x k _ hp _ => absurd hp (h x k)
  one := fun x _ k hp _ => absurd hp (h x k)
  notDel := fun x k _ hp => absurd hp (h x k)
  adj := fun x y _ hp _ => absurd hp (h x y)
  lastPart := fun x hp => absurd hp (h x _)

/-! ### Chains of partners -/

abbrev Chain (g : G) : Nat → Nat → Prop := Relation.ReflTransGen g.Part

theorem Chain.le {r x : Nat} (h : g.Chain r x) : r ≤ x := by
  induction h with
  | refl => exact Nat.le_refl _
  | tail _ e ih => have := e.lt; omega

theorem Chain.edge (hf : g.Clos) {r x : Nat} (hr : r < g.n) (h : g.Chain r x) : g.E r x := by
  induction h with
  | refl => exact hf.refl _ hr
  | tail _ e ih => exact hf.trans _ _ _ ih (e.edge hf)

theorem Chain.consec (hf : g.Prunable) {r i x : Nat} (h : g.Chain r i) (hp : g.Part i x) :
    ∀ m, r < m → m ≤ i → g.Del m := by
  induction h generalizing x with
  | refl => intro m h1 h2; omega
  | tail _ e ih =>
    intro m h1 h2
    have := e.chain hf hp
    rename_i b c _
    by_cases hm : m = c
    · subst hm; exact ⟨b, e⟩
    · exact ih e m h1 (by omega)

theorem exists_root (x : Nat) : ∃ r, ¬ g.Del r ∧ g.Chain r x := by
  induction x using Nat.strongRecOn with
  | ind x ih =>
    by_cases h : g.Del x
    · obtain ⟨e, he⟩ := h
      obtain ⟨r, h1, h2⟩ := ih e he.lt
      exact ⟨r, h1, h2.tail he⟩
    · exact ⟨x, h, .refl⟩

theorem exists_end (x : Nat) : ∃ y, g.Chain x y ∧ ∀ k, ¬ g.Part y k := by
  have : ∀ m x, g.n - x ≤ m → ∃ y, g.Chain x y ∧ ∀ k, ¬ g.Part y k := by
    intro m
    induction m with
    | zero =>
      intro x hx
      exact ⟨x, .refl, fun k hk => by have := hk.lt; have := hk.kn; omega⟩
    | succ m ih =>
      intro x hx
      by_cases h : ∃ k, g.Part x k
      · obtain ⟨k, hk⟩ := h
        have := hk.lt
        have := hk.kn
        obtain ⟨y, h1, h2⟩ := ih k (by omega)
        exact ⟨y, .head hk h1, h2⟩
      · exact ⟨x, .refl, fun k hk => h ⟨k, hk⟩⟩
  exact this _ x (Nat.le_refl _)

theorem root_unique (hf : g.Prunable) {r r' x : Nat} (h1 : ¬ g.Del r) (h2 : g.Chain r x) (h1' : ¬ g.Del r')
    (h2' : g.Chain r' x) : r = r' := by
  induction h2 generalizing r' with
  | refl =>
    cases h2' with
    | refl => rfl
    | tail _ e => exact absurd ⟨_, e⟩ h1
  | tail _ e ih =>
    cases h2' with
    | refl => exact absurd ⟨_, e⟩ h1'
    | tail c e' =>
      have := e.inj hf e'
      subst this
      exact ih h1' c

theorem end_unique (hf : g.Prunable) {x y y' : Nat} (h1 : g.Chain x y) (h2 : ∀ k, ¬ g.Part y k) (h1' : g.Chain x y')
    (h2' : ∀ k, ¬ g.Part y' k) : y = y' := by
  induction h1 using Relation.ReflTransGen.head_induction_on with
  | refl =>
    rcases Relation.ReflTransGen.cases_head h1' with h | ⟨c, e, _⟩
    · exact h
    · exact absurd e (h2 c)
  | head e _ ih =>
    rcases Relation.ReflTransGen.cases_head h1' with h | ⟨c, e', h⟩
    · subst h; exact absurd e (h2' _)
    · have := e.unique hf e'
      subst this
      exact ih h

theorem Chain.zero {r x : Nat} (h : g.Chain r x) (hr : r = 0) : x = 0 := by
  subst hr
  rcases Relation.ReflTransGen.cases_head h with h | ⟨c, e, _⟩
  · exact h.symm
  · exact absurd e.pos (Nat.lt_irrefl 0)

end G
end Noodle
