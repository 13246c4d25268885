import Verif.Model.Compile
import Verif.Spec.Match
import Mathlib.Logic.Relation
/-
Walks of an automaton whose epsilon sets need not be closed.
-/
namespace Noodle
set_option autoImplicit false
open Spec

/-- An automaton: a partial map from state numbers to states. -/
abbrev Auto := Nat → Option State

/-- The automaton of a list of states. -/
def auto (ss : List State) : Auto := fun i => ss[i]?

/-- The automaton of a list of states numbered from `o`. -/
def autoAt (o : Nat) (ss : List State) : Auto := fun i => if o ≤ i then ss[i - o]? else none

/-- An epsilon edge. -/
def Ed (A : Auto) (x y : Nat) : Prop := ∃ st, A x = some st ∧ st.eps.testBit y = true

/-- A symbol edge. -/
def Ce (A : Auto) (x : Nat) (c : Ch) (y : Nat) : Prop :=
  ∃ st, A x = some st ∧ st.cls.contains c = true ∧ st.next = y

/-- Reachability by epsilon edges. -/
abbrev Reach (A : Auto) : Nat → Nat → Prop := Relation.ReflTransGen (Ed A)

/-- Walks. -/
inductive Walk (A : Auto) : Nat → List Ch → Nat → Prop
  | nil (x : Nat) : Walk A x [] x
  | eps {x y z : Nat} {w : List Ch} : Ed A x y → Walk A y w z → Walk A x w z
  | chr {x y z : Nat} {c : Ch} {w : List Ch} : Ce A x c y → Walk A y w z → Walk A x (c :: w) z

theorem Walk.trans {A : Auto} {x y z : Nat} {u v : List Ch} (h : Walk A x u y) (g : Walk A y v z) :
    Walk A x (u ++ v) z := by
  induction h with
  | nil => exact g
  | eps e _ ih => exact .eps e (ih g)
  | chr e _ ih => exact .chr e (ih g)

theorem Walk.of_reach {A : Auto} {x y z : Nat} {w : List Ch} (h : Reach A x y) (g : Walk A y w z) :
    Walk A x w z := by
  induction h using Relation.ReflTransGen.head_induction_on with
  | refl => exact g
  | head e _ ih => exact .eps e ih

theorem Walk.reach {A : Auto} {x y : Nat} (h : Walk A x [] y) : Reach A x y := by
  generalize hw : ([] : List Ch) = w at h
  induction h with
  | nil => exact .refl
  | eps e _ ih => exact .head e (ih hw)
  | chr => cases hw

theorem walk_nil_iff {A : Auto} {x y : Nat} : Walk A x [] y ↔ Reach A x y :=
  ⟨Walk.reach, fun h => Walk.of_reach h (.nil _)⟩

/-- A simulation between automata, as a relation on states. -/
theorem Walk.sim {A B : Auto} (R : Nat → Nat → Prop)
    (he : ∀ x y p, Ed A x y → R x p → ∃ q, Walk B p [] q ∧ R y q)
    (hc : ∀ x c y p, Ce A x c y → R x p → ∃ q, Walk B p [c] q ∧ R y q)
    {x z : Nat} {w : List Ch} (h : Walk A x w z) : ∀ p, R x p → ∃ q, Walk B p w q ∧ R z q := by
  induction h with
  | nil x => intro p hp; exact ⟨p, .nil _, hp⟩
  | eps e _ ih =>
    intro p hp
    obtain ⟨q, hq, hr⟩ := he _ _ _ e hp
    obtain ⟨q', hq', hr'⟩ := ih q hr
    exact ⟨q', by simpa using hq.trans hq', hr'⟩
  | chr e _ ih =>
    intro p hp
    obtain ⟨q, hq, hr⟩ := hc _ _ _ _ e hp
    obtain ⟨q', hq', hr'⟩ := ih q hr
    exact ⟨q', by simpa using hq.trans hq', hr'⟩

/-- The same edges and reachability give the same runs. -/
theorem Walk.mono {A B : Auto} (he : ∀ x y, Ed A x y → Reach B x y) (hc : ∀ x c y, Ce A x c y → Ce B x c y)
    {x z : Nat} {w : List Ch} (h : Walk A x w z) : Walk B x w z := by
  induction h with
  | nil => exact .nil _
  | eps e _ ih => exact Walk.of_reach (he _ _ e) ih
  | chr e _ ih => exact .chr (hc _ _ _ e) ih

/-- All state numbers mentioned are numbers of states. -/
def InRange (ss : List State) : Prop :=
  ∀ (i : Nat) (st : State), ss[i]? = some st →
    st.next < ss.length ∧ ∀ y : Nat, st.eps.testBit y = true → y < ss.length

/-- Epsilon sets are reflexive and transitive. -/
structure Closed (ss : List State) : Prop where
  refl : ∀ i, i < ss.length → Ed (auto ss) i i
  trans : ∀ i j k, Ed (auto ss) i j → Ed (auto ss) j k → Ed (auto ss) i k

theorem Ed.lt {ss : List State} {x y : Nat} (h : Ed (auto ss) x y) : x < ss.length := by
  obtain ⟨st, h, _⟩ := h
  exact (List.getElem?_eq_some_iff.1 h).1

theorem Ed.lt_right {ss : List State} (hr : InRange ss) {x y : Nat} (h : Ed (auto ss) x y) : y < ss.length := by
  obtain ⟨st, h, hy⟩ := h
  exact (hr _ _ h).2 _ hy

theorem Closed.reach {ss : List State} (hc : Closed ss) {x y : Nat} (hx : x < ss.length)
    (h : Reach (auto ss) x y) : Ed (auto ss) x y := by
  induction h with
  | refl => exact hc.refl _ hx
  | tail _ e ih => exact hc.trans _ _ _ ih e

/-- The language of an automaton: from the first to the last state. -/
def Accept (ss : List State) (w : List Ch) : Prop := Walk (auto ss) 0 w (ss.length - 1)

theorem Expr.eps_testBit (e : Expr) (i y : Nat) : (e.eps i).testBit y = true ↔ Ed (auto e.states) i y := by
  unfold Expr.eps Ed auto
  cases h : e.states[i]? with
  | none => simp [noStates]
  | some st => simp

/-- For a well-formed expression the two notions of acceptance agree. -/
theorem accepts_iff {e : Expr} (hne : 0 < e.len) (hr : InRange e.states) (hc : Closed e.states) (w : List Ch) :
    Accepts e w ↔ Accept e.states w := by
  have hstep : ∀ c s d, Step e c s d ↔ ∃ n, Ce (auto e.states) s c n ∧ Ed (auto e.states) n d := by
    intro c s d
    unfold Step Ce
    constructor
    · rintro ⟨st, h, hc, he⟩
      exact ⟨st.next, ⟨st, h, hc, rfl⟩, (Expr.eps_testBit _ _ _).1 he⟩
    · rintro ⟨n, ⟨st, h, hc, rfl⟩, he⟩
      exact ⟨st, h, hc, (Expr.eps_testBit _ _ _).2 he⟩
  constructor
  · rintro ⟨s, h0, hrd⟩
    have : ∀ {s u d}, Reads e s u d → Walk (auto e.states) s u d := by
      intro s u d h
      induction h with
      | nil => exact .nil _
      | cons st _ ih =>
        obtain ⟨n, h1, h2⟩ := (hstep _ _ _).1 st
        exact .chr h1 (.eps h2 ih)
    exact .eps ((Expr.eps_testBit _ _ _).1 h0) (this hrd)
  · intro h
    have key : ∀ {x w z}, Walk (auto e.states) x w z → x < e.len →
        ∃ s, Ed (auto e.states) x s ∧ Reads e s w z := by
      intro x w z h
      induction h with
      | nil x => intro hx; exact ⟨x, hc.refl _ hx, .nil _⟩
      | eps ed _ ih =>
        intro hx
        obtain ⟨s, h1, h2⟩ := ih (ed.lt_right hr)
        exact ⟨s, hc.trans _ _ _ ed h1, h2⟩
      | chr ce _ ih =>
        rename_i x y z c w _
        intro hx
        have hy : y < e.len := by
          obtain ⟨st, h, _, rfl⟩ := ce
          exact (hr _ _ h).1
        obtain ⟨s, h1, h2⟩ := ih hy
        exact ⟨x, hc.refl _ hx, .cons ((hstep _ _ _).2 ⟨y, ce, h1⟩) h2⟩
    obtain ⟨s, h1, h2⟩ := key h hne
    exact ⟨s, (Expr.eps_testBit _ _ _).2 h1, h2⟩

theorem wf_of {e : Expr} (hne : 0 < e.len) (hr : InRange e.states) (hc : Closed e.states) : WF e where
  nonempty := hne
  next_lt := fun i st h => (hr i st h).1
  eps_lt := fun i j h => ((Expr.eps_testBit _ _ _).1 h).lt_right hr
  refl := fun i h => (Expr.eps_testBit _ _ _).2 (hc.refl i h)
  trans := fun i j k h g => (Expr.eps_testBit _ _ _).2
    (hc.trans i j k ((Expr.eps_testBit _ _ _).1 h) ((Expr.eps_testBit _ _ _).1 g))

end Noodle
