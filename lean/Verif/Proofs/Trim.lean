import Verif.Proofs.Merge
import Verif.Proofs.Looped
/-
Conditions on a closed automaton ("trim" automata) under which merging partners is right and leaves a settled
automaton. These are the conditions that the automata of expressions are shown to meet.
-/
namespace Noodle
set_option autoImplicit false
namespace G
open Classical

variable {g g' : G}

/-- `k` has the edges of `x` but the one to `x`. -/
structure Dup (g : G) (x k : Nat) : Prop where
  z : g.Z x
  lt : x < k
  kn : k < g.n
  iff : ∀ z, g.E k z ↔ g.E x z ∧ z ≠ x

theorem Part.dup {x k : Nat} (h : g.Part x k) : g.Dup x k := ⟨h.z, h.lt, h.kn, h.iff⟩

theorem Dup.part {x k : Nat} (h : g.Dup x k) (hx : 0 < x) : g.Part x k := ⟨hx, h.z, h.lt, h.kn, h.iff⟩

/-- A state without a partner. -/
def End (g : G) (y : Nat) : Prop := ∀ k, ¬ g.Part y k

/-- The end of the chain of partners that starts at `x`. -/
noncomputable def fin (g : G) (x : Nat) : Nat := (exists_end (g := g) x).choose

theorem fin_chain (x : Nat) : g.Chain x (g.fin x) := (exists_end (g := g) x).choose_spec.1

theorem fin_end (x : Nat) : g.End (g.fin x) := (exists_end (g := g) x).choose_spec.2

theorem fin_ge (x : Nat) : x ≤ g.fin x := (fin_chain x).le

/-- The edges cannot be followed in a circle. -/
def Anti (g : G) : Prop := ∀ x y, g.E x y → g.E y x → x = y

section
variable (hf : g.Clos)
include hf

theorem fin_edge {x : Nat} (hx : x < g.n) : g.E x (g.fin x) := (fin_chain x).edge hf hx

theorem fin_lt {x : Nat} (hx : x < g.n) : g.fin x < g.n := (hf.lt _ _ (fin_edge hf hx)).2

theorem sing_end {x : Nat} (h : g.Sing x) : g.End x := fun _ hk => hk.notSing hf h

theorem Part.uniq' (ha : g.Anti) {x k k' : Nat} (h : g.Part x k) (h' : g.Part x k') : k = k' :=
  ha _ _ ((h.iff _).2 ((h'.iff _).1 (hf.refl _ h'.kn))) ((h'.iff _).2 ((h.iff _).1 (hf.refl _ h.kn)))

theorem end_unique' (ha : g.Anti) {x y y' : Nat} (h1 : g.Chain x y) (h2 : g.End y) (h1' : g.Chain x y')
    (h2' : g.End y') : y = y' := by
  induction h1 using Relation.ReflTransGen.head_induction_on with
  | refl =>
    rcases Relation.ReflTransGen.cases_head h1' with h | ⟨c, e, _⟩
    · exact h
    · exact absurd e (h2 c)
  | head e _ ih =>
    rcases Relation.ReflTransGen.cases_head h1' with h | ⟨c, e', h⟩
    · subst h; exact absurd e (h2' _)
    · have := e.uniq' hf ha e'
      subst this
      exact ih h

theorem fin_of_end (ha : g.Anti) {x : Nat} (h : g.End x) : g.fin x = x :=
  end_unique' hf ha (fin_chain x) (fin_end x) .refl h

theorem fin_of_chain (ha : g.Anti) {x y : Nat} (h : g.Chain x y) : g.fin x = g.fin y :=
  end_unique' hf ha (fin_chain x) (fin_end x) (h.trans (fin_chain y)) (fin_end y)

theorem fin_part (ha : g.Anti) {x y : Nat} (h : g.Part x y) : g.fin x = g.fin y :=
  fin_of_chain hf ha (.single h)

/-- What a state reaches, the end of its chain reaches, if it has no partner itself. -/
theorem fin_to {x y : Nat} (h : g.E x y) (hy : g.End y) : g.E (g.fin x) y := by
  have key : ∀ z, g.Chain x z → g.E z y := by
    intro z hc
    induction hc with
    | refl => exact h
    | tail c p ih =>
      refine (p.iff _).2 ⟨ih, ?_⟩
      rintro rfl
      exact hy _ p
  exact key _ (fin_chain x)

end

/-- `c` is reached only through `x` and reads a symbol. -/
structure Dom (g : G) (x c : Nat) : Prop where
  live : ¬ g.Z c
  back : ∀ d, g.End d → g.E d c → d = c ∨ g.E d x
  enter : ∀ y, g.Acts y → g.fin (g.nx y) ≠ c

/-- Two ways out of `x` that no other state has. -/
structure Split (g : G) (x u v : Nat) : Prop where
  endu : g.End u
  endv : g.End v
  neu : u ≠ x
  nev : v ≠ x
  eu : g.E x u
  ev : g.E x v
  no : ∀ k, g.E x k → k ≠ x → g.E k u → g.E k v → False
  domu : g.Sing u → g.fin (g.nx u) ≠ x → g.fin (g.nx u) ≠ u → g.E x (g.fin (g.nx u)) → g.E (g.fin (g.nx u)) v → g.Dom x u
  domv : g.Sing v → g.fin (g.nx v) ≠ x → g.fin (g.nx v) ≠ v → g.E x (g.fin (g.nx v)) → g.E (g.fin (g.nx v)) u → g.Dom x v

/-- A loop: the partner comes later, nothing in between is merged. -/
structure Round (g : G) (x k : Nat) : Prop where
  dup : g.Dup x k
  last : k + 1 < g.n
  noPart : ∀ z, x < z → z ≤ k → g.End z
  noDel : ∀ z, x < z → z < k → ¬ g.Del z

/-- The condition at a state. -/
def TrimAt (g : G) (x : Nat) : Prop :=
  g.Z x → ¬ g.Sing x → g.Dup x (x + 1) ∨ (∃ k, g.Round x k) ∨ ∃ u v, g.Split x u v

/-- The state after a leading loop. -/
structure StarOk (g : G) (w c : Nat) : Prop where
  skip : ∀ d, g.End d → d ≠ c → g.E d c → g.E d w
  enter : ∀ y, g.Acts y → g.fin (g.nx y) ≠ c
  only : g.Z c → ∀ c', g.Sing c' → c' ≠ w → g.E w c' → g.fin (g.nx c') = w → c' = c

/-- A leading loop whose symbols lead back to `w`, for what comes from `o` on. -/
def LoopOk (g : G) (o w : Nat) : Prop := ∀ c, o ≤ c → g.Sing c → c ≠ w → g.E w c → g.fin (g.nx c) = w →
  ¬ g.Z c ∧ (∀ y, g.Acts y → g.fin (g.nx y) ≠ c) ∧
    ∀ d, g.End d → g.E d c → d = c ∨ g.E d w ∨ (g.E w d ∧ ¬ g.Del d ∧ (∀ y, g.Acts y → g.fin (g.nx y) ≠ d) ∧
      ∀ r x, o ≤ r → g.Chain r x → g.End x → g.E x w → x = w ∨ x = 0 ∨ d < r)

/-- The condition at the start. -/
def ZeroOk (g : G) : Prop :=
  g.Z 0 → ¬ g.Sing 0 → (∃ u v, g.Split 0 u v) ∨ ∃ w, g.End w ∧ w ≠ 0 ∧ g.E 0 w ∧
    (∀ y, g.End y → g.E 0 y → y = 0 ∨ g.E w y) ∧
    ((∀ c, g.Sing c → c ≠ w → g.E w c → g.fin (g.nx c) = w → g.StarOk w c) ∨ g.LoopOk 0 w)

/-- A trim automaton. -/
structure Trim (g : G) : Prop extends Clos g where
  anti : g.Anti
  ahead : ∀ x, g.Acts x → x + 1 < g.n → x < g.nx x
  start : ∀ d, g.E d 0 → d = 0
  trim : ∀ x, 0 < x → x < g.n → g.TrimAt x
  zero : g.ZeroOk

/-- What has a partner is followed by it or starts a loop. -/
theorem Trim.part (ht : g.Trim) {x k : Nat} (hp : g.Part x k) : k = x + 1 ∨ g.Round x k := by
  have hk := hp.kn
  have hl := hp.lt
  rcases ht.trim x hp.pos (by omega) hp.z (hp.notSing ht.toClos) with h | ⟨k', h⟩ | ⟨u, v, h⟩
  · exact .inl (hp.uniq' ht.toClos ht.anti (h.part hp.pos))
  · have := hp.uniq' ht.toClos ht.anti (h.dup.part hp.pos)
    subst this
    exact .inr h
  · exact absurd ((hp.iff _).2 ⟨h.ev, h.nev⟩)
      (h.no k (hp.edge ht.toClos) (by omega) ((hp.iff _).2 ⟨h.eu, h.neu⟩))

theorem Trim.prunable (ht : g.Trim) : g.Prunable where
  toClos := ht.toClos
  uniq := fun x k k' h h' => h.uniq' ht.toClos ht.anti h'
  one := by
    intro x x' k h h'
    have key : ∀ {a b}, g.Part a k → g.Part b k → a < b → False := by
      intro a b ha hb hab
      have hl := hb.lt
      rcases ht.part ha with h1 | h1
      · omega
      · exact h1.noPart b hab (by omega) _ hb
    rcases Nat.lt_trichotomy x x' with h1 | h1 | h1
    · exact absurd (key h h' h1) id
    · exact h1
    · exact absurd (key h' h h1) id
  notDel := by
    intro x k z h h1 h2
    rcases ht.part h with h3 | h3
    · omega
    · exact h3.noDel z h1 h2
  adj := by
    intro x y k h h'
    rcases ht.part h with h3 | h3
    · exact h3
    · exact absurd h' (h3.noPart y h.lt (Nat.le_refl _) k)
  lastPart := by
    intro x h
    have := h.lt
    have := h.kn
    rcases ht.part h with h3 | h3
    · omega
    · have := h3.last
      omega

section
variable {φ f : Nat → Nat} (ht : g.Trim) (Q : Quot g g' φ f)
include ht Q

theorem Quot.f_fin {x : Nat} (hx : x < g.n) : f (φ x) = g.fin x :=
  end_unique' ht.toClos ht.anti (Q.to_end ht.prunable hx) (fun k => Q.f_end _ k (Q.phi_lt x hx)) (fin_chain x) (fin_end x)

theorem Quot.f_inj {p q : Nat} (hp : p < g'.n) (hq : q < g'.n) (h : f p = f q) : p = q := by
  rw [← Q.phi_f _ hp, ← Q.phi_f _ hq, h]

theorem Quot.f_zero_iff {q : Nat} (hq : q < g'.n) : f q = 0 ↔ q = 0 := by
  have h0 := Q.f_zero ht.prunable
  constructor
  · intro h
    rw [← Q.phi_f _ hq, h, Q.zero]
  · intro h; rw [h, h0]

theorem Quot.sing_iff {q : Nat} (hq : q < g'.n) : g'.Sing q ↔ g.Sing (f q) := by
  constructor
  · intro h w hw
    have h1 := Q.sing_of ht.prunable hq h hw
    have h2 := Q.to_end ht.prunable (ht.lt _ _ hw).2
    rw [h1] at h2
    exact (ht.anti _ _ hw (h2.edge ht.toClos (ht.lt _ _ hw).2)).symm
  · intro h
    have := Q.sing' ht.prunable (Q.f_lt _ hq) h
    rwa [Q.phi_f _ hq] at this

theorem Quot.acts_of {q : Nat} (h : g'.Acts q) : g.Acts (f q) ∧ f (g'.nx q) = g.fin (g.nx (f q)) := by
  have hq := h.1
  refine ⟨⟨Q.f_lt _ hq, ?_⟩, ?_⟩
  · rcases h.2 with h1 | h1
    · left; rwa [Q.z _ hq] at h1
    · exact .inr ((Q.sing_iff ht hq).1 h1)
  · rw [Q.nx _ hq]
    exact Q.f_fin ht (ht.nxlt _ (Q.f_lt _ hq))

theorem Quot.onto_end {y : Nat} (hy : y < g.n) (he : g.End y) : φ y < g'.n ∧ f (φ y) = y :=
  ⟨Q.phi_lt _ hy, Q.f_phi ht.prunable hy he⟩

/-- The old states of a pair. -/
structure OldPair (g : G) (e c N : Nat) : Prop where
  ende : g.End e
  z : g.Z e
  nsing : ¬ g.Sing e
  cne : c ≠ e
  sing : g.Sing c
  nx : g.fin (g.nx c) = N
  ne : N ≠ e
  nc : N ≠ c
  ec : g.E e c
  en : g.E e N
  sub : ∀ y, g.End y → g.E e y → y = e ∨ y = c ∨ g.E N y

theorem Quot.old {e c : Nat} (P : g'.Pr e c) : OldPair g (f e) (f c) (f (g'.nx c)) := by
  have hcl := Q.clos ht.prunable
  obtain ⟨he, hc⟩ := hcl.lt _ _ P.ec
  have hN := hcl.nxlt _ hc
  have hne : f (g'.nx c) ≠ f e := fun h => P.nxe (Q.f_inj ht hN he h)
  have hen := (Q.e' ht.prunable he hN).1 P.en
  refine ⟨fun k => Q.f_end _ k he, (Q.z _ he).1 P.z, fun h => hne (h _ hen), fun h => P.ne (Q.f_inj ht hc he h).symm,
    (Q.sing_iff ht hc).1 P.sing, (Q.acts_of ht ⟨hc, .inr P.sing⟩).2.symm, hne, fun h => P.nxc (Q.f_inj ht hN hc h),
    (Q.e' ht.prunable he hc).1 P.ec, hen, ?_⟩
  intro y hy hE
  obtain ⟨h1, h2⟩ := Q.onto_end ht (ht.lt _ _ hE).2 hy
  rw [← h2, ← Q.e' ht.prunable he h1] at hE
  rcases P.sub _ hE with h3 | h3 | h3
  · left; rw [← h2, h3]
  · right; left; rw [← h2, h3]
  · right; right; rw [← h2]; exact Q.of_e' ht.prunable h3

omit Q in
theorem OldPair.split {e c N u v : Nat} (P : OldPair g e c N) (s : g.Split e u v) : g.Dom e c := by
  have hN := P.ne
  have hu := P.sub u s.endu s.eu
  have hv := P.sub v s.endv s.ev
  have nx := P.nx
  rcases hu with h | h | h
  · exact absurd h s.neu
  · rcases hv with h' | h' | h'
    · exact absurd h' s.nev
    · exfalso
      subst h
      rw [h'] at s
      exact s.no u s.eu s.neu (ht.refl _ (ht.lt _ _ s.eu).2) (ht.refl _ (ht.lt _ _ s.eu).2)
    · subst h
      refine s.domu P.sing ?_ ?_ ?_ ?_ <;> rw [nx]
      · exact P.ne
      · exact P.nc
      · exact P.en
      · exact h'
  · rcases hv with h' | h' | h'
    · exact absurd h' s.nev
    · subst h'
      refine s.domv P.sing ?_ ?_ ?_ ?_ <;> rw [nx]
      · exact P.ne
      · exact P.nc
      · exact P.en
      · exact h
    · exact absurd (s.no N P.en P.ne h h') id

omit Q in
/-- The shapes of pairs. -/
theorem OldPair.cases {e c N : Nat} (P : OldPair g e c N) :
    g.Dom e c ∨ (e = 0 ∧ g.E N c ∧ g.StarOk N c ∧ ∀ c', OldPair g e c' (g.fin (g.nx c')) →
      g.Sing c' ∧ c' ≠ N ∧ g.E N c' ∧ g.fin (g.nx c') = N) ∨
    (e = 0 ∧ g.E N c ∧ g.LoopOk 0 N ∧ ∀ y, g.End y → g.E 0 y → y = 0 ∨ g.E N y) := by
  by_cases h0 : e = 0
  · subst h0
    rcases ht.zero P.z P.nsing with ⟨u, v, h⟩ | ⟨w, h1, h2, h3, h4, h5⟩
    · exact .inl (P.split ht h)
    · have key : ∀ c N, OldPair g 0 c N → N = w ∧ c ≠ w ∧ g.E w c := by
        intro c N P
        have hcw : c ≠ w := by
          rintro rfl
          rcases h4 N (by rw [← P.nx]; exact fin_end _) P.en with h6 | h6
          · exact P.ne h6
          · exact P.nc (P.sing _ h6)
        have hwc : g.E w c := (h4 c (sing_end ht.toClos P.sing) P.ec).resolve_left P.cne
        refine ⟨?_, hcw, hwc⟩
        rcases P.sub w h1 h3 with h6 | h6 | h6
        · exact absurd h6 h2
        · exact absurd h6.symm hcw
        · have h7 := (h4 N (by rw [← P.nx]; exact fin_end _) P.en).resolve_left P.ne
          exact ht.anti _ _ h6 h7
      obtain ⟨hN, k1, k2⟩ := key _ _ P
      subst hN
      rcases h5 with h5 | h5
      · refine .inr (.inl ⟨rfl, k2, h5 c P.sing k1 k2 P.nx, ?_⟩)
        intro c' P'
        obtain ⟨j1, j2, j3⟩ := key _ _ P'
        exact ⟨P'.sing, j2, j3, j1⟩
      · exact .inr (.inr ⟨rfl, k2, h5, h4⟩)
  · rcases ht.trim e (by omega) (ht.lt _ _ P.ec).1 P.z P.nsing with h | ⟨k, h⟩ | ⟨u, v, h⟩
    · exact absurd (h.part (by omega)) (P.ende _)
    · exact absurd (h.dup.part (by omega)) (P.ende _)
    · exact .inl (P.split ht h)

/-- Merging the partners of a trim automaton leaves a settled automaton. -/
theorem Quot.settled : g'.Settled := by
  have hpr := ht.prunable
  have hcl := Q.clos hpr
  refine ⟨hcl, ?_, ?_, ?_, ?_, ?_, ?_, ?_⟩
  · -- noPart
    intro x k P
    have hk := P.kn
    have hx : x < g'.n := by have := P.lt; omega
    have hfx : 0 < f x := by
      rcases Nat.eq_zero_or_pos (f x) with h | h
      · have := (Q.f_zero_iff ht hx).1 h; have := P.pos; omega
      · exact h
    have hne : f k ≠ f x := fun h => by have := Q.f_inj ht hk hx h; have := P.lt; omega
    have hE : g.E (f x) (f k) := Q.of_e' hpr (P.edge hcl)
    have hns : ¬ g.Sing (f x) := fun h => hne (h _ hE)
    rcases ht.trim (f x) hfx (Q.f_lt _ hx) ((Q.z _ hx).1 P.z) hns with h | ⟨k', h⟩ | ⟨u, v, h⟩
    · exact Q.f_end _ _ hx (h.part hfx)
    · exact Q.f_end _ _ hx (h.dup.part hfx)
    · have key : ∀ u, g.End u → u ≠ f x → g.E (f x) u → g.E (f k) u := by
        intro u hu hux hE
        obtain ⟨h1, h2⟩ := Q.onto_end ht (ht.lt _ _ hE).2 hu
        rw [← h2]
        apply Q.of_e' hpr
        rw [P.iff, Q.e' hpr hx h1, h2]
        exact ⟨hE, fun h => hux (by rw [← h2, h])⟩
      exact h.no _ hE hne (key u h.endu h.neu h.eu) (key v h.endv h.nev h.ev)
  · -- into0
    intro x hA hx h0
    obtain ⟨h1, h2⟩ := Q.acts_of ht hA
    have hfx := Q.f_lt _ hA.1
    rw [h0, Q.f_zero hpr] at h2
    have hge := fin_ge (g := g) (g.nx (f x))
    by_cases hl : f x + 1 < g.n
    · have := ht.ahead _ h1 hl
      omega
    · have e1 : f x = g.n - 1 := by omega
      have e2 := Q.last hpr
      rw [← e1, Q.phi_f _ hA.1] at e2
      omega
  · -- zero
    left
    constructor
    · intro x y h1 h2
      obtain ⟨k1, k2⟩ := hcl.lt _ _ h1
      exact Q.f_inj ht k1 k2 (ht.anti _ _ (Q.of_e' hpr h1) (Q.of_e' hpr h2))
    · intro d hd
      have := Q.of_e' hpr hd
      rw [Q.f_zero hpr] at this
      exact (Q.f_zero_iff ht (hcl.lt _ _ hd).1).1 (ht.start _ this)
  · -- back
    intro e c P he d hd
    obtain ⟨k1, k2⟩ := hcl.lt _ _ hd
    have ke := (hcl.lt _ _ P.ec).1
    rcases (Q.old ht P).cases ht with h | ⟨h, _⟩ | ⟨h, _⟩
    · rcases h.back (f d) (fun k => Q.f_end _ k k1) (Q.of_e' hpr hd) with h1 | h1
      · exact .inl (Q.f_inj ht k1 k2 h1)
      · exact .inr ((Q.e' hpr k1 ke).2 h1)
    · exact absurd ((Q.f_zero_iff ht ke).1 h) he
    · exact absurd ((Q.f_zero_iff ht ke).1 h) he
  · -- enter
    intro e c P x hA hx
    obtain ⟨h1, h2⟩ := Q.acts_of ht hA
    rw [hx] at h2
    have O := Q.old ht P
    rcases O.cases ht with h | ⟨_, _, h, _⟩ | ⟨_, h3, h, _⟩
    · exact h.enter _ h1 h2.symm
    · exact h.enter _ h1 h2.symm
    · exact (h _ (Nat.zero_le _) O.sing (Ne.symm O.nc) h3 O.nx).2.1 _ h1 h2.symm
  · -- live
    intro e c P he hz
    have ke := (hcl.lt _ _ P.ec).1
    rw [Q.z _ (hcl.lt _ _ P.ec).2] at hz
    rcases (Q.old ht P).cases ht with h | ⟨h, _⟩ | ⟨h, _⟩
    · exact h.live hz
    · exact absurd ((Q.f_zero_iff ht ke).1 h) he
    · exact absurd ((Q.f_zero_iff ht ke).1 h) he
  · -- ready
    intro c P
    obtain ⟨k0, k2⟩ := hcl.lt _ _ P.ec
    have kN := hcl.nxlt _ k2
    have f0 := Q.f_zero hpr
    have O := Q.old ht P
    rcases O.cases ht with h | ⟨h0, h1, h2, h3⟩ | ⟨_, h1, h2, h3⟩
    · left
      refine ⟨fun d hdc hd => ?_, fun hz => ?_⟩
      · have k1 := (hcl.lt _ _ hd).1
        rcases h.back (f d) (fun k => Q.f_end _ k k1) (Q.of_e' hpr hd) with h1 | h1
        · exact absurd (Q.f_inj ht k1 k2 h1) hdc
        · exact hcl.trans _ _ _ ((Q.e' hpr k1 k0).2 h1) P.en
      · rw [Q.z _ k2] at hz
        exact absurd hz h.live
    · left
      refine ⟨fun d hdc hd => ?_, fun hz => ?_⟩
      · have k1 := (hcl.lt _ _ hd).1
        exact (Q.e' hpr k1 kN).2 (h2.skip (f d) (fun k => Q.f_end _ k k1) (fun h => hdc (Q.f_inj ht k1 k2 h))
          (Q.of_e' hpr hd))
      · rw [Q.z _ k2] at hz
        refine ⟨(Q.e' hpr kN k2).2 h1, ?_⟩
        intro c' P'
        have k3 := (hcl.lt _ _ P'.ec).2
        have O := Q.old ht P'
        have := O.nx
        rw [← this] at O
        obtain ⟨j1, j2, j3, j4⟩ := h3 _ O
        exact Q.f_inj ht k3 k2 (h2.only hz _ j1 j2 j3 j4)
    · right
      have free : ∀ d, d < g'.n → (∀ y, g.Acts y → g.fin (g.nx y) ≠ f d) → g'.Free d := by
        intro d hd hf x hA hx
        obtain ⟨m1, m2⟩ := Q.acts_of ht hA
        rw [hx] at m2
        exact hf _ m1 m2.symm
      have hN0 : g'.nx c ≠ 0 := P.nxe
      have less : ∀ d, d < g'.n → ¬ g.Del (f d) → (∀ r x, 0 ≤ r → g.Chain r x → g.End x → g.E x (f (g'.nx c)) →
          x = f (g'.nx c) ∨ x = 0 ∨ f d < r) → g'.Behind d (g'.nx c) := by
        intro d hd hdel hall x hx hE
        have hxn := (hcl.lt _ _ hE).1
        obtain ⟨r, hr, hc⟩ := exists_root (g := g) (f x)
        rcases hall r (f x) (Nat.zero_le _) hc (fun k => Q.f_end _ k hxn) (Q.of_e' hpr hE) with n | n | n
        · right
          rw [Q.f_inj ht hxn kN n]
          exact hcl.refl _ kN
        · left
          have := (Q.f_zero_iff ht hxn).1 n
          omega
        · exfalso
          have hrn : r < g.n := by have := hc.le; have := Q.f_lt _ hxn; omega
          have := Q.mono (f d) r hdel hr n hrn
          rw [Q.chain hc, Q.phi_f _ hd, Q.phi_f _ hxn] at this
          omega
      refine ⟨(Q.e' hpr kN k2).2 h1, ?_⟩
      intro c' hS hc0 hE hnx
      have kc' := (hcl.lt _ _ hE).2
      have hS' := (Q.sing_iff ht kc').1 hS
      obtain ⟨m1, m2⟩ := Q.acts_of ht ⟨kc', .inr hS⟩
      have hE' := Q.of_e' hpr hE
      rw [f0] at hE'
      have hc0' : f c' ≠ 0 := fun h => hc0 ((Q.f_zero_iff ht kc').1 h)
      have hNe : f c' ≠ f (g'.nx c) := by
        intro hh
        rw [hh] at hS'
        exact O.nc (hS' _ h1).symm
      obtain ⟨j1, j2, j3⟩ := h2 (f c') (Nat.zero_le _) hS' hNe
        ((h3 _ (fun k => Q.f_end _ k kc') hE').resolve_left hc0') (by rw [← m2, hnx])
      refine ⟨by rw [Q.z _ kc']; exact j1, free _ kc' j2, ?_⟩
      intro d hd
      have k1 := (hcl.lt _ _ hd).1
      rcases j3 (f d) (fun k => Q.f_end _ k k1) (Q.of_e' hpr hd) with n1 | n1 | ⟨n1, n2, n3, n4⟩
      · exact .inl (Q.f_inj ht k1 kc' n1)
      · exact .inr (.inr (.inl ((Q.e' hpr k1 kN).2 n1)))
      · exact .inr (.inr (.inr ⟨hcl.trans _ _ _ P.en ((Q.e' hpr kN k1).2 n1), less _ k1 n2 n4, free _ k1 n3⟩))

end

/-- What the optimisation passes treat correctly. -/
structure Sound (g : G) : Prop where
  prunable : g.Prunable
  fit : ∀ (g' : G) (φ f : Nat → Nat), Quot g g' φ f → g'.Clos ∧ g'.Fit

theorem Trim.sound (ht : g.Trim) : g.Sound :=
  ⟨ht.prunable, fun _ _ _ Q => ⟨(Q.settled ht).toClos, .inl (Q.settled ht)⟩⟩

/-- The same automaton, up to what is out of range. -/
structure Alike (g g' : G) : Prop where
  n : g'.n = g.n
  e : ∀ x y, g'.E x y ↔ g.E x y
  z : ∀ x, x < g.n → (g'.Z x ↔ g.Z x)
  nx : ∀ x, x < g.n → g'.nx x = g.nx x

theorem Quot.alike {φ f : Nat → Nat} (Q : Quot g g' φ f) (hf : g.Clos) (h : g.NoPart) : Alike g g' := by
  have hd : ∀ x, ¬ g.Del x := fun x ⟨y, p⟩ => h y x p
  have hpos := hf.pos
  have hphi : ∀ x, x < g.n → φ x = x := by
    intro x
    induction x with
    | zero => intro _; exact Q.zero
    | succ x ih =>
      intro hx
      rw [Q.step x (x + 1) (hd _) (hd _) (by omega) hx (fun z _ _ => by omega), ih (by omega)]
  have hn : g'.n = g.n := by
    have := Q.top (g.n - 1) (hd _) (by omega) (fun z _ _ => by omega)
    rw [hphi _ (by omega)] at this
    omega
  have hfq : ∀ q, q < g.n → f q = q := by
    intro q hq
    have := Q.phi_f q (by omega)
    rwa [hphi _ (Q.f_lt q (by omega))] at this
  refine ⟨hn, ?_, ?_, ?_⟩
  · intro x y
    rw [Q.e]
    constructor
    · rintro ⟨z, h1, h2, h3⟩
      rw [hfq x (by omega)] at h2
      rw [hphi z (hf.lt _ _ h2).2] at h3
      rw [← h3]; exact h2
    · intro h1
      obtain ⟨k1, k2⟩ := hf.lt _ _ h1
      exact ⟨y, by omega, by rw [hfq x k1]; exact h1, hphi y k2⟩
  · intro x hx
    rw [Q.z x (by omega), hfq x hx]
  · intro x hx
    rw [Q.nx x (by omega), hfq x hx, hphi _ (hf.nxlt x hx)]

/-! ### An automaton that is alike -/

section
variable (h : Alike g g') (hf : g.Clos)
include h

theorem Alike.eq : g'.E = g.E := funext fun x => funext fun y => propext (h.e x y)

theorem Alike.sing (x : Nat) : g'.Sing x ↔ g.Sing x := by unfold Sing; rw [h.eq]

theorem Alike.acts (x : Nat) : g'.Acts x ↔ g.Acts x := by
  unfold Acts
  rw [h.n, h.sing]
  exact and_congr_right fun k => by rw [h.z x k]

theorem Alike.free (d : Nat) : g'.Free d ↔ g.Free d := by
  unfold Free
  refine forall_congr' fun x => ?_
  rw [h.acts]
  refine forall_congr' fun k => ?_
  rw [h.nx x k.1]

theorem Alike.noPart (hn : g.NoPart) : g'.NoPart := by
  intro x k P
  have := P.lt
  have := P.kn
  have := h.n
  refine hn x k ⟨P.pos, (h.z _ (by omega)).1 P.z, P.lt, by omega, ?_⟩
  rw [← h.eq]; exact P.iff

include hf

theorem Alike.pr {e c : Nat} : g'.Pr e c ↔ g.Pr e c := by
  have hE := h.eq
  constructor
  · intro P
    have hec := (h.e _ _).1 P.ec
    obtain ⟨h1, h2⟩ := hf.lt _ _ hec
    have hc := h.nx c h2
    exact ⟨P.c0, (h.z _ h1).1 P.z, P.ne, by rw [← hc]; exact P.nxe, by rw [← hc]; exact P.nxc, (h.sing _).1 P.sing, hec,
      by rw [← hc, ← hE]; exact P.en, by rw [← hc, ← hE]; exact P.sub⟩
  · intro P
    obtain ⟨h1, h2⟩ := hf.lt _ _ P.ec
    have hc := h.nx c h2
    exact ⟨P.c0, (h.z _ h1).2 P.z, P.ne, by rw [hc]; exact P.nxe, by rw [hc]; exact P.nxc, (h.sing _).2 P.sing,
      by rw [hE]; exact P.ec, by rw [hc, hE]; exact P.en, by rw [hc, hE]; exact P.sub⟩

theorem Alike.clos : g'.Clos := by
  have hpos := hf.pos
  have hE := h.eq
  have hn := h.n
  refine ⟨?_, ?_, ?_, ?_, ?_, ?_, ?_, ?_⟩
  · rw [hE, hn]; exact hf.lt
  · rw [hE, hn]; exact hf.refl
  · rw [hE]; exact hf.trans
  · intro x k; rw [hn] at k; rw [h.nx x k, hn]; exact hf.nxlt x k
  · omega
  · rw [hn, h.z _ (by omega)]; exact hf.lastZ
  · rw [hn, h.sing]; exact hf.lastSing
  · rw [hn, h.nx _ (by omega)]; exact hf.lastNx

end

theorem Alike.settled (h : Alike g g') (hs : g.Settled) : g'.Settled := by
  have hf := hs.toClos
  have hE := h.eq
  have hP : ∀ {e c}, g'.Pr e c → g.Pr e c := fun P => (h.pr hf).1 P
  have hcn : ∀ {e c}, g'.Pr e c → c < g.n := fun P => (hs.lt _ _ (hP P).ec).2
  refine ⟨h.clos hf, h.noPart hs.noPart, ?_, ?_, ?_, ?_, ?_, ?_⟩
  · intro x h1 h2
    have h3 := (h.acts x).1 h1
    have := h.n
    rw [h.nx x h3.1]
    exact hs.into0 x h3 (by omega)
  · rcases hs.zero with k | k
    · left; rw [hE]; exact k
    · exact .inr fun c P => k c (hP P)
  · intro e c P; rw [hE]; exact hs.back e c (hP P)
  · intro e c P; exact (h.free c).2 (hs.enter e c (hP P))
  · intro e c P; rw [h.z c (hcn P)]; exact hs.live e c (hP P)
  · intro c P
    have hc := h.nx c (hcn P)
    rcases hs.ready c (hP P) with k | k
    · left
      refine ⟨by rw [hE, hc]; exact k.skip, fun hz => ?_⟩
      rw [h.z c (hcn P)] at hz
      obtain ⟨k1, k2⟩ := k.dead hz
      rw [hE, hc]
      exact ⟨k1, fun c' P' => k2 c' (hP P')⟩
    · right
      refine ⟨by rw [hE, hc]; exact k.back, ?_⟩
      intro c' m1 m2 m3 m4
      rw [hE] at m3
      have hc'n := (hs.lt _ _ m3).2
      rw [hc, h.nx c' hc'n] at m4
      obtain ⟨j1, j2, j3⟩ := k.all c' ((h.sing _).1 m1) m2 m3 m4
      refine ⟨by rw [h.z c' hc'n]; exact j1, (h.free _).2 j2, ?_⟩
      rw [hE, hc]
      intro d hd
      rcases j3 d hd with n | n | n | ⟨n1, n2, n3⟩
      · exact .inl n
      · exact .inr (.inl n)
      · exact .inr (.inr (.inl n))
      · exact .inr (.inr (.inr ⟨n1, by unfold Behind; rw [hE]; exact n2, (h.free _).2 n3⟩))

theorem Alike.looped (h : Alike g g') (hs : g.Looped) : g'.Looped := by
  have hf := hs.toClos
  have hE := h.eq
  have hpos := hf.pos
  refine ⟨h.clos hf, h.noPart hs.noPart, ?_, ?_, ?_, ?_⟩
  · intro x h1 h2
    have h3 := (h.acts x).1 h1
    have := h.n
    rw [h.nx x h3.1]
    exact hs.into0 x h3 (by omega)
  · rw [h.z 0 hpos]; exact hs.live0
  · intro c m1 m2 m3 m4 m5
    rw [hE] at m3 m4 m5
    have hcn := (hs.lt _ _ m3).2
    rw [h.nx c hcn] at m4 m5
    obtain ⟨j1, j2, j3⟩ := hs.loop c ((h.sing _).1 m1) m2 m3 m4 m5
    refine ⟨by rw [h.z c hcn]; exact j1, (h.free _).2 j2, ?_⟩
    rw [hE, h.nx c hcn]
    intro d hd
    rcases j3 d hd with n | n | ⟨n1, n2, n3⟩
    · exact .inl n
    · exact .inr (.inl n)
    · exact .inr (.inr ⟨n1, by unfold Behind; rw [hE]; exact n2, (h.free _).2 n3⟩)
  · intro e c P hno
    rw [hE] at hno ⊢
    have P := (h.pr hf).1 P
    obtain ⟨j1, j2, j3⟩ := hs.old e c P hno
    exact ⟨by rw [h.z c (hs.lt _ _ P.ec).2]; exact j1, (h.free _).2 j2, j3⟩

theorem Settled.sound (hs : g.Settled) : g.Sound :=
  ⟨hs.toClos.prunable hs.noPart, fun _ _ _ Q =>
    have k := (Q.alike hs.toClos hs.noPart).settled hs
    ⟨k.toClos, .inl k⟩⟩

theorem Looped.sound (hs : g.Looped) : g.Sound :=
  ⟨hs.toClos.prunable hs.noPart, fun _ _ _ Q =>
    have k := (Q.alike hs.toClos hs.noPart).looped hs
    ⟨k.toClos, .inr (by rw [k.toClos.cl_eq]; exact k)⟩⟩

theorem Fit.sound (h : g.Fit) : g.cl.Sound := by
  rcases h with h | h
  · rw [h.toClos.cl_eq]; exact h.sound
  · exact h.sound

end G
end Noodle
