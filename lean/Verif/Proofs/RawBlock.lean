import Verif.Proofs.Trim
/-
Blocks of states of an unclosed automaton, its closure, and the conditions under which the closure is trim,
on the bare relations.
-/
namespace Noodle
set_option autoImplicit false
namespace G

/-- No epsilon edges leave. -/
def Quiet (h : G) (x : Nat) : Prop := ∀ y, ¬ h.E x y

/-- States whose target matters. -/
def Does (h : G) (x : Nat) : Prop := ¬ h.Z x ∨ h.Quiet x

/-- An edge between states in `o ..< q`. -/
def In (h : G) (o q x y : Nat) : Prop := h.E x y ∧ (o ≤ x ∧ x < q) ∧ o ≤ y ∧ y < q

/-- The edges between the states `o ..< q` cannot be followed in a circle. -/
def Acy (h : G) (o q : Nat) : Prop := ∀ x, ¬ Relation.TransGen (h.In o q) x x

/-- The facts about the states `o ..< q`: edges stay or lead to the exit `T`, and make no circle; symbol edges go
forward, and stay or lead to `T`. -/
structure Blk (h : G) (o q T : Nat) : Prop where
  out : ∀ x y, o ≤ x → x < q → h.E x y → o < y ∧ (y < q ∨ y = T) ∧ y ≠ x
  acy : h.Acy o q
  nxt : ∀ x, o ≤ x → x < q → h.Does x → x < h.nx x ∧ (h.nx x < q ∨ h.nx x = T)

/-- No edge reaches the end. -/
def Strict (h : G) (o q : Nat) : Prop := ∀ x y, o ≤ x → x < q → h.E x y → x < y ∧ y < q

/-- The states `o ..< q` are entered only at `o`. -/
structure Ctx (h : G) (o q : Nat) : Prop where
  cin : ∀ x y, h.E x y → o < y → y < q → o ≤ x ∧ x < q
  cnx : ∀ y, h.Does y → y < h.n → o < h.nx y → h.nx y < q → o ≤ y ∧ y < q

/-- The whole automaton. -/
structure Env (h : G) (N : Nat) : Prop where
  n : h.n = N + 1
  dom : ∀ x y, h.E x y → x < N
  blk : h.Blk 0 N N
  lastZ : ¬ h.Z N
  lastNx : h.nx N = N
  nxlt : ∀ x, x < h.n → h.nx x < h.n

variable {h : G} {N : Nat}

/-! ### Blocks -/

theorem In.right {o q x y : Nat} (e : Relation.TransGen (h.In o q) x y) : o ≤ y ∧ y < q := by
  induction e with
  | single e => exact e.2.2
  | tail _ e _ => exact e.2.2

theorem In.left {o q x y : Nat} (e : Relation.TransGen (h.In o q) x y) : o ≤ x ∧ x < q := by
  induction e with
  | single e => exact e.2.1
  | tail _ _ ih => exact ih

theorem Acy.append {o p q : Nat} (a1 : h.Acy o p) (a2 : h.Acy p q)
    (h2 : ∀ x y, p ≤ x → x < q → h.E x y → p ≤ y) : h.Acy o q := by
  intro x e
  by_cases hx : x < p
  · have key : ∀ y, Relation.TransGen (h.In o q) x y → y < p → Relation.TransGen (h.In o p) x y := by
      intro y r
      induction r with
      | single e => exact fun hy => .single ⟨e.1, ⟨e.2.1.1, hx⟩, e.2.2.1, hy⟩
      | @tail m y _ e ih =>
        intro hy
        have hm : m < p := by
          by_contra hm
          have := h2 m y (by omega) e.2.1.2 e.1
          omega
        exact .tail (ih hm) ⟨e.1, ⟨e.2.1.1, hm⟩, e.2.2.1, hy⟩
    exact a1 x (key x e hx)
  · have key : ∀ y, Relation.TransGen (h.In o q) x y → p ≤ y ∧ Relation.TransGen (h.In p q) x y := by
      intro y r
      induction r with
      | single e =>
        have := h2 _ _ (by omega) e.2.1.2 e.1
        exact ⟨this, .single ⟨e.1, ⟨by omega, e.2.1.2⟩, this, e.2.2.2⟩⟩
      | tail _ e ih =>
        have := h2 _ _ ih.1 e.2.1.2 e.1
        exact ⟨this, .tail ih.2 ⟨e.1, ⟨ih.1, e.2.1.2⟩, this, e.2.2.2⟩⟩
    exact a2 x (key x e).2

/-- A loop around a block that is not crossed. -/
theorem Acy.loop {b e T : Nat} (a : h.Acy b e) (hT : e < T) (he : ∀ y, h.E e y → y = b ∨ y = T) (no : ¬ h.Rt b e) :
    h.Acy b (e + 1) := by
  have sp : ∀ x y, Relation.TransGen (h.In b (e + 1)) x y → Relation.TransGen (h.In b e) x y ∨
      (Relation.ReflTransGen (h.In b (e + 1)) x e ∧ Relation.ReflTransGen (h.In b (e + 1)) e y) := by
    intro x y r
    induction r with
    | @single y k =>
      by_cases hx : x = e
      · subst hx; exact .inr ⟨.refl, .single k⟩
      · by_cases hy : y = e
        · subst hy; exact .inr ⟨.single k, .refl⟩
        · have := k.2
          exact .inl (.single ⟨k.1, by omega, by omega⟩)
    | @tail m y r k ih =>
      rcases ih with ih | ih
      · by_cases hy : y = e
        · subst hy; exact .inr ⟨r.to_reflTransGen.tail k, .refl⟩
        · have := k.2
          have := In.right ih
          exact .inl (.tail ih ⟨k.1, by omega, by omega⟩)
      · exact .inr ⟨ih.1, ih.2.tail k⟩
  intro x r
  rcases sp x x r with g | ⟨g1, g2⟩
  · exact a x g
  · have cyc : Relation.TransGen (h.In b (e + 1)) e e := Relation.TransGen.trans_right g2 (r.trans_left g1)
    obtain ⟨m, k, g⟩ := (Relation.TransGen.head'_iff).1 cyc
    rcases he m k.1 with rfl | rfl
    · exact no (Relation.ReflTransGen.mono (r := h.In m (e + 1)) (p := h.E) (fun _ _ k => k.1) _ _ g)
    · have := k.2; omega

theorem Acy.one {o : Nat} (hE : ¬ h.E o o) : h.Acy o (o + 1) := by
  intro x e
  obtain ⟨m, k, _⟩ := (Relation.TransGen.head'_iff).1 e
  have := k.2
  obtain rfl : x = o := by omega
  obtain rfl : m = x := by omega
  exact hE k.1

theorem Blk.empty (o T : Nat) : h.Blk o o T :=
  ⟨fun x y h1 h2 => by omega, fun x e => by have := In.left e; omega, fun x h1 h2 => by omega⟩

theorem Blk.cls {o T : Nat} (hq : h.Quiet o) (hn : h.nx o = T) (hT : o < T) : h.Blk o (o + 1) T := by
  have key : ∀ x, o ≤ x → x < o + 1 → x = o := fun x h1 h2 => by omega
  refine ⟨?_, ?_, ?_⟩
  · intro x y h1 h2 e; obtain rfl := key x h1 h2; exact absurd e (hq y)
  · exact .one (hq o)
  · intro x h1 h2 _; obtain rfl := key x h1 h2; exact ⟨by omega, .inr hn⟩

theorem Blk.append {o p q T1 T2 : Nat} (b1 : h.Blk o p T1) (b2 : h.Blk p q T2) (h1 : o ≤ p) (h2 : p ≤ q)
    (hT : (T1 = p ∧ (p < q ∨ p = T2)) ∨ T1 = T2) : h.Blk o q T2 where
  out := fun x y hx hx' e => by
    by_cases hp : x < p
    · have := b1.out x y hx hp e; omega
    · have := b2.out x y (by omega) hx' e; omega
  acy := b1.acy.append b2.acy fun x y h1 h2 e => by have := b2.out x y h1 h2 e; omega
  nxt := fun x hx hx' hd => by
    by_cases hp : x < p
    · have := b1.nxt x hx hp hd; omega
    · have := b2.nxt x (by omega) hx' hd; omega

theorem Strict.append {o p q : Nat} (b1 : h.Strict o p) (b2 : h.Strict p q) (h2 : p ≤ q) : h.Strict o q := by
  intro x y hx hx' e
  by_cases hp : x < p
  · have := b1 x y hx hp e; omega
  · have := b2 x y (by omega) hx' e; omega

theorem Ctx.left {o p q T1 T2 : Nat} (c : h.Ctx o q) (_b1 : h.Blk o p T1) (b2 : h.Blk p q T2) (h2 : p ≤ q) : h.Ctx o p where
  cin := fun x y e h3 h4 => by
    have := c.cin x y e h3 (by omega)
    refine ⟨this.1, ?_⟩
    by_contra hx
    have := b2.out x y (by omega) this.2 e
    omega
  cnx := fun y hd hn h3 h4 => by
    have := c.cnx y hd hn h3 (by omega)
    refine ⟨this.1, ?_⟩
    by_contra hx
    have := b2.nxt y (by omega) this.2 hd
    omega

theorem Ctx.right {o p q T1 : Nat} (c : h.Ctx o q) (b1 : h.Blk o p T1) (h1 : o ≤ p) (hT : T1 ≤ p ∨ q ≤ T1) :
    h.Ctx p q where
  cin := fun x y e h3 h4 => by
    have := c.cin x y e (by omega) h4
    refine ⟨?_, this.2⟩
    by_contra hx
    have := b1.out x y this.1 (by omega) e
    omega
  cnx := fun y hd hn h3 h4 => by
    have := c.cnx y hd hn (by omega) h4
    refine ⟨?_, this.2⟩
    by_contra hx
    have := b1.nxt y this.1 (by omega) hd
    omega

/-- A strict block is not left. -/
theorem Strict.rt {o q x y : Nat} (s : h.Strict o q) (r : h.Rt x y) (h1 : o ≤ x) (h2 : x < q) : x ≤ y ∧ y < q := by
  induction r with
  | refl => exact ⟨Nat.le_refl _, h2⟩
  | tail _ e ih =>
    have := s _ _ (by omega) ih.2 e
    omega

/-- A block is left at its exit. -/
theorem Blk.exit {o q T x y : Nat} (b : h.Blk o q T) (r : h.Rt x y) (h1 : o ≤ x) (h2 : x < q ∨ x = T) :
    (o ≤ y ∧ y < q) ∨ (h.Rt x T ∧ h.Rt T y) := by
  induction r with
  | refl =>
    by_cases hx : x < q
    · exact .inl ⟨h1, hx⟩
    · obtain rfl : x = T := by omega
      exact .inr ⟨.refl, .refl⟩
  | @tail m y r e ih =>
    rcases ih with ⟨k1, k2⟩ | ⟨k1, k2⟩
    · have := b.out m y k1 k2 e
      by_cases hy : y < q
      · exact .inl ⟨by omega, hy⟩
      · obtain rfl : y = T := by omega
        exact .inr ⟨r.tail e, .refl⟩
    · exact .inr ⟨k1, k2.tail e⟩

/-- A block is entered at its start. -/
theorem Ctx.enter {o q d y : Nat} (c : h.Ctx o q) (r : h.Rt d y) (h1 : o ≤ y) (h2 : y < q) (hd : ¬ (o ≤ d ∧ d < q)) :
    h.Rt d o ∧ h.Rt o y := by
  induction r with
  | refl => exact absurd ⟨h1, h2⟩ hd
  | @tail m y r e ih =>
    by_cases hy : y = o
    · subst hy; exact ⟨r.tail e, .refl⟩
    · have hm := c.cin m y e (by omega) h2
      have := ih hm.1 hm.2
      exact ⟨this.1, this.2.tail e⟩

/-- What is not `x` itself is reached by a first edge. -/
theorem rt_head {x y : Nat} (r : h.Rt x y) (hne : y ≠ x) : ∃ m, h.E x m ∧ h.Rt m y := by
  rcases Relation.ReflTransGen.cases_head r with k | ⟨m, e, k⟩
  · exact absurd k.symm hne
  · exact ⟨m, e, k⟩

theorem rt_last {x y : Nat} (r : h.Rt x y) (hne : y ≠ x) : ∃ m, h.Rt x m ∧ h.E m y := by
  rcases Relation.ReflTransGen.cases_tail r with k | ⟨m, e, k⟩
  · exact absurd k hne
  · exact ⟨m, e, k⟩

theorem Quiet.rt {x y : Nat} (q : h.Quiet x) (r : h.Rt x y) : y = x := by
  by_contra hne
  obtain ⟨m, e, _⟩ := rt_head r hne
  exact q m e

/-! ### The whole automaton -/

theorem Env.anti (E : h.Env N) {x y : Nat} (r : h.Rt x y) (r' : h.Rt y x) : x = y := by
  by_contra hne
  have key : ∀ z, Relation.TransGen h.E x z → z < N → Relation.TransGen (h.In 0 N) x z := by
    intro z r
    induction r with
    | single e => exact fun hz => .single ⟨e, ⟨by omega, E.dom _ _ e⟩, by omega, hz⟩
    | tail _ e ih => exact fun hz => .tail (ih (E.dom _ _ e)) ⟨e, ⟨by omega, E.dom _ _ e⟩, by omega, hz⟩
  have hc : Relation.TransGen h.E x x := by
    rcases Relation.reflTransGen_iff_eq_or_transGen.1 r with k | k
    · exact absurd k.symm hne
    · exact k.trans_left r'
  obtain ⟨m, k, _⟩ := (Relation.TransGen.head'_iff).1 hc
  exact E.blk.acy x (key x hc (E.dom _ _ k))

theorem Env.rtlt (E : h.Env N) {x y : Nat} (r : h.Rt x y) (hx : x < h.n) : y < h.n := by
  have hn := E.n
  induction r with
  | refl => exact hx
  | tail _ e _ =>
    have := E.blk.out _ _ (by omega) (E.dom _ _ e) e
    omega

theorem Env.quiet_last (E : h.Env N) : h.Quiet N := fun y e => by
  have := E.dom _ _ e; omega

theorem sing_of_quiet {x : Nat} (q : h.Quiet x) : h.cl.Sing x := fun _ e => q.rt e.2

theorem Env.quiet_of_sing (E : h.Env N) {x : Nat} (hx : x < h.n) (s : h.cl.Sing x) : h.Quiet x := by
  intro y e
  have := s y ⟨hx, .single e⟩
  have := E.blk.out x y (by omega) (E.dom _ _ e) e
  omega

theorem Env.clos (E : h.Env N) : h.cl.Clos where
  lt := fun _ _ e => ⟨e.1, E.rtlt e.2 e.1⟩
  refl := fun _ hx => ⟨hx, .refl⟩
  trans := fun _ _ _ e e' => ⟨e.1, e.2.trans e'.2⟩
  nxlt := E.nxlt
  pos := by have := E.n; show 0 < h.n; omega
  lastZ := by
    have := E.n
    show ¬ h.Z (h.n - 1)
    rw [this]; exact E.lastZ
  lastSing := by
    have := E.n
    show h.cl.Sing (h.n - 1)
    rw [this]; exact sing_of_quiet E.quiet_last
  lastNx := by
    have := E.n
    show h.nx (h.n - 1) = h.n - 1
    rw [this]; exact E.lastNx

theorem Env.anti' (E : h.Env N) : h.cl.Anti := fun _ _ e e' => E.anti e.2 e'.2

theorem Env.does (E : h.Env N) {x : Nat} (a : h.cl.Acts x) : h.Does x :=
  a.2.imp id fun s => E.quiet_of_sing a.1 s

theorem acts_of_does {x : Nat} (hx : x < h.n) (d : h.Does x) : h.cl.Acts x := ⟨hx, d.imp id sing_of_quiet⟩

theorem Env.ahead (E : h.Env N) {x : Nat} (a : h.cl.Acts x) (hx : x + 1 < h.n) : x < h.nx x :=
  (E.blk.nxt x (by omega) (by have := E.n; omega) (E.does a)).1

theorem Env.start (E : h.Env N) {d : Nat} (e : h.cl.E d 0) : d = 0 := by
  by_contra hd
  obtain ⟨m, _, e'⟩ := rt_last e.2 (by omega)
  have := E.blk.out m 0 (by omega) (E.dom _ _ e') e'
  omega

/-- The target of what acts is later, and so is the end of its chain; but for the last state. -/
theorem Env.fin_nx (E : h.Env N) {x : Nat} (a : h.cl.Acts x) (hx : x + 1 < h.n) : x < h.cl.fin (h.nx x) :=
  Nat.lt_of_lt_of_le (E.ahead a hx) (fin_ge _)

theorem Env.ctx (E : h.Env N) : h.Ctx 0 N where
  cin := fun x y e _ _ => ⟨by omega, E.dom _ _ e⟩
  cnx := fun y _ hn h1 h2 => by
    have := E.n
    refine ⟨by omega, ?_⟩
    by_contra hy
    obtain rfl : y = N := by omega
    have := E.lastNx
    omega

/-- A state all of whose edges lead through the next one. -/
theorem Env.dup_adj (E : h.Env N) {x : Nat} (hz : h.Z x) (e : h.E x (x + 1)) (he : ∀ y, h.E x y → h.Rt (x + 1) y) :
    h.cl.Dup x (x + 1) := by
  have hx := E.dom _ _ e
  have hn := E.n
  refine ⟨hz, by omega, by show _ < h.n; omega, fun z => ?_⟩
  constructor
  · rintro ⟨_, r⟩
    refine ⟨⟨by omega, .head e r⟩, ?_⟩
    rintro rfl
    have := E.anti (.single e) r
    omega
  · rintro ⟨⟨_, r⟩, hne⟩
    obtain ⟨m, e', r'⟩ := rt_head r hne
    exact ⟨by omega, (he m e').trans r'⟩

/-- A state that reads a symbol has no partner. -/
theorem end_of_live {x : Nat} (hz : ¬ h.Z x) : h.cl.End x := fun _ p => hz p.z

end G
end Noodle
