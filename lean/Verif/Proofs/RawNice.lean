import Verif.Proofs.RawBlock
/-
The conditions on a block of states from which it follows that the closed automaton is trim, and how the blocks of
larger expressions get them from those of smaller ones.
-/
namespace Noodle
set_option autoImplicit false
namespace G

variable {h : G} {N : Nat}

/-- What the blocks of all expressions have. -/
structure Nice (g : G) (o q : Nat) : Prop where
  trim : ∀ x, o ≤ x → x < q → g.TrimAt x
  inside : 0 < o → o < q → g.fin o < q
  front : 0 < o → o < q → g.Sing (g.fin o) → ¬ (o ≤ g.fin (g.nx (g.fin o)) ∧ g.fin (g.nx (g.fin o)) < q) →
    ¬ g.Z (g.fin o) ∧ (∀ d, o ≤ d → d < q → g.End d → g.E d (g.fin o) → d = g.fin o) ∧
      ∀ y, o ≤ y → y < q → g.Acts y → g.fin (g.nx y) ≠ g.fin o

/-- No state of the block has a partner. -/
def Hard (g : G) (o q : Nat) : Prop := ∀ x, o ≤ x → x < q → ¬ g.Z x ∨ g.Sing x ∨ ∃ u v, g.Split x u v

theorem Split.end {g : G} (hf : g.Clos) {x u v : Nat} (s : g.Split x u v) : g.End x := fun k p =>
  s.no k (p.edge hf) (by have := p.lt; omega) ((p.iff _).2 ⟨s.eu, s.neu⟩) ((p.iff _).2 ⟨s.ev, s.nev⟩)

theorem Hard.end {g : G} (hf : g.Clos) {o q x : Nat} (s : g.Hard o q) (h1 : o ≤ x) (h2 : x < q) : g.End x := by
  rcases s x h1 h2 with k | k | ⟨u, v, k⟩
  · exact fun _ p => k p.z
  · exact sing_end hf k
  · exact k.end hf

/-! ### Larger blocks -/

theorem Nice.empty (g : G) (o : Nat) : g.Nice o o :=
  ⟨fun x h1 h2 => by omega, fun _ h2 => by omega, fun _ h2 => by omega⟩

/-- A chain of partners leaves a block at its exit. -/
theorem Env.chain_exit (E : h.Env N) {o p T x w : Nat} (b : h.Blk o p T) (hT : p ≤ T) (h1 : o ≤ x) (h2 : x < p)
    (c : h.cl.Chain x w) : (o ≤ w ∧ w < p) ∨ h.cl.Chain T w := by
  have hcl := E.clos
  induction c with
  | refl => exact .inl ⟨h1, h2⟩
  | @tail a k _ pt ih =>
    rcases ih with ⟨g1, g2⟩ | g
    · have ea := pt.edge hcl
      rcases b.exit ea.2 g1 (.inl g2) with k1 | ⟨k1, k2⟩
      · exact .inl k1
      · right
        have ek : h.cl.E k T := (pt.iff _).2 ⟨⟨ea.1, k1⟩, by omega⟩
        rw [E.anti ek.2 k2]
    · exact .inr (g.tail pt)

/-- What is reached by a state and lies behind its chain is reached by the end of the chain. -/
theorem Chain.reach {g : G} {x z y : Nat} (c : g.Chain x z) (e : g.E x y) (hy : z < y) : g.E z y := by
  induction c with
  | refl => exact e
  | @tail a k _ pt ih =>
    have := pt.lt
    exact (pt.iff _).2 ⟨ih (by omega), by omega⟩

theorem Nice.extend (E : h.Env N) {o p q : Nat} (n : h.cl.Nice o p) (hop : o < p) (hpq : p ≤ q) (hq : q ≤ N)
    (b : h.Blk o p p) (hi : 0 < o → p < q → h.cl.fin p < q ∨ h.Rt o p) (t : ∀ x, p ≤ x → x < q → h.cl.TrimAt x) :
    h.cl.Nice o q where
  trim := fun x h1 h2 => by
    by_cases hx : x < p
    · exact n.trim x h1 hx
    · exact t x (by omega) h2
  inside := fun h1 _ => by have := n.inside h1 hop; omega
  front := fun h1 hoq hs ho => by
    have hi' := n.inside h1 hop
    have hge := fin_ge (g := h.cl) o
    have hn := E.n
    rcases Nat.lt_or_ge p q with hlt | hge'
    · exfalso
      rcases hi h1 hlt with k | k
      · apply ho
        have hac : h.cl.Acts (h.cl.fin o) := ⟨by show _ < h.n; omega, .inr hs⟩
        have hx := b.nxt _ hge hi' (E.does hac)
        show o ≤ h.cl.fin (h.nx (h.cl.fin o)) ∧ h.cl.fin (h.nx (h.cl.fin o)) < q
        by_cases hxp : h.nx (h.cl.fin o) = p
        · rw [hxp]; have := fin_ge (g := h.cl) p; omega
        · rcases E.chain_exit b (Nat.le_refl _) (x := h.nx (h.cl.fin o)) (by omega) (by omega) (fin_chain _) with g | g
          · omega
          · have := end_unique' E.clos E.anti' g (fin_end _) (fin_chain p) (fin_end _)
            have := fin_ge (g := h.cl) p
            omega
      · have := (fin_chain (g := h.cl) o).reach ⟨by omega, k⟩ (y := p) (by omega)
        have := hs _ this
        omega
    · obtain rfl : p = q := by omega
      exact n.front h1 hop hs ho

/-- The block that follows a state with the same edges. -/
theorem Nice.dup (E : h.Env N) {o q : Nat} (n : h.cl.Nice (o + 1) q) (hq : o + 1 < q) (hz : h.Z o)
    (d : h.cl.Dup o (o + 1)) : h.cl.Nice o q where
  trim := fun x h1 h2 => by
    by_cases hx : x = o
    · subst hx; exact fun _ _ => .inl d
    · exact n.trim x (by omega) h2
  inside := fun h1 _ => by
    rw [fin_part E.clos E.anti' (d.part h1)]
    exact n.inside (by omega) hq
  front := fun h1 _ => by
    have hns : ¬ h.cl.Sing o := (d.part h1).notSing E.clos
    rw [fin_part E.clos E.anti' (d.part h1)]
    intro hs ho
    obtain ⟨k1, k2, k3⟩ := n.front (by omega) hq hs (fun hc => ho (by omega))
    refine ⟨k1, ?_, ?_⟩
    · intro d' d1 d2 de ed
      by_cases hd : d' = o
      · subst hd; exact absurd (d.part h1) (de _)
      · exact k2 d' (by omega) d2 de ed
    · intro y y1 y2 ya
      by_cases hy : y = o
      · subst hy
        rcases ya.2 with k | k
        · exact absurd hz k
        · exact absurd k hns
      · exact k3 y (by omega) y2 ya

/-- The block of a class. -/
theorem Nice.cls (E : h.Env N) {o : Nat} (ho : o < N) (hz : ¬ h.Z o) : h.cl.Nice o (o + 1) := by
  have key : ∀ x, o ≤ x → x < o + 1 → x = o := fun x h1 h2 => by omega
  have hf : h.cl.fin o = o := fin_of_end E.clos E.anti' (end_of_live hz)
  refine ⟨?_, ?_, ?_⟩
  · intro x h1 h2 z
    obtain rfl := key x h1 h2
    exact absurd z hz
  · intro _ _; rw [hf]; omega
  · intro _ _ _ _
    rw [hf]
    refine ⟨hz, fun d d1 d2 _ _ => key d d1 d2, ?_⟩
    intro y y1 y2 ya
    obtain rfl := key y y1 y2
    have := E.n
    have := E.fin_nx ya (by omega)
    show h.cl.fin (h.nx y) ≠ _
    omega

/-- A block whose first state has no partner and is not alone. -/
theorem Nice.ofEnd (E : h.Env N) {o q : Nat} (he : h.cl.End o) (hs : ¬ h.cl.Sing o) (t : ∀ x, o ≤ x → x < q → h.cl.TrimAt x) :
    h.cl.Nice o q := by
  have hf : h.cl.fin o = o := fin_of_end E.clos E.anti' he
  refine ⟨t, fun _ hq => by rw [hf]; exact hq, fun _ _ => ?_⟩
  rw [hf]
  exact fun k => absurd k hs

/-! ### A choice -/

/-- The state `o` can be left to the block `o + 1 ..< p`, which only `o` enters, and to `z`, which comes later. -/
structure Choice (h : G) (o p z : Nat) : Prop where
  z0 : h.Z o
  e1 : h.E o (o + 1)
  ez : h.E o z
  pz : p ≤ z
  op : o + 1 < p
  ctx : h.Ctx (o + 1) p
  only : ∀ d, h.E d (o + 1) → d = o
  nx : ∀ y, h.Does y → y < h.n → o + 1 ≤ h.nx y → h.nx y < p → o + 1 ≤ y ∧ y < p
  no : ¬ h.Rt (o + 1) (h.cl.fin z)
  nice : h.cl.Nice (o + 1) p

namespace Choice
variable {o p z : Nat} (c : h.Choice o p z)
include c

/-- The block is entered from `o`. -/
theorem enter {d y : Nat} (r : h.Rt d y) (h1 : o + 1 ≤ y) (h2 : y < p) (hd : ¬ (o + 1 ≤ d ∧ d < p)) :
    h.Rt d o ∧ h.Rt (o + 1) y := by
  obtain ⟨r1, r2⟩ := c.ctx.enter r h1 h2 hd
  refine ⟨?_, r2⟩
  have := c.op
  obtain ⟨m, r3, e⟩ := rt_last r1 (by omega)
  have := c.only m e
  subst this
  exact r3

theorem from_o {k : Nat} (r : h.Rt o k) (h1 : o + 1 ≤ k) (h2 : k < p) : h.Rt (o + 1) k :=
  (c.enter r h1 h2 (by omega)).2

theorem split (E : h.Env N) : h.cl.Split o (h.cl.fin (o + 1)) (h.cl.fin z) := by
  have hn := E.n
  have ho := E.dom _ _ c.e1
  have hp := c.op
  have hpz := c.pz
  have hcl := E.clos
  have hzn : z < h.n := E.rtlt (.single c.ez) (by omega)
  have hu1 : o + 1 ≤ h.cl.fin (o + 1) := fin_ge _
  have hu2 := c.nice.inside (by omega) hp
  have hv1 : z ≤ h.cl.fin z := fin_ge _
  have eu : h.cl.E o (h.cl.fin (o + 1)) :=
    hcl.trans _ _ _ ⟨by omega, .single c.e1⟩ (fin_edge hcl (by show _ < h.n; omega))
  have ev : h.cl.E o (h.cl.fin z) := hcl.trans _ _ _ ⟨by omega, .single c.ez⟩ (fin_edge hcl hzn)
  have no : ∀ k, h.cl.E o k → k ≠ o → h.cl.E k (h.cl.fin (o + 1)) → h.cl.E k (h.cl.fin z) → False := by
    intro k e1 hk e2 e3
    by_cases hb : o + 1 ≤ k ∧ k < p
    · exact c.no ((c.from_o e1.2 hb.1 hb.2).trans e3.2)
    · have := (c.enter e2.2 hu1 hu2 hb).1
      exact hk (E.anti this e1.2)
  have heo : h.cl.End o := fun k p => no k (p.edge hcl) (by have := p.lt; omega)
    ((p.iff _).2 ⟨eu, by omega⟩) ((p.iff _).2 ⟨ev, by omega⟩)
  refine ⟨fin_end _, fin_end _, by omega, by omega, eu, ev, no, ?_, ?_⟩
  · intro hs h1 h2 e1 e2
    obtain ⟨k1, k2, k3⟩ := c.nice.front (by omega) hp hs (fun hb => c.no ((c.from_o e1.2 hb.1 hb.2).trans e2.2))
    refine ⟨k1, ?_, ?_⟩
    · intro d hd e
      by_cases hb : o + 1 ≤ d ∧ d < p
      · exact .inl (k2 d hb.1 hb.2 hd e)
      · exact .inr ⟨e.1, (c.enter e.2 hu1 hu2 hb).1⟩
    · intro y hy
      by_cases hb : o + 1 ≤ y ∧ y < p
      · exact k3 y hb.1 hb.2 hy
      · intro heq
        have hc := fin_chain (g := h.cl) (h.nx y)
        have heq' : h.cl.fin (h.nx y) = h.cl.fin (o + 1) := heq
        rw [heq'] at hc
        have key : ∀ w, h.cl.Chain (h.nx y) w → ¬ (o + 1 ≤ w ∧ w < p) := by
          intro w hw
          induction hw with
          | refl => exact fun hb' => hb (c.nx y (E.does hy) hy.1 hb'.1 hb'.2)
          | @tail a b _ pt ih =>
            intro hb'
            have ea := pt.edge hcl
            obtain ⟨r1, r2⟩ := c.enter ea.2 hb'.1 hb'.2 ih
            by_cases hao : a = o
            · subst hao; exact heo _ pt
            · have eo : h.cl.E b o := (pt.iff _).2 ⟨⟨ea.1, r1⟩, fun k => hao k.symm⟩
              have := E.anti eo.2 (Relation.ReflTransGen.head c.e1 r2)
              omega
        exact key _ hc ⟨hu1, hu2⟩
  · intro hs h1 h2 e1 e2
    exfalso
    have hvn : h.cl.fin z < h.n := fin_lt hcl hzn
    by_cases hl : h.cl.fin z + 1 < h.n
    · have hac : h.cl.Acts (h.cl.fin z) := ⟨hvn, .inr hs⟩
      have := E.fin_nx hac hl
      have hb : ¬ (o + 1 ≤ h.cl.fin (h.cl.nx (h.cl.fin z)) ∧ h.cl.fin (h.cl.nx (h.cl.fin z)) < p) := by
        show ¬ (o + 1 ≤ h.cl.fin (h.nx (h.cl.fin z)) ∧ h.cl.fin (h.nx (h.cl.fin z)) < p)
        omega
      exact h1 (E.anti (c.enter e2.2 hu1 hu2 hb).1 e1.2)
    · have hN : h.cl.fin z = N := by omega
      apply h2
      rw [hN]
      show h.cl.fin (h.nx N) = N
      rw [E.lastNx, ← hN]
      exact fin_of_end hcl E.anti' (fin_end _)

theorem end_ (E : h.Env N) : h.cl.End o := (c.split E).end E.clos

theorem notSing (E : h.Env N) : ¬ h.cl.Sing o := fun hs => by
  have := hs _ ⟨by have := E.dom _ _ c.e1; have := E.n; omega, .single c.e1⟩
  omega

end Choice

/-! ### A loop -/

/-- The block `b ..< f`, which is not crossed, and a state `f` that leads back to its start and on. -/
structure Loop (h : G) (b f T : Nat) : Prop where
  pos : 0 < b
  lt : b < f
  ft : f < T
  zf : h.Z f
  ef : ∀ y, h.E f y ↔ y = b ∨ y = T
  blk : h.Blk b f f
  ctx : h.Ctx b f
  no : ¬ h.Rt b f
  inside : h.cl.fin b < f

namespace Loop
variable {b f T : Nat} (l : h.Loop b f T)
include l

theorem stuck {y : Nat} (r : h.Rt b y) : b ≤ y ∧ y < f := by
  have := l.lt
  rcases l.blk.exit r (Nat.le_refl _) (.inl this) with g | ⟨g, _⟩
  · exact g
  · exact absurd g l.no

theorem reach {y : Nat} (r : h.Rt f y) : y = f ∨ (b ≤ y ∧ y < f ∧ h.Rt b y) ∨ h.Rt T y := by
  by_cases hy : y = f
  · exact .inl hy
  · right
    obtain ⟨m, e, r'⟩ := rt_head r hy
    rcases (l.ef m).1 e with rfl | rfl
    · exact .inl ⟨(l.stuck r').1, (l.stuck r').2, r'⟩
    · exact .inr r'

theorem outer (nf : ¬ h.Rt T b) {y z : Nat} (r : h.Rt T y) (r' : h.Rt y z) (h1 : b ≤ z) (h2 : z < f) : False :=
  nf (l.ctx.enter (r.trans r') h1 h2 (by have := l.ft; omega)).1

theorem split (E : h.Env N) (nf : ¬ h.Rt T b) : h.cl.Split f (h.cl.fin b) (h.cl.fin T) := by
  have hn := E.n
  have hlt := l.lt
  have hft := l.ft
  have e1 : h.E f b := (l.ef b).2 (.inl rfl)
  have e2 : h.E f T := (l.ef _).2 (.inr rfl)
  have hf := E.dom _ _ e1
  have hTn : T < h.n := E.rtlt (.single e2) (by omega)
  have hcl := E.clos
  have hv : T ≤ h.cl.fin T := fin_ge _
  have hu1 : b ≤ h.cl.fin b := fin_ge _
  have hu2 := l.inside
  have eu : h.cl.E f (h.cl.fin b) := hcl.trans _ _ _ ⟨by omega, .single e1⟩ (fin_edge hcl (by show _ < h.n; omega))
  have ev : h.cl.E f (h.cl.fin T) := hcl.trans _ _ _ ⟨by omega, .single e2⟩ (fin_edge hcl hTn)
  have no : ∀ k, h.cl.E f k → k ≠ f → h.cl.E k (h.cl.fin b) → h.cl.E k (h.cl.fin T) → False := by
    intro k k1 k2 k3 k4
    rcases l.reach k1.2 with g | ⟨_, _, g⟩ | g
    · exact k2 g
    · have := l.stuck (g.trans k4.2); omega
    · exact l.outer nf g k3.2 hu1 hu2
  have hef : h.cl.End f := fun k p => no k (p.edge hcl) (by have := p.lt; omega)
    ((p.iff _).2 ⟨eu, by omega⟩) ((p.iff _).2 ⟨ev, by omega⟩)
  refine ⟨fin_end _, fin_end _, by omega, by omega, eu, ev, no, ?_, ?_⟩
  · intro hs h1 h2 k1 k2
    exfalso
    have hac : h.cl.Acts (h.cl.fin b) := ⟨by show _ < h.n; omega, .inr hs⟩
    have hnx := l.blk.nxt _ hu1 hu2 (E.does hac)
    have h1' : h.cl.fin (h.nx (h.cl.fin b)) ≠ f := h1
    have k1' : h.cl.E f (h.cl.fin (h.nx (h.cl.fin b))) := k1
    have k2' : h.cl.E (h.cl.fin (h.nx (h.cl.fin b))) (h.cl.fin T) := k2
    by_cases hx : h.nx (h.cl.fin b) = f
    · apply h1'
      rw [hx]; exact fin_of_end hcl E.anti' hef
    · rcases E.chain_exit l.blk (Nat.le_refl _) (x := h.nx (h.cl.fin b)) (by omega) (by omega) (fin_chain _) with g | g
      · rcases l.reach k1'.2 with g' | ⟨_, _, g'⟩ | g'
        · exact h1' g'
        · have := l.stuck (g'.trans k2'.2); omega
        · exact l.outer nf g' .refl g.1 g.2
      · exact h1' (end_unique' hcl E.anti' g (fin_end _) .refl hef)
  · intro hs h1 h2 k1 k2
    exfalso
    have hvn : h.cl.fin T < h.n := fin_lt hcl hTn
    by_cases hl : h.cl.fin T + 1 < h.n
    · have hac : h.cl.Acts (h.cl.fin T) := ⟨hvn, .inr hs⟩
      have hN := E.fin_nx hac hl
      have k1' : h.cl.E f (h.cl.fin (h.nx (h.cl.fin T))) := k1
      have k2' : h.cl.E (h.cl.fin (h.nx (h.cl.fin T))) (h.cl.fin b) := k2
      rcases l.reach k1'.2 with g | g | g
      · omega
      · omega
      · exact l.outer nf g k2'.2 hu1 hu2
    · have hN : h.cl.fin T = N := by omega
      apply h2
      rw [hN]
      show h.cl.fin (h.nx N) = N
      rw [E.lastNx, ← hN]
      exact fin_of_end hcl E.anti' (fin_end _)

/-- The state `f` has no partner, or the one that follows. -/
theorem cases (E : h.Env N) (hT : T = f + 1 ∨ ¬ h.Rt T b) : (∃ u v, h.cl.Split f u v) ∨ h.cl.Dup f (f + 1) := by
  by_cases nf : h.Rt T b
  · right
    obtain rfl : T = f + 1 := hT.resolve_right fun k => k nf
    refine E.dup_adj l.zf ((l.ef _).2 (.inr rfl)) fun y ey => ?_
    rcases (l.ef y).1 ey with rfl | rfl
    · exact nf
    · exact .refl
  · exact .inl ⟨_, _, l.split E nf⟩

theorem nice (E : h.Env N) (hT : T = f + 1 ∨ ¬ h.Rt T b) (n : h.cl.Nice b f) : h.cl.Nice b (f + 1) := by
  have hcl := E.clos
  have hn := E.n
  have hlt := l.lt
  have hfN := E.dom _ _ ((l.ef b).2 (.inl rfl))
  refine ⟨?_, ?_, ?_⟩
  · intro x h1 h2
    by_cases hx : x = f
    · subst hx
      intro _ _
      rcases l.cases E hT with k | k
      · exact .inr (.inr k)
      · exact .inl k
    · exact n.trim x h1 (by omega)
  · intro _ _; have := l.inside; omega
  · intro h0 _ hs ho
    have hge := fin_ge (g := h.cl) b
    have hin := l.inside
    have hac : h.cl.Acts (h.cl.fin b) := ⟨by show _ < h.n; omega, .inr hs⟩
    have hnx := l.blk.nxt _ hge hin (E.does hac)
    have ho' : ¬ (b ≤ h.cl.fin (h.nx (h.cl.fin b)) ∧ h.cl.fin (h.nx (h.cl.fin b)) < f + 1) := ho
    have hch : h.cl.fin (h.nx (h.cl.fin b)) = h.cl.fin f := by
      by_cases hx : h.nx (h.cl.fin b) = f
      · rw [hx]
      · rcases E.chain_exit l.blk (Nat.le_refl _) (x := h.nx (h.cl.fin b)) (by omega) (by omega) (fin_chain _) with g | g
        · omega
        · exact end_unique' hcl E.anti' g (fin_end _) (fin_chain _) (fin_end _)
    rcases l.cases E hT with ⟨u, v, k⟩ | k
    · exfalso
      apply ho'
      rw [hch, fin_of_end hcl E.anti' (k.end hcl)]
      omega
    · have pt := k.part (by omega)
      obtain ⟨k1, k2, k3⟩ := n.front h0 hlt hs fun hc => ho (by omega)
      refine ⟨k1, ?_, ?_⟩
      · intro d d1 d2 de ed
        by_cases hd : d = f
        · subst hd; exact absurd pt (de _)
        · exact k2 d d1 (by omega) de ed
      · intro y y1 y2 ya
        by_cases hy : y = f
        · subst hy
          rcases ya.2 with g | g
          · exact absurd l.zf g
          · exact absurd g (pt.notSing hcl)
        · exact k3 y y1 (by omega) ya

end Loop

theorem Hard.trim {g : G} {o q x : Nat} (s : g.Hard o q) (h1 : o ≤ x) (h2 : x < q) : g.TrimAt x := by
  intro hz hs
  rcases s x h1 h2 with k | k | k
  · exact absurd hz k
  · exact absurd k hs
  · exact .inr (.inr k)

/-- A loop that can be skipped. -/
structure Star (h : G) (o f T : Nat) : Prop extends Loop h (o + 1) f T where
  zo : h.Z o
  eo : ∀ y, h.E o y ↔ y = o + 1 ∨ y = f
  octx : h.Ctx o (f + 1)
  strict : h.Strict (o + 1) f
  hard : h.cl.Hard (o + 1) f

namespace Star
variable {o f T : Nat} (l : h.Star o f T)
include l

/-- The body is entered from outside the loop or its end. -/
theorem into {d : Nat} (r : h.Rt d (o + 1)) (hne : d ≠ o + 1) : h.Rt d o ∨ h.Rt d f := by
  have hlt := l.lt
  obtain ⟨m, r', e⟩ := rt_last r (fun k => hne k.symm)
  have hm := l.octx.cin m _ e (by omega) (by omega)
  by_cases hmo : m = o
  · subst hmo; exact .inl r'
  · by_cases hmf : m = f
    · subst hmf; exact .inr r'
    · have := l.strict m _ (by omega) (by omega) e
      omega

theorem intoF {d : Nat} (r : h.Rt d (o + 1)) (hne : d ≠ o + 1) : h.Rt d f := by
  rcases l.into r hne with k | k
  · exact k.tail ((l.eo f).2 (.inr rfl))
  · exact k

theorem nf (E : h.Env N) : ¬ h.Rt T (o + 1) := by
  intro r
  have hlt := l.lt
  have hft := l.ft
  have := E.anti (l.intoF r (by omega)) (.single ((l.ef T).2 (.inr rfl)))
  omega

/-- The whole loop is hard. -/
theorem hard' (E : h.Env N) : h.cl.Hard (o + 1) (f + 1) := fun x h1 h2 => by
  by_cases hx : x = f
  · subst hx; exact .inr (.inr ⟨_, _, l.split E (l.nf E)⟩)
  · exact l.hard x h1 (by omega)

theorem dup (E : h.Env N) : h.cl.Dup o f := by
  have hn := E.n
  have hlt := l.lt
  have hf := E.dom _ _ ((l.ef _).2 (.inl rfl))
  refine ⟨l.zo, by omega, by show _ < h.n; omega, fun z => ?_⟩
  constructor
  · rintro ⟨_, r⟩
    refine ⟨⟨by omega, .head ((l.eo f).2 (.inr rfl)) r⟩, ?_⟩
    rintro rfl
    have := E.anti r (.single ((l.eo f).2 (.inr rfl)))
    omega
  · rintro ⟨⟨_, r⟩, hne⟩
    refine ⟨by omega, ?_⟩
    obtain ⟨m, e, r'⟩ := rt_head r hne
    rcases (l.eo m).1 e with rfl | rfl
    · exact .head ((l.ef _).2 (.inl rfl)) r'
    · exact r'

theorem round (E : h.Env N) (hN : f + 1 ≤ N) : h.cl.Round o f := by
  have hn := E.n
  have hlt := l.lt
  have hcl := E.clos
  have hd := l.dup E
  refine ⟨hd, by show f + 1 < h.n; omega, fun z h1 h2 => (l.hard' E).end hcl (by omega) (by omega), ?_⟩
  rintro z h1 h2 ⟨x, p⟩
  have hx := p.lt
  have ex := p.edge hcl
  by_cases hxo : x = o
  · subst hxo
    have := p.uniq' hcl E.anti' (hd.part p.pos)
    omega
  · by_cases hb : o < x
    · exact (l.hard' E).end hcl (by omega) (by omega) z p
    · have := l.octx.enter ex.2 (by omega) (by omega) (by omega)
      have e2 : h.cl.E z o := (p.iff _).2 ⟨⟨ex.1, this.1⟩, by omega⟩
      have := l.strict.rt e2.2 (by omega) h2
      omega

theorem nice (E : h.Env N) (hN : f + 1 ≤ N) : h.cl.Nice o (f + 1) := by
  have hcl := E.clos
  have hn := E.n
  have hlt := l.lt
  have hfin : 0 < o → h.cl.fin o = f := fun h0 => by
    rw [fin_part hcl E.anti' ((l.dup E).part h0)]
    exact fin_of_end hcl E.anti' ((l.split E (l.nf E)).end hcl)
  refine ⟨?_, ?_, ?_⟩
  · intro x h1 h2
    by_cases hx : x = o
    · subst hx; exact fun _ _ => .inr (.inl ⟨_, l.round E hN⟩)
    · exact (l.hard' E).trim (by omega) h2
  · intro h0 _; rw [hfin h0]; omega
  · intro h0 _ hs
    rw [hfin h0] at hs
    have := hs T ⟨by omega, .single ((l.ef _).2 (.inr rfl))⟩
    have := l.ft
    omega

end Star

/-! ### The start -/

/-- The condition on the state after a leading loop, for what comes from `o` on. -/
def LeadOk (g : G) (o w : Nat) : Prop := ∀ c, o ≤ c → g.Sing c → c ≠ w → g.E w c → g.fin (g.nx c) = w →
  (∀ d, g.End d → d ≠ c → g.E d c → g.E d w) ∧ (∀ y, g.Acts y → g.fin (g.nx y) ≠ c) ∧
    (g.Z c → ∀ c', o ≤ c' → g.Sing c' → c' ≠ w → g.E w c' → g.fin (g.nx c') = w → c' = c)

/-- The condition on a block at the start. -/
def Lead (g : G) (o : Nat) : Prop := ∀ w, ((0 < o ∧ w = g.fin o) ∨ ∃ k, g.Dup o k ∧ w = g.fin k) →
  g.LeadOk o w ∨ g.LoopOk o w

/-- What comes later does not lead to what comes before. -/
theorem Env.nx_ne (E : h.Env N) {w c : Nat} (hs : h.cl.Sing c) (hne : w < c) (hc : c < h.n) : h.cl.fin (h.nx c) ≠ w := by
  have hn := E.n
  by_cases hl : c + 1 < h.n
  · have := E.fin_nx ⟨hc, .inr hs⟩ hl
    omega
  · obtain rfl : c = N := by omega
    rw [E.lastNx]
    have := fin_ge (g := h.cl) c
    omega

/-- The first state meets the condition. -/
theorem Env.leadOk (E : h.Env N) {w : Nat} : h.cl.LeadOk w w := by
  intro c hc hs hne e hfin
  exact absurd hfin (E.nx_ne hs (by omega) (E.rtlt e.2 e.1))

theorem Dup.not_split {g : G} (hf : g.Clos) {x k u v : Nat} (d : g.Dup x k) (s : g.Split x u v) : False :=
  s.no k ((d.iff k).1 (hf.refl k d.kn)).1 (by have := d.lt; omega) ((d.iff _).2 ⟨s.eu, s.neu⟩) ((d.iff _).2 ⟨s.ev, s.nev⟩)

theorem Dup.uniq {g : G} (hf : g.Clos) (ha : g.Anti) {x k k' : Nat} (h : g.Dup x k) (h' : g.Dup x k') : k = k' :=
  ha _ _ ((h.iff _).2 ((h'.iff _).1 (hf.refl _ h'.kn))) ((h'.iff _).2 ((h.iff _).1 (hf.refl _ h.kn)))

/-- Hard blocks meet the condition. -/
theorem Lead.hard (E : h.Env N) {o q : Nat} (s : h.cl.Hard o q) (ho : o < q) : h.cl.Lead o := by
  have hcl := E.clos
  rintro w (⟨_, rfl⟩ | ⟨k, d, rfl⟩)
  · rw [fin_of_end hcl E.anti' (s.end hcl (Nat.le_refl _) ho)]
    exact .inl E.leadOk
  · exfalso
    rcases s o (Nat.le_refl _) ho with g | g | ⟨u, v, g⟩
    · exact g d.z
    · have := g k ((d.iff k).1 (hcl.refl k d.kn)).1
      have := d.lt
      omega
    · exact d.not_split hcl g

theorem Lead.dup (E : h.Env N) {o : Nat} (l : h.cl.Lead (o + 1)) (d : h.cl.Dup o (o + 1)) : h.cl.Lead o := by
  have hcl := E.clos
  have main : h.cl.LeadOk o (h.cl.fin (o + 1)) ∨ h.cl.LoopOk o (h.cl.fin (o + 1)) := by
    have hns : ∀ c, o ≤ c → h.cl.Sing c → o + 1 ≤ c := by
      intro c hc hs
      by_contra hlt
      obtain rfl : c = o := by omega
      have := hs _ ((d.iff _).1 (hcl.refl _ d.kn)).1
      omega
    rcases l _ (.inl ⟨by omega, rfl⟩) with k | k
    · left
      intro c hc hs hne e hfin
      obtain ⟨k1, k2, k3⟩ := k c (hns c hc hs) hs hne e hfin
      exact ⟨k1, k2, fun hz c' hc' hs' => k3 hz c' (hns c' hc' hs') hs'⟩
    · right
      intro c hc hs hne e hfin
      obtain ⟨k1, k2, k3⟩ := k c (hns c hc hs) hs hne e hfin
      refine ⟨k1, k2, fun d' hd' e' => ?_⟩
      rcases k3 d' hd' e' with g | g | ⟨g1, g2, g3, g4⟩
      · exact .inl g
      · exact .inr (.inl g)
      · refine .inr (.inr ⟨g1, g2, g3, fun r x hr hx he ex => ?_⟩)
        by_cases hro : r = o
        · subst hro
          by_cases h0 : 0 < r
          · left
            have := fin_of_chain hcl E.anti' hx
            rw [fin_of_end hcl E.anti' he, fin_part hcl E.anti' (d.part h0)] at this
            exact this.symm
          · right; left
            rcases Relation.ReflTransGen.cases_head hx with g | ⟨a, pt, _⟩
            · omega
            · exact absurd pt.pos h0
        · exact g4 r x (by omega) hx he ex
  rintro w (⟨h0, rfl⟩ | ⟨k, d', rfl⟩)
  · rw [fin_part hcl E.anti' (d.part h0)]
    exact main
  · rw [← d.uniq hcl E.anti' d']
    exact main

theorem Star.lead {o f T : Nat} (l : h.Star o f T) (E : h.Env N) (hq : h.Quiet (o + 1)) : h.cl.Lead o := by
  have hcl := E.clos
  have hn := E.n
  have hlt := l.lt
  have hft := l.ft
  have hef := (l.split E (l.nf E)).end hcl
  have hff := fin_of_end hcl E.anti' hef
  have hfN := E.dom _ _ ((l.ef _).2 (.inl rfl))
  have main : h.cl.LeadOk o f := by
    have what : ∀ c, o ≤ c → h.cl.Sing c → c ≠ f → h.cl.E f c → h.cl.fin (h.cl.nx c) = f → c = o + 1 := by
      intro c hoc hs hne e hfin
      have hfin' : h.cl.fin (h.nx c) = f := hfin
      rcases l.reach e.2 with g | ⟨_, _, g⟩ | g
      · exact absurd g hne
      · exact hq.rt g
      · exfalso
        by_cases hcf : f < c
        · exact E.nx_ne hs hcf (E.rtlt e.2 e.1) hfin'
        · have r := (l.octx.enter g hoc (by omega) (by omega)).1
          have := E.anti r (.head ((l.eo f).2 (.inr rfl)) (.single ((l.ef T).2 (.inr rfl))))
          omega
    intro c hoc hs hne e hfin
    obtain rfl := what c hoc hs hne e hfin
    refine ⟨?_, ?_, fun _ c' h1 h2 h3 h4 h5 => what c' h1 h2 h3 h4 h5⟩
    · intro d _ hd ed
      exact ⟨ed.1, l.intoF ed.2 hd⟩
    · intro y ya heq
      have hc := fin_chain (g := h.cl) (h.nx y)
      have heq' : h.cl.fin (h.nx y) = o + 1 := heq
      rw [heq'] at hc
      have hnx : h.nx y ≠ o + 1 := by
        intro hx
        have hy := l.octx.cnx y (E.does ya) ya.1 (by omega) (by omega)
        have := E.ahead ya (by omega)
        obtain rfl : y = o := by omega
        rcases E.does ya with g | g
        · exact g l.zo
        · exact g _ ((l.eo f).2 (.inr rfl))
      rcases Relation.ReflTransGen.cases_tail hc with g | ⟨a, _, pt⟩
      · exact hnx g.symm
      · have ea := pt.edge hcl
        have hal := pt.lt
        have bad : ∀ m, h.Rt a m → m ≠ o + 1 → m ≠ a → False := fun m r h1 h2 => by
          have : h.cl.E (o + 1) m := (pt.iff _).2 ⟨⟨ea.1, r⟩, h2⟩
          exact h1 (hq.rt this.2)
        rcases l.into ea.2 (by omega) with g | g
        · by_cases hao : a = o
          · subst hao
            exact bad f (.single ((l.eo f).2 (.inr rfl))) (by rintro rfl; exact hq _ ((l.ef T).2 (.inr rfl))) (by omega)
          · exact bad o g (by omega) (fun k => hao k.symm)
        · exact bad f g (by rintro rfl; exact hq _ ((l.ef T).2 (.inr rfl))) (by omega)
  rintro w (⟨h0, rfl⟩ | ⟨k, d, rfl⟩)
  · rw [fin_part hcl E.anti' ((l.dup E).part h0), hff]; exact .inl main
  · rw [← (l.dup E).uniq hcl E.anti' d, hff]; exact .inl main

/-- A loop whose body is a tree. -/
theorem Star.leadLoop {o f T : Nat} (l : h.Star o f T) (E : h.Env N) (hfN : f + 1 ≤ N)
    (firm : ∀ x, o + 1 ≤ x → x < f → h.Quiet x → ¬ h.Z x)
    (tree : ∀ v, o + 1 ≤ v → v < f → h.Rt (o + 1) v → ∀ y, o + 1 ≤ y → y < f → h.Does y → h.nx y ≠ v)
    (trunk : ∀ v, h.Rt (o + 1) v → ∀ d, o + 1 ≤ d → d < f → h.Rt d v → h.Rt (o + 1) d) : h.cl.Lead o := by
  have hcl := E.clos
  have hn := E.n
  have hlt := l.lt
  have hft := l.ft
  have hef := (l.split E (l.nf E)).end hcl
  have hff := fin_of_end hcl E.anti' hef
  have rd := l.round E hfN
  -- what the loop starts with is not entered
  have free : ∀ v, h.Rt (o + 1) v → ∀ y, h.cl.Acts y → h.cl.fin (h.cl.nx y) ≠ v := by
    intro v rv y ya heq
    have hv := l.stuck rv
    have hc := fin_chain (g := h.cl) (h.nx y)
    have heq' : h.cl.fin (h.nx y) = v := heq
    rw [heq'] at hc
    have hnx : h.nx y = v := by
      rcases Relation.ReflTransGen.cases_tail hc with g | ⟨a, _, pt⟩
      · exact g.symm
      · exact absurd ⟨a, pt⟩ (rd.noDel v (by omega) hv.2)
    by_cases hvo : v = o + 1
    · have hy := l.octx.cnx y (E.does ya) ya.1 (by omega) (by omega)
      have := E.ahead ya (by omega)
      obtain rfl : y = o := by omega
      rcases E.does ya with g | g
      · exact g l.zo
      · exact g _ ((l.eo f).2 (.inr rfl))
    · have hy := l.ctx.cnx y (E.does ya) ya.1 (by omega) (by omega)
      exact tree v hv.1 hv.2 rv y hy.1 hy.2 (E.does ya) hnx
  have main : h.cl.LoopOk o f := by
    intro c hoc hs hne e hfin
    have hfin' : h.cl.fin (h.nx c) = f := hfin
    have rc : h.Rt (o + 1) c := by
      rcases l.reach e.2 with g | ⟨_, _, g⟩ | g
      · exact absurd g hne
      · exact g
      · exfalso
        by_cases hcf : f < c
        · exact E.nx_ne hs hcf (E.rtlt e.2 e.1) hfin'
        · have r := (l.octx.enter g hoc (by omega) (by omega)).1
          have := E.anti r (.head ((l.eo f).2 (.inr rfl)) (.single ((l.ef T).2 (.inr rfl))))
          omega
    have hcb := l.stuck rc
    refine ⟨?_, free c rc, fun d hd ed => ?_⟩
    · refine firm c hcb.1 hcb.2 fun y ey => ?_
      have hy : y = c := hs y ⟨by omega, .single ey⟩
      have := l.strict c y hcb.1 hcb.2 ey
      omega
    · by_cases hdb : o + 1 ≤ d ∧ d < f
      · right; right
        have rdd := trunk c rc d hdb.1 hdb.2 ed.2
        refine ⟨⟨by omega, .head ((l.ef _).2 (.inl rfl)) rdd⟩, rd.noDel d (by omega) hdb.2, free d rdd, ?_⟩
        intro r x hr hx hxe ex
        by_cases hxf : x = f
        · exact .inl hxf
        · by_cases hx0 : x = 0
          · exact .inr (.inl hx0)
          · right; right
            have hxgt : f < x := by
              by_contra hle
              have hxo := hx.le
              by_cases hxo : x = o
              · subst hxo
                exact hxe _ ((l.dup E).part (by omega))
              · have := l.strict.rt ex.2 (by omega) (by omega)
                omega
            have key : ∀ a, h.cl.Chain a x → o ≤ a → f < a := by
              intro a ha
              induction ha using Relation.ReflTransGen.head_induction_on with
              | refl => exact fun _ => hxgt
              | @head a b pt _ ih =>
                intro hoa
                have hb := ih (by have := pt.lt; omega)
                by_contra hle
                by_cases hao : a = o
                · subst hao
                  have := pt.uniq' hcl E.anti' ((l.dup E).part pt.pos)
                  omega
                · exact (l.hard' E).end hcl (by omega) (by omega) b pt
            have := key r hx hr
            omega
      · right; left
        have r1 := (l.ctx.enter ed.2 hcb.1 hcb.2 hdb).1
        exact ⟨ed.1, l.intoF r1 (by omega)⟩
  rintro w (⟨h0, rfl⟩ | ⟨k, d, rfl⟩)
  · rw [fin_part hcl E.anti' ((l.dup E).part h0), hff]; exact .inr main
  · rw [← (l.dup E).uniq hcl E.anti' d, hff]; exact .inr main

end G
end Noodle
