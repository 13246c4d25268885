import Verif.Proofs.RawNice
/-
The shapes of the blocks of states that are built for expressions, on the bare relations; an automaton that is such a
block and a final state is trim once it is closed.
-/
namespace Noodle
set_option autoImplicit false
namespace G

mutual
/-- The block `o ..< q`, whose exit is `T`. The index says how much is merged: at level 0 the block is rigid and nothing in
it is merged; at level 1 all blocks with an exit elsewhere end with a symbol; at level 2 they may end with a loop. -/
inductive Shape (h : G) : Nat → Nat → Nat → Nat → Prop
  | weak {r r' o q T} : Shape h r o q T → r ≤ r' → Shape h r' o q T
  | empty {o} : Shape h 0 o o o
  | cls {o T} : h.Quiet o → ¬ h.Z o → h.nx o = T → o < T → Shape h 0 o (o + 1) T
  | app {r o p q T} : Shape h r o p p → Shape h r p q T → Shape h r o q T
  /-- A start that adds nothing. -/
  | dup {r f o p q l} : 1 ≤ r → h.Z o → h.E o (o + 1) → (∀ y, h.E o y → (y = o + 1 ∨ y ∈ l) ∧ h.Rt (o + 1) y) →
      Shape h r (o + 1) p p → o + 1 < p → (p < q → h.Rt (o + 1) p ∨ 2 ≤ l.length) → Row h r f p q l →
      Shape h r o q q
  /-- A start with two ways on, of which the first reads a symbol. -/
  | split {r f o p q l z} : 1 ≤ r → h.Z o → h.E o (o + 1) → h.E o z → z ∈ l → (∀ y, h.E o y → y = o + 1 ∨ y ∈ l) →
      ¬ h.Rt (o + 1) p → Shape h r (o + 1) p p → o + 1 < p → Row h r f p q l → Shape h r o q q
  /-- A choice. -/
  | choose {r o p q l} : h.Z o → h.E o (o + 1) → h.E o p → p ∈ l → (∀ y, h.E o y → y = o + 1 ∨ y ∈ l) →
      Shape h r (o + 1) p q → o + 1 < p → Row h r false p q l → Shape h r o q q
  /-- A substring group. -/
  | sub {o k} : 2 ≤ k → h.Z o → (∀ y, h.E o y ↔ o + 1 ≤ y ∧ y < o + 1 + k) → h.Quiet (o + 1) →
      (∀ x, o + 1 ≤ x → x < o + 1 + k → ¬ h.Z x ∧ h.nx x = x + 1) →
      (∀ x y, o + 1 ≤ x → x < o + 1 + k → h.E x y → y = o + 1 + k) → Shape h 1 o (o + 1 + k) (o + 1 + k)
  /-- A loop that can be skipped. -/
  | star {r o e T} : 1 ≤ r → h.Z o → (∀ y, h.E o y ↔ y = o + 1 ∨ y = e) → h.Z e → (∀ y, h.E e y ↔ y = o + 1 ∨ y = T) → e < T →
      (T = e + 1 ∨ r = 2) → Body h (o + 1) e → Shape h r o (e + 1) T
  /-- Copies, then a loop. -/
  | plus {r o b e T} : 1 ≤ r → h.Z o → (∀ y, h.E o y ↔ y = o + 1) → Shape h 1 (o + 1) b b → Shape h 1 b e e →
      b < e → ¬ h.Rt b e → h.Z e → (∀ y, h.E e y ↔ y = b ∨ y = T) → e < T → (T = e + 1 ∨ r = 2) → Shape h r o (e + 1) T
/-- Blocks one after the other, entered at the states of the list; the last may be a single state. -/
inductive Row (h : G) : Nat → Bool → Nat → Nat → List Nat → Prop
  | nil {r f q} : Row h r f q q []
  | final {r e} : 1 ≤ r → h.Z e → (∀ y, h.E e y ↔ y = e + 1) → Row h r true e (e + 1) [e]
  | cons {r f o p q T1 l} : Shape h r o p T1 → o < p → (T1 = p ∨ T1 = q) → (r = 0 → T1 = q) → Row h r f p q l →
      Row h r f o q (o :: l)
/-- The block inside a loop. -/
inductive Body (h : G) : Nat → Nat → Prop
  | shape {b e} : Shape h 0 b e e → b < e → Body h b e
  | void {b} : h.Quiet b → h.nx b = b + 1 → Body h b (b + 1)
end

variable {h : G} {N : Nat}

mutual
theorem Shape.le {r : Nat} {o q T : Nat} : Shape h r o q T → o ≤ q ∧ q ≤ T ∧ (q = T ∨ o < q)
  | .weak s _ => s.le
  | .empty => by omega
  | .cls _ _ _ hT => by omega
  | .app s1 s2 => by have := s1.le; have := s2.le; omega
  | .dup _ _ _ _ s _ _ w => by have := s.le; have := w.le; omega
  | .split _ _ _ _ _ _ _ s _ w => by have := s.le; have := w.le; omega
  | .choose _ _ _ _ _ s _ w => by have := s.le; have := w.le; omega
  | .sub _ _ _ _ _ _ => by omega
  | .star _ _ _ _ _ _ _ b => by have := b.lt; omega
  | .plus _ _ _ s s' _ _ _ _ _ _ => by have := s.le; have := s'.le; omega
theorem Row.le {r : Nat} {f : Bool} {o q : Nat} {l : List Nat} : Row h r f o q l → o ≤ q
  | .nil => Nat.le_refl _
  | .final _ _ _ => by omega
  | .cons s _ _ _ w => by have := s.le; have := w.le; omega
theorem Body.lt {b e : Nat} : Body h b e → b < e
  | .shape _ hb => hb
  | .void _ _ => by omega
end

theorem Row.mem {r : Nat} {f : Bool} {o q : Nat} {l : List Nat} (w : Row h r f o q l) : ∀ y ∈ l, o ≤ y ∧ y < q := by
  match w with
  | .nil => simp
  | .final _ _ _ => intro y hy; rw [List.mem_singleton] at hy; omega
  | .cons s hp _ _ w =>
    intro y hy
    have := s.le
    have := w.le
    rcases List.mem_cons.1 hy with rfl | hy
    · omega
    · have := w.mem y hy; omega

/-! ### The edges -/

/-- A state in front of a block, which may be entered again from its end. -/
theorem Blk.before {o q T : Nat} (hT : q ≤ T) (out : ∀ x y, o + 1 ≤ x → x < q → h.E x y → o + 1 ≤ y ∧ (y < q ∨ y = T) ∧ y ≠ x)
    (acy : h.Acy (o + 1) q) (nxt : ∀ x, o + 1 ≤ x → x < q → h.Does x → x < h.nx x ∧ (h.nx x < q ∨ h.nx x = T)) (hz : h.Z o)
    (e : h.E o (o + 1)) (he : ∀ y, h.E o y → o + 1 ≤ y ∧ y < q) : h.Blk o q T where
  out := fun x y h1 h2 e' => by
    by_cases hx : x = o
    · subst hx; have := he y e'; omega
    · have := out x y (by omega) h2 e'; omega
  acy := by
    refine Acy.append (p := o + 1) (.one fun k => by have := he o k; omega) acy fun x y h1 h2 e' => (out x y h1 h2 e').1
  nxt := fun x h1 h2 hd => by
    by_cases hx : x = o
    · subst hx
      rcases hd with k | k
      · exact absurd hz k
      · exact absurd e (k _)
    · exact nxt x (by omega) h2 hd

theorem Blk.front {o q T : Nat} (b : h.Blk (o + 1) q T) (hT : q ≤ T) (hz : h.Z o) (e : h.E o (o + 1))
    (he : ∀ y, h.E o y → o + 1 ≤ y ∧ y < q) : h.Blk o q T :=
  .before hT (fun x y h1 h2 e' => by have := b.out x y h1 h2 e'; omega) b.acy b.nxt hz e he

/-- Copies, and a loop. -/
theorem Blk.loop {o b e T : Nat} (b1 : h.Blk (o + 1) b b) (b2 : h.Blk b e e) (no : ¬ h.Rt b e) (hb : b < e) (ho : o + 1 ≤ b)
    (hT : e < T) (hz : h.Z e) (he : ∀ y, h.E e y ↔ y = b ∨ y = T) (hzo : h.Z o) (e1 : h.E o (o + 1))
    (heo : ∀ y, h.E o y → o + 1 ≤ y ∧ y ≤ e) : h.Blk o (e + 1) T := by
  have b3 := b1.append b2 ho (by omega) (.inl ⟨rfl, .inl hb⟩)
  refine .before (by omega) ?_ ?_ ?_ hzo e1 fun y ey => by have := heo y ey; omega
  · intro x y h1 h2 e'
    by_cases hx : x = e
    · subst hx; have := (he y).1 e'; omega
    · have := b3.out x y h1 (by omega) e'; omega
  · refine b1.acy.append (b2.acy.loop hT (fun y => (he y).1) no) fun x y h1 h2 e' => ?_
    by_cases hx : x = e
    · subst hx; have := (he y).1 e'; omega
    · have := b2.out x y h1 (by omega) e'; omega
  · intro x h1 h2 hd
    by_cases hx : x = e
    · subst hx
      rcases hd with k | k
      · exact absurd hz k
      · exact absurd ((he b).2 (.inl rfl)) (k _)
    · have := b3.nxt x h1 (by omega) hd; omega

theorem Strict.no {b e : Nat} (s : h.Strict b e) (hb : b < e) : ¬ h.Rt b e := fun r => by
  have := s.rt r (Nat.le_refl _) hb; omega

mutual
theorem Shape.strict {r : Nat} {o q T : Nat} : Shape h r o q T → r = 0 → h.Strict o q
  | .weak s h1, hr => s.strict (by omega)
  | .empty, _ => fun x y h1 h2 => by omega
  | .cls (o := o) hq _ _ _, _ => fun x y h1 h2 e => by
    obtain rfl : x = o := by omega
    exact absurd e (hq y)
  | .app s1 s2, hr => (s1.strict hr).append (s2.strict hr) s2.le.1
  | .dup hr' _ _ _ _ _ _ _, hr => by omega
  | .split hr' _ _ _ _ _ _ _ _ _, hr => by omega
  | .choose (o := o) (p := p) (q := q) (l := l) _ _ _ _ he s hp w, hr => fun x y h1 h2 e => by
    have hw := w.le
    by_cases hx : x = o
    · subst hx
      rcases he y e with rfl | hy
      · omega
      · have := w.mem y hy; omega
    · exact ((s.strict hr).append (w.strict hr) hw) x y (by omega) h2 e
  | .sub _ _ _ _ _ _, hr => by cases hr
  | .star hr' _ _ _ _ _ _ _, hr => by omega
  | .plus hr' _ _ _ _ _ _ _ _ _ _, hr => by omega
theorem Row.strict {r : Nat} {f : Bool} {o q : Nat} {l : List Nat} : Row h r f o q l → r = 0 → h.Strict o q
  | .nil, _ => fun x y h1 h2 => by omega
  | .final hr' _ _, hr => by omega
  | .cons s _ _ _ w, hr => (s.strict hr).append (w.strict hr) w.le
end

theorem Body.strict {b e : Nat} : Body h b e → h.Strict b e
  | .shape s _ => s.strict rfl
  | .void hq _ => fun x y h1 h2 k => by
    obtain rfl : x = b := by omega
    exact absurd k (hq y)

mutual
theorem Shape.blk {r : Nat} {o q T : Nat} : Shape h r o q T → h.Blk o q T
  | .weak s _ => s.blk
  | .empty => .empty _ _
  | .cls hq _ hn hT => .cls hq hn hT
  | .app s1 s2 => s1.blk.append s2.blk s1.le.1 s2.le.1 (.inl ⟨rfl, by have := s2.le; omega⟩)
  | .dup _ hz e he s hp _ w => by
    have hw := w.le
    refine (s.blk.append w.blk s.le.1 w.le (.inl ⟨rfl, by omega⟩)).front (Nat.le_refl _) hz e fun y ey => ?_
    rcases (he y ey).1 with rfl | hy
    · omega
    · have := w.mem y hy; omega
  | .split _ hz e _ _ he _ s hp w => by
    have hw := w.le
    refine (s.blk.append w.blk s.le.1 w.le (.inl ⟨rfl, by omega⟩)).front (Nat.le_refl _) hz e fun y ey => ?_
    rcases he y ey with rfl | hy
    · omega
    · have := w.mem y hy; omega
  | .choose hz e _ _ he s hp w => by
    have hw := w.le
    refine (s.blk.append w.blk s.le.1 w.le (.inr rfl)).front (Nat.le_refl _) hz e fun y ey => ?_
    rcases he y ey with rfl | hy
    · omega
    · have := w.mem y hy; omega
  | .sub (o := o) (k := k) hk hz he hq hx hn => by
    refine Blk.before (Nat.le_refl _) ?_ ?_ ?_ hz ((he _).2 (by omega)) fun y ey => by have := (he y).1 ey; omega
    · intro x y h1 h2 e
      have := hn x y h1 h2 e; omega
    · intro x r
      obtain ⟨m, g, _⟩ := (Relation.TransGen.head'_iff).1 r
      have := hn x m g.2.1.1 g.2.1.2 g.1
      have := g.2.2
      omega
    · intro x h1 h2 _
      have := (hx x h1 h2).2; omega
  | .star (o := o) (e := e) _ hzo heo hze hee hT _ b => by
    have hb := b.lt
    exact Blk.loop (Blk.empty (o + 1) (o + 1)) b.blk (b.strict.no hb) hb (Nat.le_refl _) hT hze hee hzo ((heo _).2 (.inl rfl))
      fun y ey => by have := (heo y).1 ey; omega
  | .plus (o := o) (b := b) (e := e) _ hzo heo s s' hb no hze hee hT _ => by
    have hs := s.le
    exact Blk.loop s.blk s'.blk no hb hs.1 hT hze hee hzo ((heo _).2 rfl) fun y ey => by have := (heo y).1 ey; omega
theorem Row.blk {r : Nat} {f : Bool} {o q : Nat} {l : List Nat} : Row h r f o q l → h.Blk o q q
  | .nil => .empty _ _
  | .final (e := e) _ hz he => by
    have key : ∀ x, e ≤ x → x < e + 1 → x = e := fun x h1 h2 => by omega
    refine ⟨?_, ?_, ?_⟩
    · intro x y h1 h2 ex; obtain rfl := key x h1 h2; have := (he y).1 ex; omega
    · exact .one fun k => by have := (he e).1 k; omega
    · intro x h1 h2 hd
      obtain rfl := key x h1 h2
      rcases hd with k | k
      · exact absurd hz k
      · exact absurd ((he _).2 rfl) (k _)
  | .cons s _ hT _ w => s.blk.append w.blk s.le.1 w.le (by have := w.le; omega)
theorem Body.blk {b e : Nat} : Body h b e → h.Blk b e e
  | .shape s _ => s.blk
  | .void hq hn => .cls hq hn (by omega)
end

/-- Up to level 1 no edge leads to an exit elsewhere. -/
theorem Shape.closed {r : Nat} {o q T : Nat} : Shape h r o q T → r ≤ 1 → q < T → ∀ x y, o ≤ x → x < q → h.E x y → o < y ∧ y < q
  | .weak s h1, hr, hT => s.closed (by omega) hT
  | .empty, _, hT => by omega
  | .cls (o := o) hq _ _ _, _, _ => fun x y h1 h2 e => by
    obtain rfl : x = o := by omega
    exact absurd e (hq y)
  | .app (p := p) s1 s2, hr, hT => fun x y h1 h2 e => by
    have l1 := s1.le
    have l2 := s2.le
    by_cases hx : x < p
    · have := s1.blk.out x y h1 hx e; omega
    · have := s2.closed hr hT x y (by omega) h2 e; omega
  | .dup _ _ _ _ _ _ _ _, _, hT => by omega
  | .split _ _ _ _ _ _ _ _ _ _, _, hT => by omega
  | .choose _ _ _ _ _ _ _ _, _, hT => by omega
  | .sub _ _ _ _ _ _, _, hT => by omega
  | .star _ _ _ _ _ _ hl _, hr, hT => by omega
  | .plus _ _ _ _ _ _ _ _ _ _ hl, hr, hT => by omega

/-! ### Rigid blocks -/

mutual
/-- A state of a rigid block reads a symbol or has a way out. -/
theorem Shape.firm {r : Nat} {o q T : Nat} : Shape h r o q T → r = 0 → ∀ x, o ≤ x → x < q → h.Quiet x → ¬ h.Z x
  | .weak s h1, hr => s.firm (by omega)
  | .empty, _ => fun x h1 h2 => by omega
  | .cls (o := o) _ hz _ _, _ => fun x h1 h2 _ => by
    obtain rfl : x = o := by omega
    exact hz
  | .app (p := p) s1 s2, hr => fun x h1 h2 => by
    by_cases hx : x < p
    · exact s1.firm hr x h1 hx
    · exact s2.firm hr x (by omega) h2
  | .dup hr' _ _ _ _ _ _ _, hr => by omega
  | .split hr' _ _ _ _ _ _ _ _ _, hr => by omega
  | .choose (o := o) (p := p) _ e _ _ _ s hp w, hr => fun x h1 h2 hq => by
    by_cases hx : x = o
    · subst hx; exact absurd e (hq _)
    · by_cases hx : x < p
      · exact s.firm hr x (by omega) hx hq
      · exact w.firm hr x (by omega) h2 hq
  | .sub _ _ _ _ _ _, hr => by cases hr
  | .star hr' _ _ _ _ _ _ _, hr => by omega
  | .plus hr' _ _ _ _ _ _ _ _ _ _, hr => by omega
theorem Row.firm {r : Nat} {f : Bool} {o q : Nat} {l : List Nat} : Row h r f o q l → r = 0 →
    ∀ x, o ≤ x → x < q → h.Quiet x → ¬ h.Z x
  | .nil, _ => fun x h1 h2 => by omega
  | .final hr' _ _, hr => by omega
  | .cons (p := p) s _ _ _ w, hr => fun x h1 h2 => by
    by_cases hx : x < p
    · exact s.firm hr x h1 hx
    · exact w.firm hr x (by omega) h2
end

mutual
/-- No symbol of a rigid block leads to what is reached from its first state. -/
theorem Shape.tree {r : Nat} {o q T : Nat} : Shape h r o q T → r = 0 → ∀ v, o ≤ v → v < q → h.Rt o v →
    ∀ y, o ≤ y → y < q → h.Does y → h.nx y ≠ v
  | .weak s h1, hr => s.tree (by omega)
  | .empty, _ => fun v h1 h2 => by omega
  | .cls (o := o) _ _ hn hT, _ => fun v h1 h2 _ y h3 h4 _ => by
    obtain rfl : y = o := by omega
    omega
  | .app (o := o) (p := p) (q := q) s1 s2, hr => fun v h1 h2 rv y h3 h4 hy => by
    have i1 := s1.tree hr
    have i2 := s2.tree hr
    by_cases hop : o < p
    · have hv := ((s1.strict hr).rt rv (Nat.le_refl _) hop).2
      by_cases hyp : y < p
      · exact i1 v h1 hv rv y h3 hyp hy
      · have := s2.blk.nxt y (by omega) h4 hy
        omega
    · have := s1.le
      obtain rfl : o = p := by omega
      exact i2 v h1 h2 rv y h3 h4 hy
  | .dup hr' _ _ _ _ _ _ _, hr => by omega
  | .split hr' _ _ _ _ _ _ _ _ _, hr => by omega
  | .choose (o := o) (p := p) (q := q) hz e _ _ he s hp w, hr => fun v h1 h2 rv y h3 h4 hy => by
    have i1 := s.tree hr
    have i2 := w.tree hr
    have hw := w.le
    have hyo : y ≠ o := by
      rintro rfl
      rcases hy with k | k
      · exact k hz
      · exact k _ e
    by_cases hv : v = o
    · by_cases hyp : y < p
      · have := s.blk.nxt y (by omega) hyp hy; omega
      · have := w.blk.nxt y (by omega) h4 hy; omega
    · obtain ⟨m, em, rm⟩ := rt_head rv hv
      rcases he m em with rfl | hm
      · have hvp := ((s.strict hr).rt rm (Nat.le_refl _) hp).2
        by_cases hyp : y < p
        · exact i1 v (by omega) hvp rm y (by omega) hyp hy
        · have := w.blk.nxt y (by omega) h4 hy; omega
      · have hmem := w.mem m hm
        have hvm := ((w.strict hr).rt rm hmem.1 hmem.2).1
        by_cases hyp : y < p
        · have := s.blk.nxt y (by omega) hyp hy; omega
        · exact i2 m hm v (by omega) h2 rm y (by omega) h4 hy
  | .sub _ _ _ _ _ _, hr => by cases hr
  | .star hr' _ _ _ _ _ _ _, hr => by omega
  | .plus hr' _ _ _ _ _ _ _ _ _ _, hr => by omega
theorem Row.tree {r : Nat} {f : Bool} {o q : Nat} {l : List Nat} : Row h r f o q l → r = 0 → ∀ m ∈ l, ∀ v, o ≤ v → v < q → h.Rt m v →
    ∀ y, o ≤ y → y < q → h.Does y → h.nx y ≠ v
  | .nil, _ => fun m hm => by simp at hm
  | .final hr' _ _, hr => by omega
  | .cons (o := o) (p := p) (q := q) s hp _ hl w, hr => fun m hm v h1 h2 rv y h3 h4 hy => by
    have i1 := s.tree hr
    have i2 := w.tree hr
    have hw := w.le
    rcases List.mem_cons.1 hm with rfl | hm
    · have hvp := ((s.strict hr).rt rv (Nat.le_refl _) hp).2
      by_cases hyp : y < p
      · exact i1 v h1 hvp rv y h3 hyp hy
      · have := w.blk.nxt y (by omega) h4 hy; omega
    · have hmem := w.mem m hm
      have hvm := ((w.strict hr).rt rv hmem.1 hmem.2).1
      by_cases hyp : y < p
      · have := s.blk.nxt y (by omega) hyp hy
        have := hl hr
        omega
      · exact i2 m hm v (by omega) h2 rv y (by omega) h4 hy
end

mutual
/-- What leads to a state that is reached from the first state of a rigid block is reached from it too. -/
theorem Shape.trunk {r : Nat} {o q T : Nat} : Shape h r o q T → r = 0 → ∀ v, h.Rt o v →
    ∀ d, o ≤ d → d < q → h.Rt d v → h.Rt o d
  | .weak s h1, hr => s.trunk (by omega)
  | .empty, _ => fun v _ d h1 h2 => by omega
  | .cls (o := o) _ _ _ _, _ => fun v _ d h1 h2 _ => by
    obtain rfl : d = o := by omega
    exact .refl
  | .app (o := o) (p := p) (q := q) s1 s2, hr => fun v rv d h1 h2 rd => by
    have i1 := s1.trunk hr
    have i2 := s2.trunk hr
    by_cases hop : o < p
    · have hv := ((s1.strict hr).rt rv (Nat.le_refl _) hop).2
      by_cases hdp : d < p
      · exact i1 v rv d h1 hdp rd
      · have := ((s2.strict hr).rt rd (by omega) h2).1
        omega
    · have := s1.le
      obtain rfl : o = p := by omega
      exact i2 v rv d h1 h2 rd
  | .dup hr' _ _ _ _ _ _ _, hr => by omega
  | .split hr' _ _ _ _ _ _ _ _ _, hr => by omega
  | .choose (o := o) (p := p) (q := q) hz e ez hzl he s hp w, hr => fun v rv d h1 h2 rd => by
    have i1 := s.trunk hr
    have i2 := w.trunk hr
    have hw := w.le
    by_cases hd : d = o
    · subst hd; exact .refl
    · have st := (Shape.choose hz e ez hzl he s hp w).strict hr
      have hdv := (st.rt rd h1 h2).1
      obtain ⟨m, em, rm⟩ := rt_head rv (by omega)
      rcases he m em with rfl | hm
      · have hvp := ((s.strict hr).rt rm (Nat.le_refl _) hp).2
        exact .head em (i1 v rm d (by omega) (by omega) rd)
      · have hmem := w.mem m hm
        have hvm := ((w.strict hr).rt rm hmem.1 hmem.2).1
        by_cases hdp : d < p
        · have := ((s.strict hr).rt rd (by omega) hdp).2; omega
        · exact .head em (i2 m hm v rm d (by omega) h2 rd)
  | .sub _ _ _ _ _ _, hr => by cases hr
  | .star hr' _ _ _ _ _ _ _, hr => by omega
  | .plus hr' _ _ _ _ _ _ _ _ _ _, hr => by omega
theorem Row.trunk {r : Nat} {f : Bool} {o q : Nat} {l : List Nat} : Row h r f o q l → r = 0 → ∀ m ∈ l, ∀ v, h.Rt m v →
    ∀ d, o ≤ d → d < q → h.Rt d v → h.Rt m d
  | .nil, _ => fun m hm => by simp at hm
  | .final hr' _ _, hr => by omega
  | .cons (o := o) (p := p) (q := q) s hp _ _ w, hr => fun m hm v rv d h1 h2 rd => by
    have i1 := s.trunk hr
    have i2 := w.trunk hr
    have hw := w.le
    rcases List.mem_cons.1 hm with rfl | hm
    · have hvp := ((s.strict hr).rt rv (Nat.le_refl _) hp).2
      by_cases hdp : d < p
      · exact i1 v rv d h1 hdp rd
      · have := ((w.strict hr).rt rd (by omega) h2).1; omega
    · have hmem := w.mem m hm
      have hvm := ((w.strict hr).rt rv hmem.1 hmem.2).1
      by_cases hdp : d < p
      · have := ((s.strict hr).rt rd h1 hdp).2; omega
      · exact i2 m hm v rv d (by omega) h2 rd
end

/-! ### Where blocks are entered -/

/-- The blocks of a row are entered only at the states of the list. -/
structure RowCtx (h : G) (o q : Nat) (l : List Nat) : Prop where
  cin : ∀ x y, h.E x y → o < y → y < q → (o ≤ x ∧ x < q) ∨ y ∈ l
  cnx : ∀ y, h.Does y → y < h.n → o < h.nx y → h.nx y < q → o ≤ y ∧ y < q

theorem RowCtx.head {r : Nat} {f : Bool} {o p q : Nat} {l : List Nat} (c : h.RowCtx o q (o :: l))
    (w : Row h r f p q l) : h.Ctx o p where
  cin := fun x y e h1 h2 => by
    have hw := w.le
    rcases c.cin x y e h1 (by omega) with k | k
    · refine ⟨k.1, ?_⟩
      by_contra hx
      have := w.blk.out x y (by omega) k.2 e
      omega
    · rcases List.mem_cons.1 k with rfl | k
      · omega
      · have := w.mem y k; omega
  cnx := fun y hd hn h1 h2 => by
    have hw := w.le
    have := c.cnx y hd hn h1 (by omega)
    refine ⟨this.1, ?_⟩
    by_contra hx
    have := w.blk.nxt y (by omega) this.2 hd
    omega

theorem RowCtx.tail {r : Nat} {f : Bool} {o p q T1 : Nat} {l : List Nat} (c : h.RowCtx o q (o :: l)) (b : h.Blk o p T1)
    (hp : o < p) (hT : T1 = p ∨ T1 = q) (w : Row h r f p q l) : h.RowCtx p q l where
  cin := fun x y e h1 h2 => by
    rcases c.cin x y e (by omega) h2 with k | k
    · left
      refine ⟨?_, k.2⟩
      by_contra hx
      have := b.out x y k.1 (by omega) e
      omega
    · right
      rcases List.mem_cons.1 k with rfl | k
      · omega
      · exact k
  cnx := fun y hd hn h1 h2 => by
    have hw := w.le
    have := c.cnx y hd hn (by omega) h2
    refine ⟨?_, this.2⟩
    by_contra hx
    have := b.nxt y this.1 (by omega) hd
    omega

/-- A state, a block and a row. -/
structure Fork (h : G) (o p q T1 : Nat) (l : List Nat) : Prop where
  z : h.Z o
  e : h.E o (o + 1)
  ed : ∀ y, h.E o y → y = o + 1 ∨ y ∈ l
  b1 : h.Blk (o + 1) p T1
  op : o + 1 < p
  hT : T1 = p ∨ T1 = q
  pq : p ≤ q
  b2 : h.Blk p q q
  mem : ∀ y ∈ l, p ≤ y ∧ y < q
  ctx : h.Ctx o q

namespace Fork
variable {o p q T1 : Nat} {l : List Nat} (k : h.Fork o p q T1 l)
include k

theorem idle : ¬ h.Does o := fun hd => by
  rcases hd with g | g
  · exact g k.z
  · exact g _ k.e

theorem nx {y : Nat} (hd : h.Does y) (hn : y < h.n) (h1 : o + 1 ≤ h.nx y) (h2 : h.nx y < p) : o + 1 ≤ y ∧ y < p := by
  have hp := k.op
  have hpq := k.pq
  have hy := k.ctx.cnx y hd hn (by omega) (by omega)
  have ho : y ≠ o := by rintro rfl; exact k.idle hd
  refine ⟨by omega, ?_⟩
  by_contra hx
  have := k.b2.nxt y (by omega) hy.2 hd
  omega

theorem only {d : Nat} (e : h.E d (o + 1)) : d = o := by
  have hp := k.op
  have hpq := k.pq
  have hd := k.ctx.cin d _ e (by omega) (by omega)
  by_contra hne
  by_cases hx : d < p
  · have := k.b1.out d _ (by omega) hx e; omega
  · have := k.b2.out d _ (by omega) hd.2 e; omega

theorem ctx1 : h.Ctx (o + 1) p where
  cin := fun x y e h1 h2 => by
    have hp := k.op
    have hpq := k.pq
    have hx := k.ctx.cin x y e (by omega) (by omega)
    have ho : x ≠ o := by
      rintro rfl
      rcases k.ed y e with g | g
      · omega
      · have := k.mem y g; omega
    refine ⟨by omega, ?_⟩
    by_contra hx'
    have := k.b2.out x y (by omega) hx.2 e
    omega
  cnx := fun y hd hn h1 h2 => k.nx hd hn (by omega) h2

theorem ctx2 : h.RowCtx p q l where
  cin := fun x y e h1 h2 => by
    have hp := k.op
    have hx := k.ctx.cin x y e (by omega) h2
    by_cases ho : x = o
    · subst ho
      rcases k.ed y e with g | g
      · omega
      · exact .inr g
    · left
      refine ⟨?_, hx.2⟩
      by_contra hx'
      have := k.b1.out x y (by omega) (by omega) e
      have := k.hT
      omega
  cnx := fun y hd hn h1 h2 => by
    have hp := k.op
    have hy := k.ctx.cnx y hd hn (by omega) h2
    have ho : y ≠ o := by rintro rfl; exact k.idle hd
    refine ⟨?_, hy.2⟩
    by_contra hx
    have := k.b1.nxt y (by omega) (by omega) hd
    have := k.hT
    omega

/-- Nothing is entered again from the end. -/
theorem again (no : ¬ h.Rt q o) {y : Nat} (h1 : o ≤ y) (h2 : y < q) : ¬ h.Rt q y := fun r =>
  no (k.ctx.enter r h1 h2 (by omega)).1

/-- Nor from the exit of the first block. -/
theorem back (no : ¬ h.Rt q o) : ¬ h.Rt T1 (o + 1) := fun r => by
  have hp := k.op
  have hpq := k.pq
  rcases k.hT with hT | hT
  · subst hT
    rcases k.b2.exit r (Nat.le_refl _) (by omega) with g | g
    · omega
    · exact k.again no (by omega) (by omega) g.2
  · subst hT
    exact k.again no (by omega) (by omega) r

theorem choice {z : Nat} (ez : h.E o z) (hz : z ∈ l) (no : ¬ h.Rt (o + 1) (h.cl.fin z)) (n : h.cl.Nice (o + 1) p) :
    h.Choice o p z where
  z0 := k.z
  e1 := k.e
  ez := ez
  pz := (k.mem z hz).1
  op := k.op
  ctx := k.ctx1
  only := fun _ e => k.only e
  nx := fun _ hd hn h1 h2 => k.nx hd hn h1 h2
  no := no
  nice := n

end Fork

theorem Shape.fork {r1 r2 : Nat} {f : Bool} {o p q T1 : Nat} {l : List Nat} (hz : h.Z o) (e : h.E o (o + 1))
    (he : ∀ y, h.E o y → y = o + 1 ∨ y ∈ l) (s : Shape h r1 (o + 1) p T1) (hp : o + 1 < p) (hT : T1 = p ∨ T1 = q)
    (w : Row h r2 f p q l) (c : h.Ctx o q) : h.Fork o p q T1 l :=
  ⟨hz, e, he, s.blk, hp, hT, w.le, w.blk, w.mem, c⟩

/-- The parts of a loop. -/
theorem Ctx.body {o b e T T1 : Nat} (c : h.Ctx o (e + 1)) (ho : o ≤ b) (hb : b < e) (hT : e < T) (b1 : ∀ x y, o ≤ x → x < b → h.E x y → y ≤ b ∨ y = e)
    (n1 : ∀ x, o ≤ x → x < b → h.Does x → h.nx x ≤ b) (hz : h.Z e) (_b2 : h.Blk b e T1)
    (he : ∀ y, h.E e y ↔ y = b ∨ y = T) : h.Ctx b e where
  cin := fun x y ex h1 h2 => by
    have hx := c.cin x y ex (by omega) (by omega)
    have : x ≠ e := by rintro rfl; have := (he y).1 ex; omega
    refine ⟨?_, by omega⟩
    by_contra hx'
    have := b1 x y hx.1 (by omega) ex
    omega
  cnx := fun y hd hn h1 h2 => by
    have hy := c.cnx y hd hn (by omega) (by omega)
    have : y ≠ e := by
      rintro rfl
      rcases hd with g | g
      · exact g hz
      · exact g _ ((he b).2 (.inl rfl))
    refine ⟨?_, by omega⟩
    by_contra hx'
    have := n1 y hy.1 (by omega) hd
    omega

theorem not_does {o : Nat} {P : Nat → Prop} (hz : h.Z o) (he : ∀ y, h.E o y ↔ P y) {y : Nat} (hy : P y) : ¬ h.Does o := fun hd => by
  rcases hd with g | g
  · exact g hz
  · exact g _ ((he y).2 hy)

/-! ### Blocks are nice -/

/-- A choice between two ways, of which the first has no way to the second. -/
theorem Choice.all (E : h.Env N) {o p q z : Nat} {r : Nat} (C : h.Choice o p z)
    (t1 : ∀ x, o + 1 ≤ x → x < p → h.cl.TrimAt x) (h1 : r = 0 → h.cl.Hard (o + 1) p)
    (t2 : ∀ x, p ≤ x → x < q → h.cl.TrimAt x) (h2 : r = 0 → h.cl.Hard p q) :
    h.cl.Nice o q ∧ (r = 0 → h.cl.Hard o q) ∧ (o < q → h.cl.Lead o) := by
  have sp := C.split E
  have hh : h.cl.Hard o (o + 1) := fun x h1 h2 => by
    obtain rfl : x = o := by omega
    exact .inr (.inr ⟨_, _, sp⟩)
  refine ⟨?_, ?_, fun _ => .hard E hh (by omega)⟩
  · refine Nice.ofEnd E (C.end_ E) (C.notSing E) fun x h1 h2 => ?_
    by_cases hxo : x = o
    · subst hxo; exact fun _ _ => .inr (.inr ⟨_, _, sp⟩)
    · by_cases hx : x < p
      · exact t1 x (by omega) hx
      · exact t2 x (by omega) h2
  · intro hr x h3 h4
    by_cases hxo : x = o
    · subst hxo; exact .inr (.inr ⟨_, _, sp⟩)
    · by_cases hx : x < p
      · exact h1 hr x (by omega) hx
      · exact h2 hr x (by omega) h4

mutual
theorem Shape.nice (E : h.Env N) {r : Nat} {o q T : Nat} : Shape h r o q T → h.Ctx o q → q ≤ N → (r = 2 → o < q → ¬ h.Rt T o) →
    r ≤ 2 → h.cl.Nice o q ∧ (r = 0 → h.cl.Hard o q) ∧ (o < q → h.cl.Lead o)
  | .weak s h1, c, hq, hx, hr =>
    have := s.nice E c hq (fun k => hx (by omega)) (by omega)
    ⟨this.1, fun hr => this.2.1 (by omega), this.2.2⟩
  | .empty, _, _, _, _ => ⟨.empty _ _, fun _ x h1 h2 => by omega, fun hlt => absurd hlt (by omega)⟩
  | .cls (o := o) hq hz hn hT, _, hN, _, _ => by
    have hh : h.cl.Hard o (o + 1) := fun x h1 h2 => by
      obtain rfl : x = o := by omega
      exact .inl hz
    exact ⟨.cls E hN hz, fun _ => hh, fun _ => .hard E hh (by omega)⟩
  | .app (r := r) (o := o) (p := p) (q := q) (T := T) s1 s2, c, hq, hx, hr => by
    have l1 := s1.le
    have l2 := s2.le
    have x1 : r = 2 → o < p → ¬ h.Rt p o := fun k hop g => by
      rcases s2.blk.exit g (Nat.le_refl _) (by omega) with k' | k'
      · omega
      · exact hx k (by omega) k'.2
    have x2 : r = 2 → p < q → ¬ h.Rt T p := fun k hpq g =>
      hx k (by omega) (c.enter g (by omega) hpq (by omega)).1
    have k1 := s1.nice E (c.left s1.blk s2.blk l2.1) (by omega) x1 hr
    have k2 := s2.nice E (c.right s1.blk l1.1 (.inl (Nat.le_refl _))) hq x2 hr
    refine ⟨?_, ?_, fun hlt => ?_⟩
    · by_cases hop : o < p
      · exact k1.1.extend E hop l2.1 hq s1.blk (fun h0 h1 => .inl (k2.1.inside (by omega) h1))
          fun x h1 h2 => k2.1.trim x h1 h2
      · obtain rfl : o = p := by omega
        exact k2.1
    · intro hr x h1 h2
      by_cases hx : x < p
      · exact k1.2.1 hr x h1 hx
      · exact k2.2.1 hr x (by omega) h2
    · by_cases hop : o < p
      · exact k1.2.2 hop
      · obtain rfl : o = p := by omega
        exact k2.2.2 hlt
  | .dup (o := o) (p := p) (q := q) hr1 hz e he s hp hi w, c, hq, hx, hr => by
    have F := Shape.fork hz e (fun y ey => (he y ey).1) s hp (.inl rfl) w c
    have hpq := F.pq
    have k1 := s.nice E F.ctx1 (by omega) (fun k _ => F.back (hx k (by omega))) hr
    have k2 := w.trims E F.ctx2 hq (fun k y h1 h2 => F.again (hx k (by omega)) (by omega) h2) hr
    have d := E.dup_adj hz e fun y ey => (he y ey).2
    refine ⟨?_, fun hr => (by omega), fun _ => (k1.2.2 hp).dup E d⟩
    refine Nice.dup E (k1.1.extend E hp F.pq hq s.blk (fun h0 h1 => ?_) k2.1) (by omega) hz d
    rcases hi h1 with g | g
    · exact .inr g
    · exact .inl (k2.2.2 (by omega) (.inl g))
  | .split (o := o) (p := p) (q := q) (z := z) hr1 hz e ez hzl he no s hp w, c, hq, hx, hr => by
    have F := Shape.fork hz e he s hp (.inl rfl) w c
    have hpq := F.pq
    have k1 := s.nice E F.ctx1 (by omega) (fun k _ => F.back (hx k (by omega))) hr
    have k2 := w.trims E F.ctx2 hq (fun k y h1 h2 => F.again (hx k (by omega)) (by omega) h2) hr
    refine Choice.all E (F.choice ez hzl (fun g => ?_) k1.1) k1.1.trim k1.2.1 k2.1 k2.2.1
    have := (F.mem z hzl).1
    have := fin_ge (g := h.cl) z
    rcases s.blk.exit g (Nat.le_refl _) (.inl hp) with g | g
    · omega
    · exact no g.1
  | .choose (r := r) (o := o) (p := p) (q := q) hz e ez hzl he s hp w, c, hq, hx, hr => by
    have F := Shape.fork hz e he s hp (.inr rfl) w c
    have hpq := (F.mem p hzl).2
    have k1 := s.nice E F.ctx1 (by omega) (fun k _ => F.back (hx k (by omega))) hr
    have k2 := w.trims E F.ctx2 hq (fun k y h1 h2 => F.again (hx k (by omega)) (by omega) h2) hr
    refine Choice.all E (F.choice ez hzl (fun g => ?_) k1.1) k1.1.trim k1.2.1 k2.1 k2.2.1
    have hin := k2.2.2 (by omega) (.inr ⟨rfl, by rintro rfl; cases hzl⟩)
    have hge := fin_ge (g := h.cl) p
    by_cases h2 : r = 2
    · rcases s.blk.exit g (Nat.le_refl _) (.inl hp) with g | g
      · omega
      · exact F.again (hx h2 (by omega)) (by omega) hin g.2
    · have key : ∀ y, h.Rt (o + 1) y → o + 1 ≤ y ∧ y < p := by
        intro y ry
        induction ry with
        | refl => omega
        | tail _ e ih =>
          have := s.closed (by omega) hpq _ _ ih.1 ih.2 e
          omega
      have := key _ g
      omega
  | .sub (o := o) (k := k) hk hz he hq hx hn, c, hN, _, _ => by
    have hz2 := hx (o + 2) (by omega) (by omega)
    have hf2 : h.cl.fin (o + 2) = o + 2 := fin_of_end E.clos E.anti' (end_of_live hz2.1)
    have C : h.Choice o (o + 2) (o + 2) := by
      refine ⟨hz, (he _).2 (by omega), (he _).2 (by omega), Nat.le_refl _, by omega, ⟨fun x y _ h1 h2 => by omega,
        fun y _ _ h1 h2 => by omega⟩, ?_, ?_, ?_,
        .cls E (by omega) (hx (o + 1) (by omega) (by omega)).1⟩
      · intro d e
        have hd := c.cin d _ e (by omega) (by omega)
        by_contra hne
        have := hn d _ (by omega) hd.2 e
        omega
      · intro y hd hyn h1 h2
        have hy := c.cnx y hd hyn (by omega) (by omega)
        exfalso
        by_cases hyo : y = o
        · subst hyo; exact not_does hz he (y := y + 1) (by omega) hd
        · have := (hx y (by omega) hy.2).2
          omega
      · intro r
        have := hq.rt r
        omega
    have hh : h.cl.Hard o (o + 1) := fun x h1 h2 => by
      obtain rfl : x = o := by omega
      exact .inr (.inr ⟨_, _, C.split E⟩)
    refine ⟨?_, fun hr => (by cases hr), fun _ => .hard E hh (by omega)⟩
    refine Nice.ofEnd E (C.end_ E) (C.notSing E) fun x h1 h2 => ?_
    by_cases hxo : x = o
    · subst hxo; exact fun _ _ => .inr (.inr ⟨_, _, C.split E⟩)
    · exact fun hz' => absurd hz' (hx x (by omega) h2).1
  | .star (o := o) (e := e) (T := T) hr1 hzo heo hze hee hT _ b, c, hN, _, _ => by
    have hb := b.lt
    have cb : h.Ctx (o + 1) e := c.body (by omega) hb hT (fun x y h1 h2 ex => by
        obtain rfl : x = o := by omega
        have := (heo y).1 ex; omega)
      (fun x h1 h2 hd => by
        obtain rfl : x = o := by omega
        exact absurd hd (not_does hzo heo (y := x + 1) (.inl rfl))) hze b.blk hee
    have hh := b.hard E cb (by omega)
    have S : h.Star o e T := ⟨⟨by omega, hb, hT, hze, hee, b.blk, cb, b.strict.no hb, by
      rw [fin_of_end E.clos E.anti' (hh.end E.clos (Nat.le_refl _) hb)]; exact hb⟩, hzo, heo, c, b.strict, hh⟩
    refine ⟨S.nice E hN, fun hr => (by omega), fun _ => ?_⟩
    match b with
    | .void hq _ => exact S.lead E hq
    | .shape s _ => exact S.leadLoop E hN (s.firm rfl) (s.tree rfl) (s.trunk rfl)
  | .plus (o := o) (b := b) (e := e) (T := T) hr1 hzo heo s s' hb no hze hee hT hl, c, hN, hx, _ => by
    have hs := s.le
    have cb : h.Ctx b e := c.body (by omega) hb hT (fun x y h1 h2 ex => by
        by_cases hx : x = o
        · subst hx; have := (heo y).1 ex; omega
        · have := s.blk.out x y (by omega) h2 ex; omega)
      (fun x h1 h2 hd => by
        by_cases hx : x = o
        · subst hx; exact absurd hd (not_does hzo heo (y := x + 1) rfl)
        · have := s.blk.nxt x (by omega) h2 hd; omega) hze s'.blk hee
    have c1 : h.Ctx (o + 1) b := by
      refine ⟨fun x y ex h1 h2 => ?_, fun y hd hn h1 h2 => ?_⟩
      · have hx := c.cin x y ex (by omega) (by omega)
        have : x ≠ o := by rintro rfl; have := (heo y).1 ex; omega
        refine ⟨by omega, ?_⟩
        by_contra hx'
        by_cases hxe : x = e
        · subst hxe; have := (hee y).1 ex; omega
        · have := s'.blk.out x y (by omega) (by omega) ex; omega
      · have hy := c.cnx y hd hn (by omega) (by omega)
        have : y ≠ o := by rintro rfl; exact not_does hzo heo (y := y + 1) rfl hd
        refine ⟨by omega, ?_⟩
        by_contra hx'
        by_cases hxe : y = e
        · subst hxe; exact not_does hze hee (y := b) (.inl rfl) hd
        · have := s'.blk.nxt y (by omega) (by omega) hd; omega
    have k1 := s.nice E c1 (by omega) (fun k => by cases k) (by omega)
    have k2 := s'.nice E cb (by omega) (fun k => by cases k) (by omega)
    have L : h.Loop b e T := ⟨by omega, hb, hT, hze, hee, s'.blk, cb, no, k2.1.inside (by omega) hb⟩
    have k3 := L.nice E (hl.imp id fun hr g => hx hr (by omega) (c.enter g (by omega) (by omega) (by omega)).1) k2.1
    have d := E.dup_adj hzo ((heo _).2 rfl) fun y ey => by rw [(heo y).1 ey]
    have hd : h.cl.Nice (o + 1) (e + 1) := by
      by_cases hob : o + 1 < b
      · exact k1.1.extend E hob (by omega) hN s.blk (fun _ _ => .inl (k3.inside (by omega) (by omega))) k3.trim
      · obtain rfl : o + 1 = b := by omega
        exact k3
    refine ⟨Nice.dup E hd (by omega) hzo d, fun hr => (by omega), fun _ => Lead.dup E ?_ d⟩
    by_cases hob : o + 1 < b
    · exact k1.2.2 hob
    · obtain rfl : o + 1 = b := by omega
      exact k2.2.2 hb
theorem Row.trims (E : h.Env N) {r : Nat} {f : Bool} {o q : Nat} {l : List Nat} : Row h r f o q l → h.RowCtx o q l → q ≤ N →
    (r = 2 → ∀ y, o ≤ y → y < q → ¬ h.Rt q y) → r ≤ 2 →
    (∀ x, o ≤ x → x < q → h.cl.TrimAt x) ∧ (r = 0 → h.cl.Hard o q) ∧
      (0 < o → (2 ≤ l.length ∨ (f = false ∧ l ≠ [])) → h.cl.fin o < q)
  | .nil, _, _, _, _ => ⟨fun x h1 h2 => by omega, fun _ x h1 h2 => by omega, fun _ h => by simp at h⟩
  | .final (e := e) hr1 hz he, _, _, _, _ => by
    refine ⟨fun x h1 h2 => ?_, fun hr => (by omega), fun _ h => by simp at h⟩
    obtain rfl : x = e := by omega
    exact fun _ _ => .inl (E.dup_adj hz ((he _).2 rfl) fun y ey => by rw [(he y).1 ey])
  | .cons (o := o) (p := p) (q := q) (T1 := T1) s hp hT _ w, c, hq, hx, hr => by
    have l2 := w.le
    have k1 := s.nice E (c.head w) (by omega) (fun k _ g => by
      rcases hT with hT | hT
      · subst hT
        rcases w.blk.exit g (Nat.le_refl _) (by omega) with k' | k'
        · omega
        · exact hx k o (Nat.le_refl _) (by omega) k'.2
      · subst hT
        exact hx k o (Nat.le_refl _) (by omega) g) hr
    have k2 := w.trims E (c.tail s.blk hp hT w) hq (fun k y h1 h2 => hx k y (by omega) h2) hr
    refine ⟨?_, ?_, fun h0 _ => by have := k1.1.inside h0 hp; omega⟩
    · intro x h1 h2
      by_cases hx : x < p
      · exact k1.1.trim x h1 hx
      · exact k2.1 x (by omega) h2
    · intro hr x h1 h2
      by_cases hx : x < p
      · exact k1.2.1 hr x h1 hx
      · exact k2.2.1 hr x (by omega) h2
theorem Body.hard (E : h.Env N) {b e : Nat} : Body h b e → h.Ctx b e → e ≤ N → h.cl.Hard b e
  | .shape s _, c, hN => (s.nice E c hN (fun k => by cases k) (by omega)).2.1 rfl
  | .void hq _, _, _ => fun x h1 h2 => by
    obtain rfl : x = b := by omega
    exact .inr (.inl (sing_of_quiet hq))
end

/-! ### The whole automaton -/

/-- A block and a final state. -/
theorem Shape.trim (E : h.Env N) (s : Shape h 2 0 N N) : h.cl.Trim := by
  have hcl := E.clos
  have hn := E.n
  obtain ⟨k1, _, k2⟩ := s.nice E E.ctx (Nat.le_refl _) (fun _ h0 r => by
    have := E.quiet_last.rt r
    omega) (Nat.le_refl _)
  refine ⟨hcl, E.anti', fun x a hx => E.ahead a hx, fun d e => E.start e, fun x _ hx => ?_, fun hz hs => ?_⟩
  · have hx' : x < h.n := hx
    by_cases hxN : x < N
    · exact k1.trim x (by omega) hxN
    · obtain rfl : x = N := by omega
      exact fun hz => absurd hz E.lastZ
  · by_cases h0 : 0 < N
    · have hl := k2 h0
      have main : ∀ k, h.cl.Dup 0 k → ∃ w, h.cl.End w ∧ w ≠ 0 ∧ h.cl.E 0 w ∧
          (∀ y, h.cl.End y → h.cl.E 0 y → y = 0 ∨ h.cl.E w y) ∧
          ((∀ c, h.cl.Sing c → c ≠ w → h.cl.E w c → h.cl.fin (h.cl.nx c) = w → h.cl.StarOk w c) ∨ h.cl.LoopOk 0 w) := by
        intro k d
        have hk := fin_ge (g := h.cl) k
        have hlt := d.lt
        have e0 := ((d.iff k).1 (hcl.refl k d.kn)).1
        refine ⟨h.cl.fin k, fin_end _, by omega, hcl.trans _ _ _ e0 (fin_edge hcl d.kn), ?_, ?_⟩
        · intro y hy ey
          by_cases hy0 : y = 0
          · exact .inl hy0
          · exact .inr (fin_to hcl ((d.iff y).2 ⟨ey, hy0⟩) hy)
        · rcases hl _ (.inr ⟨k, d, rfl⟩) with hl | hl
          · refine .inl fun c h1 h2 h3 h4 => ?_
            obtain ⟨j1, j2, j3⟩ := hl c (by omega) h1 h2 h3 h4
            exact ⟨j1, j2, fun hz c' => j3 hz c' (by omega)⟩
          · exact .inr hl
      rcases k1.trim 0 (Nat.le_refl _) h0 hz hs with d | ⟨k, r⟩ | sp
      · exact .inr (main _ d)
      · exact .inr (main _ r.dup)
      · exact .inl sp
    · obtain rfl : N = 0 := by omega
      exact absurd hz E.lastZ

end G
end Noodle
