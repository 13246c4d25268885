import Verif.Model.Blocks
import Verif.Proofs.Bitset
import Verif.Proofs.Step
import Mathlib.Data.List.Forall2
/-
The blocks of Model/Blocks.lean hold the state sets and tables of Model/Matcher.lean: the relation, and the operations on
rows and slabs.
-/
namespace Noodle.Blk
set_option autoImplicit false
open Noodle.Bits (Bits Bits3 Block blockSize Mem)

/-! ### Loops -/

theorem ub_some {α : Type} (a : α) : ub (some a) = .ok a := rfl

theorem bind_ok {α β : Type} (a : α) (f : α → Except Crash β) : ((Except.ok a : Except Crash α) >>= f) = f a := rfl
theorem bind_error {α β : Type} (x : Crash) (f : α → Except Crash β) :
    ((Except.error x : Except Crash α) >>= f) = .error x := rfl

theorem foldM_range {β : Type} (f : β → Nat → Except Crash β) (R : Nat → β → Prop) (n : Nat)
    (h : ∀ k, k < n → ∀ b, R k b → ∃ b', f b k = .ok b' ∧ R (k + 1) b') (b : β) (hb : R 0 b) :
    ∃ b', (List.range n).foldlM f b = .ok b' ∧ R n b' := by
  induction n with
  | zero => exact ⟨b, rfl, hb⟩
  | succ n ih =>
    obtain ⟨b', h1, h2⟩ := ih (fun k hk => h k (by omega))
    obtain ⟨b'', h3, h4⟩ := h n (by omega) b' h2
    refine ⟨b'', ?_, h4⟩
    rw [List.range_succ, List.foldlM_append, h1, bind_ok]
    simp only [List.foldlM_cons, List.foldlM_nil, h3, bind_ok]; rfl

theorem foldM_range' {β : Type} (f : β → Nat → Except Crash β) (R : Nat → β → Prop) (s n : Nat)
    (h : ∀ k, s ≤ k → k < s + n → ∀ b, R k b → ∃ b', f b k = .ok b' ∧ R (k + 1) b') (b : β) (hb : R s b) :
    ∃ b', (List.range' s n).foldlM f b = .ok b' ∧ R (s + n) b' := by
  induction n generalizing s b with
  | zero => exact ⟨b, rfl, hb⟩
  | succ n ih =>
    obtain ⟨b', h1, h2⟩ := h s (by omega) (by omega) b hb
    obtain ⟨b'', h3, h4⟩ := ih (s + 1) (fun k a c => h k (by omega) (by omega)) b' h2
    refine ⟨b'', ?_, by rwa [show s + (n + 1) = s + 1 + n by omega]⟩
    rw [List.range'_succ, List.foldlM_cons, h1, bind_ok, h3]

theorem foldM_range_imp {β : Type} {f : β → Nat → Except Crash β} (R : Nat → β → Prop) {n : Nat} {Q : β → Prop} {b : β}
    (h : ∀ k, k < n → ∀ b, R k b → ∃ b', f b k = .ok b' ∧ R (k + 1) b') (hb : R 0 b) (hQ : ∀ b', R n b' → Q b') :
    ∃ b', (List.range n).foldlM f b = .ok b' ∧ Q b' := by
  obtain ⟨b', h1, h2⟩ := foldM_range f R n h b hb
  exact ⟨b', h1, hQ b' h2⟩

theorem foldM_range'_imp {β : Type} {f : β → Nat → Except Crash β} (R : Nat → β → Prop) {s n : Nat} {Q : β → Prop} {b : β}
    (h : ∀ k, s ≤ k → k < s + n → ∀ b, R k b → ∃ b', f b k = .ok b' ∧ R (k + 1) b') (hb : R s b)
    (hQ : ∀ b', R (s + n) b' → Q b') : ∃ b', (List.range' s n).foldlM f b = .ok b' ∧ Q b' := by
  obtain ⟨b', h1, h2⟩ := foldM_range' f R s n h b hb
  exact ⟨b', h1, hQ b' h2⟩

theorem foldM_rel {β γ ι κ : Type} (R : β → γ → Prop) (S : ι → κ → Prop) (f : β → ι → Except Crash β) (g : γ → κ → γ)
    (l : List ι) (l' : List κ) (hl : List.Forall₂ S l l')
    (h : ∀ x y b c, x ∈ l → y ∈ l' → S x y → R b c → ∃ b', f b x = .ok b' ∧ R b' (g c y)) (b : β) (c : γ) (hb : R b c) :
    ∃ b', l.foldlM f b = .ok b' ∧ R b' (l'.foldl g c) := by
  induction hl generalizing b c with
  | nil => exact ⟨b, rfl, hb⟩
  | cons hxy _ ih =>
    obtain ⟨b1, h1, h2⟩ := h _ _ b c (by simp) (by simp) hxy hb
    obtain ⟨b2, h3, h4⟩ := ih (fun x y b c hx hy => h x y b c (by simp [hx]) (by simp [hy])) b1 _ h2
    exact ⟨b2, by rw [List.foldlM_cons, h1, bind_ok, h3], h4⟩

theorem forall₂_same {ι : Type} (l : List ι) : List.Forall₂ (fun x y => x = y) l l := by
  induction l with
  | nil => exact .nil
  | cons a l ih => exact .cons rfl ih

theorem foldM_rel₁ {β γ ι : Type} (R : β → γ → Prop) (f : β → ι → Except Crash β) (g : γ → ι → γ) (l : List ι)
    (h : ∀ x b c, x ∈ l → R b c → ∃ b', f b x = .ok b' ∧ R b' (g c x)) (b : β) (c : γ) (hb : R b c) :
    ∃ b', l.foldlM f b = .ok b' ∧ R b' (l.foldl g c) :=
  foldM_rel R (fun x y => x = y) f g l l (forall₂_same l)
    (fun x y b c hx _ e hR => by subst e; exact h x b c hx hR) b c hb

theorem anyM_ok {ι : Type} (l : List ι) (f : ι → Except Crash Bool) (g : ι → Bool)
    (h : ∀ x ∈ l, f x = .ok (g x)) : l.anyM f = .ok (l.any g) := by
  induction l with
  | nil => rfl
  | cons a l ih =>
    rw [List.anyM, h a (by simp), bind_ok]
    cases hg : g a with
    | true => simp [hg]; rfl
    | false => simpa [hg] using ih fun x hx => h x (by simp [hx])

theorem allM_ok {ι : Type} (l : List ι) (f : ι → Except Crash Bool) (g : ι → Bool)
    (h : ∀ x ∈ l, f x = .ok (g x)) : l.allM f = .ok (l.all g) := by
  induction l with
  | nil => rfl
  | cons a l ih =>
    rw [List.allM, h a (by simp), bind_ok]
    cases hg : g a with
    | true => simpa [hg] using ih fun x hx => h x (by simp [hx])
    | false => simp [hg]; rfl

theorem mapM_ok {ι κ : Type} (l : List ι) (f : ι → Except Crash κ) (g : ι → κ)
    (h : ∀ x ∈ l, f x = .ok (g x)) : l.mapM f = .ok (l.map g) := by
  induction l with
  | nil => rfl
  | cons a l ih =>
    rw [List.mapM_cons, h a (by simp), bind_ok, ih fun x hx => h x (by simp [hx]), bind_ok]; rfl

/-- Two results: the same error, or related values. -/
inductive RelE {α β : Type} (R : α → β → Prop) : Except Crash α → Except Crash β → Prop
  | error (x : Crash) : RelE R (.error x) (.error x)
  | ok {a : α} {b : β} (h : R a b) : RelE R (.ok a) (.ok b)

theorem RelE.mono {α β : Type} {R S : α → β → Prop} {x : Except Crash α} {y : Except Crash β} (h : RelE R x y)
    (hRS : ∀ a b, R a b → S a b) : RelE S x y := by
  cases h with
  | error x => exact .error x
  | ok h => exact .ok (hRS _ _ h)

/-! ### State sets -/

/-- A bitset created for `cap` elements holds the mask `m`, whose elements are below `bd`. -/
structure Rep1 (cap bd : Nat) (r : Bits) (m : Nat) : Prop where
  len : r.length = blockSize cap
  mem : ∀ i, Mem r i = m.testBit i
  lt : m < 2 ^ bd
  le : bd ≤ cap

theorem lt_of_bits {m bd : Nat} (h : ∀ i, m.testBit i = true → i < bd) : m < 2 ^ bd := by
  apply Nat.lt_pow_two_of_testBit
  intro i hi
  cases hb : m.testBit i with
  | false => rfl
  | true => exact absurd (h i hb) (by omega)

theorem bits_lt {m bd : Nat} (h : m < 2 ^ bd) {i : Nat} (hi : m.testBit i = true) : i < bd := by
  by_contra hlt
  have : 2 ^ bd ≤ 2 ^ i := Nat.pow_le_pow_right (by omega) (by omega)
  rw [Nat.testBit_lt_two_pow (by omega)] at hi
  cases hi

theorem Rep1.bit_lt {cap bd : Nat} {r : Bits} {m : Nat} (h : Rep1 cap bd r m) {i : Nat} (hi : m.testBit i = true) :
    i < bd := bits_lt h.lt hi

theorem Rep1.widen {cap bd bd' : Nat} {r : Bits} {m : Nat} (h : Rep1 cap bd r m) (h1 : bd ≤ bd') (h2 : bd' ≤ cap) :
    Rep1 cap bd' r m :=
  ⟨h.len, h.mem, Nat.lt_of_lt_of_le h.lt (Nat.pow_le_pow_right (by omega) h1), h2⟩

theorem rep1_new (cap bd : Nat) (h : bd ≤ cap) : Rep1 cap bd (Bits.new cap) 0 :=
  ⟨Bits.length_new cap, fun i => by rw [Bits.mem_new]; simp, Nat.two_pow_pos bd, h⟩

theorem Rep1.contains {cap bd : Nat} {r : Bits} {m : Nat} (h : Rep1 cap bd r m) {i : Nat} (hi : i < cap) :
    Bits.contains r i = some (m.testBit i) := by
  rw [Bits.contains_eq r i (by have := Bits.blockSize_le cap; rw [h.len]; omega), h.mem]

theorem Rep1.isEmpty {cap bd : Nat} {r : Bits} {m : Nat} (h : Rep1 cap bd r m) :
    Bits.isEmpty r = decide (m = 0) := by
  rw [Bool.eq_iff_iff, Bits.isEmpty_spec, decide_eq_true_iff]
  constructor
  · intro hh
    apply Nat.eq_of_testBit_eq
    intro i
    rw [← h.mem, hh]; simp
  · intro hh j
    rw [h.mem, hh]; simp

theorem blockSize_mono {a b : Nat} (h : a ≤ b) : blockSize a ≤ blockSize b := by
  unfold blockSize
  have h1 := Nat.div_add_mod a 32
  have h2 := Nat.div_add_mod b 32
  have h3 := Nat.mod_lt a (show 0 < 32 by omega)
  have h4 := Nat.mod_lt b (show 0 < 32 by omega)
  split <;> split <;> omega

theorem Rep1.union {cap cap' bd : Nat} {r s : Bits} {m k : Nat} (h : Rep1 cap bd r m) (h' : Rep1 cap' bd s k)
    (hc : cap' ≤ cap) : ∃ r', Bits.union r s = some r' ∧ Rep1 cap bd r' (m ||| k) := by
  obtain ⟨r', h1, h2, h3⟩ := Bits.union_spec r s (by rw [h.len, h'.len]; exact blockSize_mono hc)
  refine ⟨r', h1, by rw [h2, h.len], fun i => by rw [h3, h.mem, h'.mem, Nat.testBit_or], ?_, h.le⟩
  exact Nat.or_lt_two_pow h.lt h'.lt

theorem Rep1.difference {cap bd : Nat} {r s : Bits} {m k : Nat} (h : Rep1 cap bd r m) (h' : Rep1 cap bd s k) :
    ∃ r', Bits.difference r s = some r' ∧ Rep1 cap bd r' (m ^^^ (m &&& k)) := by
  obtain ⟨r', h1, h2, h3⟩ := Bits.difference_spec r s (by rw [h.len, h'.len]; exact Nat.le_refl _)
  have e : ∀ i, Mem r' i = (m ^^^ (m &&& k)).testBit i := fun i => by
    rw [h3, h.mem, h'.mem, Nat.testBit_xor, Nat.testBit_and]
    cases m.testBit i <;> cases k.testBit i <;> rfl
  refine ⟨r', h1, by rw [h2, h.len], e, ?_, h.le⟩
  apply lt_of_bits
  intro i hi
  rw [Nat.testBit_xor, Nat.testBit_and] at hi
  cases hm : m.testBit i with
  | true => exact h.bit_lt hm
  | false => rw [hm] at hi; simp at hi

theorem Rep1.intersect {cap bd : Nat} {r s : Bits} {m k : Nat} (h : Rep1 cap bd r m) (h' : Rep1 cap bd s k) :
    ∃ r', Bits.intersect r s = some r' ∧ Rep1 cap bd r' (m &&& k) := by
  obtain ⟨r', h1, h2, h3⟩ := Bits.intersect_spec r s (by rw [h.len, h'.len])
  refine ⟨r', h1, by rw [h2, h.len], fun i => by rw [h3, h.mem, h'.mem, Nat.testBit_and], ?_, h.le⟩
  exact Nat.lt_of_le_of_lt Nat.and_le_left h.lt

theorem Rep1.insert {cap bd : Nat} {r : Bits} {m : Nat} (h : Rep1 cap bd r m) {i : Nat} (hi : i < bd) :
    ∃ r', Bits.insert r i = some r' ∧ Rep1 cap bd r' (m ||| 2 ^ i) := by
  have hle := h.le
  obtain ⟨r', h1, h2, h3⟩ := Bits.insert_spec r i (by have := Bits.blockSize_le cap; rw [h.len]; omega)
  refine ⟨r', h1, by rw [h2, h.len], fun j => ?_, ?_, h.le⟩
  · rw [h3, h.mem, Nat.testBit_or, Nat.testBit_two_pow]
    congr 1; exact decide_eq_decide.2 eq_comm
  · exact Nat.or_lt_two_pow h.lt (Nat.pow_lt_pow_right (by omega) hi)

theorem Rep1.copyFrom {cap bd bd' : Nat} {r s : Bits} {m k : Nat} (h : Rep1 cap bd' r m) (h' : Rep1 cap bd s k) :
    Bits.copyFrom r s = some s := Bits.copyFrom_spec r s (by rw [h.len, h'.len])

theorem Rep1.clear {cap bd : Nat} {r : Bits} {m : Nat} (h : Rep1 cap bd r m) : Rep1 cap bd (Bits.clear r) 0 :=
  ⟨by rw [(Bits.clear_spec r).1, h.len], fun i => by rw [(Bits.clear_spec r).2]; simp, Nat.two_pow_pos bd, h.le⟩

theorem pairwise_lt_ext : ∀ (l l' : List Nat), l.Pairwise (· < ·) → l'.Pairwise (· < ·) → (∀ i, i ∈ l ↔ i ∈ l') → l = l'
  | [], [], _, _, _ => rfl
  | [], b :: l', _, _, h => by simpa using (h b).2 (by simp)
  | a :: l, [], _, _, h => by simpa using (h a).1 (by simp)
  | a :: l, b :: l', hl, hl', h => by
    rw [List.pairwise_cons] at hl hl'
    have hab : a = b := by
      have h1 := (h a).1 (by simp)
      have h2 := (h b).2 (by simp)
      rw [List.mem_cons] at h1 h2
      rcases h1 with h1 | h1
      · exact h1
      · rcases h2 with h2 | h2
        · exact h2.symm
        · have := hl.1 b h2; have := hl'.1 a h1; omega
    subst hab
    rw [pairwise_lt_ext l l' hl.2 hl'.2 fun i => ?_]
    have := h i
    rw [List.mem_cons, List.mem_cons] at this
    constructor
    · intro hi
      rcases this.1 (Or.inr hi) with e | e
      · exact absurd (hl.1 i hi) (by omega)
      · exact e
    · intro hi
      rcases this.2 (Or.inr hi) with e | e
      · exact absurd (hl'.1 i hi) (by omega)
      · exact e

theorem Rep1.ones {cap bd : Nat} {r : Bits} {m : Nat} (h : Rep1 cap bd r m) (hc : 0 < cap) :
    ones r = .ok (Noodle.ones m) := by
  have hne : r ≠ [] := by
    intro e
    have := h.len
    rw [e] at this
    simp only [List.length_nil] at this
    have := Bits.blockSize_le cap
    omega
  obtain ⟨l, h1, h2, h3⟩ := Bits.ones_spec r hne
  have : l = Noodle.ones m := by
    apply pairwise_lt_ext l _ h2
    · exact List.Pairwise.filter _ List.pairwise_lt_range
    · intro i; rw [h3, mem_ones, h.mem]
  rw [Blk.ones, h1, this]

theorem mem_ext {r s : Bits} (hl : r.length = s.length) (h : ∀ i, Mem r i = Mem s i) : r = s := by
  apply List.ext_getElem hl
  intro k h1 h2
  apply BitVec.eq_of_getLsbD_eq
  intro i hi
  have := h (32 * k + i)
  rw [Bits.mem_of_get h1 hi, Bits.mem_of_get h2 hi] at this
  simpa [List.getD, List.getElem?_eq_getElem h1, List.getElem?_eq_getElem h2] using this

theorem Rep1.inj {cap bd bd' : Nat} {r s : Bits} {m k : Nat} (h : Rep1 cap bd r m) (h' : Rep1 cap bd' s k) :
    r = s ↔ m = k := by
  constructor
  · intro e
    subst e
    apply Nat.eq_of_testBit_eq
    intro i
    rw [← h.mem, ← h'.mem]
  · intro e
    subst e
    exact mem_ext (by rw [h.len, h'.len]) fun i => by rw [h.mem, h'.mem]

/-! ### Tables -/

theorem at_set (R : Rows) (j k m : Nat) (hj : j < R.length) :
    Rows.at (R.set j m) k = if k = j then m else R.at k := by
  unfold Rows.at
  by_cases h : k = j
  · subst h; simp [List.getD, hj]
  · simp [List.getD, List.getElem?_set_ne (fun e => h e.symm), h]

theorem row_set (T : Tbl) (i k : Nat) (r : Rows) (hi : i < T.length) :
    Tbl.row (T.set i r) k = if k = i then r else T.row k := by
  unfold Tbl.row
  by_cases h : k = i
  · subst h; simp [List.getD, hi]
  · simp [List.getD, List.getElem?_set_ne (fun e => h e.symm), h]

theorem rows_ext {R S : Rows} (hl : R.length = S.length) (h : ∀ j, j < R.length → R.at j = S.at j) : R = S := by
  apply List.ext_getElem hl
  intro k h1 h2
  have := h k h1
  simpa [Rows.at, List.getD, List.getElem?_eq_getElem h1, List.getElem?_eq_getElem h2] using this

theorem tbl_ext {T U : Tbl} (hl : T.length = U.length) (h : ∀ i, i < T.length → T.row i = U.row i) : T = U := by
  apply List.ext_getElem hl
  intro k h1 h2
  have := h k h1
  simpa [Tbl.row, List.getD, List.getElem?_eq_getElem h1, List.getElem?_eq_getElem h2] using this

/-- A 2-D bitset (or slice) of `d` rows, each created for `cap` elements, holds the rows `R`. -/
structure Rep2 (d cap bd : Nat) (t : Bits2) (R : Rows) : Prop where
  len : t.blocks.length = d * t.bs
  bs : t.bs = blockSize cap
  rlen : R.length = d
  row : ∀ j, j < d → ∃ r, t.row j = some r ∧ Rep1 cap bd r (R.at j)

/-- A 3-D bitset of `n` slabs of `d` rows, each created for `cap` elements, holds the table `T`; the elements in slab `i`
are below `bd i`. -/
structure Rep3 (n d cap : Nat) (bd : Nat → Nat) (t : Bits3) (T : Tbl) : Prop where
  shape : t.Shape n
  d2 : t.d2 = d
  bs : t.bs = blockSize cap
  tlen : T.length = n
  rlen : ∀ i, i < n → (T.row i).length = d
  row : ∀ i, i < n → ∀ j, j < d → ∃ r, t.row i j = some r ∧ Rep1 cap (bd i) r ((T.row i).at j)

/-- A 2-D bitset is a 3-D one with one slab. -/
def Bits2.up (t : Bits2) (d : Nat) : Bits3 := ⟨t.blocks, d, t.bs⟩

theorem Bits2.up_shape {t : Bits2} {d : Nat} (h : t.blocks.length = d * t.bs) : (t.up d).Shape 1 := by
  simp [Bits3.Shape, Bits2.up, h]

theorem Bits2.up_row (t : Bits2) (d j : Nat) : (t.up d).row 0 j = t.row j := by
  simp [Bits2.row, Bits.row2, Bits3.row, Bits3.rowStart, Bits2.up, Nat.mul_succ]

theorem Bits2.up_modify (t : Bits2) (d j : Nat) (f : Bits → Option Bits) :
    (t.up d).modifyRow 0 j f = (t.modifyRow j f).map (·.up d) := by
  simp only [Bits3.modifyRow, Bits2.up_row, Bits2.modifyRow]
  cases t.row j with
  | none => rfl
  | some r =>
    simp only [Option.bind_some]
    cases f r with
    | none => rfl
    | some r' => simp [Bits2.up, Bits3.rowStart]

theorem Rep2.modifyRow {d cap bd : Nat} {t : Bits2} {R : Rows} (h : Rep2 d cap bd t R) {j : Nat} (hj : j < d)
    (f : Bits → Option Bits) (m : Nat) (hf : ∀ r, Rep1 cap bd r (R.at j) → ∃ r', f r = some r' ∧ Rep1 cap bd r' m) :
    ∃ t', t.modifyRow j f = some t' ∧ Rep2 d cap bd t' (R.set j m) := by
  obtain ⟨r, h1, h2⟩ := h.row j hj
  obtain ⟨r', h3, h4⟩ := hf r h2
  obtain ⟨t', g1, g2, g3, g4, g5, g6⟩ := Bits.modifyRow_spec (t.up d) 1 (Bits2.up_shape h.len) 0 j (by omega) hj f r r'
    (by rw [Bits2.up_row, h1]) h3 (by rw [h4.len, h2.len])
  rw [Bits2.up_modify] at g1
  obtain ⟨u, e1, e2⟩ := Option.map_eq_some_iff.1 g1
  subst e2
  refine ⟨u, e1, ?_, ?_, by simp [h.rlen], fun k hk => ?_⟩
  · have : u.blocks.length = 1 * d * u.bs := g2
    rw [this]; simp
  · have : u.bs = t.bs := g4
    rw [this, h.bs]
  · rw [at_set _ _ _ _ (by rw [h.rlen]; exact hj)]
    by_cases hkj : k = j
    · subst hkj
      rw [if_pos rfl]
      exact ⟨r', by rw [← Bits2.up_row u d, g5], h4⟩
    · rw [if_neg hkj]
      obtain ⟨s, q1, q2⟩ := h.row k hk
      exact ⟨s, by rw [← Bits2.up_row u d, g6 0 k (by omega) hk (fun e => hkj e.2), Bits2.up_row, q1], q2⟩

theorem Rep3.modifyRow {n d cap : Nat} {bd : Nat → Nat} {t : Bits3} {T : Tbl} (h : Rep3 n d cap bd t T) {i j : Nat}
    (hi : i < n) (hj : j < d) (f : Bits → Option Bits) (m : Nat)
    (hf : ∀ r, Rep1 cap (bd i) r ((T.row i).at j) → ∃ r', f r = some r' ∧ Rep1 cap (bd i) r' m) :
    ∃ t', t.modifyRow i j f = some t' ∧ Rep3 n d cap bd t' (T.set i ((T.row i).set j m)) := by
  obtain ⟨r, h1, h2⟩ := h.row i hi j hj
  obtain ⟨r', h3, h4⟩ := hf r h2
  obtain ⟨t', g1, g2, g3, g4, g5, g6⟩ := Bits.modifyRow_spec t n h.shape i j hi (by rw [h.d2]; exact hj) f r r' h1 h3
    (by rw [h4.len, h2.len])
  have hil : i < T.length := by rw [h.tlen]; exact hi
  have hjl : j < (T.row i).length := by rw [h.rlen i hi]; exact hj
  refine ⟨t', g1, g2, by rw [g3, h.d2], by rw [g4, h.bs], by simp [h.tlen], fun k hk => ?_, fun k hk l hl => ?_⟩
  · rw [row_set _ _ _ _ hil]
    by_cases hki : k = i
    · rw [if_pos hki]; simp [h.rlen i hi]
    · rw [if_neg hki, h.rlen k hk]
  · rw [row_set _ _ _ _ hil]
    by_cases hki : k = i
    · subst hki
      rw [if_pos rfl, at_set _ _ _ _ hjl]
      by_cases hlj : l = j
      · subst hlj; rw [if_pos rfl]; exact ⟨r', g5, h4⟩
      · rw [if_neg hlj]
        obtain ⟨s, q1, q2⟩ := h.row k hk l hl
        exact ⟨s, by rw [g6 k l hk (by rw [h.d2]; exact hl) (fun e => hlj e.2), q1], q2⟩
    · rw [if_neg hki]
      obtain ⟨s, q1, q2⟩ := h.row k hk l hl
      exact ⟨s, by rw [g6 k l hk (by rw [h.d2]; exact hl) (fun e => hki e.1), q1], q2⟩

/-- A 3-D bitset with the slabs for rows. -/
def wide (t : Bits3) : Bits3 := ⟨t.blocks, 1, t.d2 * t.bs⟩

theorem wide_shape {t : Bits3} {n : Nat} (h : t.Shape n) : (wide t).Shape n := by
  unfold Bits3.Shape at *
  simp only [wide]
  rw [h, Nat.mul_one, Nat.mul_assoc]

theorem wide_row (t : Bits3) (i : Nat) : (wide t).row i 0 = t.slice2d i := by
  simp only [Bits3.row, Bits3.rowStart, wide, Bits3.slice2d, Nat.one_mul, Nat.add_zero, Nat.mul_succ]

theorem slab_some {t : Bits3} {n : Nat} (h : t.Shape n) {i : Nat} (hi : i < n) :
    ∃ b, t.slice2d i = some b ∧ b.length = t.d2 * t.bs := by
  have h1 := Bits.row_some (wide t) n (wide_shape h) i 0 hi (by simp [wide])
  have h2 := Bits.row_range (wide t) n (wide_shape h) i 0 hi (by simp [wide])
  rw [wide_row] at h1
  refine ⟨_, h1, ?_⟩
  simp only [List.length_take, List.length_drop]
  simp only [wide] at h2 ⊢
  omega

theorem Rep3.slab {n d cap : Nat} {bd : Nat → Nat} {t : Bits3} {T : Tbl} (h : Rep3 n d cap bd t T) {i : Nat}
    (hi : i < n) : ∃ s, slab t i = some s ∧ Rep2 d cap (bd i) s (T.row i) := by
  obtain ⟨b, h1, h2⟩ := slab_some h.shape hi
  refine ⟨⟨b, t.bs⟩, by simp [Blk.slab, h1], by rw [h2, h.d2], h.bs, h.rlen i hi, fun j hj => ?_⟩
  obtain ⟨r, q1, q2⟩ := h.row i hi j hj
  refine ⟨r, ?_, q2⟩
  have := Bits.slice2d_row t n h.shape i j hi (by rw [h.d2]; exact hj)
  rw [h1, q1] at this
  exact this

theorem Rep3.modifySlab {n d cap : Nat} {bd : Nat → Nat} {t : Bits3} {T : Tbl} (h : Rep3 n d cap bd t T) {i : Nat}
    (hi : i < n) (f : Bits2 → Except Crash Bits2) (R : Rows)
    (hf : ∀ s, Rep2 d cap (bd i) s (T.row i) → ∃ s', f s = .ok s' ∧ Rep2 d cap (bd i) s' R) :
    ∃ t', modifySlab t i f = .ok t' ∧ Rep3 n d cap bd t' (T.set i R) := by
  obtain ⟨s, h1, h2⟩ := h.slab hi
  obtain ⟨s', h3, h4⟩ := hf s h2
  obtain ⟨b, h5, h6⟩ := slab_some h.shape hi
  have hs : s = ⟨b, t.bs⟩ := by
    rw [Blk.slab, h5] at h1
    exact (Option.some.inj h1).symm
  have hlen : s'.blocks.length = b.length := by rw [h4.len, h6, h4.bs, h.d2, h.bs]
  obtain ⟨t', g1, g2, g3, g4, g5, g6⟩ := Bits.modifyRow_spec (wide t) n (wide_shape h.shape) i 0 hi (by simp [wide])
    (fun _ => some s'.blocks) b s'.blocks (by rw [wide_row, h5]) rfl hlen
  have e1 : Bits3.modifyRow (wide t) i 0 (fun _ => some s'.blocks) =
      some (wide { t with blocks := Bits.put t.blocks (t.d2 * t.bs * i) s'.blocks }) := by
    simp only [Bits3.modifyRow, wide_row, h5, Option.bind_some, Option.map_some]
    simp [wide, Bits3.rowStart]
  obtain rfl : wide { t with blocks := Bits.put t.blocks (t.d2 * t.bs * i) s'.blocks } = t' :=
    Option.some.inj (e1.symm.trans g1)
  have hil : i < T.length := by rw [h.tlen]; exact hi
  have hshape : ({ t with blocks := Bits.put t.blocks (t.d2 * t.bs * i) s'.blocks } : Bits3).Shape n := by
    unfold Bits3.Shape at *
    simp only [wide] at g2
    simp only
    rw [g2, Nat.mul_one, Nat.mul_assoc]
  refine ⟨{ t with blocks := Bits.put t.blocks (t.d2 * t.bs * i) s'.blocks }, ?_, hshape, h.d2, h.bs, by simp [h.tlen],
    fun k hk => ?_, fun k hk l hl => ?_⟩
  · rw [Blk.modifySlab, h1, ub_some, bind_ok, h3, bind_ok]
  · rw [row_set _ _ _ _ hil]
    by_cases hki : k = i
    · rw [if_pos hki, h4.rlen]
    · rw [if_neg hki, h.rlen k hk]
  · have hd : l < t.d2 := by rw [h.d2]; exact hl
    rw [← Bits.slice2d_row _ n hshape k l hk hd, row_set _ _ _ _ hil]
    by_cases hki : k = i
    · subst hki
      rw [if_pos rfl]
      rw [← wide_row, g5]
      obtain ⟨r, q1, q2⟩ := h4.row l hl
      refine ⟨r, ?_, q2⟩
      rw [Bits2.row, h4.bs] at q1
      simp only [Option.bind_some, h.bs, q1]
    · rw [if_neg hki]
      rw [← wide_row, g6 k 0 hk (by simp [wide]) (fun e => hki e.1), wide_row]
      obtain ⟨r, q1, q2⟩ := h.row k hk l hl
      refine ⟨r, ?_, q2⟩
      rw [← q1]
      exact Bits.slice2d_row t n h.shape k l hk hd

theorem rep3_new (n d cap : Nat) (bd : Nat → Nat) (hb : ∀ i, i < n → bd i ≤ cap) :
    Rep3 n d cap bd (Bits.new3 n d cap) (List.replicate n (List.replicate d 0)) := by
  refine ⟨Bits.new3_shape n d cap, rfl, rfl, by simp, fun i hi => ?_, fun i hi j hj => ?_⟩
  · simp [Tbl.row, List.getD, List.getElem?_replicate, hi]
  · refine ⟨Bits.new cap, Bits.new3_row n d cap i j hi hj, ?_⟩
    have : Rows.at (Tbl.row (List.replicate n (List.replicate d 0)) i) j = 0 := by
      simp [Tbl.row, Rows.at, List.getD, List.getElem?_replicate, hi, hj]
    rw [this]
    exact rep1_new cap (bd i) (hb i hi)

theorem rep2_new (d cap bd : Nat) (hb : bd ≤ cap) : Rep2 d cap bd (new2 d cap) (List.replicate d 0) := by
  refine ⟨by simp [new2], rfl, by simp, fun j hj => ⟨Bits.new cap, ?_, ?_⟩⟩
  · have := Bits.new3_row 1 d cap 0 j (by omega) hj
    rw [← this, ← Bits2.up_row _ d]
    simp [Bits2.up, new2, Bits.new3]
  · have : Rows.at (List.replicate d 0) j = 0 := by simp [Rows.at, List.getD, List.getElem?_replicate, hj]
    rw [this]; exact rep1_new cap bd hb

theorem blocks_ext (a b : List Block) (bs d : Nat) (ha : a.length = d * bs) (hb : b.length = d * bs)
    (h : ∀ j, j < d → Bits.row2 a bs j = Bits.row2 b bs j) : a = b := by
  apply List.ext_getElem (by omega)
  intro k h1 h2
  have hbs : 0 < bs := by
    rcases Nat.eq_zero_or_pos bs with h0 | h0
    · subst h0; simp at ha; subst ha; simp at h1
    · exact h0
  have hd : k / bs < d := by rw [Nat.div_lt_iff_lt_mul hbs]; omega
  have hle : bs * (k / bs + 1) ≤ d * bs := by rw [Nat.mul_comm d]; exact Nat.mul_le_mul_left _ hd
  have := h (k / bs) hd
  simp only [Bits.row2, Bits.sub] at this
  rw [if_pos ⟨Nat.mul_le_mul_left _ (by omega), by omega⟩, if_pos ⟨Nat.mul_le_mul_left _ (by omega), by omega⟩] at this
  have e := Option.some.inj this
  have hk := Nat.div_add_mod k bs
  have hm := Nat.mod_lt k hbs
  have e2 := congrArg (fun l : List Block => l[k % bs]?) e
  simp only [List.getElem?_take, List.getElem?_drop] at e2
  rw [Nat.mul_succ, Nat.add_sub_cancel_left, if_pos hm, if_pos hm, hk, List.getElem?_eq_getElem h1,
    List.getElem?_eq_getElem h2] at e2
  exact Option.some.inj e2

theorem Rep2.inj {d cap bd bd' : Nat} {t t' : Bits2} {R R' : Rows} (h : Rep2 d cap bd t R) (h' : Rep2 d cap bd' t' R') :
    t = t' ↔ R = R' := by
  constructor
  · intro e
    subst e
    apply rows_ext (by rw [h.rlen, h'.rlen])
    intro j hj
    rw [h.rlen] at hj
    obtain ⟨r, a1, a2⟩ := h.row j hj
    obtain ⟨s, b1, b2⟩ := h'.row j hj
    exact (a2.inj b2).1 (Option.some.inj (a1.symm.trans b1))
  · intro e
    subst e
    have hb : t.bs = t'.bs := by rw [h.bs, h'.bs]
    have : t.blocks = t'.blocks := by
      apply blocks_ext _ _ t.bs d h.len (by rw [h'.len, hb])
      intro j hj
      obtain ⟨r, a1, a2⟩ := h.row j hj
      obtain ⟨s, b1, b2⟩ := h'.row j hj
      have := (a2.inj b2).2 rfl
      subst this
      rw [Bits2.row] at a1 b1
      rw [a1, hb, b1]
    cases t; cases t'; simp_all

theorem Rep3.inj {n d cap : Nat} {bd bd' : Nat → Nat} {t t' : Bits3} {T T' : Tbl} (h : Rep3 n d cap bd t T)
    (h' : Rep3 n d cap bd' t' T') : t = t' ↔ T = T' := by
  constructor
  · intro e
    subst e
    apply tbl_ext (by rw [h.tlen, h'.tlen])
    intro i hi
    rw [h.tlen] at hi
    apply rows_ext (by rw [h.rlen i hi, h'.rlen i hi])
    intro j hj
    rw [h.rlen i hi] at hj
    obtain ⟨r, a1, a2⟩ := h.row i hi j hj
    obtain ⟨s, b1, b2⟩ := h'.row i hi j hj
    exact (a2.inj b2).1 (Option.some.inj (a1.symm.trans b1))
  · intro e
    subst e
    have hb : t.bs = t'.bs := by rw [h.bs, h'.bs]
    have hd : t.d2 = t'.d2 := by rw [h.d2, h'.d2]
    have : t.blocks = t'.blocks := by
      have l1 := h.shape
      have l2 := h'.shape
      unfold Bits3.Shape at l1 l2
      apply blocks_ext _ _ (t.d2 * t.bs) n (by rw [l1, Nat.mul_assoc]) (by rw [l2, hb, hd, Nat.mul_assoc])
      intro i hi
      obtain ⟨s, a1, a2⟩ := h.slab hi
      obtain ⟨s', b1, b2⟩ := h'.slab hi
      have e := (a2.inj b2).2 rfl
      subst e
      rw [Blk.slab, Option.map_eq_some_iff] at a1 b1
      obtain ⟨x, x1, x2⟩ := a1
      obtain ⟨y, y1, y2⟩ := b1
      have exy : x = y := by
        have := x2.trans y2.symm
        simpa using (congrArg Bits2.blocks this)
      subst exy
      have e1 : Bits.row2 t.blocks (t.d2 * t.bs) i = t.slice2d i := by simp [Bits.row2, Bits3.slice2d]
      have e2 : Bits.row2 t'.blocks (t'.d2 * t'.bs) i = t'.slice2d i := by simp [Bits.row2, Bits3.slice2d]
      rw [e1, x1, ← y1, ← e2, hb, hd]
    cases t; cases t'; simp_all

theorem Rep2.isEmpty {d cap bd : Nat} {t : Bits2} {R : Rows} (h : Rep2 d cap bd t R) :
    (t.blocks.all (· == 0#32)) = R.all fun s => s == 0 := by
  have hz : Rep2 d cap bd (new2 d cap) (List.replicate d 0) := by
    by_cases hd : 0 < d
    · obtain ⟨r, _, h2⟩ := h.row 0 hd
      exact rep2_new d cap bd h2.le
    · obtain rfl : d = 0 := by omega
      exact ⟨by simp [new2], rfl, by simp, fun j hj => by omega⟩
  have key := h.inj hz
  rw [Bool.eq_iff_iff, List.all_eq_true, List.all_eq_true]
  have e1 : (∀ x ∈ t.blocks, (x == 0#32) = true) ↔ t = new2 d cap := by
    constructor
    · intro hh
      have : t.blocks = List.replicate (d * blockSize cap) 0#32 := by
        apply List.eq_replicate_iff.2
        exact ⟨by rw [h.len, h.bs], fun x hx => by simpa using hh x hx⟩
      have hb := h.bs
      cases t; simp_all [new2]
    · rintro rfl x hx
      simp [new2] at hx
      simp [hx.2]
  have e2 : (∀ x ∈ R, (x == 0) = true) ↔ R = List.replicate d 0 := by
    rw [List.eq_replicate_iff]
    constructor
    · intro hh; exact ⟨h.rlen, fun x hx => by simpa using hh x hx⟩
    · rintro ⟨_, hh⟩ x hx; simp [hh x hx]
  rw [e1, e2, key]

theorem Rep2.clear {d cap bd : Nat} {t : Bits2} {R : Rows} (h : Rep2 d cap bd t R) :
    Rep2 d cap bd { t with blocks := Bits.clear t.blocks } (R.map fun _ => 0) := by
  have e : ({ t with blocks := Bits.clear t.blocks } : Bits2) = new2 d cap := by
    have : Bits.clear t.blocks = List.replicate (d * blockSize cap) 0#32 := by
      apply List.eq_replicate_iff.2
      refine ⟨by rw [(Bits.clear_spec _).1, h.len, h.bs], fun x hx => ?_⟩
      simp [Bits.clear] at hx
      exact hx.2
    simp [new2, this, h.bs]
  have e2 : R.map (fun _ => 0) = List.replicate d 0 := by
    apply List.eq_replicate_iff.2
    exact ⟨by simp [h.rlen], by simp⟩
  rw [e, e2]
  by_cases hd : 0 < d
  · obtain ⟨r, _, h2⟩ := h.row 0 hd
    exact rep2_new d cap bd h2.le
  · obtain rfl : d = 0 := by omega
    exact ⟨by simp [new2], rfl, by simp, fun j hj => by omega⟩

theorem Rep3.clear {n d cap : Nat} {bd : Nat → Nat} {t : Bits3} {T : Tbl} (h : Rep3 n d cap bd t T)
    (hb : ∀ i, i < n → bd i ≤ cap) :
    Rep3 n d cap bd { t with blocks := Bits.clear t.blocks } (List.replicate n (List.replicate d 0)) := by
  have e : ({ t with blocks := Bits.clear t.blocks } : Bits3) = Bits.new3 n d cap := by
    have hs := h.shape
    unfold Bits3.Shape at hs
    have : Bits.clear t.blocks = List.replicate (n * d * blockSize cap) 0#32 := by
      apply List.eq_replicate_iff.2
      refine ⟨by rw [(Bits.clear_spec _).1, hs, h.bs, h.d2], fun x hx => ?_⟩
      simp [Bits.clear] at hx
      exact hx.2
    simp [Bits.new3, this, h.bs, h.d2]
  rw [e]
  exact rep3_new n d cap bd hb

theorem Rep3.copy {n d cap : Nat} {bd bd' : Nat → Nat} {t u : Bits3} {T U : Tbl} (h : Rep3 n d cap bd t T)
    (h' : Rep3 n d cap bd' u U) :
    Bits.copyFrom t.blocks u.blocks = some u.blocks ∧ ({ t with blocks := u.blocks } : Bits3) = u := by
  have l1 := h.shape
  have l2 := h'.shape
  unfold Bits3.Shape at l1 l2
  have hb : t.bs = u.bs := by rw [h.bs, h'.bs]
  have hd : t.d2 = u.d2 := by rw [h.d2, h'.d2]
  refine ⟨Bits.copyFrom_spec _ _ (by rw [l1, l2, hb, hd]), ?_⟩
  cases t; cases u; simp_all

end Noodle.Blk
