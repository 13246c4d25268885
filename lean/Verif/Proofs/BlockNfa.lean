import Verif.Proofs.BlockBuild
import Verif.Proofs.BlockFill
/-
The compiler over blocks does what the compiler over masks does: the optimisation passes.
-/
namespace Noodle.Blk
set_option autoImplicit false
open Noodle.Bits (Bits blockSize Mem)

/-! ### Closure -/

theorem closeSweep_rel {cap : Nat} {bs : List State} {ss : List Noodle.State} (h : RS cap bs ss) (hl : ss.length ≤ cap)
    {r : Bits} {m : Nat} (hr : Rep1 cap cap r m) :
    ∃ r', closeSweep bs r = .ok r' ∧ Rep1 cap cap r' (Noodle.closeSweep ss m) := by
  unfold closeSweep Noodle.closeSweep
  refine foldM_rel (Rep1 cap cap) (fun p q => RState cap p.1 q.1 ∧ p.2 = q.2) _ _ _ _ (forall₂_zipIdx h 0) ?_ r m hr
  intro p q b c hp hq hpq hb
  obtain ⟨p1, p2⟩ := p
  obtain ⟨q1, q2⟩ := q
  simp only at hpq
  obtain ⟨h1, rfl⟩ := hpq
  have hlt : p2 < cap := by
    have := List.mem_zipIdx hq
    omega
  rw [hb.contains hlt]
  simp only [ub_some, bind_ok]
  by_cases ht : c.testBit p2 = true
  · rw [if_pos ht, if_pos ht]
    obtain ⟨b', e1, e2⟩ := hb.union h1.1 (Nat.le_refl _)
    exact ⟨b', by rw [e1]; rfl, e2⟩
  · rw [if_neg ht, if_neg ht]
    exact ⟨b, rfl, hb⟩

theorem closeLoop_rel {cap : Nat} (i n : Nat) {bs : List State} {ss : List Noodle.State} (h : RS cap bs ss)
    (hl : ss.length ≤ cap) : RelE (RS cap) (closeLoop i n bs) (Noodle.closeLoop i n ss) := by
  induction n generalizing bs ss with
  | zero => exact .error _
  | succ n ih =>
    unfold closeLoop Noodle.closeLoop
    rcases h.get i with ⟨h1, h2⟩ | ⟨s, t, h1, h2, h3⟩
    · simp only [h1, h2]; exact .error _
    · obtain ⟨r', e1, e2⟩ := closeSweep_rel h hl h3.1
      simp only [h1, h2, e1]
      by_cases he : t.eps = Noodle.closeSweep ss t.eps
      · rw [if_pos ((h3.1.inj e2).2 he), if_pos he]; exact .ok h
      · rw [if_neg (fun hc => he ((h3.1.inj e2).1 hc)), if_neg he]
        exact ih (h.set i ⟨e2, h3.2⟩) (by simpa using hl)

theorem closeLoop_length (i n : Nat) {ss ss' : List Noodle.State} (h : Noodle.closeLoop i n ss = .ok ss') :
    ss'.length = ss.length := by
  induction n generalizing ss with
  | zero => cases h
  | succ n ih =>
    unfold Noodle.closeLoop at h
    cases hi : ss[i]? with
    | none => rw [hi] at h; cases h
    | some st =>
      simp only [hi] at h
      split at h
      · cases h; rfl
      · have := ih h
        simpa using this

theorem closeFrom_rel {cap : Nat} (k i : Nat) {bs : List State} {ss : List Noodle.State} (h : RS cap bs ss)
    (hl : ss.length ≤ cap) (hk : i + k ≤ ss.length) : RelE (RS cap) (closeFrom k i bs) (Noodle.closeFrom k i ss) := by
  induction k generalizing i bs ss with
  | zero => exact .ok h
  | succ k ih =>
    unfold closeFrom Noodle.closeFrom insertEps
    rcases h.get i with ⟨h1, h2⟩ | ⟨s, t, h1, h2, h3⟩
    · simp only [h1, h2]; exact .error _
    · obtain ⟨r', e1, e2⟩ := h3.1.insert (i := i) (by omega)
      simp only [h1, h2, e1, ub_some, bind_ok]
      rw [← Nat.one_mul (2 ^ i), ← Nat.shiftLeft_eq] at e2
      have hs : RS cap (bs.set i { s with eps := r' }) (ss.set i { t with eps := t.eps ||| 1 <<< i }) :=
        h.set i ⟨e2, h3.2⟩
      rcases (closeLoop_rel i (bs.length + 2) hs (by simpa using hl)).cases with ⟨x, f1, f2⟩ | ⟨a, b, f1, f2, f3⟩
      · rw [h.len] at f1 f2
        simp only [h.len, f1, f2]; exact .error _
      · rw [h.len] at f1 f2
        simp only [h.len, f1, f2]
        have hlen : b.length = ss.length := by
          have := closeLoop_length _ _ f2
          simpa using this
        exact ih (i + 1) f3 (by omega) (by omega)

/-! ### Pruning -/

theorem find_rel {α β γ : Type} {R : α → β → Prop} {l : List α} {l' : List β} (h : List.Forall₂ R l l') (p : α → Bool)
    (q : β → Bool) (f : α → γ) (g : β → γ) (hpq : ∀ a b, R a b → p a = q b) (hfg : ∀ a b, R a b → f a = g b) :
    (l.find? p).map f = (l'.find? q).map g := by
  induction h with
  | nil => rfl
  | cons h1 _ ih =>
    rw [List.find?_cons, List.find?_cons, hpq _ _ h1]
    cases q _ with
    | true => exact congrArg some (hfg _ _ h1)
    | false => exact ih

theorem partner_rel {cap : Nat} {bs : List State} {ss : List Noodle.State} (h : RS cap bs ss) {i : Nat} (hi : i < cap)
    {s : State} {t : Noodle.State} (hs : RState cap s t) : partner bs i s = .ok (Noodle.partner ss i t) := by
  unfold partner Noodle.partner
  obtain ⟨r, e1, e2⟩ := hs.1.remove hi
  rw [e1]
  simp only [ub_some, bind_ok]
  refine congrArg Except.ok (find_rel (forall₂_zipIdx h 0) _ _ _ _ ?_ fun _ _ hab => hab.2)
  intro a b hab
  rw [hab.2]
  congr 1
  rw [Bool.eq_iff_iff, decide_eq_true_iff, beq_iff_eq]
  exact e2.inj hab.1.1

theorem pruneStep_rel {cap : Nat} {bs : List State} {ss : List Noodle.State} (h : RS cap bs ss) (acc : Prune)
    {s : State} {t : Noodle.State} {i : Nat} (hi : i < cap) (hs : RState cap s t) :
    pruneStep bs acc (s, i) = Noodle.pruneStep ss acc (t, i) := by
  unfold pruneStep Noodle.pruneStep
  simp only [partner_rel h hi hs, hs.2.1]
  cases acc.map[i]? with
  | none => rfl
  | some m =>
    simp only []
    split
    · rfl
    · split
      · rfl
      · split
        · rfl
        · cases Noodle.partner ss i t <;> rfl

theorem pruneLoop_rel {cap : Nat} {bs : List State} {ss : List Noodle.State} (h : RS cap bs ss)
    {l : List (State × Nat)} {l' : List (Noodle.State × Nat)}
    (hl : List.Forall₂ (fun p q => RState cap p.1 q.1 ∧ p.2 = q.2) l l') (hlt : ∀ q ∈ l', q.2 < cap) (acc : Prune) :
    pruneLoop bs acc l = Noodle.pruneLoop ss acc l' := by
  induction hl generalizing acc with
  | nil => rfl
  | @cons p q l l' h1 _ ih =>
    obtain ⟨p1, p2⟩ := p
    obtain ⟨q1, q2⟩ := q
    simp only at h1
    obtain ⟨h1, rfl⟩ := h1
    unfold pruneLoop Noodle.pruneLoop
    rw [pruneStep_rel h acc (hlt (q1, p2) (by simp)) h1]
    cases Noodle.pruneStep ss acc (q1, p2) with
    | error x => rfl
    | ok acc' => exact ih (fun q hq => hlt q (by simp [hq])) acc'

theorem testBit_inserts (l : List Nat) (f : Nat → Nat) (b y : Nat) :
    (l.foldl (fun b x => b ||| 2 ^ f x) b).testBit y = true ↔ b.testBit y = true ∨ ∃ x ∈ l, f x = y := by
  induction l generalizing b with
  | nil => simp
  | cons x l ih =>
    rw [List.foldl_cons, ih, Nat.testBit_or, Nat.testBit_two_pow]
    simp [or_assoc]

theorem mapSet_rel {cap n : Nat} {r : Bits} {e : Nat} (hr : Rep1 cap cap r e) (hc : 0 < cap) (m : List Nat)
    (he : ∀ x, e.testBit x = true → x < m.length) (hm : ∀ y ∈ m, y < n) :
    ∃ r', mapSet m n r = .ok r' ∧ Rep1 n n r' (mapMask m e) := by
  unfold mapSet
  rw [hr.ones hc]
  simp only [bind_ok]
  have heq : mapMask m e = (Noodle.ones e).foldl (fun b x => b ||| 2 ^ m.getD x 0) 0 := by
    apply Nat.eq_of_testBit_eq
    intro y
    rw [Bool.eq_iff_iff, testBit_mapMask, testBit_inserts]
    constructor
    · rintro ⟨x, h1, h2⟩
      exact .inr ⟨x, (mem_ones _ _).2 h2, by rw [List.getD_eq_getElem?_getD, h1]; rfl⟩
    · rintro (h | ⟨x, h1, h2⟩)
      · simp at h
      · have hx := (mem_ones _ _).1 h1
        have hlt := he x hx
        refine ⟨x, ?_, hx⟩
        rw [List.getD_eq_getElem?_getD, List.getElem?_eq_getElem hlt, Option.getD_some] at h2
        rw [List.getElem?_eq_getElem hlt, h2]
  rw [heq]
  refine foldM_rel₁ (Rep1 n n) _ _ _ ?_ _ _ (rep1_new n n (Nat.le_refl _))
  intro x b c hx hb
  have hlt := he x ((mem_ones _ _).1 hx)
  rw [List.getElem?_eq_getElem hlt]
  simp only []
  obtain ⟨b', e1, e2⟩ := hb.insert (hm m[x] (List.getElem_mem hlt))
  refine ⟨b', by rw [e1]; rfl, ?_⟩
  rw [List.getD_eq_getElem?_getD, List.getElem?_eq_getElem hlt, Option.getD_some]
  exact e2

theorem rebuild_rel {cap n : Nat} {bs : List State} {ss : List Noodle.State} (h : RS cap bs ss) (hc : 0 < cap)
    (hr : InRange ss) (m : List Nat) (hlen : m.length = ss.length) (hm : ∀ y ∈ m, y < n) (l : List (Option Nat)) :
    RelE (RS n) (rebuild bs m n l) (Noodle.rebuild ss m l) := by
  induction l with
  | nil => exact .ok .nil
  | cons o l ih =>
    cases o with
    | none => exact ih
    | some f =>
      unfold rebuild Noodle.rebuild
      rcases h.get f with ⟨h1, h2⟩ | ⟨s, t, h1, h2, h3⟩
      · simp only [h1, h2]; exact .error _
      · simp only [h1, h2]
        obtain ⟨hn, he⟩ := hr f t h2
        obtain ⟨r', e1, e2⟩ := mapSet_rel h3.1 hc m (by rw [hlen]; exact he) hm
        have hx : ∃ nx, m[t.next]? = some nx := ⟨_, List.getElem?_eq_getElem (by omega)⟩
        obtain ⟨nx, hx⟩ := hx
        have e3 : renumber m n s = .ok { eps := r', cls := s.cls, next := nx } := by
          unfold renumber
          simp only [e1, h3.2.2, hx]
        have e4 : Noodle.renumber m t = .ok { eps := mapMask m t.eps, cls := t.cls, next := nx } := by
          unfold Noodle.renumber
          rw [if_neg (by have := lt_two_pow_of_bits he; rw [hlen]; omega)]
          simp only [hx]
        simp only [e3, e4]
        rcases ih.cases with ⟨x, f1, f2⟩ | ⟨a, b, f1, f2, f3⟩
        · simp only [f1, f2]; exact .error _
        · simp only [f1, f2]; exact .ok (.cons ⟨e2, h3.2.1, rfl⟩ f3)

theorem prune_rel {cap : Nat} {bs : List State} {ss : List Noodle.State} (h : RS cap bs ss) (hc : 0 < cap)
    (hl : ss.length ≤ cap) (hr : InRange ss) :
    RelE (fun b p => RS p.2 b p.1) (prune bs) (Noodle.prune ss) := by
  unfold prune Noodle.prune
  rw [h.len, pruneLoop_rel h (forall₂_zipIdx h 0) (fun q hq => by have := List.mem_zipIdx hq; omega)]
  have hinv := @pruneAcc_inv ss
  unfold pruneAcc at hinv
  revert hinv
  generalize Noodle.pruneLoop ss _ ss.zipIdx = r
  intro hinv
  cases r with
  | error x => exact .error _
  | ok acc =>
    simp only []
    have inv := hinv rfl
    split
    · exact .error _
    · split
      · exact .error _
      · rename_i h3
        simp only [List.any_eq_true, decide_eq_true_eq, not_exists, not_and, Nat.not_le] at h3
        rcases (rebuild_rel h hc hr acc.map inv.mapLen h3 acc.src).cases with ⟨x, f1, f2⟩ | ⟨a, b, f1, f2, f3⟩
        · simp only [f1, f2]; exact .error _
        · simp only [f1, f2]; exact .ok f3

/-! ### Collapsing -/

theorem onlyContains_rel {cap : Nat} {r : Bits} {m : Nat} (h : Rep1 cap cap r m) {i : Nat} (hi : i < cap) :
    onlyContains r i = .ok (Noodle.onlyContains m i) := by
  unfold onlyContains Noodle.onlyContains
  rw [h.isEmpty, h.contains hi, h.ones (by omega)]
  by_cases h0 : m = 0
  · simp [h0]
  · have e0 : (m == 0) = false := by simpa using h0
    simp only [h0, decide_false, Bool.false_eq_true, if_false, ub_some, bind_ok, e0, Bool.false_or]
    cases hb : m.testBit i with
    | false =>
      have : (m == 1 <<< i) = false := by
        rw [beq_eq_false_iff_ne]
        rintro rfl
        rw [testBit_one_shift] at hb
        simp at hb
      rw [this]; rfl
    | true =>
      rw [if_pos rfl]
      congr 1
      rw [Bool.eq_iff_iff, beq_iff_eq, beq_iff_eq]
      have hmem := (mem_ones m i).2 hb
      constructor
      · intro hlen
        obtain ⟨x, hx⟩ := List.length_eq_one_iff.1 hlen
        rw [hx] at hmem
        have : i = x := by simpa using hmem
        subst this
        apply Nat.eq_of_testBit_eq
        intro y
        rw [testBit_one_shift, Bool.eq_iff_iff, decide_eq_true_iff, ← mem_ones, hx, List.mem_singleton]
        exact eq_comm
      · intro hm
        have : Noodle.ones m = [i] := by
          apply pairwise_lt_ext
          · exact List.Pairwise.filter _ List.pairwise_lt_range
          · simp
          · intro y
            rw [mem_ones, hm, testBit_one_shift, decide_eq_true_iff, List.mem_singleton]
            exact eq_comm
        rw [this]; rfl

theorem isSubset_rel {cap : Nat} {r s : Bits} {m k : Nat} (h : Rep1 cap cap r m) (h' : Rep1 cap cap s k) :
    Bits.isSubset r s = maskSubset m k := by
  rw [Bool.eq_iff_iff, Bits.isSubset_spec r s (by rw [h.len, h'.len]), maskSubset_iff]
  simp only [h.mem, h'.mem]

theorem isPair_rel {cap : Nat} {bs : List State} {ss : List Noodle.State} (h : RS cap bs ss) (hl : ss.length ≤ cap)
    (hr : InRange ss) {ei ci : Nat} (he : ei < ss.length) (hc : ci < ss.length) :
    ∃ b, isPair ei ci bs = .ok b ∧ Noodle.isPair ei ci ss = some b := by
  unfold isPair Noodle.isPair
  rcases h.get ei with ⟨_, h2⟩ | ⟨s, t, h1, h2, h3⟩
  · rw [List.getElem?_eq_none_iff] at h2; omega
  rcases h.get ci with ⟨_, g2⟩ | ⟨s', t', g1, g2, g3⟩
  · rw [List.getElem?_eq_none_iff] at g2; omega
  have hn := (hr ci t' g2).1
  rcases h.get t'.next with ⟨_, k2⟩ | ⟨s'', t'', k1, k2, k3⟩
  · rw [List.getElem?_eq_none_iff] at k2; omega
  obtain ⟨r1, i1, i2⟩ := g3.1.insert (i := ei) (by omega)
  rw [← Nat.one_mul (2 ^ ei), ← Nat.shiftLeft_eq] at i2
  obtain ⟨r2, j1, j2⟩ := i2.union k3.1 (Nat.le_refl _)
  simp only [h1, h2, g1, g2, i1, ub_some, bind_ok, g3.2.2, k1, k2, j1, h3.2.1, onlyContains_rel g3.1 (show ci < cap by omega),
    h3.1.contains (show ci < cap by omega), h3.1.contains (show t'.next < cap by omega), isSubset_rel h3.1 j2]
  refine ⟨_, ?_, rfl⟩
  by_cases c1 : ci ≠ 0 ∧ t.cls = CharSet.empty ∧ t'.next ≠ ei ∧ t'.next ≠ ci
  · rw [if_pos c1]
    obtain ⟨c1, c2, c3, c4⟩ := c1
    simp only [c1, c2, c3, c4, ne_eq, not_false_eq_true, decide_true, Bool.true_and]
    cases Noodle.onlyContains t'.eps ci <;> cases t.eps.testBit ci <;> cases t.eps.testBit t'.next <;> simp
  · rw [if_neg c1]
    congr 1
    symm
    rw [Bool.eq_false_iff]
    intro hall
    apply c1
    simp only [Bool.and_eq_true, decide_eq_true_eq] at hall
    exact ⟨hall.1.1.1.1.1.1.1, hall.1.1.1.1.1.1.2, hall.1.1.1.1.1.2, hall.1.1.1.1.2⟩

theorem findPair_rel {cap : Nat} {bs : List State} {ss : List Noodle.State} (h : RS cap bs ss) (hl : ss.length ≤ cap)
    (hr : InRange ss) {i : Nat} (hi : i < ss.length) (k j : Nat) (hk : j + k ≤ ss.length) :
    findPair bs i k j = Noodle.findPair ss i k j := by
  induction k generalizing j with
  | zero => rfl
  | succ k ih =>
    unfold findPair Noodle.findPair
    obtain ⟨b1, e1, f1⟩ := isPair_rel h hl hr hi (show j < ss.length by omega)
    obtain ⟨b2, e2, f2⟩ := isPair_rel h hl hr (show j < ss.length by omega) hi
    rw [e1, f1, e2, f2, ih (j + 1) (by omega)]
    cases b1 <;> cases b2 <;> rfl

theorem mapM_rel {α β γ δ : Type} {R : α → β → Prop} {S : γ → δ → Prop} {f : α → Except Crash γ} {g : β → δ} {l : List α}
    {l' : List β} (h : List.Forall₂ R l l') (hf : ∀ x y, y ∈ l' → R x y → ∃ z, f x = .ok z ∧ S z (g y)) :
    ∃ r, l.mapM f = .ok r ∧ List.Forall₂ S r (l'.map g) := by
  induction h with
  | nil => exact ⟨[], rfl, .nil⟩
  | cons h1 _ ih =>
    obtain ⟨z, e1, e2⟩ := hf _ _ (by simp) h1
    obtain ⟨r, e3, e4⟩ := ih fun x y hy => hf x y (by simp [hy])
    refine ⟨z :: r, ?_, .cons e2 e4⟩
    rw [List.mapM_cons, e1, bind_ok, e3, bind_ok]; rfl

theorem remapState_rel {cap n : Nat} {s : State} {t : Noodle.State} (h : RState cap s t) {E C : Nat} (hl : n ≤ cap)
    (hE : E < n) (hC : C < n) (hne : E ≠ C) (he : ∀ y, t.eps.testBit y = true → y < n) :
    ∃ s', remapState E C s = .ok s' ∧ RState cap s' (Noodle.remapState n E C t) := by
  unfold remapState Noodle.remapState
  rw [h.1.ones (by omega)]
  simp only [bind_ok]
  have hfold : ∃ r, (Noodle.ones t.eps).foldlM (fun b x => ub (Bits.insert b (remap E C x))) (Bits.clear s.eps) = .ok r ∧
      Rep1 cap cap r ((Noodle.ones t.eps).foldl (fun b x => b ||| 2 ^ remap E C x) 0) := by
    refine foldM_rel₁ (Rep1 cap cap) _ _ _ ?_ _ _ h.1.clear
    intro x b c hx hb
    have hlt := remap_lt hne hE hC (he x ((mem_ones _ _).1 hx))
    obtain ⟨b', e1, e2⟩ := hb.insert (i := remap E C x) (by omega)
    exact ⟨b', by rw [e1]; rfl, e2⟩
  obtain ⟨r, e1, e2⟩ := hfold
  rw [e1]
  simp only [bind_ok]
  refine ⟨_, rfl, ?_, h.2.1, by simp only [h.2.2]⟩
  have heq : mapMask ((List.range n).map (remap E C)) t.eps =
      (Noodle.ones t.eps).foldl (fun b x => b ||| 2 ^ remap E C x) 0 := by
    apply Nat.eq_of_testBit_eq
    intro y
    rw [Bool.eq_iff_iff, testBit_remapMask, testBit_inserts]
    constructor
    · rintro ⟨x, _, h2, h3⟩
      exact .inr ⟨x, (mem_ones _ _).2 h2, h3⟩
    · rintro (h | ⟨x, h1, h2⟩)
      · simp at h
      · have hx := (mem_ones _ _).1 h1
        exact ⟨x, he x hx, hx, h2⟩
  simp only []
  rw [heq]
  exact e2

theorem RS.erase {cap : Nat} {bs : List State} {ss : List Noodle.State} (h : RS cap bs ss) (i : Nat) :
    RS cap (bs.eraseIdx i) (ss.eraseIdx i) := by
  unfold RS at *
  induction h generalizing i with
  | nil => exact .nil
  | cons h1 h2 ih =>
    cases i with
    | zero => exact h2
    | succ i => exact .cons h1 (ih i)

theorem collapse_rel {cap : Nat} {bs : List State} {ss : List Noodle.State} (h : RS cap bs ss) (hl : ss.length ≤ cap)
    (hr : InRange ss) {E C : Nat} (hE : E < ss.length) (hC : C < ss.length) (hne : E ≠ C) :
    RelE (RS cap) (collapse E C bs) (Noodle.collapse E C ss) := by
  unfold collapse Noodle.collapse
  rw [if_neg hne, if_neg hne]
  rcases h.get E with ⟨_, h2⟩ | ⟨s, t, h1, h2, h3⟩
  · rw [List.getElem?_eq_none_iff] at h2; omega
  rcases h.get C with ⟨_, g2⟩ | ⟨s', t', g1, g2, g3⟩
  · rw [List.getElem?_eq_none_iff] at g2; omega
  simp only [h1, h2, g1, g2]
  have hset : RS cap (bs.set E { s with cls := s'.cls, next := s'.next }) (ss.set E { t with cls := t'.cls, next := t'.next }) :=
    h.set E ⟨h3.1, g3.2⟩
  obtain ⟨r, e1, e2⟩ := mapM_rel (f := remapState E C) (g := Noodle.remapState ss.length E C) (S := RState cap) hset
    (fun x y hy hxy => remapState_rel hxy hl hE hC hne (by
      intro z hz
      rcases List.mem_or_eq_of_mem_set hy with hy | rfl
      · obtain ⟨i, hi⟩ := List.getElem?_of_mem hy
        exact (hr i y hi).2 z hz
      · exact (hr E t h2).2 z hz))
  rw [e1]
  exact .ok (RS.erase e2 C)

theorem collapseLoop_rel {cap : Nat} (n i : Nat) {bs : List State} {ss : List Noodle.State} (h : RS cap bs ss)
    (hl : ss.length ≤ cap) (hr : InRange ss) : RelE (RS cap) (collapseLoop n i bs) (Noodle.collapseLoop n i ss) := by
  induction n generalizing i bs ss with
  | zero => exact .error _
  | succ n ih =>
    unfold collapseLoop Noodle.collapseLoop
    rw [h.len]
    by_cases hi : i < ss.length
    · rw [if_pos hi, if_pos hi, findPair_rel h hl hr hi _ _ (by omega)]
      rcases findPair_spec hr hi ss.length 0 (by omega) with e | ⟨E, C, e, hp⟩
      · simp only [e]; exact ih (i + 1) h hl hr
      · simp only [e]
        obtain ⟨es, cs, hp⟩ := isPair_true hp
        have hE : E < ss.length := hp.toC.lt
        have hC : C < ss.length := hp.toC.lt_right hr
        obtain ⟨ss1, c1, c2⟩ := collapse_ok hE hC hp.ne
        rcases (collapse_rel h hl hr hE hC hp.ne).cases with ⟨x, f1, f2⟩ | ⟨a, b, f1, f2, f3⟩
        · simp only [f1, f2]; exact .error _
        · rw [c1] at f2
          cases f2
          simp only [f1, c1]
          have hlen := c2.len
          exact ih i f3 (by omega) (c2.inRange hp.ne hE hC hr)
    · rw [if_neg hi, if_neg hi]; exact .ok h

/-! ### The loop -/

theorem Rep1.recap {cap cap' : Nat} {r : Bits} {m : Nat} (h : Rep1 cap cap r m) (hb : blockSize cap' = blockSize cap)
    (hm : m < 2 ^ cap') : Rep1 cap' cap' r m := ⟨by rw [h.len, hb], h.mem, hm, Nat.le_refl _⟩

theorem RS.recap {cap cap' : Nat} {bs : List State} {ss : List Noodle.State} (h : RS cap bs ss)
    (hb : blockSize cap' = blockSize cap) (hm : ∀ t ∈ ss, t.eps < 2 ^ cap') : RS cap' bs ss := by
  unfold RS at *
  induction h with
  | nil => exact .nil
  | cons h1 _ ih =>
    exact .cons ⟨h1.1.recap hb (hm _ (by simp)), h1.2⟩ (ih fun t ht => hm t (by simp [ht]))

theorem RS.lt {cap : Nat} {bs : List State} {ss : List Noodle.State} (h : RS cap bs ss) : ∀ t ∈ ss, t.eps < 2 ^ cap := by
  unfold RS at *
  induction h with
  | nil => simp
  | cons h1 _ ih =>
    intro t ht
    rw [List.mem_cons] at ht
    rcases ht with rfl | ht
    · exact h1.1.lt
    · exact ih t ht

theorem blockSize_mul (k : Nat) : blockSize (32 * k) = k := by
  unfold blockSize
  rw [if_neg (by omega)]
  omega

theorem inRange_lt {ss : List Noodle.State} (hr : InRange ss) : ∀ t ∈ ss, t.eps < 2 ^ ss.length := by
  intro t ht
  obtain ⟨i, hi⟩ := List.getElem?_of_mem ht
  exact lt_two_pow_of_bits (hr i t hi).2

theorem shrinkStates_rel {cap : Nat} {bs : List State} {ss : List Noodle.State} (h : RS cap bs ss) (hc : 0 < cap)
    (hr : InRange ss) : ∃ bs', shrink bs = .ok bs' ∧ Noodle.shrink ss = .ok ss ∧ RS ss.length bs' ss := by
  have hlt := inRange_lt hr
  have hm : Noodle.shrink ss = .ok ss := by
    unfold Noodle.shrink
    rw [if_pos]
    rw [List.all_eq_true]
    intro t ht
    exact decide_eq_true (hlt t ht)
  unfold shrink
  rw [h.len]
  obtain ⟨r, e1, e2⟩ := mapM_rel (f := fun st : State => do
      let s ← resize st.eps ss.length
      .ok { st with eps := s }) (g := id) (S := RState ss.length) h (by
    intro x y hy hxy
    have hne : x.eps ≠ [] := by
      intro e
      have := hxy.1.len
      rw [e] at this
      have := Bits.blockSize_le cap
      simp at *
      omega
    obtain ⟨s', f1, f2, f3⟩ := Bits.resize_spec x.eps ss.length hne
      (fun i hi => bits_lt (hlt y hy) (by rw [← hxy.1.mem]; exact hi))
    refine ⟨{ x with eps := s' }, ?_, ⟨f2, fun i => by rw [f3, hxy.1.mem]; rfl, hlt y hy, Nat.le_refl _⟩, hxy.2⟩
    unfold resize
    rw [hxy.1.ones hc, f1]; rfl)
  rw [List.map_id] at e2
  exact ⟨r, e1, hm, e2⟩

theorem optLoop_rel (n cap : Nat) {bs : List State} {ss : List Noodle.State} (h : RS cap bs ss) (hr : InRange ss)
    (hpos : 0 < ss.length) : Noodle.optLoop n cap ss = .error .ub ∨
      RelE (fun b s => RS s.length b s) (optLoop n bs) (Noodle.optLoop n cap ss) := by
  induction n generalizing cap bs ss with
  | zero => exact .inr (.error _)
  | succ n ih =>
    unfold optLoop Noodle.optLoop
    by_cases hcap : cap < ss.length
    · left
      have : Noodle.closure cap ss = .error .ub := by unfold Noodle.closure; rw [if_pos hcap]
      simp only [this]
    · obtain ⟨ss1, h1, hcl⟩ := closure_spec cap ss hr (by omega)
      have hc0 := closeFrom_rel ss.length 0 h (by omega) (by omega)
      have h1' : Noodle.closeFrom ss.length 0 ss = .ok ss1 := by
        unfold Noodle.closure at h1
        rw [if_neg hcap] at h1
        exact h1
      rw [h1'] at hc0
      rcases hc0.cases with ⟨x, f1, f2⟩ | ⟨bs1, b, f1, f2, f3⟩
      · cases f2
      · cases f2
        have f1' : closure bs = .ok bs1 := by unfold closure; rw [h.len]; exact f1
        simp only [h1, f1']
        have hr1 := hcl.inRange hr
        have hl1 := hcl.len
        rcases (prune_rel f3 (by omega) (by omega) hr1).cases with ⟨x, g1, g2⟩ | ⟨bs2, p, g1, g2, g3⟩
        · simp only [g1, g2]; exact .inr (.error _)
        · obtain ⟨ss2, cap2⟩ := p
          simp only [g1, g2] at g3 ⊢
          obtain ⟨k1, k2, k3, k4, k5⟩ := prune_facts g2
          by_cases hub : 32 * blockSize cap2 < ss2.length
          · left
            have : Noodle.collapseAll cap2 ss2 = .error .ub := by unfold Noodle.collapseAll; rw [if_pos hub]
            simp only [this]
          · have hle := Bits.blockSize_le cap2
            have g4 : RS (32 * blockSize cap2) bs2 ss2 := g3.recap (blockSize_mul _) (fun t ht =>
              Nat.lt_of_lt_of_le (g3.lt t ht) (Nat.pow_le_pow_right (by omega) hle))
            have hco := collapseLoop_rel (2 * ss2.length + 1) 0 g4 (by omega) k2
            have hsp := collapseAll_spec (cap := cap2) k2 (fun _ => True) (fun _ _ _ _ _ _ _ _ _ _ => trivial) trivial
            have e0 : Noodle.collapseAll cap2 ss2 = Noodle.collapseLoop (2 * ss2.length + 1) 0 ss2 := by
              unfold Noodle.collapseAll; rw [if_neg hub]
            have e0' : collapseAll bs2 = collapseLoop (2 * ss2.length + 1) 0 bs2 := by
              unfold collapseAll; rw [g4.len]
            rw [e0] at hsp
            rcases hco.cases with ⟨x, m1, m2⟩ | ⟨bs3, ss3, m1, m2, m3⟩
            · simp only [e0, e0', m1, m2]; exact .inr (.error _)
            · rw [m2] at hsp
              simp only [e0, e0', m1, m2] at hsp ⊢
              obtain ⟨q1, -, q2, q3, q4⟩ := hsp
              rw [m3.len, h.len]
              by_cases heq : ss3.length = ss.length
              · rw [if_pos heq, if_pos heq]
                right
                refine .ok (m3.recap ?_ (inRange_lt q1))
                have e2 := (k4 (by omega)).2
                rw [blockSize_mul, e2, heq, hl1]
              · rw [if_neg heq, if_neg heq]
                have hp3 := q3 (k3 (by omega))
                obtain ⟨bs4, s1, s2, s3⟩ := shrinkStates_rel m3 (by omega) q1
                simp only [s1, s2]
                exact ih ss3.length s3 q1 hp3

theorem fromAst_rel (a : ExprAst) : Noodle.fromAst a = .error .ub ∨
    RelE (fun b e => RS e.states.length b.states e.states ∧ b.ignWB = e.ignWB ∧ b.ignPunct = e.ignPunct ∧ b.fuzz = e.fuzz)
      (fromAst a) (Noodle.fromAst a) := by
  unfold fromAst Noodle.fromAst
  have hsp := rawStates_spec a.root
  rcases (rawStates_rel a.root).cases with ⟨x, e1, e2⟩ | ⟨bs, ss, e1, e2, e3⟩
  · simp only [e1, e2]; exact .inr (.error _)
  · rw [e2] at hsp
    simp only [e1, e2] at hsp ⊢
    unfold optimize Noodle.optimize
    rw [e3.len]
    rcases optLoop_rel (ss.length + 1) maxSetSize e3 hsp.1 hsp.2.1 with h | h
    · left; simp only [h]
    · rcases h.cases with ⟨x, f1, f2⟩ | ⟨b, s, f1, f2, f3⟩
      · simp only [f1, f2]; exact .inr (.error _)
      · simp only [f1, f2]; exact .inr (.ok ⟨f3, rfl, rfl, rfl⟩)

end Noodle.Blk
