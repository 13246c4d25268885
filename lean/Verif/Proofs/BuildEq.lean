import Verif.Proofs.Block
import Verif.Spec.Lang
/-
`build` appends `blk`.
-/
namespace Noodle
set_option autoImplicit false
open Spec

/-! ### Terms that end with a class -/

theorem lang_seq_nil {w : List Ch} : Lang (.seq []) w ↔ w = [] := by
  constructor
  · intro h; cases h; rfl
  · rintro rfl; exact .seqNil

theorem lang_seq_cons {a : Ast} {l : List Ast} {w : List Ch} :
    Lang (.seq (a :: l)) w ↔ ∃ u v, w = u ++ v ∧ Lang a u ∧ Lang (.seq l) v := by
  constructor
  · intro h; cases h with | seqCons h1 h2 => exact ⟨_, _, rfl, h1, h2⟩
  · rintro ⟨u, v, rfl, h1, h2⟩; exact .seqCons h1 h2

theorem lang_cls {c : CharSet} {w : List Ch} : Lang (.cls c) w ↔ ∃ x, w = [x] ∧ c.contains x = true := by
  constructor
  · intro h; cases h with | cls h => exact ⟨_, rfl, h⟩
  · rintro ⟨x, rfl, h⟩; exact .cls h

theorem lang_seq_one {a : Ast} {w : List Ch} : Lang (.seq [a]) w ↔ Lang a w := by
  rw [lang_seq_cons]
  constructor
  · rintro ⟨u, v, rfl, h1, h2⟩
    rw [lang_seq_nil] at h2
    subst h2; simpa using h1
  · intro h; exact ⟨w, [], by simp, h, .seqNil⟩

theorem lang_alts {l : List Ast} {w : List Ch} : Lang (.alts l) w ↔ ∃ a ∈ l, Lang a w := by
  constructor
  · intro h; cases h with | alts h1 h2 => exact ⟨_, h1, h2⟩
  · rintro ⟨a, h1, h2⟩; exact .alts h1 h2

theorem lang_substr {l : List Ast} {w : List Ch} :
    Lang (.substr l) w ↔ ∃ pre mid post, l = pre ++ mid ++ post ∧ Lang (.seq mid) w := by
  constructor
  · intro h; cases h with | substr h => exact ⟨_, _, _, rfl, h⟩
  · rintro ⟨pre, mid, post, rfl, h⟩; exact .substr h

theorem lang_rep {t : Ast} {lo : Nat} {hi : Option Nat} {w : List Ch} : Lang (.rep t lo hi) w ↔
    ∃ k, lo ≤ k ∧ (∀ m ∈ hi, k ≤ m) ∧ Lang (.seq (List.replicate k t)) w := by
  constructor
  · intro h; cases h with | rep h1 h2 h3 => exact ⟨_, h1, h2, h3⟩
  · rintro ⟨k, h1, h2, h3⟩; exact .rep h1 h2 h3

theorem lang_rep_once {t : Ast} {w : List Ch} : Lang (.rep t 1 (some 1)) w ↔ Lang t w := by
  rw [lang_rep]
  constructor
  · rintro ⟨k, h1, h2, h3⟩
    have := h2 1 rfl
    obtain rfl : k = 1 := by omega
    exact lang_seq_one.1 h3
  · intro h
    exact ⟨1, by omega, by simp, lang_seq_one.2 h⟩

theorem lang_rep_none {t : Ast} {w : List Ch} : Lang (.rep t 0 (some 0)) w ↔ w = [] := by
  rw [lang_rep]
  constructor
  · rintro ⟨k, h1, h2, h3⟩
    have := h2 0 rfl
    obtain rfl : k = 0 := by omega
    exact lang_seq_nil.1 h3
  · rintro rfl
    exact ⟨0, by omega, by simp, .seqNil⟩

/-- A class that matches something, or a repetition that is built as one. -/
def EndTerm (z : Ast) : Prop :=
  (∃ c, z = .cls c ∧ c ≠ CharSet.empty) ∨
  ∃ t lo hi, z = .rep t lo hi ∧ ¬ (lo = 0 ∧ hi = some 0) ∧ ¬ (lo = 1 ∧ hi = some 1) ∧ plain z = true

/-- A term seen as a sequence of terms and a final class or repetition. -/
structure EndForm (b : Nat → List State) (k : Nat) (ini : List Ast) (z : Ast) : Prop where
  last : EndTerm z
  plain : plainAll ini = true
  size : k = statesAll ini + states z
  blk : ∀ o, b o = blkSeq ini o ++ blk z (o + statesAll ini)

/-- What passes from a term to its parts. -/
structure EndKeeps (tm rg cl ec nl : Bool) (s : Nat) (ini : List Ast) (z : Ast) : Prop where
  tame : tm = true → tameAll ini = true ∧ tameEnd z = true
  rigid : rg = true → rigidAll ini = true ∧ rigid z = true
  calm : cl = true → calmAll ini = true ∧ calm z = true
  ends : ec = true → endsClass z = true
  null : nl = true ↔ nullAll ini = true ∧ nullable z = true
  ini : ∀ t ∈ ini, sizeOf t < s
  last : sizeOf z ≤ s

theorem endTerm_rep {t : Ast} {lo : Nat} {hi : Option Nat} (h0 : ¬ (lo = 0 ∧ hi = some 0)) (h1 : ¬ (lo = 1 ∧ hi = some 1))
    (h : plain (.rep t lo hi) = true) : EndForm (Noodle.blk (.rep t lo hi)) (states (.rep t lo hi)) [] (.rep t lo hi) :=
  ⟨.inr ⟨t, lo, hi, rfl, h0, h1, h⟩, rfl, by rw [statesAll]; omega, fun o => by rw [blkSeq, statesAll]; rfl⟩

mutual
theorem plainEnd_form : (a : Ast) → plainEnd a = true → ∃ ini z, EndForm (blk a) (states a) ini z ∧
    EndKeeps (tameEnd a) (rigid a) (calm a) (endsClass a) (nullable a) (sizeOf a) ini z
  | .cls c, h => by
    rw [plainEnd] at h
    refine ⟨[], .cls c, ⟨.inl ⟨c, rfl, by simpa using h⟩, rfl, by rw [statesAll]; omega, fun o => ?_⟩,
      ⟨fun h => ⟨rfl, h⟩, fun h => ⟨rfl, h⟩, fun h => ⟨rfl, h⟩, id, by simp [nullAll], by simp, Nat.le_refl _⟩⟩
    rw [blkSeq, statesAll]; rfl
  | .alts l, h => by simp [plainEnd] at h
  | .seq l, h => by
    rw [plainEnd] at h
    obtain ⟨ini, z, h1, h2⟩ := plainEndSeq_form l h
    refine ⟨ini, z, ⟨h1.last, h1.plain, ?_, ?_⟩, ?_⟩
    · rw [states]; exact h1.size
    · intro o; rw [blk]; exact h1.blk o
    · rw [tameEnd, rigid, calm, endsClass, nullable]
      exact ⟨h2.tame, h2.rigid, h2.calm, h2.ends, h2.null, fun t ht => by have := h2.ini t ht; simp; omega,
        by have := h2.last; simp; omega⟩
  | .substr l, h => by simp [plainEnd] at h
  | .rep t lo hi, h => by
    have hp := plainEnd_plain _ h
    rw [plainEnd] at h
    by_cases h0 : lo = 0 ∧ hi = some 0
    · rw [if_pos h0] at h; cases h
    · rw [if_neg h0] at h
      by_cases h1 : lo = 1 ∧ hi = some 1
      · rw [if_pos h1] at h
        obtain ⟨rfl, rfl⟩ := h1
        obtain ⟨ini, z, h1, h2⟩ := plainEnd_form t h
        refine ⟨ini, z, ⟨h1.last, h1.plain, ?_, ?_⟩, ?_⟩
        · rw [states, if_neg (by simp), if_pos (by simp)]; exact h1.size
        · intro o; rw [blk, if_neg (by simp), if_pos (by simp)]; exact h1.blk o
        · rw [tameEnd, if_pos (by simp), rigid, calm, endsClass, nullable]
          simp only [decide_true, Bool.true_and]
          exact ⟨h2.tame, h2.rigid, h2.calm, h2.ends, by rw [← h2.null]; simp, fun t ht => by have := h2.ini t ht; simp; omega,
            by have := h2.last; simp; omega⟩
      · exact ⟨[], .rep t lo hi, endTerm_rep h0 h1 hp, ⟨fun h => ⟨rfl, h⟩, fun h => ⟨rfl, h⟩, fun h => ⟨rfl, h⟩, id,
          by simp [nullAll], by simp, Nat.le_refl _⟩⟩
  | .anagram _ _, h => by simp [plainEnd] at h
theorem plainEndSeq_form : (l : List Ast) → plainEndSeq l = true → ∃ ini z, EndForm (blkSeq l) (statesAll l) ini z ∧
    EndKeeps (tameEndSeq l) (rigidAll l) (calmAll l) (endsClassSeq l) (nullAll l) (sizeOf l) ini z
  | [], h => by simp [plainEndSeq] at h
  | [a], h => by
    rw [plainEndSeq] at h
    obtain ⟨ini, z, h1, h2⟩ := plainEnd_form a h
    refine ⟨ini, z, ⟨h1.last, h1.plain, ?_, ?_⟩, ?_⟩
    · rw [statesAll, statesAll]; exact h1.size
    · intro o; rw [blkSeq, blkSeq, List.append_nil]; exact h1.blk o
    · rw [tameEndSeq, rigidAll, rigidAll, calmAll, calmAll, endsClassSeq, nullAll, nullAll]
      simp only [Bool.and_true]
      exact ⟨h2.tame, h2.rigid, h2.calm, h2.ends, h2.null, fun t ht => by have := h2.ini t ht; simp; omega,
        by have := h2.last; simp; omega⟩
  | a :: b :: l, h => by
    rw [plainEndSeq, Bool.and_eq_true] at h
    obtain ⟨ini, z, h1, h2⟩ := plainEndSeq_form (b :: l) h.2
    refine ⟨a :: ini, z, ⟨h1.last, ?_, ?_, ?_⟩, ?_⟩
    · rw [plainAll, h.1, h1.plain]; rfl
    · rw [statesAll, h1.size, statesAll]; omega
    · intro o
      rw [blkSeq, h1.blk, blkSeq, List.append_assoc, statesAll, Nat.add_assoc]
    · rw [tameEndSeq, rigidAll, calmAll, endsClassSeq, nullAll]
      refine ⟨fun k => ?_, fun k => ?_, fun k => ?_, h2.ends, ?_, fun t ht => ?_, by have := h2.last; simp at this ⊢; omega⟩
      · rw [Bool.and_eq_true] at k
        rw [tameAll, k.1, Bool.true_and]; exact h2.tame k.2
      · rw [Bool.and_eq_true] at k
        rw [rigidAll, k.1, Bool.true_and]; exact h2.rigid k.2
      · rw [Bool.and_eq_true] at k
        rw [calmAll, k.1, Bool.true_and]; exact h2.calm k.2
      · rw [Bool.and_eq_true, h2.null, show nullAll (a :: ini) = (nullable a && nullAll ini) from by rw [nullAll],
          Bool.and_eq_true, and_assoc]
      · rcases List.mem_cons.1 ht with rfl | ht
        · simp; omega
        · have := h2.ini t ht
          simp at this ⊢
          omega
end

theorem endTerm_pos {z : Ast} (h : EndTerm z) : 0 < states z := by
  rcases h with ⟨c, rfl, _⟩ | ⟨t, lo, hi, rfl, h0, h1, _⟩
  · rw [states]; omega
  · rw [states, if_neg h0, if_neg h1]; omega

/-! ### Building -/

theorem insertEps_at {pre rest : List State} {st : State} {i b : Nat} (hi : i = pre.length) (hb : b < maxSetSize) :
    insertEps (pre ++ st :: rest) i b = .ok (pre ++ { st with eps := st.eps ||| 1 <<< b } :: rest) := by
  subst hi
  unfold insertEps
  rw [List.getElem?_append_right (Nat.le_refl _), Nat.sub_self]
  simp only [List.getElem?_cons_zero]
  rw [if_neg (by omega), List.set_append_right _ _ (Nat.le_refl _), Nat.sub_self]
  rfl

theorem repointAlt_at {pre b rest : List State} {N e : Nat} (hb : 0 < b.length) (he : e + 1 = pre.length + b.length)
    (hlt : e + 1 < maxSetSize) (hN : N < maxSetSize) :
    repointAlt N (pre ++ b ++ rest) e = .ok (pre ++ repoint pre.length N b ++ rest) := by
  obtain ⟨b', st, rfl⟩ : ∃ b' st, b = b' ++ [st] :=
    ⟨b.dropLast, b.getLast (by intro h; simp [h] at hb), (List.dropLast_concat_getLast _).symm⟩
  rw [List.length_append, List.length_singleton] at he
  have he' : pre.length + b'.length + 1 = e + 1 := by omega
  have hl : e = (pre ++ b').length := by simp; omega
  rw [repoint_concat, he']
  have e1 : ∀ s : State, pre ++ (b' ++ [s]) ++ rest = (pre ++ b') ++ s :: rest := by intro s; simp
  rw [e1, e1]
  unfold repointAlt
  have hg : ((pre ++ b') ++ st :: rest)[e]? = some st := by
    rw [hl, List.getElem?_append_right (Nat.le_refl _), Nat.sub_self]; rfl
  have hset : ∀ st' : State, ((pre ++ b') ++ st :: rest).set e st' = (pre ++ b') ++ st' :: rest := by
    intro st'
    rw [hl, List.set_append_right _ _ (Nat.le_refl _), Nat.sub_self]; rfl
  rw [hg]
  simp only []
  rw [if_neg (by omega), hset, hset]
  unfold retarget
  split
  · rw [if_neg (by omega)]
  · rfl

/-- The builder of a term. -/
def Builds (b : List State → Except Crash (List State)) (f : Nat → List State) (k : Nat) : Prop :=
  ∀ ss : List State, ss.length + k < maxSetSize → b ss = .ok (ss ++ f ss.length)

theorem repLoop_eq {b : List State → Except Crash (List State)} {f : Nat → List State} {k : Nat}
    (hb : Builds b f k) (hf : ∀ o, (f o).length = k) (pre : List State) (slack : Nat) :
    ∀ (r i fin : Nat) (e : Nat) (c : List State),
      pre.length + 1 + c.length + r * k < maxSetSize →
      repLoop b pre.length slack r i fin (pre ++ ⟨e, CharSet.empty, 0⟩ :: c) =
        .ok (pre ++ ⟨e ||| maskOf (heads slack k r i (pre.length + 1 + c.length)), CharSet.empty, 0⟩ ::
          (c ++ copies f k r (pre.length + 1 + c.length)),
          if r = 0 then fin else pre.length + 1 + c.length + (r - 1) * k) := by
  intro r
  induction r with
  | zero => intro i fin e c _; simp [repLoop, heads, maskOf, copies]
  | succ r ih =>
    intro i fin e c hlt
    have hmul : (r + 1) * k = r * k + k := by rw [Nat.add_mul, Nat.one_mul]
    rw [hmul] at hlt
    have hlen : ∀ e : Nat, (pre ++ (⟨e, CharSet.empty, 0⟩ : State) :: c).length = pre.length + 1 + c.length := by
      intro e; simp; omega
    rw [repLoop]
    have h1 : (if i ≤ slack then insertEps (pre ++ ⟨e, CharSet.empty, 0⟩ :: c) pre.length
          (pre ++ (⟨e, CharSet.empty, 0⟩ : State) :: c).length
        else .ok (pre ++ ⟨e, CharSet.empty, 0⟩ :: c)) =
        .ok (pre ++ ⟨e ||| maskOf (if i ≤ slack then [pre.length + 1 + c.length] else []), CharSet.empty, 0⟩ :: c) := by
      by_cases h : i ≤ slack
      · rw [if_pos h, if_pos h, hlen, insertEps_at rfl (by omega)]; simp [maskOf]
      · rw [if_neg h, if_neg h]; simp [maskOf]
    rw [h1]
    simp only []
    rw [hb _ (by rw [hlen]; omega)]
    simp only []
    rw [hlen, List.append_assoc, List.cons_append, ih _ _ _ _ (by rw [List.length_append, hf]; omega)]
    congr 1
    rw [List.length_append, hf, heads, maskOf_append, copies, List.append_assoc, Nat.or_assoc,
      show pre.length + 1 + (c.length + k) = pre.length + 1 + c.length + k by omega]
    congr 1
    rw [if_neg (by omega : ¬ r + 1 = 0)]
    cases r with
    | zero => simp
    | succ r =>
      rw [if_neg (by omega)]
      simp only [Nat.add_sub_cancel]
      rw [Nat.add_mul]
      omega

theorem buildRep_eq {b : List State → Except Crash (List State)} {f : Nat → List State} {k : Nat}
    (hb : Builds b f k) (hf : ∀ o, (f o).length = k) {lo : Nat} {hi : Option Nat} (hle : lo ≤ hi.getD lo) :
    Builds (buildRep b lo hi) (repBlk f k lo hi) (2 + nCopies lo hi * k) := by
  intro ss hlt
  unfold buildRep
  simp only []
  rw [if_neg (by omega), show State.fresh = ⟨0, CharSet.empty, 0⟩ from rfl,
    repLoop_eq hb hf ss _ _ 0 0 0 [] (by simp; unfold nCopies at hlt; omega)]
  simp only []
  rw [show Nat.max 1 (Nat.max lo (hi.getD lo)) = nCopies lo hi from rfl]
  have hr : nCopies lo hi ≠ 0 := by
    unfold nCopies
    have := Nat.le_max_left 1 (Nat.max lo (hi.getD lo))
    intro h
    rw [show Nat.max 1 (Nat.max lo (hi.getD lo)) = max 1 (Nat.max lo (hi.getD lo)) from rfl] at h
    omega
  have hlen : (ss ++ ⟨0 ||| maskOf (heads (hi.getD lo - lo) k (nCopies lo hi) 0 (ss.length + 1 + ([] : List State).length)),
      CharSet.empty, 0⟩ :: ([] ++ copies f k (nCopies lo hi) (ss.length + 1 + ([] : List State).length)) : List State).length
      = ss.length + 1 + nCopies lo hi * k := by
    rw [List.length_append, List.length_cons, List.length_append, copies_length hf]; simp; omega
  rw [hlen, insertEps_at hlen.symm (by omega)]
  simp only []
  rw [Nat.zero_or, Nat.zero_or, List.length_nil, Nat.add_zero, List.nil_append]
  have h2 : ∀ (e : Nat) (rest : List State), (if lo = 0 then insertEps ((ss ++ ⟨e, CharSet.empty, 0⟩ :: rest)) ss.length (ss.length + 1 + nCopies lo hi * k)
      else .ok (ss ++ ⟨e, CharSet.empty, 0⟩ :: rest)) =
      .ok (ss ++ ⟨e ||| maskOf (if lo = 0 then [ss.length + 1 + nCopies lo hi * k] else []), CharSet.empty, 0⟩ :: rest) := by
    intro e rest
    by_cases h : lo = 0
    · rw [if_pos h, if_pos h, insertEps_at rfl (by omega)]; simp [maskOf]
    · rw [if_neg h, if_neg h]; simp [maskOf]
  rw [List.append_assoc, List.cons_append, h2]
  simp only []
  rw [← maskOf_append, if_neg hr]
  unfold repBlk
  simp only []
  by_cases hh : hi = none
  · rw [if_pos hh, if_pos hh]
    rw [← List.cons_append, ← List.append_assoc, insertEps_at]
    · rw [maskOf, maskOf, maskOf, Nat.or_zero, List.append_assoc, List.cons_append]
    · rw [List.length_append, List.length_cons, copies_length hf]; omega
    · have : (nCopies lo hi - 1) * k ≤ nCopies lo hi * k := Nat.mul_le_mul_right _ (by omega)
      omega
  · rw [if_neg hh, if_neg hh, maskOf, maskOf, Nat.or_zero]

theorem overEnds_alts : (l : List Ast) → plainAlts l = true → ∀ (N : Nat) (pre : List State),
    N = pre.length + statesAll l → N < maxSetSize →
    overEnds (repointAlt N) (pre ++ blkSeq l pre.length) (endsOf l pre.length) = .ok (pre ++ blkAlts l N pre.length)
  | [], _, N, pre, _, _ => by rw [blkSeq, blkAlts, endsOf, overEnds]
  | a :: l, h, N, pre, hN, hlt => by
    have hp : plain a = true ∧ 0 < states a ∧ plainAlts l = true := by
      cases l with
      | nil =>
        rw [plainAlts, Bool.and_eq_true, decide_eq_true_eq] at h
        exact ⟨h.1, h.2, rfl⟩
      | cons b l =>
        rw [plainAlts, Bool.and_eq_true] at h
        obtain ⟨ini, z, hf, _⟩ := plainEnd_form a h.1
        have := endTerm_pos hf.last
        exact ⟨plainEnd_plain a h.1, by rw [hf.size]; omega, h.2⟩
    have hlen := blk_length a hp.1 pre.length
    rw [statesAll] at hN
    rw [blkSeq, endsOf, overEnds, ← List.append_assoc, repointAlt_at (by omega) (by omega) (by omega) hlt]
    simp only []
    have h3 : (pre ++ repoint pre.length N (blk a pre.length)).length = pre.length + states a := by
      rw [List.length_append, repoint_length, hlen]
    have := overEnds_alts l hp.2.2 N (pre ++ repoint pre.length N (blk a pre.length)) (by rw [h3]; omega) hlt
    rw [h3] at this
    rw [this, blkAlts, List.append_assoc]

theorem exitSub_last {pre : List State} {c : CharSet} {e N : Nat} (hN : N = pre.length + 1) (hb : N < maxSetSize)
    (he : e = 0 ∨ e = 1 <<< N) :
    exitSub N (pre ++ [⟨e, c, pre.length + 1⟩]) pre.length = .ok (pre ++ [⟨e, c, pre.length + 1⟩]) := by
  unfold exitSub
  rw [List.getElem?_append_right (Nat.le_refl _), Nat.sub_self]
  simp only [List.getElem?_cons_zero]
  rw [if_neg (by omega)]
  rcases he with rfl | rfl
  · simp [hN]
  · rw [if_pos (by rw [testBit_one_shift]; simp [hN]), insertEps_at rfl hb]
    simp only [Nat.or_self]
    rw [if_pos hN.symm]
    simp

theorem exitSub_mid {pre rest : List State} {c c' : CharSet} {e N nx : Nat} (hN : pre.length + 1 < N) (hb : N < maxSetSize)
    (he : e = 0 ∨ e = 1 <<< N) (hc : c ≠ CharSet.empty) :
    exitSub N (pre ++ ⟨e, c, pre.length + 1⟩ :: ⟨0, c', nx⟩ :: rest) pre.length =
      .ok (pre ++ ⟨e, c, pre.length + 1⟩ :: ⟨1 <<< N, c', nx⟩ :: rest) := by
  unfold exitSub
  rw [List.getElem?_append_right (Nat.le_refl _), Nat.sub_self]
  simp only [List.getElem?_cons_zero]
  rw [if_neg (by omega), if_neg (by
    rcases he with rfl | rfl
    · simp
    · rw [testBit_one_shift]; simp; omega)]
  simp only []
  rw [if_neg hc, if_neg (by omega)]
  have : (pre ++ (⟨e, c, pre.length + 1⟩ : State) :: ⟨0, c', nx⟩ :: rest) =
      (pre ++ [⟨e, c, pre.length + 1⟩]) ++ ⟨0, c', nx⟩ :: rest := by simp
  rw [this, insertEps_at (by simp) hb]
  simp

theorem overEnds_sub : (l : List Ast) → l.all isClass = true → ∀ (N e : Nat) (c : CharSet) (pre : List State),
    c ≠ CharSet.empty → N = pre.length + 1 + l.length → N < maxSetSize → (e = 0 ∨ e = 1 <<< N) →
    overEnds (exitSub N) (pre ++ ⟨e, c, pre.length + 1⟩ :: blkSeq l (pre.length + 1)) (endsOf (.cls c :: l) pre.length) =
      .ok (pre ++ ⟨e, c, pre.length + 1⟩ :: blkSub N (1 <<< N) l (pre.length + 1))
  | [], _, N, e, c, pre, hc, hN, hb, he => by
    rw [endsOf, endsOf, overEnds, blkSeq, states, Nat.add_sub_cancel, exitSub_last (by simpa using hN) hb he]
    simp only []
    rw [overEnds, blkSub]
  | a :: l, h, N, e, c, pre, hc, hN, hb, he => by
    rw [List.all_cons, Bool.and_eq_true] at h
    obtain ⟨c', rfl, hc'⟩ := isClass_iff.1 h.1
    rw [List.length_cons] at hN
    rw [endsOf, overEnds, blkSeq, blk, show pre.length + states (.cls c) - 1 = pre.length from rfl]
    rw [List.cons_append, List.nil_append, exitSub_mid (by omega) hb he hc]
    simp only []
    have := overEnds_sub l h.2 N (1 <<< N) c' (pre ++ [⟨e, c, pre.length + 1⟩]) hc' (by simp; omega) hb (.inr rfl)
    rw [List.length_append, List.length_cons, List.length_nil, Nat.zero_add] at this
    rw [blkSub]
    simpa [clsOf, states] using this

mutual
theorem build_eq : (a : Ast) → plain a = true → Builds (build a) (blk a) (states a)
  | .cls c, _ => by
    intro ss _
    rw [build, blk]
  | .alts l, h => by
    rw [plain] at h
    intro ss hlt
    rw [states] at hlt
    rw [build, show State.fresh = ⟨0, CharSet.empty, 0⟩ from rfl,
      buildTerms_eq l (plainAlts_plain h) ss 0 [] [] (by simp; omega)]
    simp only []
    rw [List.length_nil, Nat.add_zero, List.nil_append, List.nil_append, Nat.zero_or]
    have h1 : ∀ e : Nat, (ss ++ (⟨e, CharSet.empty, 0⟩ : State) :: blkSeq l (ss.length + 1)) =
        (ss ++ [⟨e, CharSet.empty, 0⟩]) ++ blkSeq l (ss.length + 1) := by intro e; simp
    have h2 := overEnds_alts l h (ss.length + 1 + statesAll l) (ss ++ [⟨maskOf (starts l (ss.length + 1)), CharSet.empty, 0⟩])
      (by simp) (by omega)
    rw [h1, List.length_append, List.length_append, blkSeq_length l (plainAlts_plain h)]
    simp only [List.length_append, List.length_cons, List.length_nil, Nat.zero_add] at h2 ⊢
    rw [h2, blk]
    simp
  | .seq l, h => by
    rw [plain] at h
    intro ss hlt
    rw [states] at hlt
    rw [build, blk]
    exact buildSeq_eq l h ss hlt
  | .substr l, h => by
    rw [plain, Bool.and_eq_true, decide_eq_true_eq] at h
    intro ss hlt
    rw [states] at hlt
    have hs := statesAll_classes h.2
    rw [build, show State.fresh = ⟨0, CharSet.empty, 0⟩ from rfl,
      buildTerms_eq l (plainAll_classes h.2) ss 0 [] [] (by simp; omega)]
    simp only []
    rw [List.length_nil, Nat.add_zero, List.nil_append, List.nil_append, Nat.zero_or]
    cases l with
    | nil => simp at h
    | cons a l =>
      obtain ⟨hlen, h⟩ := h
      rw [List.all_cons, Bool.and_eq_true] at h
      obtain ⟨c, rfl, hc⟩ := isClass_iff.1 h.1
      rw [List.length_cons] at hs hlen
      have h2 := overEnds_sub l h.2 (ss.length + 1 + statesAll (.cls c :: l)) 0 c
        (ss ++ [⟨maskOf (starts (.cls c :: l) (ss.length + 1)), CharSet.empty, 0⟩])
        hc (by simp; omega) (by omega) (.inl rfl)
      rw [List.length_append, List.length_cons, blkSeq, List.length_append, blk, blkSeq_classes h.2]
      simp only [List.length_append, List.length_cons, List.length_nil, Nat.zero_add, states, List.cons_append,
        List.nil_append] at h2 ⊢
      rw [show ss.length + (1 + l.length + 1) = ss.length + 1 + statesAll (Ast.cls c :: l) by omega]
      rw [blk, blkSub]
      simpa [clsOf] using h2
  | .rep t lo hi, h => by
    rw [plain] at h
    intro ss hlt
    rw [states] at hlt
    rw [build, blk]
    by_cases h0 : lo = 0 ∧ hi = some 0
    · rw [if_pos h0, if_pos h0, List.append_nil]
    · rw [if_neg h0, Bool.and_eq_true, decide_eq_true_eq] at h
      rw [if_neg h0] at hlt
      rw [if_neg h0, if_neg h0]
      by_cases h1 : lo = 1 ∧ hi = some 1
      · rw [if_pos h1] at hlt
        rw [if_pos h1, if_pos h1]; exact build_eq t h.2 ss hlt
      · rw [if_neg h1] at hlt
        rw [if_neg h1, if_neg h1]
        exact buildRep_eq (build_eq t h.2) (blk_length t h.2) h.1 ss hlt
  | .anagram _ _, h => by simp [plain] at h
theorem buildSeq_eq : (l : List Ast) → plainAll l = true → Builds (buildSeq l) (blkSeq l) (statesAll l)
  | [], _ => by
    intro ss _
    rw [buildSeq, blkSeq, List.append_nil]
  | a :: l, h => by
    rw [plainAll, Bool.and_eq_true] at h
    intro ss hlt
    rw [statesAll] at hlt
    rw [buildSeq, build_eq a h.1 ss (by omega)]
    simp only []
    have hl : (ss ++ blk a ss.length).length = ss.length + states a := by
      rw [List.length_append, blk_length a h.1]
    rw [buildSeq_eq l h.2 _ (by rw [hl]; omega), hl, blkSeq, List.append_assoc]
theorem buildTerms_eq : (l : List Ast) → plainAll l = true → ∀ (pre : List State) (e : Nat) (c : List State) (ends : List Nat),
    pre.length + 1 + c.length + statesAll l < maxSetSize →
    buildTerms l pre.length (pre ++ ⟨e, CharSet.empty, 0⟩ :: c) ends =
      .ok (pre ++ ⟨e ||| maskOf (starts l (pre.length + 1 + c.length)), CharSet.empty, 0⟩ ::
        (c ++ blkSeq l (pre.length + 1 + c.length)), ends ++ endsOf l (pre.length + 1 + c.length))
  | [], _, pre, e, c, ends, _ => by
    simp [buildTerms, starts, maskOf, blkSeq, endsOf]
  | a :: l, h, pre, e, c, ends, hlt => by
    rw [plainAll, Bool.and_eq_true] at h
    rw [statesAll] at hlt
    have hlen : ∀ e : Nat, (pre ++ (⟨e, CharSet.empty, 0⟩ : State) :: c).length = pre.length + 1 + c.length := by
      intro e; simp; omega
    rw [buildTerms, hlen, insertEps_at rfl (by omega)]
    simp only []
    rw [build_eq a h.1 _ (by rw [hlen]; omega)]
    simp only []
    rw [hlen, List.append_assoc, List.cons_append,
      buildTerms_eq l h.2 pre _ _ _ (by rw [List.length_append, blk_length a h.1]; omega)]
    have e1 : pre.length + 1 + (c ++ blk a (pre.length + 1 + c.length)).length = pre.length + 1 + c.length + states a := by
      rw [List.length_append, blk_length a h.1]; omega
    have e2 : (pre ++ (⟨e ||| 1 <<< (pre.length + 1 + c.length), CharSet.empty, 0⟩ : State) ::
        (c ++ blk a (pre.length + 1 + c.length))).length = pre.length + 1 + c.length + states a := by
      rw [List.length_append, List.length_cons, List.length_append, blk_length a h.1]; omega
    rw [e1, e2, starts, maskOf, blkSeq, endsOf, Nat.or_assoc, List.append_assoc, List.append_assoc]
    simp
end

/-- The unoptimised automaton of a plain expression. -/
theorem rawStates_eq {a : Ast} (h : plain a = true) (hs : states a < maxSetSize) :
    rawStates a = .ok (blk a 0 ++ [⟨0, CharSet.ofCh Ch.wordEnd, states a⟩]) := by
  unfold rawStates
  rw [build_eq a h [] (by simpa using hs)]
  simp only [List.nil_append, List.length_nil]
  rw [blk_length a h]

end Noodle
