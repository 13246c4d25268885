import Verif.Proofs.BuildRange
import Verif.Spec.Fragment
/-
What `build` appends for an expression of the `plain` fragment, in closed form.
-/
namespace Noodle
set_option autoImplicit false
open Spec

/-- A set of state numbers as a mask. -/
def maskOf : List Nat → Nat
  | [] => 0
  | b :: l => 1 <<< b ||| maskOf l

theorem testBit_maskOf (l : List Nat) (y : Nat) : (maskOf l).testBit y = true ↔ y ∈ l := by
  induction l with
  | nil => simp [maskOf]
  | cons b l ih =>
    rw [maskOf, Nat.testBit_or, Bool.or_eq_true, ih, testBit_one_shift, decide_eq_true_eq, List.mem_cons, eq_comm]

theorem maskOf_append (l l' : List Nat) : maskOf (l ++ l') = maskOf l ||| maskOf l' := by
  induction l with
  | nil => simp [maskOf]
  | cons b l ih => rw [List.cons_append, maskOf, ih, maskOf, Nat.or_assoc]

/-- The first states of the terms. -/
def starts : List Ast → Nat → List Nat
  | [], _ => []
  | a :: l, p => p :: starts l (p + states a)

/-- The last states of the terms. -/
def endsOf : List Ast → Nat → List Nat
  | [], _ => []
  | a :: l, p => (p + states a - 1) :: endsOf l (p + states a)

/-- The copies of a repeated term. -/
def copies (f : Nat → List State) (k : Nat) : Nat → Nat → List State
  | 0, _ => []
  | r + 1, p => f p ++ copies f k r (p + k)

/-- The copies entered from the start of a repetition. -/
def heads (slack k : Nat) : Nat → Nat → Nat → List Nat
  | 0, _, _ => []
  | r + 1, i, p => (if i ≤ slack then [p] else []) ++ heads slack k r (i + 1) (p + k)

/-- The class of a class. -/
def clsOf : Ast → CharSet
  | .cls c => c
  | _ => CharSet.empty

/-- The states of the classes of a substring group with exit `N`. -/
def blkSub (N : Nat) : Nat → List Ast → Nat → List State
  | _, [], _ => []
  | e, a :: l, p => ⟨e, clsOf a, p + 1⟩ :: blkSub N (1 <<< N) l (p + 1)

/-- A state whose way on is changed from `e` to `N`. -/
def retarget (e N : Nat) (st : State) : State :=
  if st.eps.testBit e then { st with eps := maskRemove st.eps e ||| 1 <<< N, next := N } else { st with next := N }

/-- Changing the way on of the last state of a block at `p`. -/
def repoint (p N : Nat) (b : List State) : List State :=
  b.dropLast ++ (b.getLast?.map (retarget (p + b.length) N)).toList

theorem repoint_concat (p N : Nat) (b : List State) (st : State) :
    repoint p N (b ++ [st]) = b ++ [retarget (p + b.length + 1) N st] := by
  unfold repoint; simp [Nat.add_assoc]

theorem repoint_append (p N : Nat) (b c : List State) (hc : c ≠ []) : repoint p N (b ++ c) = b ++ repoint (p + b.length) N c := by
  obtain ⟨c', st, rfl⟩ : ∃ c' st, c = c' ++ [st] := ⟨_, _, (List.dropLast_concat_getLast hc).symm⟩
  rw [← List.append_assoc, repoint_concat, repoint_concat, List.append_assoc, List.length_append]
  simp only [Nat.add_assoc]

theorem retarget_cls (e N : Nat) (st : State) : (retarget e N st).cls = st.cls := by unfold retarget; split <;> rfl

theorem retarget_self (N : Nat) (st : State) : retarget N N st = { st with next := N } := by
  unfold retarget
  split
  · rename_i ht
    have : maskRemove st.eps N ||| 1 <<< N = st.eps := by
      apply Nat.eq_of_testBit_eq
      intro i
      rw [Nat.testBit_or, testBit_maskRemove, testBit_one_shift]
      by_cases hi : i = N
      · subst hi; simp [ht]
      · have : ¬ N = i := fun h => hi h.symm
        simp [this]
    rw [this]
  · rfl

/-- How many copies a repetition builds. -/
def nCopies (lo : Nat) (hi : Option Nat) : Nat := Nat.max 1 (Nat.max lo (hi.getD lo))

/-- The states of a repetition. -/
def repBlk (f : Nat → List State) (k lo : Nat) (hi : Option Nat) (o : Nat) : List State :=
  let r := nCopies lo hi
  let final := o + 1 + r * k
  ⟨maskOf (heads (hi.getD lo - lo) k r 0 (o + 1) ++ if lo = 0 then [final] else []), CharSet.empty, 0⟩ ::
    (copies f k r (o + 1) ++
      [⟨maskOf ((final + 1) :: if hi = none then [o + 1 + (r - 1) * k] else []), CharSet.empty, 0⟩])

mutual
/-- The states built for an expression at offset `o`. -/
def blk : Ast → Nat → List State
  | .cls c, o => [⟨0, c, o + 1⟩]
  | .alts l, o => ⟨maskOf (starts l (o + 1)), CharSet.empty, 0⟩ :: blkAlts l (o + 1 + statesAll l) (o + 1)
  | .seq l, o => blkSeq l o
  | .substr l, o => ⟨maskOf (starts l (o + 1)), CharSet.empty, 0⟩ :: blkSub (o + 1 + statesAll l) 0 l (o + 1)
  | .rep t lo hi, o =>
    if lo = 0 ∧ hi = some 0 then []
    else if lo = 1 ∧ hi = some 1 then blk t o
    else repBlk (fun p => blk t p) (states t) lo hi o
  | .anagram _ _, _ => []
def blkSeq : List Ast → Nat → List State
  | [], _ => []
  | a :: l, o => blk a o ++ blkSeq l (o + states a)
def blkAlts : List Ast → Nat → Nat → List State
  | [], _, _ => []
  | a :: l, N, o => repoint o N (blk a o) ++ blkAlts l N (o + states a)
end

theorem copies_length {f : Nat → List State} {k : Nat} (hf : ∀ o, (f o).length = k) (r p : Nat) :
    (copies f k r p).length = r * k := by
  induction r generalizing p with
  | zero => simp [copies]
  | succ r ih => simp [copies, ih, hf, Nat.add_mul, Nat.add_comm]

theorem repoint_length (p N : Nat) (b : List State) : (repoint p N b).length = b.length := by
  unfold repoint
  rw [List.length_append, List.length_dropLast]
  cases b with
  | nil => rfl
  | cons a b => rw [List.getLast?_eq_some_getLast (by simp)]; simp

theorem blkSub_length (N e : Nat) (l : List Ast) (p : Nat) : (blkSub N e l p).length = l.length := by
  induction l generalizing e p with
  | nil => rfl
  | cons a l ih => simp [blkSub, ih]

theorem isClass_iff {a : Ast} : isClass a = true ↔ ∃ c, a = .cls c ∧ c ≠ CharSet.empty := by
  cases a <;> simp [isClass]

theorem statesAll_classes {l : List Ast} (h : l.all isClass = true) : statesAll l = l.length := by
  induction l with
  | nil => rfl
  | cons a l ih =>
    rw [List.all_cons, Bool.and_eq_true] at h
    obtain ⟨c, rfl, _⟩ := isClass_iff.1 h.1
    rw [statesAll, states, ih h.2, List.length_cons, Nat.add_comm]

theorem plainAll_classes {l : List Ast} (h : l.all isClass = true) : plainAll l = true := by
  induction l with
  | nil => rfl
  | cons a l ih =>
    rw [List.all_cons, Bool.and_eq_true] at h
    obtain ⟨c, rfl, _⟩ := isClass_iff.1 h.1
    rw [plainAll, plain, ih h.2]; rfl

theorem blkSeq_classes {l : List Ast} (h : l.all isClass = true) (p : Nat) : (blkSeq l p).length = l.length := by
  induction l generalizing p with
  | nil => rfl
  | cons a l ih =>
    rw [List.all_cons, Bool.and_eq_true] at h
    obtain ⟨c, rfl, _⟩ := isClass_iff.1 h.1
    rw [blkSeq, blk, List.length_append, ih h.2, List.length_cons, List.length_cons]
    simp; omega

mutual
theorem plainEnd_plain : (a : Ast) → plainEnd a = true → plain a = true
  | .cls c, _ => by rw [plain]
  | .alts l, h => by simp [plainEnd] at h
  | .seq l, h => by
    rw [plainEnd] at h
    rw [plain]; exact plainEndSeq_plain l h
  | .substr l, h => by simp [plainEnd] at h
  | .rep t lo hi, h => by
    rw [plainEnd] at h
    rw [plain]
    by_cases h0 : lo = 0 ∧ hi = some 0
    · rw [if_pos h0]
    · rw [if_neg h0] at h ⊢
      by_cases h1 : lo = 1 ∧ hi = some 1
      · rw [if_pos h1] at h
        obtain ⟨rfl, rfl⟩ := h1
        rw [plainEnd_plain t h]; rfl
      · rwa [if_neg h1] at h
  | .anagram _ _, h => by simp [plainEnd] at h
theorem plainEndSeq_plain : (l : List Ast) → plainEndSeq l = true → plainAll l = true
  | [], _ => rfl
  | [a], h => by
    rw [plainEndSeq] at h
    rw [plainAll, plainEnd_plain a h]; rfl
  | a :: b :: l, h => by
    rw [plainEndSeq, Bool.and_eq_true] at h
    rw [plainAll, h.1, plainEndSeq_plain (b :: l) h.2]; rfl
end

theorem plainAlts_plain : {l : List Ast} → plainAlts l = true → plainAll l = true
  | [], _ => rfl
  | [a], h => by
    rw [plainAlts, Bool.and_eq_true] at h
    rw [plainAll, h.1]; rfl
  | a :: b :: l, h => by
    rw [plainAlts, Bool.and_eq_true] at h
    rw [plainAll, plainEnd_plain a h.1, plainAlts_plain h.2]; rfl

mutual
theorem blk_length : (a : Ast) → plain a = true → ∀ o, (blk a o).length = states a
  | .cls c, _, o => rfl
  | .alts l, h, o => by
    rw [plain] at h
    rw [blk, states, List.length_cons, blkAlts_length l (plainAlts_plain h), Nat.add_comm]
  | .seq l, h, o => by
    rw [plain] at h
    rw [blk, states, blkSeq_length l h]
  | .substr l, h, o => by
    rw [plain, Bool.and_eq_true] at h
    rw [blk, states, List.length_cons, blkSub_length, statesAll_classes h.2, Nat.add_comm]
  | .rep t lo hi, h, o => by
    rw [plain] at h
    rw [blk, states]
    by_cases h0 : lo = 0 ∧ hi = some 0
    · rw [if_pos h0, if_pos h0]; rfl
    · rw [if_neg h0, Bool.and_eq_true] at h
      rw [if_neg h0, if_neg h0]
      by_cases h1 : lo = 1 ∧ hi = some 1
      · rw [if_pos h1, if_pos h1]; exact blk_length t h.2 o
      · rw [if_neg h1, if_neg h1]
        unfold repBlk
        simp only [List.length_cons, List.length_append, List.length_nil]
        rw [copies_length (blk_length t h.2)]
        unfold nCopies
        omega
  | .anagram _ _, h, o => rfl
theorem blkSeq_length : (l : List Ast) → plainAll l = true → ∀ o, (blkSeq l o).length = statesAll l
  | [], _, o => rfl
  | a :: l, h, o => by
    rw [plainAll, Bool.and_eq_true] at h
    rw [blkSeq, statesAll, List.length_append, blk_length a h.1, blkSeq_length l h.2]
theorem blkAlts_length : (l : List Ast) → plainAll l = true → ∀ N o, (blkAlts l N o).length = statesAll l
  | [], _, N, o => rfl
  | a :: l, h, N, o => by
    rw [plainAll, Bool.and_eq_true] at h
    rw [blkAlts, statesAll, List.length_append, repoint_length, blk_length a h.1, blkAlts_length l h.2]
end

end Noodle
