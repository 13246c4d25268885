import Verif.Proofs.Prune
import Verif.Proofs.Merge
/-
`prune_epsilon_pairs` on a prunable automaton: it does not crash and merges every state with its partner.
-/
namespace Noodle
set_option autoImplicit false

/-- The bare relations of a list of states. -/
def view (ss : List State) : G where
  n := ss.length
  E := Ed (auto ss)
  Z := fun i => ∃ st, ss[i]? = some st ∧ st.cls = CharSet.empty
  nx := fun i => ((ss[i]?).map State.next).getD 0

theorem view_nx {ss : List State} {i : Nat} {st : State} (h : ss[i]? = some st) : (view ss).nx i = st.next := by
  simp [view, h]

theorem view_Z {ss : List State} {i : Nat} {st : State} (h : ss[i]? = some st) :
    (view ss).Z i ↔ st.cls = CharSet.empty := by
  constructor
  · rintro ⟨st', h', hc⟩
    rw [h] at h'; cases h'; exact hc
  · intro hc; exact ⟨st, h, hc⟩

theorem view_E {ss : List State} {i y : Nat} {st : State} (h : ss[i]? = some st) :
    (view ss).E i y ↔ st.eps.testBit y = true := by
  constructor
  · rintro ⟨st', h', hc⟩
    have : ss[i]? = some st' := h'
    rw [h] at this; cases this; exact hc
  · intro hc; exact ⟨st, h, hc⟩

namespace G
open Classical

variable {g : G}

/-- The number of partners below `i`. -/
noncomputable def cnt (g : G) (i : Nat) : Nat := ((List.range i).filter fun d => decide (g.Del d)).length

theorem cnt_zero : g.cnt 0 = 0 := rfl

theorem cnt_succ (i : Nat) : g.cnt (i + 1) = g.cnt i + (if g.Del i then 1 else 0) := by
  unfold cnt
  rw [List.range_succ, List.filter_append, List.length_append]
  by_cases h : g.Del i <;> simp [h]

theorem cnt_del {i : Nat} (h : g.Del i) : g.cnt (i + 1) = g.cnt i + 1 := by rw [cnt_succ, if_pos h]

theorem cnt_not {i : Nat} (h : ¬ g.Del i) : g.cnt (i + 1) = g.cnt i := by rw [cnt_succ, if_neg h]; rfl

theorem cnt_add (i d : Nat) : g.cnt i ≤ g.cnt (i + d) ∧ g.cnt (i + d) ≤ g.cnt i + d := by
  induction d with
  | zero => simp
  | succ d ih =>
    have := cnt_succ (g := g) (i + d)
    rw [← Nat.add_assoc]
    split at this <;> omega

theorem cnt_all (i d : Nat) (h : ∀ z, i ≤ z → z < i + d → g.Del z) : g.cnt (i + d) = g.cnt i + d := by
  induction d with
  | zero => rfl
  | succ d ih =>
    rw [← Nat.add_assoc, cnt_del (h _ (by omega) (by omega)), ih (fun z h1 h2 => h z h1 (by omega))]
    omega

theorem cnt_none (i d : Nat) (h : ∀ z, i ≤ z → z < i + d → ¬ g.Del z) : g.cnt (i + d) = g.cnt i := by
  induction d with
  | zero => rfl
  | succ d ih =>
    rw [← Nat.add_assoc, cnt_not (h _ (by omega) (by omega)), ih (fun z h1 h2 => h z h1 (by omega))]

theorem cnt_one : g.cnt 1 = 0 := by rw [cnt_not not_del_zero, cnt_zero]

theorem cnt_le (i : Nat) : g.cnt (i + 1) ≤ i := by
  have := (cnt_add (g := g) 1 i).2
  rw [cnt_one, Nat.add_comm] at this
  omega

theorem cnt_le' (i : Nat) : g.cnt i ≤ i := by
  cases i with
  | zero => simp [cnt_zero]
  | succ i => have := cnt_le (g := g) i; omega

/-- The state whose partner `x` is, or `x`. -/
noncomputable def raw (g : G) (x : Nat) : Nat := if h : g.Del x then h.choose else x

theorem raw_not {x : Nat} (h : ¬ g.Del x) : g.raw x = x := dif_neg h

theorem raw_part (hf : g.Prunable) {e x : Nat} (h : g.Part e x) : g.raw x = e := by
  have hd : g.Del x := ⟨e, h⟩
  unfold raw
  rw [dif_pos hd]
  exact hd.choose_spec.inj hf h

/-- The new number of a state. -/
noncomputable def phi (g : G) (x : Nat) : Nat := g.raw x - g.cnt x

theorem cnt_part (hf : g.Prunable) {e x : Nat} (h : g.Part e x) : g.cnt x = g.cnt (e + 1) := by
  have hl := h.lt
  obtain ⟨d, rfl⟩ : ∃ d, x = e + 1 + d := ⟨x - (e + 1), by omega⟩
  exact cnt_none _ _ (fun z h1 h2 => h.notDel hf (by omega) h2)

theorem cnt_le_raw (hf : g.Prunable) (x : Nat) : g.cnt x ≤ g.raw x := by
  by_cases h : g.Del x
  · obtain ⟨e, he⟩ := h
    rw [raw_part hf he, cnt_part hf he]
    exact cnt_le e
  · rw [raw_not h]; exact cnt_le' x

theorem phi_not {x : Nat} (h : ¬ g.Del x) : g.phi x = x - g.cnt x := by rw [phi, raw_not h]

theorem phi_part (hf : g.Prunable) {x y : Nat} (h : g.Part x y) : g.phi x = g.phi y := by
  have h1 : g.phi y = x - g.cnt (x + 1) := by rw [phi, raw_part hf h, cnt_part hf h]
  by_cases hx : g.Del x
  · obtain ⟨e, he⟩ := hx
    have hc := he.chain hf h
    rw [h1, cnt_del ⟨e, he⟩, phi, raw_part hf he]
    omega
  · rw [h1, cnt_not hx, phi_not hx]

theorem phi_chain (hf : g.Prunable) {x y : Nat} (hc : g.Chain x y) : g.phi x = g.phi y := by
  induction hc with
  | refl => rfl
  | tail _ e ih => exact ih.trans (phi_part hf e)

theorem phi_mono {r m : Nat} (hr : ¬ g.Del r) (hm : r < m) : r - g.cnt r < m - g.cnt m := by
  have h1 := (cnt_add (g := g) (r + 1) (m - (r + 1))).2
  rw [show r + 1 + (m - (r + 1)) = m by omega, cnt_not hr] at h1
  have := cnt_le' (g := g) r
  omega

theorem phi_step {r m : Nat} (hr : ¬ g.Del r) (hm : r < m) (h : ∀ z, r < z → z < m → g.Del z) :
    m - g.cnt m = r - g.cnt r + 1 := by
  have h1 := cnt_all (g := g) (r + 1) (m - (r + 1)) (fun z h1 h2 => h z (by omega) (by omega))
  rw [show r + 1 + (m - (r + 1)) = m by omega, cnt_not hr] at h1
  have := cnt_le' (g := g) r
  omega

theorem phi_lt (hf : g.Prunable) {x : Nat} (hx : x < g.n) : g.phi x < g.n - g.cnt g.n := by
  obtain ⟨r, hr, hc⟩ := exists_root (g := g) x
  rw [← phi_chain hf hc, phi_not hr]
  have := Chain.le hc
  exact phi_mono hr (by omega)

/-- The state of the loop of `prune_epsilon_pairs` after `i` rounds. -/
structure PInv (g : G) (i : Nat) (acc : Prune) : Prop where
  mlen : acc.map.length = g.n
  slen : acc.src.length = g.n
  done : ∀ x : Nat, x < i → x < g.n → acc.map[x]? = some (g.phi x)
  todo1 : ∀ x x' : Nat, i ≤ x → x < g.n → x' < i → g.Part x' x → acc.map[x]? = some x'
  todo2 : ∀ x : Nat, i ≤ x → x < g.n → (∀ x', x' < i → ¬ g.Part x' x) → acc.map[x]? = some x
  del : ∀ d, d ∈ acc.del ↔ ∃ x, x < i ∧ g.Part x d
  nodup : acc.del.Nodup
  gone : ∀ r x : Nat, x < i → g.Part x r → acc.src[r]? = some none
  kept : ∀ r : Nat, r < g.n → (∀ x, x < i → ¬ g.Part x r) →
    ∃ y, acc.src[r]? = some (some y) ∧ g.Chain r y ∧ ∀ k, g.Part y k → i ≤ y

theorem PInv.count {i : Nat} {acc : Prune} (h : PInv g i acc) : (acc.del.filter (· < i)).length = g.cnt i := by
  unfold cnt
  apply List.Perm.length_eq
  refine (List.perm_ext_iff_of_nodup (h.nodup.filter _) (List.nodup_range.filter _)).2 ?_
  intro d
  rw [List.mem_filter, List.mem_filter, h.del, List.mem_range, decide_eq_true_eq, decide_eq_true_eq]
  constructor
  · rintro ⟨⟨x, _, hp⟩, hd⟩; exact ⟨hd, x, hp⟩
  · rintro ⟨hd, x, hp⟩
    exact ⟨⟨x, by have := hp.lt; omega, hp⟩, hd⟩

theorem PInv.get {i : Nat} {acc : Prune} (h : PInv g i acc) (hf : g.Prunable) (hi : i < g.n) :
    acc.map[i]? = some (g.raw i) := by
  by_cases hd : g.Del i
  · obtain ⟨e, he⟩ := hd
    rw [raw_part hf he]
    exact h.todo1 i e (Nat.le_refl _) hi he.lt he
  · rw [raw_not hd]
    exact h.todo2 i (Nat.le_refl _) hi (fun x' _ hp => hd ⟨x', hp⟩)

theorem PInv.init (g : G) :
    PInv g 0 { map := List.range g.n, src := (List.range g.n).map some, del := [] } where
  mlen := by simp
  slen := by simp
  done := fun x h => absurd h (Nat.not_lt_zero _)
  todo1 := fun x x' _ _ h => absurd h (Nat.not_lt_zero _)
  todo2 := fun x _ h _ => by simp [h]
  del := fun d => by simp
  nodup := List.nodup_nil
  gone := fun r x h => absurd h (Nat.not_lt_zero _)
  kept := fun r hr _ => ⟨r, by simp [hr], .refl, fun k _ => Nat.zero_le _⟩

/-- A round without a partner. -/
theorem PInv.step_none {i : Nat} {acc : Prune} (h : PInv g i acc) (hi : i < g.n)
    (hp : ∀ k, ¬ g.Part i k) : PInv g (i + 1) { acc with map := acc.map.set i (g.raw i - g.cnt i) } where
  mlen := by simp [h.mlen]
  slen := h.slen
  done := by
    intro x hx hxn
    by_cases hxi : x = i
    · subst hxi
      show (acc.map.set x _)[x]? = _
      rw [List.getElem?_set_self (by rw [h.mlen]; exact hxn)]
      rfl
    · show (acc.map.set i _)[x]? = _
      rw [List.getElem?_set_ne (by omega)]
      exact h.done x (by omega) hxn
  todo1 := by
    intro x x' hx hxn hx' hpp
    show (acc.map.set i _)[x]? = _
    rw [List.getElem?_set_ne (by omega)]
    have : x' ≠ i := by rintro rfl; exact hp _ hpp
    exact h.todo1 x x' (by omega) hxn (by omega) hpp
  todo2 := by
    intro x hx hxn hno
    show (acc.map.set i _)[x]? = _
    rw [List.getElem?_set_ne (by omega)]
    exact h.todo2 x (by omega) hxn (fun x' hx' => hno x' (by omega))
  del := by
    intro d
    rw [show ({ acc with map := acc.map.set i (g.raw i - g.cnt i) } : Prune).del = acc.del from rfl, h.del]
    constructor
    · rintro ⟨x, hx, hpp⟩; exact ⟨x, by omega, hpp⟩
    · rintro ⟨x, hx, hpp⟩
      have : x ≠ i := by rintro rfl; exact hp _ hpp
      exact ⟨x, by omega, hpp⟩
  nodup := h.nodup
  gone := by
    intro r x hx hpp
    have : x ≠ i := by rintro rfl; exact hp _ hpp
    exact h.gone r x (by omega) hpp
  kept := by
    intro r hr hno
    obtain ⟨y, h1, h2, h3⟩ := h.kept r hr (fun x hx => hno x (by omega))
    refine ⟨y, h1, h2, ?_⟩
    intro k hk
    have : y ≠ i := by rintro rfl; exact hp _ hk
    have := h3 k hk
    omega

/-- A round with partner `k`. -/
theorem PInv.step_some {i k : Nat} {acc : Prune} (h : PInv g i acc) (hf : g.Prunable) (hi : i < g.n)
    (hp : g.Part i k) : PInv g (i + 1)
      { map := (acc.map.set i (g.raw i - g.cnt i)).set k i
        src := (acc.src.set k none).map fun s => if s = some i then some k else s
        del := acc.del ++ [k] } where
  mlen := by simp [h.mlen]
  slen := by simp [h.slen]
  done := by
    intro x hx hxn
    have hl := hp.lt
    show ((acc.map.set i _).set k i)[x]? = _
    rw [List.getElem?_set_ne (by omega)]
    by_cases hxi : x = i
    · subst hxi
      rw [List.getElem?_set_self (by rw [h.mlen]; exact hxn)]
      rfl
    · rw [List.getElem?_set_ne (by omega)]
      exact h.done x (by omega) hxn
  todo1 := by
    intro x x' hx hxn hx' hpp
    show ((acc.map.set i _).set k i)[x]? = _
    by_cases hxk : x = k
    · subst hxk
      rw [List.getElem?_set_self (by simp [h.mlen, hxn]), hp.inj hf hpp]
    · rw [List.getElem?_set_ne (by omega), List.getElem?_set_ne (by omega)]
      have : x' ≠ i := by
        rintro rfl
        exact hxk (hpp.unique hf hp)
      exact h.todo1 x x' (by omega) hxn (by omega) hpp
  todo2 := by
    intro x hx hxn hno
    show ((acc.map.set i _).set k i)[x]? = _
    have hxk : x ≠ k := by rintro rfl; exact hno i (by omega) hp
    rw [List.getElem?_set_ne (by omega), List.getElem?_set_ne (by omega)]
    exact h.todo2 x (by omega) hxn (fun x' hx' => hno x' (by omega))
  del := by
    intro d
    show d ∈ acc.del ++ [k] ↔ _
    rw [List.mem_append, h.del, List.mem_singleton]
    constructor
    · rintro (⟨x, hx, hpp⟩ | rfl)
      · exact ⟨x, by omega, hpp⟩
      · exact ⟨i, by omega, hp⟩
    · rintro ⟨x, hx, hpp⟩
      by_cases hxi : x = i
      · subst hxi; exact .inr (hpp.unique hf hp)
      · exact .inl ⟨x, by omega, hpp⟩
  nodup := by
    show (acc.del ++ [k]).Nodup
    rw [List.nodup_append]
    refine ⟨h.nodup, by simp, ?_⟩
    intro d hd k' hk' hdk
    rw [List.mem_singleton] at hk'
    subst hk'; subst hdk
    obtain ⟨x, hx, hpp⟩ := (h.del d).1 hd
    have := hpp.inj hf hp
    omega
  gone := by
    intro r x hx hpp
    show ((acc.src.set k none).map _)[r]? = _
    rw [List.getElem?_map]
    by_cases hrk : r = k
    · subst hrk
      rw [List.getElem?_set_self (by rw [h.slen]; exact hp.kn)]
      simp
    · rw [List.getElem?_set_ne (by omega)]
      have : x ≠ i := by rintro rfl; exact hrk (hpp.unique hf hp)
      rw [h.gone r x (by omega) hpp]
      simp
  kept := by
    intro r hr hno
    have hrk : r ≠ k := by rintro rfl; exact hno i (by omega) hp
    obtain ⟨y, h1, h2, h3⟩ := h.kept r hr (fun x hx => hno x (by omega))
    show ∃ y, ((acc.src.set k none).map _)[r]? = _ ∧ _
    rw [List.getElem?_map, List.getElem?_set_ne (by omega), h1]
    by_cases hy : y = i
    · subst hy
      refine ⟨k, by simp, h2.tail hp, ?_⟩
      intro k' hk'
      have := hp.lt
      omega
    · refine ⟨y, by simp [hy], h2, ?_⟩
      intro k' hk'
      have := h3 k' hk'
      omega

end G

open G

/-- The partner found is the partner. -/
theorem partner_iff {ss : List State} (hr : InRange ss) (hf : (view ss).Prunable) {i : Nat} {st : State}
    (hi : ss[i]? = some st) (h0 : i ≠ 0) (hc : st.cls = CharSet.empty) (k : Nat) :
    partner ss i st = some k ↔ (view ss).Part i k := by
  have key : ∀ k : Nat, ∀ st2 : State, ss[k]? = some st2 → i < k →
      (maskRemove st.eps i = st2.eps ↔ (view ss).Part i k) := by
    intro k st2 hk hl
    constructor
    · intro he
      refine ⟨by omega, (view_Z hi).2 hc, hl, (List.getElem?_eq_some_iff.1 hk).1, ?_⟩
      intro z
      rw [view_E hk, view_E hi, ← he, testBit_maskRemove, Bool.and_eq_true, Bool.not_eq_true', decide_eq_false_iff_not]
      exact and_congr_right fun _ => ne_comm
    · intro hp
      apply Nat.eq_of_testBit_eq
      intro z
      rw [testBit_maskRemove, Bool.eq_iff_iff, ← view_E hk, hp.iff, view_E hi, Bool.and_eq_true, Bool.not_eq_true',
        decide_eq_false_iff_not]
      exact and_congr_right fun _ => ne_comm
  constructor
  · intro h
    obtain ⟨hl, st2, h2, h3⟩ := partner_spec h
    exact (key k st2 h2 hl).1 h3
  · intro hp
    obtain ⟨st2, h2⟩ : ∃ st2, ss[k]? = some st2 := ⟨_, List.getElem?_eq_getElem hp.kn⟩
    cases hq : partner ss i st with
    | some j =>
      obtain ⟨hl, st3, h3, h4⟩ := partner_spec hq
      rw [((key j st3 h3 hl).1 h4).unique hf hp]
    | none =>
      exfalso
      unfold partner at hq
      rw [Option.map_eq_none_iff, List.find?_eq_none] at hq
      have := hq (st2, k) (by rw [List.mem_zipIdx_iff_getElem?]; exact h2)
      simp [hp.lt, (key k st2 h2 hp.lt).2 hp] at this

theorem pruneStep_fine {ss : List State} (hr : InRange ss) (hf : (view ss).Prunable) {i : Nat} {st : State}
    (hi : ss[i]? = some st) {acc : Prune} (h : PInv (view ss) i acc) :
    ∃ acc', pruneStep ss acc (st, i) = .ok acc' ∧ PInv (view ss) (i + 1) acc' := by
  have hin : i < (view ss).n := (List.getElem?_eq_some_iff.1 hi).1
  unfold pruneStep
  simp only []
  rw [h.get hf hin, h.count]
  simp only []
  rw [if_neg (by have := cnt_le_raw hf i; omega)]
  by_cases h0 : i = 0
  · rw [if_pos h0]
    refine ⟨_, rfl, h.step_none hin ?_⟩
    intro k hk
    exact absurd hk.pos (by omega)
  · rw [if_neg h0]
    by_cases hc : st.cls = CharSet.empty
    · rw [if_neg (by simpa using hc)]
      cases hq : partner ss i st with
      | none =>
        refine ⟨_, rfl, h.step_none hin ?_⟩
        intro k hk
        rw [(partner_iff hr hf hi h0 hc k).2 hk] at hq
        cases hq
      | some k => exact ⟨_, rfl, h.step_some hf hin ((partner_iff hr hf hi h0 hc k).1 hq)⟩
    · rw [if_pos hc]
      refine ⟨_, rfl, h.step_none hin ?_⟩
      intro k hk
      exact hc ((view_Z hi).1 hk.z)

theorem pruneLoop_fine {ss : List State} (hr : InRange ss) (hf : (view ss).Prunable) :
    ∀ (rest : List State) (i : Nat) (acc : Prune), ss.drop i = rest → i ≤ ss.length → PInv (view ss) i acc →
      ∃ acc', pruneLoop ss acc (rest.zipIdx i) = .ok acc' ∧ PInv (view ss) ss.length acc' := by
  intro rest
  induction rest with
  | nil =>
    intro i acc hd hi h
    have : ss.length ≤ i := by simpa using hd
    obtain rfl : i = ss.length := by omega
    exact ⟨acc, rfl, h⟩
  | cons st rest ih =>
    intro i acc hd hi h
    have hg : ss[i]? = some st := by
      have := congrArg List.head? hd
      rwa [List.head?_drop] at this
    obtain ⟨acc1, h1, h2⟩ := pruneStep_fine hr hf hg h
    have hil := (List.getElem?_eq_some_iff.1 hg).1
    have hd' : ss.drop (i + 1) = rest := by
      rw [← List.drop_drop, hd]; rfl
    obtain ⟨acc2, h3, h4⟩ := ih (i + 1) acc1 hd' hil h2
    refine ⟨acc2, ?_, h4⟩
    rw [List.zipIdx_cons, pruneLoop, h1]
    exact h3

theorem pruneAcc_fine {ss : List State} (hr : InRange ss) (hf : (view ss).Prunable) :
    ∃ acc, pruneAcc ss = .ok acc ∧ PInv (view ss) ss.length acc :=
  pruneLoop_fine hr hf ss 0 _ rfl (Nat.zero_le _) (PInv.init (view ss))

/-! ### Reading off the result -/

theorem filterMap_get {src : List (Option Nat)} {r y : Nat} (h : src[r]? = some (some y)) :
    (src.filterMap id)[((src.take r).filterMap id).length]? = some y := by
  induction src generalizing r with
  | nil => simp at h
  | cons a src ih =>
    cases r with
    | zero => simp at h; subst h; simp
    | succ r =>
      rw [List.getElem?_cons_succ] at h
      have := ih h
      cases a <;> simpa using this

theorem filterMap_inv {src : List (Option Nat)} {q y : Nat} (h : (src.filterMap id)[q]? = some y) :
    ∃ r : Nat, src[r]? = some (some y) ∧ ((src.take r).filterMap id).length = q := by
  induction src generalizing q with
  | nil => simp at h
  | cons a src ih =>
    cases a with
    | none =>
      simp at h
      obtain ⟨r, h1, h2⟩ := ih h
      exact ⟨r + 1, by simpa using h1, by simpa using h2⟩
    | some b =>
      cases q with
      | zero => simp at h; subst h; exact ⟨0, by simp⟩
      | succ q =>
        simp at h
        obtain ⟨r, h1, h2⟩ := ih h
        exact ⟨r + 1, by simpa using h1, by simpa using h2⟩

namespace G
variable {g : G}

theorem PInv.nones {acc : Prune} (h : PInv g g.n acc) (r : Nat) (hr : r ≤ g.n) :
    ((acc.src.take r).filter Option.isNone).length = g.cnt r := by
  induction r with
  | zero => simp [cnt_zero]
  | succ r ih =>
    rw [List.take_add_one, List.filter_append, List.length_append, ih (by omega)]
    by_cases hd : g.Del r
    · obtain ⟨x, hp⟩ := id hd
      have := hp.lt
      rw [cnt_del hd, h.gone r x (by omega) hp]
      simp
    · obtain ⟨y, h1, _⟩ := h.kept r (by omega) (fun x _ hp => hd ⟨x, hp⟩)
      rw [cnt_not hd, h1]
      simp

theorem PInv.pos {acc : Prune} (h : PInv g g.n acc) (r : Nat) (hr : r ≤ g.n) :
    ((acc.src.take r).filterMap id).length = r - g.cnt r := by
  have h1 := filterMap_id_length (acc.src.take r)
  rw [h.nones r hr, List.length_take, h.slen] at h1
  omega

theorem PInv.len {acc : Prune} (h : PInv g g.n acc) : (acc.src.filterMap id).length = g.n - g.cnt g.n := by
  have := h.pos g.n (Nat.le_refl _)
  rwa [List.take_of_length_le (by rw [h.slen]; exact Nat.le_refl _)] at this

theorem PInv.delLen {acc : Prune} (h : PInv g g.n acc) : acc.del.length = g.cnt g.n := by
  rw [← h.count, List.filter_eq_self.2]
  intro d hd
  obtain ⟨x, _, hp⟩ := (h.del d).1 hd
  have := hp.kn
  simp [this]

theorem PInv.copy {acc : Prune} (h : PInv g g.n acc) {q : Nat} (hq : q < g.n - g.cnt g.n) :
    ∃ r y : Nat, (acc.src.filterMap id)[q]? = some y ∧ ¬ g.Del r ∧ r < g.n ∧ q = r - g.cnt r ∧ g.Chain r y ∧
      (∀ k, ¬ g.Part y k) := by
  obtain ⟨y, hy⟩ : ∃ y, (acc.src.filterMap id)[q]? = some y :=
    ⟨_, List.getElem?_eq_getElem (by rw [h.len]; exact hq)⟩
  obtain ⟨r, h1, h2⟩ := filterMap_inv hy
  have hr : r < g.n := by rw [← h.slen]; exact (List.getElem?_eq_some_iff.1 h1).1
  rw [h.pos r (by omega)] at h2
  have hnd : ¬ g.Del r := by
    rintro ⟨x, hp⟩
    have := hp.lt
    rw [h.gone r x (by omega) hp] at h1
    cases h1
  obtain ⟨y', h3, h4, h5⟩ := h.kept r hr (fun x _ hp => hnd ⟨x, hp⟩)
  rw [h1] at h3
  cases h3
  refine ⟨r, y, hy, hnd, hr, h2.symm, h4, ?_⟩
  intro k hk
  have := h5 k hk
  have := hk.lt
  have := hk.kn
  omega

end G

/-- `prune_epsilon_pairs` on a prunable automaton: no crash, the same language, and each state merged with its
partner. -/
theorem prune_quot {ss : List State} (hr : InRange ss) (hf : (view ss).Prunable) :
    ∃ ss', prune ss = .ok (ss', ss'.length) ∧ InRange ss' ∧ (∃ φ f, Quot (view ss) (view ss') φ f) ∧
      ∀ w, Accept ss' w ↔ Accept ss w := by
  obtain ⟨acc, h1, inv⟩ := pruneAcc_fine hr hf
  have inv : PInv (view ss) (view ss).n acc := inv
  have hmap : ∀ x, x < ss.length → acc.map[x]? = some ((view ss).phi x) := fun x hx => inv.done x hx hx
  have hml : acc.map.length = ss.length := inv.mlen
  obtain ⟨ss', hb⟩ := rebuild_exists ss acc.map acc.src (by
    intro f hf'
    obtain ⟨q, hq, hqe⟩ := List.mem_iff_getElem.1 hf'
    have hql : q < ss.length := by
      have := inv.slen
      show q < (view ss).n
      omega
    have hfl : f < ss.length := by
      have hq' : acc.src[q]? = some (some f) := by rw [List.getElem?_eq_getElem hq, hqe]
      by_cases hd : (view ss).Del q
      · obtain ⟨x, hp⟩ := hd
        rw [inv.gone q x (by have := hp.lt; have := hp.kn; omega) hp] at hq'
        cases hq'
      · obtain ⟨y, h3, h4, _⟩ := inv.kept q hql (fun x _ hp => hd ⟨x, hp⟩)
        rw [hq'] at h3
        cases h3
        exact (hf.lt _ _ (Chain.edge hf.toClos hql h4)).2
    have hst : ss[f]? = some ss[f] := List.getElem?_eq_getElem hfl
    refine ⟨ss[f], _, hst, hmap _ (hr f _ hst).1, ?_⟩
    rw [hml]
    exact lt_two_pow_of_bits (hr f _ hst).2)
  obtain ⟨b1, b2⟩ := rebuild_ok _ _ _ _ hb
  have hn' : ss'.length = ss.length - (view ss).cnt ss.length := by rw [b1]; exact inv.len
  have hprune : prune ss = .ok (ss', ss'.length) := by
    unfold prune
    rw [show pruneLoop ss { map := List.range ss.length, src := (List.range ss.length).map some, del := [] }
      ss.zipIdx = pruneAcc ss from rfl, h1]
    simp only []
    have hdl : acc.del.length = (view ss).cnt ss.length := inv.delLen
    have hle := cnt_le' (g := view ss) ss.length
    rw [if_neg (by omega), if_neg, hb]
    · simp only []
      rw [hdl, ← hn']
    · rw [List.any_eq_true]
      rintro ⟨s, hs, hc⟩
      rw [decide_eq_true_eq, hdl] at hc
      obtain ⟨x, hx, hxe⟩ := List.mem_iff_getElem.1 hs
      have hx' : x < ss.length := by rw [← hml]; exact hx
      have := hmap x hx'
      rw [List.getElem?_eq_getElem hx, hxe] at this
      cases this
      have := phi_lt hf (x := x) hx'
      have e : (view ss).n = ss.length := rfl
      rw [e] at this
      omega
  obtain ⟨f, hfq⟩ : ∃ f : Nat → Nat, ∀ q, q < ss'.length → ∃ r : Nat, (acc.src.filterMap id)[q]? = some (f q) ∧
      ¬ (view ss).Del r ∧ r < ss.length ∧ q = r - (view ss).cnt r ∧ (view ss).Chain r (f q) ∧
      (∀ k, ¬ (view ss).Part (f q) k) := by
    refine ⟨fun q => ((acc.src.filterMap id)[q]?).getD 0, ?_⟩
    intro q hq
    obtain ⟨r, y, k1, k2, k3, k4, k5, k6⟩ := inv.copy (q := q) (by show q < ss.length - (view ss).cnt ss.length; omega)
    refine ⟨r, ?_, k2, k3, k4, ?_, ?_⟩ <;> simp only [k1, Option.getD_some] <;> assumption
  have hfl : ∀ q, q < ss'.length → f q < ss.length := by
    intro q hq
    obtain ⟨r, _, _, k3, _, k5, _⟩ := hfq q hq
    exact (hf.lt _ _ (Chain.edge hf.toClos k3 k5)).2
  have hnew : ∀ q, q < ss'.length → ∃ st : State, ss[f q]? = some st ∧ st.next < ss.length ∧
      ss'[q]? = some { eps := mapMask acc.map st.eps, cls := st.cls, next := (view ss).phi st.next } := by
    intro q hq
    obtain ⟨r, k1, _⟩ := hfq q hq
    obtain ⟨st, nx, s1, s2, s3, s4⟩ := b2 q (f q) k1
    have hnl := (hr _ _ s1).1
    rw [hmap _ hnl] at s2
    cases s2
    exact ⟨st, s1, hnl, s4⟩
  have Q : Quot (view ss) (view ss') (view ss).phi f := by
    refine ⟨?_, ?_, ?_, ?_, ?_, ?_, hfl, ?_, ?_, ?_, ?_, ?_⟩
    · intro x hx
      have := phi_lt hf hx
      show _ < ss'.length
      rw [hn']; exact this
    · intro r r' hnr hnr' hlt _
      rw [phi_not hnr, phi_not hnr']
      exact phi_mono hnr hlt
    · intro x y hp; exact phi_part hf hp
    · intro r m hnr hnm hlt _ hall
      rw [phi_not hnr, phi_not hnm]
      exact phi_step hnr hlt hall
    · intro r hnr hrn hall
      rw [phi_not hnr]
      show _ = ss'.length
      rw [hn']
      exact (phi_step hnr hrn hall).symm
    · rw [phi_not not_del_zero, cnt_zero]
    · intro q hq
      obtain ⟨r, _, k2, k3, k4, k5, _⟩ := hfq q hq
      rw [← phi_chain hf k5, phi_not k2]; exact k4.symm
    · intro q k hq
      obtain ⟨r, _, _, _, _, _, k6⟩ := hfq q hq
      exact k6 k
    · intro q q'
      constructor
      · intro e
        have hq := e.lt
        obtain ⟨st, s1, s2, s3⟩ := hnew q hq
        rw [view_E s3, testBit_mapMask] at e
        obtain ⟨x, m1, m2⟩ := e
        have hx := (hr _ _ s1).2 x m2
        rw [hmap x hx] at m1
        exact ⟨x, hq, (view_E s1).2 m2, Option.some.inj m1⟩
      · rintro ⟨y, hq, e, rfl⟩
        obtain ⟨st, s1, s2, s3⟩ := hnew q hq
        rw [view_E s3, testBit_mapMask]
        have m2 := (view_E s1).1 e
        exact ⟨y, hmap y ((hr _ _ s1).2 y m2), m2⟩
    · intro q hq
      obtain ⟨st, s1, s2, s3⟩ := hnew q hq
      rw [view_Z s3, view_Z s1]
    · intro q hq
      obtain ⟨st, s1, s2, s3⟩ := hnew q hq
      rw [view_nx s3, view_nx s1]
  have hg : ∀ q, q < ss'.length → (acc.src.filterMap id)[q]? = some (f q) := by
    intro q hq
    obtain ⟨r, k1, _⟩ := hfq q hq
    exact k1
  refine ⟨ss', hprune, (prune_facts hprune).2.1, ⟨_, _, Q⟩, ?_⟩
  intro w
  have hlast := Q.last hf
  have hflast := Q.f_last hf
  have hpos : 0 < ss'.length := (Q.clos hf).pos
  apply prune_accept hr hml hb
  have hgl : (acc.src.filterMap id).length = ss'.length := b1.symm
  refine ⟨?_, ?_, ?_, ⟨?_, ?_⟩, ?_, ?_⟩
  · intro y q hy
    have hyl : y < ss.length := by rw [← hml]; exact (List.getElem?_eq_some_iff.1 hy).1
    rw [hmap y hyl] at hy
    cases hy
    exact ⟨_, hg _ (Q.phi_lt y hyl), Q.ff hf hyl⟩
  · intro i j qi qj e hi hj
    have hil := e.lt
    have hjl := e.lt_right hr
    rw [hmap i hil] at hi
    rw [hmap j hjl] at hj
    cases hi; cases hj
    right
    obtain ⟨y, k1, k2, k3⟩ := (Q.e _ _).1 (Q.image hf e)
    have hyl := Ed.lt_right hr k2
    exact ⟨_, y, hg _ k1, k2, by rw [hmap y hyl, k3]⟩
  · intro i st q hi hc hq
    have hil := (List.getElem?_eq_some_iff.1 hi).1
    rw [hmap i hil] at hq
    cases hq
    rw [hg _ (Q.phi_lt i hil), Q.f_phi hf hil]
    intro k hk
    exact hc ((view_Z hi).1 hk.z)
  · rw [hmap 0 hf.pos, Q.zero]
  · rw [hg 0 hpos, Q.f_zero hf]
  · rw [hmap _ (by have := hf.pos; show ss.length - 1 < ss.length; exact Nat.sub_lt this (by omega)), hgl]
    have e1 : (view ss).n = ss.length := rfl
    have e2 : (view ss').n = ss'.length := rfl
    rw [e1, e2] at hlast
    congr 1
    omega
  · rw [hgl, hg _ (by omega)]
    have e1 : (view ss).n = ss.length := rfl
    have e2 : (view ss').n = ss'.length := rfl
    rw [e1] at hflast
    rw [e1, e2] at hlast
    rw [← hflast, show ss'.length - 1 = (view ss).phi (ss.length - 1) by omega, hflast]

end Noodle
