import Verif.Proofs.BlockStep
/-
The optimisation over blocks.
-/
namespace Noodle.Blk
set_option autoImplicit false
open Noodle.Bits (Bits Bits3 Block blockSize Mem)

theorem recount_rel {n fl : Nat} {cl : List (Bits3 × WordClass)} {cl' : List (Tbl × WordClass)}
    (h : List.Forall₂ (RClass n fl) cl cl') (kept : List (Word × Nat)) :
    List.Forall₂ (RClass n fl) (recount cl kept) (Noodle.recount cl' kept) := by
  unfold recount Noodle.recount
  have h0 : List.Forall₂ (RClass n fl) (cl.map fun q => (q.1, {})) (cl'.map fun q => (q.1, {})) :=
    forall₂_map h _ _ (fun x y hxy => ⟨hxy.1, rfl⟩)
  revert h0
  generalize (cl.map fun q => (q.1, ({} : WordClass))) = c
  generalize (cl'.map fun q => (q.1, ({} : WordClass))) = c'
  intro h0
  induction kept generalizing c c' with
  | nil => exact h0
  | cons p kept ih => exact ih _ _ (forall₂_modify h0 _ _ (add_rel p.1) _)

theorem live_rel {pm : PM} {p : Noodle.PM} (h : RPM pm p) :
    List.Forall₂ (RC p.statesLen p.fuzzLimit) pm.live p.live := by
  unfold PM.live Noodle.PM.live
  have := h.classes
  revert this
  generalize pm.classes = c
  generalize p.classes = c'
  intro hc
  induction hc with
  | nil => exact .nil
  | cons h1 _ ih =>
    rw [List.filter_cons, List.filter_cons, h1.2]
    split
    · exact .cons h1.1 ih
    · exact ih

section
variable {n fl : Nat} {live : List Bits3} {L : List Tbl} (hL : List.Forall₂ (RC n fl) live L) (hn : 0 < n)
include hL hn

theorem stepAll_rel {cur : Bits2} {C : Rows} (hc : Rep2 fl n n cur C) :
    ∃ r, stepAll fl live cur = .ok r ∧ Rep2 fl n n r (Noodle.stepAll fl L C) := by
  unfold stepAll Noodle.stepAll
  apply foldM_rel (Rep2 fl n n) _ _ _ _ _ hL _ _ _ hc
  intro x y b c _ _ hxy hbc
  exact stepInto_rel hxy hc hbc (Nat.le_refl _) (Nat.le_refl _) hn

theorem saturate_rel (k : Nat) {cur : Bits2} {C : Rows} (hc : Rep2 fl n n cur C) :
    ∃ r, saturate fl live k cur = .ok r ∧ Rep2 fl n n r (Noodle.saturate fl L k C) := by
  induction k generalizing cur C with
  | zero => exact ⟨_, rfl, hc⟩
  | succ k ih =>
    obtain ⟨r, h1, h2⟩ := stepAll_rel hL hn hc
    unfold saturate Noodle.saturate
    simp only [h1, bind_ok, h2.inj hc]
    split
    · exact ⟨_, rfl, hc⟩
    · exact ih h2

theorem rowsOf_rel (hfl : 0 < fl) {s : Bits} {m : Nat} (hs : Rep1 n n s m) :
    ∃ r, (new2 fl n).modifyRow 0 (fun r => Bits.union r s) = some r ∧ Rep2 fl n n r (rowsOf fl m) := by
  obtain ⟨r, h1, h2⟩ := (rep2_new fl n n (Nat.le_refl _)).modifyRow hfl (fun r => Bits.union r s) m
    (fun r hr => by
      have := hr.union hs (Nat.le_refl _)
      have e : Rows.at (List.replicate fl 0) 0 = 0 := by simp [Rows.at, List.getElem?_replicate, hfl]
      rw [e, Nat.zero_or] at this
      exact this)
  exact ⟨r, h1, h2⟩

theorem reachable_rel (hfl : 0 < fl) {s : Bits} {m : Nat} (hs : Rep1 n n s m) (depth : Nat) :
    ∃ r, reachable fl n s live depth = .ok r ∧
      Rep1 n n r (unionRows fl (Noodle.saturate fl L depth (rowsOf fl m))) := by
  obtain ⟨i, h1, h2⟩ := rowsOf_rel hL hn hfl hs
  obtain ⟨r, h3, h4⟩ := saturate_rel hL hn depth h2
  unfold reachable unionRows
  rw [h1, ub_some, bind_ok, h3, bind_ok]
  apply foldM_rel₁ (Rep1 n n) _ _ _ _ _ _ (rep1_new n n (Nat.le_refl _))
  intro f b c hf hbc
  obtain ⟨row, h5, h6⟩ := h4.row f (List.mem_range.1 hf)
  rw [h5, ub_some, bind_ok]
  obtain ⟨b', h7, h8⟩ := hbc.union h6 (Nat.le_refl _)
  rw [h7, ub_some]
  exact ⟨_, rfl, h8⟩

theorem candidateLoop_rel {src : Nat} (hsrc : src < n) (k : Nat) {cur : Bits2} {C : Rows} (hc : Rep2 fl n n cur C)
    {cand : Bits} {c : Nat} (hcand : Rep1 n n cand c) :
    ∃ r, candidateLoop fl n live src k cur cand = .ok r ∧
      Rep1 n n r (if Noodle.candidateLoop fl n L k C then c ||| 2 ^ src else c) := by
  induction k generalizing cur C cand c with
  | zero => exact ⟨_, rfl, hcand⟩
  | succ k ih =>
    obtain ⟨nx, h1, h2⟩ := stepAll_rel hL hn hc
    unfold candidateLoop Noodle.candidateLoop
    have hany : (List.range fl).anyM (fun f => do
        let r ← ub (cur.row f)
        ub (Bits.contains r (n - 1))) = .ok ((List.range fl).any fun f => (C.at f).testBit (n - 1)) := by
      apply anyM_ok
      intro f hf
      obtain ⟨r, h3, h4⟩ := hc.row f (List.mem_range.1 hf)
      rw [h3, ub_some, bind_ok, h4.contains (by omega), ub_some]
    rw [hany, bind_ok]
    cases (List.range fl).any fun f => (C.at f).testBit (n - 1) with
    | true =>
      obtain ⟨cand', h3, h4⟩ := hcand.insert hsrc
      simp only [if_true, h3, ub_some, bind_ok, h1, h2.inj hc, Bool.true_or]
      split
      · exact ⟨_, rfl, h4⟩
      · obtain ⟨r, h5, h6⟩ := ih h2 h4
        refine ⟨r, h5, ?_⟩
        have : c ||| 2 ^ src ||| 2 ^ src = c ||| 2 ^ src := by rw [Nat.or_assoc, Nat.or_self]
        rw [this, ite_self] at h6
        exact h6
    | false =>
      simp only [Bool.false_eq_true, if_false, bind_ok, h1, h2.inj hc, Bool.false_or]
      split
      · exact ⟨_, rfl, hcand⟩
      · exact ih h2 hcand

theorem candidates_rel (hfl : 0 < fl) (depth : Nat) :
    ∃ r, candidates fl n live depth = .ok r ∧ Rep1 n n r (Noodle.candidates fl n L depth) := by
  unfold candidates Noodle.candidates
  apply foldM_rel₁ (Rep1 n n) _ _ _ _ _ _ (rep1_new n n (Nat.le_refl _))
  intro src b c hsrc hbc
  have hs := List.mem_range.1 hsrc
  obtain ⟨r, h1, h2⟩ := (rep2_new fl n n (Nat.le_refl _)).modifyRow hfl (fun r => Bits.insert r src) (2 ^ src)
    (fun r hr => by
      have := hr.insert hs
      have e : Rows.at (List.replicate fl 0) 0 = 0 := by simp [Rows.at, List.getElem?_replicate, hfl]
      rw [e, Nat.zero_or] at this
      exact this)
  rw [h1, ub_some, bind_ok]
  exact candidateLoop_rel hL hn hs _ h2 hbc

theorem aliveStates_rel (hfl : 0 < fl) {s : Bits} {m : Nat} (hs : Rep1 n n s m) (depth : Nat) :
    ∃ r, aliveStates fl n s live depth = .ok r ∧ Rep1 n n r (Noodle.aliveStates fl n m L depth) := by
  obtain ⟨a, h1, h2⟩ := reachable_rel hL hn hfl hs depth
  obtain ⟨b, h3, h4⟩ := candidates_rel hL hn hfl depth
  obtain ⟨r, h5, h6⟩ := h2.intersect h4
  unfold aliveStates Noodle.aliveStates
  rw [h1, bind_ok, h3, bind_ok, h5, ub_some]
  exact ⟨_, rfl, h6⟩

theorem sameState_rel {alive : Bits} {A : Nat} (hA : Rep1 n n alive A) {i j : Nat} (hi : i < n) (hj : j < n) :
    sameState fl live alive i j = .ok (Noodle.sameState fl L A i j) := by
  unfold sameState Noodle.sameState
  apply allM_ok
  intro f hf
  have hf' := List.mem_range.1 hf
  induction hL with
  | nil => rfl
  | cons ht _ ih =>
    rename_i t T live L _
    rw [List.allM, List.all_cons]
    have h1 : (Noodle.ones A).allM (fun dst => (do
          let a ← ub (t.row i f)
          let b ← ub (t.row j f)
          let x ← ub (Bits.contains a dst)
          let y ← ub (Bits.contains b dst)
          .ok (x == y) : Except Crash Bool)) =
        .ok ((Noodle.ones A).all fun dst => ((T.row i).at f).testBit dst == ((T.row j).at f).testBit dst) := by
      apply allM_ok
      intro d hd
      have hd' := hA.bit_lt ((Noodle.mem_ones _ _).1 hd)
      obtain ⟨a, e1, r1⟩ := ht.row i hi f hf'
      obtain ⟨b, e2, r2⟩ := ht.row j hj f hf'
      rw [e1, ub_some, bind_ok, e2, ub_some, bind_ok, r1.contains hd', ub_some, bind_ok, r2.contains hd', ub_some, bind_ok]
    have h2 : (Noodle.ones A).allM (fun src => (do
          let a ← ub (t.row src f)
          let x ← ub (Bits.contains a i)
          let y ← ub (Bits.contains a j)
          .ok (x == y) : Except Crash Bool)) =
        .ok ((Noodle.ones A).all fun src => ((T.row src).at f).testBit i == ((T.row src).at f).testBit j) := by
      apply allM_ok
      intro d hd
      have hd' := hA.bit_lt ((Noodle.mem_ones _ _).1 hd)
      obtain ⟨a, e1, r1⟩ := ht.row d hd' f hf'
      rw [e1, ub_some, bind_ok, r1.contains hi, ub_some, bind_ok, r1.contains hj, ub_some, bind_ok]
    rw [hA.ones hn, bind_ok, h1, bind_ok]
    cases hb : (Noodle.ones A).all fun dst => ((T.row i).at f).testBit dst == ((T.row j).at f).testBit dst with
    | false => rfl
    | true =>
      simp only [if_true, bind_ok, h2]
      cases hb2 : (Noodle.ones A).all fun src => ((T.row src).at f).testBit i == ((T.row src).at f).testBit j with
      | false => rfl
      | true =>
        simp only [Bool.true_and, bind_ok, hb, hb2, Bool.and_self]
        simp only [hA.ones hn, bind_ok] at ih
        exact ih

theorem redundantStates_rel {alive : Bits} {A : Nat} (hA : Rep1 n n alive A) :
    redundantStates fl n live alive = .ok (Noodle.redundantStates fl n L A) := by
  unfold redundantStates Noodle.redundantStates
  have h0 : (List.range n).mapM (fun src => (do
      let b ← ub (Bits.contains alive src)
      .ok (if b then none else some src) : Except Crash (Option Nat))) =
      .ok ((List.range n).map fun src => if A.testBit src then none else some src) := by
    apply mapM_ok
    intro s hs
    rw [hA.contains (List.mem_range.1 hs), ub_some, bind_ok]
  rw [h0, bind_ok]
  obtain ⟨r, h1, h2⟩ := foldM_rel₁ (fun (a b : List (Option Nat)) => a = b)
    (fun red i => if (red.getD i none).isSome then .ok red
      else (List.range' (i + 1) (n - 1 - (i + 1))).foldlM (fun red j =>
        if (red.getD j none).isSome then .ok red
        else (do
          let same ← sameState fl live alive i j
          .ok (if same then red.set j (some i) else red) : Except Crash (List (Option Nat)))) red)
    (fun red i => if (red.getD i none).isSome then red
      else (List.range' (i + 1) (n - 1 - (i + 1))).foldl (fun red j =>
        if (red.getD j none).isSome then red
        else if Noodle.sameState fl L A i j then red.set j (some i) else red) red)
    (List.range n) (by
      rintro i b _ hi rfl
      have hi' := List.mem_range.1 hi
      split
      · exact ⟨_, rfl, rfl⟩
      · apply foldM_rel₁ (fun (a b : List (Option Nat)) => a = b) _ _ _ _ _ _ rfl
        rintro j b _ hj rfl
        have hj' : j < n := by
          have := List.mem_range'_1.1 hj
          omega
        split
        · exact ⟨_, rfl, rfl⟩
        · rw [sameState_rel hL hn hA hi' hj', bind_ok]
          exact ⟨_, rfl, rfl⟩) _ _ rfl
  rw [h1, h2]

end

theorem newIndex_lt {red : List (Option Nat)} {i x : Nat} (h : newIndex red i = some x) :
    x < red.countP Option.isNone := by
  obtain ⟨h1, rfl⟩ := (newIndex_eq red i x).1 h
  exact rho_lt red h1

theorem newSource_bound {red : List (Option Nat)} {i x : Nat} (h : newSource red i = some x) :
    x < red.countP Option.isNone := by
  unfold newSource at h
  cases hr : red.getD i none with
  | none =>
    rw [hr] at h
    exact newIndex_lt h
  | some r =>
    rw [hr] at h
    simp only at h
    split at h
    · cases h
    · exact newIndex_lt h

theorem remapInto_rel {α : Type} {n : Nat} (red : List (Option Nat)) {s : Bits} {m : Nat} (hs : Rep1 n n s m)
    (hn : 0 < n) (R : α → Nat → Prop) (put : α → Nat → Except Crash α)
    (hput : ∀ a x d, R a x → d < red.countP Option.isNone → ∃ a', put a d = .ok a' ∧ R a' (x ||| 2 ^ d))
    (a : α) (x : Nat) (ha : R a x) :
    ∃ a', remapInto red s put a = .ok a' ∧ R a' (x ||| remapSet red m) := by
  have key : ∀ (g : Nat → Nat → Nat) (_ : ∀ x y d, g (x ||| y) d = x ||| g y d) (l : List Nat) (x y : Nat),
      l.foldl g (x ||| y) = x ||| l.foldl g y := by
    intro g hg l
    induction l with
    | nil => intro x y; rfl
    | cons d l ih =>
      intro x y
      rw [List.foldl_cons, List.foldl_cons, hg]
      exact ih x _
  unfold remapInto remapSet
  rw [hs.ones hn, bind_ok, ← key _ (by
    intro x y d
    cases newIndex red d with
    | none => rfl
    | some d' => exact Nat.or_assoc _ _ _), Nat.or_zero]
  apply foldM_rel₁ R _ _ _ _ _ _ ha
  intro d b c hd hbc
  cases hnew : newIndex red d with
  | none => exact ⟨_, rfl, hbc⟩
  | some d' => exact hput _ _ _ hbc (newIndex_lt hnew)

theorem modify_eq_set {α : Type} (l : List α) (i : Nat) (f : α → α) (h : i < l.length) :
    l.modify i f = l.set i (f l[i]) := by
  apply List.ext_getElem (by simp)
  intro k h1 h2
  by_cases hk : i = k
  · subst hk
    simp
  · simp [List.getElem_modify, List.getElem_set, hk]

theorem remapTbl_rel {n fl : Nat} (red : List (Option Nat)) {t : Bits3} {T : Tbl} (ht : RC n fl t T) (hn : 0 < n) :
    ∃ t', remapTbl red fl n (red.countP Option.isNone) t = .ok t' ∧
      RC (red.countP Option.isNone) fl t' (Noodle.remapTbl red fl n (red.countP Option.isNone) T) := by
  unfold remapTbl Noodle.remapTbl emptyTbl
  generalize hnl : red.countP Option.isNone = nl
  apply foldM_rel₁ (RC nl fl) _ _ _ _ _ _ (rep3_new nl fl nl (fun _ => nl) (fun _ _ => Nat.le_refl _))
  intro src acc A hsrc hacc
  have hsrc' := List.mem_range.1 hsrc
  cases hs : newSource red src with
  | none => exact ⟨_, rfl, hacc⟩
  | some s' =>
    have hlt : s' < nl := by rw [← hnl]; exact newSource_bound hs
    have hltA : s' < A.length := by rw [hacc.tlen]; exact hlt
    simp only
    refine foldM_range_imp (fun k acc => ∃ R : Rows, RC nl fl acc (A.set s' R) ∧ R.length = fl ∧
      ∀ j, j < fl → R.at j = if j < k then (A.row s').at j ||| remapSet red ((T.row src).at j) else (A.row s').at j)
      ?_ ⟨A.row s', by rw [set_row_self hltA]; exact hacc, hacc.rlen _ hlt, by simp⟩ ?_
    · rintro f hf u ⟨R, h1, h2, h3⟩
      obtain ⟨old, h4, h5⟩ := ht.row src hsrc' f hf
      rw [h4, ub_some, bind_ok]
      obtain ⟨u', h6, h7⟩ := remapInto_rel red h5 hn (fun u x => RC nl fl u (A.set s' (R.set f x)))
        (fun acc d' => ub (Bits3.modifyRow acc s' f fun r => Bits.insert r d'))
        (by
          intro v x d hv hd
          rw [hnl] at hd
          obtain ⟨v', h8, h9⟩ := hv.modifyRow hlt hf (fun r => Bits.insert r d) _ (fun r hr => hr.insert hd)
          rw [h8, ub_some]
          refine ⟨_, rfl, ?_⟩
          rw [row_set _ _ _ _ hltA, if_pos rfl, List.set_set, at_set _ _ _ _ (by omega), if_pos rfl,
            List.set_set] at h9
          exact h9) u (R.at f) (by
            have : R.set f (R.at f) = R := by
              apply rows_ext (by simp)
              intro j hj
              rw [at_set _ _ _ _ (by omega)]
              split
              · rename_i e
                rw [e]
              · rfl
            rw [this]
            exact h1)
      refine ⟨u', h6, _, h7, by simp [h2], ?_⟩
      intro j hj
      rw [at_set _ _ _ _ (by omega), h3 j hj]
      by_cases hjf : j = f
      · subst hjf
        simp [h3 j hj]
      · have : j < f + 1 ↔ j < f := by omega
        simp [hjf, this]
    · rintro u ⟨R, h1, h2, h3⟩
      have e1 : (A.modify s' fun row => (List.range fl).map fun f => row.at f ||| remapSet red ((T.row src).at f)) =
          A.set s' R := by
        rw [modify_eq_set _ _ _ hltA]
        congr 1
        apply rows_ext (by simp [h2])
        intro j hj
        have hj' : j < fl := by simpa using hj
        rw [h3 j hj', if_pos hj']
        simp [Rows.at, Tbl.row, hj', hltA]
      rw [e1]
      exact h1

theorem remapClasses_rel {n fl : Nat} (red : List (Option Nat)) (hn : 0 < n) {cl nc : List (Bits3 × WordClass)}
    {cl' nc' : List (Tbl × WordClass)} (h : List.Forall₂ (RClass n fl) cl cl')
    (hc : List.Forall₂ (RClass (red.countP Option.isNone) fl) nc nc') :
    ∃ r, remapClasses red fl n (red.countP Option.isNone) cl nc = .ok r ∧
      r.1 = (Noodle.remapClasses red fl n (red.countP Option.isNone) cl' nc').1 ∧
      List.Forall₂ (RClass (red.countP Option.isNone) fl) r.2
        (Noodle.remapClasses red fl n (red.countP Option.isNone) cl' nc').2 := by
  induction h generalizing nc nc' with
  | nil => exact ⟨_, rfl, rfl, hc⟩
  | cons h1 _ ih =>
    rename_i x y cl cl' _
    obtain ⟨t, wc⟩ := x
    obtain ⟨T, wc'⟩ := y
    obtain ⟨h1, h2⟩ := h1
    simp only at h1 h2
    subst h2
    unfold remapClasses Noodle.remapClasses
    split
    · obtain ⟨r, h3, h4, h5⟩ := ih hc
      rw [h3, bind_ok]
      exact ⟨_, rfl, by simp only [h4], h5⟩
    · obtain ⟨t', h3, h4⟩ := remapTbl_rel red h1 hn
      rw [h3, bind_ok]
      obtain ⟨h5, h6⟩ := entryIdx_rel hc h4
      obtain ⟨r, h7, h8, h9⟩ := ih h6
      simp only
      rw [h7, bind_ok]
      exact ⟨_, rfl, by simp only [h5, h8], h9⟩

theorem reassign_rel {n fl : Nat} (cmap : List Nat) (l : List (Word × Nat)) {nc : List (Bits3 × WordClass)}
    {nc' : List (Tbl × WordClass)} (h : List.Forall₂ (RClass n fl) nc nc') :
    (reassign cmap l nc).1 = (Noodle.reassign cmap l nc').1 ∧
      List.Forall₂ (RClass n fl) (reassign cmap l nc).2 (Noodle.reassign cmap l nc').2 := by
  induction l generalizing nc nc' with
  | nil => exact ⟨rfl, h⟩
  | cons p l ih =>
    obtain ⟨w, ci⟩ := p
    unfold reassign Noodle.reassign
    simp only
    split
    · obtain ⟨h1, h2⟩ := ih (forall₂_modify h _ _ (add_rel w) (cmap.getD ci 0))
      exact ⟨by rw [h1], h2⟩
    · exact ih h

theorem shrink_rel {m : WM} {w : Noodle.WM} (h : RWM m w) (red : List (Option Nat)) :
    RelE (fun p q => RWM p.1 q.1 ∧ p.2 = q.2) (m.shrink red) (w.shrink red) := by
  unfold WM.shrink Noodle.WM.shrink
  simp only [h.pm.sl, h.pm.fl, h.pm.wcs, h.alive]
  split
  · exact .error _
  · rename_i hlast
    split
    · exact .error _
    · split
      · exact .ok ⟨h, rfl⟩
      · split
        · exact .error _
        · have hn := h.pm.pos
          have hpos : 0 < red.countP Option.isNone := by
            have := rho_lt red (i := w.pm.statesLen - 1) (by simpa using hlast)
            omega
          obtain ⟨s, h1, h2⟩ := remapInto_rel red h.pm.start hn
            (Rep1 (red.countP Option.isNone) (red.countP Option.isNone)) (fun s d => ub (Bits.insert s d))
            (by
              intro a x d ha hd
              obtain ⟨a', h3, h4⟩ := ha.insert hd
              rw [h3, ub_some]
              exact ⟨_, rfl, h4⟩) (Bits.new (red.countP Option.isNone)) 0 (rep1_new _ _ (Nat.le_refl _))
          rw [Nat.zero_or] at h2
          obtain ⟨rc, h3, h4, h5⟩ := remapClasses_rel (nc := [(Bits.new3 (red.countP Option.isNone) w.pm.fuzzLimit
              (red.countP Option.isNone), {})])
            (nc' := [(emptyTbl (red.countP Option.isNone) w.pm.fuzzLimit, {})]) red hn h.pm.classes
            (.cons ⟨rep3_new _ _ _ _ (fun _ _ => Nat.le_refl _), rfl⟩ .nil)
          rw [h1, bind_ok, h3, bind_ok, h4]
          obtain ⟨h6, h7⟩ := reassign_rel (Noodle.remapClasses red w.pm.fuzzLimit w.pm.statesLen
            (red.countP Option.isNone) w.pm.classes
            [(emptyTbl (red.countP Option.isNone) w.pm.fuzzLimit, {})]).1 (w.alive.zip w.pm.wordClasses) h5
          refine .ok ⟨⟨by simp only [h6], ⟨h.pm.expr, rfl, h.pm.flE, rfl, hpos, h2, h7, by simp only [h6]⟩,
            h.tables, h.chars, h.idx⟩, rfl⟩

theorem reduce_rel {m : WM} {w : Noodle.WM} (h : RWM m w) (queue : List SearchPhase) :
    RelE (fun p q => RWM p.1 q.1 ∧ p.2 = q.2) (m.reduce queue) (w.reduce queue) := by
  unfold WM.reduce Noodle.WM.reduce
  split
  · exact .error _
  · rw [h.pm.fl, h.pm.sl]
    obtain ⟨a, h1, h2⟩ := aliveStates_rel (live_rel h.pm) h.pm.pos h.pm.flpos h.pm.start (maxDepth queue)
    have hp := h.pm.pos
    rw [h1, bind_ok, h2.contains (by omega), ub_some, bind_ok]
    simp only
    split
    · exact .ok ⟨⟨rfl, h.pm, h.tables, h.chars, h.idx⟩, rfl⟩
    · rw [redundantStates_rel (live_rel h.pm) h.pm.pos h2, bind_ok]
      exact shrink_rel h _

theorem optimize_rel {m : WM} {w : Noodle.WM} (h : RWM m w) (nl : List Word) (queue : List SearchPhase) :
    RelE (fun p q => RWM p.1 q.1 ∧ p.2 = q.2) (m.optimize nl queue) (w.optimize nl queue) := by
  unfold WM.optimize Noodle.WM.optimize
  rw [h.alive, h.pm.wcs, h.pm.classes.length_eq]
  split
  · exact .error _
  · split
    · split
      · exact .ok ⟨h, rfl⟩
      · exact .error _
    · simp only
      split
      · exact .error _
      · split
        · exact .error _
        · apply reduce_rel
          exact ⟨rfl, ⟨h.pm.expr, h.pm.fl, h.pm.flE, h.pm.sl, h.pm.pos, h.pm.start,
            recount_rel h.pm.classes _, rfl⟩, h.tables, h.chars, h.idx⟩

end Noodle.Blk
