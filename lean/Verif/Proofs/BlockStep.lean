import Verif.Proofs.BlockWord
import Verif.Proofs.Reduce
/-
Steps by words, and the optimisation, over blocks.
-/
namespace Noodle.Blk
set_option autoImplicit false
open Noodle.Bits (Bits Bits3 Block blockSize Mem)

/-- A table of a word class with `n` states. -/
abbrev RC (n fl : Nat) : Bits3 → Tbl → Prop := Rep3 n fl n (fun _ => n)

theorem Rep2.cap_le {d cap bd : Nat} {t : Bits2} {R : Rows} (h : Rep2 d cap bd t R) (hd : 0 < d) : bd ≤ cap := by
  obtain ⟨r, _, h2⟩ := h.row 0 hd
  exact h2.le

theorem stepInto_rel {n fl d d' cap cap' : Nat} {t : Bits3} {T : Tbl} {prev next : Bits2} {P N : Rows}
    (ht : RC n fl t T) (hp : Rep2 d cap n prev P) (hn : Rep2 d' cap' n next N) (hd : fl ≤ d) (hd' : fl ≤ d')
    (hpos : 0 < n) :
    ∃ next', stepInto fl t prev next = .ok next' ∧ Rep2 d' cap' n next' (Noodle.stepInto fl T P N) := by
  unfold stepInto Noodle.stepInto
  apply foldM_rel₁ (Rep2 d' cap' n) _ _ _ _ _ _ hn
  intro f nx NX hf h1
  have hf' := List.mem_range.1 hf
  obtain ⟨r, h2, h3⟩ := hp.row f (by omega)
  have hcap := h3.le
  rw [h2, ub_some, bind_ok, h3.ones (by omega), bind_ok]
  apply foldM_rel₁ (Rep2 d' cap' n) _ _ _ _ _ _ h1
  intro dst nx NX hdst h4
  have hdst' := h3.bit_lt ((Noodle.mem_ones _ _).1 hdst)
  apply foldM_rel₁ (Rep2 d' cap' n) _ _ _ _ _ _ h4
  intro df nx NX hdf h5
  have hdf' := List.mem_range.1 hdf
  obtain ⟨s, h6, h7⟩ := ht.row dst hdst' df (by omega)
  rw [h6, ub_some, bind_ok]
  obtain ⟨nx', h8, h9⟩ := h5.modifyRow (j := f + df) (by omega) (fun r => Bits.union r s) _
    (fun r hr => hr.union h7 hr.le)
  rw [h8, ub_some]
  exact ⟨_, rfl, h9⟩

theorem hasSuccess_rel {pm : PM} {p : Noodle.PM} (h : RPM pm p) {d cap : Nat} {t : Bits2} {R : Rows}
    (ht : Rep2 d cap p.statesLen t R) (hd : p.fuzzLimit ≤ d) : pm.hasSuccess t = .ok (p.hasSuccess R) := by
  unfold PM.hasSuccess Noodle.PM.hasSuccess
  rw [h.fl, h.sl]
  apply anyM_ok
  intro f hf
  have hf' := List.mem_range.1 hf
  obtain ⟨r, h1, h2⟩ := ht.row f (by omega)
  have := h2.le
  have := h.pos
  rw [h1, ub_some, bind_ok, h2.contains (by omega), ub_some]

theorem stepByWordIndex_rel {pm : PM} {p : Noodle.PM} (h : RPM pm p) (wi : Nat) {d d' cap cap' : Nat}
    {prev next : Bits2} {P N : Rows} (hp : Rep2 d cap p.statesLen prev P) (hn : Rep2 d' cap' p.statesLen next N)
    (hd : p.fuzzLimit ≤ d) (hd' : p.fuzzLimit ≤ d') :
    RelE (Rep2 d' cap' p.statesLen) (pm.stepByWordIndex wi prev next) (p.stepByWordIndex wi P N) := by
  unfold PM.stepByWordIndex Noodle.PM.stepByWordIndex
  rw [h.wcs]
  cases p.wordClasses[wi]? with
  | none => exact .error _
  | some ci =>
    simp only
    split
    · exact .error _
    · rcases forall₂_get? h.classes ci with ⟨h1, h2⟩ | ⟨⟨t, wc⟩, ⟨T, wc'⟩, h1, h2, h3, _⟩
      · rw [h1, h2]
        exact .error _
      · rw [h1, h2]
        simp only
        rw [h.fl]
        obtain ⟨nx, h4, h5⟩ := stepInto_rel h3 hp hn hd hd' h.pos
        rw [h4]
        exact .ok h5

/-! ### `filter_search_phases` -/

theorem foldE_rel {β γ ι κ : Type} (R : β → γ → Prop) (S : ι → κ → Prop) {f : β → ι → Except Crash β}
    {G : Except Crash γ → κ → Except Crash γ} {l : List ι} {l' : List κ} (hl : List.Forall₂ S l l')
    (hG : ∀ e y, G (.error e) y = .error e)
    (h : ∀ x y b c, S x y → R b c → RelE R (f b x) (G (.ok c) y)) (b : β) (c : γ) (hb : R b c) :
    RelE R (l.foldlM f b) (l'.foldl G (.ok c)) := by
  induction hl generalizing b c with
  | nil => exact .ok hb
  | cons hxy _ ih =>
    rename_i x y l l' _
    rw [List.foldlM_cons, List.foldl_cons]
    have := h _ _ _ _ hxy hb
    revert this
    generalize f b x = u
    generalize G (.ok c) y = v
    intro huv
    cases huv with
    | error e =>
      rw [bind_error]
      have : ∀ l' : List κ, l'.foldl G (.error e : Except Crash γ) = .error e := by
        intro l'
        induction l' with
        | nil => rfl
        | cons _ _ ih => rw [List.foldl_cons, hG, ih]
      rw [this]
      exact .error _
    | ok hab =>
      rw [bind_ok]
      exact ih _ _ hab

theorem trancheIdx_lt {tr : List Nat} {x st : Nat} (h : trancheIdx tr x = some st) : st < tr.length := by
  unfold trancheIdx at h
  have := List.findIdx?_eq_some_iff_findIdx_eq.1 h
  exact this.1

theorem filterStep_rel {pm : PM} {p : Noodle.PM} (h : RPM pm p) (tr : List Nat) {cur : Bits3} {C : Tbl}
    (hc : Rep3 tr.length p.fuzzLimit p.statesLen (fun _ => p.statesLen) cur C) :
    RelE (Rep3 tr.length p.fuzzLimit p.statesLen (fun _ => p.statesLen)) (filterStep pm tr cur)
      (Noodle.filterStep p tr C) := by
  unfold filterStep Noodle.filterStep
  rw [h.fl, h.sl]
  have hinit : (C.map fun _ => List.replicate p.fuzzLimit 0) =
      List.replicate tr.length (List.replicate p.fuzzLimit 0) := by
    rw [← hc.tlen]
    apply List.eq_replicate_iff.2
    simp
  rw [hinit]
  apply foldE_rel (Rep3 tr.length p.fuzzLimit p.statesLen (fun _ => p.statesLen)) _ h.classes (fun _ _ => rfl) _ _ _
    (rep3_new _ _ _ _ (fun _ _ => Nat.le_refl _))
  rintro ⟨t, wc⟩ ⟨T, wc'⟩ nx N ⟨h1, h2⟩ h3
  simp only at h1 h2
  subst h2
  simp only
  cases hst : trancheIdx tr wc.minTranche with
  | none => exact .error _
  | some st =>
    have hlt := trancheIdx_lt hst
    simp only
    have : ∃ nx', (List.range' st (tr.length - st)).foldlM (fun next t_1 => do
        let prev ← ub (slab cur t_1)
        modifySlab next t_1 (stepInto p.fuzzLimit t prev)) nx = .ok nx' ∧
        Rep3 tr.length p.fuzzLimit p.statesLen (fun _ => p.statesLen) nx' (N.zipIdx.map fun q =>
          if st ≤ q.2 then Noodle.stepInto p.fuzzLimit T (C.getD q.2 []) q.1 else q.1) := by
      refine foldM_range'_imp (fun k nx => ∃ V : Tbl,
        Rep3 tr.length p.fuzzLimit p.statesLen (fun _ => p.statesLen) nx V ∧ ∀ i, i < tr.length →
          V.row i = if st ≤ i ∧ i < k then Noodle.stepInto p.fuzzLimit T (C.row i) (N.row i) else N.row i) ?_
        ⟨N, h3, fun i _ => by rw [if_neg (by omega)]⟩ ?_
      · rintro k hk1 hk2 u ⟨V, h4, h5⟩
        have hk3 : k < tr.length := by omega
        obtain ⟨s, h6, h7⟩ := hc.slab hk3
        rw [h6, ub_some, bind_ok]
        obtain ⟨u', h8, h9⟩ := h4.modifySlab hk3 (stepInto p.fuzzLimit t s) _
          (fun s' hs' => stepInto_rel h1 h7 hs' (Nat.le_refl _) (Nat.le_refl _) h.pos)
        refine ⟨u', h8, _, h9, ?_⟩
        intro i hi
        rw [row_set _ _ _ _ (by rw [h4.tlen]; exact hk3), h5 i hi, h5 k hk3]
        by_cases hik : i = k
        · subst hik
          simp [hk1]
        · have : i < k + 1 ↔ i < k := by omega
          simp [hik, this]
      · rintro u ⟨V, h4, h5⟩
        have : V = N.zipIdx.map fun q =>
            if st ≤ q.2 then Noodle.stepInto p.fuzzLimit T (C.getD q.2 []) q.1 else q.1 := by
          apply tbl_ext (by simp [h4.tlen, h3.tlen])
          intro i hi
          rw [h4.tlen] at hi
          rw [h5 i hi]
          have hi' : i < N.length := by rw [h3.tlen]; exact hi
          have e1 : st + (tr.length - st) = tr.length := by omega
          simp [Tbl.row, hi', e1, hi]
        rw [← this]
        exact h4
    obtain ⟨nx', h4, h5⟩ := this
    rw [h4]
    exact .ok h5

theorem filterLoop_rel {pm : PM} {p : Noodle.PM} (h : RPM pm p) (tr : List Nat) (k w : Nat) {cur : Bits3} {C : Tbl}
    (hc : Rep3 tr.length p.fuzzLimit p.statesLen (fun _ => p.statesLen) cur C) (q : List SearchPhase) :
    filterLoop pm tr k w cur q = Noodle.filterLoop p tr k w C q := by
  induction k generalizing w cur C q with
  | zero => rfl
  | succ k ih =>
    unfold filterLoop Noodle.filterLoop
    have hs := filterStep_rel h tr hc
    revert hs
    generalize filterStep pm tr cur = x
    generalize Noodle.filterStep p tr C = y
    intro hs
    cases hs with
    | error e => rfl
    | ok hab =>
      rename_i nx N
      rw [bind_ok]
      have : ∃ q', tr.zipIdx.foldlM (fun q pr => do
          let s ← ub (slab nx pr.2)
          let b ← pm.hasSuccess s
          .ok (if b then q else q.filter fun ph => ph.depth != w || ph.tranche != pr.1)) q = .ok q' ∧
          q' = tr.zipIdx.foldl (fun q pr => if p.hasSuccess (N.getD pr.2 []) then q
            else q.filter fun ph => ph.depth != w || ph.tranche != pr.1) q := by
        apply foldM_rel₁ (fun (a b : List SearchPhase) => a = b) _ _ _ _ _ _ rfl
        rintro ⟨x, i⟩ a _ hx rfl
        have hi : i < tr.length := (List.getElem?_eq_some_iff.1 (List.mk_mem_zipIdx_iff_getElem?.1 hx)).1
        obtain ⟨s, h1, h2⟩ := hab.slab hi
        simp only
        rw [h1, ub_some, bind_ok, hasSuccess_rel h h2 (Nat.le_refl _), bind_ok]
        exact ⟨_, rfl, rfl⟩
      obtain ⟨q', h1, rfl⟩ := this
      rw [h1, bind_ok]
      exact ih (w + 1) hab _

theorem filterPhases_rel {pm : PM} {p : Noodle.PM} (h : RPM pm p) (q : List SearchPhase) :
    pm.filterPhases q = p.filterPhases q := by
  unfold PM.filterPhases Noodle.PM.filterPhases
  split
  · rfl
  · rw [h.fl, h.sl]
    have : ∃ t, (List.range (tranchesOf q).length).foldlM (fun t i =>
        ub (Bits3.modifyRow t i 0 fun r => Bits.union r pm.start))
        (Bits.new3 (tranchesOf q).length p.fuzzLimit p.statesLen) = .ok t ∧
        Rep3 (tranchesOf q).length p.fuzzLimit p.statesLen (fun _ => p.statesLen) t
          ((tranchesOf q).map fun _ => rowsOf p.fuzzLimit p.start) := by
      refine foldM_range_imp (fun k t => ∃ V : Tbl,
        Rep3 (tranchesOf q).length p.fuzzLimit p.statesLen (fun _ => p.statesLen) t V ∧
        ∀ i, i < (tranchesOf q).length → V.row i = if i < k then rowsOf p.fuzzLimit p.start else
          List.replicate p.fuzzLimit 0) ?_ ⟨_, rep3_new _ _ _ _ (fun _ _ => Nat.le_refl _), ?_⟩ ?_
      · rintro k hk t ⟨V, h1, h2⟩
        obtain ⟨t', h3, h4⟩ := h1.modifyRow hk h.flpos (fun r => Bits.union r pm.start) _
          (fun r hr => hr.union h.start (Nat.le_refl _))
        rw [h3, ub_some]
        refine ⟨_, rfl, _, h4, ?_⟩
        intro i hi
        rw [row_set _ _ _ _ (by rw [h1.tlen]; exact hk), h2 i hi, h2 k hk, if_neg (Nat.lt_irrefl k)]
        have hfl := h.flpos
        by_cases hik : i = k
        · subst hik
          simp [rowsOf, Rows.at, List.getElem?_replicate, hfl]
        · have : i < k + 1 ↔ i < k := by omega
          simp [hik, this]
      · intro i hi
        simp [Tbl.row, hi]
      · rintro t ⟨V, h1, h2⟩
        have : V = (tranchesOf q).map fun _ => rowsOf p.fuzzLimit p.start := by
          apply tbl_ext (by simp [h1.tlen])
          intro i hi
          rw [h1.tlen] at hi
          rw [h2 i hi, if_pos hi]
          simp [Tbl.row, hi]
        rw [← this]
        exact h1
    obtain ⟨t, h1, h2⟩ := this
    simp only
    rw [h1, bind_ok]
    exact filterLoop_rel h _ _ _ h2 q

end Noodle.Blk
