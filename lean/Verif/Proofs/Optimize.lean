import Verif.Proofs.Simulate
/-
`optimize_for_wordlist`: word filtering and class renumbering.
-/
namespace Noodle
open Spec

theorem zip_fst_snd {α β : Type} (l : List (α × β)) : (l.map Prod.fst).zip (l.map Prod.snd) = l := by
  induction l with
  | nil => rfl
  | cons a l ih => simp [ih]

/-! ### Class maps -/

theorem entryIdx_spec (cl : List (Tbl × WordClass)) (t z : Tbl) (wc0 : WordClass) (rest : List (Tbl × WordClass))
    (hcl : cl = (z, wc0) :: rest) : (∃ suf, (entryIdx cl t).2 = cl ++ suf ∧ ∀ p ∈ suf, p.2.minTranche = 0) ∧
      (∃ wc, (entryIdx cl t).2[(entryIdx cl t).1]? = some (t, wc)) ∧ ((entryIdx cl t).1 = 0 ↔ t = z) := by
  unfold entryIdx
  cases h : cl.findIdx? (fun p => decide (p.1 = t)) with
  | none =>
    refine ⟨⟨[(t, {})], rfl, by simp⟩, ⟨{}, by simp⟩, ?_⟩
    rw [List.findIdx?_eq_none_iff] at h
    have h1 := h (z, wc0) (by simp [hcl])
    have h2 : cl.length ≠ 0 := by simp [hcl]
    constructor
    · intro hc; exact absurd hc h2
    · rintro rfl; simp at h1
  | some i =>
    obtain ⟨hi, h1, h2⟩ := List.findIdx?_eq_some_iff_getElem.1 h
    refine ⟨⟨[], by simp, by simp⟩, ⟨cl[i].2, ?_⟩, ?_⟩
    · have : cl[i].1 = t := by simpa using h1
      rw [List.getElem?_eq_getElem hi]
      simp only [Option.some.injEq]
      rw [← this]
    · subst hcl
      constructor
      · intro hi0
        have hi0 : i = 0 := hi0
        subst hi0
        simp at h1
        exact h1.symm
      · rintro rfl
        change i = 0
        by_contra hc
        have := h2 0 (by omega)
        simp at this

theorem remapClasses_spec (red : List (Option Nat)) (fl n newLen : Nat) (z : Tbl) (cl : List (Tbl × WordClass)) :
    ∀ (nc : List (Tbl × WordClass)) (wc0 : WordClass) (rest : List (Tbl × WordClass)), nc = (z, wc0) :: rest →
      ∃ suf, (remapClasses red fl n newLen cl nc).2 = nc ++ suf ∧ (∀ p ∈ suf, p.2.minTranche = 0) ∧
        ∀ i t wc, cl[i]? = some (t, wc) → wc.count ≠ 0 →
          (∃ wc', (remapClasses red fl n newLen cl nc).2[(remapClasses red fl n newLen cl nc).1.getD i 0]? =
              some (remapTbl red fl n newLen t, wc')) ∧
            ((remapClasses red fl n newLen cl nc).1.getD i 0 = 0 ↔ remapTbl red fl n newLen t = z) := by
  induction cl with
  | nil => intro nc _ _ _; exact ⟨[], by simp [remapClasses], by simp, by simp⟩
  | cons p cl ih =>
    obtain ⟨t, wc⟩ := p
    intro nc wc0 rest hnc
    by_cases hc : wc.count = 0
    · obtain ⟨suf, h1, h2, h3⟩ := ih nc wc0 rest hnc
      rw [remapClasses, if_pos hc]
      refine ⟨suf, h1, h2, ?_⟩
      intro i t' wc' hi hne
      cases i with
      | zero =>
        simp only [List.getElem?_cons_zero, Option.some.injEq, Prod.mk.injEq] at hi
        rw [hi.2] at hc; exact absurd hc hne
      | succ i =>
        have := h3 i t' wc' (by simpa using hi) hne
        simpa using this
    · rw [remapClasses, if_neg hc]
      obtain ⟨⟨suf0, h1, h2⟩, ⟨wc1, h3⟩, h4⟩ := entryIdx_spec nc (remapTbl red fl n newLen t) z wc0 rest hnc
      obtain ⟨suf, h5, h6, h7⟩ := ih (entryIdx nc (remapTbl red fl n newLen t)).2 wc0 (rest ++ suf0) (by rw [h1, hnc]; simp)
      refine ⟨suf0 ++ suf, by rw [h5, h1, List.append_assoc], ?_, ?_⟩
      · intro p hp
        rcases List.mem_append.1 hp with hp | hp
        · exact h2 p hp
        · exact h6 p hp
      · intro i t' wc' hi hne
        cases i with
        | zero =>
          simp only [List.getElem?_cons_zero, Option.some.injEq, Prod.mk.injEq] at hi
          obtain ⟨rfl, rfl⟩ := hi
          simp only [List.getD_cons_zero]
          refine ⟨⟨wc1, ?_⟩, h4⟩
          rw [h5, List.getElem?_append_left (List.getElem?_eq_some_iff.1 h3).1]
          exact h3
        | succ i =>
          have := h7 i t' wc' (by simpa using hi) hne
          simpa using this

theorem modify_fst (cl : List (Tbl × WordClass)) (i : Nat) (w : Word) (j : Nat) :
    ((cl.modify i fun q => (q.1, q.2.add w))[j]?).map Prod.fst = (cl[j]?).map Prod.fst := by
  rw [List.getElem?_modify]
  cases cl[j]? with
  | none => rfl
  | some p => simp; split <;> rfl

theorem modify_mt (cl : List (Tbl × WordClass)) (i : Nat) (w : Word) (h : ∀ p ∈ cl, p.2.minTranche = 0) :
    ∀ p ∈ (cl.modify i fun q => (q.1, q.2.add w)), p.2.minTranche = 0 := by
  intro p hp
  obtain ⟨j, hj⟩ := List.mem_iff_getElem?.1 hp
  rw [List.getElem?_modify] at hj
  cases hc : cl[j]? with
  | none => rw [hc] at hj; simp at hj
  | some q =>
    rw [hc] at hj
    simp only [Option.map_eq_map, Option.map_some, Option.some.injEq] at hj
    have hq := h q (List.mem_of_getElem? hc)
    split at hj
    · rw [← hj]; simp [WordClass.add, hq]
    · rw [← hj]; exact hq

theorem reassign_spec (cmap : List Nat) (l : List (Word × Nat)) : ∀ nc : List (Tbl × WordClass),
    (reassign cmap l nc).1 = (l.map fun p => (p.1, cmap.getD p.2 0)).filter (fun p => p.2 != 0) ∧
    (∀ j : Nat, ((reassign cmap l nc).2[j]?).map Prod.fst = (nc[j]?).map Prod.fst) ∧
    ((∀ p ∈ nc, p.2.minTranche = 0) → ∀ p ∈ (reassign cmap l nc).2, p.2.minTranche = 0) := by
  induction l with
  | nil => intro nc; exact ⟨rfl, fun _ => rfl, fun h => h⟩
  | cons p l ih =>
    obtain ⟨w, ci⟩ := p
    intro nc
    rw [reassign]
    simp only
    by_cases hc : cmap.getD ci 0 = 0
    · rw [if_neg (by simpa using hc)]
      obtain ⟨h1, h2, h3⟩ := ih nc
      refine ⟨?_, h2, h3⟩
      rw [h1, List.map_cons, List.filter_cons_of_neg (by simpa using hc)]
    · rw [if_pos hc]
      obtain ⟨h1, h2, h3⟩ := ih (nc.modify (cmap.getD ci 0) fun q => (q.1, q.2.add w))
      refine ⟨?_, fun j => by rw [h2 j, modify_fst], fun h => h3 (modify_mt nc _ w h)⟩
      rw [List.map_cons, List.filter_cons_of_pos (by simpa using hc), h1]

theorem recount_spec (cl : List (Tbl × WordClass)) (kept : List (Word × Nat)) :
    (∀ j : Nat, ((recount cl kept)[j]?).map Prod.fst = (cl[j]?).map Prod.fst) ∧
    (∀ p ∈ recount cl kept, p.2.minTranche = 0) ∧
    (∀ w ci, (w, ci) ∈ kept → ∀ p, (recount cl kept)[ci]? = some p → p.2.count ≠ 0) ∧
    ∀ ci p, (recount cl kept)[ci]? = some p → p.2.count ≠ 0 → ∃ w, (w, ci) ∈ kept := by
  have key : ∀ (kept : List (Word × Nat)) (cl : List (Tbl × WordClass)),
      (∀ j : Nat, ((kept.foldl (fun cl p => cl.modify p.2 fun q => (q.1, q.2.add p.1)) cl)[j]?).map Prod.fst =
        (cl[j]?).map Prod.fst) ∧
      ((∀ p ∈ cl, p.2.minTranche = 0) →
        ∀ p ∈ kept.foldl (fun cl p => cl.modify p.2 fun q => (q.1, q.2.add p.1)) cl, p.2.minTranche = 0) ∧
      (∀ j p, (kept.foldl (fun cl p => cl.modify p.2 fun q => (q.1, q.2.add p.1)) cl)[j]? = some p →
        ((∃ q, cl[j]? = some q ∧ q.2.count ≠ 0) ∨ ∃ w, (w, j) ∈ kept) → p.2.count ≠ 0) ∧
      (∀ j p, (kept.foldl (fun cl p => cl.modify p.2 fun q => (q.1, q.2.add p.1)) cl)[j]? = some p → p.2.count ≠ 0 →
        (∃ q, cl[j]? = some q ∧ q.2.count ≠ 0) ∨ ∃ w, (w, j) ∈ kept) := by
    intro kept
    induction kept with
    | nil =>
      intro cl
      refine ⟨fun _ => rfl, fun h => h, ?_, fun j p hp hc => Or.inl ⟨p, hp, hc⟩⟩
      rintro j p hp (⟨q, h1, h2⟩ | ⟨w, h⟩)
      · simp only [List.foldl_nil] at hp
        rw [h1] at hp; simp only [Option.some.injEq] at hp; rw [← hp]; exact h2
      · simp at h
    | cons a kept ih =>
      obtain ⟨w, ci⟩ := a
      intro cl
      rw [List.foldl_cons]
      obtain ⟨h1, h2, h3, h4⟩ := ih (cl.modify ci fun q => (q.1, q.2.add w))
      refine ⟨fun j => by rw [h1, modify_fst], fun h => h2 (modify_mt cl ci w h), ?_, ?_⟩
      rotate_left
      · intro j p hp hc
        rcases h4 j p hp hc with ⟨q, hq, hq2⟩ | ⟨w', hw'⟩
        · by_cases hji : j = ci
          · subst hji
            exact Or.inr ⟨w, by simp⟩
          · left
            rw [List.getElem?_modify] at hq
            simp only [show ¬ ci = j from fun hc => hji hc.symm, if_false] at hq
            exact ⟨q, by simpa using hq, hq2⟩
        · exact Or.inr ⟨w', by simp [hw']⟩
      intro j p hp hor
      apply h3 j p hp
      rcases hor with ⟨q, hq, hq2⟩ | ⟨w', hw'⟩
      · left
        rw [List.getElem?_modify, hq]
        refine ⟨_, rfl, ?_⟩
        split
        · simp [WordClass.add]
        · exact hq2
      · rcases List.mem_cons.1 hw' with heq | hmem
        · left
          simp only [Prod.mk.injEq] at heq
          obtain ⟨rfl, rfl⟩ := heq
          have : j < cl.length := by
            by_contra hc
            have := h1 j
            rw [hp, modify_fst, List.getElem?_eq_none (by omega)] at this
            simp at this
          rw [List.getElem?_modify, List.getElem?_eq_getElem this]
          refine ⟨_, rfl, ?_⟩
          simp [WordClass.add]
        · exact Or.inr ⟨w', hmem⟩
  unfold recount
  obtain ⟨h1, h2, h3, h4⟩ := key kept (cl.map fun q => (q.1, {}))
  refine ⟨?_, ?_, ?_, ?_⟩
  · intro j
    rw [h1, List.getElem?_map, Option.map_map]; rfl
  · apply h2
    intro p hp
    obtain ⟨q, _, rfl⟩ := List.mem_map.1 hp
    rfl
  · intro w ci hm p hp
    exact h3 ci p hp (Or.inr ⟨w, hm⟩)
  · intro ci p hp hc
    rcases h4 ci p hp hc with ⟨q, hq, hq2⟩ | h
    · rw [List.getElem?_map] at hq
      cases hx : cl[ci]? with
      | none => rw [hx] at hq; simp at hq
      | some y =>
        rw [hx] at hq
        simp only [Option.map_some, Option.some.injEq] at hq
        rw [← hq] at hq2
        simp at hq2
    · exact h

/-! ### Word filtering -/

theorem filterAlive_spec (Z : Word → Bool) (l : List (Word × Nat)) (hZ : ∀ p ∈ l, p.2 = 0 ↔ Z p.1 = true) :
    ∀ new : List Word, List.Sublist new (l.map Prod.fst) → (filterAlive l new).2 = [] ∧
      (filterAlive l new).1.map Prod.fst = new.filter (fun w => !Z w) ∧
      ∀ p ∈ (filterAlive l new).1, p ∈ l ∧ p.2 ≠ 0 := by
  induction l with
  | nil =>
    intro new h
    have : new = [] := by simpa using h
    subst this
    simp [filterAlive]
  | cons p l ih =>
    obtain ⟨w, ci⟩ := p
    have ih' := ih fun q hq => hZ q (by simp [hq])
    intro new h
    cases new with
    | nil =>
      rw [filterAlive]
      obtain ⟨h1, h2, h3⟩ := ih' [] (List.nil_sublist _)
      exact ⟨h1, h2, fun q hq => ⟨by simp [(h3 q hq).1], (h3 q hq).2⟩⟩
    | cons v vs =>
      rw [filterAlive]
      by_cases hwv : w = v
      · subst hwv
        rw [if_pos rfl]
        have hs : List.Sublist vs (l.map Prod.fst) := by simpa using h
        obtain ⟨h1, h2, h3⟩ := ih' vs hs
        have hz := hZ (w, ci) (by simp)
        by_cases hc : ci = 0
        · rw [if_neg (by simpa using hc)]
          refine ⟨h1, ?_, fun q hq => ⟨by simp [(h3 q hq).1], (h3 q hq).2⟩⟩
          rw [h2, List.filter_cons_of_neg (by simpa using hz.1 hc)]
        · rw [if_pos hc]
          refine ⟨h1, ?_, ?_⟩
          · have : Z w = false := by
              by_contra hcon
              exact hc (hz.2 (by simpa using hcon))
            rw [List.map_cons, h2, List.filter_cons_of_pos (by simpa using this)]
          · intro q hq
            rcases List.mem_cons.1 hq with rfl | hq
            · exact ⟨by simp, hc⟩
            · exact ⟨by simp [(h3 q hq).1], (h3 q hq).2⟩
      · rw [if_neg hwv]
        have hs : List.Sublist (v :: vs) (l.map Prod.fst) := by
          rw [List.map_cons] at h
          rcases List.sublist_cons_iff.1 h with h | ⟨r, h1, h2⟩
          · exact h
          · simp only [List.cons.injEq] at h1; exact absurd h1.1.symm hwv
        obtain ⟨h1, h2, h3⟩ := ih' _ hs
        exact ⟨h1, h2, fun q hq => ⟨by simp [(h3 q hq).1], (h3 q hq).2⟩⟩

/-- Words with an empty table are in no accepted phrase. -/
theorem path_nonempty {T : Word → Tbl} {n fl : Nat} {ws : List Word} {s k d : Nat} (h : Path T s ws k d) :
    ∀ w ∈ ws, T w ≠ emptyTbl n fl := by
  induction h with
  | nil => simp
  | @cons s m d w ws f k hb _ ih =>
    intro v hv
    rcases List.mem_cons.1 hv with rfl | hv
    · intro hc; rw [hc, emptyTbl_row_at] at hb; simp at hb
    · exact ih v hv

theorem mem_live (pm : PM) (t : Tbl) (wc : WordClass) (i : Nat) (h : pm.classes[i]? = some (t, wc)) (hc : wc.count ≠ 0) :
    t ∈ pm.live := by
  unfold PM.live
  exact List.mem_map.2 ⟨(t, wc), List.mem_filter.2 ⟨List.mem_of_getElem? h, by simpa using hc⟩, rfl⟩

/-- What the reduction does to a matcher whose words all have non-empty classes. -/
theorem reduce_spec {e : Expr} {D : Nat} {m : WM} {T : Word → Tbl} (queue : List SearchPhase) (hq : queue ≠ [])
    (hmt : ∀ p ∈ m.pm.classes, p.2.minTranche = 0) (hD : maxDepth queue = D)
    (h : MB e D m.pm m.alive T) (hne0 : ∀ ci ∈ m.pm.wordClasses, ci ≠ 0)
    (hcount : ∀ w ci, (w, ci) ∈ m.alive.zip m.pm.wordClasses → ∀ p, m.pm.classes[ci]? = some p → p.2.count ≠ 0)
    (hlw : ∀ t ∈ m.pm.live, ∃ w ∈ m.alive, T w = t) :
    ∃ (m' : WM) (did : Bool) (keep : Word → Bool), m.reduce queue = .ok (m', did) ∧ MInv e D m' ∧
      m'.alive = m.alive.filter keep ∧
      (∀ ws : List Word, ws ≠ [] → ws.length ≤ D → (∀ w ∈ ws, w ∈ m.alive) → Matches e (charsOf ws) →
        ∀ w ∈ ws, keep w = true) ∧
      (m'.alive ≠ [] → ∀ ci ∈ m'.pm.wordClasses, ci ≠ 0) ∧
      (did = true → m'.alive = [] ∨ m'.pm.statesLen < m.pm.statesLen) ∧
      (did = false → m' = m) ∧ m'.pm.statesLen ≤ m.pm.statesLen ∧
      (e.fuzz = 0 → ∀ w ∈ m'.alive, ∃ us vs, (∀ v ∈ us ++ vs, v ∈ m.alive) ∧ Matches e (charsOf (us ++ w :: vs))) := by
  subst hD
  have hlive : ∀ w ∈ m.alive, T w ∈ m.pm.live := by
    intro w hw
    obtain ⟨ci, hci⟩ := h.has hw
    obtain ⟨⟨wc, hc⟩, _⟩ := h.cls w ci hci
    exact mem_live m.pm _ wc ci hc (hcount w ci hci _ hc)
  -- a word with a move between two kept states is in a phrase
  have huse : e.fuzz = 0 → ∀ w ∈ m.alive, ∀ s f d, (((T w).row s).at f).testBit d = true →
      (aliveStates m.pm.fuzzLimit m.pm.statesLen m.pm.start m.pm.live (maxDepth queue)).testBit s = true →
      (aliveStates m.pm.fuzzLimit m.pm.statesLen m.pm.start m.pm.live (maxDepth queue)).testBit d = true →
      ∃ us vs, (∀ v ∈ us ++ vs, v ∈ m.alive) ∧ Matches e (charsOf (us ++ w :: vs)) := by
    intro hf w hw s f d hb hs hd
    have hfl : 0 < m.pm.fuzzLimit := by rw [h.fl]; omega
    obtain ⟨⟨s0, us, k1, a1, a2, a3⟩, _⟩ := alive_back (T := T) hfl hlw hs
    obtain ⟨_, vs, k2, b1, b2⟩ := alive_back (T := T) hfl hlw hd
    have hp : Path T s0 (us ++ w :: vs) (k1 + (f + k2)) (m.pm.statesLen - 1) := by
      rw [path_append]
      exact ⟨s, k1, f + k2, a3, Path.cons hb b2, rfl⟩
    have hal : ∀ v ∈ us ++ w :: vs, v ∈ m.alive := by
      intro v hv
      simp only [List.mem_append, List.mem_cons] at hv
      rcases hv with hv | rfl | hv
      · exact a2 v hv
      · exact hw
      · exact b1 v hv
    refine ⟨us, vs, fun v hv => hal v ?_, h.snd _ (by simp) hal ⟨s0, _, a1, ?_, hp⟩⟩
    · simp only [List.mem_append, List.mem_cons] at hv ⊢
      tauto
    · -- all moves are free
      have hk : ∀ {ws : List Word} {s k d : Nat}, (∀ w ∈ ws, w ∈ m.alive) → Path T s ws k d → k = 0 := by
        intro ws
        induction ws with
        | nil => intro s k d _ hp; cases hp; rfl
        | cons v ws ih =>
          intro s k d hws hp
          cases hp with
          | @cons _ m' _ _ _ f k' h1 h2 =>
            have := ih (fun x hx => hws x (by simp [hx])) h2
            have hf0 : f = 0 := by
              by_contra hc
              have hsh := h.shape v (hws v (by simp))
              have hz : ((T v).row s).at f = 0 := by
                apply at_eq_zero_of_le
                unfold Tbl.row
                by_cases hs : s < (T v).length
                · have hl := hsh.2 _ (List.getElem_mem hs)
                  rw [h.fl] at hl
                  rw [List.getD, List.getElem?_eq_getElem hs, Option.getD_some]
                  omega
                · rw [List.getD, List.getElem?_eq_none (by omega)]; simp
              rw [hz] at h1; simp at h1
            omega
      rw [hk hal hp]; exact hfl
  unfold WM.reduce
  simp only
  rw [if_neg hq]
  by_cases hlast : (aliveStates m.pm.fuzzLimit m.pm.statesLen m.pm.start m.pm.live (maxDepth queue)).testBit
      (m.pm.statesLen - 1) = true
  rotate_left
  · rw [if_pos (by simpa using hlast)]
    refine ⟨_, true, fun _ => false, rfl, ⟨hmt, h.fl, fun hc => absurd rfl hc⟩, by simp, ?_, fun hc => absurd rfl hc,
      fun _ => Or.inl rfl, by simp, Nat.le_refl _, fun _ w hw => absurd hw (by simp)⟩
    intro ws hne hlen hal hma
    obtain ⟨s, k, h1, h2, h3⟩ := (h.acc ws hne hlen hal).2 hma
    exfalso; apply hlast
    exact alive_on_path _ _ _ _ _ T ws [] s _ k 0 (by have := h.pos; omega)
      (fun w hw => hlive w (hal w (by simpa using hw))) (by simpa using hlen) h1 (by omega) h3 (Path.nil _)
  · rw [if_neg (by simpa using hlast)]
    have hred := redundantStates_inv m.pm.fuzzLimit m.pm.statesLen m.pm.live
      (aliveStates m.pm.fuzzLimit m.pm.statesLen m.pm.start m.pm.live (maxDepth queue))
    generalize hR : redundantStates m.pm.fuzzLimit m.pm.statesLen m.pm.live
      (aliveStates m.pm.fuzzLimit m.pm.statesLen m.pm.start m.pm.live (maxDepth queue)) = red at hred ⊢
    unfold WM.shrink
    simp only
    have hlastn := hred.last h.pos hlast
    rw [if_neg (by simpa using hlastn)]
    have hchk : repsOk red m.pm.statesLen = true := by
      rw [repsOk, List.all_eq_true]
      intro s hs
      rw [List.mem_range] at hs
      by_cases ha : (aliveStates m.pm.fuzzLimit m.pm.statesLen m.pm.start m.pm.live (maxDepth queue)).testBit s = true
      · obtain ⟨r, hr, _, hor⟩ := hred.rep hs ha
        rcases hor with rfl | ⟨_, hor⟩
        · rw [List.getD, hr]; rfl
        · rw [List.getD, hor]
          simp [(newIndex_eq red r _).2 ⟨hr, rfl⟩]
      · rw [List.getD, hred.dead s hs (by simpa using ha)]
        simp
    rw [hchk, if_neg (by simp)]
    have hcle : red.countP Option.isNone ≤ m.pm.statesLen := by
      rw [← hred.len]; exact List.countP_le_length
    by_cases hsame : red.countP Option.isNone = m.pm.statesLen
    · rw [if_pos hsame]
      exact ⟨m, false, fun _ => true, rfl, ⟨hmt, h.fl, fun _ => ⟨T, h⟩⟩, (List.filter_eq_self.2 fun _ _ => rfl).symm,
        fun _ _ _ _ _ _ _ => rfl,
        fun _ => hne0, by simp, fun _ => rfl, Nat.le_refl _, fun hf w hw => by
          obtain ⟨ci, hci⟩ := h.has hw
          have hT0 : T w ≠ emptyTbl m.pm.statesLen m.pm.fuzzLimit := fun hc =>
            hne0 ci (List.of_mem_zip hci).2 ((h.cls w ci hci).2.2 hc)
          obtain ⟨s, f, d, hb⟩ := (h.shape w hw).bit hT0
          have hrg := h.range w hw s f d hb
          have hnone : ∀ j, j < m.pm.statesLen → red[j]? = some none := by
            intro j hj
            have hall : ∀ x ∈ red, x.isNone = true := by
              rw [← List.countP_eq_length, hsame, hred.len]
            have hj' : j < red.length := by rw [hred.len]; exact hj
            have := hall _ (List.getElem_mem hj')
            rw [List.getElem?_eq_getElem hj', Option.isNone_iff_eq_none.1 this]
          exact huse hf w hw s f d hb (hred.alive_of_none (hnone s hrg.1)).2 (hred.alive_of_none (hnone d hrg.2)).2⟩
    · rw [if_neg hsame, if_neg (by simpa using h.wcl)]
      have hcle' : red.countP Option.isNone < m.pm.statesLen := by omega
      clear hR hchk
      obtain ⟨suf, hc1, hc2, hc3⟩ := remapClasses_spec red m.pm.fuzzLimit m.pm.statesLen (red.countP Option.isNone)
        (emptyTbl (red.countP Option.isNone) m.pm.fuzzLimit) m.pm.classes
        [(emptyTbl (red.countP Option.isNone) m.pm.fuzzLimit, {})] {} [] rfl
      generalize remapClasses red m.pm.fuzzLimit m.pm.statesLen (red.countP Option.isNone) m.pm.classes
        [(emptyTbl (red.countP Option.isNone) m.pm.fuzzLimit, {})] = rc at hc1 hc2 hc3
      obtain ⟨hr1, hr2, hr3⟩ := reassign_spec rc.1 (m.alive.zip m.pm.wordClasses) rc.2
      generalize reassign rc.1 (m.alive.zip m.pm.wordClasses) rc.2 = ra at hr1 hr2 hr3
      generalize hN : red.countP Option.isNone = N at *
      -- the new class of a word
      have hcls' : ∀ w ci, (w, ci) ∈ m.alive.zip m.pm.wordClasses →
          (∃ wc', ra.2[rc.1.getD ci 0]? = some (remapTbl red m.pm.fuzzLimit m.pm.statesLen N (T w), wc')) ∧
          (rc.1.getD ci 0 = 0 ↔ remapTbl red m.pm.fuzzLimit m.pm.statesLen N (T w) = emptyTbl N m.pm.fuzzLimit) := by
        intro w ci hwc
        obtain ⟨⟨wc, hc⟩, _⟩ := h.cls w ci hwc
        obtain ⟨⟨wc', h1⟩, h2⟩ := hc3 ci (T w) wc hc (hcount w ci hwc _ hc)
        refine ⟨?_, h2⟩
        have := hr2 (rc.1.getD ci 0)
        rw [h1] at this
        cases hx : ra.2[rc.1.getD ci 0]? with
        | none => rw [hx] at this; simp at this
        | some p =>
          rw [hx] at this
          simp only [Option.map_some, Option.some.injEq] at this
          exact ⟨p.2, by rw [← this]⟩
      -- the value predicate
      let keep : Word → Bool := fun w => decide (remapTbl red m.pm.fuzzLimit m.pm.statesLen N (T w) ≠ emptyTbl N m.pm.fuzzLimit)
      have hkeep : ra.1.map Prod.fst = m.alive.filter keep := by
        rw [hr1]
        have aux : ∀ (l : List (Word × Nat)), (∀ w ci, (w, ci) ∈ l → (rc.1.getD ci 0 = 0 ↔ keep w = false)) →
            (((l.map fun p => (p.1, rc.1.getD p.2 0)).filter fun p => p.2 != 0).map Prod.fst) =
              (l.map Prod.fst).filter keep := by
          intro l hl
          induction l with
          | nil => rfl
          | cons p l ih =>
            obtain ⟨w, ci⟩ := p
            have h1 := hl w ci (by simp)
            have ih' := ih fun w ci hm => hl w ci (by simp [hm])
            by_cases hz : rc.1.getD ci 0 = 0
            · rw [List.map_cons, List.filter_cons_of_neg (by simpa using hz), ih', List.map_cons,
                List.filter_cons_of_neg (by simpa using h1.1 hz)]
            · have hk : keep w = true := by
                by_contra hcon; exact hz (h1.2 (by simpa using hcon))
              rw [List.map_cons, List.filter_cons_of_pos (by simpa using hz), List.map_cons, ih', List.map_cons,
                List.filter_cons_of_pos hk]
        rw [aux (m.alive.zip m.pm.wordClasses) (by
          intro w ci hm
          rw [(hcls' w ci hm).2]; simp [keep])]
        rw [List.map_fst_zip (by rw [h.wcl]; exact Nat.le_refl _)]
      have hsub : ∀ w ∈ ra.1.map Prod.fst, w ∈ m.alive := by
        intro w hw; rw [hkeep] at hw; exact (List.mem_filter.1 hw).1
      have hacc := fun ws h1 h2 h3 => reduced_acc (al := m.alive) (T := T) hred h.pos hlast h.range hlive h.dom ws h1 h2 h3
      have hdom' := reduced_dom (al := m.alive) (T := T) hred h.pos hlast h.range hlive h.dom
      rw [hN] at hdom'
      simp only [hN] at hacc
      have hacc' : ∀ ws : List Word, ws ≠ [] → ws.length ≤ maxDepth queue → (∀ w ∈ ws, w ∈ m.alive) →
          (PAcc (fun w => remapTbl red m.pm.fuzzLimit m.pm.statesLen N (T w)) (remapSet red m.pm.start) N m.pm.fuzzLimit ws ↔
            Matches e (charsOf ws)) := fun ws h1 h2 h3 => (hacc ws h1 h2 h3).trans (h.acc ws h1 h2 h3)
      refine ⟨_, true, keep, rfl, ⟨?_, h.fl, fun _ => ⟨fun w => remapTbl red m.pm.fuzzLimit m.pm.statesLen N (T w), ?_⟩⟩,
        hkeep, ?_, ?_, fun _ => Or.inr hcle', by simp, hcle, ?_⟩
      · apply hr3
        rw [hc1]
        intro p hp
        rcases List.mem_append.1 hp with hp | hp
        · simp at hp; rw [hp]
        · exact hc2 p hp
      · refine ⟨h.fl, ?_, ?_, ?_, ?_, ?_, ?_, ?_, ?_, ?_, fun w _ => remapTbl_shape _ _ _ _ _⟩
        · have := rho_lt red hlastn
          rw [hN] at this
          show 0 < N
          omega
        · have h0 := hr2 0
          rw [hc1] at h0
          simp only [List.cons_append, List.getElem?_cons_zero, Option.map_some] at h0
          cases hra : ra.2 with
          | nil => rw [hra] at h0; simp at h0
          | cons p rest =>
            rw [hra] at h0
            simp only [List.getElem?_cons_zero, Option.map_some, Option.some.injEq] at h0
            exact ⟨p.2, rest, by rw [← h0]⟩
        · simp
        · intro w ci' hm
          rw [zip_fst_snd, hr1, List.mem_filter, List.mem_map] at hm
          obtain ⟨⟨⟨w', ci⟩, hm1, hm2⟩, hm3⟩ := hm
          simp only [Prod.mk.injEq] at hm2
          obtain ⟨rfl, rfl⟩ := hm2
          exact hcls' _ _ hm1
        · intro s hs
          obtain ⟨d, _, hd, rfl⟩ := (remapSet_mem red _ s).1 hs
          rw [← hN]
          exact rho_lt red hd
        · intro w hw s f d hb
          have hb' := hb
          rw [← hN] at hb'
          obtain ⟨_, r, d', hr, hd, rfl, rfl, _⟩ := (reduced_bit hred (hlive w (hsub w hw)) s f d).1 hb'
          rw [← hN]
          exact ⟨rho_lt red hr, rho_lt red hd⟩
        · intro ws h1 h2 h3
          exact hacc' ws h1 h2 fun w hw => hsub w (h3 w hw)
        · rcases hdom' with ⟨h0, hd⟩ | hno
          · exact Or.inl ⟨h0, fun w hw => hd w (hsub w hw)⟩
          · exact Or.inr fun ws h1 h2 h3 => hno ws h1 h2 fun w hw => hsub w (h3 w hw)
        · intro ws h1 h2 hac
          have h2' : ∀ w ∈ ws, w ∈ m.alive := fun w hw => hsub w (h2 w hw)
          refine h.snd ws h1 h2' ?_
          rw [← hN] at hac
          exact reduced_back hred h.pos hlast ws (fun w hw => hlive w (h2' w hw)) hac
      · intro ws h1 h2 h3 hma w hw
        obtain ⟨s, k, _, _, hp⟩ := (hacc' ws h1 h2 h3).2 hma
        have := path_nonempty (n := N) (fl := m.pm.fuzzLimit) hp w hw
        simpa [keep] using this
      · intro _ ci hci
        obtain ⟨p, hp, rfl⟩ := List.mem_map.1 hci
        rw [hr1, List.mem_filter] at hp
        simpa using hp.2
      · intro hf w hw
        have hw1 : w ∈ m.alive.filter keep := by rw [← hkeep]; exact hw
        obtain ⟨hwal, hk⟩ := List.mem_filter.1 hw1
        obtain ⟨s, f, d, hb⟩ := (remapTbl_shape red m.pm.fuzzLimit m.pm.statesLen N (T w)).bit (by simpa [keep] using hk)
        rw [← hN] at hb
        obtain ⟨_, r, d', hr, hd, _, _, hb'⟩ := (reduced_bit hred (hlive w hwal) s f d).1 hb
        exact huse hf w hwal r f d' hb' (hred.alive_of_none hr).2 (hred.alive_of_none hd).2

end Noodle
