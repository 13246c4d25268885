import Verif.Proofs.Order
import Verif.Proofs.Chain
/-
From the optimised matchers to the phrase search.
-/
namespace Noodle
open Spec List

/-! ### Verdicts of the phrase matchers -/

theorem pmTbl_eq {e : Expr} {D : Nat} {pm : PM} {al : List Word} {T : Word → Tbl} (h : MB e D pm al T)
    (i : Nat) (hi : i < al.length) : pmTbl pm i = T al[i] := by
  have hi' : i < pm.wordClasses.length := by rw [h.wcl]; exact hi
  have hmem : (al[i], pm.wordClasses[i]) ∈ al.zip pm.wordClasses := by
    rw [List.mem_iff_getElem]
    exact ⟨i, by rw [List.length_zip]; omega, by simp⟩
  obtain ⟨⟨wc, hc⟩, _⟩ := h.cls _ _ hmem
  simp [pmTbl, List.getElem?_eq_getElem hi', hc]

theorem idxRows_eq {e : Expr} {D : Nat} {pm : PM} {al : List Word} {T : Word → Tbl} (h : MB e D pm al T) (fm : Nat)
    (p : List Nat) (hp : ∀ i ∈ p, i < al.length) :
    idxRows fm pm p = phraseRows fm pm.fuzzLimit T (rowsOf fm pm.start) (wordsOf al p) := by
  unfold idxRows phraseRows
  generalize rowsOf fm pm.start = r
  induction p generalizing r with
  | nil => rfl
  | cons i p ih =>
    have hi := hp i (by simp)
    have hw : wordsOf al (i :: p) = al[i] :: wordsOf al p := by
      simp [wordsOf, List.getElem?_eq_getElem hi]
    rw [hw, List.foldl_cons, List.foldl_cons, pmTbl_eq h i hi, ih (fun j hj => hp j (by simp [hj]))]

theorem success_iff {e : Expr} {D : Nat} {pm : PM} {al : List Word} {T : Word → Tbl} (h : MB e D pm al T) (fm : Nat)
    (hfm : pm.fuzzLimit ≤ fm) (p : List Nat) (hp : ∀ i ∈ p, i < al.length) (hne : p ≠ []) (hD : p.length ≤ D) :
    pm.hasSuccess (idxRows fm pm p) = true ↔ Matches e (charsOf (wordsOf al p)) := by
  have hfl : 0 < pm.fuzzLimit := by rw [h.fl]; omega
  have hlen := wordsOf_length al p hp
  rw [← h.acc (wordsOf al p) (by intro hc; rw [hc] at hlen; exact hne (List.length_eq_zero_iff.1 hlen.symm))
    (by omega) (by
      intro w hw
      obtain ⟨i, _, hi⟩ := List.mem_filterMap.1 hw
      exact List.mem_of_getElem? hi)]
  rw [hasSuccess_iff, idxRows_eq h fm p hp]
  have hr : ∀ g s, ((rowsOf fm pm.start).at g).testBit s = true → g < pm.fuzzLimit := by
    intro g s hb
    rw [rowsOf_at _ _ _ (by omega)] at hb
    by_cases hg : g = 0
    · omega
    · rw [if_neg hg] at hb; simp at hb
  constructor
  · rintro ⟨f, hf, hb⟩
    obtain ⟨f', k, s, h1, h2, h3, h4⟩ := (phraseRows_mem fm pm.fuzzLimit hfm T _ _ f _ hr).1 hb
    rw [rowsOf_at _ _ _ (by omega)] at h3
    by_cases hg : f' = 0
    · rw [if_pos hg] at h3
      exact ⟨s, k, h3, by omega, h4⟩
    · rw [if_neg hg] at h3; simp at h3
  · rintro ⟨s, k, h1, h2, h3⟩
    exact ⟨k, h2, (phraseRows_mem fm pm.fuzzLimit hfm T _ _ k _ hr).2
      ⟨0, k, s, by omega, h2, by rw [rowsOf_at _ _ _ (by omega), if_pos rfl]; exact h1, h3⟩⟩

theorem accB_iff {D : Nat} {A : List Word} {es : List Expr} {ms : List WM} (h : Forall₂ (PInv D A) es ms)
    (hA : A ≠ []) (hal : ∀ m ∈ ms, m.alive = A) (fm : Nat) (hfm : ∀ m ∈ ms, m.pm.fuzzLimit ≤ fm)
    (p : List Nat) (hp : ∀ i ∈ p, i < A.length) (hne : p ≠ []) (hD : p.length ≤ D) :
    accB fm (ms.map WM.pm) p = true ↔ MatchesAll es (wordsOf A p) := by
  unfold accB MatchesAll
  induction h with
  | nil => simp
  | @cons e m es ms h1 _ ih =>
    have hm := hal m (by simp)
    obtain ⟨T, hT⟩ := h1.1.body (by rw [hm]; exact hA)
    rw [hm] at hT
    rw [List.map_cons, List.all_cons, Bool.and_eq_true, ih (fun x hx => hal x (by simp [hx])) (fun x hx => hfm x (by simp [hx])),
      success_iff hT fm (hfm m (by simp)) p hp hne hD]
    simp

/-! ### The start of the phrase search -/

/-- What a freshly planned search is. -/
structure Started (es : List Expr) (A : List Word) (ps : PS) (c : Ctx) (ph : SearchPhase) (q : List SearchPhase) : Prop where
  ok : CtxOk c
  inv : SInv c ps ph q [0]
  wl : c.wl = A
  res : pendRes c ph q [0] = queueRes c.fm c.ms c.wl (ph :: q)

theorem foldr_max_le (l : List PM) (pm : PM) (h : pm ∈ l) : pm.fuzzLimit ≤ l.foldr (fun pm m => max pm.fuzzLimit m) 0 := by
  induction l with
  | nil => simp at h
  | cons x l ih =>
    rw [List.foldr_cons]
    rcases List.mem_cons.1 h with rfl | h
    · omega
    · have := ih h; omega

theorem tmax_le (l : List SearchPhase) (p : SearchPhase) (h : p ∈ l) : p.tranche ≤ l.foldr (fun p m => max p.tranche m) 0 := by
  induction l with
  | nil => simp at h
  | cons x l ih =>
    rw [List.foldr_cons]
    rcases List.mem_cons.1 h with rfl | h
    · omega
    · have := ih h; omega

theorem totalSize_ne (alive : List Word) (p : SearchPhase) : totalSize alive p = 0 ↔ trancheCount alive p.tranche = 0 := by
  unfold totalSize
  split
  · next h => simp [h]
  · next h =>
    have : 0 < trancheCum alive p.tranche := by
      apply Nat.lt_of_lt_of_le (Nat.pos_of_ne_zero h)
      unfold trancheCount trancheCum
      apply List.countP_mono_left
      intro x _ hx
      simp at hx ⊢; omega
    have hp := Nat.pow_pos (n := p.depth % 2 ^ 32) this
    constructor
    · intro hc; omega
    · intro hc; exact absurd hc h

theorem mkPhrase_spec {es : List Expr} {A0 : List Word} {depth : Nat} {o : OptOut} (hs : TrSorted A0) (hq : o.queue ≠ [])
    (hQ : Forall₂ (QInv (maxDepth o.queue) o.alive) es o.ms) (keep : Word → Bool) (hA : o.alive = A0.filter keep)
    (G : Nat → Bool)
    (hqq : o.queue = (initialQueue depth (dedup (A0.map Word.tranche))).filter fun p => G p.depth) :
    (mkPhrase o = .ok none ∧ o.alive = []) ∨
    (o.alive ≠ [] ∧ ∃ ps c ph q, mkPhrase o = .ok (some ps) ∧ Started es o.alive ps c ph q ∧ c.ms = o.ms.map WM.pm ∧
      (∀ m ∈ o.ms, m.pm.fuzzLimit ≤ c.fm) ∧
      (pendRes c ph q [0] ~ (List.range' 2 (depth - 1)).flatMap fun d =>
        if G d then (tups o.alive.length d []).filter (accB c.fm c.ms) else []) ∧
      (depth < 2 ^ 32 → (pendRes c ph q [0]).Pairwise fun p p' => ¬ Due c.wl p' p)) := by
  obtain ⟨ms, A, queue, gu⟩ := o
  simp only at hq hQ hA hqq ⊢
  obtain ⟨t1, t2, t3⟩ := tranches_spec A0 hs
  have hsA : TrSorted A := by rw [hA]; exact hs.filter _
  unfold mkPhrase
  simp only
  cases hAc : A with
  | nil => left; exact ⟨rfl, rfl⟩
  | cons w0 A1 =>
    right
    refine ⟨by simp, ?_⟩
    simp only
    rw [← hAc]
    have hAne : A ≠ [] := by rw [hAc]; simp
    rw [if_neg hq]
    have htrA : ∀ w ∈ A, w.tranche ∈ dedup (A0.map Word.tranche) := by
      intro w hw
      rw [hA] at hw
      exact t2 w (List.mem_filter.1 hw).1
    -- every tranche occurs in the queue
    obtain ⟨p0, hp0⟩ := List.exists_mem_of_ne_nil queue hq
    have hin : ∀ t ∈ dedup (A0.map Word.tranche), (⟨p0.depth, t, 0⟩ : SearchPhase) ∈ queue := by
      intro t ht
      rw [hqq, List.mem_filter] at hp0 ⊢
      refine ⟨?_, hp0.2⟩
      obtain ⟨d, hd, hp⟩ := List.mem_flatMap.1 hp0.1
      obtain ⟨t', _, rfl⟩ := List.mem_map.1 hp
      exact List.mem_flatMap.2 ⟨d, hd, List.mem_map.2 ⟨t, ht, rfl⟩⟩
    rw [if_neg (by
      simp only [List.any_eq_true, decide_eq_true_eq, not_exists, not_and, Nat.not_lt]
      intro w hw
      exact tmax_le queue _ (hin _ (htrA w hw)))]
    rw [if_neg (by
      simp only [List.any_eq_true, List.mem_map, Bool.and_eq_true, beq_iff_eq, bne_iff_ne, not_exists, not_and]
      rintro p ⟨x, hx, rfl⟩ h1
      simp only [Ne, not_not] at h1 ⊢
      exact (totalSize_ne A x).1 h1)]
    generalize hq3 : sortPhases ((queue.map fun p => { p with totalSize := totalSize A p }).filter fun p => p.totalSize != 0) = q3
    have hperm : q3 ~ ((queue.map fun p => { p with totalSize := totalSize A p }).filter fun p => trancheCount A p.tranche != 0) := by
      rw [← hq3]
      refine (sortPhases_perm _).trans (Perm.of_eq ?_)
      apply List.filter_congr
      intro p hp
      obtain ⟨x, _, rfl⟩ := List.mem_map.1 hp
      have := totalSize_ne A x
      rw [Bool.eq_iff_iff, bne_iff_ne, bne_iff_ne]
      exact not_congr this
    have hmem3 : ∀ p ∈ q3, ∃ x ∈ queue, p = { x with totalSize := totalSize A x } ∧ trancheCount A x.tranche ≠ 0 := by
      intro p hp
      have := hperm.subset hp
      rw [List.mem_filter] at this
      obtain ⟨x, hx, rfl⟩ := List.mem_map.1 this.1
      exact ⟨x, hx, rfl, by simpa using this.2⟩
    have hq3ne : q3 ≠ [] := by
      intro hc
      rw [hc] at hperm
      have hnil := hperm.symm.eq_nil
      rw [List.filter_eq_nil_iff] at hnil
      have hw0 : w0 ∈ A := by rw [hAc]; simp
      have := hnil _ (List.mem_map_of_mem (hin _ (htrA w0 hw0)))
      simp only [bne_iff_ne, Ne, not_not, trancheCount, List.countP_eq_zero] at this
      simpa using this w0 hw0
    rw [if_neg hq3ne]
    obtain ⟨ph, q, hcons⟩ : ∃ ph q, q3 = ph :: q := by
      cases q3 with
      | nil => exact absurd rfl hq3ne
      | cons a b => exact ⟨a, b, rfl⟩
    generalize hfm : (ms.map WM.pm).foldr (fun pm m => max pm.fuzzLimit m) 0 = fm
    have hfml : ∀ m ∈ ms, m.pm.fuzzLimit ≤ fm := by
      intro m hm
      rw [← hfm]; exact foldr_max_le _ _ (List.mem_map_of_mem hm)
    have hok : CtxOk ⟨fm, ms.map WM.pm, A⟩ := by
      refine ⟨?_, hsA⟩
      intro pm hpm
      obtain ⟨m, hm, rfl⟩ := List.mem_map.1 hpm
      refine ⟨hfml m hm, ?_⟩
      intro i hi
      have key : ∀ m ∈ ms, ∃ e, QInv (maxDepth queue) A e m :=
        forall₂_mem_right (P := fun m => ∃ e, QInv (maxDepth queue) A e m) hQ fun e m hm => ⟨e, hm⟩
      obtain ⟨e, ⟨h1, h2⟩, h3⟩ := key m hm
      have hmal : m.alive ≠ [] := by
        intro hc; rw [hc] at h2; exact hAne (by simpa using h2)
      obtain ⟨T, hT⟩ := h1.body hmal
      have hi' : i < m.alive.length := Nat.lt_of_lt_of_le hi h2.length_le
      have hi'' : i < m.pm.wordClasses.length := by rw [hT.wcl]; exact hi'
      have hz : (m.alive[i], m.pm.wordClasses[i]) ∈ m.alive.zip m.pm.wordClasses := by
        rw [List.mem_iff_getElem]
        exact ⟨i, by rw [List.length_zip]; omega, by simp⟩
      obtain ⟨⟨wc, hc⟩, _⟩ := hT.cls _ _ hz
      exact ⟨m.pm.wordClasses[i], _, wc, List.getElem?_eq_getElem hi'', h3 hAne _ (List.getElem_mem hi''), hc⟩
    have hcumne : ∀ p ∈ q3, 0 < trancheCum A p.tranche := by
      intro p hp
      obtain ⟨x, _, rfl, hx⟩ := hmem3 p hp
      apply Nat.lt_of_lt_of_le (Nat.pos_of_ne_zero hx)
      unfold trancheCount trancheCum
      apply List.countP_mono_left
      intro x _ hx
      simp at hx ⊢; omega
    have hdep : ∀ p ∈ q3, 2 ≤ p.depth := by
      intro p hp
      obtain ⟨x, hx, rfl, _⟩ := hmem3 p hp
      rw [hqq, List.mem_filter] at hx
      obtain ⟨d, hd, hp⟩ := List.mem_flatMap.1 hx.1
      obtain ⟨t', _, rfl⟩ := List.mem_map.1 hp
      exact (List.mem_range'_1.1 hd).1
    have hph : ph ∈ q3 := by rw [hcons]; simp
    have hcph := hcumne ph hph
    have hdph := hdep ph hph
    refine ⟨_, ⟨fm, ms.map WM.pm, A⟩, ph, q, rfl, ⟨hok, ?_, rfl, ?_⟩, rfl, hfml, ?_, ?_⟩
    · exact
        { ms := rfl
          wl := rfl
          queue := hcons
          depth := by
            intro p hp
            have h1 := hdep p hp
            have h2 := le_maxDepth q3 p hp
            simp only [List.length_cons, List.length_replicate]
            omega
          ne := hcumne
          len := rfl
          lt := by show 0 < ph.depth; omega
          idx := by intro j hj; simp at hj; subst hj; exact hcph
          shape := by
            intro l hl
            have hl0 : (Layer.new (ms.map WM.pm) fm w0.tranche).table.length = (ms.map WM.pm).length ∧
                ∀ r ∈ (Layer.new (ms.map WM.pm) fm w0.tranche).table, r.length = fm := by
              refine ⟨by simp [Layer.new], ?_⟩
              intro r hr
              simp only [Layer.new, List.mem_map] at hr
              obtain ⟨_, _, rfl⟩ := hr
              simp
            rcases List.mem_cons.1 hl with rfl | hl
            · refine ⟨by simp, ?_⟩
              intro r hr
              simp only [List.mem_map] at hr
              obtain ⟨_, _, rfl⟩ := hr
              simp [rowsOf]
            · rw [List.eq_of_mem_replicate hl]; exact hl0
          lay := by
            intro a b j hab
            have : a = [] ∧ j = 0 := by
              cases a with
              | nil => simp at hab; exact ⟨rfl, hab.1.symm⟩
              | cons x a => simp at hab
            obtain ⟨rfl, rfl⟩ := this
            simp only [List.length_nil, List.getElem?_cons_zero, Layer.new]
            congr 2
            simp [maxTr, trAt, hAc]
          part := by
            intro _ p hp _
            rw [pendT_start _ _ hcph (by omega)]; exact hp }
    · simp only [pendRes, queueRes, List.flatMap_cons, phaseRes]
      rw [pendT_start _ _ hcph (by omega)]
    · have := queue_perm fm (ms.map WM.pm) A hsA (dedup (A0.map Word.tranche)) t1 htrA depth G q3 (by
        rw [← hqq]; exact hperm)
      rw [hcons] at this
      refine Perm.trans (Perm.of_eq ?_) this
      simp only [pendRes, queueRes, List.flatMap_cons, phaseRes]
      rw [pendT_start _ _ hcph (by omega)]
    · intro hlim
      have ho := queue_order A depth _ (dedup_sorted _ (List.pairwise_map.2 hs)).1 G hlim
      rw [← hqq, hq3, hcons] at ho
      have hr := queueRes_order fm (ms.map WM.pm) A (ph :: q) (by rw [← hcons]; exact hdep) ho
      have he : pendRes ⟨fm, ms.map WM.pm, A⟩ ph q [0] = queueRes fm (ms.map WM.pm) A (ph :: q) := by
        simp only [pendRes, queueRes, List.flatMap_cons, phaseRes]
        rw [pendT_start _ _ hcph (by omega)]
      rw [he]
      exact hr

/-! ### Planning -/

/-- The word is alive in every matcher. -/
def aliveAll (es : List Expr) (w : Word) : Bool := es.all fun e => aliveB e false w.chars

theorem sync_last {maxLen : Nat} (D : Nat) (es : List Expr) (hes : ∀ e ∈ es, WF e) :
    ∀ (ms : List WM) (B : List Word), Sync false maxLen es ms B →
      Forall₂ (PInv D (B.filter (aliveAll es))) es ms ∧
      (es ≠ [] → ∃ m, ms.getLast? = some m ∧ m.alive = B.filter (aliveAll es)) ∧
      msize ms = (es.map Expr.len).sum := by
  induction es with
  | nil =>
    intro ms B h
    cases ms with
    | nil => exact ⟨Forall₂.nil, fun h => absurd rfl h, rfl⟩
    | cons m ms => simp [Sync] at h
  | cons e es ih =>
    intro ms B h
    cases ms with
    | nil => simp [Sync] at h
    | cons m ms =>
      obtain ⟨h1, h2⟩ := h
      obtain ⟨k1, k2, k3⟩ := ih (fun e he => hes e (by simp [he])) ms m.alive h2
      have hal := h1.alive
      have hB : m.alive.filter (aliveAll es) = B.filter (aliveAll (e :: es)) := by
        rw [hal, List.filter_filter]
        apply List.filter_congr
        intro w _
        simp only [aliveAll, List.all_cons]
        rw [Bool.and_comm]
      rw [hB] at k1 k2
      refine ⟨Forall₂.cons ⟨MInv.init (hes e (by simp)) h1.toWMInv D, by rw [← hB]; exact List.filter_sublist⟩ k1, ?_, ?_⟩
      · intro _
        by_cases hes0 : es = []
        · subst hes0
          cases k1
          refine ⟨m, rfl, ?_⟩
          rw [← hB]; exact (List.filter_eq_self.2 fun _ _ => rfl).symm
        · obtain ⟨m', h3, h4⟩ := k2 hes0
          refine ⟨m', ?_, h4⟩
          cases ms with
          | nil => simp at h3
          | cons a b => simpa using h3
      · simp only [msize, List.map_cons, List.sum_cons] at k3 ⊢
        rw [k3, h1.pmLen]

theorem alive_of_phrase (e : Expr) (hw : WF e) (ws : List Word) (hne : ws ≠ []) (h : Matches e (charsOf ws)) :
    ∀ w ∈ ws, aliveB e false w.chars = true := by
  obtain ⟨s, k, h1, h2, h3⟩ := (pacc_iff_matches e hw ws hne).2 h
  intro w hw'
  obtain ⟨a, b, rfl⟩ := List.append_of_mem hw'
  obtain ⟨m, k1, k2, _, h5, hk⟩ := (path_append _ _ _ _ _ _).1 h3
  cases h5 with
  | @cons _ m' _ _ _ f k' hb _ =>
    have hml := wordTbl_bit_src e _ _ _ _ hb
    rw [canonT, wordTbl_row e _ _ hml] at hb
    exact alive_of_cum e false w.chars m f m' (by simpa [nStart] using hml) (by omega) ⟨f, Nat.le_refl _, hb⟩

theorem depths_initial (depth : Nat) (tr : List Nat) : depths (initialQueue depth tr) ≤ depth - 1 := by
  unfold depths
  have : ((initialQueue depth tr).map SearchPhase.depth).toFinset ⊆ (List.range' 2 (depth - 1)).toFinset := by
    intro d hd
    simp only [initialQueue, List.mem_toFinset, List.mem_map, List.mem_flatMap] at hd ⊢
    obtain ⟨p, ⟨d', h1, t, _, rfl⟩, rfl⟩ := hd
    exact h1
  refine (Finset.card_le_card this).trans ((List.toFinset_card_le _).trans ?_)
  simp

/-- The result of planning. -/
theorem plan_spec {es : List Expr} (hne : es ≠ []) (hes : ∀ e ∈ es, WF e) {maxLen : Nat} {ms : List WM} {wl : List Word}
    (hsync : Sync false maxLen es ms wl) (hsort : TrSorted wl) (depth : Nat) :
    ((es.map Expr.len).sum + depth ≤ 97 → planGaveUp ms depth = false) ∧
    ((plan ms depth = .ok none ∧ longer es wl depth = []) ∨
    ∃ ps c ph q, plan ms depth = .ok (some ps) ∧ CtxOk c ∧ c.wl ≠ [] ∧ c.wl <+ wl ∧ SInv c ps ph q [0] ∧
      (∀ p ∈ pendRes c ph q [0], 2 ≤ p.length ∧ p.length ≤ depth ∧ ∀ i ∈ p, i < c.wl.length) ∧
      (pendRes c ph q [0]).Nodup ∧
      (depth < 2 ^ 32 → (pendRes c ph q [0]).Pairwise fun p p' => ¬ Due c.wl p' p) ∧
      (planGaveUp ms depth = false ∨ es.length = 1 → (pendRes c ph q [0]).map (wordsOf c.wl) ~ longer es wl depth)) := by
  obtain ⟨m, hm, hmal⟩ := (sync_last 0 es hes ms wl hsync).2.1 hne
  have hsz := (sync_last 0 es hes ms wl hsync).2.2
  generalize hA0 : wl.filter (aliveAll es) = A0 at hmal
  have hsA0 : TrSorted A0 := by rw [← hA0]; exact hsort.filter _
  obtain ⟨t1, t2, t3⟩ := tranches_spec A0 hsA0
  generalize hq0 : initialQueue depth (dedup (A0.map Word.tranche)) = q0
  -- the phrases to preserve
  let M : List Word → Prop := fun ws => 2 ≤ ws.length ∧ ws.length ≤ depth ∧ (∀ w ∈ ws, w ∈ wl) ∧ MatchesAll es ws
  have hMal : ∀ ws, M ws → ∀ w ∈ ws, w ∈ A0 := by
    rintro ws ⟨h1, _, h3, h4⟩ w hw
    rw [← hA0, List.mem_filter]
    refine ⟨h3 w hw, ?_⟩
    rw [aliveAll, List.all_eq_true]
    intro e he
    exact alive_of_phrase e (hes e he) ws (by rintro rfl; simp at h1) (h4 e he) w hw
  have hL : LInv es M A0 q0 ms A0 q0 := by
    refine ⟨?_, ⟨fun _ => true, (List.filter_eq_self.2 fun _ _ => rfl).symm⟩,
      ⟨fun _ => true, (List.filter_eq_self.2 fun _ _ => rfl).symm⟩, ?_⟩
    · have := (sync_last (maxDepth q0) es hes ms wl hsync).1
      rw [hA0] at this; exact this
    · intro ws hws
      have hal := hMal ws hws
      refine ⟨hal, ?_⟩
      obtain ⟨h1, h2, _, _⟩ := hws
      obtain ⟨w, hw⟩ := List.exists_mem_of_length_pos (show 0 < ws.length by omega)
      refine ⟨⟨ws.length, w.tranche, 0⟩, ?_, rfl⟩
      rw [← hq0, initialQueue, List.mem_flatMap]
      exact ⟨ws.length, List.mem_range'_1.2 (by omega), List.mem_map.2 ⟨_, t2 w (hal w hw), rfl⟩⟩
  obtain ⟨out, ho, hspec⟩ := optimizeLoop_spec (es := es) (M := M) (A0 := A0) (q0 := q0)
    (fun ws hws => ⟨by rintro rfl; have := hws.1; simp at this, hws.2.2.2⟩) 100 ms A0 q0 hL
  have hgave : planGaveUp ms depth = match (generalizing := false) out with | some o => o.gaveUp | none => false := by
    unfold planGaveUp
    rw [hm]
    simp only
    rw [hmal, hq0, ho]
    cases out <;> rfl
  -- matching phrases over the kept words are all the matching phrases
  have hfoundM : ∀ d, 2 ≤ d → d ≤ depth → ∀ ws ∈ found es wl d, M ws ∧ ws.length = d := by
    intro d h1 h2 ws hws
    unfold found at hws
    rw [List.mem_filter, mem_phrases] at hws
    obtain ⟨⟨h3, h4⟩, h5⟩ := hws
    exact ⟨⟨by omega, by omega, h4, by simpa using h5⟩, h3⟩
  have hplan : plan ms depth = match (generalizing := false) out with | none => .ok none | some o => mkPhrase o := by
    unfold plan
    rw [hm]
    simp only
    rw [hmal, if_neg (by simpa using t3), hq0, ho]
    cases out <;> rfl
  rw [hgave, hplan]
  cases out with
  | none =>
    refine ⟨fun _ => rfl, Or.inl ⟨rfl, ?_⟩⟩
    unfold longer
    rw [List.flatMap_eq_nil_iff]
    intro d hd
    obtain ⟨h1, h2⟩ := List.mem_range'_1.1 hd
    rw [List.eq_nil_iff_forall_not_mem]
    intro ws hws
    exact hspec ws (hfoundM d h1 (by omega) ws hws).1
  | some o =>
    obtain ⟨s1, s2, s3, s4, s5⟩ := hspec
    obtain ⟨keep, hkeep⟩ := s2.words
    obtain ⟨G, hG⟩ := s2.queue
    refine ⟨fun hb => s5 ?_, ?_⟩
    · have := depths_initial depth (dedup (A0.map Word.tranche))
      rw [hq0] at this
      have := stage_le ms A0
      omega
    · rcases mkPhrase_spec hsA0 s1 s3 keep hkeep G (by rw [hq0]; exact hG) with ⟨h1, h2⟩ | ⟨h0, ps, c, ph, q, h1, h2, h3, h4, h5, h6⟩
      · refine Or.inl ⟨h1, ?_⟩
        unfold longer
        rw [List.flatMap_eq_nil_iff]
        intro d hd
        obtain ⟨h3, h4⟩ := List.mem_range'_1.1 hd
        rw [List.eq_nil_iff_forall_not_mem]
        intro ws hws
        obtain ⟨hM, _⟩ := hfoundM d h3 (by omega) ws hws
        have hal := (s2.all ws hM).1
        rw [h2] at hal
        obtain ⟨w, hw⟩ := List.exists_mem_of_length_pos (show 0 < ws.length by have := hM.1; omega)
        exact absurd (hal w hw) (by simp)
      · refine Or.inr ⟨ps, c, ph, q, h1, h2.ok, by rw [h2.wl]; exact h0, ?_, h2.inv, ?_, ?_, h6, ?_⟩
        · rw [h2.wl, hkeep, ← hA0, List.filter_filter]; exact List.filter_sublist
        · intro p hp
          have := h5.subset hp
          simp only [List.mem_flatMap] at this
          obtain ⟨d, hd, hp⟩ := this
          obtain ⟨hd2, hd3⟩ := List.mem_range'_1.1 hd
          split at hp
          · obtain ⟨s, hs1, hs2, hs3⟩ := (mem_tups _ _ _ _).1 (List.mem_filter.1 hp).1
            simp only [List.nil_append] at hs3
            subst hs3
            rw [h2.wl]
            exact ⟨by omega, by omega, hs2⟩
          · simp at hp
        · rw [h5.nodup_iff, List.nodup_flatMap]
          refine ⟨?_, ?_⟩
          · intro d _
            split
            · exact (tups_nodup _ _ _).filter _
            · simp
          · apply (List.nodup_range' (s := 2) (n := depth - 1)).imp
            intro a b hab x hx hy
            simp only at hx hy
            split at hx <;> split at hy
            · obtain ⟨s, hs1, _, hs3⟩ := (mem_tups _ _ _ _).1 (List.mem_filter.1 hx).1
              obtain ⟨s', hs1', _, hs3'⟩ := (mem_tups _ _ _ _).1 (List.mem_filter.1 hy).1
              simp only [List.nil_append] at hs3 hs3'
              subst hs3 hs3'
              exact hab (hs1.symm.trans hs1')
            all_goals simp_all
        · intro hg
          have hconv := s4 hg
          rw [h2.wl]
          refine (h5.map (wordsOf o.alive)).trans (Perm.of_eq ?_)
          rw [List.map_flatMap]
          unfold longer
          apply List.flatMap_congr
          intro d hd
          obtain ⟨hd2, hd3⟩ := List.mem_range'_1.1 hd
          have hfo : found es o.alive d = found es wl d := by
            rw [hkeep, ← hA0, List.filter_filter]
            apply found_filter
            intro ws hlen hin hma w hw
            have := (s2.all ws ⟨by omega, by omega, hin, hma⟩).1 w hw
            rw [hkeep, ← hA0, List.filter_filter, List.mem_filter] at this
            exact this.2
          rw [← hfo]
          by_cases hGd : G d = true
          · rw [if_pos hGd]
            unfold found
            rw [← List.map_id (phrases o.alive d)]
            have htw := tups_words o.alive d []
            have htw' : (tups o.alive.length d []).map (wordsOf o.alive) = phrases o.alive d := by
              rw [htw]; simp [wordsOf]
            rw [List.map_id, ← htw', List.filter_map]
            congr 1
            apply List.filter_congr
            intro p hp
            obtain ⟨s, hs1, hs2, hs3⟩ := (mem_tups _ _ _ _).1 hp
            simp only [List.nil_append] at hs3
            subst hs3
            have hdm : d ≤ maxDepth o.queue := by
              rw [hG, ← hq0]
              obtain ⟨w, hw⟩ := List.exists_mem_of_ne_nil _ h0
              rw [hkeep, List.mem_filter] at hw
              refine le_maxDepth _ ⟨d, w.tranche, 0⟩ ?_
              rw [List.mem_filter]
              exact ⟨List.mem_flatMap.2 ⟨d, hd, List.mem_map.2 ⟨_, t2 w hw.1, rfl⟩⟩, hGd⟩
            have := accB_iff (s3.imp fun e m hm => hm.1) h0 hconv c.fm h4 p hs2
              (by rintro rfl; simp at hs1; omega) (by omega)
            rw [h3, Bool.eq_iff_iff, this]
            simp
          · rw [if_neg hGd, List.map_nil]
            symm
            rw [hfo, List.eq_nil_iff_forall_not_mem]
            intro ws hws
            obtain ⟨hM, hlen⟩ := hfoundM d hd2 (by omega) ws hws
            obtain ⟨p, hp, hpd⟩ := (s2.all ws hM).2
            rw [hG, List.mem_filter, hpd, hlen] at hp
            exact hGd hp.2

end Noodle
