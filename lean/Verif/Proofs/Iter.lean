import Verif.Proofs.Search
/-
One iteration of the phrase search, and the whole loop.
-/
namespace Noodle

theorem modify_get {α} (l : List α) (i j : Nat) (f : α → α) :
    (l.modify i f)[j]? = if i = j then (l[j]?).map f else l[j]? := by
  rw [List.getElem?_modify]
  split <;> cases l[j]? <;> simp_all

/-- The state in which `advance` is called. -/
structure AInv (c : Ctx) (ps : PS) (ph : SearchPhase) (q : List SearchPhase) (rs : List Nat) : Prop where
  ms : ps.ms = c.ms
  wl : ps.wl = c.wl
  queue : ps.queue = ph :: q
  depth : ∀ p ∈ ps.queue, 0 < p.depth ∧ p.depth < ps.layers.length
  ne : ∀ p ∈ ps.queue, 0 < trancheCum c.wl p.tranche
  len : rs.length ≤ ph.depth
  idx : ∀ i ∈ rs, i < trancheCum c.wl ph.tranche
  shape : ∀ l ∈ ps.layers, l.table.length = c.ms.length ∧ ∀ r ∈ l.table, r.length = c.fm
  lay : ∀ (a b : List Nat) (i : Nat), rs.reverse = a ++ i :: b →
    ps.layers[a.length]? = some ⟨i, maxTr c.wl (a ++ [i]), c.ms.map fun pm => idxRows c.fm pm a⟩
  part : ps.part = false → ∀ p ∈ tups (trancheCum c.wl ph.tranche) ph.depth [],
    liveB c.fm c.ms p = true → p ∈ restT (trancheCum c.wl ph.tranche) ph.depth rs

theorem modify_shape {c : Ctx} {ls : List Layer}
    (h : ∀ l ∈ ls, l.table.length = c.ms.length ∧ ∀ r ∈ l.table, r.length = c.fm) (k : Nat) (f : Layer → Layer)
    (hf : ∀ l, (l.table.length = c.ms.length ∧ ∀ r ∈ l.table, r.length = c.fm) →
      (f l).table.length = c.ms.length ∧ ∀ r ∈ (f l).table, r.length = c.fm) :
    ∀ l ∈ ls.modify k f, l.table.length = c.ms.length ∧ ∀ r ∈ l.table, r.length = c.fm := by
  intro l hl
  obtain ⟨j, hj, rfl⟩ := List.getElem_of_mem hl
  have h1 : (ls.modify k f)[j]? = some (ls.modify k f)[j] := List.getElem?_eq_getElem hj
  rw [modify_get] at h1
  have hj' : j < ls.length := by simpa using hj
  rw [List.getElem?_eq_getElem hj'] at h1
  have hl' := h _ (List.getElem_mem hj')
  split at h1
  · simp only [Option.map_some, Option.some.injEq] at h1; rw [← h1]; exact hf _ hl'
  · simp only [Option.some.injEq] at h1; rw [← h1]; exact hl'

/-- What `endPhase` is given. -/
structure EInv (c : Ctx) (ps : PS) (ph : SearchPhase) (q : List SearchPhase) : Prop where
  ms : ps.ms = c.ms
  wl : ps.wl = c.wl
  queue : ps.queue = ph :: q
  depth : ∀ p ∈ ps.queue, 0 < p.depth ∧ p.depth < ps.layers.length
  ne : ∀ p ∈ ps.queue, 0 < trancheCum c.wl p.tranche
  shape : ∀ l ∈ ps.layers, l.table.length = c.ms.length ∧ ∀ r ∈ l.table, r.length = c.fm
  zero : ∃ i m, ps.layers[0]? = some ⟨i, m, c.ms.map fun pm => idxRows c.fm pm []⟩
  part : ps.part = false → ∀ p ∈ tups (trancheCum c.wl ph.tranche) ph.depth [], liveB c.fm c.ms p = false

/-- A layer is exhausted, or the next word at this layer is taken. -/
theorem advance_spec {c : Ctx} (hc : CtxOk c) {ph : SearchPhase} {q : List SearchPhase} (below : List Nat) :
    ∀ {ps : PS} (i : Nat), AInv c ps ph q (i :: below) →
    (∃ ps' rs', advance ps ph.tranche below.length = .next ps' ∧ SInv c ps' ph q rs' ∧
        restT (trancheCum c.wl ph.tranche) ph.depth (i :: below) = pendT (trancheCum c.wl ph.tranche) ph.depth rs' ∧
        restC (trancheCum c.wl ph.tranche) ph.depth (i :: below) = pendC (trancheCum c.wl ph.tranche) ph.depth rs') ∨
    (∃ ps', advance ps ph.tranche below.length = endPhase ps' ∧ EInv c ps' ph q ∧
        restT (trancheCum c.wl ph.tranche) ph.depth (i :: below) = [] ∧
        ∀ j ∈ i :: below, j + 1 = trancheCum c.wl ph.tranche) := by
  induction below with
  | nil =>
    intro ps i h
    have hl0 := h.lay [] [] i (by simp)
    simp only [List.length_nil] at hl0
    generalize hls : ps.layers.modify 0 (fun l => { l with wordIndex := l.wordIndex + 1 }) = ls
    have hls0 : ls[0]? = some ⟨i + 1, maxTr c.wl ([] ++ [i]), c.ms.map fun pm => idxRows c.fm pm []⟩ := by
      rw [← hls, modify_get, if_pos rfl, hl0]; rfl
    have hlen : ls.length = ps.layers.length := by rw [← hls]; simp
    have hshape : ∀ l ∈ ls, l.table.length = c.ms.length ∧ ∀ r ∈ l.table, r.length = c.fm := by
      rw [← hls]; exact modify_shape h.shape _ _ (fun l hl => hl)
    have hi := h.idx i (by simp)
    have hend : i + 1 ≥ trancheCum c.wl ph.tranche → EInv c { ps with layers := ls, li := 0 } ph q ∧
        restT (trancheCum c.wl ph.tranche) ph.depth [i] = [] ∧ ∀ j ∈ [i], j + 1 = trancheCum c.wl ph.tranche := by
      intro hge
      have hrest : restT (trancheCum c.wl ph.tranche) ph.depth [i] = [] := by
        rw [restT_up _ _ _ _ hge]; rfl
      refine ⟨⟨h.ms, h.wl, h.queue, ?_, h.ne, hshape, ⟨_, _, hls0⟩, ?_⟩, hrest, ?_⟩
      · simp only [hlen]; exact h.depth
      · intro hp p hpm
        cases hlv : liveB c.fm c.ms p with
        | false => rfl
        | true =>
          have := h.part hp p hpm hlv
          rw [hrest] at this; simp at this
      · intro j hj; simp at hj; subst hj; omega
    simp only [List.length_nil, advance, hls, hls0, Option.map_some, Option.getD_some, h.wl]
    cases hw : c.wl[i + 1]? with
    | none =>
      right
      have hge : c.wl.length ≤ i + 1 := List.getElem?_eq_none_iff.1 hw
      have := cum_le c.wl ph.tranche
      exact ⟨_, rfl, by
        have := hend (by omega)
        simpa only [h.wl] using this⟩
    | some w =>
      have hlt : i + 1 < c.wl.length := (List.getElem?_eq_some_iff.1 hw).1
      have htr : trAt c.wl (i + 1) = w.tranche := by simp [trAt, hw]
      by_cases ht : ph.tranche < w.tranche
      · right
        have hge : ¬ i + 1 < trancheCum c.wl ph.tranche := by
          rw [cum_iff hc.sorted, htr]; omega
        refine ⟨_, by simp only [ht, if_true]; rfl, ?_⟩
        have := hend (by omega)
        simpa only [h.wl] using this
      · left
        have hlt' : i + 1 < trancheCum c.wl ph.tranche := by
          rw [cum_iff hc.sorted, htr]; omega
        refine ⟨_, [i + 1], by simp only [ht, if_false]; rfl, ?_, restT_next _ _ _ _ hlt', restC_next _ _ _ _ hlt'⟩
        exact
          { ms := h.ms
            wl := rfl
            queue := h.queue
            depth := by simp only [List.length_modify, hlen]; exact h.depth
            ne := h.ne
            len := rfl
            lt := by have := h.depth ph (by rw [h.queue]; simp); exact this.1
            idx := by intro j hj; simp at hj; subst hj; exact hlt'
            shape := modify_shape hshape _ _ (fun l hl => hl)
            lay := by
              intro a b j hab
              have : a = [] ∧ j = i + 1 := by
                cases a with
                | nil => simp at hab; exact ⟨rfl, hab.1.symm⟩
                | cons x a => simp at hab
              obtain ⟨rfl, rfl⟩ := this
              simp only [List.length_nil, modify_get, if_true, hls0, Option.map_some]
              congr 2
              have hm : trAt c.wl i ≤ trAt c.wl (i + 1) := hc.sorted.trAt (by omega) hlt
              simp [maxTr, htr] at hm ⊢; omega
            part := by
              intro hp p hpm hlv
              rw [← restT_next _ _ _ _ hlt']
              exact h.part hp p hpm hlv }
  | cons k below ih =>
    intro ps i h
    have hl0 := h.lay (k :: below).reverse [] i (by simp)
    simp only [List.length_reverse] at hl0
    generalize hls : ps.layers.modify (below.length + 1) (fun l => { l with wordIndex := l.wordIndex + 1 }) = ls
    have hls0 : ls[below.length + 1]? = some ⟨i + 1, maxTr c.wl ((k :: below).reverse ++ [i]),
        c.ms.map fun pm => idxRows c.fm pm (k :: below).reverse⟩ := by
      rw [← hls, modify_get, if_pos rfl]
      rw [show below.length + 1 = (k :: below).length from rfl, hl0]; rfl
    have hlen : ls.length = ps.layers.length := by rw [← hls]; simp
    have hshape : ∀ l ∈ ls, l.table.length = c.ms.length ∧ ∀ r ∈ l.table, r.length = c.fm := by
      rw [← hls]; exact modify_shape h.shape _ _ (fun l hl => hl)
    have hi := h.idx i (by simp)
    have hlow : ∀ (a b : List Nat) (j : Nat), (k :: below).reverse = a ++ j :: b →
        ls[a.length]? = some ⟨j, maxTr c.wl (a ++ [j]), c.ms.map fun pm => idxRows c.fm pm a⟩ := by
      intro a b j hab
      have hal : a.length < below.length + 1 := by
        have := congrArg List.length hab
        simp at this; omega
      rw [← hls, modify_get, if_neg (by omega)]
      refine h.lay a (b ++ [i]) j ?_
      rw [List.reverse_cons, hab]; simp
    have hup : i + 1 ≥ trancheCum c.wl ph.tranche → AInv c { ps with layers := ls } ph q (k :: below) := by
      intro hge
      refine ⟨h.ms, h.wl, h.queue, ?_, h.ne, ?_, ?_, hshape, hlow, ?_⟩
      · simp only [hlen]; exact h.depth
      · have := h.len; simp at this ⊢; omega
      · intro j hj; exact h.idx j (by simp at hj ⊢; exact Or.inr hj)
      · intro hp p hpm hlv
        rw [← restT_up _ _ i _ hge]
        exact h.part hp p hpm hlv
    have hup' : i + 1 ≥ trancheCum c.wl ph.tranche →
        (∃ ps' rs', advance { ps with layers := ls } ph.tranche below.length = .next ps' ∧ SInv c ps' ph q rs' ∧
          restT (trancheCum c.wl ph.tranche) ph.depth (i :: k :: below) = pendT (trancheCum c.wl ph.tranche) ph.depth rs' ∧
          restC (trancheCum c.wl ph.tranche) ph.depth (i :: k :: below) = pendC (trancheCum c.wl ph.tranche) ph.depth rs') ∨
        (∃ ps', advance { ps with layers := ls } ph.tranche below.length = endPhase ps' ∧ EInv c ps' ph q ∧
          restT (trancheCum c.wl ph.tranche) ph.depth (i :: k :: below) = [] ∧
          ∀ j ∈ i :: k :: below, j + 1 = trancheCum c.wl ph.tranche) := by
      intro hge
      rw [restT_up _ _ i _ hge, restC_up _ _ i _ hge]
      rcases ih k (hup hge) with ⟨ps', rs', h1⟩ | ⟨ps', h1, h2, h3, h4⟩
      · exact Or.inl ⟨ps', rs', h1⟩
      · right
        refine ⟨ps', h1, h2, h3, ?_⟩
        intro j hj
        rcases List.mem_cons.1 hj with rfl | hj
        · omega
        · exact h4 j hj
    simp only [List.length_cons, advance, hls, hls0, Option.map_some, Option.getD_some]
    simp only [h.wl]
    cases hw : c.wl[i + 1]? with
    | none =>
      have hge : c.wl.length ≤ i + 1 := List.getElem?_eq_none_iff.1 hw
      have := cum_le c.wl ph.tranche
      have h2 := hup' (by omega)
      simpa only [h.wl] using h2
    | some w =>
      have hlt : i + 1 < c.wl.length := (List.getElem?_eq_some_iff.1 hw).1
      have htr : trAt c.wl (i + 1) = w.tranche := by simp [trAt, hw]
      by_cases ht : ph.tranche < w.tranche
      · have hge : ¬ i + 1 < trancheCum c.wl ph.tranche := by
          rw [cum_iff hc.sorted, htr]; omega
        simp only [ht, if_true]
        have h2 := hup' (by omega)
        simpa only [h.wl] using h2
      · left
        have hlt' : i + 1 < trancheCum c.wl ph.tranche := by
          rw [cum_iff hc.sorted, htr]; omega
        refine ⟨_, (i + 1) :: k :: below, by simp only [ht, if_false]; rfl, ?_, restT_next _ _ _ _ hlt',
          restC_next _ _ _ _ hlt'⟩
        exact
          { ms := h.ms
            wl := rfl
            queue := h.queue
            depth := by simp only [List.length_modify, hlen]; exact h.depth
            ne := h.ne
            len := rfl
            lt := by have := h.len; simp at this ⊢; omega
            idx := by
              intro j hj
              rcases List.mem_cons.1 hj with rfl | hj
              · exact hlt'
              · exact h.idx j (by simp at hj ⊢; exact Or.inr hj)
            shape := modify_shape hshape _ _ (fun l hl => hl)
            lay := by
              intro a b j hab
              rcases List.eq_nil_or_concat b with rfl | ⟨b', x, rfl⟩
              · have hab' : (k :: below).reverse ++ [i + 1] = a ++ [j] := by rw [← hab]; simp
                obtain ⟨ha, hj⟩ := List.append_inj' hab' rfl
                simp at hj
                subst hj ha
                simp only [List.length_reverse, List.length_cons, modify_get, if_true, hls0, Option.map_some]
                congr 2
                have hm : trAt c.wl i ≤ trAt c.wl (i + 1) := hc.sorted.trAt (by omega) hlt
                rw [maxTr_append, maxTr_append, htr] at *
                omega
              · have hab' : (k :: below).reverse ++ [i + 1] = (a ++ j :: b') ++ [x] := by
                  rw [← List.reverse_cons, hab]; simp
                obtain ⟨ha, _⟩ := List.append_inj' hab' rfl
                have hal : a.length < below.length + 1 := by
                  have := congrArg List.length ha
                  simp at this; omega
                simp only [modify_get, if_neg (show ¬ below.length + 1 = a.length by omega)]
                exact hlow a b' j ha
            part := by
              intro hp p hpm hlv
              rw [← restT_next _ _ _ _ hlt']
              exact h.part hp p hpm hlv }

theorem acc_prefix_none {c : Ctx} (hc : CtxOk c) {N N' d d' : Nat} (hN : N' ≤ N) (hd : d ≤ d')
    (h : ∀ p ∈ tups N d [], liveB c.fm c.ms p = false) (p : List Nat) (hp : p ∈ tups N' d' []) :
    accB c.fm c.ms p = false := by
  cases hacc : accB c.fm c.ms p with
  | false => rfl
  | true =>
    obtain ⟨s, h1, h2, h3⟩ := (mem_tups _ _ _ _).1 hp
    simp at h3; subst h3
    have hpre : liveB c.fm c.ms (p.take d) = true := by
      apply live_prefix (fun pm hpm => (hc.ok pm hpm).fuzz) (q := p.drop d)
      rw [List.take_append_drop]; exact live_of_acc hacc
    have := h (p.take d) ((mem_tups _ _ _ _).2 ⟨p.take d, by simp; omega,
      fun i hi => by have := h2 i (List.mem_of_mem_take hi); omega, by simp⟩)
    rw [hpre] at this; simp at this

/-- The retained phases lose no result. -/
theorem retain_res {c : Ctx} (hc : CtxOk c) {ph : SearchPhase}
    (h : ∀ p ∈ tups (trancheCum c.wl ph.tranche) ph.depth [], liveB c.fm c.ms p = false) (q : List SearchPhase) :
    queueRes c.fm c.ms c.wl (q.filter fun p => decide (ph.tranche < p.tranche) || decide (p.depth < ph.depth)) =
      queueRes c.fm c.ms c.wl q := by
  induction q with
  | nil => rfl
  | cons p q ih =>
    simp only [queueRes] at ih ⊢
    rw [List.filter_cons]
    split
    · simp [ih]
    · next hn =>
      simp only [Bool.or_eq_true, decide_eq_true_eq, not_or] at hn
      rw [List.flatMap_cons, ih]
      have : phaseRes c.fm c.ms c.wl p = [] := by
        unfold phaseRes
        rw [List.filter_eq_nil_iff]
        intro x hx hg
        simp only [goodB, Bool.and_eq_true] at hg
        have := acc_prefix_none hc (cum_mono c.wl (show p.tranche ≤ ph.tranche by omega))
          (show ph.depth ≤ p.depth by omega) h x hx
        rw [this] at hg; simp at hg
      rw [this]; rfl

theorem sum_filter_le (f : SearchPhase → Nat) (p : SearchPhase → Bool) (q : List SearchPhase) :
    ((q.filter p).map f).sum ≤ (q.map f).sum := by
  induction q with
  | nil => simp
  | cons x q ih => rw [List.filter_cons]; split <;> simp <;> omega

/-- The end of a phase: on to the next one, or finished. -/
theorem endPhase_spec {c : Ctx} (hc : CtxOk c) {ps : PS} {ph : SearchPhase} {q : List SearchPhase}
    (h : EInv c ps ph q) :
    (∃ ps' ph' q', endPhase ps = .next ps' ∧ SInv c ps' ph' q' [0] ∧
      pendRes c ph' q' [0] = queueRes c.fm c.ms c.wl q ∧
      pendCost c ph' q' [0] ≤ (q.map fun p => nodes c.wl.length p.depth).sum) ∨
    (endPhase ps = .finished ∧ queueRes c.fm c.ms c.wl q = []) := by
  obtain ⟨hms, hwl, hq, hd, hne, hshape, ⟨i0, m0, hz⟩, hpart⟩ := h
  unfold endPhase
  rw [hq]
  simp only
  generalize hq' : (if ps.part = true then q else q.filter fun p => decide (ph.tranche < p.tranche) || decide (p.depth < ph.depth)) = q'
  have hres : queueRes c.fm c.ms c.wl q' = queueRes c.fm c.ms c.wl q := by
    rw [← hq']
    split
    · rfl
    · next hp => exact retain_res hc (hpart (by simpa using hp)) q
  have hsub : ∀ p ∈ q', p ∈ ps.queue := by
    intro p hp
    rw [hq]
    rw [← hq'] at hp
    split at hp
    · exact List.mem_cons_of_mem _ hp
    · exact List.mem_cons_of_mem _ (List.mem_filter.1 hp).1
  have hsum : (q'.map fun p => nodes c.wl.length p.depth).sum ≤ (q.map fun p => nodes c.wl.length p.depth).sum := by
    rw [← hq']
    split
    · exact Nat.le_refl _
    · exact sum_filter_le _ _ _
  cases q' with
  | nil =>
    right
    exact ⟨by simp, by rw [← hres]; rfl⟩
  | cons ph' q'' =>
    left
    refine ⟨_, ph', q'', by simp; rfl, ?_, ?_, ?_⟩
    · have hne' := hne ph' (hsub ph' (by simp))
      have hd' := hd ph' (hsub ph' (by simp))
      exact
        { ms := hms
          wl := hwl
          queue := rfl
          depth := by intro p hp; simp only [List.length_modify]; exact hd p (hsub p hp)
          ne := fun p hp => hne p (hsub p hp)
          len := rfl
          lt := hd'.1
          idx := by intro j hj; simp at hj; subst hj; exact hne'
          shape := modify_shape hshape _ _ (fun l hl => hl)
          lay := by
            intro a b j hab
            have : a = [] ∧ j = 0 := by
              cases a with
              | nil => simp at hab; exact ⟨rfl, hab.1.symm⟩
              | cons x a => simp at hab
            obtain ⟨rfl, rfl⟩ := this
            simp only [List.length_nil, modify_get, if_true, hz, Option.map_some]
            congr 2
            have hlt : 0 < c.wl.length := Nat.lt_of_lt_of_le hne' (cum_le _ _)
            simp [maxTr, trAt, hwl, List.head?_eq_getElem?]
          part := by
            intro _ p hp _
            rw [pendT_start _ _ hne' hd'.1]; exact hp }
    · have hne' := hne ph' (hsub ph' (by simp))
      have hd' := hd ph' (hsub ph' (by simp))
      rw [← hres]
      simp only [pendRes, queueRes, List.flatMap_cons, phaseRes, pendT_start _ _ hne' hd'.1]
    · have hne' := hne ph' (hsub ph' (by simp))
      have hd' := hd ph' (hsub ph' (by simp))
      have h1 : pendC (trancheCum c.wl ph'.tranche) ph'.depth [0] ≤ nodes (trancheCum c.wl ph'.tranche) ph'.depth :=
        pendC_le _ _ _ (by intro j hj; simp at hj; subst hj; exact hne') (by simp; omega)
      have h2 := nodes_mono (cum_le c.wl ph'.tranche) ph'.depth
      simp only [List.map_cons, List.sum_cons] at hsum
      simp only [pendCost]; omega

theorem mapM_words (wl : List Word) (ls : List Layer) (p : List Nat) (hp : ∀ i ∈ p, i < wl.length)
    (h : ls.map Layer.wordIndex = p) : ls.mapM (fun l => wl[l.wordIndex]?) = some (wordsOf wl p) := by
  induction ls generalizing p with
  | nil => subst h; rfl
  | cons l ls ih =>
    subst h
    simp only [List.map_cons, List.mem_cons, forall_eq_or_imp] at hp
    have h2 := ih _ hp.2 rfl
    rw [List.mapM_cons, h2]
    simp [wordsOf, List.getElem?_eq_getElem hp.1]

theorem tups_not_live {c : Ctx} (hc : CtxOk c) {N k : Nat} {p x : List Nat} (h : liveB c.fm c.ms p = false)
    (hx : x ∈ tups N k p) : liveB c.fm c.ms x = false := by
  obtain ⟨s, _, _, rfl⟩ := (mem_tups _ _ _ _).1 hx
  cases hl : liveB c.fm c.ms (p ++ s) with
  | false => rfl
  | true =>
    rw [live_prefix (fun pm hpm => (hc.ok pm hpm).fuzz) hl] at h; simp at h

/-- The layers' word indices are the stack. -/
theorem layers_idx {c : Ctx} {ls : List Layer} {rs : List Nat}
    (lay : ∀ (a b : List Nat) (i : Nat), rs.reverse = a ++ i :: b →
      ls[a.length]? = some ⟨i, maxTr c.wl (a ++ [i]), c.ms.map fun pm => idxRows c.fm pm a⟩) :
    (ls.take rs.length).map Layer.wordIndex = rs.reverse := by
  apply List.ext_getElem?
  intro j
  by_cases hj : j < rs.length
  · have hj' : j < rs.reverse.length := by simpa using hj
    have hsplit : rs.reverse = rs.reverse.take j ++ rs.reverse[j] :: rs.reverse.drop (j + 1) := by
      rw [← List.drop_eq_getElem_cons hj', List.take_append_drop]
    have := lay _ _ _ hsplit
    rw [List.length_take, Nat.min_eq_left (Nat.le_of_lt hj')] at this
    rw [List.getElem?_map, List.getElem?_take, if_pos hj, this, List.getElem?_eq_getElem hj']
    rfl
  · have h1 : rs.reverse[j]? = none := List.getElem?_eq_none_iff.2 (by simp; omega)
    rw [h1, List.getElem?_map, List.getElem?_take, if_neg hj]; rfl

theorem replicate_of_all (rs : List Nat) (n : Nat) (h : ∀ j ∈ rs, j + 1 = n) :
    rs.reverse = List.replicate rs.length (n - 1) := by
  rw [List.eq_replicate_iff]
  refine ⟨by simp, ?_⟩
  intro b hb
  have := h b (by simpa using hb)
  omega

/-- The outstanding results went from `L` to `R` while `res` was produced. -/
def Emits (wl : List Word) (L R : List (List Nat)) : Option (List Word) → Prop
  | none => L = R
  | some ws => ∃ p, L = p :: R ∧ ws = wordsOf wl p

/-- One iteration. -/
theorem iter_spec {c : Ctx} (hc : CtxOk c) {ps : PS} {ph : SearchPhase} {q : List SearchPhase} {rs : List Nat}
    (h : SInv c ps ph q rs) :
    ∃ mv res, ps.iter = .ok (mv, res) ∧
      match mv with
      | .next ps' => ∃ ph' q' rs', SInv c ps' ph' q' rs' ∧ pendCost c ph' q' rs' < pendCost c ph q rs ∧
          Emits c.wl (pendRes c ph q rs) (pendRes c ph' q' rs') res
      | .finished => Emits c.wl (pendRes c ph q rs) [] res ∧
          ∀ p, pendRes c ph q rs = [p] → ∃ d j, p = List.replicate d j := by
  obtain ⟨hms, hwl, hq, hdep, hne, hlen, hlt, hidx, hshape, hlay, hpart⟩ := h
  cases rs with
  | nil => simp at hlen
  | cons i below =>
    simp only [List.length_cons, Nat.add_right_cancel_iff] at hlen
    have hP : (i :: below).reverse = below.reverse ++ [i] := by simp
    have hprev := hlay below.reverse [] i (by simp)
    rw [List.length_reverse, hlen] at hprev
    have hd' := hdep ph (by rw [hq]; simp)
    have hnl : ps.li + 1 < ps.layers.length := by omega
    have hnext : ps.layers[ps.li + 1]? = some ps.layers[ps.li + 1] := List.getElem?_eq_getElem hnl
    have hnshape := hshape _ (List.getElem_mem hnl)
    have hiN := hidx i (by simp)
    have hiw : i < c.wl.length := Nat.lt_of_lt_of_le hiN (cum_le _ _)
    obtain ⟨tb, h1, h2, h3, h4⟩ := stepMatchers_spec (fm := c.fm) hiw below.reverse c.ms
      ps.layers[ps.li + 1].table hc.ok hnshape.1 hnshape.2
    rw [← hP] at h1 h4
    generalize hPe : (i :: below).reverse = P at *
    have hor : (liveB c.fm c.ms P || accB c.fm c.ms P) = liveB c.fm c.ms P := by
      cases ha : accB c.fm c.ms P with
      | false => simp
      | true => simp [live_of_acc ha]
    generalize hls : ps.layers.modify (ps.li + 1) (fun l => { l with table := tb }) = ls
    have hlsl : ls.length = ps.layers.length := by rw [← hls]; simp
    have hlsshape : ∀ l ∈ ls, l.table.length = c.ms.length ∧ ∀ r ∈ l.table, r.length = c.fm := by
      rw [← hls]
      exact modify_shape hshape _ _ (fun l _ => ⟨h2, h3⟩)
    have hlslay : ∀ (a b : List Nat) (j : Nat), P = a ++ j :: b →
        ls[a.length]? = some ⟨j, maxTr c.wl (a ++ [j]), c.ms.map fun pm => idxRows c.fm pm a⟩ := by
      intro a b j hab
      have hal : a.length < below.length + 1 := by
        have := congrArg List.length hab
        rw [← hPe] at this
        simp at this; omega
      rw [← hls, modify_get, if_neg (by omega)]
      exact hlay a b j hab
    have hPidx : ∀ j ∈ P, j < c.wl.length := by
      intro j hj
      rw [← hPe] at hj
      exact Nat.lt_of_lt_of_le (hidx j (List.mem_reverse.1 hj)) (cum_le _ _)
    have hPlen : P.length = ps.li + 1 := by rw [← hPe]; simp [hlen]
    have hwords : (ls.take (ps.li + 1)).mapM (fun l => c.wl[l.wordIndex]?) = some (wordsOf c.wl P) := by
      apply mapM_words _ _ _ hPidx
      have := layers_idx (c := c) (ls := ls) (rs := i :: below) (by rw [hPe]; exact hlslay)
      rw [hPe] at this
      simpa [hlen] using this
    have hpend : pendT (trancheCum c.wl ph.tranche) ph.depth (i :: below) =
        tups (trancheCum c.wl ph.tranche) (ph.depth - (ps.li + 1)) P ++
          restT (trancheCum c.wl ph.tranche) ph.depth (i :: below) := by
      rw [← hPe, ← hlen, List.reverse_cons]; rfl
    have hpendC : pendC (trancheCum c.wl ph.tranche) ph.depth (i :: below) =
        1 + nodes (trancheCum c.wl ph.tranche) (ph.depth - (ps.li + 1)) +
          restC (trancheCum c.wl ph.tranche) ph.depth (i :: below) := by
      rw [← hlen]; rfl
    by_cases hdesc : liveB c.fm c.ms P = true ∧ ps.li + 1 < ph.depth
    · -- descend
      obtain ⟨hlive, hltd⟩ := hdesc
      have htb := h4 hlive
      have hfull : (ps.li + 1 == ph.depth) = false := by simp; omega
      refine ⟨.next { ps with
          layers := ls.modify (ps.li + 1) fun l => { l with wordIndex := 0, maxTranche := maxTr c.wl (below.reverse ++ [i]) }
          part := ps.part || false
          li := ps.li + 1 }, none, ?_, ?_⟩
      · unfold PS.iter
        rw [hq, hprev, hnext]
        simp only [hms, h1, hls, hlive, hltd, hfull]
        simp
      · have hlsget : ls[ps.li + 1]? = some { ps.layers[ps.li + 1] with table := tb } := by
          rw [← hls, modify_get, if_pos rfl, hnext]; rfl
        have hsub : ph.depth - (i :: below).length = (ph.depth - (ps.li + 1) - 1) + 1 := by simp [hlen]; omega
        have hsub' : ph.depth - (ps.li + 1) = (ph.depth - (ps.li + 1) - 1) + 1 := by omega
        have hN0 : 0 < trancheCum c.wl ph.tranche := hne ph (by rw [hq]; simp)
        have hpz : pendT (trancheCum c.wl ph.tranche) ph.depth (0 :: i :: below) =
            pendT (trancheCum c.wl ph.tranche) ph.depth (i :: below) := by
          rw [pendT_zero _ _ _ hN0 _ hsub, hpend, hPe, ← hsub']
        refine ⟨ph, q, 0 :: i :: below, ?_, ?_, ?_⟩
        · exact
            { ms := hms
              wl := hwl
              queue := hq
              depth := by simp only [List.length_modify, hlsl]; exact hdep
              ne := hne
              len := by simp [hlen]
              lt := hltd
              idx := by
                intro j hj
                rcases List.mem_cons.1 hj with rfl | hj
                · exact hN0
                · exact hidx j hj
              shape := modify_shape hlsshape _ _ (fun l hl => hl)
              lay := by
                intro a b j hab
                rw [List.reverse_cons, hPe] at hab
                rcases List.eq_nil_or_concat b with rfl | ⟨b', x, rfl⟩
                · obtain ⟨ha, hj⟩ := List.append_inj' hab rfl
                  simp at hj
                  subst hj ha
                  rw [hPlen, modify_get, if_pos rfl, hlsget]
                  simp only [Option.map_some, htb]
                  congr 2
                  rw [← hP]
                  rw [maxTr_append]
                  have hm : trAt c.wl 0 ≤ trAt c.wl i := hc.sorted.trAt (by omega) hiw
                  have : maxTr c.wl P = max (maxTr c.wl below.reverse) (trAt c.wl i) := by
                    rw [hP, maxTr_append]
                  omega
                · have hab' : P ++ [0] = (a ++ j :: b') ++ [x] := by rw [hab]; simp
                  obtain ⟨ha, _⟩ := List.append_inj' hab' rfl
                  have hal : a.length < ps.li + 1 := by
                    have := congrArg List.length ha
                    rw [hPlen] at this
                    simp at this; omega
                  rw [modify_get, if_neg (by omega)]
                  exact hlslay a b' j ha
              part := by
                intro hp p hpm hlv
                rw [hpz]
                exact hpart (by simpa using hp) p hpm hlv }
        · simp only [pendCost]
          rw [pendC_zero _ _ _ hN0 _ hsub, hpendC, ← hsub']; omega
        · simp only [pendRes, hpz, Emits]
    · -- advance
      have hcond : (liveB c.fm c.ms P && decide (ps.li + 1 < ph.depth)) = false := by
        cases hl : liveB c.fm c.ms P with
        | false => rfl
        | true => simp only [Bool.true_and, decide_eq_false_iff_not]; exact fun h => hdesc ⟨hl, h⟩
      -- the current subtree
      have hcur : (tups (trancheCum c.wl ph.tranche) (ph.depth - (ps.li + 1)) P).filter
          (goodB c.fm c.ms c.wl ph.tranche) =
          if accB c.fm c.ms P && (ps.li + 1 == ph.depth) && maxTr c.wl P == ph.tranche then [P] else [] := by
        by_cases hfull : ps.li + 1 = ph.depth
        · have : ph.depth - (ps.li + 1) = 0 := by omega
          rw [this, hfull]
          simp [tups, List.filter_cons, goodB]
        · have hnl : liveB c.fm c.ms P = false := by
            cases hl : liveB c.fm c.ms P with
            | false => rfl
            | true => exact absurd ⟨hl, by omega⟩ hdesc
          have hb : (ps.li + 1 == ph.depth) = false := by simpa using hfull
          rw [hb]
          simp only [Bool.and_false, Bool.false_and]
          rw [if_neg (by simp), List.filter_eq_nil_iff]
          intro x hx hg
          simp only [goodB, Bool.and_eq_true] at hg
          have := tups_not_live hc hnl hx
          rw [live_of_acc hg.1] at this; simp at this
      have hains : AInv c { ps with layers := ls, part := ps.part || (liveB c.fm c.ms P && (ps.li + 1 == ph.depth)) }
          ph q (i :: below) := by
        refine ⟨hms, hwl, hq, by simp only [hlsl]; exact hdep, hne, by simp; omega, hidx, hlsshape,
          by rw [hPe]; exact hlslay, ?_⟩
        intro hp p hpm hlv
        simp only [Bool.or_eq_false_iff] at hp
        have hmem := hpart hp.1 p hpm hlv
        rw [hpend] at hmem
        rcases List.mem_append.1 hmem with hmem | hmem
        · exfalso
          by_cases hl : liveB c.fm c.ms P = true
          · have hfull : ps.li + 1 = ph.depth := by
              by_contra hcon
              exact hdesc ⟨hl, by omega⟩
            rw [hl, hfull] at hp
            simp at hp
          · have := tups_not_live hc (by simpa using hl) hmem
            rw [hlv] at this; simp at this
        · exact hmem
      generalize hres : (if (accB c.fm c.ms P && (ps.li + 1 == ph.depth) && maxTr c.wl P == ph.tranche) = true then
          some (wordsOf c.wl P) else none) = res
      have hiter : ps.iter = .ok (advance { ps with
          layers := ls, part := ps.part || (liveB c.fm c.ms P && (ps.li + 1 == ph.depth)) } ph.tranche below.length, res) := by
        unfold PS.iter
        rw [hq, hprev, hnext]
        simp only [hms, h1, hls, hor, hcond, hwl]
        rw [← hP]
        by_cases hg : (accB c.fm c.ms P && (ps.li + 1 == ph.depth) && maxTr c.wl P == ph.tranche) = true
        · rw [if_pos hg] at hres
          simp only [hg, if_true, hwords, ← hres, hlen]
          simp
        · rw [if_neg hg] at hres
          simp only [hg, hlen]
          simp [hres]
      have hpr : pendRes c ph q (i :: below) =
          (if (accB c.fm c.ms P && (ps.li + 1 == ph.depth) && maxTr c.wl P == ph.tranche) = true then [P] else []) ++
          ((restT (trancheCum c.wl ph.tranche) ph.depth (i :: below)).filter (goodB c.fm c.ms c.wl ph.tranche) ++
            queueRes c.fm c.ms c.wl q) := by
        simp only [pendRes, hpend, List.filter_append, hcur, List.append_assoc]
      have hcostlt : ∀ x, restC (trancheCum c.wl ph.tranche) ph.depth (i :: below) = x →
          x < pendC (trancheCum c.wl ph.tranche) ph.depth (i :: below) := by
        intro x hx; rw [hpendC, hx]; omega
      -- emitted result against the remaining list
      have hemit : ∀ R, (restT (trancheCum c.wl ph.tranche) ph.depth (i :: below)).filter
            (goodB c.fm c.ms c.wl ph.tranche) ++ queueRes c.fm c.ms c.wl q = R →
          Emits c.wl (pendRes c ph q (i :: below)) R res := by
        intro R hR
        rw [hR] at hpr
        rw [hpr, ← hres]
        split <;> simp [Emits]
      rcases advance_spec hc below i hains with ⟨ps', rs', a1, a2, a3, a4⟩ | ⟨ps', a1, a2, a3, a5⟩
      · refine ⟨.next ps', res, by rw [hiter, a1], ph, q, rs', a2, ?_, ?_⟩
        · simp only [pendCost]; have := hcostlt _ a4; omega
        · exact hemit (pendRes c ph q rs') (by rw [a3]; rfl)
      · rcases endPhase_spec hc a2 with ⟨ps'', ph', q', b1, b2, b3, b4⟩ | ⟨b1, b2⟩
        · refine ⟨.next ps'', res, by rw [hiter, a1, b1], ph', q', [0], b2, ?_, ?_⟩
          · have := hpendC
            simp only [pendCost] at b4 ⊢; omega
          · exact hemit (pendRes c ph' q' [0]) (by rw [a3, b3]; simp)
        · refine ⟨.finished, res, by rw [hiter, a1, b1], ?_⟩
          refine ⟨hemit [] (by rw [a3, b2]; rfl), ?_⟩
          intro p hp
          rw [hpr, a3, b2] at hp
          split at hp
          · simp at hp
            rw [← hp, ← hPe]
            exact ⟨_, _, replicate_of_all _ _ a5⟩
          · simp at hp

/-- The search loop. -/
theorem ploop_spec {c : Ctx} (hc : CtxOk c) (n : Nat) :
    ∀ {ps : PS} {ph : SearchPhase} {q : List SearchPhase} {rs : List Nat} (clk : Clock) (cnt : Nat),
      SInv c ps ph q rs → pendCost c ph q rs < n →
      ∃ out clk', PS.loop n ps clk cnt = .ok (out, clk') ∧
        match out with
        | .found ps' ws => ∃ ph' q' rs' p, SInv c ps' ph' q' rs' ∧ pendCost c ph' q' rs' < pendCost c ph q rs ∧
            pendRes c ph q rs = p :: pendRes c ph' q' rs' ∧ ws = wordsOf c.wl p
        | .timeout ps' => clk ≠ none ∧ ∃ ph' q' rs', SInv c ps' ph' q' rs' ∧
            pendCost c ph' q' rs' < pendCost c ph q rs ∧ pendRes c ph q rs = pendRes c ph' q' rs'
        | .finished k => (k = 0 ∧ pendRes c ph q rs = []) ∨
            (k = 1 ∧ ∃ p, pendRes c ph q rs = [p] ∧ ∃ d j, p = List.replicate d j) := by
  induction n with
  | zero => intro ps ph q rs clk cnt h hn; omega
  | succ n ih =>
    intro ps ph q rs clk cnt h hn
    obtain ⟨mv, res, h1, h2⟩ := iter_spec hc h
    unfold PS.loop
    rw [h1]
    cases mv with
    | finished =>
      cases res with
      | none => exact ⟨_, _, rfl, Or.inl ⟨rfl, h2.1⟩⟩
      | some ws =>
        obtain ⟨⟨p, a, _⟩, b⟩ := h2
        exact ⟨_, _, rfl, Or.inr ⟨rfl, p, a, b p a⟩⟩
    | next ps' =>
      obtain ⟨ph', q', rs', a, b, d⟩ := h2
      cases res with
      | some ws =>
        obtain ⟨p, e1, e2⟩ := d
        exact ⟨_, _, rfl, ph', q', rs', p, a, b, e1, e2⟩
      | none =>
        have d : pendRes c ph q rs = pendRes c ph' q' rs' := d
        simp only
        generalize hrd : (if (cnt + 1) % 256 = 0 then clk.read else (false, clk)) = rd
        by_cases hr : rd.1 = true
        · rw [if_pos hr]
          refine ⟨_, _, rfl, ?_, ph', q', rs', a, b, d⟩
          rintro rfl
          rw [← hrd] at hr
          split at hr <;> simp [Clock.read] at hr
        · rw [if_neg hr]
          obtain ⟨out, clk', g1, g2⟩ := ih rd.2 (cnt + 1) a (by omega)
          refine ⟨out, clk', g1, ?_⟩
          cases out with
          | found ps'' ws =>
            obtain ⟨ph'', q'', rs'', p, e1, e2, e3, e4⟩ := g2
            exact ⟨ph'', q'', rs'', p, e1, by omega, by rw [d, e3], e4⟩
          | timeout ps'' =>
            obtain ⟨e0, ph'', q'', rs'', e1, e2, e3⟩ := g2
            refine ⟨?_, ph'', q'', rs'', e1, by omega, by rw [d, e3]⟩
            rintro rfl
            apply e0
            rw [← hrd]; split <;> rfl
          | finished k =>
            simp only at g2 ⊢
            rw [d]; exact g2

end Noodle
