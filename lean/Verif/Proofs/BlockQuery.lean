import Verif.Proofs.BlockOpt
/-
The evaluator over blocks gives the responses of the evaluator of Model/Query.lean.
-/
namespace Noodle.Blk
set_option autoImplicit false
open Noodle.Bits (Bits Bits3 Block blockSize Mem)

/-! ### The single-word phase -/

theorem feed_rel (single : Bool) (w : Word) {ms : List WM} {ws : List Noodle.WM} (h : List.Forall₂ RW ms ws)
    (wl : List Word) :
    RelE (fun p q => List.Forall₂ RW p.1 q.1 ∧ p.2 = q.2) (feed single w ms wl) (Noodle.feed single w ws wl) := by
  induction h generalizing wl with
  | nil => exact .ok ⟨.nil, rfl⟩
  | cons h1 _ ih =>
    rename_i m v ms ws _
    unfold feed Noodle.feed
    have hd := drain_rel h1 wl single
    revert hd
    generalize m.drain wl single = r
    generalize v.drain wl single = s
    intro hd
    cases hd with
    | error y => exact .error _
    | ok hab =>
      rename_i a b
      obtain ⟨m', o1⟩ := a
      obtain ⟨v', o2⟩ := b
      obtain ⟨h2, rfl⟩ := hab
      simp only at h2
      simp only [h2.alive]
      have hi := ih v'.alive
      revert hi
      generalize feed single w ms v'.alive = r
      generalize Noodle.feed single w ws v'.alive = s
      intro hi
      cases hi with
      | error y => exact .error _
      | ok hab =>
        rename_i a b
        obtain ⟨ms', b1⟩ := a
        obtain ⟨ws', b2⟩ := b
        obtain ⟨h3, rfl⟩ := hab
        exact .ok ⟨.cons h2 h3, rfl⟩

theorem wordLoop_rel (wl : List Word) (single : Bool) (k : Nat) {m : WM} {v : Noodle.WM} (h : RW m v) {ms : List WM}
    {ws : List Noodle.WM} (hs : List.Forall₂ RW ms ws) (clk : Clock) :
    RelE (fun p q => RW p.1 q.1 ∧ List.Forall₂ RW p.2.1 q.2.1 ∧ p.2.2 = q.2.2) (wordLoop wl single k m ms clk)
      (Noodle.wordLoop wl single k v ws clk) := by
  induction k generalizing m v ms ws clk with
  | zero => exact .error _
  | succ k ih =>
    unfold wordLoop Noodle.wordLoop
    have hd := next_rel h wl single clk
    revert hd
    generalize m.next wl single clk = r
    generalize v.next wl single clk = s
    intro hd
    cases hd with
    | error y => exact .error _
    | ok hab =>
      rename_i a b
      obtain ⟨m', o1, c1⟩ := a
      obtain ⟨v', o2, c2⟩ := b
      obtain ⟨h2, h3⟩ := hab
      simp only [Prod.mk.injEq] at h2 h3
      obtain ⟨rfl, rfl⟩ := h3
      cases o1 with
      | none => exact .ok ⟨h2, hs, rfl⟩
      | some w =>
        simp only [h2.alive]
        have hi := feed_rel single w hs v'.alive
        revert hi
        generalize feed single w ms v'.alive = r
        generalize Noodle.feed single w ws v'.alive = s
        intro hi
        cases hi with
        | error y => exact .error _
        | ok hab =>
          rename_i a b
          obtain ⟨ms', b1⟩ := a
          obtain ⟨ws', b2⟩ := b
          obtain ⟨h3, rfl⟩ := hab
          cases b1 with
          | true => exact .ok ⟨h2, h3, rfl⟩
          | false => exact ih h2 h3 _

theorem drainAll_rel {ms : List WM} {ws : List Noodle.WM} (h : List.Forall₂ RW ms ws) (wl : List Word) :
    RelE (List.Forall₂ RW) (drainAll ms wl) (Noodle.drainAll ws wl) := by
  induction h generalizing wl with
  | nil => exact .ok .nil
  | cons h1 _ ih =>
    rename_i m v ms ws _
    unfold drainAll Noodle.drainAll
    have hd := drain_rel h1 wl false
    revert hd
    generalize m.drain wl false = r
    generalize v.drain wl false = s
    intro hd
    cases hd with
    | error y => exact .error _
    | ok hab =>
      rename_i a b
      obtain ⟨m', o1⟩ := a
      obtain ⟨v', o2⟩ := b
      obtain ⟨h2, rfl⟩ := hab
      simp only at h2
      simp only [h2.alive]
      have hi := ih v'.alive
      revert hi
      generalize drainAll ms v'.alive = r
      generalize Noodle.drainAll ws v'.alive = s
      intro hi
      cases hi with
      | error y => exact .error _
      | ok h3 => exact .ok (.cons h2 h3)

/-! ### The optimisation loop -/

theorem filterAll_rel {ms : List PM} {ps : List Noodle.PM} (h : List.Forall₂ RPM ms ps) (q : List SearchPhase) :
    filterAll ms q = Noodle.filterAll ps q := by
  unfold filterAll Noodle.filterAll
  generalize (.ok q : Except Crash (List SearchPhase)) = acc
  induction h generalizing acc with
  | nil => rfl
  | cons h1 _ ih =>
    rw [List.foldl_cons, List.foldl_cons]
    cases acc with
    | error x => exact ih _
    | ok q =>
      simp only [filterPhases_rel h1]
      exact ih _

theorem filterFix_rel {ms : List PM} {ps : List Noodle.PM} (h : List.Forall₂ RPM ms ps) (k : Nat) (q : List SearchPhase)
    (ch : Bool) : filterFix ms k q ch = Noodle.filterFix ps k q ch := by
  induction k generalizing q ch with
  | zero => rfl
  | succ k ih =>
    unfold filterFix Noodle.filterFix
    rw [filterAll_rel h]
    cases Noodle.filterAll ps q with
    | error x => rfl
    | ok q' =>
      simp only [ih]

theorem optimizePass_rel (queue : List SearchPhase) {ms : List WM} {ws : List Noodle.WM} (h : List.Forall₂ RWM ms ws)
    (alive : List Word) :
    RelE (fun p q => List.Forall₂ RWM p.1 q.1 ∧ p.2 = q.2) (optimizePass queue ms alive)
      (Noodle.optimizePass queue ws alive) := by
  induction h generalizing alive with
  | nil => exact .ok ⟨.nil, rfl⟩
  | cons h1 hrest ih =>
    rename_i m v ms ws
    unfold optimizePass Noodle.optimizePass
    have hd := optimize_rel h1 alive queue
    revert hd
    generalize m.optimize alive queue = r
    generalize v.optimize alive queue = s
    intro hd
    cases hd with
    | error y => exact .error _
    | ok hab =>
      rename_i a b
      obtain ⟨m', o1⟩ := a
      obtain ⟨v', o2⟩ := b
      obtain ⟨h2, rfl⟩ := hab
      simp only at h2
      simp only [h2.alive]
      split
      · split
        · exact .error _
        · split
          · exact .ok ⟨.cons h2 hrest, rfl⟩
          · have hi := ih v'.alive
            revert hi
            generalize optimizePass queue ms v'.alive = r
            generalize Noodle.optimizePass queue ws v'.alive = s
            intro hi
            cases hi with
            | error y => exact .error _
            | ok hab =>
              rename_i a b
              obtain ⟨ms', a1, b1⟩ := a
              obtain ⟨ws', a2, b2⟩ := b
              obtain ⟨h3, h4⟩ := hab
              simp only [Prod.mk.injEq] at h4
              obtain ⟨rfl, rfl⟩ := h4
              exact .ok ⟨.cons h2 h3, rfl⟩
      · have hi := ih alive
        revert hi
        generalize optimizePass queue ms alive = r
        generalize Noodle.optimizePass queue ws alive = s
        intro hi
        cases hi with
        | error y => exact .error _
        | ok hab =>
          rename_i a b
          obtain ⟨ms', a1, b1⟩ := a
          obtain ⟨ws', a2, b2⟩ := b
          obtain ⟨h3, h4⟩ := hab
          simp only [Prod.mk.injEq] at h4
          obtain ⟨rfl, rfl⟩ := h4
          exact .ok ⟨.cons h2 h3, rfl⟩

/-- Related options. -/
inductive ROpt {α β : Type} (R : α → β → Prop) : Option α → Option β → Prop
  | none : ROpt R none none
  | some {a : α} {b : β} (h : R a b) : ROpt R (some a) (some b)

/-- The outcome of the optimisation. -/
structure ROut (o : OptOut) (u : Noodle.OptOut) : Prop where
  ms : List.Forall₂ RWM o.ms u.ms
  alive : o.alive = u.alive
  queue : o.queue = u.queue
  gaveUp : o.gaveUp = u.gaveUp

theorem pms_rel {ms : List WM} {ws : List Noodle.WM} (h : List.Forall₂ RWM ms ws) :
    List.Forall₂ RPM (ms.map WM.pm) (ws.map Noodle.WM.pm) := forall₂_map h _ _ (fun _ _ h => h.pm)

theorem optimizeLoop_rel (k : Nat) {ms : List WM} {ws : List Noodle.WM} (h : List.Forall₂ RWM ms ws) (alive : List Word)
    (queue : List SearchPhase) :
    RelE (ROpt ROut) (optimizeLoop k ms alive queue) (Noodle.optimizeLoop k ws alive queue) := by
  induction k generalizing ms ws alive queue with
  | zero => exact .error _
  | succ k ih =>
    unfold optimizeLoop Noodle.optimizeLoop
    rw [filterFix_rel (pms_rel h)]
    cases Noodle.filterFix (ws.map Noodle.WM.pm) (queue.length + 1) queue false with
    | error x => exact .error _
    | ok r =>
      obtain ⟨q', ch⟩ := r
      simp only
      split
      · exact .ok .none
      · have hi := optimizePass_rel q' (List.forall₂_reverse_iff.2 h) alive
        revert hi
        generalize optimizePass q' ms.reverse alive = r
        generalize Noodle.optimizePass q' ws.reverse alive = s
        intro hi
        cases hi with
        | error y => exact .error _
        | ok hab =>
          rename_i a b
          obtain ⟨ms', a1, b1⟩ := a
          obtain ⟨ws', a2, b2⟩ := b
          obtain ⟨h3, h4⟩ := hab
          simp only [Prod.mk.injEq] at h3 h4
          obtain ⟨rfl, rfl⟩ := h4
          have h5 := List.forall₂_reverse_iff.2 h3
          simp only
          split
          · exact .ok (.some ⟨h5, rfl, rfl, rfl⟩)
          · split
            · exact .ok (.some ⟨h5, rfl, rfl, rfl⟩)
            · exact ih h5 _ _

/-! ### The phrase phase -/

/-- The number of states of matcher `i`. -/
def bdOf (ps : List Noodle.PM) (i : Nat) : Nat := ((ps[i]?).map Noodle.PM.statesLen).getD 0

/-- A layer of the search: `fm` and `sm` are the numbers of rows and of states its table was created for. -/
structure RLayer (ps : List Noodle.PM) (fm sm : Nat) (l : Layer) (L : Noodle.Layer) : Prop where
  idx : l.wordIndex = L.wordIndex
  tr : l.maxTranche = L.maxTranche
  table : Rep3 ps.length fm sm (bdOf ps) l.table L.table

/-- The phrase phase. -/
structure RPS (x : PS) (y : Noodle.PS) : Prop where
  ms : List.Forall₂ RPM x.ms y.ms
  wl : x.wl = y.wl
  queue : x.queue = y.queue
  li : x.li = y.li
  part : x.part = y.part
  layers : ∃ fm sm, (∀ p ∈ y.ms, p.fuzzLimit ≤ fm) ∧ (∀ p ∈ y.ms, p.statesLen ≤ sm) ∧
    List.Forall₂ (RLayer y.ms fm sm) x.layers y.layers

theorem startTable_rel (k fm sm : Nat) (bd : Nat → Nat) {ms : List PM} {ps : List Noodle.PM} (h : List.Forall₂ RPM ms ps)
    (hf : ∀ p ∈ ps, p.fuzzLimit ≤ fm) (hbd : ∀ i p, ps[i]? = some p → bd (k + i) = p.statesLen) {t : Bits3} {T : Tbl}
    (ht : Rep3 (k + ps.length) fm sm bd t T) :
    ∃ t' V, (ms.zipIdx k).foldlM (fun t p => do
        let t1 ← modifySlab t p.2 fun s => .ok { s with blocks := Bits.clear s.blocks }
        ub (t1.modifyRow p.2 0 fun r => Bits.union r p.1.start)) t = .ok t' ∧
      Rep3 (k + ps.length) fm sm bd t' V ∧
      ∀ i, i < k + ps.length → V.row i = if k ≤ i then rowsOf fm ((ps[i - k]?.map Noodle.PM.start).getD 0) else T.row i := by
  induction h generalizing k t T with
  | nil => exact ⟨t, T, rfl, ht, fun i hi => by rw [if_neg (by simp at hi; omega)]⟩
  | cons h1 _ ih =>
    rename_i pm p ms ps _
    have hk : k < k + (p :: ps).length := by simp
    have hbk : bd k = p.statesLen := hbd 0 p rfl
    have hfm : 0 < fm := by
      have := hf p (by simp)
      have := h1.flpos
      omega
    obtain ⟨t1, h2, h3⟩ := ht.modifySlab hk (fun s => .ok { s with blocks := Bits.clear s.blocks }) _
      (fun s hs => ⟨_, rfl, hs.clear⟩)
    have hkT : k < T.length := by rw [ht.tlen]; exact hk
    have hkT' : k < List.length (T.set k ((T.row k).map fun _ => 0)) := by simp [hkT]
    obtain ⟨t2, h4, h5⟩ := h3.modifyRow hk hfm (fun r => Bits.union r pm.start) _
      (fun r hr => by
        have hle := hr.le
        rw [hbk] at hr hle ⊢
        exact hr.union h1.start hle)
    have hlen : k + (p :: ps).length = (k + 1) + ps.length := by simp; omega
    rw [List.zipIdx_cons, List.foldlM_cons, h2, bind_ok, h4, ub_some, bind_ok]
    rw [hlen] at h5 ⊢
    obtain ⟨t', V, h6, h7, h8⟩ := ih (k + 1) (fun q hq => hf q (by simp [hq])) (fun i q hq => by
      have := hbd (i + 1) q (by simpa using hq)
      rw [← this]
      congr 1
      omega) h5
    refine ⟨t', V, h6, h7, ?_⟩
    intro i hi
    rw [h8 i hi]
    have hrl := ht.rlen k hk
    by_cases h9 : k + 1 ≤ i
    · rw [if_pos h9, if_pos (by omega)]
      have : i - k = (i - (k + 1)) + 1 := by omega
      rw [this, List.getElem?_cons_succ]
    · rw [if_neg h9, row_set _ _ _ _ hkT', row_set _ _ _ _ hkT, row_set _ _ _ _ hkT]
      by_cases h10 : i = k
      · subst h10
        simp only [if_pos, Nat.sub_self, List.getElem?_cons_zero, Option.map_some, Option.getD_some, Nat.le_refl]
        have : ((T.row i).map fun _ => 0) = List.replicate fm 0 := by
          apply List.eq_replicate_iff.2
          exact ⟨by simp [hrl], by simp⟩
        rw [this]
        simp [rowsOf, Rows.at, List.getElem?_replicate, hfm]
      · rw [if_neg h10, if_neg h10, if_neg (by omega)]

theorem foldr_max {α : Type} (f : α → Nat) (l : List α) (x : α) (h : x ∈ l) : f x ≤ l.foldr (fun a m => max (f a) m) 0 := by
  induction l with
  | nil => cases h
  | cons a l ih =>
    simp only [List.foldr_cons]
    rcases List.mem_cons.1 h with rfl | h
    · omega
    · have := ih h
      omega

theorem foldr_rel {ms : List PM} {ps : List Noodle.PM} (h : List.Forall₂ RPM ms ps) (f : PM → Nat) (g : Noodle.PM → Nat)
    (hfg : ∀ x y, RPM x y → f x = g y) :
    ms.foldr (fun a m => max (f a) m) 0 = ps.foldr (fun a m => max (g a) m) 0 := by
  induction h with
  | nil => rfl
  | cons h1 _ ih => simp only [List.foldr_cons, ih, hfg _ _ h1]

theorem mkPhrase_rel {o : OptOut} {u : Noodle.OptOut} (h : ROut o u) :
    RelE (ROpt RPS) (mkPhrase o) (Noodle.mkPhrase u) := by
  unfold mkPhrase Noodle.mkPhrase
  simp only [h.alive, h.queue]
  cases u.alive with
  | nil => exact .ok .none
  | cons w0 ws =>
    simp only
    split
    · exact .ok .none
    · split
      · exact .error _
      · split
        · exact .error _
        · split
          · exact .ok .none
          · have hp := pms_rel h.ms
            rw [foldr_rel hp PM.fuzzLimit Noodle.PM.fuzzLimit (fun _ _ h => h.fl),
              foldr_rel hp PM.statesLen Noodle.PM.statesLen (fun _ _ h => h.sl), hp.length_eq]
            revert hp
            generalize o.ms.map WM.pm = pms
            generalize u.ms.map Noodle.WM.pm = ps
            intro hp
            have hf := fun p (hp : p ∈ ps) => foldr_max Noodle.PM.fuzzLimit ps p hp
            have hs := fun p (hp : p ∈ ps) => foldr_max Noodle.PM.statesLen ps p hp
            generalize ps.foldr (fun pm m => max pm.fuzzLimit m) 0 = fm at *
            generalize ps.foldr (fun pm m => max pm.statesLen m) 0 = sm at *
            have hnew : Rep3 ps.length fm sm (bdOf ps) (Bits.new3 ps.length fm sm)
                (List.replicate ps.length (List.replicate fm 0)) := by
              apply rep3_new
              intro i hi
              have : ps[i]? = some ps[i] := by simp [hi]
              simp only [bdOf, this, Option.map_some, Option.getD_some]
              exact hs _ (List.getElem_mem _)
            have hz : (ps.map fun _ => List.replicate fm 0) = List.replicate ps.length (List.replicate fm 0) := by
              apply List.eq_replicate_iff.2
              simp
            have hst := startTable_rel 0 fm sm (bdOf ps) hp hf (fun i p hp => by simp [bdOf, hp])
              (t := Bits.new3 ps.length fm sm) (T := List.replicate ps.length (List.replicate fm 0)) (by
                rw [Nat.zero_add]; exact hnew)
            obtain ⟨t', V, h1, h2, h3⟩ := hst
            rw [Nat.zero_add] at h2 h3
            have h1' : startTable pms (Bits.new3 ps.length fm sm) = .ok t' := h1
            rw [h1']
            have hV : V = ps.map fun pm => rowsOf fm pm.start := by
              apply tbl_ext (by simp [h2.tlen])
              intro i hi
              rw [h2.tlen] at hi
              rw [h3 i hi, if_pos (Nat.zero_le _)]
              simp [Tbl.row, hi]
            refine .ok (.some ⟨hp, rfl, rfl, rfl, rfl, fm, sm, hf, hs, .cons ⟨rfl, rfl, ?_⟩ ?_⟩)
            · rw [hV] at h2
              exact h2
            · apply forall₂_replicate
              refine ⟨rfl, rfl, ?_⟩
              simp only [Noodle.Layer.new]
              rw [hz]
              exact hnew

theorem rw_rwm {ms : List WM} {ws : List Noodle.WM} (h : List.Forall₂ RW ms ws) : List.Forall₂ RWM ms ws :=
  h.imp (fun _ _ h => h.toRWM)

theorem getLast_rel {α β : Type} {R : α → β → Prop} {l : List α} {l' : List β} (h : List.Forall₂ R l l') :
    ROpt R l.getLast? l'.getLast? := by
  have h2 := List.forall₂_reverse_iff.2 h
  rw [List.getLast?_eq_head?_reverse, List.getLast?_eq_head?_reverse]
  revert h2
  generalize l.reverse = x
  generalize l'.reverse = y
  intro h2
  cases h2 with
  | nil => exact .none
  | cons h1 _ => exact .some h1

theorem plan_rel {ms : List WM} {ws : List Noodle.WM} (h : List.Forall₂ RWM ms ws) (depth : Nat) :
    RelE (fun p q => ROpt RPS p.1 q ∧ (q.isSome → p.2 = planGaveUp ws depth)) (plan ms depth) (Noodle.plan ws depth) := by
  unfold plan Noodle.plan planGaveUp
  have hl := getLast_rel h
  revert hl
  generalize ms.getLast? = x
  generalize ws.getLast? = y
  intro hl
  cases hl with
  | none => exact .error _
  | some h1 =>
    rename_i m v
    simp only [h1.alive]
    by_cases hd : dedup (sortNat (dedup (v.alive.map Word.tranche))) ≠ dedup (v.alive.map Word.tranche)
    · rw [if_pos hd, if_pos hd]
      exact .error _
    · rw [if_neg hd, if_neg hd]
      have ho := optimizeLoop_rel 101 h v.alive (initialQueue depth (dedup (v.alive.map Word.tranche)))
      revert ho
      generalize optimizeLoop 101 ms v.alive (initialQueue depth (dedup (v.alive.map Word.tranche))) = r
      generalize Noodle.optimizeLoop 101 ws v.alive (initialQueue depth (dedup (v.alive.map Word.tranche))) = s
      intro ho
      cases ho with
      | error y => exact .error _
      | ok hab =>
        cases hab with
        | none => exact .ok ⟨.none, by simp⟩
        | some hou =>
          rename_i o u
          simp only
          have hm := mkPhrase_rel hou
          revert hm
          generalize mkPhrase o = r
          generalize Noodle.mkPhrase u = s
          intro hm
          cases hm with
          | error y => exact .error _
          | ok hab => exact .ok ⟨hab, fun _ => hou.gaveUp⟩

theorem row_drop (T : Tbl) (m : Nat) (h : m < T.length) : T.drop m = T.row m :: T.drop (m + 1) := by
  rw [List.drop_eq_getElem_cons h]
  simp [Tbl.row, h]

theorem set_eq_take (T : Tbl) (m : Nat) (r : Rows) (h : m < T.length) : T.set m r = T.take m ++ r :: T.drop (m + 1) := by
  rw [List.set_eq_take_append_cons_drop, if_pos h]

theorem stepMatchers_rel (wi fm sm n : Nat) (bd : Nat → Nat) {ms : List PM} {ps : List Noodle.PM}
    (h : List.Forall₂ RPM ms ps) (m : Nat) (hn : m + ps.length = n) (hf : ∀ p ∈ ps, p.fuzzLimit ≤ fm)
    (hbd : ∀ i p, ps[i]? = some p → bd (m + i) = p.statesLen) {prev next : Bits3} {P N : Tbl}
    (hP : Rep3 n fm sm bd prev P) (hN : Rep3 n fm sm bd next N) :
    RelE (fun x y => Rep3 n fm sm bd x.1 (N.take m ++ y.1) ∧ x.2 = y.2) (stepMatchers wi ms m prev next)
      (Noodle.stepMatchers wi ps (P.drop m) (N.drop m)) := by
  induction h generalizing m next N with
  | nil =>
    refine .ok ⟨?_, rfl⟩
    rw [List.take_append_drop]
    exact hN
  | cons h1 hrest ih =>
    rename_i pm p ms ps
    have hm : m < n := by simp at hn; omega
    have hmP : m < P.length := by rw [hP.tlen]; exact hm
    have hmN : m < N.length := by rw [hN.tlen]; exact hm
    have hbm : bd m = p.statesLen := hbd 0 p rfl
    have hfp : p.fuzzLimit ≤ fm := hf p (by simp)
    rw [row_drop P m hmP, row_drop N m hmN]
    unfold stepMatchers Noodle.stepMatchers
    obtain ⟨s, h2, h3⟩ := hP.slab hm
    rw [h2, ub_some, bind_ok]
    rw [hbm] at h3
    have hstep : ∀ s', Rep2 fm sm (bd m) s' (N.row m) → RelE (Rep2 fm sm (bd m))
        (pm.stepByWordIndex wi s { s' with blocks := Bits.clear s'.blocks })
        (p.stepByWordIndex wi (P.row m) ((N.row m).map fun _ => 0)) := by
      intro s' hs'
      have hc := hs'.clear
      rw [hbm] at hc ⊢
      exact stepByWordIndex_rel h1 wi h3 hc hfp hfp
    cases hr : p.stepByWordIndex wi (P.row m) ((N.row m).map fun _ => 0) with
    | error x =>
      obtain ⟨s', h4, h5⟩ := hN.slab hm
      have := hstep s' h5
      rw [hr] at this
      unfold modifySlab
      rw [h4, ub_some, bind_ok]
      simp only
      revert this
      generalize pm.stepByWordIndex wi s { s' with blocks := Bits.clear s'.blocks } = z
      intro this
      cases this
      exact .error _
    | ok r =>
      obtain ⟨nx, h4, h5⟩ := hN.modifySlab hm
        (fun s' => pm.stepByWordIndex wi s { s' with blocks := Bits.clear s'.blocks }) r (by
          intro s' hs'
          have := hstep s' hs'
          rw [hr] at this
          revert this
          generalize pm.stepByWordIndex wi s { s' with blocks := Bits.clear s'.blocks } = z
          intro this
          cases this with
          | ok hab => exact ⟨_, rfl, hab⟩)
      rw [h4, bind_ok]
      obtain ⟨s2, h6, h7⟩ := h5.slab hm
      rw [h6, ub_some, bind_ok]
      rw [row_set _ _ _ _ hmN, if_pos rfl] at h7
      simp only
      have hemp : s2.blocks.all (· == 0#32) = rowsEmpty r := h7.isEmpty
      rw [hemp]
      split
      · refine .ok ⟨?_, rfl⟩
        rw [← set_eq_take N m r hmN]
        exact h5
      · rw [hbm] at h7
        rw [hasSuccess_rel h1 h7 hfp, bind_ok]
        have hi := ih (m + 1) (by simp at hn; omega) (fun q hq => hf q (by simp [hq])) (fun i q hq => by
          have := hbd (i + 1) q (by simpa using hq)
          rw [← this]
          congr 1
          omega) h5
        have e1 : (N.set m r).drop (m + 1) = N.drop (m + 1) := by
          rw [List.drop_set_of_lt (by omega)]
        have e2 : (N.set m r).take (m + 1) = N.take m ++ [r] := by
          rw [set_eq_take N m r hmN]
          have : (N.take m).length = m := by simp; omega
          rw [List.take_append, this, List.take_of_length_le (by omega)]
          simp
        rw [e1, e2] at hi
        revert hi
        generalize stepMatchers wi ms (m + 1) prev nx = z
        generalize Noodle.stepMatchers wi ps (P.drop (m + 1)) (N.drop (m + 1)) = z'
        intro hi
        cases hi with
        | error x => exact .error _
        | ok hab =>
          rename_i a b
          obtain ⟨a1, a2, a3⟩ := a
          obtain ⟨b1, b2, b3⟩ := b
          obtain ⟨h8, h9⟩ := hab
          simp only [Prod.mk.injEq] at h8 h9
          obtain ⟨rfl, rfl⟩ := h9
          rw [bind_ok]
          refine .ok ⟨?_, rfl⟩
          simp only
          rw [List.append_assoc] at h8
          exact h8

/-- Moving on. -/
inductive RMoved : Moved → Noodle.Moved → Prop
  | next {x : PS} {y : Noodle.PS} (h : RPS x y) : RMoved (.next x) (.next y)
  | finished : RMoved .finished .finished

theorem bump_rel {ps : List Noodle.PM} {fm sm : Nat} {ls : List Layer} {Ls : List Noodle.Layer}
    (h : List.Forall₂ (RLayer ps fm sm) ls Ls) (i : Nat) :
    List.Forall₂ (RLayer ps fm sm) (ls.modify i fun l => { l with wordIndex := l.wordIndex + 1 })
      (Ls.modify i fun l => { l with wordIndex := l.wordIndex + 1 }) :=
  forall₂_modify h (fun l => { l with wordIndex := l.wordIndex + 1 }) (fun l => { l with wordIndex := l.wordIndex + 1 })
    (fun l L hl => ⟨by simp only [hl.idx], hl.tr, hl.table⟩) i

theorem raise_rel {ps : List Noodle.PM} {fm sm : Nat} {ls : List Layer} {Ls : List Noodle.Layer}
    (h : List.Forall₂ (RLayer ps fm sm) ls Ls) (i t : Nat) :
    List.Forall₂ (RLayer ps fm sm) (ls.modify i fun l => { l with maxTranche := max l.maxTranche t })
      (Ls.modify i fun l => { l with maxTranche := max l.maxTranche t }) :=
  forall₂_modify h (fun l => { l with maxTranche := max l.maxTranche t })
    (fun l => { l with maxTranche := max l.maxTranche t })
    (fun l L hl => ⟨hl.idx, by simp only [hl.tr], hl.table⟩) i

theorem enter_rel {ps : List Noodle.PM} {fm sm : Nat} {ls : List Layer} {Ls : List Noodle.Layer}
    (h : List.Forall₂ (RLayer ps fm sm) ls Ls) (i t : Nat) :
    List.Forall₂ (RLayer ps fm sm) (ls.modify i fun l => { l with wordIndex := 0, maxTranche := t })
      (Ls.modify i fun l => { l with wordIndex := 0, maxTranche := t }) :=
  forall₂_modify h (fun l => { l with wordIndex := 0, maxTranche := t })
    (fun l => { l with wordIndex := 0, maxTranche := t }) (fun l L hl => ⟨rfl, rfl, hl.table⟩) i

theorem table_rel {ps : List Noodle.PM} {fm sm : Nat} {ls : List Layer} {Ls : List Noodle.Layer}
    (h : List.Forall₂ (RLayer ps fm sm) ls Ls) (i : Nat) {t : Bits3} {T : Tbl}
    (ht : Rep3 ps.length fm sm (bdOf ps) t T) :
    List.Forall₂ (RLayer ps fm sm) (ls.modify i fun l => { l with table := t })
      (Ls.modify i fun l => { l with table := T }) :=
  forall₂_modify h (fun l => { l with table := t }) (fun l => { l with table := T })
    (fun l L hl => ⟨hl.idx, hl.tr, ht⟩) i

theorem endPhase_rel {x : PS} {y : Noodle.PS} (h : RPS x y) : RMoved (endPhase x) (Noodle.endPhase y) := by
  obtain ⟨ms, wl, q, ls, li, part⟩ := x
  obtain ⟨ms', wl', q', ls', li', part'⟩ := y
  obtain ⟨h1, rfl, rfl, rfl, rfl, fm, sm, h2, h3, h4⟩ := h
  unfold endPhase Noodle.endPhase
  cases q with
  | nil => exact .finished
  | cons ph q =>
    simp only
    by_cases hq : (if part = true then q
      else q.filter fun p => decide (ph.tranche < p.tranche) || decide (p.depth < ph.depth)) = []
    · rw [if_pos hq, if_pos hq]
      exact .finished
    · rw [if_neg hq, if_neg hq]
      exact .next ⟨h1, rfl, rfl, rfl, rfl, fm, sm, h2, h3, enter_rel h4 0 _⟩

theorem wordIndex_rel {ps : List Noodle.PM} {fm sm : Nat} {ls : List Layer} {Ls : List Noodle.Layer}
    (h : List.Forall₂ (RLayer ps fm sm) ls Ls) (i : Nat) :
    (ls[i]?.map Layer.wordIndex).getD 0 = (Ls[i]?.map Noodle.Layer.wordIndex).getD 0 := by
  rcases forall₂_get? h i with ⟨h1, h2⟩ | ⟨l, L, h1, h2, h4⟩
  · rw [h1, h2]
    rfl
  · rw [h1, h2]
    exact h4.idx

theorem advance_rel (tr : Nat) (li : Nat) {x : PS} {y : Noodle.PS} (h : RPS x y) :
    RMoved (advance x tr li) (Noodle.advance y tr li) := by
  induction li generalizing x y with
  | zero =>
    obtain ⟨ms, wl, q, ls, li, part⟩ := x
    obtain ⟨ms', wl', q', ls', li', part'⟩ := y
    obtain ⟨h1, rfl, rfl, rfl, rfl, fm, sm, h2, h3, h4⟩ := h
    unfold advance Noodle.advance
    have h5 := bump_rel h4 0
    simp only
    rw [wordIndex_rel h5 0]
    cases wl[((ls'.modify 0 fun l => { l with wordIndex := l.wordIndex + 1 })[0]?.map
        Noodle.Layer.wordIndex).getD 0]? with
    | none => exact endPhase_rel ⟨h1, rfl, rfl, rfl, rfl, fm, sm, h2, h3, h5⟩
    | some w =>
      simp only
      split
      · exact endPhase_rel ⟨h1, rfl, rfl, rfl, rfl, fm, sm, h2, h3, h5⟩
      · exact .next ⟨h1, rfl, rfl, rfl, rfl, fm, sm, h2, h3, raise_rel h5 0 _⟩
  | succ k ih =>
    obtain ⟨ms, wl, q, ls, li, part⟩ := x
    obtain ⟨ms', wl', q', ls', li', part'⟩ := y
    obtain ⟨h1, rfl, rfl, rfl, rfl, fm, sm, h2, h3, h4⟩ := h
    unfold advance Noodle.advance
    have h5 := bump_rel h4 (k + 1)
    simp only
    rw [wordIndex_rel h5 (k + 1)]
    cases wl[((ls'.modify (k + 1) fun l => { l with wordIndex := l.wordIndex + 1 })[k + 1]?.map
        Noodle.Layer.wordIndex).getD 0]? with
    | none => exact ih ⟨h1, rfl, rfl, rfl, rfl, fm, sm, h2, h3, h5⟩
    | some w =>
      simp only
      split
      · exact ih ⟨h1, rfl, rfl, rfl, rfl, fm, sm, h2, h3, h5⟩
      · exact .next ⟨h1, rfl, rfl, rfl, rfl, fm, sm, h2, h3, raise_rel h5 (k + 1) _⟩

theorem words_rel {ps : List Noodle.PM} {fm sm : Nat} {ls : List Layer} {Ls : List Noodle.Layer} (wl : List Word)
    (h : List.Forall₂ (RLayer ps fm sm) ls Ls) :
    ls.mapM (fun l => wl[l.wordIndex]?) = Ls.mapM (fun l => wl[l.wordIndex]?) := by
  induction h with
  | nil => rfl
  | cons h1 _ ih => rw [List.mapM_cons, List.mapM_cons, ih, h1.idx]

theorem iter_rel {x : PS} {y : Noodle.PS} (h : RPS x y) :
    RelE (fun p q => RMoved p.1 q.1 ∧ p.2 = q.2) x.iter y.iter := by
  obtain ⟨ms, wl, q, ls, li, part⟩ := x
  obtain ⟨ms', wl', q', ls', li', part'⟩ := y
  obtain ⟨hms, rfl, rfl, rfl, rfl, fm, sm, h1, h2, h3⟩ := h
  simp only at hms h1 h2 h3
  unfold PS.iter Noodle.PS.iter
  cases q with
  | nil => exact .error _
  | cons ph q =>
    simp only
    rcases forall₂_get? h3 li with ⟨h4, h5⟩ | ⟨l, L, h4, h5, h6⟩
    · rw [h4, h5]
      exact .error _
    · rcases forall₂_get? h3 (li + 1) with ⟨h7, h8⟩ | ⟨l', L', h7, h8, h9⟩
      · rw [h4, h5, h7, h8]
        exact .error _
      · rw [h4, h5, h7, h8]
        simp only
        have hs := stepMatchers_rel L.wordIndex fm sm ms'.length (bdOf ms') hms 0 (Nat.zero_add _) h1
          (fun i p hp => by simp [bdOf, hp]) h6.table h9.table
        rw [h6.idx]
        simp only [List.drop_zero, List.take_zero, List.nil_append] at hs
        revert hs
        generalize stepMatchers L.wordIndex ms 0 l.table l'.table = r
        generalize Noodle.stepMatchers L.wordIndex ms' L.table L'.table = s
        intro hs
        cases hs with
        | error e => exact .error _
        | ok hab =>
          rename_i a b
          obtain ⟨a1, a2, a3⟩ := a
          obtain ⟨b1, b2, b3⟩ := b
          obtain ⟨h10, h11⟩ := hab
          simp only [Prod.mk.injEq] at h10 h11
          obtain ⟨rfl, rfl⟩ := h11
          have hls := table_rel h3 (li + 1) h10
          simp only
          rw [h6.tr, words_rel wl (List.forall₂_take (li + 1) hls)]
          generalize (if (a2 && li + 1 == ph.depth && L.maxTranche == ph.tranche) = true then _ else _ :
            Except Crash (Option (List Word))) = res
          cases res with
          | error e => exact .error _
          | ok o =>
            simp only
            split
            · exact .ok ⟨.next ⟨hms, rfl, rfl, rfl, rfl, fm, sm, h1, h2, enter_rel hls (li + 1) _⟩, rfl⟩
            · exact .ok ⟨advance_rel _ _ ⟨hms, rfl, rfl, rfl, rfl, fm, sm, h1, h2, hls⟩, rfl⟩

/-- The outcome of the search loop. -/
inductive RLooped : Looped → Noodle.Looped → Prop
  | found {x : PS} {y : Noodle.PS} (h : RPS x y) (ws : List Word) : RLooped (.found x ws) (.found y ws)
  | timeout {x : PS} {y : Noodle.PS} (h : RPS x y) : RLooped (.timeout x) (.timeout y)
  | finished (k : Nat) : RLooped (.finished k) (.finished k)

theorem searchLoop_rel (k : Nat) {x : PS} {y : Noodle.PS} (h : RPS x y) (clk : Clock) (cnt : Nat) :
    RelE (fun p q => RLooped p.1 q.1 ∧ p.2 = q.2) (PS.loop k x clk cnt) (Noodle.PS.loop k y clk cnt) := by
  induction k generalizing x y clk cnt with
  | zero => exact .error _
  | succ k ih =>
    unfold PS.loop Noodle.PS.loop
    have hi := iter_rel h
    revert hi
    generalize x.iter = r
    generalize y.iter = s
    intro hi
    cases hi with
    | error e => exact .error _
    | ok hab =>
      rename_i a b
      obtain ⟨a1, a2⟩ := a
      obtain ⟨b1, b2⟩ := b
      obtain ⟨h1, rfl⟩ := hab
      cases h1 with
      | finished => exact .ok ⟨.finished _, rfl⟩
      | next h2 =>
        cases a2 with
        | some ws => exact .ok ⟨.found h2 ws, rfl⟩
        | none =>
          generalize hrd : (if (cnt + 1) % 256 = 0 then clk.read else (false, clk)) = rd
          simp only [hrd]
          cases rd.1 with
          | true => exact .ok ⟨.timeout h2, rfl⟩
          | false => exact ih h2 _ _

/-! ### The evaluator -/

/-- The phase of the evaluator. -/
inductive RPhase : Phase → Noodle.Phase → Prop
  | word {ms : List WM} {ws : List Noodle.WM} (h : List.Forall₂ RW ms ws) (wl : List Word) :
      RPhase (.word ms wl) (.word ws wl)
  | phrase {x : PS} {y : Noodle.PS} (h : RPS x y) : RPhase (.phrase x) (.phrase y)
  | done : RPhase .done .done

/-- The evaluator. -/
structure RQ (q : QState) (u : Noodle.QState) : Prop where
  phase : RPhase q.phase u.phase
  depth : q.depthLimit = u.depthLimit
  limit : q.resultsLimit = u.resultsLimit
  count : q.resultsCount = u.resultsCount

theorem nextQ_rel {q : QState} {u : Noodle.QState} (h : RQ q u) (clk : Clock) :
    RelE (fun p r => RQ p.1 r.1 ∧ p.2 = r.2) (q.next clk) (u.next clk) := by
  obtain ⟨ph, dl, rl, rc⟩ := q
  obtain ⟨ph', dl', rl', rc'⟩ := u
  obtain ⟨hph, h1, h2, h3⟩ := h
  simp only at hph h1 h2 h3
  subst h1 h2 h3
  unfold QState.next Noodle.QState.next
  cases hph with
  | done => exact .ok ⟨⟨.done, rfl, rfl, rfl⟩, rfl⟩
  | word hm wl =>
    simp only
    split
    · exact .ok ⟨⟨.done, rfl, rfl, rfl⟩, rfl⟩
    · cases hm with
      | nil => exact .error _
      | @cons m w ms ws h1 h2 =>
        simp only [h1.idx]
        have hi := wordLoop_rel wl (decide (dl ≤ 1)) (wl.length - w.wordIndex + 1) h1 h2 clk
        revert hi
        generalize wordLoop wl (decide (dl ≤ 1)) (wl.length - w.wordIndex + 1) m ms clk = r
        generalize Noodle.wordLoop wl (decide (dl ≤ 1)) (wl.length - w.wordIndex + 1) w ws clk = s
        intro hi
        cases hi with
        | error e => exact .error _
        | ok hab =>
          rename_i a b
          obtain ⟨a1, a2, a3, a4⟩ := a
          obtain ⟨b1, b2, b3, b4⟩ := b
          obtain ⟨h3, h4, h5⟩ := hab
          simp only [Prod.mk.injEq] at h3 h4 h5
          obtain ⟨rfl, rfl⟩ := h5
          cases a3 with
          | some x => exact .ok ⟨⟨.word (.cons h3 h4) wl, rfl, rfl, rfl⟩, rfl⟩
          | none =>
            simp only
            split
            · exact .ok ⟨⟨.word (.cons h3 h4) wl, rfl, rfl, rfl⟩, rfl⟩
            · split
              · exact .ok ⟨⟨.done, rfl, rfl, rfl⟩, rfl⟩
              · rw [h3.alive]
                have hi := drainAll_rel h4 b1.alive
                revert hi
                generalize drainAll a2 b1.alive = r
                generalize Noodle.drainAll b2 b1.alive = s
                intro hi
                cases hi with
                | error e => exact .error _
                | ok h5 =>
                  rename_i c d
                  simp only
                  have hp := plan_rel (rw_rwm (.cons h3 h5)) dl
                  revert hp
                  generalize plan (a1 :: c) dl = r
                  generalize Noodle.plan (b1 :: d) dl = s
                  intro hp
                  cases hp with
                  | error e => exact .error _
                  | ok hab =>
                    rename_i f g
                    obtain ⟨f1, f2⟩ := f
                    obtain ⟨h6, h7⟩ := hab
                    simp only at h6 h7
                    cases h6 with
                    | none => exact .ok ⟨⟨.done, rfl, rfl, rfl⟩, rfl⟩
                    | some h8 =>
                      have h9 := h7 rfl
                      exact .ok ⟨⟨.phrase h8, rfl, rfl, rfl⟩, by rw [h9]⟩
  | phrase hp =>
    rename_i x y
    simp only
    split
    · exact .ok ⟨⟨.done, rfl, rfl, rfl⟩, rfl⟩
    · rw [hp.wl]
      split
      · exact .error _
      · have hfuel : x.fuel = y.fuel := by
          unfold PS.fuel Noodle.PS.fuel
          rw [hp.queue, hp.wl]
        rw [hfuel]
        have hi := searchLoop_rel y.fuel hp clk 0
        revert hi
        generalize PS.loop y.fuel x clk 0 = r
        generalize Noodle.PS.loop y.fuel y clk 0 = s
        intro hi
        cases hi with
        | error e => exact .error _
        | ok hab =>
          rename_i a b
          obtain ⟨a1, a2⟩ := a
          obtain ⟨b1, b2⟩ := b
          obtain ⟨h1, _⟩ := hab
          simp only at h1
          cases h1 with
          | finished k => exact .ok ⟨⟨.done, rfl, rfl, rfl⟩, rfl⟩
          | timeout h => exact .ok ⟨⟨.phrase h, rfl, rfl, rfl⟩, rfl⟩
          | found h ws => exact .ok ⟨⟨.phrase h, rfl, rfl, rfl⟩, rfl⟩

theorem run_rel {q : QState} {u : Noodle.QState} (h : RQ q u) (clks : List Clock) :
    RelE (fun p r => RQ p.1 r.1 ∧ p.2 = r.2) (q.run clks) (u.run clks) := by
  induction clks generalizing q u with
  | nil => exact .ok ⟨h, rfl⟩
  | cons c cs ih =>
    unfold QState.run Noodle.QState.run
    have hi := nextQ_rel h c
    revert hi
    generalize q.next c = r
    generalize u.next c = s
    intro hi
    cases hi with
    | error e => exact .error _
    | ok hab =>
      rename_i a b
      obtain ⟨a1, a2⟩ := a
      obtain ⟨b1, b2⟩ := b
      obtain ⟨h1, rfl⟩ := hab
      simp only at h1
      simp only
      have hi := ih h1
      revert hi
      generalize a1.run cs = r
      generalize b1.run cs = s
      intro hi
      cases hi with
      | error e => exact .error _
      | ok hab =>
        rename_i a b
        obtain ⟨a1, a2⟩ := a
        obtain ⟨b1, b2⟩ := b
        obtain ⟨h1, rfl⟩ := hab
        exact .ok ⟨h1, rfl⟩

theorem newQ_rel {bes : List Expr} {es : List Noodle.Expr} (h : List.Forall₂ RExpr bes es) (wl : List Word) (depth : Nat)
    (limit : Option Nat) : RelE RQ (QState.new bes wl depth limit) (Noodle.QState.new es wl depth limit) := by
  unfold QState.new Noodle.QState.new
  have hm : ∃ ms, bes.mapM (fun e => WM.new e (maxWordLen wl)) = .ok ms ∧
      List.Forall₂ RW ms (es.map fun e => Noodle.WM.new e (maxWordLen wl)) := by
    induction h with
    | nil => exact ⟨_, rfl, .nil⟩
    | cons h1 _ ih =>
      obtain ⟨m, h2, h3⟩ := new_rel h1 (maxWordLen wl)
      obtain ⟨ms, h4, h5⟩ := ih
      refine ⟨m :: ms, ?_, .cons h3 h5⟩
      rw [List.mapM_cons, h2, bind_ok, h4, bind_ok]
      rfl
  obtain ⟨ms, h1, h2⟩ := hm
  cases h with
  | nil => exact .error _
  | cons h3 h4 =>
    simp only [reduceCtorEq, if_false]
    rw [h1, bind_ok]
    exact .ok ⟨.word h2 wl, rfl, rfl, rfl⟩

end Noodle.Blk
