import Verif.Proofs.Path
import Mathlib.Tactic.Tauto
/-
`filter_search_phases`: what it keeps.
-/
namespace Noodle
open Spec

/-- A table of `n` rows of `fl` entries. -/
def ShapedTbl (n fl : Nat) (t : Tbl) : Prop := t.length = n ∧ ∀ r ∈ t, r.length = fl

/-- A table that is not the empty one has a bit. -/
theorem ShapedTbl.bit {n fl : Nat} {t : Tbl} (h : ShapedTbl n fl t) (hne : t ≠ emptyTbl n fl) :
    ∃ s f d, ((t.row s).at f).testBit d = true := by
  by_contra hc
  simp only [not_exists, Bool.not_eq_true] at hc
  apply hne
  unfold emptyTbl
  rw [List.eq_replicate_iff]
  refine ⟨h.1, fun r hr => ?_⟩
  rw [List.eq_replicate_iff]
  refine ⟨h.2 r hr, fun x hx => ?_⟩
  obtain ⟨s, hs, rfl⟩ := List.getElem_of_mem hr
  obtain ⟨f, hf, rfl⟩ := List.getElem_of_mem hx
  apply Nat.eq_of_testBit_eq
  intro d
  have := hc s f d
  simp only [Tbl.row, Rows.at, List.getD, List.getElem?_eq_getElem hs, Option.getD_some, List.getElem?_eq_getElem hf] at this
  rw [this, Nat.zero_testBit]

/-- What is true of a matcher's phrase tables: `T w` is the table of word `w`, and phrases of up to `D` words
over `al` are accepted exactly if they match the expression. -/
structure MB (e : Expr) (D : Nat) (pm : PM) (al : List Word) (T : Word → Tbl) : Prop where
  fl : pm.fuzzLimit = e.fuzz + 1
  pos : 0 < pm.statesLen
  cls0 : ∃ wc rest, pm.classes = (emptyTbl pm.statesLen pm.fuzzLimit, wc) :: rest
  wcl : pm.wordClasses.length = al.length
  cls : ∀ w ci, (w, ci) ∈ al.zip pm.wordClasses → (∃ wc, pm.classes[ci]? = some (T w, wc)) ∧
    (ci = 0 ↔ T w = emptyTbl pm.statesLen pm.fuzzLimit)
  start : ∀ s, pm.start.testBit s = true → s < pm.statesLen
  range : ∀ w ∈ al, ∀ s f d, (((T w).row s).at f).testBit d = true → s < pm.statesLen ∧ d < pm.statesLen
  acc : ∀ ws : List Word, ws ≠ [] → ws.length ≤ D → (∀ w ∈ ws, w ∈ al) →
    (PAcc T pm.start pm.statesLen pm.fuzzLimit ws ↔ Matches e (charsOf ws))
  dom : (pm.start.testBit 0 = true ∧ ∀ w ∈ al, ∀ j k d, pm.start.testBit j = true → k < pm.fuzzLimit →
      Cum ((T w).row j) k d → Cum ((T w).row 0) k d) ∨
    ∀ ws : List Word, ws ≠ [] → ws.length ≤ D → (∀ w ∈ ws, w ∈ al) →
      ¬ PAcc T pm.start pm.statesLen pm.fuzzLimit ws
  snd : ∀ ws : List Word, ws ≠ [] → (∀ w ∈ ws, w ∈ al) → PAcc T pm.start pm.statesLen pm.fuzzLimit ws →
    Matches e (charsOf ws)
  shape : ∀ w ∈ al, ShapedTbl pm.statesLen pm.fuzzLimit (T w)

/-- What is always true of a matcher during planning. -/
structure MInv (e : Expr) (D : Nat) (m : WM) : Prop where
  mt : ∀ p ∈ m.pm.classes, p.2.minTranche = 0
  fl : m.pm.fuzzLimit = e.fuzz + 1
  body : m.alive ≠ [] → ∃ T, MB e D m.pm m.alive T

theorem MB.mono {e : Expr} {D D' : Nat} {pm : PM} {al : List Word} {T : Word → Tbl} (h : MB e D pm al T)
    (hd : D' ≤ D) : MB e D' pm al T where
  fl := h.fl
  pos := h.pos
  cls0 := h.cls0
  wcl := h.wcl
  cls := h.cls
  start := h.start
  range := h.range
  acc := fun ws h1 h2 h3 => h.acc ws h1 (by omega) h3
  dom := h.dom.imp id fun g ws h1 h2 h3 => g ws h1 (by omega) h3
  snd := h.snd
  shape := h.shape

theorem MInv.mono {e : Expr} {D D' : Nat} {m : WM} (h : MInv e D m) (hd : D' ≤ D) : MInv e D' m :=
  ⟨h.mt, h.fl, fun ha => let ⟨T, hT⟩ := h.body ha; ⟨T, hT.mono hd⟩⟩

/-- Each word of the list has a class. -/
theorem MB.has {e : Expr} {D : Nat} {pm : PM} {al : List Word} {T : Word → Tbl} (h : MB e D pm al T)
    {w : Word} (hw : w ∈ al) : ∃ ci, (w, ci) ∈ al.zip pm.wordClasses := by
  obtain ⟨i, hi, rfl⟩ := List.getElem_of_mem hw
  have hi' : i < pm.wordClasses.length := by rw [h.wcl]; exact hi
  refine ⟨pm.wordClasses[i], ?_⟩
  rw [List.mem_iff_getElem]
  exact ⟨i, by rw [List.length_zip]; omega, by simp⟩

/-! ### One round of stepping over all classes -/

/-- The states reached after exactly `w` words of any class. -/
def classRows (pm : PM) : Nat → Rows
  | 0 => rowsOf pm.fuzzLimit pm.start
  | w + 1 => pm.classes.foldl (fun next tc => stepInto pm.fuzzLimit tc.1 (classRows pm w) next)
      (List.replicate pm.fuzzLimit 0)

theorem map_zipIdx_const {β : Type} (l : List Nat) (g : β → β) (x : β) :
    ((l.map fun _ => x).zipIdx.map fun p => g p.1) = l.map fun _ => g x := by
  rw [show (fun p : β × Nat => g p.1) = g ∘ Prod.fst from rfl, ← List.map_map, List.zipIdx_map_fst, List.map_map]
  rfl

theorem filterStep_ok (pm : PM) (tr : List Nat) (htr : tr ≠ []) (cur : Rows)
    (hmt : ∀ p ∈ pm.classes, p.2.minTranche = 0) :
    filterStep pm tr (tr.map fun _ => cur) =
      .ok (tr.map fun _ => pm.classes.foldl (fun next tc => stepInto pm.fuzzLimit tc.1 cur next)
        (List.replicate pm.fuzzLimit 0)) := by
  unfold filterStep
  have hmap : ((tr.map fun _ => cur).map fun _ : Rows => List.replicate pm.fuzzLimit 0) =
      tr.map fun _ => List.replicate pm.fuzzLimit 0 := by rw [List.map_map]; rfl
  rw [hmap]
  generalize List.replicate pm.fuzzLimit 0 = z
  generalize pm.classes = cl at hmt
  induction cl generalizing z with
  | nil => rfl
  | cons tc cl ih =>
    simp only [List.foldl_cons]
    have h0 : trancheIdx tr tc.2.minTranche = some 0 := by
      rw [hmt tc (by simp)]
      cases tr with
      | nil => exact absurd rfl htr
      | cons a l => simp [trancheIdx, List.findIdx?_cons]
    rw [h0]
    simp only [Nat.zero_le, if_true]
    have : ((tr.map fun _ => z).zipIdx.map fun p =>
        stepInto pm.fuzzLimit tc.1 ((tr.map fun _ => cur).getD p.2 []) p.1) =
        tr.map fun _ => stepInto pm.fuzzLimit tc.1 cur z := by
      apply List.ext_getElem
      · simp
      · intro i h1 h2
        have hi : i < tr.length := by simpa using h2
        simp [List.getElem?_eq_getElem hi]
    rw [this]
    exact ih _ fun p hp => hmt p (by simp [hp])

theorem mem_insertTranche (t x : Nat) (l : List Nat) : x ∈ insertTranche t l ↔ x = t ∨ x ∈ l := by
  induction l with
  | nil => simp [insertTranche]
  | cons a l ih =>
    unfold insertTranche
    split
    · simp
    · split
      · next h => subst h; simp
      · simp only [List.mem_cons, ih]; tauto

theorem mem_tranchesOf (q : List SearchPhase) (t : Nat) : t ∈ tranchesOf q ↔ ∃ p ∈ q, p.tranche = t := by
  induction q with
  | nil => simp [tranchesOf]
  | cons p q ih =>
    unfold tranchesOf at ih ⊢
    rw [List.foldr_cons, mem_insertTranche, ih]
    simp only [List.mem_cons, exists_eq_or_imp]
    constructor
    · rintro (rfl | h)
      · exact Or.inl rfl
      · exact Or.inr h
    · rintro (rfl | h)
      · exact Or.inl rfl
      · exact Or.inr h

theorem le_maxDepth (q : List SearchPhase) (p : SearchPhase) (hp : p ∈ q) : p.depth ≤ maxDepth q := by
  induction q with
  | nil => simp at hp
  | cons x q ih =>
    simp only [maxDepth, List.foldr_cons]
    rcases List.mem_cons.1 hp with rfl | h
    · exact Nat.le_max_left _ _
    · exact Nat.le_trans (ih h) (Nat.le_max_right _ _)

theorem maxDepth_mono {q q' : List SearchPhase} (h : ∀ p ∈ q', p ∈ q) : maxDepth q' ≤ maxDepth q := by
  induction q' with
  | nil => simp [maxDepth]
  | cons x q' ih =>
    simp only [maxDepth, List.foldr_cons]
    exact Nat.max_le.2 ⟨le_maxDepth q x (h x (by simp)), ih fun p hp => h p (by simp [hp])⟩

theorem filter_tranches (ok : Bool) (w : Nat) (tr : List Nat) (L : List (Nat × Nat)) (hL : ∀ t ∈ tr, ∃ i, (t, i) ∈ L)
    (f : Nat → Bool) (hf : ∀ p ∈ L, f p.2 = ok)
    (q : List SearchPhase) (hq : ∀ p ∈ q, p.tranche ∈ tr) :
    L.foldl (fun q p => if f p.2 then q
        else q.filter fun ph => ph.depth != w || ph.tranche != p.1) q =
      q.filter fun ph => ok || ph.depth != w := by
  cases ok with
  | true =>
    have hid : (q.filter fun ph => true || ph.depth != w) = q := List.filter_eq_self.2 (by simp)
    rw [hid]
    clear hL hid hq
    induction L with
    | nil => rfl
    | cons a L ih =>
      rw [List.foldl_cons, hf a (by simp), if_pos rfl]
      exact ih (fun p hp => hf p (by simp [hp]))
  | false =>
    have key : ∀ L : List (Nat × Nat), (∀ p ∈ L, f p.2 = false) → ∀ q : List SearchPhase,
        L.foldl (fun q p => if f p.2 then q
          else q.filter fun ph => ph.depth != w || ph.tranche != p.1) q =
        q.filter fun ph => ph.depth != w || L.all fun p => ph.tranche != p.1 := by
      intro L hf
      induction L with
      | nil => intro q; exact (List.filter_eq_self.2 (by simp)).symm
      | cons a L ih =>
        intro q
        rw [List.foldl_cons, hf a (by simp)]
        simp only [Bool.false_eq_true, if_false]
        rw [ih fun p hp => hf p (by simp [hp]), List.filter_filter]
        apply List.filter_congr
        intro x _
        rw [List.all_cons]
        cases h1 : (x.depth != w) <;> cases h2 : (x.tranche != a.1) <;> simp
    rw [key L hf q]
    apply List.filter_congr
    intro p hp
    obtain ⟨i, hi⟩ := hL p.tranche (hq p hp)
    have : (L.all fun x => p.tranche != x.1) = false := by
      rw [← Bool.not_eq_true, List.all_eq_true]
      intro h
      simpa using h _ hi
    rw [this]; simp

theorem filterLoop_ok (pm : PM) (hmt : ∀ p ∈ pm.classes, p.2.minTranche = 0) (tr : List Nat) (htr : tr ≠ [])
    (k : Nat) : ∀ (w : Nat) (q : List SearchPhase), (∀ p ∈ q, p.tranche ∈ tr) →
    filterLoop pm tr k (w + 1) (tr.map fun _ => classRows pm w) q =
      .ok (q.filter fun p => decide (p.depth ≤ w) || decide (w + k < p.depth) ||
        pm.hasSuccess (classRows pm p.depth)) := by
  induction k with
  | zero =>
    intro w q _
    rw [filterLoop]
    congr 1
    symm
    apply List.filter_eq_self.2
    intro p _
    by_cases h : p.depth ≤ w
    · simp [h]
    · simp [show w < p.depth by omega]
  | succ k ih =>
    intro w q hq
    rw [filterLoop, filterStep_ok pm tr htr _ hmt]
    simp only
    have hU : (pm.classes.foldl (fun next tc => stepInto pm.fuzzLimit tc.1 (classRows pm w) next)
        (List.replicate pm.fuzzLimit 0)) = classRows pm (w + 1) := rfl
    rw [hU]
    rw [filter_tranches (pm.hasSuccess (classRows pm (w + 1))) (w + 1) tr tr.zipIdx
      (fun t ht => by
        obtain ⟨i, hi, rfl⟩ := List.getElem_of_mem ht
        exact ⟨i, List.mem_zipIdx_iff_getElem?.2 (by simp [List.getElem?_eq_getElem hi])⟩)
      (fun i => pm.hasSuccess ((tr.map fun _ => classRows pm (w + 1)).getD i []))
      (fun p hp => by
        have := List.mem_zipIdx_iff_getElem?.1 hp
        simp [List.getD, this]) q hq]
    rw [ih (w + 1) _ fun p hp => hq p (List.mem_filter.1 hp).1, List.filter_filter]
    congr 1
    apply List.filter_congr
    intro p _
    by_cases h1 : p.depth = w + 1
    · rw [h1]
      simp
      by_cases h : pm.hasSuccess (classRows pm (w + 1)) = true <;> simp [h]
    · have hb : (p.depth != w + 1) = true := by simpa using h1
      rw [hb]
      simp only [Bool.or_true, Bool.and_true]
      congr 2
      · by_cases h2 : p.depth ≤ w
        · simp [h2, show p.depth ≤ w + 1 by omega]
        · simp [h2, show ¬ p.depth ≤ w + 1 by omega]
      · simp only [show w + 1 + k = w + (k + 1) by omega]

/-- What is kept: the depths at which the success state is reachable. -/
def keepDepth (pm : PM) (d : Nat) : Bool := decide (d = 0) || pm.hasSuccess (classRows pm d)

theorem filterPhases_ok (pm : PM) (hmt : ∀ p ∈ pm.classes, p.2.minTranche = 0) (q : List SearchPhase) :
    pm.filterPhases q = .ok (q.filter fun p => keepDepth pm p.depth) := by
  unfold PM.filterPhases
  by_cases hq : q = []
  · simp [hq]
  · rw [if_neg hq]
    have htr : tranchesOf q ≠ [] := by
      obtain ⟨p, hp⟩ := List.exists_mem_of_ne_nil q hq
      exact List.ne_nil_of_mem ((mem_tranchesOf q p.tranche).2 ⟨p, hp, rfl⟩)
    rw [show rowsOf pm.fuzzLimit pm.start = classRows pm 0 from rfl]
    have := filterLoop_ok pm hmt (tranchesOf q) htr (maxDepth q) 0 q
      fun p hp => (mem_tranchesOf q p.tranche).2 ⟨p, hp, rfl⟩
    simp only [Nat.zero_add] at this
    rw [this]
    congr 1
    apply List.filter_congr
    intro p hp
    have := le_maxDepth q p hp
    rw [keepDepth]
    simp [show ¬ maxDepth q < p.depth by omega]

/-- The rows of all classes cover every phrase. -/
theorem classRows_path {e : Expr} {D : Nat} {pm : PM} {al : List Word} {T : Word → Tbl} (h : MB e D pm al T)
    (ws : List Word) : ∀ (a s f k d : Nat), (∀ w ∈ ws, w ∈ al) → ((classRows pm a).at f).testBit s = true →
      f + k < pm.fuzzLimit → Path T s ws k d → ((classRows pm (a + ws.length)).at (f + k)).testBit d = true := by
  induction ws with
  | nil =>
    intro a s f k d _ hb _ hp
    cases hp
    simpa using hb
  | cons w ws ih =>
    intro a s f k d hal hb hk hp
    cases hp with
    | @cons _ m _ _ _ df k' h1 h2 =>
      have hw : w ∈ al := hal w (by simp)
      obtain ⟨ci, hci⟩ := h.has hw
      obtain ⟨⟨wc, hc⟩, _⟩ := h.cls w ci hci
      have hm : ((classRows pm (a + 1)).at (f + df)).testBit m = true := by
        rw [classRows]
        rw [(foldl_or_gen (fun next (tc : Tbl × WordClass) => stepInto pm.fuzzLimit tc.1 (classRows pm a) next)
          (fun tc g d => ∃ f df s, f + df = g ∧ g < pm.fuzzLimit ∧ ((classRows pm a).at f).testBit s = true ∧
            ((tc.1.row s).at df).testBit d = true) pm.fuzzLimit pm.classes
          (fun x _ r hr => by
            have := stepInto_spec pm.fuzzLimit x.1 (classRows pm a) r (by omega)
            exact ⟨by rw [this.1, hr], this.2⟩) (List.replicate pm.fuzzLimit 0) (by simp)).2]
        exact Or.inr ⟨(T w, wc), List.mem_of_getElem? hc, f, df, s, rfl, by omega, hb, h1⟩
      have := ih (a + 1) m (f + df) k' d (fun x hx => hal x (by simp [hx])) hm (by omega) h2
      rw [List.length_cons, show a + (ws.length + 1) = a + 1 + ws.length by omega,
        show f + (df + k') = f + df + k' by omega]
      exact this

/-- A length at which some phrase is accepted is kept. -/
theorem keepDepth_of_acc {e : Expr} {D : Nat} {pm : PM} {al : List Word} {T : Word → Tbl} (h : MB e D pm al T)
    (ws : List Word) (hal : ∀ w ∈ ws, w ∈ al) (ha : PAcc T pm.start pm.statesLen pm.fuzzLimit ws) :
    keepDepth pm ws.length = true := by
  obtain ⟨s, k, h1, h2, h3⟩ := ha
  have h0 : ((classRows pm 0).at 0).testBit s = true := by
    rw [classRows, rowsOf_at _ _ _ (by omega)]; exact h1
  have := classRows_path h ws 0 s 0 k _ hal h0 (by omega) h3
  rw [keepDepth, Bool.or_eq_true]
  right
  rw [hasSuccess_iff]
  simp only [Nat.zero_add] at this
  exact ⟨k, h2, this⟩

end Noodle
