import Verif.Proofs.BlockFill
/-
The single-word phase over blocks.
-/
namespace Noodle.Blk
set_option autoImplicit false
open Noodle.Bits (Bits Bits3 Block blockSize Mem)

/-! ### Lists of related things -/

theorem forall₂_get? {α β : Type} {R : α → β → Prop} {l : List α} {l' : List β} (h : List.Forall₂ R l l') (i : Nat) :
    (l[i]? = none ∧ l'[i]? = none) ∨ ∃ x y, l[i]? = some x ∧ l'[i]? = some y ∧ R x y := by
  induction h generalizing i with
  | nil => exact .inl ⟨rfl, rfl⟩
  | cons h1 _ ih =>
    cases i with
    | zero => exact .inr ⟨_, _, rfl, rfl, h1⟩
    | succ i => simpa using ih i

theorem forall₂_modify {α β : Type} {R : α → β → Prop} {l : List α} {l' : List β} (h : List.Forall₂ R l l')
    (f : α → α) (g : β → β) (hfg : ∀ x y, R x y → R (f x) (g y)) (i : Nat) :
    List.Forall₂ R (l.modify i f) (l'.modify i g) := by
  induction h generalizing i with
  | nil => simp
  | cons h1 h2 ih =>
    cases i with
    | zero => exact .cons (hfg _ _ h1) h2
    | succ i => exact .cons h1 (ih i)

theorem forall₂_set {α β : Type} {R : α → β → Prop} {l : List α} {l' : List β} (h : List.Forall₂ R l l') {x : α} {y : β}
    (hxy : R x y) (i : Nat) : List.Forall₂ R (l.set i x) (l'.set i y) := by
  induction h generalizing i with
  | nil => simp
  | cons h1 h2 ih =>
    cases i with
    | zero => exact .cons hxy h2
    | succ i => exact .cons h1 (ih i)

theorem forall₂_append {α β : Type} {R : α → β → Prop} {l m : List α} {l' m' : List β} (h : List.Forall₂ R l l')
    (h' : List.Forall₂ R m m') : List.Forall₂ R (l ++ m) (l' ++ m') := List.rel_append h h'

theorem forall₂_replicate {α β : Type} {R : α → β → Prop} {x : α} {y : β} (h : R x y) (n : Nat) :
    List.Forall₂ R (List.replicate n x) (List.replicate n y) := by
  induction n with
  | zero => exact .nil
  | succ n ih => exact .cons h ih

theorem forall₂_map {α β γ δ : Type} {R : α → β → Prop} {S : γ → δ → Prop} {l : List α} {l' : List β}
    (h : List.Forall₂ R l l') (f : α → γ) (g : β → δ) (hfg : ∀ x y, R x y → S (f x) (g y)) :
    List.Forall₂ S (l.map f) (l'.map g) := by
  induction h with
  | nil => exact .nil
  | cons h1 _ ih => exact .cons (hfg _ _ h1) ih

theorem forall₂_findIdx? {α β : Type} {R : α → β → Prop} {l : List α} {l' : List β} (h : List.Forall₂ R l l')
    (p : α → Bool) (q : β → Bool) (hpq : ∀ x y, R x y → p x = q y) : l.findIdx? p = l'.findIdx? q := by
  induction h with
  | nil => rfl
  | cons h1 _ ih => simp [List.findIdx?_cons, hpq _ _ h1, ih]

/-! ### The matchers -/

/-- A word class: the same counters, and a table of `n` states. -/
abbrev RClass (n fl : Nat) (x : Bits3 × WordClass) (y : Tbl × WordClass) : Prop :=
  Rep3 n fl n (fun _ => n) x.1 y.1 ∧ x.2 = y.2

/-- The blocks of the phrase matcher `pm` hold the sets of `p`. -/
structure RPM (pm : PM) (p : Noodle.PM) : Prop where
  expr : RExpr pm.expr p.expr
  fl : pm.fuzzLimit = p.fuzzLimit
  flE : p.fuzzLimit = p.expr.fuzz + 1
  sl : pm.statesLen = p.statesLen
  pos : 0 < p.statesLen
  start : Rep1 p.statesLen p.statesLen pm.start p.start
  classes : List.Forall₂ (RClass p.statesLen p.fuzzLimit) pm.classes p.classes
  wcs : pm.wordClasses = p.wordClasses

theorem RPM.flpos {pm : PM} {p : Noodle.PM} (h : RPM pm p) : 0 < p.fuzzLimit := by rw [h.flE]; omega

/-- The blocks of the word matcher `m` hold the sets of `w`. -/
structure RWM (m : WM) (w : Noodle.WM) : Prop where
  alive : m.alive = w.alive
  pm : RPM m.pm w.pm
  tables : List.Forall₂ (RT w.pm.expr) m.tables w.tables
  chars : m.tableChars = w.tableChars
  idx : m.wordIndex = w.wordIndex

/-- ... in the single-word phase: no state was removed yet. -/
structure RW (m : WM) (w : Noodle.WM) : Prop extends RWM m w where
  full : w.pm.statesLen = w.pm.expr.len

theorem new_rel {e : Expr} {a : Noodle.Expr} (h : RExpr e a) (k : Nat) :
    ∃ m, WM.new e k = .ok m ∧ RW m (Noodle.WM.new a k) := by
  obtain ⟨r, h1, h2⟩ := h.eps h.pos
  unfold WM.new PM.new
  rw [h1]
  simp only [bind_ok]
  have hn : Rep3 a.len (a.fuzz + 1) a.len (fun _ => a.len)
      (Bits.new3 e.states.length (e.fuzz + 1) e.states.length) (emptyTbl a.len (a.fuzz + 1)) := by
    rw [h.len, h.fuzz]
    exact rep3_new _ _ _ _ (fun _ _ => Nat.le_refl _)
  refine ⟨_, rfl, ⟨rfl, ⟨h, ?_, rfl, h.len, h.pos, h2, .cons ⟨hn, rfl⟩ .nil, rfl⟩, ?_, rfl, rfl⟩, rfl⟩
  · simp only [Noodle.WM.new, Noodle.PM.new, h.fuzz]
  · exact forall₂_replicate hn k

theorem entryIdx_rel {n fl : Nat} {cl : List (Bits3 × WordClass)} {cl' : List (Tbl × WordClass)}
    (h : List.Forall₂ (RClass n fl) cl cl') {t : Bits3} {T : Tbl} (ht : Rep3 n fl n (fun _ => n) t T) :
    (entryIdx cl t).1 = (Noodle.entryIdx cl' T).1 ∧
      List.Forall₂ (RClass n fl) (entryIdx cl t).2 (Noodle.entryIdx cl' T).2 := by
  unfold entryIdx Noodle.entryIdx
  rw [forall₂_findIdx? h (fun p => decide (p.1 = t)) (fun p => decide (p.1 = T)) (fun x y hxy => by
    rw [decide_eq_decide]; exact hxy.1.inj ht)]
  cases cl'.findIdx? (fun p => decide (p.1 = T)) with
  | some i => exact ⟨rfl, h⟩
  | none => exact ⟨h.length_eq, forall₂_append h (.cons ⟨ht, rfl⟩ .nil)⟩

theorem add_rel {n fl : Nat} (w : Word) (x : Bits3 × WordClass) (y : Tbl × WordClass) (h : RClass n fl x y) :
    RClass n fl (x.1, x.2.add w) (y.1, y.2.add w) := ⟨h.1, by rw [h.2]⟩

theorem insertWord_rel {pm : PM} {p : Noodle.PM} (h : RPM pm p) (w : Word) {t : Bits3} {T : Tbl}
    (ht : Rep3 p.statesLen p.fuzzLimit p.statesLen (fun _ => p.statesLen) t T) :
    RPM (pm.insertWord w t) (p.insertWord w T) := by
  obtain ⟨h1, h2⟩ := entryIdx_rel h.classes ht
  refine ⟨h.expr, h.fl, h.flE, h.sl, h.pos, h.start, ?_, ?_⟩
  · simp only [PM.insertWord, Noodle.PM.insertWord]
    rw [h1]
    exact forall₂_modify h2 _ _ (add_rel w) _
  · simp only [PM.insertWord, Noodle.PM.insertWord, h1, h.wcs]

theorem initTbl_rel {e : Expr} {a : Noodle.Expr} (h : RExpr e a) {t : Bits3} {T : Tbl} (ht : RT a t T) :
    ∃ t', initTbl e a.len t = .ok t' ∧ RT a t' (Noodle.initTbl a a.len (a.fuzz + 1)) := by
  unfold initTbl
  refine foldM_range_imp (fun k t => ∃ V : Tbl, RT a t V ∧
    ∀ i, i < a.len → V.row i = if i < k then (List.replicate (a.fuzz + 1) 0).set 0 (a.eps i)
      else List.replicate (a.fuzz + 1) 0) ?_
    ⟨_, ht.clear (fun _ _ => Nat.le_refl _), ?_⟩ ?_
  · rintro k hk u ⟨V, h1, h2⟩
    obtain ⟨r, h3, h4⟩ := h.eps hk
    rw [h3, bind_ok]
    obtain ⟨u', h5, h6⟩ := h1.modifyRow hk (Nat.succ_pos a.fuzz) (fun r' => Bits.union r' r) _
      (fun r' hr' => hr'.union h4 (Nat.le_refl _))
    rw [h5, ub_some]
    refine ⟨_, rfl, _, h6, ?_⟩
    intro i hi
    rw [row_set _ _ _ _ (by rw [h1.tlen]; exact hk), h2 i hi, h2 k hk, if_neg (Nat.lt_irrefl k)]
    by_cases hik : i = k
    · subst hik
      simp [Rows.at]
    · have : i < k + 1 ↔ i < k := by omega
      simp [hik, this]
  · intro i hi
    simp [Tbl.row, hi]
  · rintro t' ⟨V, h2, h3⟩
    have : V = Noodle.initTbl a a.len (a.fuzz + 1) := by
      apply tbl_ext (by simp [h2.tlen, Noodle.initTbl])
      intro i hi
      rw [h2.tlen] at hi
      rw [h3 i hi, if_pos hi]
      simp [Noodle.initTbl, Tbl.row, hi]
    rw [← this]
    exact h2

theorem initTables_rel {e : Expr} {a : Noodle.Expr} (h : RExpr e a) (pl : Nat) {ts : List Bits3} {Ts : List Tbl}
    (ht : List.Forall₂ (RT a) ts Ts) :
    ∃ ts', initTables e a.len pl ts = .ok ts' ∧
      List.Forall₂ (RT a) ts' (if pl = 0 then Ts.set 0 (Noodle.initTbl a a.len (a.fuzz + 1)) else Ts) := by
  unfold initTables
  split
  · cases ht with
    | nil => exact ⟨_, rfl, .nil⟩
    | cons h1 h2 =>
      obtain ⟨t', h3, h4⟩ := initTbl_rel h h1
      simp only [h3, bind_ok]
      exact ⟨_, rfl, .cons h4 h2⟩
  · exact ⟨_, rfl, ht⟩

theorem tblMatches_rel {pm : PM} {p : Noodle.PM} (h : RPM pm p) {t : Bits3} {T : Tbl}
    (ht : Rep3 p.statesLen p.fuzzLimit p.statesLen (fun _ => p.statesLen) t T) :
    tblMatches pm t = .ok (Noodle.tblMatches p T) := by
  unfold tblMatches Noodle.tblMatches
  rw [h.fl, h.sl]
  apply anyM_ok
  intro f hf
  obtain ⟨r, h1, h2⟩ := ht.row 0 h.pos f (List.mem_range.1 hf)
  rw [h1, ub_some, bind_ok, h2.contains (by have := h.pos; omega), ub_some]

theorem word_rel {m : WM} {w : Noodle.WM} (h : RW m w) (single : Bool) (x : Word) :
    RelE (fun p q => RW p.1 q.1 ∧ p.2 = q.2) (m.word single x) (w.word single x) := by
  have hfull := h.full
  have hflE := h.pm.flE
  obtain ⟨ts, h1, h2⟩ := initTables_rel h.pm.expr (commonPrefix x.chars w.tableChars) h.tables
  unfold WM.word Noodle.WM.word
  simp only [h.pm.sl, h.chars, hfull, hflE, h1, bind_ok]
  generalize (if commonPrefix x.chars w.tableChars = 0 then _ else w.tables) = Ts at *
  generalize commonPrefix x.chars w.tableChars = pl at *
  rcases forall₂_get? h2 pl with ⟨h3, h4⟩ | ⟨cur, C, h3, h4, h5⟩
  · rw [h3, h4]
    exact .error _
  · rw [h3, h4]
    simp only
    have hf := fillTable_rel h.pm.expr single (x.chars.drop pl) h5 (List.forall₂_drop (pl + 1) h2)
    revert hf
    generalize fillTable m.pm.expr single (x.chars.drop pl) cur (ts.drop (pl + 1)) = r
    generalize Noodle.fillTable w.pm.expr single (x.chars.drop pl) C (Ts.drop (pl + 1)) = s
    intro hf
    cases hf with
    | error y => exact .error _
    | ok hab =>
      rename_i a b
      obtain ⟨n, rest⟩ := a
      obtain ⟨n', rest'⟩ := b
      obtain ⟨rfl, hrest⟩ := hab
      simp only at hrest
      rw [bind_ok]
      simp only
      have htab : List.Forall₂ (RT w.pm.expr) (ts.take (pl + 1) ++ rest) (Ts.take (pl + 1) ++ rest') :=
        forall₂_append (List.forall₂_take _ h2) hrest
      by_cases hlt : pl + n < x.chars.length
      · rw [if_pos hlt, if_pos hlt]
        exact .ok ⟨⟨⟨h.alive, h.pm, htab, rfl, by simp only [h.idx]⟩, h.full⟩, rfl⟩
      · rw [if_neg hlt, if_neg hlt]
        rcases forall₂_get? htab x.chars.length with ⟨h6, h7⟩ | ⟨t, T, h6, h7, h8⟩
        · rw [h6, h7]
          exact .error _
        · rw [h6, h7]
          simp only
          have h8' : Rep3 w.pm.statesLen w.pm.fuzzLimit w.pm.statesLen (fun _ => w.pm.statesLen) t T := by
            rw [hfull, hflE]; exact h8
          rw [tblMatches_rel h.pm h8', bind_ok]
          exact .ok ⟨⟨⟨by simp only [h.alive], insertWord_rel h.pm x h8', htab, rfl, by simp only [h.idx]⟩, h.full⟩, rfl⟩

theorem loop_rel {m : WM} {w : Noodle.WM} (h : RW m w) (single : Bool) (clk : Clock) (cnt : Nat) (ws : List Word) :
    RelE (fun p q => RW p.1 q.1 ∧ p.2 = q.2) (m.loop single clk cnt ws) (w.loop single clk cnt ws) := by
  induction ws generalizing m w clk cnt with
  | nil => exact .ok ⟨h, rfl⟩
  | cons x ws ih =>
    unfold WM.loop Noodle.WM.loop
    generalize (if cnt % 256 = 0 then clk.read else (false, clk)) = rd
    simp only
    split
    · exact .ok ⟨h, rfl⟩
    · have hw := word_rel h single x
      revert hw
      generalize m.word single x = r
      generalize w.word single x = s
      intro hw
      cases hw with
      | error y => exact .error _
      | ok hab =>
        rename_i a b
        obtain ⟨m', b1⟩ := a
        obtain ⟨w', b2⟩ := b
        obtain ⟨h1, rfl⟩ := hab
        cases b1 with
        | true => exact .ok ⟨h1, rfl⟩
        | false => exact ih h1 _ _

theorem next_rel {m : WM} {w : Noodle.WM} (h : RW m w) (wl : List Word) (single : Bool) (clk : Clock) :
    RelE (fun p q => RW p.1 q.1 ∧ p.2 = q.2) (m.next wl single clk) (w.next wl single clk) := by
  unfold WM.next Noodle.WM.next
  rw [h.idx]
  exact loop_rel h single clk 0 _

theorem iterLast_rel {m : WM} {w : Noodle.WM} (h : RW m w) (wl : List Word) (single : Bool) (k : Nat) (last : Option Word) :
    RelE (fun p q => RW p.1 q.1 ∧ p.2 = q.2) (m.iterLast wl single k last) (w.iterLast wl single k last) := by
  induction k generalizing m w last with
  | zero => exact .error _
  | succ k ih =>
    unfold WM.iterLast Noodle.WM.iterLast
    have hw := next_rel h wl single none
    revert hw
    generalize m.next wl single none = r
    generalize w.next wl single none = s
    intro hw
    cases hw with
    | error y => exact .error _
    | ok hab =>
      rename_i a b
      obtain ⟨m', o1, c1⟩ := a
      obtain ⟨w', o2, c2⟩ := b
      obtain ⟨h1, h2⟩ := hab
      simp only [Prod.mk.injEq] at h2
      obtain ⟨rfl, rfl⟩ := h2
      cases o1 with
      | none => exact .ok ⟨h1, rfl⟩
      | some x => exact ih h1 _

theorem drain_rel {m : WM} {w : Noodle.WM} (h : RW m w) (wl : List Word) (single : Bool) :
    RelE (fun p q => RW p.1 q.1 ∧ p.2 = q.2) (m.drain wl single) (w.drain wl single) := by
  unfold WM.drain Noodle.WM.drain
  rw [h.idx]
  exact iterLast_rel h wl single _ _

end Noodle.Blk
