import Verif.Model.Query
/-
The evaluator of Model/Query.lean never takes the error `Crash.ub`, whatever its state.
-/
namespace Noodle
set_option autoImplicit false

/-- Not an access outside of an allocation. -/
def NoUb {α : Type} (x : Except Crash α) : Prop := ∀ c, x = .error c → c ≠ .ub

theorem NoUb.ok {α : Type} (a : α) : NoUb (.ok a : Except Crash α) := fun _ h => (by cases h)
theorem NoUb.index {α : Type} : NoUb (.error .index : Except Crash α) := fun _ h => (by cases h; decide)
theorem NoUb.assert {α : Type} : NoUb (.error .assert : Except Crash α) := fun _ h => (by cases h; decide)
theorem NoUb.fuel {α : Type} : NoUb (.error .fuel : Except Crash α) := fun _ h => (by cases h; decide)
theorem NoUb.pass {α β : Type} {x : Except Crash α} (h : NoUb x) {c : Crash} (e : x = .error c) :
    NoUb (.error c : Except Crash β) := fun d hd => (by cases hd; exact h c e)

theorem noUb_fillTable (e : Expr) (single : Bool) (cs : List Ch) (cur : Tbl) (rest : List Tbl) :
    NoUb (fillTable e single cs cur rest) := by
  induction cs generalizing cur rest with
  | nil => unfold fillTable; exact .ok _
  | cons c cs ih =>
    cases rest with
    | nil => exact .index
    | cons up rest =>
      unfold fillTable
      split
      · split
        · rename_i h; exact (ih _ _).pass h
        · exact .ok _
      · simp only
        split
        · exact .ok _
        · split
          · rename_i h; exact (ih _ _).pass h
          · exact .ok _

theorem noUb_word (m : WM) (single : Bool) (w : Word) : NoUb (m.word single w) := by
  unfold WM.word
  simp only
  split
  · exact .index
  · split
    · rename_i h; exact (noUb_fillTable _ _ _ _ _).pass h
    · split
      · exact .ok _
      · split
        · exact .index
        · exact .ok _

theorem noUb_loop (m : WM) (single : Bool) (clk : Clock) (cnt : Nat) (ws : List Word) : NoUb (m.loop single clk cnt ws) := by
  induction ws generalizing m clk cnt with
  | nil => exact .ok _
  | cons w ws ih =>
    unfold WM.loop
    generalize (if cnt % 256 = 0 then clk.read else (false, clk)) = rd
    simp only
    split
    · exact .ok _
    · split
      · rename_i h; exact (noUb_word _ _ _).pass h
      · exact .ok _
      · exact ih _ _ _

theorem noUb_iterLast (m : WM) (wl : List Word) (single : Bool) (k : Nat) (o : Option Word) :
    NoUb (m.iterLast wl single k o) := by
  induction k generalizing m o with
  | zero => exact .fuel
  | succ k ih =>
    unfold WM.iterLast
    split
    · rename_i h; exact (noUb_loop _ _ _ _ _).pass h
    · exact .ok _
    · exact ih _ _

theorem noUb_feed (single : Bool) (w : Word) (ms : List WM) (wl : List Word) : NoUb (feed single w ms wl) := by
  induction ms generalizing wl with
  | nil => exact .ok _
  | cons m ms ih =>
    unfold feed
    split
    · rename_i h; exact (noUb_iterLast _ _ _ _ _).pass h
    · split
      · rename_i h; exact (ih _).pass h
      · exact .ok _

theorem noUb_wordLoop (wl : List Word) (single : Bool) (k : Nat) (m : WM) (ms : List WM) (clk : Clock) :
    NoUb (wordLoop wl single k m ms clk) := by
  induction k generalizing m ms clk with
  | zero => exact .fuel
  | succ k ih =>
    unfold wordLoop
    split
    · rename_i h; exact (noUb_loop _ _ _ _ _).pass h
    · exact .ok _
    · split
      · rename_i h; exact (noUb_feed _ _ _ _).pass h
      · exact .ok _
      · exact ih _ _ _

theorem noUb_drainAll (ms : List WM) (wl : List Word) : NoUb (drainAll ms wl) := by
  induction ms generalizing wl with
  | nil => exact .ok _
  | cons m ms ih =>
    unfold drainAll
    split
    · rename_i h; exact (noUb_iterLast _ _ _ _ _).pass h
    · split
      · rename_i h; exact (ih _).pass h
      · exact .ok _

theorem noUb_foldl {α β : Type} (G : Except Crash α → β → Except Crash α) (h : ∀ x y, NoUb x → NoUb (G x y)) (l : List β)
    (x : Except Crash α) (hx : NoUb x) : NoUb (l.foldl G x) := by
  induction l generalizing x with
  | nil => exact hx
  | cons a l ih => exact ih _ (h _ _ hx)

theorem noUb_filterStep (pm : PM) (tr : List Nat) (cur : List Rows) : NoUb (filterStep pm tr cur) := by
  unfold filterStep
  apply noUb_foldl _ _ _ _ (.ok _)
  intro x y hx
  split
  · exact hx.pass rfl
  · split
    · exact .index
    · exact .ok _

theorem noUb_filterLoop (pm : PM) (tr : List Nat) (k w : Nat) (cur : List Rows) (q : List SearchPhase) :
    NoUb (filterLoop pm tr k w cur q) := by
  induction k generalizing w cur q with
  | zero => exact .ok _
  | succ k ih =>
    unfold filterLoop
    split
    · rename_i h; exact (noUb_filterStep _ _ _).pass h
    · exact ih _ _ _

theorem noUb_filterPhases (pm : PM) (q : List SearchPhase) : NoUb (pm.filterPhases q) := by
  unfold PM.filterPhases
  split
  · exact .ok _
  · exact noUb_filterLoop _ _ _ _ _ _

theorem noUb_filterAll (pms : List PM) (q : List SearchPhase) : NoUb (filterAll pms q) := by
  unfold filterAll
  apply noUb_foldl _ _ _ _ (.ok _)
  intro x y hx
  split
  · exact hx.pass rfl
  · exact noUb_filterPhases _ _

theorem noUb_filterFix (pms : List PM) (k : Nat) (q : List SearchPhase) (ch : Bool) : NoUb (filterFix pms k q ch) := by
  induction k generalizing q ch with
  | zero => exact .fuel
  | succ k ih =>
    unfold filterFix
    split
    · rename_i h; exact (noUb_filterAll _ _).pass h
    · split
      · exact .ok _
      · split
        · exact ih _ _
        · exact .ok _

theorem noUb_shrink (m : WM) (red : List (Option Nat)) : NoUb (m.shrink red) := by
  unfold WM.shrink
  simp only
  split
  · exact .assert
  · split
    · exact .index
    · split
      · exact .ok _
      · split
        · exact .assert
        · exact .ok _

theorem noUb_optimize (m : WM) (nl : List Word) (q : List SearchPhase) : NoUb (m.optimize nl q) := by
  unfold WM.optimize
  split
  · exact .assert
  · split
    · split
      · exact .ok _
      · exact .assert
    · simp only
      split
      · exact .assert
      · split
        · exact .index
        · unfold WM.reduce
          split
          · exact .assert
          · simp only
            split
            · exact .ok _
            · exact noUb_shrink _ _

theorem noUb_optimizePass (q : List SearchPhase) (ms : List WM) (al : List Word) : NoUb (optimizePass q ms al) := by
  induction ms generalizing al with
  | nil => exact .ok _
  | cons m ms ih =>
    unfold optimizePass
    split
    · rename_i h; exact (noUb_optimize _ _ _).pass h
    · split
      · split
        · exact .assert
        · split
          · exact .ok _
          · split
            · rename_i h; exact (ih _).pass h
            · exact .ok _
      · split
        · rename_i h; exact (ih _).pass h
        · exact .ok _

theorem noUb_optimizeLoop (k : Nat) (ms : List WM) (al : List Word) (q : List SearchPhase) :
    NoUb (optimizeLoop k ms al q) := by
  induction k generalizing ms al q with
  | zero => exact .fuel
  | succ k ih =>
    unfold optimizeLoop
    split
    · rename_i h; exact (noUb_filterFix _ _ _ _).pass h
    · split
      · exact .ok _
      · split
        · rename_i h; exact (noUb_optimizePass _ _ _).pass h
        · split
          · exact .ok _
          · split
            · exact .ok _
            · exact ih _ _ _

theorem noUb_mkPhrase (o : OptOut) : NoUb (mkPhrase o) := by
  unfold mkPhrase
  split
  · exact .ok _
  · split
    · exact .ok _
    · simp only
      split
      · exact .index
      · split
        · exact .assert
        · split
          · exact .ok _
          · exact .ok _

theorem noUb_plan (ms : List WM) (d : Nat) : NoUb (plan ms d) := by
  unfold plan
  split
  · exact .index
  · simp only
    split
    · exact .assert
    · split
      · rename_i h; exact (noUb_optimizeLoop _ _ _ _).pass h
      · exact .ok _
      · exact noUb_mkPhrase _

theorem noUb_stepByWordIndex (pm : PM) (wi : Nat) (p n : Rows) : NoUb (pm.stepByWordIndex wi p n) := by
  unfold PM.stepByWordIndex
  split
  · exact .index
  · split
    · exact .assert
    · split
      · exact .index
      · exact .ok _

theorem noUb_stepMatchers (wi : Nat) (ms : List PM) (P N : List Rows) : NoUb (stepMatchers wi ms P N) := by
  induction ms generalizing P N with
  | nil => unfold stepMatchers; exact .ok _
  | cons pm ms ih =>
    cases P with
    | nil => exact .index
    | cons p P =>
      cases N with
      | nil => exact .index
      | cons n N =>
        unfold stepMatchers
        split
        · rename_i h; exact (noUb_stepByWordIndex _ _ _ _).pass h
        · split
          · exact .ok _
          · split
            · rename_i h; exact (ih _ _).pass h
            · exact .ok _

theorem noUb_iter (ps : PS) : NoUb ps.iter := by
  unfold PS.iter
  split
  · split
    · rename_i h; exact (noUb_stepMatchers _ _ _ _).pass h
    · simp only
      split
      · rename_i h
        split at h
        · split at h
          · cases h
          · cases h
            exact .index
        · cases h
      · split
        · exact .ok _
        · exact .ok _
  · exact .index

theorem noUb_search (k : Nat) (ps : PS) (clk : Clock) (cnt : Nat) : NoUb (PS.loop k ps clk cnt) := by
  induction k generalizing ps clk cnt with
  | zero => exact .fuel
  | succ k ih =>
    unfold PS.loop
    split
    · rename_i h; exact (noUb_iter _).pass h
    · exact .ok _
    · exact .ok _
    · generalize (if (cnt + 1) % 256 = 0 then clk.read else (false, clk)) = rd
      simp only
      split
      · exact .ok _
      · exact ih _ _ _

theorem noUb_next (q : QState) (clk : Clock) : NoUb (q.next clk) := by
  unfold QState.next
  split
  · exact .ok _
  · split
    · exact .ok _
    · split
      · exact .index
      · simp only
        split
        · rename_i h; exact (noUb_wordLoop _ _ _ _ _ _).pass h
        · exact .ok _
        · split
          · exact .ok _
          · split
            · exact .ok _
            · split
              · rename_i h; exact (noUb_drainAll _ _).pass h
              · split
                · rename_i h; exact (noUb_plan _ _).pass h
                · exact .ok _
                · exact .ok _
  · split
    · exact .ok _
    · split
      · exact .assert
      · split
        · rename_i h; exact (noUb_search _ _ _ _).pass h
        · exact .ok _
        · exact .ok _
        · exact .ok _

theorem noUb_run (q : QState) (clks : List Clock) : NoUb (q.run clks) := by
  induction clks generalizing q with
  | nil => exact .ok _
  | cons c cs ih =>
    unfold QState.run
    split
    · rename_i h; exact (noUb_next _ _).pass h
    · split
      · rename_i h; exact (ih _).pass h
      · exact .ok _

theorem noUb_new (es : List Expr) (wl : List Word) (d : Nat) (l : Option Nat) : NoUb (QState.new es wl d l) := by
  unfold QState.new
  split
  · exact .assert
  · exact .ok _

end Noodle
