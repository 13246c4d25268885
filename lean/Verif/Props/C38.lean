import Verif.Props.C39
/-
C38: the gauge of active queries.
-/
namespace Noodle
open Spec
set_option autoImplicit false

/-! ### Interleavings -/

theorem gauge_append (a b : List Act) : gauge (a ++ b) = gauge a + gauge b := by
  induction a with
  | nil => simp [gauge]
  | cons x a ih => cases x <;> simp only [List.cons_append, gauge, ih] <;> omega

/-- The value of a gauge does not depend on the interleaving. -/
theorem gauge_interleaved {ls : List (List Act)} {l : List Act} (h : Interleaved ls l) : gauge l = (ls.map gauge).sum := by
  induction h with
  | done h =>
    rename_i ls
    induction ls with
    | nil => rfl
    | cons a ls ih =>
      rw [List.map_cons, List.sum_cons, ← ih fun l hl => h l (by simp [hl]), h a (by simp)]
      rfl
  | step _ ih =>
    rename_i x l r _
    cases x <;> simp only [gauge, ih, List.map_append, List.map_cons, List.sum_append, List.sum_cons] <;> omega

/-- A beginning of an interleaving is an interleaving of beginnings. -/
theorem interleaved_prefix {α : Type} {ls : List (List α)} {l : List α} (h : Interleaved ls l) :
    ∀ {p : List α}, p <+: l → ∃ ps : List (List α), List.Forall₂ (· <+: ·) ps ls ∧ Interleaved ps p := by
  have hnil : ∀ ls : List (List α), ∃ ps : List (List α), List.Forall₂ (· <+: ·) ps ls ∧ Interleaved ps [] := by
    intro ls
    refine ⟨ls.map fun _ => [], ?_, .done (by simp)⟩
    induction ls with
    | nil => exact .nil
    | cons a ls ih => exact .cons (List.nil_prefix) ih
  induction h with
  | done h =>
    intro p hp
    obtain rfl := List.prefix_nil.1 hp
    exact hnil _
  | step _ ih =>
    rename_i ls ms x l r _
    intro p hp
    cases p with
    | nil => exact hnil _
    | cons y p =>
      obtain ⟨rfl, hp'⟩ := List.cons_prefix_cons.1 hp
      obtain ⟨ps, h1, h2⟩ := ih hp'
      have h3 := List.forall₂_take_append ps ls (l :: ms) h1
      have h4 := List.forall₂_drop_append ps ls (l :: ms) h1
      rw [← List.take_append_drop ls.length ps] at h2
      cases hd : ps.drop ls.length with
      | nil => rw [hd] at h4; cases h4
      | cons b p2 =>
        rw [hd] at h4 h2
        cases h4 with
        | cons hb h5 =>
          exact ⟨ps.take ls.length ++ (y :: b) :: p2,
            List.rel_append h3 (.cons (List.cons_prefix_cons.2 ⟨rfl, hb⟩) h5), .step h2⟩

/-! ### C38 -/

/-- What the requests do to the gauge. -/
theorem request_acts {U : Unicode} {ds : Dicts} {a : List Act} {e : HandlerEnd} (h : Request U ds a e) :
    a = [] ∨ (e = .finished ∧ a = [.count, .start, .stop]) ∨ (e ≠ .finished ∧ a = [.count, .start]) := by
  cases h with
  | sync errorText query plaintext clks =>
    generalize syncBody U errorText ds query plaintext clks = r
    match r with
    | .ok none => exact .inr (.inr ⟨by simp [syncRun], rfl⟩)
    | .ok (some b) => exact .inr (.inl ⟨rfl, rfl⟩)
    | .error c => exact .inr (.inr ⟨by simp [syncRun], rfl⟩)
  | socket F P msg sends others ticks =>
    cases msg with
    | none => exact .inl rfl
    | some m =>
      right
      simp only [wsRun]
      generalize wsTalk F P U ds m others ticks = r
      obtain ⟨ms, e⟩ := r
      have key : ∀ e : HandlerEnd, (e = .finished ∧ (if e = .finished then [Act.count, .start, .stop] else [.count, .start]) = [.count, .start, .stop]) ∨
          (e ≠ .finished ∧ (if e = .finished then [Act.count, .start, .stop] else [.count, .start]) = [.count, .start]) := by
        intro e
        by_cases he : e = .finished
        · exact .inl ⟨he, if_pos he⟩
        · exact .inr ⟨he, if_neg he⟩
      cases sends with
      | none => exact key e
      | some n =>
        dsimp only
        split
        · exact .inr ⟨by simp, rfl⟩
        · exact key e

/-- C38: at any time, whatever the interleaving of the requests, the gauge is the number of requests that have begun and
have not come to their regular end: those running, and those that ended by a panic, a failed send, or (web sockets) a
syntax error. -/
theorem C38_gauge {U : Unicode} {ds : Dicts} {rs : List (List Act × HandlerEnd)} (h : ∀ r ∈ rs, Request U ds r.1 r.2)
    {l : List Act} (hl : Interleaved (rs.map Prod.fst) l) :
    gauge l = (rs.countP fun r => decide (.start ∈ r.1 ∧ r.2 ≠ .finished) : Nat) := by
  rw [gauge_interleaved hl, List.map_map]
  clear hl
  induction rs with
  | nil => rfl
  | cons r rs ih =>
    rw [List.map_cons, List.sum_cons, ih fun x hx => h x (by simp [hx]), List.countP_cons]
    obtain ⟨a, e⟩ := r
    rcases request_acts (h (a, e) (by simp)) with h1 | ⟨h1, h2⟩ | ⟨h1, h2⟩ <;> dsimp only at h1
    · subst h1; simp [gauge]
    · dsimp only at h2; subst h1 h2; simp [gauge]
    · dsimp only at h2; subst h2; simp [gauge, h1]; omega

/-- C38: when every request has come to its regular end the gauge is zero. -/
theorem C38_idle {U : Unicode} {ds : Dicts} {rs : List (List Act × HandlerEnd)} (h : ∀ r ∈ rs, Request U ds r.1 r.2)
    (he : ∀ r ∈ rs, r.2 = .finished) {l : List Act} (hl : Interleaved (rs.map Prod.fst) l) : gauge l = 0 := by
  rw [C38_gauge h hl, List.countP_eq_zero.2]
  · rfl
  · intro r hr
    simp [he r hr]

/-- C38: the gauge never goes below zero (it is unsigned), and never above the number of requests. -/
theorem C38_bounds {U : Unicode} {ds : Dicts} {rs : List (List Act × HandlerEnd)} (h : ∀ r ∈ rs, Request U ds r.1 r.2)
    {l p : List Act} (hl : Interleaved (rs.map Prod.fst) l) (hp : p <+: l) : 0 ≤ gauge p ∧ gauge p ≤ rs.length := by
  obtain ⟨ps, h1, h2⟩ := interleaved_prefix hl hp
  rw [gauge_interleaved h2]
  clear hl hp h2
  induction rs generalizing ps with
  | nil => cases h1; simp
  | cons r rs ih =>
    cases h1 with
    | cons ha h3 =>
      rename_i a ps
      have := ih (fun x hx => h x (by simp [hx])) ps h3
      rw [List.map_cons, List.sum_cons, List.length_cons]
      have hg : 0 ≤ gauge a ∧ gauge a ≤ 1 := by
        rcases request_acts (h r (by simp)) with h4 | ⟨_, h4⟩ | ⟨_, h4⟩
        · rw [h4] at ha; obtain rfl := List.prefix_nil.1 ha; simp [gauge]
        · rw [h4] at ha
          match a, ha with
          | [], _ => simp [gauge]
          | [x], ha => obtain ⟨rfl, _⟩ := List.cons_prefix_cons.1 ha; simp [gauge]
          | [x, y], ha =>
            obtain ⟨h5, ha⟩ := List.cons_prefix_cons.1 ha
            obtain ⟨h6, ha⟩ := List.cons_prefix_cons.1 ha
            rw [h5, h6]
            simp [gauge]
          | [x, y, z], ha =>
            obtain ⟨h5, ha⟩ := List.cons_prefix_cons.1 ha
            obtain ⟨h6, ha⟩ := List.cons_prefix_cons.1 ha
            obtain ⟨h7, ha⟩ := List.cons_prefix_cons.1 ha
            rw [h5, h6, h7]
            simp [gauge]
          | x :: y :: z :: u :: a, ha => have := ha.length_le; simp at this
        · rw [h4] at ha
          match a, ha with
          | [], _ => simp [gauge]
          | [x], ha => obtain ⟨rfl, _⟩ := List.cons_prefix_cons.1 ha; simp [gauge]
          | [x, y], ha =>
            obtain ⟨h5, ha⟩ := List.cons_prefix_cons.1 ha
            obtain ⟨h6, ha⟩ := List.cons_prefix_cons.1 ha
            rw [h5, h6]
            simp [gauge]
          | x :: y :: z :: a, ha => have := ha.length_le; simp at this
      push_cast
      omega

/-- C38: an HTTP request that is answered comes to its regular end, also when the answer is an error text. -/
theorem C38_http (r : Except Crash (Option (List Char))) (body : List Char) (h : r = .ok (some body)) :
    (syncRun r).2 = .finished := by subst h; rfl

theorem two_interleaved :
    Interleaved [[Act.count, .start], [.count, .start, .stop]] [.count, .count, .start, .start, .stop] := by
  have h5 : Interleaved ([[]] ++ [[]]) ([] : List Act) := .done (by simp)
  have h4 : Interleaved ([[]] ++ [[Act.stop]]) [Act.stop] := .step h5
  have h3 : Interleaved ([[]] ++ [[Act.start, Act.stop]]) [Act.start, Act.stop] := .step h4
  have h2 : Interleaved ([] ++ [[Act.start], [.start, .stop]]) [.start, .start, .stop] := .step h3
  have h1 : Interleaved ([[Act.start]] ++ [[.count, .start, .stop]]) [.count, .start, .start, .stop] := .step h2
  exact Interleaved.step (ls := []) (l := [Act.start]) h1

/-- C38: it is not true that the gauge returns to zero: a web socket on which a query with a syntax error arrives ends
without the update, and so does one whose client goes away while a message is sent. -/
theorem C38_counterexample :
    (wsRun ⟨id, fun i _ => i⟩ ⟨[], [], id⟩ asciiUnicode [] (some (some "(".toList)) none 0 []).1 = [.count, .start] ∧
    (wsRun ⟨id, fun i _ => i⟩ ⟨[], [], id⟩ asciiUnicode [] (some (some "(".toList)) none 0 []).2.2 = .failed ∧
    (∀ (F : Floats) (P : Prints) (U : Unicode) (ds : Dicts) (m : Option (List Char)) (others : Nat) (ticks : List Tick),
      (wsRun F P U ds (some m) (some 0) others ticks).1 = [.count, .start] ∧ (wsRun F P U ds (some m) (some 0) others ticks).2.2 = .failed) ∧
    ∃ l, Interleaved [[Act.count, .start], [.count, .start, .stop]] l ∧ gauge l = 1 := by
  refine ⟨by decide +kernel, by decide +kernel, fun F P U ds m others ticks => ?_,
    [.count, .count, .start, .start, .stop], ?_, rfl⟩
  · have hpos : 0 < (wsTalk F P U ds m others ticks).1.length := by
      unfold wsTalk
      split
      · simp
      · split
        · simp
        · simp
        · split
          · simp
          · split <;> simp
    simp only [wsRun]
    rw [if_pos hpos]
    exact ⟨rfl, rfl⟩
  · exact two_interleaved

/-- A case of `C38_gauge`: an HTTP request with an error and a web socket with one, interleaved. -/
example : gauge [.count, .count, .start, .start, .stop] = 1 := by
  have := C38_gauge (U := asciiUnicode) (ds := []) (rs := [([.count, .start], .failed), ([.count, .start, .stop], .finished)])
    (l := [.count, .count, .start, .start, .stop]) (by
      intro r hr
      rcases List.mem_cons.1 hr with rfl | hr
      · have := Request.socket (U := asciiUnicode) (ds := []) ⟨id, fun i _ => i⟩ ⟨[], [], id⟩ (some (some "(".toList)) none 0 []
        rwa [C38_counterexample.1, C38_counterexample.2.1] at this
      · obtain rfl := List.mem_singleton.1 hr
        have := Request.sync (U := asciiUnicode) (ds := []) id "(".toList true []
        have he : syncBody asciiUnicode id [] "(".toList true [] = .ok (some "(".toList) :=
          C39_error (n := 1) (by
            have : (match QueryAst.ofText asciiUnicode "(".toList with | .error (.syntax 1) => true | _ => false) = true := by
              decide +kernel
            split at this
            · assumption
            · cases this) []
        rwa [he] at this)
    two_interleaved
  exact this

end Noodle
