import Verif.Props.C18
import Verif.Spec.Edit
/-
C12–C16: which words match an expression.
-/
namespace Noodle
open Spec List
set_option autoImplicit false

/-! ### C12 -/

theorem edit_zero {w u : List Ch} : Edit 0 w u ↔ w = u := by
  constructor
  · intro h
    generalize hk : 0 = k at h
    induction h with
    | nil => rfl
    | keep c _ ih => rw [ih hk]
    | delete => omega
    | change => omega
    | insert => omega
  · rintro rfl
    induction w with
    | nil => exact .nil
    | cons c w ih => exact .keep c ih

/-- With fuzz 0 a phrase matches iff the automaton accepts its visible symbols. -/
theorem C12_matches {e : Expr} (h : e.fuzz = 0) (w : List Ch) : Matches e w ↔ Accepts e (visible e w) := by
  constructor
  · rintro ⟨u, k, h1, h2, h3⟩
    obtain rfl : k = 0 := by omega
    rw [edit_zero.1 h3]; exact h1
  · intro h1
    exact ⟨_, 0, h1, by omega, edit_zero.2 rfl⟩

/-- C12: with fuzz 0, a completed unlimited session for one expression reports a word iff it is in the word list and
the expression's automaton accepts the word's symbols without the ignored ones. -/
theorem C12_exact {e : Expr} {wl : List Word} (h : Ready [e] wl) (h0 : e.fuzz = 0) {depth : Nat} {clks : List Clock}
    {rs : List Resp} (hs : Session [e] wl depth none clks rs) (hc : Completed rs) (w : Word) :
    [w] ∈ reported rs ↔ w ∈ wl ∧ Accepts e (visible e w.chars) := by
  rw [C19_iff h hs hc]
  simp [C12_matches h0]

/-! ### C13 -/

/-- C13: word ends are invisible to an expression that ignores them: two phrases with the same symbols apart from
word ends match alike. -/
theorem C13_boundaries {e : Expr} (h : e.ignWB = true) {w w' : List Ch}
    (hw : w.filter (fun c => c != 27) = w'.filter (fun c => c != 27)) : Matches e w ↔ Matches e w' := by
  have hv : ∀ v : List Ch, visible e v = visible e (v.filter (fun c => c != 27)) := by
    intro v
    unfold visible
    rw [List.filter_filter]
    apply List.filter_congr
    intro c _
    rw [h]
    cases hc : (c == 27) <;> simp [bne, hc]
  unfold Matches
  rw [hv w, hv w', hw]

/-- C13: likewise for punctuation. -/
theorem C13_punctuation {e : Expr} (h : e.ignPunct = true) {w w' : List Ch}
    (hw : w.filter (fun c => c != 26) = w'.filter (fun c => c != 26)) : Matches e w ↔ Matches e w' := by
  have hv : ∀ v : List Ch, visible e v = visible e (v.filter (fun c => c != 26)) := by
    intro v
    unfold visible
    rw [List.filter_filter]
    apply List.filter_congr
    intro c _
    rw [h]
    cases hc : (c == 26) <;> simp [bne, hc]
  unfold Matches
  rw [hv w, hv w', hw]

/-- C13, as a user sees it: when word ends and punctuation are ignored, two entries of the word list with the same
letters are reported together. -/
theorem C13_session {es : List Expr} {wl : List Word} (h : Ready es wl)
    (hi : ∀ e ∈ es, e.ignWB = true ∧ e.ignPunct = true) {depth : Nat} {clks : List Clock} {rs : List Resp}
    (hs : Session es wl depth none clks rs) (hc : Completed rs) {w w' : Word} (hw : w ∈ wl) (hw' : w' ∈ wl)
    (hl : w.chars.filter (fun c => c.val < 26) = w'.chars.filter (fun c => c.val < 26)) :
    [w] ∈ reported rs ↔ [w'] ∈ reported rs := by
  have key : ∀ e ∈ es, Matches e w.chars ↔ Matches e w'.chars := by
    intro e he
    obtain ⟨h1, h2⟩ := hi e he
    have hv : ∀ v : List Ch, visible e v = v.filter (fun c => c.val < 26) := by
      intro v
      unfold visible
      apply List.filter_congr
      intro c _
      rw [h1, h2, Bool.eq_iff_iff]
      simp only [Bool.true_and, Bool.not_eq_true', Bool.or_eq_false_iff, decide_eq_true_eq]
      constructor
      · rintro ⟨a, b⟩
        have a' : c ≠ 27 := by simpa using a
        have b' : c ≠ 26 := by simpa using b
        have := c.isLt
        have h27 : c.val ≠ 27 := fun hc => a' (Fin.ext hc)
        have h26 : c.val ≠ 26 := fun hc => b' (Fin.ext hc)
        omega
      · intro hlt
        constructor <;> rw [beq_eq_false_iff_ne] <;> rintro rfl <;> exact absurd hlt (by decide)
    unfold Matches
    rw [hv, hv, hl]
  rw [C19_iff h hs hc, C19_iff h hs hc]
  simp only [hw, hw', true_and]
  exact forall₂_congr key

/-! ### C14 -/

theorem lev_cons (a b : Ch) (u v : List Ch) : lev (a :: u) (b :: v) =
    min ((if a = b then 0 else 1) + lev u v) (min (1 + lev u (b :: v)) (1 + lev (a :: u) v)) := by
  rw [lev]

theorem lev_nil_right (u : List Ch) : lev u [] = u.length := by cases u <;> simp [lev]

theorem lev_delete (c : Ch) (w u : List Ch) : lev (c :: w) u ≤ lev w u + 1 := by
  cases u with
  | nil => rw [lev_nil_right, lev_nil_right, List.length_cons]
  | cons b u => rw [lev_cons]; omega

theorem lev_insert (x : Ch) (w u : List Ch) : lev w (x :: u) ≤ lev w u + 1 := by
  cases w with
  | nil => simp [lev]
  | cons a w => rw [lev_cons]; omega

theorem lev_same (c : Ch) (w u : List Ch) : lev (c :: w) (c :: u) ≤ lev w u := by
  rw [lev_cons, if_pos rfl]; omega

theorem lev_subst (c x : Ch) (w u : List Ch) : lev (c :: w) (x :: u) ≤ lev w u + 1 := by
  rw [lev_cons]; split <;> omega

theorem edit_lev {k : Nat} {w u : List Ch} (h : Edit k w u) : lev w u ≤ k := by
  induction h with
  | nil => simp [lev]
  | keep c _ ih => exact (lev_same _ _ _).trans ih
  | @delete k w u c _ ih => have := lev_delete c w u; omega
  | @change k w u c x _ _ ih => have := lev_subst c x w u; omega
  | @insert k w u c x _ _ ih =>
    have h1 := lev_insert x (c :: w) (c :: u)
    have h2 := lev_same c w u
    omega

/-- C14: what an expression matches is within Levenshtein distance `fuzz` of a string that it accepts exactly, over the
symbols that are not ignored. -/
theorem C14_matches {e : Expr} {w : List Ch} (h : Matches e w) : ∃ u, Accepts e u ∧ lev (visible e w) u ≤ e.fuzz := by
  obtain ⟨u, k, h1, h2, h3⟩ := h
  exact ⟨u, h1, (edit_lev h3).trans h2⟩

/-- C14: so is every word reported by a session. -/
theorem C14_words {es : List Expr} {wl : List Word} (h : Ready es wl) {depth : Nat} {limit : Option Nat}
    {clks : List Clock} {rs : List Resp} (hs : Session es wl depth limit clks rs) :
    ∀ w : Word, [w] ∈ reported rs → ∀ e ∈ es, ∃ u, Accepts e u ∧ lev (visible e w.chars) u ≤ e.fuzz :=
  fun w hw e he => C14_matches ((C23_words h hs w hw).2 e he)

/-- C14 (partial: sessions that gave up optimising a query of several expressions are excluded): every phrase reported by
a session is within Levenshtein distance `fuzz` of a string that the expression accepts exactly, over the symbols that are
not ignored. -/
theorem C14_close_partial {es : List Expr} {wl : List Word} (h : Ready es wl) {depth : Nat} {limit : Option Nat}
    {clks : List Clock} {rs : List Resp} (hs : Session es wl depth limit clks rs) (hg : ¬ Unsettled es rs) :
    ∀ ws ∈ reported rs, ∀ e ∈ es, ∃ u, Accepts e u ∧ lev (visible e (charsOf ws)) u ≤ e.fuzz := by
  intro ws hws e he
  obtain ⟨_, _, _, h4⟩ := C23_sound_partial h hs hg ws hws
  exact C14_matches (h4 e he)

/-! ### C15 -/

/-- The same expression with another fuzz level. -/
def Expr.withFuzz (e : Expr) (k : Nat) : Expr := { e with fuzz := k }

theorem reads_withFuzz {e : Expr} {k : Nat} {s d : Nat} {u : List Ch} :
    Reads (e.withFuzz k) s u d ↔ Reads e s u d := by
  constructor
  · intro h
    induction h with
    | nil s => exact .nil s
    | cons h1 _ ih => exact .cons h1 ih
  · intro h
    induction h with
    | nil s => exact .nil s
    | cons h1 _ ih => exact .cons h1 ih

/-- Raising the fuzz level keeps every match. -/
theorem C15_matches {e : Expr} {j k : Nat} (hjk : j ≤ k) {w : List Ch} (h : Matches (e.withFuzz j) w) :
    Matches (e.withFuzz k) w := by
  obtain ⟨u, i, ⟨s, h1, h1'⟩, h2, h3⟩ := h
  have h2' : i ≤ j := h2
  exact ⟨u, i, ⟨s, h1, reads_withFuzz.2 (reads_withFuzz.1 h1')⟩, (by show i ≤ k; omega), h3⟩

theorem wf_withFuzz {e : Expr} (h : WF e) (k : Nat) : WF (e.withFuzz k) :=
  ⟨h.nonempty, h.next_lt, h.eps_lt, h.refl, h.trans⟩

/-- C15: raising the fuzz level of the expressions removes no single-word result. -/
theorem C15_words {es : List Expr} {wl : List Word} (h : Ready es wl) (j k : Expr → Nat) (hjk : ∀ e, j e ≤ k e)
    {depth depth' : Nat} {clks clks' : List Clock} {rs rs' : List Resp}
    (hs : Session (es.map fun e => e.withFuzz (j e)) wl depth none clks rs) (hc : Completed rs)
    (hs' : Session (es.map fun e => e.withFuzz (k e)) wl depth' none clks' rs') (hc' : Completed rs') (w : Word) :
    [w] ∈ reported rs → [w] ∈ reported rs' := by
  have hr : ∀ f : Expr → Nat, Ready (es.map fun e => e.withFuzz (f e)) wl := by
    intro f
    refine ⟨by simpa using h.nonempty, ?_, h.sorted⟩
    intro e he
    obtain ⟨e', he', rfl⟩ := List.mem_map.1 he
    exact wf_withFuzz (h.wf e' he') _
  rw [C19_iff (hr j) hs hc, C19_iff (hr k) hs' hc']
  rintro ⟨h1, h2⟩
  refine ⟨h1, ?_⟩
  intro e he
  obtain ⟨e', he', rfl⟩ := List.mem_map.1 he
  exact C15_matches (hjk e') (h2 _ (List.mem_map_of_mem he'))

/-- C15: raising the fuzz level removes no phrase either, apart from the one phrase that C25 allows to be lost. -/
theorem C15_phrases_partial {es : List Expr} {wl : List Word} (h : Ready es wl) (j k : Expr → Nat) (hjk : ∀ e, j e ≤ k e)
    {depth : Nat} {clks clks' : List Clock} {rs rs' : List Resp} {limit : Option Nat}
    (hs : Session (es.map fun e => e.withFuzz (j e)) wl depth limit clks rs) (hg : ¬ Unsettled es rs)
    (hs' : Session (es.map fun e => e.withFuzz (k e)) wl depth none clks' rs') (hc' : Completed rs')
    (hg' : ¬ Unsettled es rs') :
    ∃ d w, 2 ≤ d ∧ ∀ ws ∈ reported rs, ws = List.replicate d w ∨ ws ∈ reported rs' := by
  have hr : ∀ f : Expr → Nat, Ready (es.map fun e => e.withFuzz (f e)) wl := by
    intro f
    refine ⟨by simpa using h.nonempty, ?_, h.sorted⟩
    intro e he
    obtain ⟨e', he', rfl⟩ := List.mem_map.1 he
    exact wf_withFuzz (h.wf e' he') _
  have hA : ∀ ws ∈ reported rs, Answer (es.map fun e => e.withFuzz (k e)) wl depth ws := by
    intro ws hws
    obtain ⟨a, b, c, d⟩ := C23_sound_partial (hr j) hs (by simpa [Unsettled] using hg) ws hws
    refine ⟨a, b, c, ?_⟩
    intro e he
    obtain ⟨e', he', rfl⟩ := List.mem_map.1 he
    exact C15_matches (hjk e') (d _ (List.mem_map_of_mem he'))
  rcases C25_partial (hr k) hs' hc' (by simpa [Unsettled] using hg') with hx | ⟨d, w, hd, hx⟩
  · exact ⟨2, exA, Nat.le_refl _, fun ws hws => Or.inr (hx ws (hA ws hws))⟩
  · refine ⟨d, w, hd, fun ws hws => ?_⟩
    by_cases hr : ws = List.replicate d w
    · exact Or.inl hr
    · exact Or.inr (hx ws (hA ws hws) hr)

/-! ### C16 -/

theorem edit_differ {k : Nat} {w u : List Ch} (h : Differ k w u) : Edit k w u := by
  induction h with
  | nil => exact .nil
  | same c _ ih => exact .keep c ih
  | diff c x _ hx _ ih => exact .change c x hx ih

theorem edit_sublist {w u : List Ch} (h : u <+ w) : Edit (w.length - u.length) w u := by
  induction h with
  | slnil => exact .nil
  | @cons u w c h ih =>
    have := h.length_le
    have heq : (c :: w).length - u.length = (w.length - u.length) + 1 := by simp; omega
    rw [heq]; exact .delete c ih
  | @cons_cons u w c h ih => simpa using ih.keep c

theorem edit_refl (u : List Ch) : Edit 0 u u := edit_zero.2 rfl

theorem edit_append {k k' : Nat} {w w' u u' : List Ch} (h : Edit k w u) (h' : Edit k' w' u') :
    Edit (k + k') (w ++ w') (u ++ u') := by
  induction h with
  | nil => simpa using h'
  | keep c _ ih => exact .keep c ih
  | delete c _ ih => rw [Nat.add_right_comm]; exact .delete c ih
  | change c x hx _ ih => rw [Nat.add_right_comm]; exact .change c x hx ih
  | insert c x hx _ ih => rw [Nat.add_right_comm]; exact .insert c x hx ih

/-- C16 (partial; the full claim is false, see `C16_counterexample`): words with up to `fuzz` wrong letters match. -/
theorem C16_wrong_letters_partial {e : Expr} {w u : List Ch} {k : Nat} (h : Accepts e u) (hk : k ≤ e.fuzz)
    (hd : Differ k (visible e w) u) : Matches e w := ⟨u, k, h, hk, edit_differ hd⟩

/-- C16 (partial): words with up to `fuzz` superfluous symbols match. -/
theorem C16_extra_letters_partial {e : Expr} {w u : List Ch} (h : Accepts e u) (hs : u <+ visible e w)
    (hk : (visible e w).length - u.length ≤ e.fuzz) : Matches e w := ⟨u, _, h, hk, edit_sublist hs⟩

/-- C16 (partial): words with one missing letter match, unless it is missing at the very end. -/
theorem C16_missing_letter_partial {e : Expr} {w a b : List Ch} {c x : Ch} (hx : x.val < 26)
    (h : Accepts e (a ++ x :: c :: b)) (hw : visible e w = a ++ c :: b) (hk : 1 ≤ e.fuzz) : Matches e w := by
  refine ⟨_, 1, h, hk, ?_⟩
  rw [hw]
  have := edit_append (edit_refl a) (Edit.insert c x hx (edit_refl b))
  simpa using this

/-- C16: the exact relation: in a completed unlimited session a listed word is reported iff it can be turned, one
edit at most per symbol (keep, drop, replace by a letter, put one letter in front), into an accepted string. -/
theorem C16_exact {e : Expr} {wl : List Word} (h : Ready [e] wl) {depth : Nat} {clks : List Clock} {rs : List Resp}
    (hs : Session [e] wl depth none clks rs) (hc : Completed rs) (w : Word) :
    [w] ∈ reported rs ↔ w ∈ wl ∧ ∃ u k, Accepts e u ∧ k ≤ e.fuzz ∧ Edit k (visible e w.chars) u := by
  rw [C19_iff h hs hc]
  simp [Matches]

/-- C16: the full claim is false: `ab !1` does not report the word `a`, although `a` is one edit away from `ab`. -/
theorem C16_counterexample :
    ∃ rs, Session [exAB.withFuzz 1] [exA] 1 none [none] rs ∧ Completed rs ∧ [exA] ∉ reported rs ∧
      ∃ u, Accepts (exAB.withFuzz 1) u ∧ lev (visible (exAB.withFuzz 1) exA.chars) u ≤ (exAB.withFuzz 1).fuzz := by
  refine ⟨[.complete], session_of_run (by decide +kernel), by simp [Completed], by simp [reported], [0, 1], ?_, ?_⟩
  · refine ⟨0, by decide, ?_⟩
    exact .cons (m := 1) ⟨⟨1, CharSet.ofCh 0, 1⟩, rfl, by decide, by decide⟩
      (.cons (m := 2) ⟨⟨2, CharSet.ofCh 1, 2⟩, rfl, by decide, by decide⟩ (.nil 2))
  · have hv : visible (exAB.withFuzz 1) exA.chars = [0] := by decide
    rw [hv]
    simp [lev, Expr.withFuzz]

/-- The automaton of the query `bba !2`. -/
def exBBA : Expr :=
  { states := [⟨1, CharSet.ofCh 1, 1⟩, ⟨2, CharSet.ofCh 1, 2⟩, ⟨4, CharSet.ofCh 0, 3⟩, ⟨8, CharSet.ofCh 27, 3⟩]
    ignWB := true, ignPunct := true, fuzz := 2 }
/-- C16: neither are two letters found that are missing next to each other: `bba !2` does not report `a`. -/
example : Session [exBBA] [exA] 1 none [none] [.complete] := session_of_run (by decide +kernel)
example : lev [0] [1, 1, 0] = 2 := by simp [lev]
/-- With fuzz 1, `ab` finds `b` (a letter missing in front), `ab` with a wrong letter and `ab` with one too many. -/
example : Session [exAB.withFuzz 1] [exB, ⟨0, [0, 2, 27], "ac", 1⟩, ⟨0, [0, 2, 1, 27], "acb", 1⟩, ⟨0, [2, 2, 27], "cc", 1⟩]
    1 none [none, none, none, none]
    [.matched [exB], .matched [⟨0, [0, 2, 27], "ac", 1⟩], .matched [⟨0, [0, 2, 1, 27], "acb", 1⟩], .complete] :=
  session_of_run (by decide +kernel)
example : Ready [exAB.withFuzz 1] [exA, exB] :=
  ⟨by simp, by simpa using wf_withFuzz exAB_wf 1, by simp [exA, exB]⟩

end Noodle
