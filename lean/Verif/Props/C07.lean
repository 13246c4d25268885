import Verif.Proofs.RawTame
import Verif.Proofs.BuildFits
import Verif.Proofs.Decide
import Verif.Props.C06
import Verif.Props.C12
/-
C07 - C11: the compiler. Its correctness is proved on the fragment `tame` (`Verif/Spec/Fragment.lean`), against the
documented meaning `Lang` (`Verif/Spec/Lang.lean`); outside the fragment the compiler does fail, and the witnesses
below show how.
-/
namespace Noodle
open Spec Witness
set_option autoImplicit false

/-! ### C07 -/

/-- C07, on the fragment: compiling an expression (of fewer than 16384 states) succeeds, and the automaton accepts
exactly the strings the expression stands for (followed by word ends). Missing from the full property: expressions
outside the fragment, for which it is false in general (`C07_counterexample_lost`, `C07_counterexample_extra`). -/
theorem C07_language_partial {a : ExprAst} (h : tame a.root = true) (hs : states a.root < 16384) :
    ∃ e, fromAst a = .ok e ∧ ∀ w, Accepts e w ↔ Denotes a.root w :=
  fromAst_tame h hs

/-- The symbols of a word an expression with these options looks at: all, but word ends (apostrophes) only when they
are explicit. -/
def looksAt (o : ExprOptions) (w : List Ch) : List Ch :=
  w.filter fun c => decide (c.val < 26) || (o.explicitWB.getD false && decide (c.val = 27)) ||
    (o.explicitPunct.getD false && decide (c.val = 26))

theorem visible_fromAst {a : ExprAst} {e : Expr} (h : fromAst a = .ok e) (w : List Ch) :
    visible e w = looksAt a.options w ∧ e.fuzz = a.options.fuzz.getD 0 := by
  unfold fromAst at h
  cases h1 : rawStates a.root with
  | error x => rw [h1] at h; cases h
  | ok ss =>
    rw [h1] at h
    simp only [] at h
    cases h2 : optimize ss with
    | error x => rw [h2] at h; cases h
    | ok ss' =>
      rw [h2] at h
      cases h
      refine ⟨?_, rfl⟩
      unfold visible looksAt
      apply List.filter_congr
      intro c _
      have hc := c.isLt
      have e1 : (c == (27 : Ch)) = decide (c.val = 27) := by
        rw [Bool.eq_iff_iff, beq_iff_eq, decide_eq_true_eq, Fin.ext_iff]; rfl
      have e2 : (c == (26 : Ch)) = decide (c.val = 26) := by
        rw [Bool.eq_iff_iff, beq_iff_eq, decide_eq_true_eq, Fin.ext_iff]; rfl
      simp only [e1, e2]
      by_cases h1 : c.val = 27
      · simp [h1]
      · by_cases h2 : c.val = 26
        · simp [h2]
        · have : c.val < 26 := by omega
          simp [h1, h2, this]

/-- Compiling exact expressions of the fragment: the automata match a phrase iff every expression stands for it. -/
theorem compile_all : ∀ as : List ExprAst,
    (∀ a ∈ as, tame a.root = true ∧ states a.root < 16384 ∧ a.options.fuzz.getD 0 = 0) →
    ∃ es, as.mapM fromAst = .ok es ∧
      ∀ w, (∀ e ∈ es, Matches e w) ↔ ∀ a ∈ as, Denotes a.root (looksAt a.options w) := by
  intro as
  induction as with
  | nil => intro _; exact ⟨[], rfl, by simp⟩
  | cons a as ih =>
    intro ht
    obtain ⟨h1, h2, h3⟩ := ht a (by simp)
    obtain ⟨e, he, hacc⟩ := C07_language_partial h1 h2
    obtain ⟨es, hes, hm⟩ := ih fun b hb => ht b (by simp [hb])
    refine ⟨e :: es, ?_, fun w => ?_⟩
    · rw [List.mapM_cons, he, hes]; rfl
    · obtain ⟨hv, hf⟩ := visible_fromAst he w
      rw [List.forall_mem_cons, List.forall_mem_cons, hm, C12_matches (hf.trans h3), hacc, hv]

theorem edit_none {x u : List Ch} (h : Edit 0 x u) : u = x := by
  generalize hk : 0 = k at h
  induction h with
  | nil => rfl
  | keep c _ ih => rw [ih hk]
  | delete | change | insert => omega

/-- A syntax tree with these options stands for the word or phrase `w`, up to the number of edits its options allow. -/
def Near (e : ExprAst) (w : List Ch) : Prop :=
  ∃ u k, Denotes e.root u ∧ k ≤ e.options.fuzz.getD 0 ∧ Edit k (looksAt e.options w) u

theorem near_exact {e : ExprAst} (h : e.options.fuzz.getD 0 = 0) (w : List Ch) :
    Near e w ↔ Denotes e.root (looksAt e.options w) := by
  constructor
  · rintro ⟨u, k, h1, h2, h3⟩
    obtain rfl : k = 0 := by omega
    rw [edit_none h3] at h1
    exact h1
  · intro h1
    exact ⟨_, 0, h1, Nat.zero_le _, edit_refl _⟩

/-- Compiling expressions of the fragment: the automata match a phrase iff every expression stands for it. -/
theorem compile_near : ∀ as : List ExprAst, (∀ a ∈ as, tame a.root = true ∧ states a.root < 16384) →
    ∃ es, as.mapM fromAst = .ok es ∧ ∀ w, (∀ e ∈ es, Matches e w) ↔ ∀ a ∈ as, Near a w := by
  intro as
  induction as with
  | nil => intro _; exact ⟨[], rfl, by simp⟩
  | cons a as ih =>
    intro ht
    obtain ⟨h1, h2⟩ := ht a (by simp)
    obtain ⟨e, he, hacc⟩ := C07_language_partial h1 h2
    obtain ⟨es, hes, hm⟩ := ih fun b hb => ht b (by simp [hb])
    refine ⟨e :: es, ?_, fun w => ?_⟩
    · rw [List.mapM_cons, he, hes]; rfl
    · obtain ⟨hv, hf⟩ := visible_fromAst he w
      rw [List.forall_mem_cons, List.forall_mem_cons, hm]
      simp only [Matches, Near, hacc, hv, hf]

/-- C07, end to end on the fragment: a completed run of a query, all of whose expressions are in the fragment,
reports as single words exactly the words of the list that every expression stands for, up to the number of edits it
allows (`Near`; with fuzz 0, exactly: `near_exact`). -/
theorem C07_words_partial {as : List ExprAst} (hne : as ≠ [])
    (ht : ∀ a ∈ as, tame a.root = true ∧ states a.root < 16384) {wl : List Word}
    (hw : wl.Pairwise fun a b => a.tranche ≤ b.tranche) :
    ∃ es, as.mapM fromAst = .ok es ∧ ∀ {depth : Nat} {clks : List Clock} {rs : List Resp},
      Session es wl depth none clks rs → Completed rs → ∀ w : Word,
        ([w] ∈ reported rs ↔ w ∈ wl ∧ ∀ a ∈ as, Near a w.chars) := by
  obtain ⟨es, hes, hm⟩ := compile_near as ht
  refine ⟨es, hes, fun hs hc w => ?_⟩
  rw [C19_iff (C06_ready hne hes hw) hs hc, hm]

/-- C07, end to end on the fragment, for phrases: every reported phrase is made of words of the list, and every
expression stands for it (its words' symbols, one word after the other), up to the edits it allows; and a completed run without a limit reports
every such phrase within the depth limit, when no word repeated twice or more is one. (Without that last condition the
run may lose a phrase: `C25_counterexample`.) -/
theorem C07_phrases_partial {as : List ExprAst} (hne : as ≠ [])
    (ht : ∀ a ∈ as, tame a.root = true ∧ states a.root < 16384) {wl : List Word}
    (hw : wl.Pairwise fun a b => a.tranche ≤ b.tranche) :
    ∃ es, as.mapM fromAst = .ok es ∧ ∀ {depth : Nat} {limit : Option Nat} {clks : List Clock} {rs : List Resp},
      Session es wl depth limit clks rs → ¬ Unsettled es rs →
        (∀ ws ∈ reported rs, (∀ w ∈ ws, w ∈ wl) ∧ ∀ a ∈ as, Near a (charsOf ws)) ∧
        (limit = none → Completed rs →
          (∀ d w, 2 ≤ d → w ∈ wl → ∃ a ∈ as, ¬ Near a (charsOf (List.replicate d w))) →
          ∀ ws, ws ≠ [] → ws.length ≤ max depth 1 → (∀ w ∈ ws, w ∈ wl) →
            (∀ a ∈ as, Near a (charsOf ws)) → ws ∈ reported rs) := by
  obtain ⟨es, hes, hm⟩ := compile_near as ht
  refine ⟨es, hes, fun hs hg => ⟨fun ws hws => ?_, ?_⟩⟩
  · obtain ⟨_, _, h3, h4⟩ := C23_sound_partial (C06_ready hne hes hw) hs hg ws hws
    exact ⟨h3, (hm _).1 h4⟩
  · rintro rfl hc hrep ws h1 h2 h3 h4
    refine (C25_exact (C06_ready hne hes hw) hs hc hg ?_ ws).2 ⟨h1, h2, h3, (hm _).2 h4⟩
    rintro d w hd ⟨_, _, k3, k4⟩
    obtain ⟨a, ha, hna⟩ := hrep d w hd (k3 w (List.mem_replicate.2 ⟨by omega, rfl⟩))
    exact hna ((hm _).1 k4 a ha)

/-- C07: the automaton before optimisation is right for the larger fragment `plain` (all repetitions). -/
theorem C07_unoptimised_partial {a : Ast} (h : plain a = true) (hs : states a < 16384) :
    ∃ ss, rawStates a = .ok ss ∧ ∀ w, Accept ss w ↔ Denotes a w :=
  ⟨_, rawStates_eq h hs, raw_accept h⟩

/-- The fragment is not trivial: `x((a|[bc](yz)?b)c){1,3}[^z]+(abc:^)(ab)*` belongs to it, -/
example : tame (.seq [x, .rep (.seq [.alts [a, .seq [.cls 6#32, opt (.seq [y, z]), b]], c]) 1 (some 3),
    plus (.cls 0x1ffffff#32), .substr [a, b, c], star (.seq [a, b])]) = true := by decide +kernel

/-- and so does `(a?b*c?){2,4}(a|b(x|yz)c|b?)((x|y)z)*((a?b)?c*){0,2}`. -/
example : tame (.seq [.rep (.seq [opt a, star b, opt c]) 2 (some 4),
    .alts [a, .seq [b, .alts [x, .seq [y, z]], c], opt b], star (.seq [.alts [x, y], z]),
    .rep (.seq [opt (.seq [opt a, b]), star c]) 0 (some 2)]) = true := by decide +kernel

/-- So do loops over terms with optional parts, `(ab?c*d)+` and `((a|b)*c{2}){3,}`, and a loop over a choice at the
start, as in `((a|bc)x)*y`. -/
example : tame (plus (.seq [a, opt b, star c, x])) = true ∧
    tame (.rep (.seq [star (.alts [a, b]), twice c]) 3 none) = true ∧
    tame (.seq [star (.seq [.alts [a, .seq [b, c]], x]), y]) = true := by decide +kernel

/-- So do alternatives that end with a loop: `dog.*|.*cat`, `(ab+|cd*|x{2,})y` and `((a*|bx+)c)?y`. -/
example : tame (.alts [.seq [x, y, z, star (.cls 0x3ffffff#32)], .seq [star (.cls 0x3ffffff#32), c, a, x]]) = true ∧
    tame (.seq [.alts [.seq [a, plus b], .seq [c, star z], .rep x 2 none], y]) = true ∧
    tame (.seq [opt (.seq [.alts [star a, .seq [b, plus x]], c]), y]) = true := by decide +kernel

/-- The fragment is a part of `plain`, with `(a*b)*` in `plain` only. -/
example : plain (star (.seq [star a, b])) = true ∧ tame (star (.seq [star a, b])) = false := by decide +kernel

theorem lang_ch {n : Nat} : Lang (ch n) [Fin.ofNat _ n] := .cls (contains_ofCh.2 rfl)

theorem denotes_of {t : Ast} {w : List Ch} (h : Lang t w) : Denotes t w := ⟨w, 0, h, by simp⟩

/-- C07 is false for `(a|b)|c`: it stands for `a`, but compiles to an automaton that does not accept `a`. -/
theorem C07_counterexample_lost : ∃ (t : ExprAst) (e : Expr) (w : List Ch), fromAst t = .ok e ∧ Denotes t.root w ∧
    ¬ Accepts e w := by
  obtain ⟨e, he, h⟩ := compiled_false (a := expr (.alts [.alts [a, b], c])) (w := [0]) (by decide +kernel)
  exact ⟨_, e, _, he, denotes_of (.alts (List.mem_cons_self) (.alts (List.mem_cons_self) lang_ch)), h⟩

/-- and it accepts `ac`, which it does not stand for. -/
theorem C07_counterexample_extra : ∃ (t : ExprAst) (e : Expr) (w : List Ch), fromAst t = .ok e ∧ ¬ Denotes t.root w ∧
    Accepts e w := by
  obtain ⟨e, he, h⟩ := compiled_true (a := expr (.alts [.alts [a, b], c])) (w := [0, 2]) (by decide +kernel)
  refine ⟨_, e, _, he, ?_, h⟩
  rintro ⟨v, n, h1, h2⟩
  have hlen : v.length = 1 := by
    obtain ⟨t, ht, h1⟩ := lang_alts.1 h1
    simp only [List.mem_cons, List.not_mem_nil, or_false] at ht
    rcases ht with rfl | rfl
    · obtain ⟨t, ht, h1⟩ := lang_alts.1 h1
      simp only [List.mem_cons, List.not_mem_nil, or_false] at ht
      rcases ht with rfl | rfl <;> (obtain ⟨x, rfl, _⟩ := lang_cls.1 h1; rfl)
    · obtain ⟨x, rfl, _⟩ := lang_cls.1 h1; rfl
  match v, hlen with
  | [y], _ =>
    cases n with
    | zero => cases h2
    | succ n =>
      rw [List.replicate_succ, List.cons_append, List.nil_append, List.cons.injEq, List.cons.injEq] at h2
      exact absurd h2.2.1 (by decide)

/-- An everyday case: `ab?|c` matches none of `a`, `ab` and `c`. -/
theorem C07_counterexample_optional : ∃ e, fromAst (expr (.alts [.seq [a, opt b], c])) = .ok e ∧
    ∀ w ∈ [[0], [0, 1], [2]], Denotes (.alts [.seq [a, opt b], c]) w ∧ ¬ Accepts e w := by
  have key : ∀ w : List Ch, _ → ∃ e, fromAst (expr (.alts [.seq [a, opt b], c])) = .ok e ∧ ¬ Accepts e w := fun w h =>
    compiled_false (a := expr (.alts [.seq [a, opt b], c])) (w := w) h
  obtain ⟨e, he, h1⟩ := key [0] (by decide +kernel)
  obtain ⟨e2, he2, h2⟩ := key [0, 1] (by decide +kernel)
  obtain ⟨e3, he3, h3⟩ := key [2] (by decide +kernel)
  rw [he] at he2 he3
  cases he2
  cases he3
  refine ⟨e, he, fun w hw => ?_⟩
  simp only [List.mem_cons, List.not_mem_nil, or_false] at hw
  have ho : ∀ {v}, Lang (opt b) v → Lang (.alts [.seq [a, opt b], c]) (0 :: v) := fun h =>
    .alts List.mem_cons_self (by
    have := Lang.seqCons (lang_ch (n := 0)) (.seqCons h .seqNil)
    rwa [List.append_nil] at this)
  rcases hw with rfl | rfl | rfl
  · exact ⟨denotes_of (ho (.rep (k := 0) (by omega) (by simp) .seqNil)), h1⟩
  · exact ⟨denotes_of (ho (.rep (k := 1) (by omega) (by simp) (.seqCons (v := []) (lang_ch (n := 1)) .seqNil))), h2⟩
  · exact ⟨denotes_of (.alts (a := c) (by simp) (lang_ch (n := 2))), h3⟩

/-- Alternatives that end with a loop are in the fragment, but not inside a loop: `(a+|b+)+` matches neither `a` nor `b`. -/
theorem C07_counterexample_loops : ∃ e, fromAst (expr (plus (.alts [plus a, plus b]))) = .ok e ∧
    ∀ w ∈ [[0], [1]], Denotes (plus (.alts [plus a, plus b])) w ∧ ¬ Accepts e w := by
  obtain ⟨e, he, h1⟩ := compiled_false (a := expr (plus (.alts [plus a, plus b]))) (w := [0]) (by decide +kernel)
  obtain ⟨e2, he2, h2⟩ := compiled_false (a := expr (plus (.alts [plus a, plus b]))) (w := [1]) (by decide +kernel)
  rw [he] at he2
  cases he2
  refine ⟨e, he, fun w hw => ?_⟩
  have one : ∀ {t : Ast} {v : List Ch}, Lang t v → Lang (plus t) v := fun h =>
    .rep (k := 1) (by omega) (by simp) (lang_seq_one.2 h)
  simp only [List.mem_cons, List.not_mem_nil, or_false] at hw
  rcases hw with rfl | rfl
  · exact ⟨denotes_of (one (.alts (a := plus a) (by simp) (one (lang_ch (n := 0))))), h1⟩
  · exact ⟨denotes_of (one (.alts (a := plus b) (by simp) (one (lang_ch (n := 1))))), h2⟩

/-! ### C08 -/

/-- C08, on the fragment: compiling an expression of fewer than 16384 states does not crash. Missing: expressions
outside the fragment, for some of which compilation does crash (`C08_counterexample`). -/
theorem C08_compiles_partial {a : ExprAst} (h : tame a.root = true) (hs : states a.root < 16384) :
    ∀ x, fromAst a ≠ .error x := by
  obtain ⟨e, he, _⟩ := C07_language_partial h hs
  intro x hx
  rw [he] at hx; cases hx

/-- C08 is false: `a?|b?` fails an assertion; `x(b{2}c)*` underflows an index computation (a panic in debug builds);
so does `a{3,2}`; an anagram block inside a repetition, which survives the rewriting of anagrams, reaches
`unreachable!()`. -/
theorem C08_counterexample :
    (∃ t, fromAst t = .error .assert) ∧ (∃ t, fromAst t = .error .overflow) ∧ (∃ t, fromAst t = .error .unreachable) ∧
    fromAst (expr (.alts [opt a, opt b])) = .error .assert ∧
    fromAst (expr (.seq [x, star (.seq [twice b, c])])) = .error .overflow ∧
    fromAst (expr (.rep a 3 (some 2))) = .error .overflow ∧
    fromAst (expr (star (.anagram .standard [0, 1]))) = .error .unreachable := by
  have key : ∀ {t : ExprAst} {x : Crash}, (fromAst t).map (fun _ => ()) = .error x → fromAst t = .error x := by
    intro t x h
    cases hf : fromAst t with
    | error y => rw [hf] at h; cases h; rfl
    | ok e => rw [hf] at h; cases h
  have h1 : fromAst (expr (.alts [opt a, opt b])) = .error .assert := key (by decide +kernel)
  have h2 : fromAst (expr (.seq [x, star (.seq [twice b, c])])) = .error .overflow := key (by decide +kernel)
  have h3 : fromAst (expr (.rep a 3 (some 2))) = .error .overflow := key (by decide +kernel)
  have h4 : fromAst (expr (star (.anagram .standard [0, 1]))) = .error .unreachable := key (by decide +kernel)
  exact ⟨⟨_, h1⟩, ⟨_, h2⟩, ⟨_, h4⟩, h1, h2, h3, h4⟩

/-! ### C09 -/

/-- C09, for every syntax tree that needs fewer than 16384 states: the construction never accesses a bit outside its
16384-bit sets, and every bit it sets, and every state number, is below the number of states (at most 16384).
Missing: larger trees, for which it is false (`C09_counterexample`). -/
theorem C09_inside_partial {a : Ast} (hs : states a < 16384) :
    match rawStates a with
    | .error x => x ≠ .ub
    | .ok ss => ss.length = states a + 1 ∧ ∀ st ∈ ss, st.next < ss.length ∧ ∀ y, st.eps.testBit y = true → y < 16384 := by
  have h1 := rawStates_fits a hs
  have h2 := rawStates_spec a
  revert h1 h2
  generalize rawStates a = r
  intro h1 h2
  cases r with
  | error x => exact h1
  | ok ss =>
    have h1 : ss.length = states a + 1 := h1
    refine ⟨h1, fun st hst => ?_⟩
    obtain ⟨i, hi⟩ := List.getElem?_of_mem hst
    obtain ⟨k1, k2⟩ := h2.1 i st hi
    exact ⟨k1, fun y hy => by have := k2 y hy; omega⟩

/-- C09, first optimisation pass: the closure of the constructed automaton stays inside the 16384-bit sets. -/
theorem C09_closure_partial {a : Ast} (hs : states a < 16384) {ss : List State} (h : rawStates a = .ok ss) :
    ∃ ss', closure 16384 ss = .ok ss' ∧ ∀ st ∈ ss', ∀ y, st.eps.testBit y = true → y < 16384 := by
  have h1 := rawStates_fits a hs
  have h2 := rawStates_spec a
  rw [h] at h1 h2
  have h1 : ss.length = states a + 1 := h1
  obtain ⟨ss', h3, h4⟩ := closure_spec 16384 ss h2.1 (by omega)
  refine ⟨ss', h3, fun st hst y hy => ?_⟩
  obtain ⟨i, hi⟩ := List.getElem?_of_mem hst
  have := (h4.inRange h2.1 i st hi).2 y hy
  rw [h4.len] at this
  omega

/-- C09 is false of large expressions: `c{n}` with `n ≥ 16384` writes outside the allocation. -/
theorem C09_counterexample (c : CharSet) (n : Nat) (h : 16384 ≤ n) (o : ExprOptions) :
    fromAst { root := .rep (.cls c) n (some n), options := o } = .error .ub := by
  unfold fromAst
  rw [rep_overflows c n h]

/-- The bound is met by expressions that are large enough to be interesting. -/
example : states (.rep (.alts [a, .seq [b, c]]) 0 (some 4000)) < 16384 := by decide +kernel

/-! ### C10 -/

/-- C10, the meaning of repetition: the strings that consist of `k` strings of the term, with `k` in range. -/
theorem C10_meaning {t : Ast} {lo : Nat} {hi : Option Nat} {w : List Ch} : Lang (.rep t lo hi) w ↔
    ∃ us : List (List Ch), lo ≤ us.length ∧ (∀ m, hi = some m → us.length ≤ m) ∧ (∀ u ∈ us, Lang t u) ∧ w = us.flatten := by
  have key : ∀ k w, Lang (.seq (List.replicate k t)) w ↔ ∃ us : List (List Ch), us.length = k ∧ (∀ u ∈ us, Lang t u) ∧ w = us.flatten := by
    intro k
    induction k with
    | zero =>
      intro w
      rw [List.replicate_zero, lang_seq_nil]
      constructor
      · rintro rfl; exact ⟨[], rfl, by simp, rfl⟩
      · rintro ⟨us, h, _, rfl⟩
        rw [List.length_eq_zero_iff] at h
        subst h; rfl
    | succ k ih =>
      intro w
      rw [List.replicate_succ, lang_seq_cons]
      constructor
      · rintro ⟨u, v, rfl, h1, h2⟩
        obtain ⟨us, h3, h4, rfl⟩ := (ih v).1 h2
        exact ⟨u :: us, by simp [h3], List.forall_mem_cons.2 ⟨h1, h4⟩, by simp⟩
      · rintro ⟨us, h1, h2, rfl⟩
        cases us with
        | nil => cases h1
        | cons u us =>
          rw [List.forall_mem_cons] at h2
          exact ⟨u, us.flatten, by simp, h2.1, (ih _).2 ⟨us, by simpa using h1, h2.2, rfl⟩⟩
  rw [lang_rep]
  constructor
  · rintro ⟨k, h1, h2, h3⟩
    obtain ⟨us, rfl, h4, h5⟩ := (key k w).1 h3
    exact ⟨us, h1, fun m hm => h2 m hm, h4, h5⟩
  · rintro ⟨us, h1, h2, h3, h4⟩
    exact ⟨us.length, h1, fun m hm => h2 m hm, (key _ w).2 ⟨us, rfl, h3, h4⟩⟩

/-- C10, on the fragment, where the repeated term may be preceded and followed by other terms: the compiled form of
`pre t{lo,hi} post` accepts exactly a string of `pre`, then `k` strings of `t` with `lo ≤ k ≤ hi`, then a string of
`post` (and word ends). Missing: terms outside the fragment. -/
theorem C10_counts_partial {pre post : List Ast} {t : Ast} {lo : Nat} {hi : Option Nat} {o : ExprOptions}
    (h : tame (.seq (pre ++ .rep t lo hi :: post)) = true) (hs : states (.seq (pre ++ .rep t lo hi :: post)) < 16384) :
    ∃ e, fromAst { root := .seq (pre ++ .rep t lo hi :: post), options := o } = .ok e ∧ ∀ w, Accepts e w ↔
      ∃ (p q : List Ch) (us : List (List Ch)) (n : Nat), Lang (.seq pre) p ∧ Lang (.seq post) q ∧
        lo ≤ us.length ∧ (∀ m, hi = some m → us.length ≤ m) ∧ (∀ u ∈ us, Lang t u) ∧
        w = p ++ us.flatten ++ q ++ List.replicate n Ch.wordEnd := by
  obtain ⟨e, he, hacc⟩ := C07_language_partial (a := { root := .seq (pre ++ .rep t lo hi :: post), options := o }) h hs
  refine ⟨e, he, fun w => ?_⟩
  have hsplit : ∀ (l : List Ast) (v : List Ch), Lang (.seq (l ++ .rep t lo hi :: post)) v ↔
      ∃ p r q, v = p ++ r ++ q ∧ Lang (.seq l) p ∧ Lang (.rep t lo hi) r ∧ Lang (.seq post) q := by
    intro l
    induction l with
    | nil =>
      intro v
      rw [List.nil_append, lang_seq_cons]
      constructor
      · rintro ⟨r, q, rfl, h1, h2⟩; exact ⟨[], r, q, rfl, .seqNil, h1, h2⟩
      · rintro ⟨p, r, q, rfl, h1, h2, h3⟩
        rw [lang_seq_nil] at h1
        subst h1; exact ⟨r, q, rfl, h2, h3⟩
    | cons b l ih =>
      intro v
      rw [List.cons_append, lang_seq_cons]
      constructor
      · rintro ⟨u, v, rfl, h1, h2⟩
        obtain ⟨p, r, q, rfl, h3, h4, h5⟩ := (ih v).1 h2
        exact ⟨u ++ p, r, q, by simp, .seqCons h1 h3, h4, h5⟩
      · rintro ⟨p, r, q, rfl, h1, h2, h3⟩
        obtain ⟨u, p, rfl, h4, h5⟩ := lang_seq_cons.1 h1
        exact ⟨u, p ++ r ++ q, by simp, h4, (ih _).2 ⟨p, r, q, rfl, h5, h2, h3⟩⟩
  rw [hacc]
  constructor
  · rintro ⟨v, n, h1, rfl⟩
    obtain ⟨p, r, q, rfl, h2, h3, h4⟩ := (hsplit pre v).1 h1
    obtain ⟨us, h5, h6, h7, rfl⟩ := C10_meaning.1 h3
    exact ⟨p, q, us, n, h2, h4, h5, h6, h7, rfl⟩
  · rintro ⟨p, q, us, n, h1, h2, h3, h4, h5, rfl⟩
    exact ⟨_, n, (hsplit pre _).2 ⟨p, us.flatten, q, rfl, h1, C10_meaning.2 ⟨us, h3, h4, h5, rfl⟩, h2⟩, rfl⟩

/-- Its hypothesis holds of `x(ab){2,}y`, of `x(ab?c){0,3}y` and of `xa{0}y`. -/
example : tame (.seq ([x] ++ .rep (.seq [a, b]) 2 none :: [y])) = true ∧
    tame (.seq ([x] ++ .rep (.seq [a, opt b, c]) 0 (some 3) :: [y])) = true ∧
    tame (.seq ([x] ++ .rep a 0 (some 0) :: [y])) = true := by decide +kernel

/-- C10 is false of `x(b?c)*`: it stands for `xc`, but its compiled form does not accept it. -/
theorem C10_counterexample : ∃ (t : Ast) (e : Expr), fromAst (expr (.seq [x, star t])) = .ok e ∧
    Denotes (.seq [x, star t]) [23, 2] ∧ ¬ Accepts e [23, 2] := by
  obtain ⟨e, he, h⟩ := compiled_false (a := expr (.seq [x, star (.seq [opt b, c])])) (w := [23, 2]) (by decide +kernel)
  refine ⟨_, e, he, ?_, h⟩
  refine denotes_of (lang_seq_cons.2 ⟨[23], [2], rfl, lang_ch, lang_seq_one.2 (C10_meaning.2 ⟨[[2]], ?_, ?_, ?_, rfl⟩)⟩)
  · simp
  · simp
  · intro u hu
    rw [List.mem_singleton] at hu
    subst hu
    exact lang_seq_cons.2 ⟨[], [2], rfl, C10_meaning.2 ⟨[], by simp, by simp, by simp, rfl⟩, lang_seq_one.2 lang_ch⟩

/-! ### C11 -/

/-- C11, on the fragment: the optimisation succeeds and changes neither the accepted strings nor the role of the last
state (`Accept` is: from the first to the last state). Missing: expressions outside the fragment, for which it is
false in general (`C11_counterexample`). -/
theorem C11_transparent_partial {a : Ast} (h : tame a = true) (hs : states a < 16384) :
    ∃ ss ss', rawStates a = .ok ss ∧ optimize ss = .ok ss' ∧ (∀ w, Accept ss' w ↔ Accept ss w) ∧
      ss'[ss'.length - 1]? ≠ none ∧ ∀ st, ss'[ss'.length - 1]? = some st → st.next = ss'.length - 1 := by
  have hp := tame_plain _ h
  have hraw : rawStates a = .ok (rawOf a) := rawStates_eq hp hs
  have hrs := rawStates_spec a
  rw [hraw] at hrs
  have hlen : (rawOf a).length ≤ maxSetSize := by
    unfold rawOf; rw [List.length_append, blk_length _ hp]; exact hs
  obtain ⟨ss1, _, hcl⟩ := closure_spec _ (rawOf a) hrs.1 (Nat.le_refl _)
  have hT : (view ss1).Trim := by rw [view_closure hcl]; exact raw_trim h hrs.1
  obtain ⟨ss', ho, hf, hacc⟩ := optimize_sound hrs.1 hlen hcl hT.sound
  have hpos : 0 < ss'.length := hf.pos
  refine ⟨_, ss', hraw, ho, hacc, ?_, fun st hst => ?_⟩
  · rw [List.getElem?_eq_getElem (by omega)]; simp
  · rw [← view_nx hst]; exact hf.lastNx

/-- C11, in terms of the automaton alone: whenever the closure of an automaton has the shape `Trim`
(`Verif/Proofs/Trim.lean`), the optimisation succeeds and keeps the accepted strings. -/
theorem C11_trim_partial {ss ss1 : List State} (hr : InRange ss) (hcap : ss.length ≤ 16384) (hcl : IsClosure ss ss1)
    (hf : (view ss1).Trim) : ∃ ss', optimize ss = .ok ss' ∧ ∀ w, Accept ss' w ↔ Accept ss w := by
  obtain ⟨ss', h1, _, h2⟩ := optimize_sound hr hcap hcl hf.sound
  exact ⟨ss', h1, h2⟩

/-- C11 is false of `x(b?c)*`: the automaton accepts `xc` before the optimisation and does not accept it after. -/
theorem C11_counterexample : ∃ a ss ss' w, rawStates a = .ok ss ∧ optimize ss = .ok ss' ∧ Accept ss w ∧ ¬ Accept ss' w := by
  have hspec := fromAst_spec (expr (.seq [x, star (.seq [opt b, c])]))
  obtain ⟨e, he, h⟩ := compiled_false (a := expr (.seq [x, star (.seq [opt b, c])])) (w := [23, 2]) (by decide +kernel)
  rw [he] at hspec
  rw [accepts_iff hspec.2.2 hspec.1 hspec.2.1] at h
  have hp : plain (.seq [x, star (.seq [opt b, c])]) = true := by decide +kernel
  have hraw := rawStates_eq hp (by decide +kernel)
  have hopt : optimize (rawOf (.seq [x, star (.seq [opt b, c])])) = .ok e.states := by
    unfold fromAst at he
    rw [show (expr (.seq [x, star (.seq [opt b, c])])).root = .seq [x, star (.seq [opt b, c])] from rfl, hraw] at he
    simp only [] at he
    unfold rawOf
    revert he
    generalize optimize _ = r
    intro he
    cases r with
    | error x => cases he
    | ok ss' => cases he; rfl
  refine ⟨_, _, _, [23, 2], hraw, hopt, (raw_accept hp _).2 ?_, h⟩
  refine denotes_of (lang_seq_cons.2 ⟨[23], [2], rfl, lang_ch, lang_seq_one.2 (C10_meaning.2 ⟨[[2]], ?_, ?_, ?_, rfl⟩)⟩)
  · simp
  · simp
  · intro u hu
    rw [List.mem_singleton] at hu
    subst hu
    exact lang_seq_cons.2 ⟨[], [2], rfl, C10_meaning.2 ⟨[], by simp, by simp, by simp, rfl⟩, lang_seq_one.2 lang_ch⟩

end Noodle
