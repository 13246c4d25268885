import Verif.Props.C07
/-
A query on which the planner gives up, and what happens then. Two expressions, each of which drops one word of the list
per pass: after 101 passes the two matchers do not agree on the words.
-/
namespace Noodle
open Spec List
set_option autoImplicit false
namespace GiveUp

/-! ### The words -/

/-- The letter number `n`. -/
def ltr (n : Nat) : Ch := Fin.ofNat 28 (n % 26)
/-- A word of two letters. -/
def two (a b : Nat) : Word :=
  ⟨0, [ltr a, ltr b, Ch.wordEnd], String.ofList [Char.ofNat (97 + a % 26), Char.ofNat (97 + b % 26)], 1⟩
/-- The `k`-th word of the chain: `aa`, `ab`, ..., `ax`, `ba`, ... -/
def link (k : Nat) : Word := two (k / 24) (k % 24)
def yz : Word := two 24 25
def zz : Word := two 25 25

/-- The words left when those before the `i`-th are gone. -/
def rest (i : Nat) : List Word := (List.range' i (203 - i)).map link ++ [yz, zz]

theorem ltr_val (n : Nat) : (ltr n).val = n % 26 := by
  simp only [ltr, Fin.ofNat]; exact Nat.mod_eq_of_lt (by omega)

theorem ltr_inj {m n : Nat} (hm : m < 26) (hn : n < 26) (h : ltr m = ltr n) : m = n := by
  have := congrArg Fin.val h
  rw [ltr_val, ltr_val] at this
  omega

theorem rest_cons {i : Nat} (h : i ≤ 202) : rest i = link i :: rest (i + 1) := by
  unfold rest
  obtain ⟨n, hn⟩ : ∃ n, 203 - i = n + 1 := ⟨202 - i, by omega⟩
  rw [hn, show 203 - (i + 1) = n by omega, List.range'_succ]
  rfl

theorem mem_rest {i : Nat} {w : Word} : w ∈ rest i ↔ (∃ j, i ≤ j ∧ j < 203 ∧ w = link j) ∨ w = yz ∨ w = zz := by
  simp only [rest, List.mem_append, List.mem_map, List.mem_range'_1, List.mem_cons, List.not_mem_nil, or_false]
  constructor
  · rintro (⟨j, h, rfl⟩ | h)
    · exact Or.inl ⟨j, by omega, by omega, rfl⟩
    · exact Or.inr h
  · rintro (⟨j, h1, h2, rfl⟩ | h)
    · exact Or.inl ⟨j, by omega, rfl⟩
    · exact Or.inr h

/-! ### The expressions -/

/-- All letters but those of the first 24 whose number has the parity `e`. -/
def others (e : Nat) : CharSet := if e = 0 then 0x3AAAAAA#32 else 0x3555555#32
/-- The letters, without `i` and `z` in the second expression. -/
def first (e : Nat) : CharSet := if e = 0 then 0x3FFFFFF#32 else 0x1FFFEFF#32

def cl (n : Nat) : Ast := .cls (CharSet.ofCh (ltr n))
/-- The words `k - 1` and `k` of the chain, one after the other. -/
def pair (k : Nat) : Ast := .seq [cl ((k - 1) / 24), cl ((k - 1) % 24), cl (k / 24), cl (k % 24)]
/-- Any two words of two letters, the second letters being from `others`. -/
def generic (e : Nat) : Ast :=
  .seq [.cls (first e), .cls (others e), .cls CharSet.letters, .cls (others e)]

def root (e : Nat) : Ast :=
  .alts (((List.range' 1 202).filter fun k => k % 2 == e).map pair ++ [generic e])

def query : List ExprAst := [⟨root 0, {}⟩, ⟨root 1, {}⟩]

theorem tame_root : tame (root 0) = true ∧ tame (root 1) = true := by decide +kernel
theorem states_root : states (root 0) < 16384 ∧ states (root 1) < 16384 := by decide +kernel

theorem in_first (e : Nat) (x : Ch) : (first e).contains x = true ↔ x.val < 26 ∧ (e = 0 ∨ (x.val ≠ 25 ∧ x.val ≠ 8)) := by
  unfold first
  by_cases h : e = 0
  · rw [if_pos h]; simp only [h, true_or, and_true]; revert x; decide
  · rw [if_neg h]; simp only [h, false_or]; revert x; decide

theorem in_others {e : Nat} (he : e < 2) (x : Ch) :
    (others e).contains x = true ↔ x.val < 26 ∧ (24 ≤ x.val ∨ x.val % 2 ≠ e) := by
  have : e = 0 ∨ e = 1 := by omega
  unfold others
  rcases this with rfl | rfl
  · rw [if_pos rfl]; revert x; decide
  · rw [if_neg (by omega)]; revert x; decide

theorem in_letters (x : Ch) : CharSet.letters.contains x = true ↔ x.val < 26 := by
  revert x; decide

theorem lang_four {c1 c2 c3 c4 : CharSet} {u : List Ch} :
    Lang (.seq [.cls c1, .cls c2, .cls c3, .cls c4]) u ↔ ∃ x1 x2 x3 x4, u = [x1, x2, x3, x4] ∧
      c1.contains x1 = true ∧ c2.contains x2 = true ∧ c3.contains x3 = true ∧ c4.contains x4 = true := by
  simp only [lang_seq_cons, lang_seq_nil, lang_cls]
  constructor
  · rintro ⟨_, _, rfl, ⟨x1, rfl, h1⟩, _, _, rfl, ⟨x2, rfl, h2⟩, _, _, rfl, ⟨x3, rfl, h3⟩, _, _, rfl, ⟨x4, rfl, h4⟩, rfl⟩
    exact ⟨x1, x2, x3, x4, rfl, h1, h2, h3, h4⟩
  · rintro ⟨x1, x2, x3, x4, rfl, h1, h2, h3, h4⟩
    exact ⟨[x1], [x2, x3, x4], rfl, ⟨x1, rfl, h1⟩, [x2], [x3, x4], rfl, ⟨x2, rfl, h2⟩, [x3], [x4], rfl, ⟨x3, rfl, h3⟩,
      [x4], [], rfl, ⟨x4, rfl, h4⟩, rfl⟩

/-- What the expressions say about four letters. -/
def Four (e : Nat) (x1 x2 x3 x4 : Ch) : Prop :=
  (∃ k, 1 ≤ k ∧ k ≤ 202 ∧ k % 2 = e ∧ x1 = ltr ((k - 1) / 24) ∧ x2 = ltr ((k - 1) % 24) ∧ x3 = ltr (k / 24) ∧
    x4 = ltr (k % 24)) ∨
  (x1.val < 26 ∧ (e = 0 ∨ (x1.val ≠ 25 ∧ x1.val ≠ 8))) ∧ (x2.val < 26 ∧ (24 ≤ x2.val ∨ x2.val % 2 ≠ e)) ∧ x3.val < 26 ∧
    (x4.val < 26 ∧ (24 ≤ x4.val ∨ x4.val % 2 ≠ e))

theorem lang_root {e : Nat} (he : e < 2) (u : List Ch) :
    Lang (root e) u ↔ ∃ x1 x2 x3 x4, u = [x1, x2, x3, x4] ∧ Four e x1 x2 x3 x4 := by
  unfold root
  rw [lang_alts]
  simp only [List.mem_append, List.mem_map, List.mem_filter, List.mem_range'_1, List.mem_singleton, beq_iff_eq]
  constructor
  · rintro ⟨a, ⟨k, ⟨h1, h2⟩, rfl⟩ | rfl, ha⟩
    · obtain ⟨x1, x2, x3, x4, rfl, k1, k2, k3, k4⟩ := lang_four.1 ha
      exact ⟨x1, x2, x3, x4, rfl, Or.inl ⟨k, h1.1, by omega, h2, contains_ofCh.1 k1, contains_ofCh.1 k2, contains_ofCh.1 k3,
        contains_ofCh.1 k4⟩⟩
    · obtain ⟨x1, x2, x3, x4, rfl, k1, k2, k3, k4⟩ := lang_four.1 ha
      exact ⟨x1, x2, x3, x4, rfl, Or.inr ⟨(in_first e x1).1 k1, (in_others he x2).1 k2, (in_letters x3).1 k3, (in_others he x4).1 k4⟩⟩
  · rintro ⟨x1, x2, x3, x4, rfl, ⟨k, h1, h2, h3, rfl, rfl, rfl, rfl⟩ | ⟨h1, h2, h3, h4⟩⟩
    · refine ⟨pair k, Or.inl ⟨k, ⟨⟨h1, by omega⟩, h3⟩, rfl⟩, lang_four.2 ⟨_, _, _, _, rfl, ?_, ?_, ?_, ?_⟩⟩ <;>
        exact contains_ofCh.2 rfl
    · exact ⟨generic e, Or.inr rfl, lang_four.2 ⟨x1, x2, x3, x4, rfl, (in_first e x1).2 h1, (in_others he x2).2 h2, (in_letters x3).2 h3,
        (in_others he x4).2 h4⟩⟩

/-! ### Which phrases match -/

/-- `w` is a word of two letters, `a` and `b`. -/
def Two (w : Word) (a b : Ch) : Prop := w.chars = [a, b, Ch.wordEnd] ∧ a.val < 26 ∧ b.val < 26

theorem two_two (a b : Nat) : Two (two a b) (ltr a) (ltr b) := by
  refine ⟨rfl, ?_, ?_⟩ <;> rw [ltr_val] <;> omega

theorem looksAt_two {w : Word} {a b : Ch} (h : Two w a b) (u : List Ch) : looksAt {} (w.chars ++ u) = a :: b :: looksAt {} u := by
  obtain ⟨h1, h2, h3⟩ := h
  rw [h1]
  simp [looksAt, h2, h3, Ch.wordEnd]

theorem looksAt_nil : looksAt {} [] = [] := rfl

theorem looksAt_letters (u : List Ch) : ∀ x ∈ looksAt {} u, x.val < 26 := by
  intro x hx
  unfold looksAt at hx
  simpa using (List.mem_filter.1 hx).2

theorem denotes_letters {a : Ast} {u : List Ch} (h : ∀ x ∈ u, x.val < 26) : Denotes a u ↔ Lang a u := by
  constructor
  · rintro ⟨v, n, h1, rfl⟩
    cases n with
    | zero => simpa using h1
    | succ n =>
      have := h Ch.wordEnd (by simp)
      simp [Ch.wordEnd] at this
  · intro h1; exact ⟨u, 0, h1, by simp⟩

/-- `ex` matches what `root e` stands for. -/
def Means (e : Nat) (ex : Expr) : Prop := WF ex ∧ ex.fuzz = 0 ∧ ∀ w, Matches ex w ↔ Denotes (root e) (looksAt {} w)

theorem Means.iff {e : Nat} (he : e < 2) {ex : Expr} (h : Means e ex) {u v : Word} {a b c d : Ch} (hu : Two u a b) (hv : Two v c d) :
    Matches ex (charsOf [u, v]) ↔ Four e a b c d := by
  rw [h.2.2, denotes_letters (looksAt_letters _), lang_root he]
  simp only [charsOf, List.flatMap_cons, List.flatMap_nil, looksAt_two hu, looksAt_two hv, looksAt_nil]
  constructor
  · rintro ⟨x1, x2, x3, x4, h1, h2⟩
    simp only [List.cons.injEq, and_true] at h1
    obtain ⟨rfl, rfl, rfl, rfl⟩ := h1
    exact h2
  · intro h; exact ⟨a, b, c, d, rfl, h⟩

theorem looksAt_length (ws : List Word) (h : ∀ w ∈ ws, ∃ a b, Two w a b) : (looksAt {} (charsOf ws)).length = 2 * ws.length := by
  induction ws with
  | nil => rfl
  | cons w ws ih =>
    obtain ⟨a, b, hw⟩ := h w (by simp)
    have hc : charsOf (w :: ws) = w.chars ++ charsOf ws := by simp [charsOf]
    rw [hc, looksAt_two hw, List.length_cons, List.length_cons, ih fun x hx => h x (by simp [hx]), List.length_cons]
    omega

theorem Means.length {e : Nat} (he : e < 2) {ex : Expr} (h : Means e ex) {ws : List Word} (hw : ∀ w ∈ ws, ∃ a b, Two w a b)
    (hm : Matches ex (charsOf ws)) : ws.length = 2 := by
  rw [h.2.2, denotes_letters (looksAt_letters _), lang_root he] at hm
  obtain ⟨x1, x2, x3, x4, h1, _⟩ := hm
  have := looksAt_length ws hw
  rw [h1] at this
  simp at this
  omega

theorem two_rest {i : Nat} {w : Word} (h : w ∈ rest i) : ∃ a b, Two w a b := by
  rcases mem_rest.1 h with ⟨j, _, _, rfl⟩ | rfl | rfl <;> exact ⟨_, _, two_two _ _⟩

theorem Means.yz {e : Nat} (he : e < 2) {ex : Expr} (h : Means e ex) {w : Word} {c d : Ch} (hw : Two w c d) (hd : 24 ≤ d.val ∨ d.val % 2 ≠ e) :
    Matches ex (charsOf [GiveUp.yz, w]) := by
  refine (h.iff he (two_two 24 25) hw).2 ?_
  right
  rw [ltr_val, ltr_val]
  exact ⟨⟨by omega, by omega⟩, ⟨by omega, by omega⟩, hw.2.1, hw.2.2, hd⟩

theorem Means.link {e : Nat} (he : e < 2) {ex : Expr} (h : Means e ex) {k : Nat} (h1 : 1 ≤ k) (h2 : k ≤ 202) (h3 : k % 2 = e) :
    Matches ex (charsOf [GiveUp.link (k - 1), GiveUp.link k]) := by
  refine (h.iff he (two_two _ _) (two_two _ _)).2 ?_
  exact Or.inl ⟨k, h1, h2, h3, rfl, rfl, rfl, rfl⟩

/-- Every word of `rest (i + 1)` is in a matching phrase of two words of `rest i`. -/
theorem Means.useful {e : Nat} (he : e < 2) {ex : Expr} (h : Means e ex) {i : Nat} {w : Word} (hw : w ∈ rest (i + 1)) :
    ∃ u, u ∈ rest i ∧ Matches ex (charsOf [u, w]) := by
  have hyz : GiveUp.yz ∈ rest i := mem_rest.2 (Or.inr (Or.inl rfl))
  rcases mem_rest.1 hw with ⟨j, h1, h2, rfl⟩ | rfl | rfl
  · by_cases hp : j % 2 = e
    · exact ⟨GiveUp.link (j - 1), mem_rest.2 (Or.inl ⟨j - 1, by omega, by omega, rfl⟩), h.link he (by omega) (by omega) hp⟩
    · refine ⟨_, hyz, h.yz he (two_two _ _) (Or.inr ?_)⟩
      rw [ltr_val]; omega
  · exact ⟨_, hyz, h.yz he (two_two _ _) (Or.inl (by rw [ltr_val]; omega))⟩
  · exact ⟨_, hyz, h.yz he (two_two _ _) (Or.inl (by rw [ltr_val]; omega))⟩

theorem Means.useless {e : Nat} (he : e < 2) {ex : Expr} (h : Means e ex) {i : Nat} (hi : i ≤ 202) (hp : i % 2 = e) {us vs : List Word}
    (hw : ∀ v ∈ us ++ vs, v ∈ rest i) : ¬ Matches ex (charsOf (us ++ GiveUp.link i :: vs)) := by
  intro hm
  have hin : ∀ v ∈ us ++ GiveUp.link i :: vs, v ∈ rest i := by
    intro v hv
    rcases List.mem_append.1 hv with hv | hv
    · exact hw v (by simp [hv])
    · rcases List.mem_cons.1 hv with rfl | hv
      · exact mem_rest.2 (Or.inl ⟨i, by omega, by omega, rfl⟩)
      · exact hw v (by simp [hv])
  have hlen := h.length he (fun v hv => two_rest (hin v hv)) hm
  have hlt : (ltr (i % 24)).val < 24 ∧ (ltr (i % 24)).val % 2 = e := by rw [ltr_val]; omega
  match us, vs, hlen with
  | [], [v], _ =>
    obtain ⟨c, d, hv⟩ := two_rest (hw v (by simp))
    rcases (h.iff he (two_two _ _) hv).1 hm with ⟨k, h1, h2, h3, k1, k2, _, _⟩ | ⟨_, k2, _, _⟩
    · have e1 := ltr_inj (by omega) (by omega) k1
      have e2 := ltr_inj (by omega) (by omega) k2
      omega
    · omega
  | [u], [], _ =>
    have hu := hw u (by simp)
    obtain ⟨c, d, hu2⟩ := two_rest hu
    rcases (h.iff he hu2 (two_two _ _)).1 hm with ⟨k, h1, h2, h3, k1, k2, k3, k4⟩ | ⟨_, _, _, k2⟩
    · have e1 := ltr_inj (by omega) (by omega) k3
      have e2 := ltr_inj (by omega) (by omega) k4
      have hki : k = i := by omega
      subst hki
      have hk : ∀ a b, Two u (ltr a) (ltr b) → a < 26 → b < 26 → a = (k - 1) / 24 ∧ b = (k - 1) % 24 := by
        intro a b hab ha hb
        have hc := hab.1
        rw [hu2.1] at hc
        simp only [List.cons.injEq, and_true] at hc
        rw [k1, k2] at hc
        exact ⟨(ltr_inj (by omega) ha hc.1).symm, (ltr_inj (by omega) hb hc.2).symm⟩
      rcases mem_rest.1 hu with ⟨j, hj1, hj2, rfl⟩ | rfl | rfl
      · have := hk _ _ (two_two _ _) (by omega) (by omega)
        omega
      · have := hk _ _ (two_two _ _) (by omega) (by omega)
        omega
      · have := hk _ _ (two_two _ _) (by omega) (by omega)
        omega
    · omega
  | [], [], hl => simp at hl
  | [], _ :: _ :: _, hl => simp at hl
  | [_], _ :: _, hl => simp at hl
  | _ :: _ :: _, _, hl => simp at hl

/-! ### The passes -/

def phases : List SearchPhase := [⟨2, 0, 0⟩]

theorem optimize_step {e : Nat} (he : e < 2) {ex : Expr} (h : Means e ex) {i : Nat} (hi : i ≤ 202) (hp : i % 2 = e) {m : WM}
    (hm : PInv 2 (rest i) ex m) :
    ∃ m' did, m.optimize (rest i) phases = .ok (m', did) ∧ QInv 2 (rest (i + 1)) ex m' ∧ m'.alive = rest (i + 1) := by
  obtain ⟨m', did, keep, o1, o2, o3, o4, o5, _, _, _, _, o10⟩ := optimize_spec hm.1 (rest i) hm.2 phases (by simp [phases]) (by decide)
  have hkeep : ∀ w ∈ rest (i + 1), keep w = true := by
    intro w hw
    obtain ⟨u, hu, hmat⟩ := h.useful he hw
    have hwi : w ∈ rest i := by rw [rest_cons hi]; simp [hw]
    exact o4 [u, w] (by simp) (Nat.le_refl 2) (by simp [hu, hwi]) hmat w (by simp)
  have hal : m'.alive = rest (i + 1) := by
    have hno : ¬ keep (link i) = true := by
      intro hc
      obtain ⟨us, vs, h1, h2⟩ := o10 h.2.1 (link i) (by rw [o3, List.mem_filter]; exact ⟨by rw [rest_cons hi]; simp, hc⟩)
      exact h.useless he hi hp h1 h2
    rw [o3, rest_cons hi, List.filter_cons, if_neg hno]
    exact List.filter_eq_self.2 hkeep
  refine ⟨m', did, o1, ⟨⟨o2, by rw [hal]⟩, fun _ => o5 ?_⟩, hal⟩
  rw [hal]; simp [rest]

theorem rest_length {i : Nat} (hi : i ≤ 202) : (rest i).length = (rest (i + 1)).length + 1 := by rw [rest_cons hi]; rfl

theorem rest_ne (i : Nat) : rest i ≠ [] := by simp [rest]

theorem pass_step {E0 E1 : Expr} (h0 : Means 0 E0) (h1 : Means 1 E1) {i : Nat} (hi : i ≤ 201) (hp : i % 2 = 1) {m0 m1 : WM}
    (k0 : PInv 2 (rest i) E0 m0) (k1 : PInv 2 (rest i) E1 m1) :
    ∃ m0' m1', optimizePass phases [m1, m0] (rest i) = .ok ([m1', m0'], rest (i + 2), false) ∧
      QInv 2 (rest (i + 2)) E0 m0' ∧ QInv 2 (rest (i + 1)) E1 m1' ∧ m0'.alive = rest (i + 2) ∧ m1'.alive = rest (i + 1) := by
  obtain ⟨m1', d1, p1, p2, p3⟩ := optimize_step (by omega) h1 (by omega) hp k1
  have k0' : PInv 2 (rest (i + 1)) E0 m0 := ⟨k0.1, by
    refine List.Sublist.trans ?_ k0.2
    rw [rest_cons (show i ≤ 202 by omega)]; exact List.sublist_cons_self _ _⟩
  obtain ⟨m0', d0, q1, q2, q3⟩ := optimize_step (by omega) h0 (show i + 1 ≤ 202 by omega) (by omega) k0'
  refine ⟨m0', m1', ?_, q2, p2, q3, p3⟩
  have l1 := rest_length (show i ≤ 202 by omega)
  have l2 := rest_length (show i + 1 ≤ 202 by omega)
  rw [optimizePass, p1]
  simp only
  rw [p3, if_pos (by omega), if_neg (by omega), if_neg (rest_ne _), optimizePass, q1]
  simp only
  rw [q3, if_pos (by omega), if_neg (by omega), if_neg (rest_ne _), optimizePass]

theorem filter_step {E0 E1 : Expr} (h0 : Means 0 E0) (h1 : Means 1 E1) {i : Nat} {m0 m1 : WM}
    (k0 : PInv 2 (rest i) E0 m0) (k1 : PInv 2 (rest i) E1 m1) :
    ∃ ch, filterFix ([m0, m1].map WM.pm) (phases.length + 1) phases false = .ok (phases, ch) := by
  have hF : Forall₂ (PInv 2 (rest i)) [E0, E1] [m0, m1] := .cons k0 (.cons k1 .nil)
  have hyz : yz ∈ rest i := mem_rest.2 (Or.inr (Or.inl rfl))
  have hk : keepAll ([m0, m1].map WM.pm) 2 = true := by
    refine keepAll_of_match hF [yz, yz] (by simp) (Nat.le_refl 2) (by simp [hyz]) ?_
    intro e he
    have hd : 24 ≤ (ltr 25).val ∨ (ltr 25).val % 2 ≠ 0 := Or.inl (by rw [ltr_val]; omega)
    have hd' : 24 ≤ (ltr 25).val ∨ (ltr 25).val % 2 ≠ 1 := Or.inl (by rw [ltr_val]; omega)
    simp only [List.mem_cons, List.not_mem_nil, or_false] at he
    rcases he with rfl | rfl
    · exact h0.yz (by omega) (two_two 24 25) hd
    · exact h1.yz (by omega) (two_two 24 25) hd'
  have hall : phases.filter (fun p => keepAll ([m0, m1].map WM.pm) p.depth) = phases := by
    unfold phases
    rw [List.filter_cons, if_pos hk]
    rfl
  obtain ⟨ch, hf, _⟩ := filterFix_ok ([m0, m1].map WM.pm) (by
    intro pm hpm
    obtain ⟨m, hm, rfl⟩ := List.mem_map.1 hpm
    exact forall₂_mem_right (P := fun m => ∀ p ∈ m.pm.classes, p.2.minTranche = 0) hF (fun e m hm => hm.1.mt) m hm)
    (phases.length + 1) phases (by omega) (Or.inl (by rw [hall])) false
  rw [hall] at hf
  exact ⟨ch, hf⟩

/-- The planner gives up. -/
theorem loop_gives_up {E0 E1 : Expr} (h0 : Means 0 E0) (h1 : Means 1 E1) (k : Nat) (hk : k ≤ 100) :
    ∀ (i : Nat) (m0 m1 : WM), i + 2 * k = 201 → PInv 2 (rest i) E0 m0 → PInv 2 (rest i) E1 m1 →
      ∃ m0' m1', optimizeLoop (k + 1) [m0, m1] (rest i) phases =
          .ok (some ⟨[m0', m1'], rest 203, phases, true⟩) ∧
        QInv 2 (rest 203) E0 m0' ∧ QInv 2 (rest 202) E1 m1' ∧ m0'.alive = rest 203 ∧ m1'.alive = rest 202 := by
  induction k with
  | zero =>
    intro i m0 m1 hi k0 k1
    obtain rfl : i = 201 := by omega
    obtain ⟨m0', m1', p1, p2, p3, p4, p5⟩ := pass_step h0 h1 (Nat.le_refl 201) (by omega) k0 k1
    refine ⟨m0', m1', ?_, p2, p3, p4, p5⟩
    obtain ⟨ch, hf⟩ := filter_step h0 h1 k0 k1
    rw [optimizeLoop, hf]
    simp only
    rw [if_neg (by simp [phases]), show [m0, m1].reverse = [m1, m0] from rfl, p1]
    simp
  | succ k ih =>
    intro i m0 m1 hi k0 k1
    obtain ⟨m0', m1', p1, p2, p3, p4, p5⟩ := pass_step h0 h1 (show i ≤ 201 by omega) (by omega) k0 k1
    obtain ⟨ch, hf⟩ := filter_step h0 h1 k0 k1
    obtain ⟨n0, n1, r1, r2⟩ := ih (by omega) (i + 2) m0' m1' (by omega) p2.1 ⟨p3.1.1, by
      rw [p5, rest_cons (show i + 1 ≤ 202 by omega)]; exact List.sublist_cons_self _ _⟩
    refine ⟨n0, n1, ?_, r2⟩
    rw [optimizeLoop, hf]
    simp only
    rw [if_neg (by simp [phases]), show [m0, m1].reverse = [m1, m0] from rfl, p1]
    simp only [Bool.false_and]
    rw [if_neg (by simp), if_neg (by omega)]
    exact r1

end GiveUp
end Noodle
