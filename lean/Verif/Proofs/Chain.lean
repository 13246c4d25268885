import Verif.Proofs.WordLoop
/-
The chain of word matchers: each one consumes the alive list of its predecessor.
-/
namespace Noodle
open Spec

/-- Every matcher has processed some prefix of its predecessor's alive list. -/
def Chain (single : Bool) (maxLen : Nat) : List Expr → List WM → List Word → Prop
  | [], [], _ => True
  | e :: es, m :: ms, A => (∃ P, P <+: A ∧ WMAt e single maxLen m P) ∧ Chain single maxLen es ms m.alive
  | _, _, _ => False

/-- Every matcher has processed exactly its predecessor's alive list. -/
def Sync (single : Bool) (maxLen : Nat) : List Expr → List WM → List Word → Prop
  | [], [], _ => True
  | e :: es, m :: ms, A => WMAt e single maxLen m A ∧ Sync single maxLen es ms m.alive
  | _, _, _ => False

theorem Sync.chain {single : Bool} {maxLen : Nat} {es : List Expr} {ms : List WM} {A : List Word}
    (h : Sync single maxLen es ms A) : Chain single maxLen es ms A := by
  induction es generalizing ms A with
  | nil => cases ms <;> simp_all [Sync, Chain]
  | cons e es ih =>
    cases ms with
    | nil => simp [Sync] at h
    | cons m ms => exact ⟨⟨A, List.prefix_rfl, h.1⟩, ih h.2⟩

theorem Sync.unique {single : Bool} {maxLen : Nat} {es : List Expr} {ms ms' : List WM} {A : List Word}
    (h : Sync single maxLen es ms A) (h' : Sync single maxLen es ms' A) : ms = ms' := by
  induction es generalizing ms ms' A with
  | nil => cases ms <;> cases ms' <;> simp_all [Sync]
  | cons e es ih =>
    cases ms with
    | nil => simp [Sync] at h
    | cons m ms =>
      cases ms' with
      | nil => simp [Sync] at h'
      | cons m' ms' =>
        have := h.1.unique h'.1
        subst this
        rw [ih h.2 h'.2]

theorem Chain.mono {single : Bool} {maxLen : Nat} {es : List Expr} {ms : List WM} {A B : List Word}
    (h : Chain single maxLen es ms A) (hp : A <+: B) : Chain single maxLen es ms B := by
  cases es with
  | nil => cases ms <;> simp_all [Chain]
  | cons e es =>
    cases ms with
    | nil => simp [Chain] at h
    | cons m ms =>
      obtain ⟨⟨P, hP, hm⟩, hc⟩ := h
      exact ⟨⟨P, hP.trans hp, hm⟩, hc⟩

theorem filter_prefix {α} (p : α → Bool) {A B : List α} (h : A <+: B) : A.filter p <+: B.filter p := by
  obtain ⟨t, rfl⟩ := h
  rw [List.filter_append]; exact List.prefix_append _ _

theorem chain_new (single : Bool) (maxLen : Nat) (h : 0 < maxLen) (es : List Expr) (A : List Word) :
    Chain single maxLen es (es.map fun e => WM.new e maxLen) A := by
  induction es generalizing A with
  | nil => simp [Chain]
  | cons e es ih => exact ⟨⟨[], List.nil_prefix, WMAt.new e single maxLen h⟩, ih _⟩

/-- Feeding the chain synchronises it. -/
theorem feed_sync {single : Bool} {maxLen : Nat} {es : List Expr} (hes : ∀ e ∈ es, 0 < e.len) :
    ∀ {ms : List WM} {A : List Word} (w : Word), Chain single maxLen es ms A →
      (∀ x ∈ A, x.chars.length < maxLen) →
      ∃ ms' b, feed single w ms A = .ok (ms', b) ∧ Sync single maxLen es ms' A := by
  induction es with
  | nil =>
    intro ms A w h hA
    cases ms with
    | nil => exact ⟨[], true, rfl, trivial⟩
    | cons m ms => simp [Chain] at h
  | cons e es ih =>
    intro ms A w h hA
    cases ms with
    | nil => simp [Chain] at h
    | cons m ms =>
      obtain ⟨⟨P, ⟨ws, rfl⟩, hm⟩, hc⟩ := h
      obtain ⟨m', h1, h2⟩ := drain_spec (ws := ws) (hes e (by simp)) hm (fun x hx => hA x (by simp [hx]))
      have hpre : m.alive <+: m'.alive := by
        rw [hm.alive, h2.alive]; exact filter_prefix _ (List.prefix_append _ _)
      obtain ⟨ms', b, h3, h4⟩ := ih (fun e' he' => hes e' (by simp [he'])) w (hc.mono hpre)
        (fun x hx => hA x (h2.alive_sub x hx))
      exact ⟨m' :: ms', _, by simp only [feed, h1, h3]; rfl, h2, h4⟩

/-- The verdict of the chain on the newly arrived last word. -/
theorem feed_verdict {single : Bool} {maxLen : Nat} {es : List Expr} (hes : ∀ e ∈ es, 0 < e.len) :
    ∀ {ms : List WM} {B : List Word} (w : Word), Chain single maxLen es ms B →
      (∀ x ∈ B ++ [w], x.chars.length < maxLen) →
      ∃ ms', feed single w ms (B ++ [w]) = .ok (ms', es.all fun e => matchB e w) ∧
        Sync single maxLen es ms' (B ++ [w]) := by
  induction es with
  | nil =>
    intro ms B w h hA
    cases ms with
    | nil => exact ⟨[], rfl, trivial⟩
    | cons m ms => simp [Chain] at h
  | cons e es ih =>
    intro ms B w h hA
    cases ms with
    | nil => simp [Chain] at h
    | cons m ms =>
      have he := hes e (by simp)
      obtain ⟨⟨P, ⟨ws, rfl⟩, hm⟩, hc⟩ := h
      have hassoc : P ++ ws ++ [w] = P ++ (ws ++ [w]) := List.append_assoc _ _ _
      rw [hassoc] at hA ⊢
      obtain ⟨m', h1, h2⟩ := drain_spec he hm (ws := ws ++ [w]) (fun x hx => hA x (by simp at hx ⊢; exact Or.inr hx))
      have hlast : decide (((ws ++ [w]).filter (matchB e)).getLast? = some w) = matchB e w := by
        rw [List.filter_append]
        cases hb : matchB e w with
        | true => simp [hb]
        | false =>
          simp only [List.filter_cons, hb, List.filter_nil, List.append_nil, Bool.false_eq_true, if_false]
          rw [decide_eq_false_iff_not]
          intro hcon
          have := List.mem_of_getLast? hcon
          have := (List.mem_filter.1 this).2
          rw [hb] at this; simp at this
      have hal : m'.alive = (P ++ ws).filter (fun w => aliveB e single w.chars) ++
          (if aliveB e single w.chars then [w] else []) := by
        rw [h2.alive, ← hassoc, List.filter_append]
        congr 1
        simp [List.filter_cons]
      have hpre : m.alive <+: (P ++ ws).filter (fun w => aliveB e single w.chars) := by
        rw [hm.alive]; exact filter_prefix _ (List.prefix_append _ _)
      by_cases hwa : aliveB e single w.chars = true
      · rw [if_pos hwa] at hal
        obtain ⟨ms', h3, h4⟩ := ih (fun e' he' => hes e' (by simp [he'])) w (hc.mono hpre)
          (by rw [← hal]; exact fun x hx => hA x (h2.alive_sub x hx))
        refine ⟨m' :: ms', ?_, h2, by rw [hal]; exact h4⟩
        simp only [feed, h1, hal, h3, hlast, List.all_cons]
      · have hmb : matchB e w = false := by
          rw [← Bool.not_eq_true, matchB_iff]
          intro hm
          exact hwa (alive_of_matches e he single _ hm)
        rw [if_neg hwa, List.append_nil] at hal
        obtain ⟨ms', b, h3, h4⟩ := feed_sync (fun e' he' => hes e' (by simp [he'])) w (hc.mono hpre)
          (by rw [← hal]; exact fun x hx => hA x (h2.alive_sub x hx))
        refine ⟨m' :: ms', ?_, h2, by rw [hal]; exact h4⟩
        simp only [feed, h1, hal, h3, hlast, List.all_cons, hmb, Bool.false_and]

/-- Draining the chain synchronises it. -/
theorem drainAll_sync {maxLen : Nat} {es : List Expr} (hes : ∀ e ∈ es, 0 < e.len) :
    ∀ {ms : List WM} {A : List Word}, Chain false maxLen es ms A →
      (∀ x ∈ A, x.chars.length < maxLen) →
      ∃ ms', drainAll ms A = .ok ms' ∧ Sync false maxLen es ms' A := by
  induction es with
  | nil =>
    intro ms A h hA
    cases ms with
    | nil => exact ⟨[], rfl, trivial⟩
    | cons m ms => simp [Chain] at h
  | cons e es ih =>
    intro ms A h hA
    cases ms with
    | nil => simp [Chain] at h
    | cons m ms =>
      obtain ⟨⟨P, ⟨ws, rfl⟩, hm⟩, hc⟩ := h
      obtain ⟨m', h1, h2⟩ := drain_spec (ws := ws) (hes e (by simp)) hm (fun x hx => hA x (by simp [hx]))
      have hpre : m.alive <+: m'.alive := by
        rw [hm.alive, h2.alive]; exact filter_prefix _ (List.prefix_append _ _)
      obtain ⟨ms', h3, h4⟩ := ih (fun e' he' => hes e' (by simp [he'])) (hc.mono hpre)
        (fun x hx => hA x (h2.alive_sub x hx))
      exact ⟨m' :: ms', by simp only [drainAll, h1, h3], h2, h4⟩

/-- All expressions match the word on its own. -/
def allB (es : List Expr) (w : Word) : Bool := es.all fun e => matchB e w

/-- The single-word loop: it stops at the next word matched by every expression. -/
theorem wordLoop_spec {single : Bool} {maxLen : Nat} {e : Expr} {es : List Expr} (he : 0 < e.len)
    (hes : ∀ e ∈ es, 0 < e.len) (n : Nat) :
    ∀ {m : WM} {ms : List WM} {P ws : List Word} (clk : Clock), WMAt e single maxLen m P →
      Chain single maxLen es ms m.alive → (∀ w ∈ P ++ ws, w.chars.length < maxLen) → ws.length < n →
      ∃ m' ms' out clk' k, wordLoop (P ++ ws) single n m ms clk = .ok (m', ms', out, clk') ∧
        k ≤ ws.length ∧ clk.Later clk' ∧ WMAt e single maxLen m' (P ++ ws.take k) ∧
        Chain single maxLen es ms' m'.alive ∧
        (match out with
          | none => (ws.take k).filter (allB (e :: es)) = [] ∧ (k = ws.length ∨ clk' = some 0) ∧
              (clk ≠ some 0 → ws ≠ [] → 0 < k)
          | some w => 0 < k ∧ ∃ pre, ws.take k = pre ++ [w] ∧ pre.filter (allB (e :: es)) = [] ∧
              allB (e :: es) w = true) := by
  induction n with
  | zero => intro m ms P ws clk h hc hw hn; omega
  | succ n ih =>
    intro m ms P ws clk h hc hw hn
    obtain ⟨m', out, clk', k, h1, h2, h3, h4, h5⟩ := next_spec (ws := ws) he clk h (fun w hx => hw w (by simp [hx]))
    have hpre : m.alive <+: m'.alive := by
      rw [h.alive, h4.alive]; exact filter_prefix _ (List.prefix_append _ _)
    have hnone : ∀ l : List Word, l.filter (matchB e) = [] → l.filter (allB (e :: es)) = [] := by
      intro l hl
      rw [List.filter_eq_nil_iff] at hl ⊢
      intro x hx hcon
      apply hl x hx
      simp only [allB, List.all_cons, Bool.and_eq_true] at hcon
      exact hcon.1
    cases out with
    | none =>
      obtain ⟨a, b, c⟩ := h5
      exact ⟨m', ms, none, clk', k, by simp only [wordLoop, h1], h2, h3, h4, hc.mono hpre,
        hnone _ a, b, c⟩
    | some w =>
      obtain ⟨hk, pre, a, b, c⟩ := h5
      have hwa : aliveB e single w.chars = true := alive_of_matches e he single _ ((matchB_iff e w).1 c)
      have hal : m'.alive = (P ++ pre).filter (fun w => aliveB e single w.chars) ++ [w] := by
        rw [h4.alive, a, ← List.append_assoc, List.filter_append]
        simp [hwa]
      have hch : Chain single maxLen es ms ((P ++ pre).filter (fun w => aliveB e single w.chars)) :=
        hc.mono (by rw [h.alive]; exact filter_prefix _ (List.prefix_append _ _))
      have hmem : ∀ x ∈ m'.alive, x.chars.length < maxLen := by
        intro x hx
        have := h4.alive_sub x hx
        apply hw
        rcases List.mem_append.1 this with h | h
        · exact List.mem_append.2 (Or.inl h)
        · exact List.mem_append.2 (Or.inr (List.mem_of_mem_take h))
      obtain ⟨ms', h6, h7⟩ := feed_verdict hes w hch (by rw [← hal]; exact hmem)
      rw [← hal] at h6 h7
      cases hb : es.all (fun e => matchB e w) with
      | true =>
        rw [hb] at h6
        exact ⟨m', ms', some w, clk', k, by simp only [wordLoop, h1, h6], h2, h3, h4, h7.chain,
          hk, pre, a, hnone _ b, by simp [allB, c, hb]⟩
      | false =>
        rw [hb] at h6
        have hsplit : P ++ ws = (P ++ ws.take k) ++ ws.drop k := by
          rw [List.append_assoc, List.take_append_drop]
        have hkill : (ws.take k).filter (allB (e :: es)) = [] := by
          rw [a, List.filter_append, hnone _ b]
          simp [allB, hb]
        obtain ⟨m'', ms'', out, clk'', k', g1, g2, g3, g4, g5, g6⟩ := ih (ws := ws.drop k) clk' h4 h7.chain
          (by rw [← hsplit]; exact hw) (by simp; omega)
        simp only [List.length_drop] at g2
        have htake : P ++ ws.take (k + k') = P ++ ws.take k ++ (ws.drop k).take k' := by
          rw [List.append_assoc, List.take_add]
        refine ⟨m'', ms'', out, clk'', k + k', ?_, by omega, h3.trans g3, by rw [htake]; exact g4, g5, ?_⟩
        · simp only [wordLoop, h1, h6]
          rw [hsplit]; exact g1
        · cases out with
          | none =>
            obtain ⟨x, y, _⟩ := g6
            refine ⟨?_, ?_, by intros; omega⟩
            · rw [List.take_add, List.filter_append, hkill, x]; rfl
            · rcases y with y | y
              · left; rw [y, List.length_drop]; omega
              · exact Or.inr y
          | some w' =>
            obtain ⟨_, pre', x, y, z⟩ := g6
            refine ⟨by omega, ws.take k ++ pre', ?_, ?_, z⟩
            · rw [List.take_add, x, List.append_assoc]
            · rw [List.filter_append, hkill, y]; rfl

end Noodle
