import Verif.Model.Query
import Verif.Proofs.WordMatcher
/-
Iterating over the word list: every call of the word matcher continues where the previous one stopped.
-/
namespace Noodle
open Spec

/-- The verdict on a word, computed from scratch. -/
def matchB (e : Expr) (w : Word) : Bool :=
  (List.range (e.fuzz + 1)).any fun f => ((wordRow e 0 w.chars).at f).testBit (e.len - 1)

theorem matchB_iff (e : Expr) (w : Word) : matchB e w = true ↔ Matches e w.chars := by
  rw [matches_iff_row, ← rowHas_iff_cum]
  simp [matchB, rowHas]

/-- The matcher after a list of words, one at a time. -/
def wmAfter (single : Bool) : WM → List Word → Except Crash WM
  | m, [] => .ok m
  | m, w :: ws =>
    match m.word single w with
    | .error x => .error x
    | .ok (m', _) => wmAfter single m' ws

theorem wmAfter_append (single : Bool) (m m' : WM) (P ws : List Word) (h : wmAfter single m P = .ok m') :
    wmAfter single m (P ++ ws) = wmAfter single m' ws := by
  induction P generalizing m with
  | nil => simp only [wmAfter, Except.ok.injEq] at h; subst h; rfl
  | cons w P ih =>
    simp only [List.cons_append, wmAfter] at h ⊢
    cases hw : m.word single w with
    | error x => rw [hw] at h; simp at h
    | ok r => rw [hw] at h; exact ih _ h

/-- The matcher state after exactly the words `P`. -/
structure WMAt (e : Expr) (single : Bool) (maxLen : Nat) (m : WM) (P : List Word) : Prop
    extends WMInv e single maxLen m P where
  det : wmAfter single (WM.new e maxLen) P = .ok m

theorem WMAt.new (e : Expr) (single : Bool) (maxLen : Nat) (h : 0 < maxLen) :
    WMAt e single maxLen (WM.new e maxLen) [] := { WMInv.new e single maxLen h with det := rfl }

theorem WMAt.unique {e single maxLen m m' P} (h : WMAt e single maxLen m P) (h' : WMAt e single maxLen m' P) :
    m = m' := by
  have := h.det; rw [h'.det] at this; exact (Except.ok.inj this).symm

theorem WMAt.word {e : Expr} (he : 0 < e.len) {single : Bool} {maxLen : Nat} {m : WM} {P : List Word}
    (h : WMAt e single maxLen m P) (w : Word) (hw : w.chars.length < maxLen) :
    ∃ m', m.word single w = .ok (m', matchB e w) ∧ WMAt e single maxLen m' (P ++ [w]) := by
  obtain ⟨m', b, h1, h2, h3⟩ := word_spec e he single maxLen m P w h.toWMInv hw
  have : b = matchB e w := by
    have h4 := matchB_iff e w
    cases b <;> cases hb : matchB e w <;> simp_all
  subst this
  refine ⟨m', h1, { h2 with det := ?_ }⟩
  rw [wmAfter_append _ _ _ _ _ h.det]
  simp only [wmAfter, h1]

/-- The relation between a clock and the same clock later. -/
def Clock.Later (c c' : Clock) : Prop :=
  match c with
  | none => c' = none
  | some n => ∃ n', c' = some n' ∧ n' ≤ n

theorem Clock.Later.refl (c : Clock) : c.Later c := by
  cases c with
  | none => rfl
  | some n => exact ⟨n, rfl, Nat.le_refl _⟩

theorem Clock.Later.trans {a b c : Clock} (h : a.Later b) (h' : b.Later c) : a.Later c := by
  cases a with
  | none => simp only [Clock.Later] at h; subst h; exact h'
  | some n =>
    obtain ⟨n', rfl, hn⟩ := h
    obtain ⟨n'', rfl, hn'⟩ := h'
    exact ⟨n'', rfl, by omega⟩

theorem Clock.read_later (c : Clock) : c.Later c.read.2 := by
  match c with
  | none => rfl
  | some 0 => exact ⟨0, rfl, Nat.le_refl _⟩
  | some (n + 1) => exact ⟨n, rfl, by omega⟩

theorem Clock.read_true {c : Clock} (h : c.read.1 = true) : c = some 0 ∧ c.read.2 = some 0 := by
  match c with
  | none => simp [Clock.read] at h
  | some 0 => exact ⟨rfl, rfl⟩
  | some (n + 1) => simp [Clock.read] at h

theorem loop_spec {e : Expr} (he : 0 < e.len) {single : Bool} {maxLen : Nat} (ws : List Word) :
    ∀ {m : WM} {P : List Word} (clk : Clock) (cnt : Nat), WMAt e single maxLen m P →
      (∀ w ∈ ws, w.chars.length < maxLen) →
      ∃ m' out clk' k, m.loop single clk cnt ws = .ok (m', out, clk') ∧ k ≤ ws.length ∧ clk.Later clk' ∧
        WMAt e single maxLen m' (P ++ ws.take k) ∧
        (match out with
          | none => (ws.take k).filter (matchB e) = [] ∧ (k = ws.length ∨ clk' = some 0) ∧
              (cnt % 256 = 0 → clk ≠ some 0 → ws ≠ [] → 0 < k)
          | some w => 0 < k ∧ ∃ pre, ws.take k = pre ++ [w] ∧ pre.filter (matchB e) = [] ∧ matchB e w = true) := by
  induction ws with
  | nil =>
    intro m P clk cnt h hw
    refine ⟨m, none, clk, 0, rfl, by simp, Clock.Later.refl _, by simpa using h, by simp, by simp, by simp⟩
  | cons w ws ih =>
    intro m P clk cnt h hw
    have hwl : w.chars.length < maxLen := hw w (by simp)
    have hws : ∀ w ∈ ws, w.chars.length < maxLen := fun x hx => hw x (by simp [hx])
    simp only [WM.loop]
    generalize hrd : (if cnt % 256 = 0 then clk.read else (false, clk)) = rd
    have hlat : clk.Later rd.2 := by
      rw [← hrd]; split
      · exact Clock.read_later _
      · exact Clock.Later.refl _
    by_cases hr : rd.1 = true
    · rw [if_pos hr]
      refine ⟨m, none, rd.2, 0, rfl, by simp, hlat, by simpa using h, by simp, Or.inr ?_, ?_⟩
      · rw [← hrd] at hr ⊢
        by_cases hc : cnt % 256 = 0
        · rw [if_pos hc] at hr ⊢; exact (Clock.read_true hr).2
        · rw [if_neg hc] at hr; simp at hr
      · intro hc hne _
        rw [← hrd, if_pos hc] at hr
        exact absurd (Clock.read_true hr).1 hne
    · rw [if_neg hr]
      obtain ⟨m', hm', hat⟩ := h.word he w hwl
      rw [hm']
      cases hb : matchB e w with
      | true =>
        refine ⟨m', some w, rd.2, 1, rfl, by simp, hlat, by simpa using hat, by omega, [], by simp, by simp, hb⟩
      | false =>
        obtain ⟨m'', out, clk', k, h1, h2, h3, h4, h5⟩ := ih rd.2 (cnt + 1) hat hws
        refine ⟨m'', out, clk', k + 1, h1, by simpa using h2, hlat.trans h3, ?_, ?_⟩
        · simpa [List.append_assoc] using h4
        · cases out with
          | none =>
            obtain ⟨a, b, c⟩ := h5
            refine ⟨by simp [hb, a], ?_, by intros; omega⟩
            rcases b with b | b
            · left; simp [b]
            · exact Or.inr b
          | some x =>
            obtain ⟨_, pre, a, b, c⟩ := h5
            exact ⟨by omega, w :: pre, by simp [a], by simp [hb, b], c⟩

/-- One call of the word matcher. -/
theorem next_spec {e : Expr} (he : 0 < e.len) {single : Bool} {maxLen : Nat} {m : WM} {P ws : List Word}
    (clk : Clock) (h : WMAt e single maxLen m P) (hw : ∀ w ∈ ws, w.chars.length < maxLen) :
      ∃ m' out clk' k, m.next (P ++ ws) single clk = .ok (m', out, clk') ∧ k ≤ ws.length ∧ clk.Later clk' ∧
        WMAt e single maxLen m' (P ++ ws.take k) ∧
        (match out with
          | none => (ws.take k).filter (matchB e) = [] ∧ (k = ws.length ∨ clk' = some 0) ∧
              (clk ≠ some 0 → ws ≠ [] → 0 < k)
          | some w => 0 < k ∧ ∃ pre, ws.take k = pre ++ [w] ∧ pre.filter (matchB e) = [] ∧ matchB e w = true) := by
  obtain ⟨m', out, clk', k, h1, h2, h3, h4, h5⟩ := loop_spec he ws clk 0 h hw
  refine ⟨m', out, clk', k, ?_, h2, h3, h4, ?_⟩
  · rw [WM.next, h.idx, List.drop_left]; exact h1
  · cases out with
    | none => exact ⟨h5.1, h5.2.1, h5.2.2 rfl⟩
    | some w => exact h5

theorem iterLast_spec {e : Expr} (he : 0 < e.len) {single : Bool} {maxLen : Nat} (n : Nat) :
    ∀ {m : WM} {P ws : List Word} (last : Option Word), WMAt e single maxLen m P →
      (∀ w ∈ ws, w.chars.length < maxLen) → ws.length < n →
      ∃ m', m.iterLast (P ++ ws) single n last = .ok (m', ((ws.filter (matchB e)).getLast?).or last) ∧
        WMAt e single maxLen m' (P ++ ws) := by
  induction n with
  | zero => intro m P ws last h hw hn; omega
  | succ n ih =>
    intro m P ws last h hw hn
    obtain ⟨m', out, clk', k, h1, h2, h3, h4, h5⟩ := next_spec he none h hw
    have hclk : clk' = none := h3
    subst hclk
    simp only [WM.iterLast, h1]
    cases out with
    | none =>
      obtain ⟨a, b, _⟩ := h5
      have hk : k = ws.length := by rcases b with b | b; exact b; simp at b
      subst hk
      simp only [List.take_length] at a h4
      refine ⟨m', ?_, h4⟩
      simp [a]
    | some w =>
      obtain ⟨hk, pre, a, b, c⟩ := h5
      have hsplit : P ++ ws = (P ++ ws.take k) ++ ws.drop k := by
        rw [List.append_assoc, List.take_append_drop]
      obtain ⟨m'', h6, h7⟩ := ih (ws := ws.drop k) (some w) h4
        (fun x hx => hw x (List.mem_of_mem_drop hx)) (by simp; omega)
      refine ⟨m'', ?_, by rw [hsplit]; exact h7⟩
      simp only
      rw [hsplit, h6]
      congr 2
      have : ws.filter (matchB e) = [w] ++ (ws.drop k).filter (matchB e) := by
        conv => lhs; rw [← List.take_append_drop k ws]
        rw [List.filter_append, a, List.filter_append, b]
        simp [c]
      rw [this, List.getLast?_append]
      cases hg : ((ws.drop k).filter (matchB e)).getLast? <;> simp

/-- Draining a matcher over a list that extends what it has processed. -/
theorem drain_spec {e : Expr} (he : 0 < e.len) {single : Bool} {maxLen : Nat} {m : WM} {P ws : List Word}
    (h : WMAt e single maxLen m P) (hw : ∀ w ∈ ws, w.chars.length < maxLen) :
    ∃ m', m.drain (P ++ ws) single = .ok (m', (ws.filter (matchB e)).getLast?) ∧
      WMAt e single maxLen m' (P ++ ws) := by
  obtain ⟨m', h1, h2⟩ := iterLast_spec he ((P ++ ws).length - m.wordIndex + 1) (ws := ws) none h hw
    (by rw [h.idx]; simp)
  refine ⟨m', ?_, h2⟩
  rw [WM.drain, h1]; simp

/-- The alive list only depends on, and is a sublist of, the processed words. -/
theorem WMAt.alive_sub {e single maxLen m P} (h : WMAt e single maxLen m P) : ∀ w ∈ m.alive, w ∈ P := by
  intro w hw
  rw [h.alive] at hw
  exact (List.mem_filter.1 hw).1

end Noodle
